/-!
# Model of the compiler's process graphs

`src/lava/magma/compiler/compiler_graphs.py`. NetworkX itself (`simple_cycles`, `weakly_connected_components`,
`topological_sort`) is not modelled: its results enter as arguments with their documented meaning.
-/

namespace Verif.Graphs

/-! ## find_processes -/

section Find
variable {P : Type} [DecidableEq P]

/-- One turn of the loop over the new processes (compiler_graphs.py:157-160): `rec` is the recursive call. -/
def findStep (rec : P → List P → Option (List P × List P)) (s : List P × List P) (q : P) :
    Option (List P × List P) :=
  if q ∉ s.1 then (rec q s.1).bind fun r => some (r.1, s.2 ++ r.2) else some s

/-- `find_processes` (compiler_graphs.py:106-163). `nbrs p` is the list of processes at the other ends of the
ports of `p` (lines 143-156); `ord` is the iteration order of a Python set, any list with the same
elements. `seen_procs` is one mutable list shared by the recursive calls: the first component of the
result is that list after the call, the second is what the call returns. `none` is RecursionError at the
given limit. -/
def findProcs (nbrs : P → List P) (ord : List P → List P) : Nat → P → List P → Option (List P × List P)
  | 0, _, _ => none
  | lim + 1, p, seen =>
    let seen := seen ++ [p]
    let newList := nbrs p
    ((ord newList).foldlM (findStep (findProcs nbrs ord lim)) (seen, newList)).bind fun s =>
      let seen := s.1 ++ s.2
      some (seen, ord seen)

end Find

/-! ## Directed graphs -/

/-- A NetworkX DiGraph: nodes and edges (only membership matters). -/
structure Dg (α : Type) where
  nodes : List α
  edges : List (α × α)
deriving DecidableEq, Repr

variable {α : Type} [DecidableEq α]

/-- Out degree is not zero. -/
def Dg.hasOut (g : Dg α) (n : α) : Bool := g.edges.any fun e => e.1 = n
/-- In degree is not zero. -/
def Dg.hasIn (g : Dg α) (n : α) : Bool := g.edges.any fun e => e.2 = n

/-- Annotation ISOLATED (compiler_graphs.py:208-210). -/
def Dg.isolated (g : Dg α) (n : α) : Bool := !g.hasOut n && !g.hasIn n
/-- Annotation PUREIN (compiler_graphs.py:208-214): out degree positive, in degree zero. -/
def Dg.pureIn (g : Dg α) (n : α) : Bool := g.hasOut n && !g.hasIn n

/-- `remove_nodes_from`. -/
def Dg.remove (g : Dg α) (l : List α) : Dg α :=
  { nodes := g.nodes.filter fun n => n ∉ l
    edges := g.edges.filter fun e => e.1 ∉ l ∧ e.2 ∉ l }

/-- Leaves of one round of pruning (compiler_graphs.py:250-251). -/
def Dg.leaves (g : Dg α) : List α := g.nodes.filter g.pureIn

theorem remove_lt (g : Dg α) (h : g.leaves ≠ []) : (g.remove g.leaves).nodes.length < g.nodes.length := by
  obtain ⟨x, hx⟩ := List.exists_mem_of_ne_nil _ h
  have hxn : x ∈ g.nodes := (List.mem_filter.1 hx).1
  have hlen : ∀ (l : List α) (q : α → Bool), x ∈ l → q x = false → (l.filter q).length < l.length := by
    intro l q
    induction l with
    | nil => intro h; simp at h
    | cons a l ih =>
      intro hm hq
      rw [List.filter_cons]
      split
      · rename_i ha
        have hne : x ≠ a := by rintro rfl; simp [ha] at hq
        have := ih (by simpa [hne] using hm) hq
        simp only [List.length_cons]; omega
      · have := List.length_filter_le q l
        simp only [List.length_cons]; omega
  exact hlen _ _ hxn (by simpa using hx)

/-- The residual graph of `is_dag`: recursive leaf pruning (compiler_graphs.py:243-257). -/
def Dg.residual (g : Dg α) : Dg α :=
  if h : g.leaves = [] then g else (g.remove g.leaves).residual
termination_by g.nodes.length
decreasing_by exact remove_lt g h

/-- `is_dag` (compiler_graphs.py:225-267): the answer depends on the residual graph only. -/
def Dg.isDag (g : Dg α) : Bool :=
  let r := g.residual
  if r.nodes.length > 1 then r.nodes.all r.isolated else true

/-! ## Collapsing -/

/-- A node of the process graph: the identity of the Python object and the processes in it, in the order in
which `_flatten_node_of_proc_group_digraph` (compiler_graphs.py:1085-1113) lists them. -/
structure Node where
  obj : Nat
  procs : List Nat
deriving DecidableEq, Repr

/-- Successors of `n` outside the subgraph give edges from the new node (compiler_graphs.py:325-330), then `n`
is removed (line 333). -/
def collapseStep (sub : List Node) (new : Node) (g : Dg Node) (n : Node) : Dg Node :=
  let outs := (g.edges.filter fun e => e.1 = n ∧ e.2 ∉ sub).map fun e => (new, e.2)
  let ins := (g.edges.filter fun e => e.2 = n ∧ e.1 ∉ sub).map fun e => (e.1, new)
  let added := outs ++ ins
  let g1 : Dg Node :=
    { nodes := if added.isEmpty ∨ new ∈ g.nodes then g.nodes else g.nodes ++ [new]   -- add_edge adds its nodes
      edges := g.edges ++ added }
  g1.remove [n]

/-- Node made of several nodes, with a fresh object identity. -/
def groupNode (obj : Nat) (sub : List Node) : Node := { obj := obj, procs := sub.flatMap Node.procs }

/-- `collapse_subgraph_to_node` (compiler_graphs.py:269-335) for the subgraph induced by `sub` (as in both
callers); `obj` is the identity of the new node object. `none` is the AssertionError of line 292. For an
induced subgraph the comparison of line 310 holds exactly if the node sets are equal. -/
def collapse (g : Dg Node) (obj : Nat) (sub : List Node) : Option (Dg Node) :=
  if ¬ ∀ n ∈ sub, n ∈ g.nodes then none
  else if sub = [] then some g
  else if sub.length = 1 ∧ (sub.all g.isolated) then some g
  else if ∀ n ∈ g.nodes, n ∈ sub then some { nodes := [groupNode obj g.nodes], edges := [] }
  else some (sub.foldl (collapseStep sub (groupNode obj sub)) g)

/-- Collapse several node sets one after the other: `_collapse_isomodel_procs` (compiler_graphs.py:1055-1083),
where `parts` are the weakly connected components with more than one process of the subgraphs of one model
type each. -/
def collapseAll (obj : Nat) (g : Dg Node) : List (List Node) → Option (Dg Node)
  | [] => some g
  | sub :: rest =>
    match collapse g obj sub with
    | none => none
    | some g' => collapseAll (obj + 1) g' rest

/-- `collapse_cycles_to_nodes` (compiler_graphs.py:337-366). `longest g` is the longest of
`ntx.simple_cycles(g)`, `none` if there is no cycle. `none` as result: not finished within `fuel` rounds. -/
def collapseCycles (longest : Dg Node → Option (List Node)) : Nat → Nat → Dg Node → Option (Dg Node)
  | 0, _, _ => none
  | fuel + 1, obj, g =>
    match longest g with
    | none => some g
    | some c =>
      match collapse g obj c with
      | none => none
      | some g' => collapseCycles longest fuel (obj + 1) g'

/-- `get_proc_groups` (compiler_graphs.py:1115-1143): `topo` is `ntx.topological_sort` of the group graph. -/
def procGroups (topo : List Node) : List (List Nat) := topo.reverse.map Node.procs

/-! ## flatten -/

/-- Nested Python lists. -/
inductive Nested where
  | item (p : Nat)
  | list (l : List Nested)

mutual
/-- `flatten_list_recursive` (compiler_graphs.py:76-97) on the elements of a list. -/
def flattenRec : List Nested → List Nat
  | [] => []
  | .item p :: rest => p :: flattenRec rest
  | .list l :: rest => flattenRec l ++ flattenRec rest
end

/-- A node of the group graph as Python sees it: a process, or a graph of nodes. -/
inductive PyNode where
  | proc (p : Nat)
  | graph (nodes : List PyNode)

mutual
/-- `_flatten_node_of_proc_group_digraph` (compiler_graphs.py:1085-1113). -/
def flattenNode : PyNode → List Nat
  | .proc p => [p]
  | .graph nodes => flattenRec (flattenNodes nodes)
/-- The list comprehension over the nodes of a graph (a list of lists). -/
def flattenNodes : List PyNode → List Nested
  | [] => []
  | n :: ns => .list ((flattenNode n).map .item) :: flattenNodes ns
end

end Verif.Graphs
