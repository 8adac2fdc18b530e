import Verif.Graphs.Collapse

/-!
# C25-C28: process discovery, DAG test, collapsing, compilation order
-/

namespace Verif.Graphs

/-! ## C25 -/

section Find
variable {P : Type} [DecidableEq P]

/-- **C25.** Whatever order Python iterates sets in, `find_processes(p)` returns exactly the processes connected to
`p` by chains of port connections, if it returns. -/
theorem C25_find_processes_exact (nbrs : P → List P) (ord : List P → List P) (hord : ∀ l x, x ∈ ord l ↔ x ∈ l)
    (lim : Nat) (p : P) (seen found : List P) (h : findProcs nbrs ord lim p [] = some (seen, found)) :
    ∀ q, q ∈ found ↔ Conn nbrs p q := by
  have hs := find_spec nbrs ord hord lim p [] _ h
  intro q
  rw [hs.same]
  constructor
  · intro hq; exact hs.sound q hq (by simp)
  · intro hq
    induction hq with
    | refl => exact hs.self
    | step _ h2 ih => exact hs.closed _ ih (by simp) _ h2

/-- **C25.** It does return as soon as the recursion limit is at least the number of processes. -/
theorem C25_find_processes_returns (nbrs : P → List P) (ord : List P → List P) (hord : ∀ l x, x ∈ ord l ↔ x ∈ l)
    (univ : List P) (hcl : ∀ x ∈ univ, ∀ y ∈ nbrs x, y ∈ univ) (lim : Nat) (p : P) (hp : p ∈ univ)
    (hlim : univ.length ≤ lim) : ∃ r, findProcs nbrs ord lim p [] = some r :=
  find_returns nbrs ord hord univ hcl lim p [] hp (by simp) (by simpa using hlim)

/-- **C25.** No process is listed twice, since the result is a set turned into a list. -/
theorem C25_find_processes_nodup (nbrs : P → List P) (ord : List P → List P) (hnd : ∀ l, (ord l).Nodup)
    (lim : Nat) (p : P) (seen found : List P) (h : findProcs nbrs ord lim p [] = some (seen, found)) :
    found.Nodup := by
  cases lim with
  | zero => simp [findProcs] at h
  | succ lim =>
    rw [findProcs] at h
    simp only at h
    cases hf : (ord (nbrs p)).foldlM (findStep (findProcs nbrs ord lim)) ([] ++ [p], nbrs p) with
    | none => rw [hf] at h; simp at h
    | some s =>
      rw [hf] at h
      simp only [Option.bind_some, Option.some.injEq, Prod.mk.injEq] at h
      rw [← h.2]; exact hnd _

/-- The search finds the same processes from every process of the network if connections are seen from both
ends. -/
theorem C25_find_processes_same_network (nbrs : P → List P) (ord : List P → List P)
    (hord : ∀ l x, x ∈ ord l ↔ x ∈ l) (hsym : ∀ x y, y ∈ nbrs x → x ∈ nbrs y)
    (lim lim' : Nat) (p q : P) (s f s' f' : List P) (h : findProcs nbrs ord lim p [] = some (s, f))
    (h' : findProcs nbrs ord lim' q [] = some (s', f')) (hq : q ∈ f) : ∀ x, x ∈ f ↔ x ∈ f' := by
  have e := C25_find_processes_exact nbrs ord hord lim p s f h
  have e' := C25_find_processes_exact nbrs ord hord lim' q s' f' h'
  have hpq := (e q).1 hq
  have tr : ∀ {a b c}, Conn nbrs a b → Conn nbrs b c → Conn nbrs a c := by
    intro a b c h1 h2
    induction h2 with
    | refl => exact h1
    | step _ h ih => exact .step ih h
  have sy : ∀ {a b}, Conn nbrs a b → Conn nbrs b a := by
    intro a b h
    induction h with
    | refl => exact .refl _
    | step _ h ih => exact Conn.head (hsym _ _ h) ih
  intro x
  rw [e, e']
  exact ⟨fun h => tr (sy hpq) h, fun h => tr hpq h⟩

end Find

/-- Four processes: 0 – 1 – 2 in a ring with 0, and 3 apart. -/
def exNbrs : Nat → List Nat := fun p => if p = 0 then [1, 2] else if p = 1 then [0, 2, 2] else if p = 2 then [1, 0] else []

example : (findProcs exNbrs List.eraseDups 5 0 []).map (·.2) = some [0, 1, 2] := by decide
example : (findProcs exNbrs List.eraseDups 5 2 []).map (·.2) = some [2, 1, 0] := by decide
/-- The recursion limit matters: with limit 1 the ring raises RecursionError. -/
example : findProcs exNbrs List.eraseDups 1 0 [] = none := by decide

/-! ## C26 -/

section Dag
variable {α : Type} [DecidableEq α]

/-- **C26.** If `is_dag` says no, the graph has a directed cycle. -/
theorem C26_false_means_cycle (g : Dg α) (hw : g.WF) (h : g.isDag = false) : ¬ g.Acyclic := by
  obtain ⟨h1, h2, h3, _, _⟩ := residual_spec g hw
  rw [← h3]
  simp only [Dg.isDag] at h
  split at h
  · have : ∃ n ∈ g.residual.nodes, g.residual.isolated n = false := by simpa using h
    obtain ⟨n, hn, hiso⟩ := this
    have hedge : ∃ a b, g.residual.Edge a b := by
      simp only [Dg.isolated, Bool.and_eq_false_iff, Bool.not_eq_false'] at hiso
      rcases hiso with h | h
      · obtain ⟨m, hm⟩ := hasOut_iff.1 h; exact ⟨_, _, hm⟩
      · obtain ⟨m, hm⟩ := hasIn_iff.1 h; exact ⟨_, _, hm⟩
    obtain ⟨a, b, hab⟩ := hedge
    obtain ⟨x, hx⟩ := cycle_of_no_leaves h1 h2 hab
    exact fun hac => hac x hx
  · cases h

/-- **C26, what holds of the converse.** In a graph without self loops `is_dag` says yes exactly if there is no
directed cycle. Missing: graphs with self loops, see `C26_witness_self_loop`. -/
theorem C26_is_dag_iff_acyclic_partial (g : Dg α) (hw : g.WF) (hself : ∀ a, ¬ g.Edge a a) :
    g.isDag = true ↔ g.Acyclic := by
  constructor
  · intro h
    obtain ⟨h1, h2, h3, _, h5⟩ := residual_spec g hw
    rw [← h3]
    simp only [Dg.isDag] at h
    have hno : ∀ a b, ¬ g.residual.Edge a b := by
      intro a b hab
      have hne : a ≠ b := by rintro rfl; exact hself _ (h5 _ _ hab)
      have ha := (h1 _ hab).1
      have hb := (h1 _ hab).2
      have hlen : g.residual.nodes.length > 1 := by
        have hnd : [a, b].Nodup := by simp [hne]
        have hsub : [a, b] ⊆ g.residual.nodes := by
          intro x hx
          simp only [List.mem_cons, List.not_mem_nil, or_false] at hx
          rcases hx with rfl | rfl
          · exact ha
          · exact hb
        have := (List.subperm_of_subset hnd hsub).length_le
        simp only [List.length_cons, List.length_nil] at this
        omega
      rw [if_pos hlen] at h
      have := List.all_eq_true.1 h a ha
      simp only [Dg.isolated, Bool.and_eq_true, Bool.not_eq_true'] at this
      have h6 := hasOut_iff.2 ⟨b, hab⟩
      rw [h6] at this
      exact absurd this.1 (by simp)
    intro n hn
    obtain ⟨c, hc⟩ := trans_last hn
    exact hno _ _ hc
  · intro h
    cases hd : g.isDag with
    | true => rfl
    | false => exact absurd h (C26_false_means_cycle g hw hd)

end Dag

/-- A diamond is a DAG, a triangle with a tail is not. -/
def exDag : Dg Nat := ⟨[0, 1, 2, 3], [(0, 1), (0, 2), (1, 3), (2, 3)]⟩
def exCyc : Dg Nat := ⟨[0, 1, 2, 3], [(0, 1), (1, 2), (2, 0), (3, 0)]⟩

theorem exDag_residual : exDag.residual = ⟨[3], []⟩ := by
  have h1 : exDag.remove exDag.leaves = ⟨[1, 2, 3], [(1, 3), (2, 3)]⟩ := by decide
  have h2 : (⟨[1, 2, 3], [(1, 3), (2, 3)]⟩ : Dg Nat).remove
      (⟨[1, 2, 3], [(1, 3), (2, 3)]⟩ : Dg Nat).leaves = ⟨[3], []⟩ := by decide
  rw [Dg.residual, dif_neg (by decide), h1, Dg.residual, dif_neg (by decide), h2, Dg.residual, dif_pos (by decide)]

example : exDag.isDag = true ∧ exDag.WF ∧ (∀ a ∈ exDag.nodes, ¬ exDag.Edge a a) := by
  refine ⟨?_, by unfold Dg.WF; decide, by unfold Dg.Edge; decide⟩
  simp only [Dg.isDag, exDag_residual]; decide

example : exCyc.isDag = false := by
  have h1 : exCyc.remove exCyc.leaves = ⟨[0, 1, 2], [(0, 1), (1, 2), (2, 0)]⟩ := by decide
  have : exCyc.residual = ⟨[0, 1, 2], [(0, 1), (1, 2), (2, 0)]⟩ := by
    rw [Dg.residual, dif_neg (by decide), h1, Dg.residual, dif_pos (by decide)]
  simp only [Dg.isDag, this]; decide

/-- **C26, finding.** A process connected to itself is a cycle, but `is_dag` says the graph is a DAG. -/
theorem C26_witness_self_loop :
    ∃ g : Dg Nat, g.WF ∧ g.isDag = true ∧ ¬ g.Acyclic := by
  refine ⟨⟨[0], [(0, 0)]⟩, by unfold Dg.WF; decide, ?_, ?_⟩
  · have : (⟨[0], [(0, 0)]⟩ : Dg Nat).residual = ⟨[0], [(0, 0)]⟩ := by
      rw [Dg.residual, dif_pos (by decide)]
    simp only [Dg.isDag, this]; decide
  · intro h
    exact h 0 (.single (by decide : ((0 : Nat), (0 : Nat)) ∈ [((0 : Nat), (0 : Nat))]))

/-! ## C27 -/

/-- **C27, for networks in one piece.** Collapsing the components of each model type and then the cycles always
succeeds (the loop ends), loses and duplicates no process, keeps exactly the connections between different
groups, and gives a graph without cycles. `parts` are the components found by NetworkX (disjoint sets of
nodes), `longest` its cycle search. Missing: networks in several pieces, see `C27_witness_component_lost`. -/
theorem C27_collapse_groups_partial (g0 : Dg Nat) (h0 : g0.WF) (hnd : g0.nodes.Nodup) (hconn : Connected g0)
    (k : Nat) (hk : ∀ p ∈ g0.nodes, p < k) (parts : List (List Node)) (hpn : parts.flatten.Nodup)
    (hps : ∀ sub ∈ parts, ∀ n ∈ sub, n ∈ (ofProcs g0).nodes)
    (longest : Dg Node → Option (List Node)) (hl : FindsCycle longest) :
    ∃ g1, collapseAll k (ofProcs g0) parts = some g1 ∧ Grouping g0 g1 ∧
      ∀ fuel, mass g1 < fuel → ∃ g2, collapseCycles longest fuel (k + parts.length) g1 = some g2 ∧
        Grouping g0 g2 ∧ g2.Acyclic := by
  obtain ⟨g1, h1, hi⟩ := collapseAll_inv h0 hnd hconn parts k (ofProcs g0) (ofProcs_inv g0 h0 k hk) hpn hps
  exact ⟨g1, h1, hi.toGrouping, fun fuel hf => collapseCycles_inv h0 hnd hconn hl fuel _ g1 hi hf⟩

/-- **C27, for networks in one piece.** `collapse_cycles_to_nodes` puts two processes in the same node exactly if
they are on a common cycle (or the same). -/
theorem C27_groups_are_cycles_partial (g0 : Dg Nat) (h0 : g0.WF) (hnd : g0.nodes.Nodup) (hconn : Connected g0)
    (k : Nat) (hk : ∀ p ∈ g0.nodes, p < k)
    (longest : Dg Node → Option (List Node)) (hl : FindsCycle longest) (fuel : Nat) (hf : 2 * g0.nodes.length < fuel) :
    ∃ g2, collapseCycles longest fuel k (ofProcs g0) = some g2 ∧
      ∀ a ∈ g0.nodes, ∀ b ∈ g0.nodes, (∃ A ∈ g2.nodes, a ∈ A.procs ∧ b ∈ A.procs) ↔ Mutual g0 a b := by
  have hi := ofProcs_inv g0 h0 k hk
  have hmass : mass (ofProcs g0) < fuel := by
    have h1 := List.length_filter_le (fun n => decide ((n, n) ∈ (ofProcs g0).edges)) (ofProcs g0).nodes
    have h2 : (ofProcs g0).nodes.length = g0.nodes.length := by simp [ofProcs]
    simp only [mass]; omega
  obtain ⟨g2, h2, hg, hac⟩ := collapseCycles_inv h0 hnd hconn hl fuel k _ hi hmass
  have hmut := collapseCycles_mutual h0 hnd hconn hl fuel k _ g2 hi (by
    intro A hA a ha b hb
    simp only [ofProcs, List.mem_map] at hA
    obtain ⟨p, _, rfl⟩ := hA
    simp only [List.mem_singleton] at ha hb
    subst ha hb
    exact ⟨.refl, .refl⟩) h2
  refine ⟨g2, h2, ?_⟩
  intro a ha b hb
  constructor
  · rintro ⟨A, hA, h3, h4⟩; exact hmut A hA a h3 b h4
  · intro hm
    obtain ⟨A, hA, haA⟩ := hg.exists_node ha
    obtain ⟨B, hB, hbB⟩ := hg.exists_node hb
    have : A = B := acyclic_no_mutual hac
      ⟨path_lift hg h0 hnd hm.1 hA haA hB hbB, path_lift hg h0 hnd hm.2 hB hbB hA haA⟩
    subst this
    exact ⟨A, hA, haA, hbB⟩

/-- A ring 0 → 1 → 0 feeding 2, which feeds itself: in one piece. -/
def exRing : Dg Nat := ⟨[0, 1, 2], [(0, 1), (1, 0), (1, 2), (2, 2)]⟩

theorem exRing_ok : exRing.WF ∧ exRing.nodes.Nodup ∧ Connected exRing := by
  refine ⟨by unfold Dg.WF; decide, by decide, ?_⟩
  intro S h1 h2
  have e1 : exRing.Edge 0 1 := by unfold Dg.Edge; decide
  have e2 : exRing.Edge 1 2 := by unfold Dg.Edge; decide
  simp only [exRing, List.mem_cons, List.not_mem_nil, or_false, exists_eq_or_imp, exists_eq_left] at h1 h2
  by_cases s0 : S 0 <;> by_cases s1 : S 1 <;> by_cases s2 : S 2 <;> simp only [s0, s1, s2] at h1 h2
  all_goals first
    | exact ⟨0, 1, e1, by tauto⟩
    | exact ⟨1, 2, e2, by tauto⟩

example : ∃ longest, FindsCycle longest := findsCycle_exists

/-- On the ring: first the cycle 0, 1, then the self loop of 2. -/
def exLongest : Dg Node → Option (List Node) := fun g =>
  if (⟨0, [0]⟩ : Node) ∈ g.nodes then some [⟨0, [0]⟩, ⟨1, [1]⟩]
  else if ((⟨2, [2]⟩, ⟨2, [2]⟩) : Node × Node) ∈ g.edges then some [⟨2, [2]⟩] else none

example : (collapseCycles exLongest 9 3 (ofProcs exRing)).map (fun g => (g.nodes.map Node.procs, g.edges.map
    fun e => (e.1.procs, e.2.procs))) = some ([[0, 1], [2]], [([0, 1], [2])]) := by decide

/-- **C27, finding.** Two pairs of processes of the same model type that are not connected with each other: the
first pair is lost when it is collapsed, so the compiler never sees these processes. -/
theorem C27_witness_component_lost :
    ∃ (g0 : Dg Nat) (parts : List (List Node)), g0.WF ∧ g0.nodes.Nodup ∧ parts.flatten.Nodup ∧
      (∀ sub ∈ parts, ∀ n ∈ sub, n ∈ (ofProcs g0).nodes) ∧ 0 ∈ g0.nodes ∧
      ∀ g1, collapseAll 4 (ofProcs g0) parts = some g1 → ∀ A ∈ g1.nodes, 0 ∉ A.procs := by
  refine ⟨⟨[0, 1, 2, 3], [(0, 1), (2, 3)]⟩, [[⟨0, [0]⟩, ⟨1, [1]⟩], [⟨2, [2]⟩, ⟨3, [3]⟩]],
    by unfold Dg.WF; decide, by decide, by decide, by decide, by decide, ?_⟩
  intro g1 h
  have : collapseAll 4 (ofProcs ⟨[0, 1, 2, 3], [(0, 1), (2, 3)]⟩)
      [[⟨0, [0]⟩, ⟨1, [1]⟩], [⟨2, [2]⟩, ⟨3, [3]⟩]] = some ⟨[⟨5, [2, 3]⟩], []⟩ := by decide
  rw [this] at h
  cases h
  decide

/-! ## C28 -/

/-- Specification of `topological_sort`: every node once, edges forward. -/
structure IsTopo (g : Dg Node) (topo : List Node) : Prop where
  perm : topo.Perm g.nodes
  forward : ∀ i j (hi : i < topo.length) (hj : j < topo.length), g.Edge topo[i] topo[j] → i < j

/-- **C28, for networks in one piece.** The process groups contain every process of the network exactly once. -/
theorem C28_each_process_once_partial (g0 : Dg Nat) (g : Dg Node) (hg : Grouping g0 g) (topo : List Node)
    (ht : IsTopo g topo) : (procGroups topo).flatten.Perm g0.nodes := by
  have h1 : (procGroups topo).flatten = topo.reverse.flatMap Node.procs := by
    simp [procGroups, List.flatMap]
  rw [h1]
  exact (((List.reverse_perm topo).trans ht.perm).flatMap_right _).trans hg.perm

/-- **C28, for networks in one piece.** If a process sends to a process of another group, the receiving group is
compiled first. -/
theorem C28_receivers_first_partial (g0 : Dg Nat) (g : Dg Node) (hg : Grouping g0 g) (topo : List Node)
    (ht : IsTopo g topo) (i j : Nat) (hi : i < (procGroups topo).length) (hj : j < (procGroups topo).length)
    (a b : Nat) (ha : a ∈ (procGroups topo)[i]) (hb : b ∈ (procGroups topo)[j]) (hab : g0.Edge a b)
    (hne : i ≠ j) (hnd : g0.nodes.Nodup) : j < i := by
  have hlen : (procGroups topo).length = topo.length := by simp [procGroups]
  rw [hlen] at hi hj
  have hti : (procGroups topo)[i] = (topo[topo.length - 1 - i]'(by omega)).procs := by
    simp [procGroups, List.getElem_reverse]
  have htj : (procGroups topo)[j] = (topo[topo.length - 1 - j]'(by omega)).procs := by
    simp [procGroups, List.getElem_reverse]
  rw [hti] at ha
  rw [htj] at hb
  have htn : topo.Nodup := ht.perm.nodup_iff.2 (hg.nodup hnd)
  have hA := ht.perm.subset (List.getElem_mem (l := topo) (n := topo.length - 1 - i) (by omega))
  have hB := ht.perm.subset (List.getElem_mem (l := topo) (n := topo.length - 1 - j) (by omega))
  have hAB : topo[topo.length - 1 - i]'(by omega) ≠ topo[topo.length - 1 - j]'(by omega) := by
    intro h
    have := (htn.getElem_inj_iff).1 h
    omega
  have := ht.forward _ _ (by omega) (by omega) (hg.complete _ hA _ hB hAB a ha b hb hab)
  omega

/-- **C28, for networks in one piece, end to end.** From the process graph to the list of groups: whatever cycles and
topological order NetworkX picks, the compiler gets every process exactly once, and a process never after a
process of another group that sends to it. -/
theorem C28_compile_order_partial (g0 : Dg Nat) (h0 : g0.WF) (hnd : g0.nodes.Nodup) (hconn : Connected g0)
    (k : Nat) (hk : ∀ p ∈ g0.nodes, p < k) (parts : List (List Node)) (hpn : parts.flatten.Nodup)
    (hps : ∀ sub ∈ parts, ∀ n ∈ sub, n ∈ (ofProcs g0).nodes)
    (longest : Dg Node → Option (List Node)) (hl : FindsCycle longest) :
    ∃ g1, collapseAll k (ofProcs g0) parts = some g1 ∧
      ∀ fuel, mass g1 < fuel → ∃ g2, collapseCycles longest fuel (k + parts.length) g1 = some g2 ∧ g2.Acyclic ∧
        ∀ topo, IsTopo g2 topo → (procGroups topo).flatten.Perm g0.nodes ∧
          ∀ i j (hi : i < (procGroups topo).length) (hj : j < (procGroups topo).length), i ≠ j →
            ∀ a ∈ (procGroups topo)[i], ∀ b ∈ (procGroups topo)[j], g0.Edge a b → j < i := by
  obtain ⟨g1, h1, _, h2⟩ := C27_collapse_groups_partial g0 h0 hnd hconn k hk parts hpn hps longest hl
  refine ⟨g1, h1, fun fuel hf => ?_⟩
  obtain ⟨g2, h3, hg, hac⟩ := h2 fuel hf
  refine ⟨g2, h3, hac, fun topo ht => ⟨C28_each_process_once_partial g0 g2 hg topo ht, ?_⟩⟩
  intro i j hi hj hne a ha b hb hab
  exact C28_receivers_first_partial g0 g2 hg topo ht i j hi hj a b ha hb hab hne hnd

/-- Leaves of a nested node, from left to right. -/
inductive LeafOf : PyNode → Nat → Prop where
  | proc (p) : LeafOf (.proc p) p
  | graph {nodes n p} : n ∈ nodes → LeafOf n p → LeafOf (.graph nodes) p

theorem flattenRec_items (l : List Nat) (rest : List Nested) :
    flattenRec (.list (l.map .item) :: rest) = l ++ flattenRec rest := by
  rw [flattenRec]
  congr 1
  induction l with
  | nil => simp [flattenRec]
  | cons a l ih => simp [flattenRec, ih]

mutual
theorem flattenNode_mem (n : PyNode) (p : Nat) : p ∈ flattenNode n ↔ LeafOf n p := by
  match n with
  | .proc q =>
    simp only [flattenNode, List.mem_singleton]
    exact ⟨fun h => h ▸ .proc _, fun h => by cases h; rfl⟩
  | .graph nodes =>
    rw [flattenNode, flattenNodes_mem nodes p]
    exact ⟨fun ⟨m, hm, hp⟩ => .graph hm hp, fun h => by cases h with | graph hm hp => exact ⟨_, hm, hp⟩⟩
theorem flattenNodes_mem (ns : List PyNode) (p : Nat) : p ∈ flattenRec (flattenNodes ns) ↔ ∃ n ∈ ns, LeafOf n p := by
  match ns with
  | [] => simp [flattenNodes, flattenRec]
  | n :: ns =>
    rw [flattenNodes, flattenRec_items, List.mem_append, flattenNode_mem n p, flattenNodes_mem ns p]
    simp
end

/-- **C28.** Flattening a node nested to any depth gives exactly the processes in it. -/
theorem C28_flatten_exact (n : PyNode) (p : Nat) : p ∈ flattenNode n ↔ LeafOf n p := flattenNode_mem n p

/-- **C28.** Flattening a node made of nodes is the concatenation of their flattenings, which is how the model
represents the processes of a collapsed node (`groupNode`). -/
theorem C28_flatten_group (ns : List PyNode) : flattenNode (.graph ns) = ns.flatMap flattenNode := by
  rw [flattenNode]
  induction ns with
  | nil => simp [flattenNodes, flattenRec]
  | cons n ns ih => rw [flattenNodes, flattenRec_items, ih]; rfl

example : flattenNode (.graph [.proc 1, .graph [.proc 2, .graph [.proc 3]], .graph [], .proc 4]) = [1, 2, 3, 4] := by
  simp [flattenNode, flattenNodes, flattenRec]

/-- The whole pipeline on the ring: the group of 2 is compiled before the group of 0 and 1. -/
example : IsTopo ⟨[⟨3, [0, 1]⟩, ⟨4, [2]⟩], [(⟨3, [0, 1]⟩, ⟨4, [2]⟩)]⟩ [⟨3, [0, 1]⟩, ⟨4, [2]⟩] ∧
    procGroups [⟨3, [0, 1]⟩, ⟨4, [2]⟩] = [[2], [0, 1]] := by
  refine ⟨⟨.refl _, ?_⟩, rfl⟩
  intro i j hi hj h
  simp only [List.length_cons, List.length_nil] at hi hj
  have hi' : i = 0 ∨ i = 1 := by omega
  have hj' : j = 0 ∨ j = 1 := by omega
  rcases hi' with rfl | rfl <;> rcases hj' with rfl | rfl <;> simp [Dg.Edge] at h ⊢

end Verif.Graphs
