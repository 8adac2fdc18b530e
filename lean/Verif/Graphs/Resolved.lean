import Verif.PortGraph.Props
import Verif.PortGraph.Shapes

/-!
# Model of the graph of connected processes

`src/lava/magma/compiler/compiler_graphs.py:369-525` (`ProcDiGraph`): the edges between processes, found by following the connections of
their ports, over the port graph of `Verif.PortGraph`. `own p` is the process that a (not virtual) port belongs to.
Not modelled: node names and the annotation of nodes by degree.
-/

namespace Verif.Graphs

open Verif.PortGraph

/-- `in_connections` or `out_connections` of a port (compiler_graphs.py:462). -/
def conns (g : G) (outward : Bool) (p : Nat) : List Nat := if outward then (g.port p).outs else (g.port p).ins

/-- `_parent_port` of a virtual port (ports.py:832-835): IndexError if nothing feeds it. -/
def parentPort (g : G) (lim p : Nat) : Option Nat := (srcPorts g false lim p).bind List.head?

/-- Direction of a port that is not virtual (compiler_graphs.py:425-428); true is "outward". -/
def realDir (k : Kind) : Option Bool :=
  if k.isDst then some false else if k.isSrc then some true else none

/-- `_get_port_direction` (compiler_graphs.py:410-433); `none` is an exception. -/
def portDir (g : G) (lim p : Nat) : Option Bool :=
  if (g.port p).kind.isVirtual then (parentPort g lim p).bind fun s => realDir (g.port s).kind
  else realDir (g.port p).kind

/-- `port.process`; for a virtual port the process of its parent port (ports.py:837-841). -/
def procOf (g : G) (lim : Nat) (own : Nat → Nat) (p : Nat) : Option Nat :=
  if (g.port p).kind.isVirtual then (parentPort g lim p).map own else some (own p)

/-- The body of the inner loop of `_find_terminal_procs_recursively` (compiler_graphs.py:466-487): what is added for connection `c` of
port `p`; `rec` is the recursive call. -/
def hop (g : G) (lim : Nat) (own : Nat → Nat) (outward : Bool) (rec : List Nat → Option (List Nat)) (pd : Bool) (c : Nat) :
    Option (List Nat) :=
  (portDir g lim c).bind fun cd =>
    if (conns g outward c).length > 0 then rec [c]
    else if pd = cd ∧ pd = outward then some []
    else (procOf g lim own c).map fun x => [x]

/-- `_find_terminal_procs_recursively` (compiler_graphs.py:436-489); `none` is an exception (RecursionError at limit `fuel`). -/
def follow (g : G) (lim : Nat) (own : Nat → Nat) (outward : Bool) : Nat → List Nat → Option (List Nat)
  | 0, _ => none
  | fuel + 1, ports =>
    ports.foldlM (fun acc p =>
      ((portDir g lim p).bind fun pd =>
        (conns g outward p).foldlM (fun acc c => (hop g lim own outward (follow g lim own outward fuel) pd c).map (acc ++ ·)) []).map
          (acc ++ ·)) []

/-- Edges that the constructor adds for one process (compiler_graphs.py:395-405, 492-525); `ports a` are the ports of process `a`. -/
def procEdges (g : G) (lim fuel : Nat) (own : Nat → Nat) (ports : Nat → List Nat) (a : Nat) : Option (List (Nat × Nat)) :=
  (follow g lim own false fuel ((ports a).filter fun p => (g.port p).kind.isDst)).bind fun ins =>
    (follow g lim own true fuel ((ports a).filter fun p => (g.port p).kind.isSrc)).map fun outs =>
      ins.map (fun x => (x, a)) ++ outs.map (fun x => (a, x))

/-- The edges of the graph of processes (compiler_graphs.py:383-407). -/
def procGraph (g : G) (lim fuel : Nat) (own : Nat → Nat) (ports : Nat → List Nat) (procs : List Nat) : Option (List (Nat × Nat)) :=
  procs.foldlM (fun acc a => (procEdges g lim fuel own ports a).map (acc ++ ·)) []

/-! ## Specification -/

/-- A path of zero or more connections. -/
inductive Path (g : G) (outward : Bool) : Nat → Nat → Prop where
  | refl (p) : Path g outward p p
  | step {p c q} : c ∈ conns g outward p → Path g outward c q → Path g outward p q

/-- Following the connections of `p`, the search ends in a port `t` of process `b`, through a last connection `m`, `t` that is not a wall. -/
def Hit (g : G) (lim : Nat) (own : Nat → Nat) (outward : Bool) (p b : Nat) : Prop :=
  ∃ m t, Path g outward p m ∧ t ∈ conns g outward m ∧ conns g outward t = [] ∧
    ¬ (portDir g lim m = some outward ∧ portDir g lim t = some outward) ∧ procOf g lim own t = some b

theorem hit_cases (g : G) (lim : Nat) (own : Nat → Nat) (outward : Bool) (p b : Nat) :
    Hit g lim own outward p b ↔ ∃ c ∈ conns g outward p,
      (conns g outward c ≠ [] ∧ Hit g lim own outward c b) ∨
      (conns g outward c = [] ∧ ¬ (portDir g lim p = some outward ∧ portDir g lim c = some outward) ∧ procOf g lim own c = some b) := by
  constructor
  · rintro ⟨m, t, hpath, ht, hend, hw, hb⟩
    cases hpath with
    | refl => exact ⟨t, ht, Or.inr ⟨hend, hw, hb⟩⟩
    | @step _ c _ hc hpath =>
      refine ⟨c, hc, Or.inl ⟨?_, m, t, hpath, ht, hend, hw, hb⟩⟩
      intro h0
      cases hpath with
      | refl => rw [h0] at ht; simp at ht
      | step h1 _ => rw [h0] at h1; simp at h1
  · rintro ⟨c, hc, ⟨_, m, t, hpath, h⟩ | ⟨h1, h2, h3⟩⟩
    · exact ⟨m, t, .step hc hpath, h⟩
    · exact ⟨p, c, .refl _, hc, h1, h2, h3⟩

/-- The search finds exactly the processes at the ends of the paths. -/
theorem follow_mem (g : G) (lim : Nat) (own : Nat → Nat) (outward : Bool) (fuel : Nat) : ∀ (ports l : List Nat),
    follow g lim own outward fuel ports = some l → ∀ b, b ∈ l ↔ ∃ p ∈ ports, Hit g lim own outward p b := by
  induction fuel with
  | zero => intro ports l h; simp [follow] at h
  | succ fuel ih =>
    intro ports l h b
    rw [follow] at h
    rw [PortGraph.foldlM_append _ _ _ h b]
    have hvisit : ∀ p s, ((portDir g lim p).bind fun pd => (conns g outward p).foldlM
          (fun acc c => (hop g lim own outward (follow g lim own outward fuel) pd c).map (acc ++ ·)) []) = some s →
        (b ∈ s ↔ Hit g lim own outward p b) := by
      intro p s hs
      obtain ⟨pd, hpd, hs⟩ := Option.bind_eq_some_iff.1 hs
      rw [PortGraph.foldlM_append _ _ _ hs b, hit_cases]
      have hhop : ∀ c s', hop g lim own outward (follow g lim own outward fuel) pd c = some s' → (b ∈ s' ↔
          (conns g outward c ≠ [] ∧ Hit g lim own outward c b) ∨
          (conns g outward c = [] ∧ ¬ (portDir g lim p = some outward ∧ portDir g lim c = some outward) ∧
            procOf g lim own c = some b)) := by
        intro c s' hc
        unfold hop at hc
        obtain ⟨cd, hcd, hc⟩ := Option.bind_eq_some_iff.1 hc
        by_cases h0 : conns g outward c = []
        · simp only [h0, List.length_nil, gt_iff_lt, Nat.lt_irrefl, if_false] at hc
          simp only [h0, ne_eq, not_true, false_and, false_or, true_and, hpd, hcd, Option.some.injEq]
          by_cases hw : pd = cd ∧ pd = outward
          · rw [if_pos hw] at hc
            simp only [Option.some.injEq] at hc
            subst hc
            obtain ⟨rfl, rfl⟩ := hw
            simp
          · rw [if_neg hw] at hc
            obtain ⟨x, hx, rfl⟩ := Option.map_eq_some_iff.1 hc
            have hne : ¬ (pd = outward ∧ cd = outward) := by rintro ⟨rfl, rfl⟩; exact hw ⟨rfl, rfl⟩
            simp only [List.mem_singleton, hx, Option.some.injEq, hne, not_false_eq_true, true_and]
            exact eq_comm
        · have hlen : (conns g outward c).length > 0 := List.length_pos_iff.2 h0
          rw [if_pos hlen] at hc
          rw [ih [c] s' hc b]
          simp [h0]
      constructor
      · rintro (h1 | ⟨c, hc, s', hs', hb⟩)
        · simp at h1
        · exact ⟨c, hc, (hhop c s' hs').1 hb⟩
      · rintro ⟨c, hc, hb⟩
        obtain ⟨s', hs'⟩ := PortGraph.foldlM_each _ _ _ hs c hc
        exact Or.inr ⟨c, hc, s', hs', (hhop c s' hs').2 hb⟩
    constructor
    · rintro (h1 | ⟨p, hp, s, hs, hb⟩)
      · simp at h1
      · exact ⟨p, hp, (hvisit p s hs).1 hb⟩
    · rintro ⟨p, hp, hb⟩
      obtain ⟨s, hs⟩ := PortGraph.foldlM_each _ _ _ h p hp
      exact Or.inr ⟨p, hp, s, hs, (hvisit p s hs).2 hb⟩

theorem foldlM_append' {α β : Type} {f : α → Option (List β)} (l : List α) : ∀ (acc r : List β),
    l.foldlM (fun acc q => (f q).map (acc ++ ·)) acc = some r → ∀ x, x ∈ r ↔ x ∈ acc ∨ ∃ q ∈ l, ∃ s, f q = some s ∧ x ∈ s := by
  induction l with
  | nil => intro acc r h; simp at h; subst h; simp
  | cons q l ih =>
    intro acc r h
    simp only [List.foldlM_cons] at h
    cases hq : f q with
    | none => simp [hq] at h
    | some s =>
      simp only [hq, Option.map_some, Option.bind_eq_bind, Option.bind_some] at h
      intro x
      rw [ih _ _ h x]
      simp only [List.mem_append, List.mem_cons]
      constructor
      · rintro ((h1 | h1) | ⟨q', hq', s', h1, h2⟩)
        · exact .inl h1
        · exact .inr ⟨q, .inl rfl, s, hq, h1⟩
        · exact .inr ⟨q', .inr hq', s', h1, h2⟩
      · rintro (h1 | ⟨q', rfl | hq', s', h1, h2⟩)
        · exact .inl (.inl h1)
        · rw [hq] at h1; cases h1; exact .inl (.inr h2)
        · exact .inr ⟨q', hq', s', h1, h2⟩

theorem foldlM_each' {α β : Type} {f : α → Option (List β)} (l : List α) : ∀ (acc r : List β),
    l.foldlM (fun acc q => (f q).map (acc ++ ·)) acc = some r → ∀ q ∈ l, ∃ s, f q = some s := by
  induction l with
  | nil => simp
  | cons q l ih =>
    intro acc r h
    simp only [List.foldlM_cons] at h
    cases hq : f q with
    | none => simp [hq] at h
    | some s =>
      simp only [hq, Option.map_some, Option.bind_eq_bind, Option.bind_some] at h
      intro x hx
      simp only [List.mem_cons] at hx
      rcases hx with rfl | hx
      · exact ⟨s, hq⟩
      · exact ih _ _ h x hx

/-! ## Theorems -/

/-- **C84.** Whenever the graph of processes is built, its edges are: `(a, b)` with `a` in the given list and a search from an OutPort or
RefPort of `a` along outgoing connections that ends in a port of `b`; and `(a, b)` with `b` in the list and a search from an InPort or
VarPort of `b` along incoming connections that ends in a port of `a`. -/
theorem C84_edges (g : G) (lim fuel : Nat) (own : Nat → Nat) (ports : Nat → List Nat) (procs : List Nat) (E : List (Nat × Nat))
    (h : procGraph g lim fuel own ports procs = some E) (a b : Nat) :
    (a, b) ∈ E ↔ (a ∈ procs ∧ ∃ p ∈ ports a, (g.port p).kind.isSrc = true ∧ Hit g lim own true p b) ∨
      (b ∈ procs ∧ ∃ p ∈ ports b, (g.port p).kind.isDst = true ∧ Hit g lim own false p a) := by
  unfold procGraph at h
  rw [foldlM_append' _ _ _ h (a, b)]
  have hone : ∀ x s, procEdges g lim fuel own ports x = some s → ((a, b) ∈ s ↔
      (b = x ∧ ∃ p ∈ ports x, (g.port p).kind.isDst = true ∧ Hit g lim own false p a) ∨
      (a = x ∧ ∃ p ∈ ports x, (g.port p).kind.isSrc = true ∧ Hit g lim own true p b)) := by
    intro x s hs
    unfold procEdges at hs
    obtain ⟨ins, hi, hs⟩ := Option.bind_eq_some_iff.1 hs
    obtain ⟨outs, ho, rfl⟩ := Option.map_eq_some_iff.1 hs
    have h1 := follow_mem g lim own false fuel _ _ hi a
    have h2 := follow_mem g lim own true fuel _ _ ho b
    simp only [List.mem_filter, and_assoc] at h1 h2
    simp only [List.mem_append, List.mem_map, Prod.mk.injEq]
    constructor
    · rintro (⟨y, hy, rfl, rfl⟩ | ⟨y, hy, rfl, rfl⟩)
      · exact Or.inl ⟨rfl, h1.1 hy⟩
      · exact Or.inr ⟨rfl, h2.1 hy⟩
    · rintro (⟨rfl, hy⟩ | ⟨rfl, hy⟩)
      · exact Or.inl ⟨a, h1.2 hy, rfl, rfl⟩
      · exact Or.inr ⟨b, h2.2 hy, rfl, rfl⟩
  constructor
  · rintro (h1 | ⟨x, hx, s, hs, hb⟩)
    · simp at h1
    · rcases (hone x s hs).1 hb with ⟨rfl, h2⟩ | ⟨rfl, h2⟩
      · exact Or.inr ⟨hx, h2⟩
      · exact Or.inl ⟨hx, h2⟩
  · rintro (⟨hx, h2⟩ | ⟨hx, h2⟩)
    · obtain ⟨s, hs⟩ := foldlM_each' _ _ _ h a hx
      exact Or.inr ⟨a, hx, s, hs, (hone a s hs).2 (Or.inr ⟨rfl, h2⟩)⟩
    · obtain ⟨s, hs⟩ := foldlM_each' _ _ _ h b hx
      exact Or.inr ⟨b, hx, s, hs, (hone b s hs).2 (Or.inl ⟨rfl, h2⟩)⟩

theorem path_reaches (g : G) {p m t : Nat} (hp : Path g true p m) (ht : t ∈ conns g true m) : Reaches g p t := by
  induction hp with
  | refl p => exact .direct (by simpa [conns] using ht)
  | step h1 _ ih => exact .step (by simpa [conns] using h1) (ih ht)

theorem path_feeds (g : G) {p m t : Nat} (hp : Path g false p m) (ht : t ∈ conns g false m) : Feeds g t p := by
  induction hp with
  | refl p => exact .direct (by simpa [conns] using ht)
  | step h1 _ ih => exact .step (ih ht) (by simpa [conns] using h1)

theorem reaches_path (g : G) {p t : Nat} (h : Reaches g p t) : ∃ m, Path g true p m ∧ t ∈ conns g true m := by
  induction h with
  | @direct q p h => exact ⟨p, .refl _, by simpa [conns] using h⟩
  | step h1 _ ih =>
    obtain ⟨m, hm, ht⟩ := ih
    exact ⟨m, .step (by simpa [conns] using h1) hm, ht⟩

theorem dir_real (g : G) (lim p : Nat) (hr : (g.port p).kind.isVirtual = false) :
    portDir g lim p = some (g.port p).kind.isSrc ∧ (g.port p).kind.isDst = !(g.port p).kind.isSrc := by
  unfold portDir
  rw [hr]
  cases hk : (g.port p).kind <;> simp_all [Kind.isVirtual, realDir, Kind.isDst, Kind.isSrc]

theorem mayFeed_src {a b : Kind} (h : mayFeed a b = true) (ha : a.isVirtual = false) (hb : b.isSrc = true) : a.isSrc = true := by
  cases a <;> cases b <;> simp_all [mayFeed, Kind.isSrc, Kind.isVirtual]

theorem mayFeed_dst {a b : Kind} (h : mayFeed a b = true) (hb : b.isVirtual = false) (ha : a.isSrc = false) (hv : a.isVirtual = false) :
    b.isSrc = false := by
  cases a <;> cases b <;> simp_all [mayFeed, Kind.isSrc, Kind.isVirtual]

/-- **C84.** Ports created and connected by any program of calls, without reshape, transpose and concat ports. Suppose the listed
processes are the leaves: their ports are at the ends of the connections, and every port at the end of a connection belongs to one of
them. Then there is an edge from `a` to `b` exactly when data sent from a port of `a` arrive at a port of `b`, through any number of ports
of enclosing processes. -/
theorem C84_edges_exact (lim : Nat) (ops : List Op) (hg : ∀ op ∈ ops, op.Good) (g : G) (hrun : g = run lim G.empty ops)
    (hreal : ∀ p, p < g.next → (g.port p).kind.isVirtual = false) (lim' fuel : Nat) (own : Nat → Nat) (ports : Nat → List Nat) (procs : List Nat)
    (hports : ∀ a p, p < g.next → (p ∈ ports a ↔ own p = a))
    (hfresh : ∀ a, ∀ p ∈ ports a, p < g.next)
    (hleaf : ∀ a ∈ procs, ∀ p ∈ ports a, ((g.port p).kind.isSrc = true → (g.port p).ins = []) ∧
      ((g.port p).kind.isDst = true → (g.port p).outs = []))
    (hsrc : ∀ p, (g.port p).kind.isSrc = true → (g.port p).outs ≠ [] → (g.port p).ins = [] → own p ∈ procs)
    (hdst : ∀ p, (g.port p).kind.isDst = true → (g.port p).ins ≠ [] → (g.port p).outs = [] → own p ∈ procs)
    (E : List (Nat × Nat)) (h : procGraph g lim' fuel own ports procs = some E) (a b : Nat) :
    (a, b) ∈ E ↔ ∃ s t, own s = a ∧ own t = b ∧ (g.port s).kind.isSrc = true ∧ (g.port s).ins = [] ∧
      (g.port t).kind.isDst = true ∧ (g.port t).outs = [] ∧ Reaches g s t := by
  subst hrun
  have hsym := (C22_symmetric_nodup_partial lim ops hg).1
  have hfr := fun p q => feeds_iff_reaches hsym p q
  have hok : ∀ p q, q ∈ ((run lim G.empty ops).port p).outs →
      mayFeed ((run lim G.empty ops).port p).kind ((run lim G.empty ops).port q).kind = true := by
    intro p q hq
    exact (C22_connected_ports_compatible lim ops p q (Or.inl hq)).2.2.1
  have hlt : ∀ p q, q ∈ ((run lim G.empty ops).port p).outs → p < (run lim G.empty ops).next ∧ q < (run lim G.empty ops).next := by
    intro p q hq
    have := C22_connected_ports_compatible lim ops p q (Or.inl hq)
    exact ⟨this.1, this.2.1⟩
  generalize hG : run lim G.empty ops = g at *
  have hdir := fun p hp => dir_real g lim' p (hreal p hp)
  have hown : ∀ p, p < g.next → procOf g lim' own p = some (own p) := by intro p hp; simp [procOf, hreal p hp]
  rw [C84_edges g lim' fuel own ports procs E h]
  constructor
  · rintro (⟨ha, p, hp, hk, m, t, hpath, ht, hend, hw, hb⟩ | ⟨hb, p, hp, hk, m, t, hpath, ht, hend, hw, ha⟩)
    · have hmt := hlt m t (by simpa [conns] using ht)
      rw [hown t hmt.2] at hb
      simp only [Option.some.injEq] at hb
      have hpo : own p = a := (hports a p (hfresh a p hp)).1 hp
      have htk : (g.port t).kind.isDst = true := by
        have hf := hok m t (by simpa [conns] using ht)
        rw [(hdir m hmt.1).1, (hdir t hmt.2).1] at hw
        rw [(hdir t hmt.2).2]
        cases hT : (g.port t).kind.isSrc with
        | false => rfl
        | true => exact absurd ⟨by rw [mayFeed_src hf (hreal m hmt.1) hT], by rw [hT]⟩ hw
      exact ⟨p, t, hpo, hb, hk, (hleaf a ha p hp).1 hk, htk, by simpa [conns] using hend, path_reaches g hpath ht⟩
    · have hin : m ∈ (g.port t).outs := (hsym t m).2 (by simpa [conns] using ht)
      have htm := hlt t m hin
      rw [hown t htm.1] at ha
      simp only [Option.some.injEq] at ha
      have hpo : own p = b := (hports b p (hfresh b p hp)).1 hp
      have htk : (g.port t).kind.isSrc = true := by
        have hf := hok t m hin
        rw [(hdir m htm.2).1, (hdir t htm.1).1] at hw
        cases hT : (g.port t).kind.isSrc with
        | true => rfl
        | false => exact absurd ⟨by rw [mayFeed_dst hf (hreal m htm.2) hT (hreal t htm.1)], by rw [hT]⟩ hw
      exact ⟨t, p, ha, hpo, htk, by simpa [conns] using hend, hk, (hleaf b hb p hp).2 hk, (hfr p t).1 (path_feeds g hpath ht)⟩
  · rintro ⟨s, t, rfl, rfl, hs, hsi, ht, hto, hr⟩
    left
    have hso : (g.port s).outs ≠ [] := by
      rcases reaches_cases.1 hr with h1 | ⟨m, h1, _⟩ <;> intro h0 <;> rw [h0] at h1 <;> simp at h1
    have hsl : s < g.next := by
      rcases reaches_cases.1 hr with h1 | ⟨m, h1, _⟩ <;> exact (hlt _ _ h1).1
    refine ⟨hsrc s hs hso hsi, s, (hports _ s hsl).2 rfl, hs, ?_⟩
    obtain ⟨m, hm, htm⟩ := reaches_path g hr
    have htl := (hlt m t (by simpa [conns] using htm)).2
    refine ⟨m, t, hm, htm, by simpa [conns] using hto, ?_, hown t htl⟩
    rw [(hdir t htl).1]
    have := (hdir t htl).2
    rw [ht] at this
    rintro ⟨_, h2⟩
    rw [Option.some.inj h2] at this
    simp at this

/-- **C84.** Under the same assumptions the nodes joined by an edge are listed processes: no enclosing process appears in the graph. -/
theorem C84_no_enclosing_process (lim : Nat) (ops : List Op) (hg : ∀ op ∈ ops, op.Good) (g : G) (hrun : g = run lim G.empty ops)
    (hreal : ∀ p, p < g.next → (g.port p).kind.isVirtual = false) (lim' fuel : Nat) (own : Nat → Nat) (ports : Nat → List Nat) (procs : List Nat)
    (hports : ∀ a p, p < g.next → (p ∈ ports a ↔ own p = a))
    (hfresh : ∀ a, ∀ p ∈ ports a, p < g.next)
    (hleaf : ∀ a ∈ procs, ∀ p ∈ ports a, ((g.port p).kind.isSrc = true → (g.port p).ins = []) ∧
      ((g.port p).kind.isDst = true → (g.port p).outs = []))
    (hsrc : ∀ p, (g.port p).kind.isSrc = true → (g.port p).outs ≠ [] → (g.port p).ins = [] → own p ∈ procs)
    (hdst : ∀ p, (g.port p).kind.isDst = true → (g.port p).ins ≠ [] → (g.port p).outs = [] → own p ∈ procs)
    (E : List (Nat × Nat)) (h : procGraph g lim' fuel own ports procs = some E) (a b : Nat) (hab : (a, b) ∈ E) :
    a ∈ procs ∧ b ∈ procs := by
  have hx := (C84_edges_exact lim ops hg g hrun hreal lim' fuel own ports procs hports hfresh hleaf hsrc hdst E h a b).1 hab
  obtain ⟨s, t, rfl, rfl, hs, hsi, ht, hto, hr⟩ := hx
  have hsym := (C22_symmetric_nodup_partial lim ops hg).1
  rw [← hrun] at hsym
  refine ⟨hsrc s hs ?_ hsi, hdst t ht ?_ hto⟩
  · rcases reaches_cases.1 hr with h1 | ⟨m, h1, _⟩ <;> intro h0 <;> rw [h0] at h1 <;> simp at h1
  · rcases feeds_cases.1 ((feeds_iff_reaches hsym t s).2 hr) with h1 | ⟨m, h1, _⟩ <;> intro h0 <;> rw [h0] at h1 <;> simp at h1

/-- **C84.** The construction returns if the connections are acyclic, below the recursion limits, and every virtual port is fed by
something and its first source is an ordinary port. -/
theorem C84_returns (g : G) (lim fuel : Nat) (own : Nat → Nat) (ports : Nat → List Nat) (procs : List Nat) (height depth : Nat → Nat)
    (hup : ∀ p, ∀ q ∈ (g.port p).outs, height q < height p) (hdown : ∀ p, ∀ q ∈ (g.port p).ins, depth q < depth p)
    (hheight : ∀ p, height p + 1 < fuel) (hdepth : ∀ p, depth p + 1 < fuel)
    (hpar : ∀ p, (g.port p).kind.isVirtual = true → ∃ s, parentPort g lim p = some s ∧ (g.port s).kind.isVirtual = false) :
    ∃ E, procGraph g lim fuel own ports procs = some E := by
  have hdir : ∀ p, ∃ d, portDir g lim p = some d := by
    intro p
    by_cases hv : (g.port p).kind.isVirtual = true
    · obtain ⟨s, hs, hsv⟩ := hpar p hv
      refine ⟨(g.port s).kind.isSrc, ?_⟩
      have := (dir_real g lim s hsv).1
      unfold portDir at this ⊢
      rw [hsv] at this
      simp only [hv, if_true, hs, Option.bind_some]
      exact this
    · exact ⟨_, (dir_real g lim p (by simpa using hv)).1⟩
  have hproc : ∀ p, ∃ b, procOf g lim own p = some b := by
    intro p
    unfold procOf
    split
    · rename_i hv
      obtain ⟨s, hs, _⟩ := hpar p hv
      exact ⟨own s, by simp [hs]⟩
    · exact ⟨_, rfl⟩
  have hfollow : ∀ (outward : Bool) (rank : Nat → Nat) (_ : ∀ p, ∀ q ∈ conns g outward p, rank q < rank p) (fuel : Nat) (ps : List Nat),
      0 < fuel → (∀ p ∈ ps, rank p < fuel) → ∃ l, follow g lim own outward fuel ps = some l := by
    intro outward rank hr fuel
    induction fuel with
    | zero => intro ps h; omega
    | succ fuel ih =>
      intro ps _ hps
      rw [follow]
      apply PortGraph.foldlM_some
      intro p hp
      obtain ⟨pd, hpd⟩ := hdir p
      rw [hpd, Option.bind_some]
      apply PortGraph.foldlM_some
      intro c hc
      unfold hop
      obtain ⟨cd, hcd⟩ := hdir c
      rw [hcd, Option.bind_some]
      have h1 := hr p c hc
      have h2 := hps p hp
      split
      · exact ih [c] (by omega) (by intro x hx; simp at hx; subst hx; omega)
      · split
        · exact ⟨_, rfl⟩
        · obtain ⟨b, hb⟩ := hproc c
          exact ⟨[b], by simp [hb]⟩
  have hproc : ∀ a, ∃ s, procEdges g lim fuel own ports a = some s := by
    intro a
    have hf : 0 < fuel := by have := hheight 0; omega
    obtain ⟨i, hi⟩ := hfollow false depth (by simpa [conns] using hdown) fuel
      ((ports a).filter fun p => (g.port p).kind.isDst) hf (fun p _ => by have := hdepth p; omega)
    obtain ⟨o, ho⟩ := hfollow true height (by simpa [conns] using hup) fuel
      ((ports a).filter fun p => (g.port p).kind.isSrc) hf (fun p _ => by have := hheight p; omega)
    exact ⟨i.map (fun x => (x, a)) ++ o.map (fun x => (a, x)), by unfold procEdges; rw [hi, Option.bind_some, ho, Option.map_some]⟩
  unfold procGraph
  have key : ∀ (procs : List Nat) (acc : List (Nat × Nat)),
      ∃ r, procs.foldlM (fun acc a => (procEdges g lim fuel own ports a).map (acc ++ ·)) acc = some r := by
    intro procs
    induction procs with
    | nil => intro acc; exact ⟨acc, rfl⟩
    | cons a procs ih =>
      intro acc
      obtain ⟨s, hs⟩ := hproc a
      obtain ⟨r, hr⟩ := ih (acc ++ s)
      exact ⟨r, by simp only [List.foldlM_cons, hs, Option.map_some, Option.bind_eq_bind, Option.bind_some]; exact hr⟩
  exact key procs []

/-! ### Cases -/

/-- An OutPort of process 0, through the OutPort of an enclosing process 8 and the InPort of an enclosing process 9, to InPorts of the
processes 1 and 2; a second OutPort of process 0 goes to an OutPort of process 8 that is not connected any further (a wall). -/
def exOps : List Op := [.new .out [2], .new .out [2], .new .inp [2], .new .inp [2], .new .inp [2], .connect 0 (.one 1) 1, .connect 1 (.one 2) 1,
  .connect 2 (.many [3, 4]) 1, .new .out [2], .new .out [2], .connect 5 (.one 6) 1]

/-- Owners of the ports of the example. -/
def exOwn (p : Nat) : Nat := [0, 8, 9, 1, 2, 0, 8].getD p 7

/-- The hypotheses of `C84_edges_exact` hold of the example, and its edges are 0 → 1 and 0 → 2 (each is added from both ends). -/
theorem C84_example :
    procGraph (run 50 G.empty exOps) 50 50 exOwn (fun a => (List.range 7).filter fun p => exOwn p == a) [0, 1, 2]
      = some [(0, 1), (0, 2), (0, 1), (0, 2)] ∧
    (∀ op ∈ exOps, op.Good) ∧
    (let g := run 50 G.empty exOps
     (∀ p, p < g.next → (g.port p).kind.isVirtual = false) ∧
     (∀ a p, p < g.next → (p ∈ (List.range 7).filter (fun p => exOwn p == a) ↔ exOwn p = a)) ∧
     (∀ a, ∀ p ∈ (List.range 7).filter fun p => exOwn p == a, p < g.next) ∧
     (∀ a ∈ [0, 1, 2], ∀ p ∈ (List.range 7).filter fun p => exOwn p == a, ((g.port p).kind.isSrc = true → (g.port p).ins = []) ∧
        ((g.port p).kind.isDst = true → (g.port p).outs = [])) ∧
     (∀ p, (g.port p).kind.isSrc = true → (g.port p).outs ≠ [] → (g.port p).ins = [] → exOwn p ∈ [0, 1, 2]) ∧
     (∀ p, (g.port p).kind.isDst = true → (g.port p).ins ≠ [] → (g.port p).outs = [] → exOwn p ∈ [0, 1, 2])) := by
  have hgood : ∀ op ∈ exOps, op.Good := by
    intro op hop
    simp only [exOps, List.mem_cons, List.not_mem_nil, or_false] at hop
    rcases hop with rfl | rfl | rfl | rfl | rfl | rfl | rfl | rfl | rfl | rfl | rfl <;> simp [Op.Good, Arg.toList, CfgOk]
  have hinv := inv_run inv_empty 50 exOps hgood
  have hnext : (run 50 G.empty exOps).next = 7 := by decide
  have hbig : ∀ p, 7 ≤ p → ((run 50 G.empty exOps).port p).ins = [] ∧ ((run 50 G.empty exOps).port p).outs = [] := by
    intro p hp
    exact (hinv.fresh (by rw [hnext]; exact hp)).symm
  refine ⟨by decide, hgood, ?_, ?_, ?_, by decide, ?_, ?_⟩
  · rw [hnext]; decide
  · rw [hnext]; intro a p hp; simp [hp]
  · rw [hnext]; intro a p hp; simp at hp; exact hp.1
  · intro p
    by_cases hp : p < 7
    · rcases (by omega : p = 0 ∨ p = 1 ∨ p = 2 ∨ p = 3 ∨ p = 4 ∨ p = 5 ∨ p = 6) with rfl | rfl | rfl | rfl | rfl | rfl | rfl <;> decide
    · intro _ h; exact absurd (hbig p (by omega)).2 h
  · intro p
    by_cases hp : p < 7
    · rcases (by omega : p = 0 ∨ p = 1 ∨ p = 2 ∨ p = 3 ∨ p = 4 ∨ p = 5 ∨ p = 6) with rfl | rfl | rfl | rfl | rfl | rfl | rfl <;> decide
    · intro _ h; exact absurd (hbig p (by omega)).1 h

/-- An InPort of an enclosing process 9 that is not connected inside makes the enclosing process a node of the graph. It has no
executable model, so the compilation stops with NotImplementedError (compiler.py:338-342). -/
theorem C84_witness_unused_input_port :
    procGraph (run 50 G.empty [.new .out [2], .new .inp [2], .connect 0 (.one 1) 1]) 50 50 (fun p => if p = 0 then 0 else 9)
      (fun a => if a = 0 then [0] else [1]) [0] = some [(0, 9)] := by decide

/-- Calling `reshape` on the InPort of an enclosing process without using the result makes a self loop at the process that feeds the port. -/
theorem C84_witness_unused_reshape :
    procGraph (run 50 G.empty [.new .out [2], .new .inp [2], .new .inp [2], .connect 0 (.one 1) 1, .connect 1 (.one 2) 1, .reshape 1 [2, 1]])
      50 50 (fun p => [0, 9, 1].getD p 7) (fun a => (List.range 3).filter fun p => [0, 9, 1].getD p 7 == a) [0, 1]
      = some [(0, 1), (0, 0), (0, 1)] := by decide

end Verif.Graphs
