import Verif.Graphs.Lemmas

namespace Verif.Graphs

/-- The graph of processes before any collapsing: one node per process. -/
def ofProcs (g0 : Dg Nat) : Dg Node :=
  { nodes := g0.nodes.map fun p => ⟨p, [p]⟩
    edges := g0.edges.map fun e => (⟨e.1, [e.1]⟩, ⟨e.2, [e.2]⟩) }

/-- Specification: the graph is in one piece: every set of nodes that has some but not all nodes has an edge
across its border. -/
def Connected {α : Type} (g : Dg α) : Prop :=
  ∀ S : α → Prop, (∃ n ∈ g.nodes, S n) → (∃ n ∈ g.nodes, ¬ S n) →
    ∃ a b, g.Edge a b ∧ ((S a ∧ ¬ S b) ∨ (¬ S a ∧ S b))

/-- Specification: `g` is a grouping of the processes of `g0`: every process is in exactly one group and two
different groups are connected exactly if processes in them are. -/
structure Grouping (g0 : Dg Nat) (g : Dg Node) : Prop where
  wf : g.WF
  perm : (g.nodes.flatMap Node.procs).Perm g0.nodes
  ne : ∀ n ∈ g.nodes, n.procs ≠ []
  sound : ∀ A B, g.Edge A B → ∃ a ∈ A.procs, ∃ b ∈ B.procs, g0.Edge a b
  complete : ∀ A ∈ g.nodes, ∀ B ∈ g.nodes, A ≠ B → ∀ a ∈ A.procs, ∀ b ∈ B.procs, g0.Edge a b → g.Edge A B

/-- Grouping whose node objects are older than `k`. -/
structure Inv (g0 : Dg Nat) (k : Nat) (g : Dg Node) : Prop extends Grouping g0 g where
  fresh : ∀ n ∈ g.nodes, n.obj < k

theorem flatMap_nodup_unique {l : List Node} (h : (l.flatMap Node.procs).Nodup) {A B : Node}
    (hA : A ∈ l) (hB : B ∈ l) {p : Nat} (hpA : p ∈ A.procs) (hpB : p ∈ B.procs) : A = B := by
  induction l with
  | nil => simp at hA
  | cons n l ih =>
    simp only [List.flatMap_cons, List.nodup_append] at h
    simp only [List.mem_cons] at hA hB
    rcases hA with rfl | hA <;> rcases hB with rfl | hB
    · rfl
    · exact absurd rfl (h.2.2 p hpA p (List.mem_flatMap.2 ⟨B, hB, hpB⟩))
    · exact absurd rfl (h.2.2 p hpB p (List.mem_flatMap.2 ⟨A, hA, hpA⟩))
    · exact ih h.2.1 hA hB

theorem nodup_of_flatMap {l : List Node} (h : (l.flatMap Node.procs).Nodup) (hne : ∀ n ∈ l, n.procs ≠ []) :
    l.Nodup := by
  induction l with
  | nil => simp
  | cons n l ih =>
    simp only [List.flatMap_cons, List.nodup_append] at h
    refine List.nodup_cons.2 ⟨?_, ih h.2.1 fun m hm => hne m (by simp [hm])⟩
    intro hn
    obtain ⟨p, hp⟩ := List.exists_mem_of_ne_nil _ (hne n (by simp))
    exact absurd rfl (h.2.2 p hp p (List.mem_flatMap.2 ⟨n, hn, hp⟩))

theorem Grouping.unique {g0 g} (h : Grouping g0 g) (hnd : g0.nodes.Nodup) {A B : Node}
    (hA : A ∈ g.nodes) (hB : B ∈ g.nodes) {p : Nat} (hpA : p ∈ A.procs) (hpB : p ∈ B.procs) : A = B :=
  flatMap_nodup_unique (h.perm.nodup_iff.2 hnd) hA hB hpA hpB

theorem Grouping.nodup {g0 g} (h : Grouping g0 g) (hnd : g0.nodes.Nodup) : g.nodes.Nodup :=
  nodup_of_flatMap (h.perm.nodup_iff.2 hnd) h.ne

theorem Grouping.exists_node {g0 g} (h : Grouping g0 g) {p : Nat} (hp : p ∈ g0.nodes) :
    ∃ A ∈ g.nodes, p ∈ A.procs := by
  have := h.perm.symm.subset hp
  simpa [List.mem_flatMap] using this

theorem Grouping.mem_procs {g0 g} (h : Grouping g0 g) {p : Nat} {A : Node} (hA : A ∈ g.nodes) (hp : p ∈ A.procs) :
    p ∈ g0.nodes := h.perm.subset (List.mem_flatMap.2 ⟨A, hA, hp⟩)

/-- A grouping of a graph in one piece is in one piece. -/
theorem Grouping.connected {g0 g} (h : Grouping g0 g) (h0 : g0.WF) (hnd : g0.nodes.Nodup) (hc : Connected g0) :
    Connected g := by
  intro S ⟨n, hn, hSn⟩ ⟨m, hm, hSm⟩
  obtain ⟨p, hp⟩ := List.exists_mem_of_ne_nil _ (h.ne n hn)
  obtain ⟨q, hq⟩ := List.exists_mem_of_ne_nil _ (h.ne m hm)
  let T : Nat → Prop := fun x => ∃ A ∈ g.nodes, x ∈ A.procs ∧ S A
  have hTq : ¬ T q := by
    rintro ⟨A, hA, hqA, hSA⟩
    rw [h.unique hnd hA hm hqA hq] at hSA
    exact hSm hSA
  obtain ⟨a, b, hab, hT⟩ := hc T ⟨p, h.mem_procs hn hp, n, hn, hp, hSn⟩ ⟨q, h.mem_procs hm hq, hTq⟩
  obtain ⟨A, hA, haA⟩ := h.exists_node (h0 _ hab).1
  obtain ⟨B, hB, hbB⟩ := h.exists_node (h0 _ hab).2
  have hSA : T a ↔ S A :=
    ⟨fun ⟨A', hA', ha', hs⟩ => by rw [h.unique hnd hA' hA ha' haA] at hs; exact hs, fun hs => ⟨A, hA, haA, hs⟩⟩
  have hSB : T b ↔ S B :=
    ⟨fun ⟨A', hA', ha', hs⟩ => by rw [h.unique hnd hA' hB ha' hbB] at hs; exact hs, fun hs => ⟨B, hB, hbB, hs⟩⟩
  rw [hSA, hSB] at hT
  refine ⟨A, B, h.complete A hA B hB ?_ a haA b hbB hab, hT⟩
  rintro rfl
  rcases hT with hT | hT
  · exact hT.2 hT.1
  · exact hT.1 hT.2

theorem ofProcs_inv (g0 : Dg Nat) (h0 : g0.WF) (k : Nat) (hk : ∀ p ∈ g0.nodes, p < k) : Inv g0 k (ofProcs g0) := by
  constructor
  · constructor
    · intro e he
      simp only [ofProcs, List.mem_map] at he ⊢
      obtain ⟨e', he', rfl⟩ := he
      exact ⟨⟨_, (h0 e' he').1, rfl⟩, ⟨_, (h0 e' he').2, rfl⟩⟩
    · have : (ofProcs g0).nodes.flatMap Node.procs = g0.nodes := by
        simp only [ofProcs]
        induction g0.nodes with
        | nil => rfl
        | cons a l ih => simp [ih]
      rw [this]
    · intro n hn
      simp only [ofProcs, List.mem_map] at hn
      obtain ⟨p, _, rfl⟩ := hn; simp
    · intro A B hAB
      simp only [Dg.Edge, ofProcs, List.mem_map, Prod.mk.injEq] at hAB
      obtain ⟨e, he, rfl, rfl⟩ := hAB
      exact ⟨e.1, by simp, e.2, by simp, he⟩
    · intro A hA B hB _ a ha b hb hab
      simp only [ofProcs, List.mem_map] at hA hB
      obtain ⟨p, _, rfl⟩ := hA
      obtain ⟨q, _, rfl⟩ := hB
      simp only [List.mem_singleton] at ha hb
      subst ha hb
      simp only [Dg.Edge, ofProcs, List.mem_map]
      exact ⟨(a, b), hab, rfl⟩
  · intro n hn
    simp only [ofProcs, List.mem_map] at hn
    obtain ⟨p, hp, rfl⟩ := hn; exact hk p hp

/-! ### One collapse -/

theorem step_edge {sub : List Node} {new : Node} {g : Dg Node} {n a b : Node} (hnew : new ∉ sub) (hn : n ∈ sub) :
    (collapseStep sub new g n).Edge a b ↔
      (g.Edge a b ∧ a ≠ n ∧ b ≠ n) ∨ (a = new ∧ b ∉ sub ∧ g.Edge n b) ∨ (b = new ∧ a ∉ sub ∧ g.Edge a n) := by
  have hnn : new ≠ n := fun h => hnew (h ▸ hn)
  simp only [Dg.Edge, collapseStep, Dg.remove, List.mem_filter, List.mem_append, List.mem_map,
    decide_eq_true_eq, List.mem_singleton, Prod.mk.injEq]
  constructor
  · rintro ⟨h | ⟨e, he, rfl, rfl⟩ | ⟨e, he, rfl, rfl⟩, h1, h2⟩
    · exact .inl ⟨h, h1, h2⟩
    · obtain ⟨he, h3, h4⟩ := he
      refine .inr (.inl ⟨rfl, h4, ?_⟩); rw [← h3]; exact he
    · obtain ⟨he, h3, h4⟩ := he
      refine .inr (.inr ⟨rfl, h4, ?_⟩); rw [← h3]; exact he
  · rintro (⟨h, h1, h2⟩ | ⟨rfl, h1, h2⟩ | ⟨rfl, h1, h2⟩)
    · exact ⟨.inl h, h1, h2⟩
    · refine ⟨.inr (.inl ⟨_, ⟨h2, rfl, h1⟩, rfl, rfl⟩), hnn, ?_⟩
      rintro rfl; exact h1 hn
    · refine ⟨.inr (.inr ⟨_, ⟨h2, rfl, h1⟩, rfl, rfl⟩), ?_, hnn⟩
      rintro rfl; exact h1 hn

/-- `n` has a neighbour outside `sub`. -/
def Crosses (g : Dg Node) (sub : List Node) (n : Node) : Prop := ∃ m, m ∉ sub ∧ (g.Edge n m ∨ g.Edge m n)

open Classical in
theorem step_nodes {sub : List Node} {new : Node} {g : Dg Node} {n : Node} (hnew : new ∉ sub) (hn : n ∈ sub) :
    (collapseStep sub new g n).nodes = (g.nodes.filter (· ≠ n)) ++
      (if Crosses g sub n ∧ new ∉ g.nodes then [new] else []) := by
  have hnn : new ≠ n := fun h => hnew (h ▸ hn)
  have hcr : ((g.edges.filter fun e => e.1 = n ∧ e.2 ∉ sub).map (fun e => (new, e.2)) ++
      (g.edges.filter fun e => e.2 = n ∧ e.1 ∉ sub).map (fun e => (e.1, new))).isEmpty = true ↔ ¬ Crosses g sub n := by
    rw [List.isEmpty_iff, List.append_eq_nil_iff]
    simp only [List.map_eq_nil_iff, List.filter_eq_nil_iff, decide_eq_true_eq, Crosses, Dg.Edge]
    constructor
    · rintro ⟨h1, h2⟩ ⟨m, hm, h | h⟩
      · exact h1 _ h ⟨rfl, hm⟩
      · exact h2 _ h ⟨rfl, hm⟩
    · intro h
      constructor
      · rintro ⟨x, y⟩ he ⟨rfl, h2⟩
        exact h ⟨y, h2, .inl he⟩
      · rintro ⟨x, y⟩ he ⟨rfl, h2⟩
        exact h ⟨x, h2, .inr he⟩
  simp only [collapseStep, Dg.remove]
  by_cases hc : Crosses g sub n
  · by_cases hm : new ∈ g.nodes
    · rw [if_pos (.inr hm), if_neg (by tauto)]; simp
    · rw [if_neg (by rw [hcr]; tauto), if_pos ⟨hc, hm⟩]
      simp [List.filter_append, hnn]
  · rw [if_pos (.inl (hcr.2 hc)), if_neg (by tauto)]; simp

theorem fold_edge {sub : List Node} {new : Node} (hnew : new ∉ sub) (l : List Node) (g : Dg Node)
    (hl : ∀ n ∈ l, n ∈ sub) (hnd : l.Nodup) (a b : Node) :
    (l.foldl (collapseStep sub new) g).Edge a b ↔
      (g.Edge a b ∧ a ∉ l ∧ b ∉ l) ∨ (a = new ∧ b ∉ sub ∧ ∃ n ∈ l, g.Edge n b) ∨
      (b = new ∧ a ∉ sub ∧ ∃ n ∈ l, g.Edge a n) := by
  induction l generalizing g with
  | nil => simp
  | cons n l ih =>
    have hn : n ∈ sub := hl n (by simp)
    have hnl : n ∉ l := (List.nodup_cons.1 hnd).1
    rw [List.foldl_cons, ih _ (fun m hm => hl m (by simp [hm])) (List.nodup_cons.1 hnd).2]
    -- edges of the stepped graph into and out of the rest
    have h1 : ∀ m ∈ l, ∀ b, b ∉ sub → ((collapseStep sub new g n).Edge m b ↔ g.Edge m b ∨ (b = new ∧ False)) := by
      intro m hm b hb
      rw [step_edge hnew hn]
      have hms := hl m (by simp [hm])
      constructor
      · rintro (⟨h, _⟩ | ⟨rfl, _⟩ | ⟨_, h, _⟩)
        · exact .inl h
        · exact absurd hms hnew
        · exact absurd hms h
      · rintro (h | ⟨_, h⟩)
        · exact .inl ⟨h, fun e => hnl (e ▸ hm), fun e => hb (e ▸ hn)⟩
        · exact h.elim
    have h2 : ∀ m ∈ l, ∀ a, a ∉ sub → ((collapseStep sub new g n).Edge a m ↔ g.Edge a m) := by
      intro m hm a ha
      rw [step_edge hnew hn]
      have hms := hl m (by simp [hm])
      constructor
      · rintro (⟨h, _⟩ | ⟨_, h, _⟩ | ⟨rfl, _⟩)
        · exact h
        · exact absurd hms h
        · exact absurd hms hnew
      · intro h
        exact .inl ⟨h, fun e => ha (e ▸ hn), fun e => hnl (e ▸ hm)⟩
    constructor
    · rintro (⟨h, ha, hb⟩ | ⟨rfl, hb, m, hm, h⟩ | ⟨rfl, ha, m, hm, h⟩)
      · rw [step_edge hnew hn] at h
        rcases h with ⟨h, h3, h4⟩ | ⟨rfl, h3, h4⟩ | ⟨rfl, h3, h4⟩
        · exact .inl ⟨h, by simp [h3, ha], by simp [h4, hb]⟩
        · exact .inr (.inl ⟨rfl, h3, n, by simp, h4⟩)
        · exact .inr (.inr ⟨rfl, h3, n, by simp, h4⟩)
      · rw [h1 m hm b hb] at h
        exact .inr (.inl ⟨rfl, hb, m, by simp [hm], by tauto⟩)
      · rw [h2 m hm a ha] at h
        exact .inr (.inr ⟨rfl, ha, m, by simp [hm], h⟩)
    · rintro (⟨h, ha, hb⟩ | ⟨rfl, hb, m, hm, h⟩ | ⟨rfl, ha, m, hm, h⟩)
      · simp only [List.mem_cons, not_or] at ha hb
        exact .inl ⟨(step_edge hnew hn).2 (.inl ⟨h, ha.1, hb.1⟩), ha.2, hb.2⟩
      · simp only [List.mem_cons] at hm
        rcases hm with rfl | hm
        · refine .inl ⟨(step_edge hnew hn).2 (.inr (.inl ⟨rfl, hb, h⟩)), fun e => hnew (hl _ (by simp [e])),
            fun e => hb (hl _ (by simp [e]))⟩
        · exact .inr (.inl ⟨rfl, hb, m, hm, (h1 m hm b hb).2 (.inl h)⟩)
      · simp only [List.mem_cons] at hm
        rcases hm with rfl | hm
        · refine .inl ⟨(step_edge hnew hn).2 (.inr (.inr ⟨rfl, ha, h⟩)), fun e => ha (hl _ (by simp [e])),
            fun e => hnew (hl _ (by simp [e]))⟩
        · exact .inr (.inr ⟨rfl, ha, m, hm, (h2 m hm a ha).2 h⟩)

open Classical in
theorem fold_nodes {sub : List Node} {new : Node} (hnew : new ∉ sub) (l : List Node) (g : Dg Node)
    (hl : ∀ n ∈ l, n ∈ sub) (hnd : l.Nodup) (hwf : g.WF) :
    (l.foldl (collapseStep sub new) g).nodes = (g.nodes.filter (· ∉ l)) ++
      (if (∃ n ∈ l, Crosses g sub n) ∧ new ∉ g.nodes then [new] else []) := by
  induction l generalizing g with
  | nil => simp
  | cons n l ih =>
    have hn : n ∈ sub := hl n (by simp)
    have hnl : n ∉ l := (List.nodup_cons.1 hnd).1
    have hnn : new ≠ n := fun h => hnew (h ▸ hn)
    have hnewl : new ∉ l := fun h => hnew (hl _ (by simp [h]))
    have hstepwf : (collapseStep sub new g n).WF := by
      rintro ⟨a, b⟩ he
      have he' : (collapseStep sub new g n).Edge a b := he
      rw [step_edge hnew hn] at he'
      simp only [step_nodes hnew hn, List.mem_append, List.mem_filter, decide_eq_true_eq]
      have hnewmem : Crosses g sub n → (new ∈ g.nodes ∧ new ≠ n) ∨
          new ∈ (if Crosses g sub n ∧ new ∉ g.nodes then [new] else []) := by
        intro hc
        by_cases hm : new ∈ g.nodes
        · exact .inl ⟨hm, hnn⟩
        · right; rw [if_pos ⟨hc, hm⟩]; simp
      rcases he' with ⟨h, h1, h2⟩ | ⟨rfl, h1, h2⟩ | ⟨rfl, h1, h2⟩
      · exact ⟨.inl ⟨(hwf _ h).1, h1⟩, .inl ⟨(hwf _ h).2, h2⟩⟩
      · exact ⟨hnewmem ⟨b, h1, .inl h2⟩, .inl ⟨(hwf _ h2).2, fun e => h1 (e ▸ hn)⟩⟩
      · exact ⟨.inl ⟨(hwf _ h2).1, fun e => h1 (e ▸ hn)⟩, hnewmem ⟨a, h1, .inr h2⟩⟩
    have hcr : ∀ m ∈ l, (Crosses (collapseStep sub new g n) sub m ↔ Crosses g sub m) := by
      intro m hm
      have hms := hl m (by simp [hm])
      have hmn : m ≠ n := fun e => hnl (e ▸ hm)
      have hmnew : m ≠ new := fun e => hnew (e ▸ hms)
      constructor
      · rintro ⟨x, hx, h | h⟩
        · rw [step_edge hnew hn] at h
          rcases h with ⟨h, _⟩ | ⟨rfl, _⟩ | ⟨_, h, _⟩
          · exact ⟨x, hx, .inl h⟩
          · exact absurd hms hnew
          · exact absurd hms h
        · rw [step_edge hnew hn] at h
          rcases h with ⟨h, _⟩ | ⟨_, h, _⟩ | ⟨rfl, _⟩
          · exact ⟨x, hx, .inr h⟩
          · exact absurd hms h
          · exact absurd hms hnew
      · rintro ⟨x, hx, h | h⟩
        · exact ⟨x, hx, .inl ((step_edge hnew hn).2 (.inl ⟨h, hmn, fun e => hx (e ▸ hn)⟩))⟩
        · exact ⟨x, hx, .inr ((step_edge hnew hn).2 (.inl ⟨h, fun e => hx (e ▸ hn), hmn⟩))⟩
    rw [List.foldl_cons, ih _ (fun m hm => hl m (by simp [hm])) (List.nodup_cons.1 hnd).2 hstepwf,
      step_nodes hnew hn, List.filter_append, List.filter_filter]
    have hex : (∃ m ∈ l, Crosses (collapseStep sub new g n) sub m) ↔ ∃ m ∈ l, Crosses g sub m := by
      constructor
      · rintro ⟨m, hm, h⟩; exact ⟨m, hm, (hcr m hm).1 h⟩
      · rintro ⟨m, hm, h⟩; exact ⟨m, hm, (hcr m hm).2 h⟩
    have hex2 : (∃ m ∈ n :: l, Crosses g sub m) ↔ Crosses g sub n ∨ ∃ m ∈ l, Crosses g sub m := by simp
    have hfil : (g.nodes.filter fun a => decide (a ∉ l) && decide (a ≠ n)) = g.nodes.filter (· ∉ n :: l) := by
      apply List.filter_congr; intro x _
      by_cases h1 : x ∈ l <;> by_cases h2 : x = n <;> simp [h1, h2]
    rw [hfil, List.append_assoc]
    congr 1
    simp only [hex, hex2, List.mem_append, List.mem_filter, decide_eq_true_eq]
    by_cases hm : new ∈ g.nodes
    · simp [hm, hnn]
    · by_cases hc : Crosses g sub n
      · simp [hm, hc, hnewl]
      · simp [hm, hc]

/-- Moving a sub list to the end. -/
theorem perm_split {l sub : List Node} (hl : l.Nodup) (hs : sub.Nodup) (hsub : ∀ n ∈ sub, n ∈ l) :
    (l.filter (· ∉ sub) ++ sub).Perm l := by
  have h1 : (l.filter (· ∈ sub)).Perm sub := by
    rw [List.perm_ext_iff_of_nodup (hl.filter _) hs]
    intro a; simp only [List.mem_filter, decide_eq_true_eq]
    exact ⟨fun h => h.2, fun h => ⟨hsub a h, h⟩⟩
  have h2 := List.filter_append_perm (fun n => decide (n ∈ sub)) l
  have h3 : (l.filter fun x => !decide (x ∈ sub)) = l.filter (· ∉ sub) := by
    apply List.filter_congr; intro x _; simp
  rw [h3] at h2
  exact (List.perm_append_comm.trans (h1.symm.append_right _)).trans h2

/-- What a proper collapse returns. -/
theorem collapse_proper {g : Dg Node} {k : Nat} {sub : List Node} {g' : Dg Node} (hwf : g.WF)
    (hfresh : ∀ n ∈ g.nodes, n.obj < k) (hs : sub.Nodup) (hsub : ∀ n ∈ sub, n ∈ g.nodes)
    (hcross : ∃ n ∈ sub, Crosses g sub n)
    (h : g' = sub.foldl (collapseStep sub (groupNode k sub)) g) :
    g'.nodes = g.nodes.filter (· ∉ sub) ++ [groupNode k sub] ∧
    ∀ a b, g'.Edge a b ↔ (g.Edge a b ∧ a ∉ sub ∧ b ∉ sub) ∨
      (a = groupNode k sub ∧ b ∉ sub ∧ ∃ n ∈ sub, g.Edge n b) ∨
      (b = groupNode k sub ∧ a ∉ sub ∧ ∃ n ∈ sub, g.Edge a n) := by
  have hnn : groupNode k sub ∉ g.nodes := fun hm => by
    have := hfresh _ hm; simp [groupNode] at this
  have hns : groupNode k sub ∉ sub := fun hm => hnn (hsub _ hm)
  subst h
  refine ⟨?_, fun a b => fold_edge hns sub g (fun _ h => h) hs a b⟩
  rw [fold_nodes hns sub g (fun _ h => h) hs hwf, if_pos ⟨hcross, hnn⟩]

theorem collapse_inv {g0 : Dg Nat} {g : Dg Node} {k : Nat} {sub : List Node} (h0 : g0.WF)
    (hnd0 : g0.nodes.Nodup) (hc0 : Connected g0) (hi : Inv g0 k g) (hs : sub.Nodup)
    (hsub : ∀ n ∈ sub, n ∈ g.nodes) :
    ∃ g', collapse g k sub = some g' ∧ Inv g0 (k + 1) g' := by
  have mono : Inv g0 (k + 1) g := { hi with fresh := fun n hn => Nat.lt_succ_of_lt (hi.fresh n hn) }
  rw [collapse]
  rw [if_neg (by simpa using hsub)]
  by_cases h1 : sub = []
  · rw [if_pos h1]; exact ⟨g, rfl, mono⟩
  rw [if_neg h1]
  by_cases h2 : sub.length = 1 ∧ sub.all g.isolated
  · rw [if_pos h2]; exact ⟨g, rfl, mono⟩
  rw [if_neg h2]
  by_cases h3 : ∀ n ∈ g.nodes, n ∈ sub
  · rw [if_pos h3]
    refine ⟨_, rfl, ⟨?_, ?_, ?_, ?_, ?_⟩, ?_⟩
    · intro e he; simp at he
    · simpa [groupNode] using hi.perm
    · intro n hn
      simp only [List.mem_singleton] at hn
      subst hn
      obtain ⟨m, hm⟩ := List.exists_mem_of_ne_nil _ h1
      obtain ⟨p, hp⟩ := List.exists_mem_of_ne_nil _ (hi.ne m (hsub m hm))
      exact List.ne_nil_of_mem (List.mem_flatMap.2 ⟨m, hsub m hm, hp⟩)
    · intro A B h; simp [Dg.Edge] at h
    · intro A hA B hB hne
      simp only [List.mem_singleton] at hA hB
      exact absurd (hA.trans hB.symm) hne
    · intro n hn; simp only [List.mem_singleton] at hn; subst hn; simp [groupNode]
  rw [if_neg h3]
  -- proper collapse
  have hcross : ∃ n ∈ sub, Crosses g sub n := by
    simp only [not_forall] at h3
    obtain ⟨m, hm, hms⟩ := h3
    obtain ⟨n, hn⟩ := List.exists_mem_of_ne_nil _ h1
    obtain ⟨a, b, hab, h | h⟩ := hi.toGrouping.connected h0 hnd0 hc0 (· ∈ sub) ⟨n, hsub n hn, hn⟩ ⟨m, hm, hms⟩
    · exact ⟨a, h.1, b, h.2, .inl hab⟩
    · exact ⟨b, h.2, a, h.1, .inr hab⟩
  obtain ⟨hnodes, hedge⟩ := collapse_proper hi.wf hi.fresh hs hsub hcross rfl
  refine ⟨_, rfl, ⟨?_, ?_, ?_, ?_, ?_⟩, ?_⟩
  · rintro ⟨a, b⟩ he
    have he' := (hedge a b).1 he
    simp only [hnodes, List.mem_append, List.mem_filter, decide_eq_true_eq, List.mem_singleton]
    rcases he' with ⟨h, ha, hb⟩ | ⟨rfl, hb, n, _, h⟩ | ⟨rfl, ha, n, _, h⟩
    · exact ⟨.inl ⟨(hi.wf _ h).1, ha⟩, .inl ⟨(hi.wf _ h).2, hb⟩⟩
    · exact ⟨.inr rfl, .inl ⟨(hi.wf _ h).2, hb⟩⟩
    · exact ⟨.inl ⟨(hi.wf _ h).1, ha⟩, .inr rfl⟩
  · rw [hnodes, List.flatMap_append]
    have : [groupNode k sub].flatMap Node.procs = sub.flatMap Node.procs := by simp [groupNode]
    rw [this, ← List.flatMap_append]
    exact ((perm_split (hi.toGrouping.nodup hnd0) hs hsub).flatMap_right _).trans hi.perm
  · intro n hn
    simp only [hnodes, List.mem_append, List.mem_filter, decide_eq_true_eq, List.mem_singleton] at hn
    rcases hn with hn | rfl
    · exact hi.ne n hn.1
    · obtain ⟨m, hm⟩ := List.exists_mem_of_ne_nil _ h1
      obtain ⟨p, hp⟩ := List.exists_mem_of_ne_nil _ (hi.ne m (hsub m hm))
      exact List.ne_nil_of_mem (List.mem_flatMap.2 ⟨m, hm, hp⟩)
  · intro A B hAB
    rcases (hedge A B).1 hAB with ⟨h, _, _⟩ | ⟨rfl, _, n, hn, h⟩ | ⟨rfl, _, n, hn, h⟩
    · exact hi.sound A B h
    · obtain ⟨a, ha, b, hb, hab⟩ := hi.sound n B h
      exact ⟨a, List.mem_flatMap.2 ⟨n, hn, ha⟩, b, hb, hab⟩
    · obtain ⟨a, ha, b, hb, hab⟩ := hi.sound A n h
      exact ⟨a, ha, b, List.mem_flatMap.2 ⟨n, hn, hb⟩, hab⟩
  · intro A hA B hB hne a ha b hb hab
    simp only [hnodes, List.mem_append, List.mem_filter, decide_eq_true_eq, List.mem_singleton] at hA hB
    rw [hedge]
    rcases hA with ⟨hA, hAs⟩ | rfl <;> rcases hB with ⟨hB, hBs⟩ | rfl
    · exact .inl ⟨hi.complete A hA B hB hne a ha b hb hab, hAs, hBs⟩
    · obtain ⟨n, hn, hbn⟩ := List.mem_flatMap.1 hb
      exact .inr (.inr ⟨rfl, hAs, n, hn,
        hi.complete A hA n (hsub n hn) (fun e => hAs (e ▸ hn)) a ha b hbn hab⟩)
    · obtain ⟨n, hn, han⟩ := List.mem_flatMap.1 ha
      exact .inr (.inl ⟨rfl, hBs, n, hn,
        hi.complete n (hsub n hn) B hB (fun e => hBs (e ▸ hn)) a han b hb hab⟩)
    · exact absurd rfl hne
  · intro n hn
    simp only [hnodes, List.mem_append, List.mem_filter, decide_eq_true_eq, List.mem_singleton] at hn
    rcases hn with hn | rfl
    · exact Nat.lt_succ_of_lt (hi.fresh n hn.1)
    · simp [groupNode]

/-! ### Collapsing the components of one model type -/

theorem collapse_keeps {g : Dg Node} {k : Nat} {sub : List Node} {g' : Dg Node} (hwf : g.WF)
    (hfresh : ∀ n ∈ g.nodes, n.obj < k) (hs : sub.Nodup) (hsub : ∀ n ∈ sub, n ∈ g.nodes)
    (h : collapse g k sub = some g') {m : Node} (hm : m ∈ g.nodes) (hms : m ∉ sub) : m ∈ g'.nodes := by
  rw [collapse, if_neg (by simpa using hsub)] at h
  by_cases h1 : sub = []
  · rw [if_pos h1] at h; cases h; exact hm
  rw [if_neg h1] at h
  by_cases h2 : sub.length = 1 ∧ sub.all g.isolated
  · rw [if_pos h2] at h; cases h; exact hm
  rw [if_neg h2] at h
  rw [if_neg (fun h3 => hms (h3 m hm))] at h
  cases h
  have hnn : groupNode k sub ∉ g.nodes := fun hm => by
    have := hfresh _ hm; simp [groupNode] at this
  rw [fold_nodes (fun hm => hnn (hsub _ hm)) sub g (fun _ h => h) hs hwf]
  simp [hm, hms]

theorem collapseAll_inv {g0 : Dg Nat} (h0 : g0.WF) (hnd0 : g0.nodes.Nodup) (hc0 : Connected g0)
    (parts : List (List Node)) (k : Nat) (g : Dg Node) (hi : Inv g0 k g)
    (hnd : parts.flatten.Nodup) (hsub : ∀ sub ∈ parts, ∀ n ∈ sub, n ∈ g.nodes) :
    ∃ g', collapseAll k g parts = some g' ∧ Inv g0 (k + parts.length) g' := by
  induction parts generalizing k g with
  | nil => exact ⟨g, rfl, by simpa using hi⟩
  | cons sub rest ih =>
    simp only [List.flatten_cons, List.nodup_append] at hnd
    obtain ⟨g1, h1, hi1⟩ := collapse_inv h0 hnd0 hc0 hi hnd.1 (hsub sub (by simp))
    have hk := fun m (hm : m ∈ g.nodes) (hms : m ∉ sub) =>
      collapse_keeps hi.wf hi.fresh hnd.1 (hsub sub (by simp)) h1 hm hms
    obtain ⟨g', h2, hi2⟩ := ih (k + 1) g1 hi1 hnd.2.1 (by
      intro s hs n hn
      refine hk n (hsub s (by simp [hs]) n hn) fun hns => ?_
      exact absurd rfl (hnd.2.2 n hns n (List.mem_flatten.2 ⟨s, hs, hn⟩)))
    refine ⟨g', ?_, ?_⟩
    · rw [collapseAll, h1]; exact h2
    · have : k + 1 + rest.length = k + (sub :: rest).length := by simp; omega
      rwa [this] at hi2

/-! ### Collapsing cycles -/

/-- Specification: `c` is a simple cycle of `g`. -/
structure IsCycle {α : Type} (g : Dg α) (c : List α) : Prop where
  pos : 0 < c.length
  nodup : c.Nodup
  edge : ∀ i (h : i < c.length), g.Edge c[i] (c[(i + 1) % c.length]'(Nat.mod_lt _ pos))

/-- Specification of the NetworkX search used by `collapse_cycles_to_nodes`: it finds a simple cycle unless
there is none. -/
structure FindsCycle (longest : Dg Node → Option (List Node)) : Prop where
  sound : ∀ g c, longest g = some c → IsCycle g c
  complete : ∀ g, longest g = none → g.Acyclic

theorem IsCycle.mem_nodes {g : Dg Node} {c} (h : IsCycle g c) (hwf : g.WF) : ∀ n ∈ c, n ∈ g.nodes := by
  intro n hn
  obtain ⟨i, hi, rfl⟩ := List.mem_iff_getElem.1 hn
  exact (hwf _ (h.edge i hi)).1

/-- A closed walk contains a simple cycle. -/
theorem exists_cycle {g : Dg Node} (h : ¬ g.Acyclic) : ∃ c, IsCycle g c := by
  -- closed walks as functions
  have hw : ∀ a b, Relation.TransGen g.Edge a b →
      ∃ (k : Nat) (f : Nat → Node), 0 < k ∧ f 0 = a ∧ f k = b ∧ ∀ i < k, g.Edge (f i) (f (i + 1)) := by
    intro a b hab
    induction hab with
    | single h => exact ⟨1, fun i => if i = 0 then _ else _, by omega, rfl, rfl, by
        intro i hi; obtain rfl : i = 0 := by omega
        simpa using h⟩
    | @tail b c _ h ih =>
      obtain ⟨k, f, hk, h1, h2, h3⟩ := ih
      refine ⟨k + 1, fun i => if i ≤ k then f i else c, by omega, by simp [h1],
        if_neg (by omega), ?_⟩
      intro i hi
      by_cases hik : i = k
      · subst hik; dsimp only; rw [if_pos (by omega), if_neg (by omega), h2]; exact h
      · have h4 : i < k := by omega
        have h5 : i + 1 ≤ k := by omega
        simp [h5, Nat.le_of_lt h4, h3 i h4]
  simp only [Dg.Acyclic, not_forall, Classical.not_not] at h
  obtain ⟨n, hn⟩ := h
  obtain ⟨k0, f0, hk0, ha, hb, hf0⟩ := hw n n hn
  -- a shortest one
  let Q : Nat → Prop := fun k => ∃ f : Nat → Node, 0 < k ∧ f 0 = f k ∧ ∀ i < k, g.Edge (f i) (f (i + 1))
  have hex : ∃ k, Q k ∧ ∀ j < k, ¬ Q j := by
    have : ∀ k, Q k → ∃ k, Q k ∧ ∀ j < k, ¬ Q j := by
      intro k
      induction k using Nat.strongRecOn with
      | _ k ih =>
        intro hq
        by_cases h : ∃ j, j < k ∧ Q j
        · obtain ⟨j, hj, hqj⟩ := h; exact ih j hj hqj
        · exact ⟨k, hq, fun j hj hqj => h ⟨j, hj, hqj⟩⟩
    exact this k0 ⟨f0, hk0, ha.trans hb.symm, hf0⟩
  obtain ⟨k, ⟨f, hk, hf, hedge⟩, hmin⟩ := hex
  refine ⟨(List.range k).map f, ?_, ?_, ?_⟩
  · simpa using hk
  · rw [List.nodup_map_iff_inj_on List.nodup_range]
    have key : ∀ i j, i < j → j < k → f i ≠ f j := by
      intro i j hij hjk he
      refine hmin (j - i) (by omega) ⟨fun x => f (i + x), by omega, ?_, ?_⟩
      · simp only [Nat.add_zero]; rw [he]; congr 1; omega
      · intro x hx; exact hedge (i + x) (by omega)
    intro i hi j hj hij
    simp only [List.mem_range] at hi hj
    rcases Nat.lt_trichotomy i j with h | h | h
    · exact absurd hij (key i j h hj)
    · exact h
    · exact absurd hij.symm (key j i h hi)
  · intro i hi
    simp only [List.length_map, List.length_range] at hi
    simp only [List.length_map, List.length_range, List.getElem_map, List.getElem_range]
    by_cases h : i + 1 = k
    · have he := hedge i hi
      rw [h] at he ⊢
      rw [Nat.mod_self, hf]; exact he
    · rw [Nat.mod_eq_of_lt (by omega)]; exact hedge i hi

open Classical in
/-- There are such searches. -/
theorem findsCycle_exists : ∃ longest, FindsCycle longest := by
  refine ⟨fun g => if h : ∃ c, IsCycle g c then some h.choose else none, ?_, ?_⟩
  · intro g c hc
    split at hc
    · rename_i h; cases hc; exact h.choose_spec
    · cases hc
  · intro g hg
    split at hg
    · cases hg
    · rename_i h
      exact Classical.byContradiction fun hn => h (exists_cycle hn)

/-- Number of nodes plus number of self loops. -/
def mass (g : Dg Node) : Nat := g.nodes.length + (g.nodes.filter fun n => decide ((n, n) ∈ g.edges)).length

theorem mass_collapse {g : Dg Node} {k : Nat} {c : List Node} {g' : Dg Node} (hwf : g.WF) (hndg : g.nodes.Nodup)
    (hconn : Connected g)
    (hfresh : ∀ n ∈ g.nodes, n.obj < k) (hc : IsCycle g c) (h : collapse g k c = some g') :
    mass g' < mass g := by
  have hsub := hc.mem_nodes hwf
  have hne : c ≠ [] := List.ne_nil_of_length_pos hc.pos
  rw [collapse, if_neg (by simpa using hsub), if_neg hne] at h
  have h2 : ¬ (c.length = 1 ∧ c.all g.isolated) := by
    rintro ⟨_, h3⟩
    have h4 := hc.edge 0 hc.pos
    have h5 := List.all_eq_true.1 h3 c[0] (List.getElem_mem _)
    simp only [Dg.isolated, Bool.and_eq_true, Bool.not_eq_true'] at h5
    have h6 := hasOut_iff.2 ⟨_, h4⟩
    rw [h6] at h5; exact absurd h5.1 (by simp)
  rw [if_neg h2] at h
  have hself : c.length = 1 → ∃ n ∈ c, (n, n) ∈ g.edges := by
    intro h1
    have h4 := hc.edge 0 hc.pos
    refine ⟨c[0], List.getElem_mem _, ?_⟩
    have : (0 + 1) % c.length = 0 := by rw [h1]
    simp only [this] at h4
    exact h4
  have hlen : c.length ≤ g.nodes.length := (List.subperm_of_subset hc.nodup hsub).length_le
  by_cases h3 : ∀ n ∈ g.nodes, n ∈ c
  · rw [if_pos h3] at h
    cases h
    simp only [mass, List.length_singleton]
    have hz : ([groupNode k g.nodes].filter fun n => decide ((n, n) ∈ ([] : List (Node × Node)))).length = 0 := by simp
    rw [hz]
    by_cases h1 : c.length = 1
    · obtain ⟨n, hn, hnn⟩ := hself h1
      have : n ∈ g.nodes.filter fun n => decide ((n, n) ∈ g.edges) := by simp [hsub n hn, hnn]
      have := List.length_pos_of_mem this
      omega
    · have := hc.pos
      omega
  · rw [if_neg h3] at h
    cases h
    have hcross : ∃ n ∈ c, Crosses g c n := by
      simp only [not_forall] at h3
      obtain ⟨m, hm, hms⟩ := h3
      obtain ⟨n, hn⟩ := List.exists_mem_of_ne_nil _ hne
      obtain ⟨a, b, hab, h | h⟩ := hconn (· ∈ c) ⟨n, hsub n hn, hn⟩ ⟨m, hm, hms⟩
      · exact ⟨a, h.1, b, h.2, .inl hab⟩
      · exact ⟨b, h.2, a, h.1, .inr hab⟩
    obtain ⟨hnodes, hedge⟩ := collapse_proper hwf hfresh hc.nodup hsub hcross rfl
    have hnn : groupNode k c ∉ g.nodes := fun hm => by
      have := hfresh _ hm; simp [groupNode] at this
    have hloop : ∀ n, (n, n) ∈ (c.foldl (collapseStep c (groupNode k c)) g).edges → (n, n) ∈ g.edges ∧ n ∉ c := by
      intro n hn
      rcases (hedge n n).1 hn with ⟨h, h4, _⟩ | ⟨rfl, _, m, _, h⟩ | ⟨rfl, _, m, _, h⟩
      · exact ⟨h, h4⟩
      · exact absurd (hwf _ h).2 hnn
      · exact absurd (hwf _ h).1 hnn
    have hperm := perm_split hndg hc.nodup hsub
    have hlenp := hperm.length_eq
    simp only [List.length_append] at hlenp
    have hloops := (hperm.filter fun n => decide ((n, n) ∈ g.edges)).length_eq
    simp only [List.filter_append, List.length_append] at hloops
    have hle : ∀ l : List Node, (∀ n ∈ l, n ∉ c → True) →
        (l.filter fun n => decide ((n, n) ∈ (c.foldl (collapseStep c (groupNode k c)) g).edges)).length ≤
        (l.filter fun n => decide ((n, n) ∈ g.edges)).length := by
      intro l _
      induction l with
      | nil => simp
      | cons a l ih =>
        simp only [List.filter_cons]
        have ih := ih (by simp)
        by_cases h6 : (a, a) ∈ (c.foldl (collapseStep c (groupNode k c)) g).edges
        · simp only [h6, (hloop a h6).1, decide_true, if_true, List.length_cons]; omega
        · simp only [h6, decide_false, Bool.false_eq_true, if_false]
          split
          · simp only [List.length_cons]; omega
          · exact ih
    have h7 := hle (g.nodes.filter (· ∉ c)) (by simp)
    have hnewloop : (groupNode k c, groupNode k c) ∉ (c.foldl (collapseStep c (groupNode k c)) g).edges :=
      fun h => hnn (hwf _ (hloop _ h).1).1
    simp only [mass, hnodes, List.length_append, List.filter_append, List.length_singleton]
    have h8 : ([groupNode k c].filter fun n =>
        decide ((n, n) ∈ (c.foldl (collapseStep c (groupNode k c)) g).edges)).length = 0 := by simp [hnewloop]
    rw [h8]
    by_cases h1 : c.length = 1
    · obtain ⟨n, hn, hnn⟩ := hself h1
      have : n ∈ c.filter fun n => decide ((n, n) ∈ g.edges) := by simp [hn, hnn]
      have := List.length_pos_of_mem this
      omega
    · have := hc.pos
      omega

theorem collapseCycles_inv {g0 : Dg Nat} (h0 : g0.WF) (hnd0 : g0.nodes.Nodup) (hc0 : Connected g0)
    {longest} (hl : FindsCycle longest) (fuel k : Nat) (g : Dg Node) (hi : Inv g0 k g) (hf : mass g < fuel) :
    ∃ g', collapseCycles longest fuel k g = some g' ∧ Grouping g0 g' ∧ g'.Acyclic := by
  induction fuel generalizing k g with
  | zero => omega
  | succ fuel ih =>
    rw [collapseCycles]
    cases hg : longest g with
    | none => exact ⟨g, rfl, hi.toGrouping, hl.complete g hg⟩
    | some c =>
      have hc := hl.sound g c hg
      obtain ⟨g1, h1, hi1⟩ := collapse_inv h0 hnd0 hc0 hi hc.nodup (hc.mem_nodes hi.wf)
      have hm := mass_collapse hi.wf (hi.toGrouping.nodup hnd0) (hi.toGrouping.connected h0 hnd0 hc0) hi.fresh hc h1
      obtain ⟨g', h2, h3⟩ := ih (k + 1) g1 hi1 (by omega)
      refine ⟨g', ?_, h3⟩
      simp only [h1]; exact h2

/-- Specification: `a` and `b` are the same or on a common cycle. -/
def Mutual {α : Type} (g : Dg α) (a b : α) : Prop :=
  Relation.ReflTransGen g.Edge a b ∧ Relation.ReflTransGen g.Edge b a

theorem Mutual.trans {α : Type} {g : Dg α} {a b c} (h1 : Mutual g a b) (h2 : Mutual g b c) : Mutual g a c :=
  ⟨h1.1.trans h2.1, h2.2.trans h1.2⟩

theorem Mutual.symm {α : Type} {g : Dg α} {a b} (h1 : Mutual g a b) : Mutual g b a := ⟨h1.2, h1.1⟩

theorem collapse_nodes_cases {g : Dg Node} {k : Nat} {sub : List Node} {g' : Dg Node} (hwf : g.WF)
    (hfresh : ∀ n ∈ g.nodes, n.obj < k) (hs : sub.Nodup) (hsub : ∀ n ∈ sub, n ∈ g.nodes)
    (h : collapse g k sub = some g') {m : Node} (hm : m ∈ g'.nodes) :
    m ∈ g.nodes ∨ ∀ p ∈ m.procs, ∃ n ∈ sub, p ∈ n.procs := by
  rw [collapse, if_neg (by simpa using hsub)] at h
  by_cases h1 : sub = []
  · rw [if_pos h1] at h; cases h; exact .inl hm
  rw [if_neg h1] at h
  by_cases h2 : sub.length = 1 ∧ sub.all g.isolated
  · rw [if_pos h2] at h; cases h; exact .inl hm
  rw [if_neg h2] at h
  by_cases h3 : ∀ n ∈ g.nodes, n ∈ sub
  · rw [if_pos h3] at h
    cases h
    simp only [List.mem_singleton] at hm
    subst hm
    right; intro p hp
    obtain ⟨n, hn, hpn⟩ := List.mem_flatMap.1 hp
    exact ⟨n, h3 n hn, hpn⟩
  · rw [if_neg h3] at h
    cases h
    have hnn : groupNode k sub ∉ g.nodes := fun hm => by
      have := hfresh _ hm; simp [groupNode] at this
    rw [fold_nodes (fun hm => hnn (hsub _ hm)) sub g (fun _ h => h) hs hwf] at hm
    simp only [List.mem_append, List.mem_filter] at hm
    rcases hm with hm | hm
    · exact .inl hm.1
    · split at hm
      · simp only [List.mem_singleton] at hm
        subst hm
        exact .inr fun p hp => List.mem_flatMap.1 hp
      · simp at hm

theorem cycle_mutual {g0 : Dg Nat} {g : Dg Node} (hi : Grouping g0 g)
    (hm : ∀ A ∈ g.nodes, ∀ a ∈ A.procs, ∀ b ∈ A.procs, Mutual g0 a b) {c} (hc : IsCycle g c) :
    ∀ A ∈ c, ∀ B ∈ c, ∀ a ∈ A.procs, ∀ b ∈ B.procs, Relation.ReflTransGen g0.Edge a b := by
  have hstep : ∀ i (h : i < c.length), ∀ a ∈ c[i].procs,
      ∀ b ∈ (c[(i + 1) % c.length]'(Nat.mod_lt _ hc.pos)).procs, Relation.ReflTransGen g0.Edge a b := by
    intro i h a ha b hb
    obtain ⟨x, hx, y, hy, hxy⟩ := hi.sound _ _ (hc.edge i h)
    have hA := hc.mem_nodes hi.wf _ (List.getElem_mem h)
    have hB := hc.mem_nodes hi.wf _ (List.getElem_mem (Nat.mod_lt (i + 1) hc.pos))
    exact ((hm _ hA a ha x hx).1.tail hxy).trans (hm _ hB y hy b hb).1
  have hwalk : ∀ d i (h : i < c.length), ∀ a ∈ c[i].procs,
      ∀ b ∈ (c[(i + d) % c.length]'(Nat.mod_lt _ hc.pos)).procs, Relation.ReflTransGen g0.Edge a b := by
    intro d
    induction d with
    | zero =>
      intro i h a ha b hb
      have : (i + 0) % c.length = i := Nat.mod_eq_of_lt h
      simp only [this] at hb
      exact (hm _ (hc.mem_nodes hi.wf _ (List.getElem_mem h)) a ha b hb).1
    | succ d ih =>
      intro i h a ha b hb
      have hlt : (i + d) % c.length < c.length := Nat.mod_lt _ hc.pos
      have hmem := hc.mem_nodes hi.wf _ (List.getElem_mem hlt)
      obtain ⟨x, hx⟩ := List.exists_mem_of_ne_nil _ (hi.ne _ hmem)
      have e : ((i + d) % c.length + 1) % c.length = (i + (d + 1)) % c.length := by
        rw [Nat.mod_add_mod]; rfl
      refine (ih i h a ha x hx).trans (hstep _ hlt x hx b ?_)
      simp only [e]; exact hb
  intro A hA B hB a ha b hb
  obtain ⟨i, hi', rfl⟩ := List.mem_iff_getElem.1 hA
  obtain ⟨j, hj, rfl⟩ := List.mem_iff_getElem.1 hB
  refine hwalk (c.length - i + j) i hi' a ha b ?_
  have e : (i + (c.length - i + j)) % c.length = j := by
    have : i + (c.length - i + j) = j + c.length := by omega
    rw [this, Nat.add_mod_right, Nat.mod_eq_of_lt hj]
  simp only [e]; exact hb

/-- Only processes on a common cycle are merged. -/
theorem collapseCycles_mutual {g0 : Dg Nat} (h0 : g0.WF) (hnd0 : g0.nodes.Nodup) (hc0 : Connected g0)
    {longest} (hl : FindsCycle longest) (fuel k : Nat) (g g' : Dg Node) (hi : Inv g0 k g)
    (hm : ∀ A ∈ g.nodes, ∀ a ∈ A.procs, ∀ b ∈ A.procs, Mutual g0 a b)
    (h : collapseCycles longest fuel k g = some g') :
    ∀ A ∈ g'.nodes, ∀ a ∈ A.procs, ∀ b ∈ A.procs, Mutual g0 a b := by
  induction fuel generalizing k g with
  | zero => simp [collapseCycles] at h
  | succ fuel ih =>
    rw [collapseCycles] at h
    cases hg : longest g with
    | none => simp only [hg] at h; cases h; exact hm
    | some c =>
      have hc := hl.sound g c hg
      obtain ⟨g1, h1, hi1⟩ := collapse_inv h0 hnd0 hc0 hi hc.nodup (hc.mem_nodes hi.wf)
      simp only [hg, h1] at h
      refine ih (k + 1) g1 hi1 ?_ h
      intro A hA a ha b hb
      rcases collapse_nodes_cases hi.wf hi.fresh hc.nodup (hc.mem_nodes hi.wf) h1 hA with h2 | h2
      · exact hm A h2 a ha b hb
      · obtain ⟨n, hn, han⟩ := h2 a ha
        obtain ⟨m, hm', hbm⟩ := h2 b hb
        exact ⟨cycle_mutual hi.toGrouping hm hc n hn m hm' a han b hbm,
          cycle_mutual hi.toGrouping hm hc m hm' n hn b hbm a han⟩

/-- A path of processes gives a path of groups. -/
theorem path_lift {g0 : Dg Nat} {g : Dg Node} (hi : Grouping g0 g) (h0 : g0.WF) (hnd0 : g0.nodes.Nodup) {a b : Nat}
    (h : Relation.ReflTransGen g0.Edge a b) {A B : Node} (hA : A ∈ g.nodes) (ha : a ∈ A.procs)
    (hB : B ∈ g.nodes) (hb : b ∈ B.procs) : Relation.ReflTransGen g.Edge A B := by
  induction h generalizing B with
  | refl => rw [hi.unique hnd0 hA hB ha hb]
  | tail h1 h2 ih =>
    rename_i x y
    obtain ⟨C, hC, hx⟩ := hi.exists_node (h0 _ h2).1
    have h3 := ih hC hx
    by_cases he : C = B
    · rw [← he]; exact h3
    · exact h3.tail (hi.complete C hC B hB he _ hx _ hb h2)

theorem acyclic_no_mutual {g : Dg Node} (h : g.Acyclic) {A B : Node} (h1 : Mutual g A B) : A = B := by
  rcases Relation.reflTransGen_iff_eq_or_transGen.1 h1.1 with h2 | h2
  · exact h2.symm
  · exact absurd (h2.trans_left h1.2) (h A)

end Verif.Graphs
