import Mathlib.Data.List.Nodup
import Mathlib.Data.List.Perm.Subperm
import Verif.Graphs.Model

namespace Verif.Graphs

/-! ### find_processes -/

section Find
variable {P : Type} [DecidableEq P]

/-- Specification: `q` is connected to `p` by a chain of neighbours. -/
inductive Conn (nbrs : P → List P) : P → P → Prop where
  | refl (p) : Conn nbrs p p
  | step {p q r} : Conn nbrs p q → r ∈ nbrs q → Conn nbrs p r

theorem Conn.head {nbrs : P → List P} {p q r : P} (h : q ∈ nbrs p) (h2 : Conn nbrs q r) : Conn nbrs p r := by
  induction h2 with
  | refl => exact .step (.refl _) h
  | step _ h4 ih => exact .step ih h4

/-- What one call of `find_processes` guarantees. -/
structure FindSpec (nbrs : P → List P) (p : P) (seen : List P) (r : List P × List P) : Prop where
  mono : ∀ x ∈ seen, x ∈ r.1
  self : p ∈ r.1
  closed : ∀ x ∈ r.1, x ∉ seen → ∀ y ∈ nbrs x, y ∈ r.1
  sound : ∀ x ∈ r.1, x ∉ seen → Conn nbrs p x
  same : ∀ x, x ∈ r.2 ↔ x ∈ r.1

theorem find_spec (nbrs : P → List P) (ord : List P → List P) (hord : ∀ l x, x ∈ ord l ↔ x ∈ l)
    (lim : Nat) (p : P) (seen : List P) (r : List P × List P) (h : findProcs nbrs ord lim p seen = some r) :
    FindSpec nbrs p seen r := by
  induction lim generalizing p seen r with
  | zero => simp [findProcs] at h
  | succ lim ih =>
    rw [findProcs] at h
    simp only at h
    -- invariant of the loop
    let f := findStep (findProcs nbrs ord lim)
    have loop : ∀ (l : List P) (s s' : List P × List P), l.foldlM f s = some s' →
        (∀ q ∈ l, q ∈ nbrs p) →
        (∀ x ∈ seen, x ∈ s.1) → p ∈ s.1 →
        (∀ x ∈ s.1, x ∉ seen → x = p ∨ ∀ y ∈ nbrs x, y ∈ s.1) →
        (∀ x ∈ s.1, x ∉ seen → Conn nbrs p x) →
        (∀ x ∈ s.2, x ∈ s.1 ∨ x ∈ nbrs p) →
        (∀ x ∈ nbrs p, x ∈ s.2) →
        (∀ x ∈ seen, x ∈ s'.1) ∧ p ∈ s'.1 ∧
        (∀ x ∈ s'.1, x ∉ seen → x = p ∨ ∀ y ∈ nbrs x, y ∈ s'.1) ∧
        (∀ x ∈ s'.1, x ∉ seen → Conn nbrs p x) ∧
        (∀ x ∈ s'.2, x ∈ s'.1 ∨ x ∈ nbrs p) ∧ (∀ q ∈ l, q ∈ s'.1) ∧ (∀ x ∈ s.1, x ∈ s'.1) ∧
        (∀ x ∈ nbrs p, x ∈ s'.2) := by
      intro l
      induction l with
      | nil =>
        intro s s' hf _ h1 h2 h3 h4 h5 h6
        simp at hf; subst hf
        exact ⟨h1, h2, h3, h4, h5, by simp, fun x hx => hx, h6⟩
      | cons q l ihl =>
        intro s s' hf hl h1 h2 h3 h4 h5 h6
        simp only [List.foldlM_cons, f, findStep] at hf
        by_cases hq : q ∉ s.1
        · rw [if_pos hq] at hf
          cases hr : findProcs nbrs ord lim q s.1 with
          | none => simp [hr] at hf
          | some r =>
            rw [hr] at hf
            have hs := ih q s.1 r hr
            have hqn : q ∈ nbrs p := hl q (by simp)
            simp only [Option.bind_eq_bind, Option.bind_some] at hf
            have := ihl (r.1, s.2 ++ r.2) s' hf (fun x hx => hl x (by simp [hx]))
              (fun x hx => hs.mono x (h1 x hx)) (hs.mono p h2)
              (by
                intro x hx hxs
                by_cases hxm : x ∈ s.1
                · rcases h3 x hxm hxs with h7 | h7
                  · exact .inl h7
                  · exact .inr fun y hy => hs.mono y (h7 y hy)
                · exact .inr (hs.closed x hx hxm))
              (by
                intro x hx hxs
                by_cases hxm : x ∈ s.1
                · exact h4 x hxm hxs
                · exact Conn.head hqn (hs.sound x hx hxm))
              (by
                intro x hx
                simp only [List.mem_append] at hx
                rcases hx with hx | hx
                · rcases h5 x hx with h7 | h7
                  · exact .inl (hs.mono x h7)
                  · exact .inr h7
                · exact .inl ((hs.same x).1 hx))
              (fun x hx => by simp [h6 x hx])
            obtain ⟨a1, a2, a3, a4, a5, a6, a7, a8⟩ := this
            refine ⟨a1, a2, a3, a4, a5, ?_, fun x hx => a7 x (hs.mono x hx), a8⟩
            intro x hx
            simp only [List.mem_cons] at hx
            rcases hx with rfl | hx
            · exact a7 _ hs.self
            · exact a6 x hx
        · rw [if_neg hq] at hf
          simp only [Option.bind_eq_bind, Option.bind_some] at hf
          have hq' : q ∈ s.1 := Classical.not_not.1 hq
          obtain ⟨a1, a2, a3, a4, a5, a6, a7, a8⟩ := ihl s s' hf (fun x hx => hl x (by simp [hx])) h1 h2 h3 h4 h5 h6
          refine ⟨a1, a2, a3, a4, a5, ?_, a7, a8⟩
          intro x hx
          simp only [List.mem_cons] at hx
          rcases hx with rfl | hx
          · exact a7 _ hq'
          · exact a6 x hx
    cases hfold : (ord (nbrs p)).foldlM (findStep (findProcs nbrs ord lim)) (seen ++ [p], nbrs p) with
    | none => rw [hfold] at h; simp at h
    | some s =>
      obtain ⟨sn, nw⟩ := s
      rw [hfold] at h
      simp only [Option.bind_some, Option.some.injEq] at h
      subst h
      obtain ⟨a1, a2, a3, a4, a5, a6, a7, a8⟩ := loop (ord (nbrs p)) (seen ++ [p], nbrs p) (sn, nw) hfold
        (fun q hq => (hord _ _).1 hq) (fun x hx => by simp [hx]) (by simp)
        (by
          intro x hx hxs
          simp only [List.mem_append, List.mem_singleton] at hx
          rcases hx with hx | hx
          · exact absurd hx hxs
          · exact .inl hx)
        (by
          intro x hx hxs
          simp only [List.mem_append, List.mem_singleton] at hx
          rcases hx with hx | rfl
          · exact absurd hx hxs
          · exact .refl _)
        (fun x hx => .inr hx) (fun x hx => hx)
      have hnb : ∀ y ∈ nbrs p, y ∈ sn := fun y hy => a6 y ((hord _ _).2 hy)
      have hnw : ∀ x ∈ nw, x ∈ sn := by
        intro x hx
        rcases a5 x hx with h7 | h7
        · exact h7
        · exact hnb x h7
      have hmem : ∀ x, x ∈ sn ++ nw → x ∈ sn := by
        intro x hx
        simp only [List.mem_append] at hx
        rcases hx with hx | hx
        · exact hx
        · exact hnw x hx
      constructor
      · intro x hx; simp [a1 x hx]
      · simp only [List.mem_append]; exact .inl a2
      · intro x hx hxs y hy
        simp only [List.mem_append]
        left
        rcases a3 x (hmem x hx) hxs with rfl | h7
        · exact hnb y hy
        · exact h7 y hy
      · intro x hx hxs; exact a4 x (hmem x hx) hxs
      · intro x; exact hord _ x

theorem count_le (l s t : List P) (hst : ∀ x ∈ s, x ∈ t) :
    (l.filter (· ∉ t)).length ≤ (l.filter (· ∉ s)).length := by
  induction l with
  | nil => simp
  | cons a l ihl =>
    simp only [List.filter_cons]
    by_cases h1 : a ∈ t
    · by_cases h2 : a ∈ s
      · simpa [h1, h2] using ihl
      · simp [h1, h2] at ihl ⊢; omega
    · have h2 : a ∉ s := fun h => h1 (hst a h)
      simp [h1, h2] at ihl ⊢; omega

theorem count_lt (l s t : List P) (p : P) (hm : p ∈ l) (hs : p ∉ s) (ht : p ∈ t) (hst : ∀ x ∈ s, x ∈ t) :
    (l.filter (· ∉ t)).length < (l.filter (· ∉ s)).length := by
  induction l with
  | nil => simp at hm
  | cons a l ihl =>
    have hw := count_le l s t hst
    simp only [List.filter_cons]
    by_cases hap : p = a
    · subst hap
      simp [ht, hs] at hw ⊢; omega
    · have hr := ihl (by simpa [hap] using hm)
      by_cases h1 : a ∈ t
      · by_cases h2 : a ∈ s
        · simpa [h1, h2] using hr
        · simp [h1, h2] at hr ⊢; omega
      · have h2 : a ∉ s := fun h => h1 (hst a h)
        simp [h1, h2] at hr ⊢; omega

/-- With a recursion limit above the number of processes the search returns. -/
theorem find_returns (nbrs : P → List P) (ord : List P → List P) (hord : ∀ l x, x ∈ ord l ↔ x ∈ l)
    (univ : List P) (hcl : ∀ x ∈ univ, ∀ y ∈ nbrs x, y ∈ univ) (lim : Nat) (p : P) (seen : List P)
    (hp : p ∈ univ) (hps : p ∉ seen) (hlim : (univ.filter (· ∉ seen)).length ≤ lim) :
    ∃ r, findProcs nbrs ord lim p seen = some r := by
  induction lim generalizing p seen with
  | zero =>
    exfalso
    have : p ∈ univ.filter (· ∉ seen) := by simp [hp, hps]
    have := List.length_pos_of_mem this
    omega
  | succ lim ih =>
    rw [findProcs]
    simp only
    let f := findStep (findProcs nbrs ord lim)
    have loop : ∀ (l : List P) (s : List P × List P), (∀ q ∈ l, q ∈ univ) →
        (∀ x ∈ seen ++ [p], x ∈ s.1) → ∃ s', l.foldlM f s = some s' := by
      intro l
      induction l with
      | nil => intro s _ _; exact ⟨s, rfl⟩
      | cons q l ihl =>
        intro s hl hs
        simp only [List.foldlM_cons, f, findStep]
        by_cases hq : q ∉ s.1
        · rw [if_pos hq]
          have hlt := count_lt univ seen s.1 p hp hps (hs p (by simp)) (fun x hx => hs x (by simp [hx]))
          obtain ⟨r, hr⟩ := ih q s.1 (hl q (by simp)) hq (by omega)
          rw [hr]
          have hsp := find_spec nbrs ord hord lim q s.1 r hr
          exact ihl (r.1, s.2 ++ r.2) (fun x hx => hl x (by simp [hx])) (fun x hx => hsp.mono x (hs x hx))
        · rw [if_neg hq]
          exact ihl s (fun x hx => hl x (by simp [hx])) hs
    obtain ⟨s', hs'⟩ := loop (ord (nbrs p)) (seen ++ [p], nbrs p)
      (fun q hq => hcl p hp q ((hord _ _).1 hq)) (fun x hx => hx)
    refine ⟨(s'.1 ++ s'.2, ord (s'.1 ++ s'.2)), ?_⟩
    simp only [f] at hs'
    rw [hs']; rfl

end Find

/-! ### is_dag -/

section Dag
variable {α : Type} [DecidableEq α]

/-- Edge relation. -/
def Dg.Edge (g : Dg α) (a b : α) : Prop := (a, b) ∈ g.edges

/-- Every edge connects nodes of the graph. -/
def Dg.WF (g : Dg α) : Prop := ∀ e ∈ g.edges, e.1 ∈ g.nodes ∧ e.2 ∈ g.nodes

/-- Specification: no directed cycle (self loops included). -/
def Dg.Acyclic (g : Dg α) : Prop := ∀ n, ¬ Relation.TransGen g.Edge n n

theorem hasOut_iff {g : Dg α} {n} : g.hasOut n = true ↔ ∃ m, g.Edge n m := by
  simp only [Dg.hasOut, List.any_eq_true, decide_eq_true_eq, Dg.Edge]
  constructor
  · rintro ⟨⟨a, b⟩, h, rfl⟩; exact ⟨b, h⟩
  · rintro ⟨m, h⟩; exact ⟨(n, m), h, rfl⟩

theorem hasIn_iff {g : Dg α} {n} : g.hasIn n = true ↔ ∃ m, g.Edge m n := by
  simp only [Dg.hasIn, List.any_eq_true, decide_eq_true_eq, Dg.Edge]
  constructor
  · rintro ⟨⟨a, b⟩, h, rfl⟩; exact ⟨a, h⟩
  · rintro ⟨m, h⟩; exact ⟨(m, n), h, rfl⟩

theorem remove_edge {g : Dg α} {l a b} : (g.remove l).Edge a b ↔ g.Edge a b ∧ a ∉ l ∧ b ∉ l := by
  simp [Dg.Edge, Dg.remove]

theorem remove_wf {g : Dg α} (h : g.WF) (l) : (g.remove l).WF := by
  intro e he
  simp only [Dg.remove, List.mem_filter, decide_eq_true_eq] at he ⊢
  exact ⟨⟨(h e he.1).1, he.2.1⟩, ⟨(h e he.1).2, he.2.2⟩⟩

theorem trans_last {r : α → α → Prop} {a b} (h : Relation.TransGen r a b) : ∃ c, r c b := by
  induction h with
  | single h => exact ⟨_, h⟩
  | tail _ h _ => exact ⟨_, h⟩

theorem trans_append {r : α → α → Prop} {a b c} (h1 : Relation.TransGen r a b) (h2 : Relation.TransGen r b c) :
    Relation.TransGen r a c := by
  induction h2 with
  | single h => exact .tail h1 h
  | tail _ h ih => exact .tail ih h

theorem trans_mono {r s : α → α → Prop} (hrs : ∀ a b, r a b → s a b) {a b} (h : Relation.TransGen r a b) :
    Relation.TransGen s a b := by
  induction h with
  | single h => exact .single (hrs _ _ h)
  | tail _ h ih => exact .tail ih (hrs _ _ h)

theorem trans_head_edge {r : α → α → Prop} {a b} (h : Relation.TransGen r a b) : ∃ c, r a c := by
  induction h with
  | single h => exact ⟨_, h⟩
  | tail _ _ ih => exact ih

/-- Nodes without incoming edges are on no cycle, so removing them keeps all cycles. -/
theorem acyclic_remove {g : Dg α} {l : List α} (hl : ∀ n ∈ l, ∀ m, ¬ g.Edge m n) :
    (g.remove l).Acyclic ↔ g.Acyclic := by
  constructor
  · intro h n hn
    have key : ∀ a b, Relation.TransGen g.Edge a b → a ∉ l → Relation.TransGen (g.remove l).Edge a b := by
      intro a b hab ha
      induction hab with
      | single h1 => exact .single (remove_edge.2 ⟨h1, ha, fun hb => hl _ hb _ h1⟩)
      | tail h1 h2 ih =>
        rename_i b c
        obtain ⟨x, hx⟩ := trans_last h1
        exact .tail ih (remove_edge.2 ⟨h2, fun hb => hl _ hb _ hx, fun hc => hl _ hc _ h2⟩)
    obtain ⟨x, hx⟩ := trans_last hn
    exact h n (key n n hn (fun hm => hl n hm x hx))
  · intro h n hn
    exact h n (trans_mono (fun a b hab => (remove_edge.1 hab).1) hn)

theorem residual_spec (g : Dg α) (hw : g.WF) :
    g.residual.WF ∧ g.residual.leaves = [] ∧ (g.residual.Acyclic ↔ g.Acyclic) ∧
    (∀ n ∈ g.residual.nodes, n ∈ g.nodes) ∧ (∀ a b, g.residual.Edge a b → g.Edge a b) := by
  induction hn : g.nodes.length using Nat.strongRecOn generalizing g with
  | _ k ih =>
    rw [Dg.residual]
    split
    · rename_i h
      exact ⟨hw, h, Iff.rfl, fun n h => h, fun a b h => h⟩
    · rename_i h
      have hlt := remove_lt g h
      obtain ⟨h1, h2, h3, h4, h5⟩ := ih _ (by omega) (g.remove g.leaves) (remove_wf hw _) rfl
      refine ⟨h1, h2, h3.trans (acyclic_remove ?_), ?_, ?_⟩
      · intro n hn m hm
        have := (List.mem_filter.1 hn).2
        simp only [Dg.pureIn, Bool.and_eq_true, Bool.not_eq_true'] at this
        have h6 := hasIn_iff.2 ⟨m, hm⟩
        rw [h6] at this
        exact absurd this.2 (by simp)
      · intro n hn
        have := h4 n hn
        simp only [Dg.remove, List.mem_filter] at this
        exact this.1
      · intro a b hab
        exact (remove_edge.1 (h5 a b hab)).1

/-- In a finite graph in which every node with an outgoing edge has an incoming one, an edge implies a cycle. -/
theorem cycle_of_no_leaves {g : Dg α} (hw : g.WF) (hl : g.leaves = []) {a b : α} (hab : g.Edge a b) :
    ∃ n, Relation.TransGen g.Edge n n := by
  have hin : ∀ n, (∃ m, g.Edge n m) → ∃ m, g.Edge m n := by
    intro n hn
    have hmem : n ∈ g.nodes := by obtain ⟨m, hm⟩ := hn; exact (hw _ hm).1
    by_cases h : ∃ m, g.Edge m n
    · exact h
    · exfalso
      have hp : g.pureIn n = true := by
        simp only [Dg.pureIn, Bool.and_eq_true, Bool.not_eq_true']
        refine ⟨hasOut_iff.2 hn, ?_⟩
        cases hx : g.hasIn n
        · rfl
        · exact absurd (hasIn_iff.1 hx) h
      have : n ∈ g.leaves := List.mem_filter.2 ⟨hmem, hp⟩
      rw [hl] at this; simp at this
  -- an infinite walk backwards
  have : ∃ f : Nat → α, ∀ i, g.Edge (f (i + 1)) (f i) := by
    choose! pr hpr using hin
    have hstep : ∀ i, ∃ m, g.Edge (Nat.rec a (fun _ x => pr x) i) m := by
      intro i
      induction i with
      | zero => exact ⟨b, hab⟩
      | succ i ih => exact ⟨_, hpr _ ih⟩
    exact ⟨fun i => Nat.rec a (fun _ x => pr x) i, fun i => hpr _ (hstep i)⟩
  obtain ⟨f, hf⟩ := this
  have hwalk : ∀ i d, Relation.TransGen g.Edge (f (i + d + 1)) (f i) := by
    intro i d
    induction d with
    | zero => exact .single (hf i)
    | succ d ih => exact trans_append (.single (hf (i + d + 1))) ih
  by_cases hnd : ((List.range (g.nodes.length + 1)).map f).Nodup
  · exfalso
    have hsub : (List.range (g.nodes.length + 1)).map f ⊆ g.nodes := by
      intro x hx
      obtain ⟨i, _, rfl⟩ := List.mem_map.1 hx
      exact (hw _ (hf i)).2
    have := (List.subperm_of_subset hnd hsub).length_le
    simp at this
    omega
  · rw [List.nodup_map_iff_inj_on List.nodup_range] at hnd
    simp only [not_forall] at hnd
    obtain ⟨i, _, j, _, hij, hne⟩ := hnd
    rcases Nat.lt_or_gt_of_ne hne with h | h
    · obtain ⟨d, rfl⟩ : ∃ d, j = i + d + 1 := ⟨j - i - 1, by omega⟩
      have := hwalk i d
      rw [← hij] at this
      exact ⟨_, this⟩
    · obtain ⟨d, rfl⟩ : ∃ d, i = j + d + 1 := ⟨i - j - 1, by omega⟩
      have := hwalk j d
      rw [hij] at this
      exact ⟨_, this⟩

end Dag

end Verif.Graphs
