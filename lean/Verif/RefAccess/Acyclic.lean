import Verif.RefAccess.Hang

/-!
# Accesses without circles
-/

namespace Verif.RefAccess

open Verif.EndToEnd (Phase Flags noFlags nextPhase)

variable {S V : Type} {y : Sys S V} {cs cd : Nat → Nat} {W : Nat → Prop}

/-- A method whose accesses all go to models that have finished finishes. -/
theorem goOn_done {i : Nat} (P : Prog S V) : ∀ (w : World S V), P.NoData → P.Own y cs cd W i →
    (∀ e, e < y.ne → y.src e = i → w.todo (y.dst e) = none) → (goOn y i P w).todo = put w.todo i none ∧ (goOn y i P w).d = w.d := by
  induction P with
  | ret s => intro w _ _ _; exact ⟨rfl, rfl⟩
  | read e k ih =>
    intro w hd ho h
    unfold goOn
    rw [h e ho.1 ho.2.1]
    exact ih _ w (hd _) (ho.2.2 _) h
  | write e v k ih =>
    intro w hd ho h
    unfold goOn
    rw [h e ho.1 ho.2.1]
    exact ih _ hd ho.2.2.2 h
  | send c v k ih => intro w hd; exact hd.elim
  | recv c k ih => intro w hd; exact hd.elim

/-- Those of rank 0 first, then those of rank 1, ... -/
def byRank (rank : Nat → Nat) (n : Nat) : Nat → List Nat
  | 0 => []
  | k + 1 => byRank rank n k ++ (List.range n).filter (fun i => rank i == k)

theorem byRank_done (hy : Tidy y cs cd W) {rank : Nat → Nat} (hrank : ∀ e, e < y.ne → rank (y.dst e) < rank (y.src e)) {ph : Phase}
    (hd : ∀ i s, (y.body i ph s).NoData) (r : Vals S V) (k : Nat) (w : World S V) (hw : (byRank rank y.n k).foldl (turn y) (called y ph r) = w) :
    (∀ i, i < y.n → rank i < k → w.todo i = none) ∧ (∀ i, w.todo i = none ∨ w.todo i = (called y ph r).todo i) ∧ w.d = r.2 := by
  induction k generalizing w with
  | zero => subst hw; exact ⟨fun i _ h => by omega, fun i => .inr rfl, rfl⟩
  | succ k ih =>
    rw [byRank, List.foldl_append] at hw
    obtain ⟨h1, h2, h3⟩ := ih _ rfl
    generalize (byRank rank y.n k).foldl (turn y) (called y ph r) = w0 at *
    have key : ∀ (l : List Nat), (∀ i ∈ l, i < y.n ∧ rank i = k) → ∀ (w0 w : World S V), l.foldl (turn y) w0 = w →
        (∀ i, i < y.n → rank i < k → w0.todo i = none) → (∀ i, w0.todo i = none ∨ w0.todo i = (called y ph r).todo i) → w0.d = r.2 →
        (∀ i, i < y.n → w0.todo i = none → w.todo i = none) ∧ (∀ i ∈ l, w.todo i = none) ∧ (∀ i, w.todo i = none ∨ w.todo i = (called y ph r).todo i) ∧
          w.d = r.2 := by
      intro l
      induction l with
      | nil => intro _ w0 w hw _ h2 h3; cases hw; exact ⟨fun _ _ h => h, fun i h => (by simp at h), h2, h3⟩
      | cons j l ihl =>
        intro hl w0 w hw h1 h2 h3
        rw [List.foldl_cons] at hw
        have ht : (turn y w0 j).todo = put w0.todo j none ∧ (turn y w0 j).d = w0.d := by
          unfold turn
          cases hj : w0.todo j with
          | none => refine ⟨?_, rfl⟩; dsimp only; rw [← hj, put_eq]
          | some P =>
            dsimp only
            have hjn := hl j (by simp)
            have hP : P = y.body j ph (r.1 j) := by
              rcases h2 j with h | h
              · rw [h] at hj; cases hj
              · rw [h, called_eq] at hj; simpa [hjn.1] using hj.symm
            subst hP
            refine goOn_done _ w0 (hd j _) (hy.own' j ph _) (fun e he hs => h1 _ (hy.dst_lt e he) ?_)
            have := hrank e he
            rw [hs] at this
            omega
        obtain ⟨a, b, c, d⟩ := ihl (fun i hi => hl i (by simp [hi])) (turn y w0 j) w hw
          (fun i hi hr => by rw [ht.1]; unfold put; split; rfl; exact h1 i hi hr)
          (fun i => by rw [ht.1]; unfold put; split; exact .inl rfl; exact h2 i) (by rw [ht.2]; exact h3)
        refine ⟨fun i hi h => a i hi (by rw [ht.1]; unfold put; split; rfl; exact h), fun i hi => ?_, c, d⟩
        rcases List.mem_cons.1 hi with rfl | hi
        · exact a i (hl i (by simp)).1 (by rw [ht.1, put_self])
        · exact b i hi
    obtain ⟨a, b, c, d⟩ := key _ (fun i hi => by simpa using hi) w0 w hw h1 h2 h3
    refine ⟨fun i hi hr => ?_, c, d⟩
    by_cases e : rank i = k
    · exact b i (by simp [hi, e])
    · exact a i hi (h1 i hi (by omega))

/-- A management phase without circles finishes, in the order of the ranks. -/
theorem acyclic_phase (hy : Tidy y cs cd W) {rank : Nat → Nat} (hrank : ∀ e, e < y.ne → rank (y.dst e) < rank (y.src e)) {ph : Phase}
    (hd : ∀ i s, (y.body i ph s).NoData) {R : Nat} (hR : ∀ i, i < y.n → rank i < R) (turns : Order S V) (r : Vals S V)
    (ht : turns ph r = byRank rank y.n R) : ∃ σ, phaseRef y turns ph r = some (σ, r.2) := by
  obtain ⟨h1, _, h3⟩ := byRank_done hy hrank hd r R _ rfl
  unfold phaseRef
  rw [ht]
  refine ⟨((byRank rank y.n R).foldl (turn y) (called y ph r)).σ, ?_⟩
  rw [if_pos (fun i hi => by rw [h1 i hi (hR i hi)]; rfl), h3]

theorem bounded (rank : Nat → Nat) (n : Nat) : ∃ R, ∀ i, i < n → rank i < R := by
  induction n with
  | zero => exact ⟨0, fun i h => by omega⟩
  | succ n ih =>
    obtain ⟨R, h⟩ := ih
    refine ⟨max R (rank n + 1), fun i hi => ?_⟩
    by_cases e : i = n
    · subst e; omega
    · have := h i (by omega); omega

/-- All runs finish in some order. -/
theorem acyclic_runs (hy : Tidy y cs cd W) {rank : Nat → Nat} (hrank : ∀ e, e < y.ne → rank (y.dst e) < rank (y.src e))
    (hpre : ∀ i s, (y.body i .pre s).NoData) (hpost : ∀ i s, (y.body i .post s).NoData) (turns : Order S V)
    (hspk : ∀ σ, ∃ σ', phaseRef y turns .spk (σ, fun _ => []) = some (σ', fun _ => []))
    (hlrn : ∀ σ, ∃ σ', phaseRef y turns .lrn (σ, fun _ => []) = some (σ', fun _ => [])) (runs : List Nat) :
    ∃ turns' r, runAll y turns' runs = some r := by
  obtain ⟨R, hR⟩ := bounded rank y.n
  refine ⟨fun ph r => if mgmt ph then byRank rank y.n R else turns ph r, ?_⟩
  generalize ht : (fun ph r => if mgmt ph then byRank rank y.n R else turns ph r : Order S V) = turns'
  have e1 : ∀ r, phaseRef y turns' .spk r = phaseRef y turns .spk r := by intro r; subst ht; rfl
  have e2 : ∀ r, phaseRef y turns' .lrn r = phaseRef y turns .lrn r := by intro r; subst ht; rfl
  have e3 : ∀ σ, ∃ σ', phaseRef y turns' .pre (σ, fun _ => []) = some (σ', fun _ => []) := fun σ =>
    acyclic_phase hy hrank hpre hR turns' _ (by subst ht; rfl)
  have e4 : ∀ σ, ∃ σ', phaseRef y turns' .post (σ, fun _ => []) = some (σ', fun _ => []) := fun σ =>
    acyclic_phase hy hrank hpost hR turns' _ (by subst ht; rfl)
  have opt : ∀ b ph, (∀ σ, ∃ σ', phaseRef y turns' ph (σ, fun _ => []) = some (σ', fun _ => [])) → ∀ σ : Nat → S,
      ∃ σ', phaseIf y turns' b ph (σ, fun _ => []) = some (σ', fun _ => []) := by
    intro b ph h σ
    cases b with
    | false => exact ⟨σ, rfl⟩
    | true => exact h σ
  have st : ∀ σ : Nat → S, ∃ σ', stepRef y turns' (σ, fun _ => []) = some (σ', fun _ => []) := by
    intro σ
    obtain ⟨σ1, h1⟩ := hspk σ
    obtain ⟨σ2, h2⟩ := opt (wantPre y (σ1, fun _ => [])) .pre e3 σ1
    obtain ⟨σ3, h3⟩ := opt (wantLrn y (σ1, fun _ => [])) .lrn (fun σ => by rw [e2]; exact hlrn σ) σ2
    obtain ⟨σ4, h4⟩ := opt (wantPost y (σ1, fun _ => []) (σ3, fun _ => [])) .post e4 σ3
    refine ⟨σ4, ?_⟩
    unfold stepRef
    rw [e1, h1]
    simp only [Option.bind_some]
    rw [h2]
    simp only [Option.bind_some]
    rw [h3]
    simp only [Option.bind_some]
    exact h4
  have sts : ∀ k (σ : Nat → S), ∃ σ', stepsRef y turns' k (σ, fun _ => []) = some (σ', fun _ => []) := by
    intro k
    induction k with
    | zero => intro σ; exact ⟨σ, rfl⟩
    | succ k ih =>
      intro σ
      obtain ⟨σ1, h1⟩ := st σ
      obtain ⟨σ2, h2⟩ := ih σ1
      exact ⟨σ2, by rw [stepsRef, h1]; exact h2⟩
  obtain ⟨σ, h⟩ := sts runs.sum y.init
  exact ⟨_, h⟩

end Verif.RefAccess
