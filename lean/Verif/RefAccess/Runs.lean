import Verif.RefAccess.Round

/-!
# Time steps and runs
-/

namespace Verif.RefAccess

open Verif.EndToEnd (Phase Flags noFlags nextPhase)

variable {S V : Type} {y : Sys S V} {cs cd : Nat → Nat} {W : Nat → Prop}

def isPre : Msg V → Bool | .reqPre => true | _ => false
def isLrn : Msg V → Bool | .reqLrn => true | _ => false
def isPost : Msg V → Bool | .reqPost => true | _ => false

theorem addReq_eq (f : Flags) (r : Msg V) : addReq f r = ⟨f.pre || isPre r, f.lrn || isLrn r, f.post || isPost r⟩ := by
  cases r <;> simp [addReq, isPre, isLrn, isPost]

theorem collected_any (ph : Phase) (σ : Nat → S) (f : Flags) (k : Nat) : collected y ph σ f k =
    ⟨f.pre || (List.range k).any (fun i => isPre (y.respOf i ph (σ i))), f.lrn || (List.range k).any (fun i => isLrn (y.respOf i ph (σ i))),
      f.post || (List.range k).any (fun i => isPost (y.respOf i ph (σ i)))⟩ := by
  induction k with
  | zero => simp [collected]
  | succ k ih =>
    have : collected y ph σ f (k + 1) = addReq (collected y ph σ f k) (y.respOf k ph (σ k)) := by simp [collected, List.range_succ]
    rw [this, addReq_eq, ih]
    simp [List.range_succ, List.any_append, Bool.or_assoc]

theorem any_congr {g h : Nat → Bool} (hgh : ∀ i, g i = h i) (l : List Nat) : l.any g = l.any h := by rw [funext hgh]

theorem any_false (l : List Nat) : l.any (fun _ => false) = false := by simp

theorem collected_spk (σ : Nat → S) : collected y .spk σ noFlags y.n =
    ⟨anyOf y (fun i s => y.lrnGuard i s && y.preGuard i s) σ, anyOf y (fun i s => y.lrnGuard i s && !y.preGuard i s) σ,
      anyOf y (fun i s => !y.lrnGuard i s && y.postGuard i s) σ⟩ := by
  rw [collected_any]
  unfold anyOf
  simp only [noFlags, Bool.false_or]
  congr 1 <;> refine any_congr (fun i => ?_) _ <;> unfold Sys.respOf <;> dsimp only <;>
    cases y.lrnGuard i (σ i) <;> cases y.preGuard i (σ i) <;> cases y.postGuard i (σ i) <;> rfl

theorem collected_pre (hn : 0 < y.n) (σ : Nat → S) (b c : Bool) : collected y .pre σ ⟨false, b, c⟩ y.n = ⟨false, true, c⟩ := by
  rw [collected_any]
  have : (List.range y.n).any (fun _ => true) = true := by
    rw [List.any_eq_true]; exact ⟨0, by simpa using hn, rfl⟩
  simp [Sys.respOf, isPre, isLrn, isPost, this]

theorem collected_lrn (σ : Nat → S) (c : Bool) : collected y .lrn σ ⟨false, false, c⟩ y.n = ⟨false, false, c || anyOf y y.postGuard σ⟩ := by
  rw [collected_any]
  unfold anyOf
  simp only [Bool.false_or]
  congr 1
  · rw [← any_false (List.range y.n)]
    refine any_congr (fun i => ?_) _
    unfold Sys.respOf; dsimp only; cases y.postGuard i (σ i) <;> rfl
  · rw [← any_false (List.range y.n)]
    refine any_congr (fun i => ?_) _
    unfold Sys.respOf; dsimp only; cases y.postGuard i (σ i) <;> rfl
  · congr 1
    refine any_congr (fun i => ?_) _
    unfold Sys.respOf; dsimp only; cases y.postGuard i (σ i) <;> rfl

theorem collected_post (σ : Nat → S) : collected y .post σ noFlags y.n = noFlags := by
  rw [collected_any]
  simp [Sys.respOf, isPre, isLrn, isPost, noFlags]

theorem any_split (g h : Nat → S → Bool) (σ : Nat → S) :
    (anyOf y (fun i s => g i s && h i s) σ || anyOf y (fun i s => g i s && !h i s) σ) = anyOf y g σ := by
  unfold anyOf
  induction List.range y.n with
  | nil => rfl
  | cons i l ih =>
    simp only [List.any_cons] at ih ⊢
    rw [← ih]
    cases g i (σ i) <;> cases h i (σ i) <;> simp [Bool.or_comm]

/-- The requests after the spiking phase. -/
def reqs (y : Sys S V) (r1 : Vals S V) : Flags := ⟨wantPre y r1, anyOf y (fun i s => y.lrnGuard i s && !y.preGuard i s) r1.1,
  anyOf y (fun i s => !y.lrnGuard i s && y.postGuard i s) r1.1⟩

theorem spk_reach (hy : Tidy y cs cd W) (turns : Order S V) (lp : Phase) {t cur : Nat} {rs : List Nat} {r r1 : Vals S V} (hlt : cur < t)
    (h1 : phaseRef y turns .spk r = some r1) :
    Reach y (calm y ⟨.top t cur, noFlags, rs⟩ lp r.1 r.2) (calm y ⟨.top t (cur + 1), reqs y r1, rs⟩ .spk r1.1 r1.2) := by
  have e0 : (cur == t) = false := by simp; omega
  have s1 := phase_reach hy turns lp (rs := rs) (f := noFlags) (f' := noFlags) (ph := .spk) (t := t) (cur := cur) (by rw [e0]; rfl) (by decide) h1
  rw [collected_spk, if_pos rfl] at s1
  exact s1

theorem pre_reach (hy : Tidy y cs cd W) (turns : Order S V) {t cur : Nat} {rs : List Nat} {r1 r2 : Vals S V}
    (h2 : phaseIf y turns (wantPre y r1) .pre r1 = some r2) :
    ∃ ph, Reach y (calm y ⟨.top t cur, reqs y r1, rs⟩ .spk r1.1 r1.2) (calm y ⟨.top t cur, ⟨false, wantLrn y r1, (reqs y r1).post⟩, rs⟩ ph r2.1 r2.2) := by
  have hL : (wantPre y r1 || (reqs y r1).lrn) = wantLrn y r1 := any_split (y := y) y.lrnGuard y.preGuard r1.1
  rw [← hL]
  have e : reqs y r1 = ⟨wantPre y r1, (reqs y r1).lrn, (reqs y r1).post⟩ := rfl
  rw [e]
  dsimp only
  generalize (reqs y r1).lrn = B at *
  generalize (reqs y r1).post = C at *
  generalize wantPre y r1 = A at *
  cases A with
  | false =>
    simp only [phaseIf, Bool.false_eq_true, if_false, Option.some.injEq] at h2
    subst h2
    exact ⟨.spk, by simpa using Reach.refl _⟩
  | true =>
    have h2 : phaseRef y turns .pre r1 = some r2 := by simpa [phaseIf] using h2
    have := phase_reach hy turns .spk (rs := rs) (f := ⟨true, B, C⟩) (f' := ⟨false, B, C⟩) (ph := .pre) (t := t) (cur := cur) rfl (by decide) h2
    rw [collected_pre hy.some_model, if_neg (by decide)] at this
    exact ⟨.pre, by simpa using this⟩

theorem lrn_reach (hy : Tidy y cs cd W) (turns : Order S V) {t cur : Nat} {rs : List Nat} (p2 : Phase) {r1 r2 r3 : Vals S V}
    (h3 : phaseIf y turns (wantLrn y r1) .lrn r2 = some r3) :
    ∃ ph, Reach y (calm y ⟨.top t cur, ⟨false, wantLrn y r1, (reqs y r1).post⟩, rs⟩ p2 r2.1 r2.2)
      (calm y ⟨.top t cur, ⟨false, false, wantPost y r1 r3⟩, rs⟩ ph r3.1 r3.2) := by
  have e : wantPost y r1 r3 = ((reqs y r1).post || (wantLrn y r1 && anyOf y y.postGuard r3.1)) := rfl
  rw [e]
  generalize (reqs y r1).post = C at *
  generalize wantLrn y r1 = L at *
  cases L with
  | false =>
    simp only [phaseIf, Bool.false_eq_true, if_false, Option.some.injEq] at h3
    subst h3
    exact ⟨p2, by simpa using Reach.refl _⟩
  | true =>
    have h3 : phaseRef y turns .lrn r2 = some r3 := by simpa [phaseIf] using h3
    have := phase_reach hy turns p2 (rs := rs) (f := ⟨false, true, C⟩) (f' := ⟨false, false, C⟩) (ph := .lrn) (t := t) (cur := cur) rfl (by decide) h3
    rw [collected_lrn, if_neg (by decide)] at this
    exact ⟨.lrn, by simpa using this⟩

/-- A time step. -/
theorem step_reach (hy : Tidy y cs cd W) (turns : Order S V) (lp : Phase) {t cur : Nat} {rs : List Nat}
    {r r' : Vals S V} (hlt : cur < t) (hr : stepRef y turns r = some r') :
    ∃ ph, Reach y (calm y ⟨.top t cur, noFlags, rs⟩ lp r.1 r.2) (calm y ⟨.top t (cur + 1), noFlags, rs⟩ ph r'.1 r'.2) := by
  unfold stepRef at hr
  rw [Option.bind_eq_some_iff] at hr
  obtain ⟨r1, h1, hr⟩ := hr
  rw [Option.bind_eq_some_iff] at hr
  obtain ⟨r2, h2, hr⟩ := hr
  rw [Option.bind_eq_some_iff] at hr
  obtain ⟨r3, h3, h4⟩ := hr
  have s1 := spk_reach hy turns lp (rs := rs) hlt h1
  obtain ⟨p2, s2⟩ := pre_reach hy turns (t := t) (cur := cur + 1) (rs := rs) h2
  obtain ⟨p3, s3⟩ := lrn_reach hy turns (t := t) (cur := cur + 1) (rs := rs) p2 h3
  generalize wantPost y r1 r3 = P at *
  have s4 : ∃ ph, Reach y (calm y ⟨.top t (cur + 1), ⟨false, false, P⟩, rs⟩ p3 r3.1 r3.2) (calm y ⟨.top t (cur + 1), noFlags, rs⟩ ph r'.1 r'.2) := by
    cases P with
    | false =>
      simp only [phaseIf, Bool.false_eq_true, if_false, Option.some.injEq] at h4
      subst h4
      exact ⟨p3, Reach.refl _⟩
    | true =>
      have h4 : phaseRef y turns .post r3 = some r' := by simpa [phaseIf] using h4
      have := phase_reach hy turns p3 (rs := rs) (f := ⟨false, false, true⟩) (f' := noFlags) (ph := .post) (t := t) (cur := cur + 1) rfl (by decide) h4
      rw [collected_post, if_neg (by decide)] at this
      exact ⟨.post, this⟩
  obtain ⟨p4, s4⟩ := s4
  exact ⟨p4, ((s1.trans s2).trans s3).trans s4⟩

/-- The methods of PRE_MGMT are called. -/
theorem atPre_reach (hy : Tidy y cs cd W) (turns : Order S V) (lp : Phase) {t cur : Nat} {rs : List Nat} {r r' : Vals S V} (hlt : cur < t)
    (hr : atPre y turns r = some r') :
    ∃ f, Reach y (calm y ⟨.top t cur, noFlags, rs⟩ lp r.1 r.2) (during y ⟨.collect .pre (List.range y.n) t (cur + 1), f, rs⟩ .pre (called y .pre r')) := by
  unfold atPre at hr
  rw [Option.bind_eq_some_iff] at hr
  obtain ⟨r1, h1, hr⟩ := hr
  split at hr
  · rename_i hw
    cases hr
    refine ⟨{ reqs y r' with pre := false }, (spk_reach hy turns lp (rs := rs) hlt h1).trans ?_⟩
    exact called_reach hy .spk (ph := .pre) (f' := { reqs y r' with pre := false }) (by simp [nextPhase, reqs, hw]) (by decide)
  · cases hr

/-- The methods of POST_MGMT are called. -/
theorem atPost_reach (hy : Tidy y cs cd W) (turns : Order S V) (lp : Phase) {t cur : Nat} {rs : List Nat} {r r' : Vals S V} (hlt : cur < t)
    (hr : atPost y turns r = some r') :
    ∃ f, Reach y (calm y ⟨.top t cur, noFlags, rs⟩ lp r.1 r.2) (during y ⟨.collect .post (List.range y.n) t (cur + 1), f, rs⟩ .post (called y .post r')) := by
  unfold atPost at hr
  rw [Option.bind_eq_some_iff] at hr
  obtain ⟨r1, h1, hr⟩ := hr
  rw [Option.bind_eq_some_iff] at hr
  obtain ⟨r2, h2, hr⟩ := hr
  rw [Option.bind_eq_some_iff] at hr
  obtain ⟨r3, h3, h4⟩ := hr
  split at h4
  · rename_i hw
    cases h4
    have s1 := spk_reach hy turns lp (rs := rs) hlt h1
    obtain ⟨p2, s2⟩ := pre_reach hy turns (t := t) (cur := cur + 1) (rs := rs) h2
    obtain ⟨p3, s3⟩ := lrn_reach hy turns (t := t) (cur := cur + 1) (rs := rs) p2 h3
    refine ⟨noFlags, ((s1.trans s2).trans s3).trans ?_⟩
    exact called_reach hy p3 (ph := .post) (f' := noFlags) (by simp [nextPhase, hw, noFlags]) (by decide)
  · cases h4

theorem steps_reach (hy : Tidy y cs cd W) (turns : Order S V) (k : Nat) : ∀ (lp : Phase) {t cur : Nat} {rs : List Nat}
    {r r' : Vals S V}, cur + k ≤ t → stepsRef y turns k r = some r' →
    ∃ ph, Reach y (calm y ⟨.top t cur, noFlags, rs⟩ lp r.1 r.2) (calm y ⟨.top t (cur + k), noFlags, rs⟩ ph r'.1 r'.2) := by
  induction k with
  | zero => intro lp t cur rs r r' _ h; cases h; exact ⟨lp, .refl _⟩
  | succ k ih =>
    intro lp t cur rs r r' hle h
    rw [stepsRef, Option.bind_eq_some_iff] at h
    obtain ⟨r1, h1, h2⟩ := h
    obtain ⟨p1, s1⟩ := step_reach hy turns lp (t := t) (cur := cur) (rs := rs) (by omega) h1
    obtain ⟨p2, s2⟩ := ih p1 (t := t) (cur := cur + 1) (rs := rs) (by omega) h2
    rw [show cur + 1 + k = cur + (k + 1) by omega] at s2
    exact ⟨p2, s1.trans s2⟩

theorem stepsRef_add (turns : Order S V) (j k : Nat) (r : Vals S V) :
    stepsRef y turns (j + k) r = (stepsRef y turns j r).bind (stepsRef y turns k) := by
  induction j generalizing r with
  | zero => simp [stepsRef]
  | succ j ih =>
    rw [Nat.add_right_comm, stepsRef, stepsRef]
    cases h : stepRef y turns r with
    | none => rfl
    | some a => simpa using ih a

theorem runs_reach (hy : Tidy y cs cd W) (turns : Order S V) (runs : List Nat) : ∀ (lp : Phase) {r r' : Vals S V},
    stepsRef y turns runs.sum r = some r' →
    ∃ ph, Reach y (calm y ⟨.idle, noFlags, runs⟩ lp r.1 r.2) (calm y ⟨.idle, noFlags, []⟩ ph r'.1 r'.2) := by
  induction runs with
  | nil => intro lp r r' h; cases h; exact ⟨lp, .refl _⟩
  | cons t ts ih =>
    intro lp r r' h
    rw [List.sum_cons, stepsRef_add, Option.bind_eq_some_iff] at h
    obtain ⟨r1, h1, h2⟩ := h
    have s0 := Reach.one (Trans.start (y := y) (x := ⟨.idle, noFlags, t :: ts⟩) (m := fun i => ⟨r.1 i, if i < y.n then lp else .spk, .idle⟩)
      (ch := chOf r.2 fun _ => []) rfl rfl)
    obtain ⟨p1, s1⟩ := steps_reach hy turns t lp (t := t) (cur := 0) (rs := ts) (by omega) h1
    rw [Nat.zero_add] at s1
    have s2 := host_reach hy p1 (t := t) (cur := t) (f := noFlags) (rs := ts) (σ := r1.1) (d := r1.2) (by simp [nextPhase, noFlags])
    obtain ⟨p3, s3⟩ := ih .host h2
    exact ⟨p3, ((s0.trans s1).trans s2).trans s3⟩

/-- After `k` time steps of the runs. -/
theorem arrive_reach (hy : Tidy y cs cd W) (turns : Order S V) (runs : List Nat) : ∀ (lp : Phase) (k : Nat) {r r' : Vals S V},
    k < runs.sum → stepsRef y turns k r = some r' →
    ∃ t cur rs ph, cur < t ∧ Reach y (calm y ⟨.idle, noFlags, runs⟩ lp r.1 r.2) (calm y ⟨.top t cur, noFlags, rs⟩ ph r'.1 r'.2) := by
  induction runs with
  | nil => intro lp k r r' hk; simp at hk
  | cons t ts ih =>
    intro lp k r r' hk h
    have s0 := Reach.one (Trans.start (y := y) (x := ⟨.idle, noFlags, t :: ts⟩) (m := fun i => ⟨r.1 i, if i < y.n then lp else .spk, .idle⟩)
      (ch := chOf r.2 fun _ => []) rfl rfl)
    rw [List.sum_cons] at hk
    rcases Nat.lt_or_ge k t with hlt | hge
    · obtain ⟨p1, s1⟩ := steps_reach hy turns k lp (t := t) (cur := 0) (rs := ts) (by omega) h
      exact ⟨t, 0 + k, ts, p1, by omega, s0.trans s1⟩
    · rw [show k = t + (k - t) by omega, stepsRef_add, Option.bind_eq_some_iff] at h
      obtain ⟨r1, h1, h2⟩ := h
      obtain ⟨p1, s1⟩ := steps_reach hy turns t lp (t := t) (cur := 0) (rs := ts) (by omega) h1
      rw [Nat.zero_add] at s1
      have s2 := host_reach hy p1 (t := t) (cur := t) (f := noFlags) (rs := ts) (σ := r1.1) (d := r1.2) (by simp [nextPhase, noFlags])
      obtain ⟨t', cur', rs', p3, hlt, s3⟩ := ih .host (k - t) (by omega) h2
      exact ⟨t', cur', rs', p3, hlt, ((s0.trans s1).trans s2).trans s3⟩

/-- The start is calm. -/
theorem initial_calm (runs : List Nat) : initial y runs = calm y ⟨.idle, noFlags, runs⟩ .spk y.init (fun _ => []) := by
  have h : At (initial y runs) ⟨.idle, noFlags, runs⟩ (fun i => ⟨y.init i, .spk, .idle⟩) := ⟨rfl, fun _ => rfl⟩
  rw [h.eq_mk]
  unfold calm
  congr 1
  · funext i; simp
  · funext c; cases c <;> rfl

/-- When all runs are done nobody can do anything. -/
theorem calm_stuck (f : Flags) (ph : Phase) (σ : Nat → S) (d : Nat → List V) : Stuck (net y) (calm y ⟨.idle, f, []⟩ ph σ d) := by
  intro l
  cases h : step (net y) (calm y ⟨.idle, f, []⟩ ph σ d) l with
  | none => rfl
  | some s =>
    obtain ⟨x', m', -, ht⟩ := step_trans (at_mk _ _ _) h
    generalize s.chan = ch' at ht
    cases ht with
    | start _ h2 => cases h2
    | top h1 => cases h1
    | tell h1 => cases h1
    | told h1 => cases h1
    | hear h1 => cases h1
    | heard h1 => cases h1
    | host _ _ h3 => cases h3
    | phase _ _ h3 => cases h3
    | badCmd _ _ h3 => cases h3
    | get _ _ _ _ _ h3 => cases h3
    | set _ _ _ _ _ h3 => cases h3
    | badReq _ _ _ _ _ h3 => cases h3
    | ret _ h2 => cases h2
    | read _ h2 => cases h2
    | write _ h2 => cases h2
    | send _ h2 => cases h2
    | recv _ h2 => cases h2
    | badRecv _ h2 => cases h2
    | reply _ h2 => cases h2
    | badReply _ h2 => cases h2

end Verif.RefAccess
