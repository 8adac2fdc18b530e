import Verif.RefAccess.Canon

/-!
# A round of the service: command, methods, responses
-/

namespace Verif.RefAccess

open Verif.EndToEnd (Phase Flags noFlags nextPhase)

variable {S V : Type} {y : Sys S V} {cs cd : Nat → Nat} {W : Nat → Prop}

theorem called_eq (y : Sys S V) (ph : Phase) (r : Vals S V) : called y ph r = ⟨r.1, fun i => if i < y.n then some (y.body i ph (r.1 i)) else none, r.2⟩ := by
  unfold called
  simp only [duty_eq]

/-- All models wait, no message but data is on its way. -/
def calm (y : Sys S V) (x : Svc) (ph : Phase) (σ : Nat → S) (d : Nat → List V) : St Ch (Proc S V) (Msg V) :=
  mk x (fun i => ⟨σ i, if i < y.n then ph else .spk, .idle⟩) (chOf d fun _ => [])

/-- A model that has got a command. -/
def taken (y : Sys S V) (ph : Phase) (σ : Nat → S) (i : Nat) : Mdl S V :=
  if ph = .host then ⟨σ i, .host, .idle⟩ else ⟨σ i, ph, .run (y.body i ph (σ i))⟩

theorem put_back {α β : Type} [DecidableEq α] (f : α → β) (a : α) (b c : β) (h : f a = b) : put (put f a c) a b = f := by
  rw [put_put, ← h, put_eq]

/-- The service tells model `k`, which takes the command. -/
theorem tell_reach (hy : Tidy y cs cd W) {ph : Phase} {k : Nat} (hk : k < y.n) {rest : List Nat} {t cur : Nat} {f : Flags} {rs : List Nat}
    {m : Nat → Mdl S V} {σ : Nat → S} (hs : (m k).s = σ k) (hi : (m k).pc = .idle) (d : Nat → List V) :
    Reach y (mk ⟨.sendPh ph (k :: rest) t cur, f, rs⟩ m (chOf d fun _ => [])) (mk ⟨.sendPh ph rest t cur, f, rs⟩ (put m k (taken y ph σ k)) (chOf d fun _ => [])) := by
  have h0 : chOf (V := V) d (fun _ => []) (.cmd k) = [] := rfl
  have s1 := Reach.one (Trans.tell (y := y) (x := ⟨.sendPh ph (k :: rest) t cur, f, rs⟩) (m := m) (ch := chOf d fun _ => []) (i := k) (rest := rest) rfl
    (by rw [h0]; exact hy.room _))
  rw [h0] at s1
  refine s1.trans ?_
  by_cases h : ph = .host
  · subst h
    have s2 := Reach.one (Trans.host (y := y) (x := ⟨.sendPh .host rest t cur, f, rs⟩) (m := m) (ch := put (chOf d fun _ => []) (.cmd k) [.phase .host])
      (i := k) (rs := []) hk hi (by rw [put_self]))
    rw [put_back _ _ _ _ h0, hs] at s2
    rw [taken, if_pos rfl]; exact s2
  · have s2 := Reach.one (Trans.phase (y := y) (x := ⟨.sendPh ph rest t cur, f, rs⟩) (m := m) (ch := put (chOf d fun _ => []) (.cmd k) [.phase ph])
      (i := k) (ph := ph) (rs := []) hk hi (by rw [put_self]) h)
    rw [put_back _ _ _ _ h0, hs] at s2
    rw [taken, if_neg h]; exact s2

/-- The models when the first `k` have got their command. -/
def someTaken (y : Sys S V) (lp ph : Phase) (σ : Nat → S) (k i : Nat) : Mdl S V :=
  if i < k then taken y ph σ i else ⟨σ i, if i < y.n then lp else .spk, .idle⟩

theorem tells_reach (hy : Tidy y cs cd W) (lp ph : Phase) (t cur : Nat) (f : Flags) (rs : List Nat) (σ : Nat → S) (d : Nat → List V) (k : Nat)
    (hk : k ≤ y.n) :
    Reach y (mk ⟨.sendPh ph (List.range y.n) t cur, f, rs⟩ (someTaken y lp ph σ 0) (chOf d fun _ => []))
      (mk ⟨.sendPh ph ((List.range y.n).drop k) t cur, f, rs⟩ (someTaken y lp ph σ k) (chOf d fun _ => [])) := by
  induction k with
  | zero => exact .refl _
  | succ k ih =>
    refine (ih (by omega)).trans ?_
    rw [List.drop_eq_getElem_cons (by rw [List.length_range]; omega), List.getElem_range]
    refine (tell_reach hy (k := k) (σ := σ) (by omega) (by simp [someTaken]) (by simp [someTaken]) d).trans (.of_eq ?_)
    congr 1
    funext i
    by_cases h : i = k
    · subst h; rw [put_self, someTaken, if_pos (by omega)]
    · rw [put_ne _ h]
      unfold someTaken
      exact if_congr (by omega) rfl rfl

/-- Command to all. -/
theorem command_reach (hy : Tidy y cs cd W) (lp : Phase) {t cur : Nat} {f : Flags} {rs : List Nat} {σ : Nat → S} {d : Nat → List V} :
    Reach y (calm y ⟨.top t cur, f, rs⟩ lp σ d)
      (mk ⟨.sendPh (nextPhase f (cur == t)).1 [] t (if (nextPhase f (cur == t)).1 = .spk then cur + 1 else cur), (nextPhase f (cur == t)).2, rs⟩
        (someTaken y lp (nextPhase f (cur == t)).1 σ y.n) (chOf d fun _ => [])) := by
  have s1 := Reach.one (Trans.top (y := y) (x := ⟨.top t cur, f, rs⟩) (m := fun i => ⟨σ i, if i < y.n then lp else .spk, .idle⟩)
    (ch := chOf d fun _ => []) rfl)
  refine s1.trans ?_
  have s2 := tells_reach hy lp (nextPhase f (cur == t)).1 t (if (nextPhase f (cur == t)).1 = .spk then cur + 1 else cur) (nextPhase f (cur == t)).2 rs σ d y.n
    (Nat.le_refl _)
  rw [List.drop_of_length_le (by simp)] at s2
  refine Reach.trans (.of_eq ?_) s2
  congr 1

/-- The HOST phase ends the run. -/
theorem host_reach (hy : Tidy y cs cd W) (lp : Phase) {t cur : Nat} {f : Flags} {rs : List Nat} {σ : Nat → S} {d : Nat → List V}
    (hn : nextPhase f (cur == t) = (.host, f)) :
    Reach y (calm y ⟨.top t cur, f, rs⟩ lp σ d) (calm y ⟨.idle, f, rs⟩ .host σ d) := by
  have s1 := command_reach hy lp (t := t) (cur := cur) (f := f) (rs := rs) (σ := σ) (d := d)
  rw [hn] at s1
  refine s1.trans ?_
  have s2 := Reach.one (Trans.told (y := y) (x := ⟨.sendPh .host [] t cur, f, rs⟩) (m := someTaken y lp .host σ y.n) (ch := chOf d fun _ => []) rfl)
  refine s2.trans (.of_eq ?_)
  unfold calm
  congr 1
  funext i
  unfold someTaken taken
  by_cases h : i < y.n <;> simp [h]

/-- Responses of a phase, as the service adds them up. -/
def collected (y : Sys S V) (ph : Phase) (σ : Nat → S) (f : Flags) (k : Nat) : Flags :=
  (List.range k).foldl (fun f i => addReq f (y.respOf i ph (σ i))) f

theorem hears_reach (ph : Phase) (t cur : Nat) (f : Flags) (rs : List Nat) (σ : Nat → S) (m : Nat → Mdl S V) (d : Nat → List V) (k : Nat)
    (hk : k ≤ y.n) :
    Reach y (mk ⟨.collect ph (List.range y.n) t cur, f, rs⟩ m (chOf d fun i => if i < y.n then [y.respOf i ph (σ i)] else []))
      (mk ⟨.collect ph ((List.range y.n).drop k) t cur, collected y ph σ f k, rs⟩ m
        (chOf d fun i => if k ≤ i ∧ i < y.n then [y.respOf i ph (σ i)] else [])) := by
  induction k with
  | zero => refine .of_eq ?_; congr 1; congr 1; funext i; simp
  | succ k ih =>
    refine (ih (by omega)).trans ?_
    rw [List.drop_eq_getElem_cons (by rw [List.length_range]; omega), List.getElem_range]
    have s1 := Reach.one (Trans.hear (y := y) (x := ⟨.collect ph (k :: (List.range y.n).drop (k + 1)) t cur, collected y ph σ f k, rs⟩) (m := m)
      (ch := chOf d fun i => if k ≤ i ∧ i < y.n then [y.respOf i ph (σ i)] else []) (r := y.respOf k ph (σ k)) (rs := []) rfl
      (by simp only [chOf]; rw [if_pos (by omega)]))
    refine s1.trans (.of_eq ?_)
    rw [chOf_rsp]
    congr 1
    · congr 1
      simp [collected, List.range_succ]
    · congr 1
      funext i
      by_cases h : i = k
      · subst h; rw [put_self, if_neg (by omega)]
      · rw [put_ne _ h]; exact if_congr (by omega) rfl rfl

theorem body_sane (hy : Tidy y cs cd W) (ph : Phase) (σ : Nat → S) (d : Nat → List V) :
    Sane y cs cd W ph (called y ph (σ, d)) := by
  intro i P h
  rw [called_eq] at h
  dsimp only at h
  split at h
  · cases h
    rename_i hi
    exact ⟨hi, hy.own' i ph _, (body_fits hy i ph _)⟩
  · cases h

/-- From one command to the next: all methods are called. -/
theorem called_reach (hy : Tidy y cs cd W) (lp : Phase) {t cur : Nat} {f : Flags} {rs : List Nat} {r : Vals S V} {ph : Phase} {f' : Flags}
    (hn : nextPhase f (cur == t) = (ph, f')) (hh : ph ≠ .host) :
    Reach y (calm y ⟨.top t cur, f, rs⟩ lp r.1 r.2)
      (during y ⟨.collect ph (List.range y.n) t (if ph = .spk then cur + 1 else cur), f', rs⟩ ph (called y ph r)) := by
  have s1 := command_reach hy lp (t := t) (cur := cur) (f := f) (rs := rs) (σ := r.1) (d := r.2)
  rw [hn] at s1
  refine s1.trans ?_
  dsimp only
  generalize (if ph = .spk then cur + 1 else cur) = c'
  have s2 := Reach.one (Trans.told (y := y) (x := ⟨.sendPh ph [] t c', f', rs⟩) (m := someTaken y lp ph r.1 y.n) (ch := chOf r.2 fun _ => []) rfl)
  rw [if_neg hh] at s2
  refine s2.trans (.of_eq ?_)
  rw [called_eq]
  unfold during
  congr 1
  · funext i
    unfold someTaken taken mOf
    by_cases h : i < y.n <;> simp [h, hh, pcOf]
  · congr 1
    funext i
    unfold rspOf
    by_cases h : i < y.n <;> simp [h]

theorem turns_sane (hy : Tidy y cs cd W) (ph : Phase) (l : List Nat) : ∀ (w : World S V), Sane y cs cd W ph w → Sane y cs cd W ph (l.foldl (turn y) w) := by
  induction l with
  | nil => intro w h; exact h
  | cons i l ih => intro w h; exact ih _ (turn_reach hy ⟨.idle, noFlags, []⟩ ph w h i).2

/-- A phase, from command to command. -/
theorem phase_reach (hy : Tidy y cs cd W) (turns : Order S V) (lp : Phase) {t cur : Nat} {f : Flags} {rs : List Nat} {r r' : Vals S V}
    {ph : Phase} {f' : Flags} (hn : nextPhase f (cur == t) = (ph, f')) (hh : ph ≠ .host)
    (hr : phaseRef y turns ph r = some r') :
    Reach y (calm y ⟨.top t cur, f, rs⟩ lp r.1 r.2)
      (calm y ⟨.top t (if ph = .spk then cur + 1 else cur), collected y ph r'.1 f' y.n, rs⟩ ph r'.1 r'.2) := by
  refine (called_reach hy lp hn hh).trans ?_
  generalize (if ph = .spk then cur + 1 else cur) = c'
  have hsane := body_sane hy ph r.1 r.2
  refine (turns_reach hy _ ph (turns ph r) _ hsane).trans ?_
  have hsane' := turns_sane hy ph (turns ph r) _ hsane
  unfold phaseRef at hr
  change Reach y (during y _ ph ((turns ph r).foldl (turn y) (called y ph r))) _
  change Sane y cs cd W ph ((turns ph r).foldl (turn y) (called y ph r)) at hsane'
  generalize (turns ph r).foldl (turn y) (called y ph r) = w at hr hsane'
  split at hr
  · rename_i hdone
    cases hr
    have hnone : ∀ i, w.todo i = none := by
      intro i
      cases hi : w.todo i with
      | none => rfl
      | some P =>
        have := hdone i (hsane' i P hi).1
        rw [hi] at this; cases this
    have e2 : during y ⟨.collect ph (List.range y.n) t c', f', rs⟩ ph w =
        mk ⟨.collect ph (List.range y.n) t c', f', rs⟩ (fun i => ⟨w.σ i, if i < y.n then ph else .spk, .idle⟩)
          (chOf w.d fun i => if i < y.n then [y.respOf i ph (w.σ i)] else []) := by
      unfold during
      congr 1
      · funext i; unfold mOf; rw [hnone i]; rfl
      · congr 1; funext i; unfold rspOf; rw [hnone i]
    rw [e2]
    refine (hears_reach ph t c' f' rs w.σ _ w.d y.n (Nat.le_refl _)).trans ?_
    rw [List.drop_of_length_le (by simp)]
    have s3 := Reach.one (Trans.heard (y := y) (x := ⟨.collect ph [] t c', collected y ph w.σ f' y.n, rs⟩)
      (m := fun i => ⟨w.σ i, if i < y.n then ph else .spk, .idle⟩) (ch := chOf w.d fun i => if y.n ≤ i ∧ i < y.n then [y.respOf i ph (w.σ i)] else []) rfl)
    refine s3.trans (.of_eq ?_)
    unfold calm
    congr 1
    congr 1
    funext i
    rw [if_neg (by omega)]
  · cases hr

end Verif.RefAccess
