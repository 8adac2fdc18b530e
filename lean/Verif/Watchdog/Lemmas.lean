import Verif.Watchdog.Spec

namespace Verif.Watchdog

theorem exec_append (T : Nat) (l m : List Act) : ∀ s, exec T s (l ++ m) = (exec T s l).bind fun s' => exec T s' m := by
  induction l with
  | nil => intro s; rfl
  | cons a l ih =>
    intro s
    simp only [List.cons_append, exec]
    cases step T s a with
    | none => rfl
    | some s' => exact ih s'

theorem exec_snoc {T : Nat} {s s' : St} {l : List Act} {a : Act} (h : exec T s (l ++ [a]) = some s') :
    ∃ s1, exec T s l = some s1 ∧ step T s1 a = some s' := by
  rw [exec_append] at h
  cases h1 : exec T s l with
  | none => rw [h1] at h; cases h
  | some s1 =>
    rw [h1] at h
    refine ⟨s1, rfl, ?_⟩
    simp only [Option.bind_some, exec] at h
    cases h2 : step T s1 a with
    | none => rw [h2] at h; cases h
    | some s2 => rw [h2] at h; exact h

/-- Induction along an execution. -/
theorem exec_ind {T : Nat} {s0 : St} {P : List Act → St → Prop} (h0 : P [] s0)
    (hs : ∀ l s a s', exec T s0 l = some s → P l s → step T s a = some s' → P (l ++ [a]) s') :
    ∀ (l : List Act) (s : St), exec T s0 l = some s → P l s := by
  suffices h : ∀ (n : Nat) (l : List Act) (s : St), l.length = n → exec T s0 l = some s → P l s from fun l s => h l.length l s rfl
  intro n
  induction n with
  | zero =>
    intro l s hl h
    cases l with
    | nil => cases h; exact h0
    | cons a l => cases hl
  | succ n ih =>
    intro l s hl h
    rcases List.eq_nil_or_concat l with rfl | ⟨l1, a, rfl⟩
    · cases hl
    · simp only [List.concat_eq_append] at hl h ⊢
      obtain ⟨s1, h1, h2⟩ := exec_snoc h
      exact hs l1 s1 a s h1 (ih l1 s1 (by simpa using hl) h1) h2

theorem upd_self {α : Type} (f : Nat → α) (w : Nat) (a : α) : upd f w a w = a := by simp [upd]

theorem upd_ne {α : Type} (f : Nat → α) {w v : Nat} (a : α) (h : v ≠ w) : upd f w a v = f v := by simp [upd, h]

/-- The step relation, by cases. -/
inductive Step (T : Nat) (s : St) : Act → St → Prop where
  | clear (w : Nat) (h : s.op w = .idle) : Step T s (.clear w) { s with flag := upd s.flag w false, op := upd s.op w .cleared }
  | put (w : Nat) (h : s.op w = .cleared) : Step T s (.put w) { s with queue := s.queue ++ [some w], op := upd s.op w .running }
  | exit (w : Nat) (h : s.op w = .running) :
      Step T s (.exit w) { s with flag := upd s.flag w true, op := upd s.op w .idle, threads := s.threads.map (wake w) }
  | takeStop (q : List (Option Nat)) (hm : s.mon = .loop) (hq : s.queue = none :: q) :
      Step T s .take { s with queue := q, mon := .joining }
  | takeSome (w : Nat) (q : List (Option Nat)) (hm : s.mon = .loop) (hq : s.queue = some w :: q) :
      Step T s .take { s with queue := q, threads := s.threads ++ [(w, .ready)] }
  | wait (i w : Nat) (h : s.threads[i]? = some (w, .ready)) :
      Step T s (.wait i) { s with threads := s.threads.set i (w, if s.flag w then .done else .waiting s.now) }
  | expire (i w t : Nat) (h : s.threads[i]? = some (w, .waiting t)) (ht : t + T ≤ s.now) :
      Step T s (.expire i) { s with threads := s.threads.set i (w, .expired) }
  | print (i w : Nat) (h : s.threads[i]? = some (w, .expired)) :
      Step T s (.print i w) { s with threads := s.threads.set i (w, .ready) }
  | join (hm : s.mon = .joining) (h : ∀ t ∈ s.threads, t.2 = .done) : Step T s .join { s with mon := .ended }
  | stop (h : s.stopping = false) : Step T s .stop { s with queue := s.queue ++ [none], stopping := true }
  | tick : Step T s .tick { s with now := s.now + 1 }

theorem step_iff {T : Nat} {s s' : St} {a : Act} : step T s a = some s' ↔ Step T s a s' := by
  constructor
  · intro h
    cases a with
    | clear w =>
      simp only [step, doClear] at h; split at h <;> simp at h; subst h; exact .clear w (by assumption)
    | put w =>
      simp only [step, doPut] at h; split at h <;> simp at h; subst h; exact .put w (by assumption)
    | exit w =>
      simp only [step, doExit] at h; split at h <;> simp at h; subst h; exact .exit w (by assumption)
    | take =>
      simp only [step, doTake] at h; split at h
      · split at h
        · simp at h
        · simp at h; subst h; exact .takeStop _ (by assumption) (by assumption)
        · simp at h; subst h; exact .takeSome _ _ (by assumption) (by assumption)
      · simp at h
    | wait i =>
      simp only [step, doWait] at h; split at h
      · simp at h; subst h; exact .wait _ _ (by assumption)
      · simp at h
    | expire i =>
      simp only [step, doExpire] at h; split at h
      · split at h
        · simp at h; subst h; exact .expire _ _ _ (by assumption) (by assumption)
        · simp at h
      · simp at h
    | print i w =>
      simp only [step, doPrint] at h; split at h
      · split at h
        · rename_i h1 h2; subst h2; simp at h; subst h; exact .print _ _ h1
        · simp at h
      · simp at h
    | join =>
      simp only [step, doJoin] at h; split at h
      · rename_i h1; simp at h; subst h; exact .join h1.1 h1.2
      · simp at h
    | stop =>
      simp only [step] at h; split at h
      · simp at h
      · rename_i h1; simp at h; subst h; exact .stop (by simpa using h1)
    | tick => simp only [step, Option.some.injEq] at h; subst h; exact .tick
  · intro h
    cases h with
    | clear w h => simp [step, doClear, h]
    | put w h => simp [step, doPut, h]
    | exit w h => simp [step, doExit, h]
    | takeStop q hm hq => simp [step, doTake, hm, hq]
    | takeSome w q hm hq => simp [step, doTake, hm, hq]
    | wait i w h => simp [step, doWait, h]
    | expire i w t h ht => simp [step, doExpire, h, ht]
    | print i w h => simp [step, doPrint, h]
    | join hm h => simp only [step, doJoin]; rw [if_pos ⟨hm, h⟩]
    | stop h => simp [step, h]
    | tick => rfl

theorem mem_set_cases {α : Type} {l : List α} {i : Nat} {a x : α} (h : x ∈ l.set i a) : x = a ∨ x ∈ l := by
  rcases List.mem_or_eq_of_mem_set h with h | h
  · exact .inr h
  · exact .inl h

theorem mem_wake {w v : Nat} {st : Stage} {l : List (Nat × Stage)} (h : (v, st) ∈ l.map (wake w)) :
    (v, st) ∈ l ∧ (v ≠ w ∨ ∀ t, st ≠ .waiting t) ∨ (st = .done ∧ v = w ∧ ∃ t, (v, Stage.waiting t) ∈ l) := by
  obtain ⟨⟨v1, s1⟩, h1, h2⟩ := List.mem_map.1 h
  cases s1 with
  | waiting t =>
    simp only [wake] at h2
    split at h2
    · rename_i e
      cases h2
      exact .inr ⟨rfl, e, t, h1⟩
    · rename_i e
      cases h2
      exact .inl ⟨h1, .inl e⟩
  | ready => simp only [wake] at h2; cases h2; exact .inl ⟨h1, .inr (by intro t; simp)⟩
  | expired => simp only [wake] at h2; cases h2; exact .inl ⟨h1, .inr (by intro t; simp)⟩
  | done => simp only [wake] at h2; cases h2; exact .inl ⟨h1, .inr (by intro t; simp)⟩

theorem wake_fst (w : Nat) (t : Nat × Stage) : (wake w t).1 = t.1 := by
  obtain ⟨v, st⟩ := t
  cases st with
  | waiting s => simp only [wake]; split <;> rfl
  | ready => rfl
  | expired => rfl
  | done => rfl

end Verif.Watchdog
