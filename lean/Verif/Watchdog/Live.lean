import Verif.Watchdog.Sound

namespace Verif.Watchdog

theorem messages_snoc (w : Nat) (l : List Act) (a : Act) :
    messages w (l ++ [a]) = messages w l + messages w [a] := by simp [messages, List.countP_append]

theorem messages_one_print (w i : Nat) : messages w [.print i w] = 1 := by simp [messages]

theorem Prompt.append {T : Nat} {l m : List Act} : ∀ {s}, Prompt T s (l ++ m) ↔ (Prompt T s l ∧ ∀ s', exec T s l = some s' → Prompt T s' m) := by
  induction l with
  | nil => intro s; simp [Prompt, exec]
  | cons a l ih =>
    intro s
    simp only [List.cons_append, Prompt, exec]
    constructor
    · rintro ⟨h1, h2⟩
      refine ⟨⟨h1, fun s' hs => (ih.1 (h2 s' hs)).1⟩, ?_⟩
      intro s' hs
      cases h : step T s a with
      | none => rw [h] at hs; cases hs
      | some s1 => rw [h] at hs; exact (ih.1 (h2 s1 h)).2 s' hs
    · rintro ⟨⟨h1, h2⟩, h3⟩
      refine ⟨h1, fun s' hs => ih.2 ⟨h2 s' hs, fun s'' h => h3 s'' ?_⟩⟩
      rw [hs]; exact h

/-- Before `stop` the monitor is in its loop. -/
theorem loop_before_stop (T : Nat) : ∀ l s, exec T init l = some s →
    (.stop ∈ l ↔ s.stopping = true) ∧ (s.stopping = false → s.mon = .loop ∧ none ∉ s.queue) := by
  apply exec_ind
  · exact ⟨by simp [init], fun _ => ⟨rfl, by simp [init]⟩⟩
  · rintro l s a s' _ ⟨h1, h2⟩ hs
    rw [step_iff] at hs
    cases hs with
    | put w h => exact ⟨by simpa using h1, fun h => ⟨(h2 h).1, by simpa using (h2 h).2⟩⟩
    | takeStop q hm hq =>
      refine ⟨by simpa using h1, fun h => ?_⟩
      have := (h2 h).2
      rw [hq] at this; simp at this
    | takeSome w q hm hq =>
      refine ⟨by simpa using h1, fun h => ⟨hm, ?_⟩⟩
      have := (h2 h).2
      rw [hq] at this; simpa using this
    | join hm h =>
      refine ⟨by simpa using h1, fun h => ?_⟩
      have := (h2 h).1
      rw [hm] at this; cases this
    | stop h => exact ⟨by simp, fun h => by cases h⟩
    | clear w h => exact ⟨by simpa using h1, h2⟩
    | exit w h => exact ⟨by simpa using h1, h2⟩
    | wait i w h => exact ⟨by simpa using h1, h2⟩
    | expire i w t h ht => exact ⟨by simpa using h1, h2⟩
    | print i w h => exact ⟨by simpa using h1, h2⟩
    | tick => exact ⟨by simpa using h1, h2⟩

/-- The operation of `w` that began its last `put` in state `s0` is watched, `m` messages later. -/
inductive Watched (T w p m : Nat) (s : St) : Prop where
  | queued (h : some w ∈ s.queue) (hn : s.now ≤ p + m * T)
  | ready (i : Nat) (h : s.threads[i]? = some (w, .ready)) (hn : s.now ≤ p + m * T)
  | waiting (i t : Nat) (h : s.threads[i]? = some (w, .waiting t)) (ht : t ≤ p + m * T) (hn : s.now ≤ t + T)
  | expired (i : Nat) (h : s.threads[i]? = some (w, .expired)) (hn : s.now ≤ p + (m + 1) * T)

theorem Watched.mono {T w p m n : Nat} {s : St} (h : Watched T w p m s) (hm : m ≤ n) : Watched T w p n s := by
  have h1 : m * T ≤ n * T := Nat.mul_le_mul_right _ hm
  have h2 : (m + 1) * T ≤ (n + 1) * T := Nat.mul_le_mul_right _ (by omega)
  cases h with
  | queued h hn => exact .queued h (by omega)
  | ready i h hn => exact .ready i h (by omega)
  | waiting i t h ht hn => exact .waiting i t h (by omega) hn
  | expired i h hn => exact .expired i h (by omega)

theorem Watched.bound {T w p m : Nat} {s : St} (h : Watched T w p m s) : s.now ≤ p + (m + 1) * T := by
  have h1 : (m + 1) * T = m * T + T := by rw [Nat.add_mul, Nat.one_mul]
  cases h with
  | queued h hn => omega
  | ready i h hn => omega
  | waiting i t h ht hn => omega
  | expired i h hn => omega

/-- Changing other threads does not matter. -/
theorem Watched.threads {T w p m : Nat} {s s' : St} (h : Watched T w p m s) (hq : s'.queue = s.queue) (hn : s'.now = s.now)
    (ht : ∀ (i : Nat) (st : Stage), s.threads[i]? = some (w, st) → st ≠ .done → s'.threads[i]? = some (w, st)) : Watched T w p m s' := by
  cases h with
  | queued h h1 => exact .queued (hq ▸ h) (hn ▸ h1)
  | ready i h h1 => exact .ready i (ht _ _ h (by simp)) (hn ▸ h1)
  | waiting i t h h1 h2 => exact .waiting i t (ht _ _ h (by simp)) h1 (hn ▸ h2)
  | expired i h h1 => exact .expired i (ht _ _ h (by simp)) (hn ▸ h1)

theorem getElem?_set_ne' {α : Type} {l : List α} {i j : Nat} {a x : α} (h : l[j]? = some x) (hij : i ≠ j) : (l.set i a)[j]? = some x := by
  rw [List.getElem?_set_ne hij]; exact h

theorem getElem?_set_self' {α : Type} {l : List α} {i : Nat} {a x : α} (h : l[i]? = some x) : (l.set i a)[i]? = some a := by
  have hi : i < l.length := (List.getElem?_eq_some_iff.1 h).1
  rw [List.getElem?_set_self hi]

/-- While an operation is under way and time passes only when the monitor waits, the operation is watched. -/
theorem watched_step {T w p m : Nat} {s s' : St} {a : Act} (h : Watched T w p m s) (hop : s.op w = .running) (hf : s.flag w = false)
    (hm : s.mon = .loop) (hs : Step T s a s') (ha : a ≠ .exit w) (ht : a = .tick → ∀ x, Own x → step T s x = none) :
    Watched T w p (m + messages w [a]) s' := by
  cases hs with
  | clear v hv => exact Watched.mono (m := m) (h.threads rfl rfl fun _ _ h _ => h) (by omega)
  | put v hv =>
    refine Watched.mono (m := m) ?_ (by omega)
    cases h with
    | queued h h1 => exact .queued (List.mem_append_left _ h) h1
    | ready i h h1 => exact .ready i h h1
    | waiting i t h h1 h2 => exact .waiting i t h h1 h2
    | expired i h h1 => exact .expired i h h1
  | exit v hv =>
    have hvw : v ≠ w := by rintro rfl; exact ha rfl
    refine Watched.mono (m := m) (h.threads rfl rfl ?_) (by omega)
    intro i st hi _
    show (s.threads.map (wake v))[i]? = some (w, st)
    rw [List.getElem?_map, hi]
    cases st with
    | waiting t => simp only [Option.map_some, wake]; rw [if_neg (fun e => hvw e.symm)]
    | ready => rfl
    | expired => rfl
    | done => rfl
  | takeStop q _ hq =>
    refine Watched.mono (m := m) ?_ (by omega)
    cases h with
    | queued h h1 => refine .queued ?_ h1; rw [hq] at h; simpa using h
    | ready i h h1 => exact .ready i h h1
    | waiting i t h h1 h2 => exact .waiting i t h h1 h2
    | expired i h h1 => exact .expired i h h1
  | takeSome v q _ hq =>
    refine Watched.mono (m := m) ?_ (by omega)
    have app : ∀ (i : Nat) (st : Stage), s.threads[i]? = some (w, st) → (s.threads ++ [(v, Stage.ready)])[i]? = some (w, st) := by
      intro i st hi
      have hl : i < s.threads.length := (List.getElem?_eq_some_iff.1 hi).1
      rw [List.getElem?_append_left hl]; exact hi
    cases h with
    | queued h h1 =>
      rw [hq] at h
      rcases List.mem_cons.1 h with h | h
      · cases h
        refine .ready s.threads.length ?_ h1
        show (s.threads ++ [(w, Stage.ready)])[s.threads.length]? = _
        simp
      · exact .queued h h1
    | ready i h h1 => exact .ready i (app _ _ h) h1
    | waiting i t h h1 h2 => exact .waiting i t (app _ _ h) h1 h2
    | expired i h h1 => exact .expired i (app _ _ h) h1
  | wait i v hi =>
    refine Watched.mono (m := m) ?_ (by omega)
    cases h with
    | queued h h1 => exact .queued h h1
    | ready j h h1 =>
      by_cases hij : i = j
      · subst hij
        rw [hi] at h
        cases h
        refine .waiting i s.now ?_ h1 (by show s.now ≤ s.now + T; omega)
        show (s.threads.set i (w, if s.flag w then Stage.done else .waiting s.now))[i]? = _
        rw [hf]
        exact getElem?_set_self' hi
      · exact .ready j (getElem?_set_ne' h hij) h1
    | waiting j t h h1 h2 =>
      have hij : i ≠ j := by rintro rfl; rw [hi] at h; cases h
      exact .waiting j t (getElem?_set_ne' h hij) h1 h2
    | expired j h h1 =>
      have hij : i ≠ j := by rintro rfl; rw [hi] at h; cases h
      exact .expired j (getElem?_set_ne' h hij) h1
  | expire i v t hi hti =>
    refine Watched.mono (m := m) ?_ (by omega)
    cases h with
    | queued h h1 => exact .queued h h1
    | ready j h h1 =>
      have hij : i ≠ j := by rintro rfl; rw [hi] at h; cases h
      exact .ready j (getElem?_set_ne' h hij) h1
    | waiting j t' h h1 h2 =>
      by_cases hij : i = j
      · subst hij
        rw [hi] at h
        cases h
        refine .expired i (getElem?_set_self' hi) ?_
        have : (m + 1) * T = m * T + T := by rw [Nat.add_mul, Nat.one_mul]
        show s.now ≤ p + (m + 1) * T
        omega
      · exact .waiting j t' (getElem?_set_ne' h hij) h1 h2
    | expired j h h1 =>
      have hij : i ≠ j := by rintro rfl; rw [hi] at h; cases h
      exact .expired j (getElem?_set_ne' h hij) h1
  | print i v hi =>
    cases h with
    | queued h h1 => refine Watched.mono (m := m) ?_ (by omega); exact Watched.queued h h1
    | ready j h h1 =>
      have hij : i ≠ j := by rintro rfl; rw [hi] at h; cases h
      refine Watched.mono (m := m) ?_ (by omega); exact Watched.ready j (getElem?_set_ne' h hij) h1
    | waiting j t h h1 h2 =>
      have hij : i ≠ j := by rintro rfl; rw [hi] at h; cases h
      refine Watched.mono (m := m) ?_ (by omega); exact Watched.waiting j t (getElem?_set_ne' h hij) h1 h2
    | expired j h h1 =>
      by_cases hij : i = j
      · subst hij
        rw [hi] at h
        cases h
        rw [messages_one_print]
        exact .ready i (getElem?_set_self' hi) h1
      · refine Watched.mono (m := m) ?_ (by omega); exact Watched.expired j (getElem?_set_ne' h hij) h1
  | join hj _ => rw [hm] at hj; cases hj
  | stop _ =>
    refine Watched.mono (m := m) ?_ (by omega)
    cases h with
    | queued h h1 => exact .queued (List.mem_append_left _ h) h1
    | ready i h h1 => exact .ready i h h1
    | waiting i t h h1 h2 => exact .waiting i t h h1 h2
    | expired i h h1 => exact .expired i h h1
  | tick =>
    have hx := ht rfl
    refine Watched.mono (m := m) ?_ (by omega)
    cases h with
    | queued h h1 =>
      exfalso
      have := hx .take trivial
      cases hq : s.queue with
      | nil => rw [hq] at h; cases h
      | cons e q => cases e <;> simp [step, doTake, hm, hq] at this
    | ready i h h1 =>
      have := hx (.wait i) trivial
      simp [step, doWait, h] at this
    | waiting i t h h1 h2 =>
      have := hx (.expire i) trivial
      simp [step, doExpire, h] at this
      exact .waiting i t h h1 (by show s.now + 1 ≤ t + T; omega)
    | expired i h h1 =>
      have := hx (.print i w) trivial
      simp [step, doPrint, h] at this

/-- The state of the operation of a watchdog. -/
theorem running_kept {T w : Nat} {s s' : St} {a : Act} (hop : s.op w = .running) (hf : s.flag w = false) (hs : Step T s a s')
    (ha : a ≠ .exit w) : s'.op w = .running ∧ s'.flag w = false := by
  cases hs with
  | clear v hv =>
    have : w ≠ v := by rintro rfl; rw [hop] at hv; cases hv
    exact ⟨by show upd s.op v .cleared w = _; rw [upd_ne _ _ this]; exact hop, by show upd s.flag v false w = _; rw [upd_ne _ _ this]; exact hf⟩
  | put v hv =>
    have : w ≠ v := by rintro rfl; rw [hop] at hv; cases hv
    exact ⟨by show upd s.op v .running w = _; rw [upd_ne _ _ this]; exact hop, hf⟩
  | exit v hv =>
    have : w ≠ v := by rintro rfl; exact ha rfl
    exact ⟨by show upd s.op v .idle w = _; rw [upd_ne _ _ this]; exact hop, by show upd s.flag v true w = _; rw [upd_ne _ _ this]; exact hf⟩
  | takeStop => exact ⟨hop, hf⟩
  | takeSome => exact ⟨hop, hf⟩
  | wait => exact ⟨hop, hf⟩
  | expire => exact ⟨hop, hf⟩
  | print => exact ⟨hop, hf⟩
  | join => exact ⟨hop, hf⟩
  | stop => exact ⟨hop, hf⟩
  | tick => exact ⟨hop, hf⟩

end Verif.Watchdog
