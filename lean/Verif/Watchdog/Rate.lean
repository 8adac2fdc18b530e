import Verif.Watchdog.Live

namespace Verif.Watchdog

/-- Time a thread has used since its last message. -/
def spent (T now w : Nat) (t : Nat × Stage) : Nat :=
  if t.1 = w then match t.2 with
    | .waiting s => now - s
    | .expired => T
    | _ => 0
  else 0

def total (f : Nat × Stage → Nat) (l : List (Nat × Stage)) : Nat := (l.map f).sum

def mine (w : Nat) (t : Nat × Stage) : Nat := if t.1 = w then 1 else 0

theorem total_append (f : Nat × Stage → Nat) (l m : List (Nat × Stage)) : total f (l ++ m) = total f l + total f m := by
  simp [total]

theorem total_set (f : Nat × Stage → Nat) (l : List (Nat × Stage)) (i : Nat) (a x : Nat × Stage) (h : l[i]? = some x) :
    total f (l.set i a) + f x = total f l + f a := by
  induction l generalizing i with
  | nil => cases h
  | cons b l ih =>
    cases i with
    | zero =>
      simp at h; subst h
      simp [total]; omega
    | succ i =>
      have := ih i (by simpa using h)
      simp only [total, List.set_cons_succ, List.map_cons, List.sum_cons] at this ⊢
      omega

theorem total_le (f g : Nat × Stage → Nat) (l : List (Nat × Stage)) (h : ∀ t ∈ l, f t ≤ g t) : total f l ≤ total g l := by
  induction l with
  | nil => exact Nat.le_refl _
  | cons a l ih =>
    have h1 := h a (by simp)
    have h2 := ih fun t ht => h t (by simp [ht])
    simp only [total, List.map_cons, List.sum_cons] at h2 ⊢
    omega

theorem total_map (f : Nat × Stage → Nat) (k : Nat × Stage → Nat × Stage) (l : List (Nat × Stage)) :
    total f (l.map k) = total (fun t => f (k t)) l := by simp [total, Function.comp_def]

theorem total_add (f g : Nat × Stage → Nat) (l : List (Nat × Stage)) : total (fun t => f t + g t) l = total f l + total g l := by
  induction l with
  | nil => rfl
  | cons a l ih => simp only [total, List.map_cons, List.sum_cons] at ih ⊢; omega

theorem spent_tick (T now w : Nat) (t : Nat × Stage) : spent T (now + 1) w t ≤ spent T now w t + mine w t := by
  obtain ⟨v, st⟩ := t
  simp only [spent, mine]
  split
  · cases st <;> simp <;> omega
  · omega

theorem spent_wake (T now w v : Nat) (t : Nat × Stage) : spent T now w (wake v t) ≤ spent T now w t := by
  obtain ⟨u, st⟩ := t
  cases st with
  | waiting s =>
    simp only [wake]
    split
    · simp only [spent]; split <;> omega
    · exact Nat.le_refl _
  | ready => exact Nat.le_refl _
  | expired => exact Nat.le_refl _
  | done => exact Nat.le_refl _

/-- Threads of one watchdog print together no more than one message per timeout and thread. -/
theorem rate_inv (T w : Nat) : ∀ l s, exec T init l = some s →
    messages w l * T + total (spent T s.now w) s.threads ≤ total (mine w) s.threads * s.now ∧
      total (mine w) s.threads + s.queue.count (some w) ≤ l.count (.put w) ∧ s.now = ticks l := by
  apply exec_ind
  · refine ⟨?_, ?_, rfl⟩
    · simp [messages, init, total]
    · simp [init, total]
  · rintro l s a s' _ ⟨h1, h2, h3⟩ hs
    rw [step_iff] at hs
    cases hs with
    | clear v hv => exact ⟨by rw [messages_snoc]; exact h1, by simpa using h2, by rw [ticks_append]; exact h3⟩
    | put v hv =>
      refine ⟨by rw [messages_snoc]; exact h1, ?_, by rw [ticks_append]; exact h3⟩
      by_cases hw : v = w
      · subst hw; simp only [List.count_append]; simp; omega
      · have : some v ≠ some w := by simpa using hw
        simp only [List.count_append]
        simp [List.count_cons, hw]; omega
    | exit v hv =>
      refine ⟨?_, ?_, by rw [ticks_append]; exact h3⟩
      · rw [messages_snoc]
        have e1 : total (mine w) (s.threads.map (wake v)) = total (mine w) s.threads := by
          rw [total_map]; congr 1; funext t; simp only [mine, wake_fst]
        have e2 : total (spent T s.now w) (s.threads.map (wake v)) ≤ total (spent T s.now w) s.threads := by
          rw [total_map]; exact total_le _ _ _ fun t _ => spent_wake T s.now w v t
        show messages w l * T + total (spent T s.now w) (s.threads.map (wake v)) ≤ total (mine w) (s.threads.map (wake v)) * s.now
        rw [e1]; omega
      · have e1 : total (mine w) (s.threads.map (wake v)) = total (mine w) s.threads := by
          rw [total_map]; congr 1; funext t; simp only [mine, wake_fst]
        show total (mine w) (s.threads.map (wake v)) + s.queue.count (some w) ≤ _
        rw [e1]; simpa using h2
    | takeStop q hm hq =>
      refine ⟨by rw [messages_snoc]; exact h1, ?_, by rw [ticks_append]; exact h3⟩
      rw [hq] at h2
      simpa using h2
    | takeSome v q hm hq =>
      rw [hq] at h2
      refine ⟨?_, ?_, by rw [ticks_append]; exact h3⟩
      · rw [messages_snoc]
        show messages w l * T + total (spent T s.now w) (s.threads ++ [(v, Stage.ready)]) ≤
          total (mine w) (s.threads ++ [(v, Stage.ready)]) * s.now
        have e : total (spent T s.now w) [(v, Stage.ready)] = 0 := by simp [total, spent]
        rw [total_append, total_append, e, Nat.add_mul]
        omega
      · show total (mine w) (s.threads ++ [(v, Stage.ready)]) + q.count (some w) ≤ _
        rw [total_append]
        have e : total (mine w) [(v, Stage.ready)] = if v = w then 1 else 0 := by simp [total, mine]
        rw [e]
        simp only [List.count_cons, List.count_append] at h2 ⊢
        by_cases hw : v = w
        · subst hw; simp at h2 ⊢; omega
        · simp [hw] at h2 ⊢; omega
    | wait i v hi =>
      have e1 := total_set (mine w) _ _ (v, if s.flag v then .done else .waiting s.now) _ hi
      have e2 := total_set (spent T s.now w) _ _ (v, if s.flag v then .done else .waiting s.now) _ hi
      have e3 : spent T s.now w (v, if s.flag v then .done else .waiting s.now) = 0 := by
        simp only [spent]
        split
        · cases s.flag v <;> simp
        · rfl
      have e4 : spent T s.now w (v, .ready) = 0 := by simp [spent]
      have e5 : mine w (v, Stage.ready) = mine w (v, if s.flag v then .done else .waiting s.now) := rfl
      have e6 : total (mine w) (s.threads.set i (v, if s.flag v then .done else .waiting s.now)) = total (mine w) s.threads := by omega
      refine ⟨?_, ?_, by rw [ticks_append]; exact h3⟩
      · rw [messages_snoc]
        show messages w l * T + total (spent T s.now w) (s.threads.set i (v, if s.flag v then .done else .waiting s.now)) ≤
          total (mine w) (s.threads.set i (v, if s.flag v then .done else .waiting s.now)) * s.now
        rw [e6]; omega
      · show total (mine w) (s.threads.set i (v, if s.flag v then .done else .waiting s.now)) + s.queue.count (some w) ≤ _
        rw [e6]; simpa using h2
    | expire i v t hi ht =>
      have e1 := total_set (mine w) _ _ (v, .expired) _ hi
      have e2 := total_set (spent T s.now w) _ _ (v, .expired) _ hi
      have e3 : spent T s.now w (v, .expired) ≤ spent T s.now w (v, .waiting t) := by
        simp only [spent]
        split <;> omega
      have e5 : mine w (v, Stage.waiting t) = mine w (v, .expired) := rfl
      have e6 : total (mine w) (s.threads.set i (v, .expired)) = total (mine w) s.threads := by omega
      refine ⟨?_, ?_, by rw [ticks_append]; exact h3⟩
      · rw [messages_snoc]
        show messages w l * T + total (spent T s.now w) (s.threads.set i (v, .expired)) ≤
          total (mine w) (s.threads.set i (v, .expired)) * s.now
        rw [e6]; omega
      · show total (mine w) (s.threads.set i (v, .expired)) + s.queue.count (some w) ≤ _
        rw [e6]; simpa using h2
    | print i v hi =>
      have e1 := total_set (mine w) _ _ (v, .ready) _ hi
      have e2 := total_set (spent T s.now w) _ _ (v, .ready) _ hi
      have e3 : spent T s.now w (v, .ready) = 0 := by simp [spent]
      have e4 : messages w [.print i v] * T = spent T s.now w (v, .expired) := by
        by_cases hw : v = w
        · subst hw; simp [messages, spent]
        · simp [messages, spent, hw]
      have e5 : mine w (v, Stage.expired) = mine w (v, .ready) := rfl
      have e6 : total (mine w) (s.threads.set i (v, .ready)) = total (mine w) s.threads := by omega
      refine ⟨?_, ?_, by rw [ticks_append]; exact h3⟩
      · rw [messages_snoc]
        show (messages w l + messages w [.print i v]) * T + total (spent T s.now w) (s.threads.set i (v, .ready)) ≤
          total (mine w) (s.threads.set i (v, .ready)) * s.now
        rw [e6, Nat.add_mul, e4]; omega
      · show total (mine w) (s.threads.set i (v, .ready)) + s.queue.count (some w) ≤ _
        rw [e6]; simpa using h2
    | join hm h => exact ⟨by rw [messages_snoc]; exact h1, by simpa using h2, by rw [ticks_append]; exact h3⟩
    | stop h =>
      refine ⟨by rw [messages_snoc]; exact h1, ?_, by rw [ticks_append]; exact h3⟩
      simpa [List.count_append] using h2
    | tick =>
      refine ⟨?_, by simpa using h2, ?_⟩
      · rw [messages_snoc]
        have e := total_le _ _ s.threads fun t _ => spent_tick T s.now w t
        rw [total_add] at e
        show messages w l * T + total (spent T (s.now + 1) w) s.threads ≤ total (mine w) s.threads * (s.now + 1)
        rw [Nat.mul_add, Nat.mul_one]; omega
      · rw [ticks_append]
        show s.now + 1 = ticks l + 1
        rw [h3]

end Verif.Watchdog
