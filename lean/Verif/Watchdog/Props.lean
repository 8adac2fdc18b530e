import Verif.Watchdog.Rate

namespace Verif.Watchdog

theorem exec_take {T : Nat} {s s' : St} {l m : List Act} (h : exec T s (l ++ m) = some s') :
    ∃ s1, exec T s l = some s1 ∧ exec T s1 m = some s' := by
  rw [exec_append] at h
  cases h1 : exec T s l with
  | none => rw [h1] at h; cases h
  | some s1 => rw [h1] at h; exact ⟨s1, rfl, h⟩

/-- C98. A message about a port method is printed only after one single call of it has lasted at least the timeout. -/
theorem C98_message_means_blocked (T : Nat) (l : List Act) (i w : Nat) (s : St) (h : exec T init (l ++ [.print i w]) = some s) :
    LongOp w T l := by
  obtain ⟨s1, h1, h2⟩ := exec_snoc h
  rw [step_iff] at h2
  cases h2 with
  | print _ _ hi => exact (inv_holds T l s1 h1).expired w (List.mem_of_getElem? hi)

/-- C98. Every call that goes on after it was announced to the monitor gets a message in every further timeout, if the monitor is faster than the
clock and not stopped. -/
theorem C98_blocked_means_message (T w : Nat) (l b : List Act) (s : St) (h : exec T init (l ++ .put w :: b) = some s)
    (hp : Prompt T init (l ++ .put w :: b)) (hs : .stop ∉ l ++ .put w :: b) (he : .exit w ∉ b) :
    ticks b ≤ (messages w b + 1) * T := by
  have happ : l ++ .put w :: b = (l ++ [.put w]) ++ b := by simp
  rw [happ] at h hp hs
  obtain ⟨s0, h0, h1⟩ := exec_take h
  have hp1 := (Prompt.append.1 hp).2 s0 h0
  have key : ∀ b s, exec T s0 b = some s → .exit w ∉ b → .stop ∉ b → Prompt T s0 b →
      (s.op w = .running ∧ s.flag w = false ∧ s.mon = .loop) ∧ Watched T w s0.now (messages w b) s ∧ s.now = s0.now + ticks b := by
    obtain ⟨s00, h00, hput⟩ := exec_snoc h0
    rw [step_iff] at hput
    apply exec_ind
    · intro _ _ _
      cases hput with
      | put _ hc =>
        have hstop : .stop ∉ l := fun hc => hs (by simp [hc])
        have hlb := loop_before_stop T l s00 h00
        have hst : s00.stopping = false := by
          cases hx : s00.stopping with
          | false => rfl
          | true => exact absurd (hlb.1.2 hx) hstop
        refine ⟨⟨upd_self _ _ _, ?_, (hlb.2 hst).1⟩, .queued (by simp) (by simp), by simp [ticks]⟩
        exact (inv_holds T l s00 h00).unset w (by rw [hc]; simp)
    · intro b s a s' hb ih ha he hst hpr
      rw [step_iff] at ha
      have he1 : a ≠ .exit w := by rintro rfl; exact he (by simp)
      have hst1 : a ≠ .stop := by rintro rfl; exact hst (by simp)
      have hpb := Prompt.append.1 hpr
      obtain ⟨⟨i1, i2, i3⟩, i4, i5⟩ := ih (fun hc => he (by simp [hc])) (fun hc => hst (by simp [hc])) hpb.1
      have hpt := (hpb.2 s hb).1
      have hrun := running_kept i1 i2 ha he1
      have hfull : exec T init (l ++ [.put w] ++ b ++ [a]) = some s' := by
        rw [exec_append, exec_append, h0]
        simp only [Option.bind_some, hb]
        simp only [exec]
        rw [step_iff.2 ha]
      have hlb := loop_before_stop T _ s' hfull
      have hstop : s'.stopping = false := by
        cases hx : s'.stopping with
        | false => rfl
        | true =>
          have := hlb.1.2 hx
          simp only [List.mem_append, List.mem_singleton] at this
          rcases this with ((h | h) | h) | h
          · exact absurd (show Act.stop ∈ l ++ [.put w] ++ b by simp [h]) (fun hc => by
              simp only [List.mem_append] at hc
              rcases hc with hc | hc
              · exact hs (by simp only [List.mem_append] at hc ⊢; exact .inl hc)
              · exact hst (by simp [hc]))
          · cases h
          · exact absurd h (fun hc => hst (by simp [hc]))
          · exact absurd h.symm hst1
      refine ⟨⟨hrun.1, hrun.2, (hlb.2 hstop).1⟩, ?_, ?_⟩
      · rw [messages_snoc]
        exact watched_step i4 i1 i2 i3 ha he1 hpt
      · rw [ticks_append]
        cases ha <;> first | (show s.now + 1 = _; rw [i5]; rfl) | exact i5
  have hst : .stop ∉ b := fun hc => hs (by simp [hc])
  obtain ⟨_, hw, hn⟩ := key b s h1 he hst hp1
  have := hw.bound
  omega

/-- C98. There are never more messages than one for every timeout and every call so far. -/
theorem C98_message_rate (T w : Nat) (l : List Act) (s : St) (h : exec T init l = some s) :
    messages w l * T ≤ l.count (.put w) * ticks l := by
  obtain ⟨h1, h2, h3⟩ := rate_inv T w l s h
  have : total (mine w) s.threads * s.now ≤ l.count (.put w) * s.now := Nat.mul_le_mul_right _ (by omega)
  rw [h3] at h1 this
  omega

/-- C98. If every call of a port method is shorter than the timeout there is never a message about it. -/
theorem C98_no_false_alarm (T w : Nat) (l : List Act) (s : St) (h : exec T init l = some s) (hl : ¬ LongOp w T l) : messages w l = 0 := by
  unfold messages
  rw [List.countP_eq_zero]
  intro a ha hc
  cases a with
  | print i v =>
    have hv : v = w := by simpa using hc
    subst hv
    obtain ⟨l1, l2, rfl⟩ := List.append_of_mem ha
    have e : l1 ++ .print i v :: l2 = (l1 ++ [.print i v]) ++ l2 := by simp
    rw [e] at h
    obtain ⟨s1, h1, _⟩ := exec_take h
    obtain ⟨a, b, c, rfl, h3, h4, h5⟩ := C98_message_means_blocked T l1 i v s1 h1
    exact hl ⟨a, b, c ++ .print i v :: l2, by simp, h3, h4, h5⟩
  | _ => simp at hc

/-- An operation announced before `stop` keeps the monitor from ending. -/
theorem pending (T w : Nat) (l b : List Act) (s0 : St) (h0 : exec T init (l ++ [.put w]) = some s0) (hl : .stop ∉ l) :
    ∀ s, exec T s0 b = some s → .exit w ∉ b → s.op w = .running ∧ s.flag w = false ∧
      ((s.mon = .loop ∧ ∃ q r, s.queue = q ++ some w :: r ∧ none ∉ q) ∨ (s.mon ≠ .ended ∧ ∃ (i : Nat) (st : Stage), s.threads[i]? = some (w, st) ∧ st ≠ .done)) := by
  have key : ∀ b s, exec T s0 b = some s → .exit w ∉ b → s.op w = .running ∧ s.flag w = false ∧
      ((s.mon = .loop ∧ ∃ q r, s.queue = q ++ some w :: r ∧ none ∉ q) ∨ (s.mon ≠ .ended ∧ ∃ (i : Nat) (st : Stage), s.threads[i]? = some (w, st) ∧ st ≠ .done)) := by
    obtain ⟨s00, h00, hput⟩ := exec_snoc h0
    rw [step_iff] at hput
    apply exec_ind
    · intro _
      cases hput with
      | put _ hc =>
        have hlb := loop_before_stop T l s00 h00
        have hst : s00.stopping = false := by
          cases hx : s00.stopping with
          | false => rfl
          | true => exact absurd (hlb.1.2 hx) hl
        exact ⟨upd_self _ _ _, (inv_holds T l s00 h00).unset w (by rw [hc]; simp), .inl ⟨(hlb.2 hst).1, s00.queue, [], rfl, (hlb.2 hst).2⟩⟩
    · intro b s a s' hb ih ha he
      rw [step_iff] at ha
      have he1 : a ≠ .exit w := by rintro rfl; exact he (by simp)
      obtain ⟨i1, i2, i3⟩ := ih (fun hc => he (by simp [hc]))
      have hrun := running_kept i1 i2 ha he1
      refine ⟨hrun.1, hrun.2, ?_⟩
      cases ha with
      | clear v hv => exact i3
      | put v hv =>
        rcases i3 with ⟨h1, q, r, h2, h3⟩ | h1
        · exact .inl ⟨h1, q, r ++ [some v], by show s.queue ++ [some v] = _; rw [h2]; simp, h3⟩
        · exact .inr h1
      | exit v hv =>
        rcases i3 with h1 | ⟨h1, i, st, h2, h3⟩
        · exact .inl h1
        · refine .inr ⟨h1, i, st, ?_, h3⟩
          have hvw : w ≠ v := by rintro rfl; exact he1 rfl
          show (s.threads.map (wake v))[i]? = some (w, st)
          rw [List.getElem?_map, h2]
          cases st with
          | waiting t => simp only [Option.map_some, wake]; rw [if_neg hvw]
          | ready => rfl
          | expired => rfl
          | done => rfl
      | takeStop q hm hq =>
        rcases i3 with ⟨h1, q', r, h2, h3⟩ | ⟨h1, h2⟩
        · exfalso
          rw [hq] at h2
          cases q' with
          | nil => cases h2
          | cons x q' => cases h2; exact h3 (by simp)
        · exact .inr ⟨by simp, h2⟩
      | takeSome v q hm hq =>
        rcases i3 with ⟨h1, q', r, h2, h3⟩ | ⟨h1, i, st, h2, h3⟩
        · rw [hq] at h2
          cases q' with
          | nil =>
            cases h2
            refine .inr ⟨by show s.mon ≠ .ended; rw [hm]; simp, s.threads.length, .ready, ?_, by simp⟩
            show (s.threads ++ [(w, Stage.ready)])[s.threads.length]? = _
            simp
          | cons x q' =>
            cases h2
            exact .inl ⟨h1, q', r, rfl, fun hc => h3 (by simp [hc])⟩
        · refine .inr ⟨h1, i, st, ?_, h3⟩
          have hlt : i < s.threads.length := (List.getElem?_eq_some_iff.1 h2).1
          show (s.threads ++ [(v, Stage.ready)])[i]? = _
          rw [List.getElem?_append_left hlt]; exact h2
      | wait j v hj =>
        rcases i3 with h1 | ⟨h1, i, st, h2, h3⟩
        · exact .inl h1
        · by_cases hij : j = i
          · subst hij
            rw [hj] at h2
            cases h2
            refine .inr ⟨h1, j, .waiting s.now, ?_, by simp⟩
            show (s.threads.set j (w, if s.flag w then Stage.done else .waiting s.now))[j]? = _
            rw [i2]
            exact getElem?_set_self' hj
          · exact .inr ⟨h1, i, st, getElem?_set_ne' h2 hij, h3⟩
      | expire j v t hj ht =>
        rcases i3 with h1 | ⟨h1, i, st, h2, h3⟩
        · exact .inl h1
        · by_cases hij : j = i
          · subst hij
            rw [hj] at h2
            cases h2
            exact .inr ⟨h1, j, .expired, getElem?_set_self' hj, by simp⟩
          · exact .inr ⟨h1, i, st, getElem?_set_ne' h2 hij, h3⟩
      | print j v hj =>
        rcases i3 with h1 | ⟨h1, i, st, h2, h3⟩
        · exact .inl h1
        · by_cases hij : j = i
          · subst hij
            rw [hj] at h2
            cases h2
            exact .inr ⟨h1, j, .ready, getElem?_set_self' hj, by simp⟩
          · exact .inr ⟨h1, i, st, getElem?_set_ne' h2 hij, h3⟩
      | join hm hd =>
        exfalso
        rcases i3 with ⟨h1, _⟩ | ⟨h1, i, st, h2, h3⟩
        · rw [hm] at h1; cases h1
        · exact h3 (hd _ (List.mem_of_getElem? h2))
      | stop hst =>
        rcases i3 with ⟨h1, q, r, h2, h3⟩ | h1
        · exact .inl ⟨h1, q, r ++ [none], by show s.queue ++ [none] = _; rw [h2]; simp, h3⟩
        · exact .inr h1
      | tick => exact i3
  exact key b

/-- The monitor has ended exactly if it has joined its threads. -/
theorem ended_iff (T : Nat) : ∀ l s, exec T init l = some s → (s.mon = .ended ↔ .join ∈ l) := by
  apply exec_ind
  · simp [init]
  · intro l s a s' _ ih hs
    rw [step_iff] at hs
    cases hs with
    | join hm h => simp
    | takeStop q hm hq => rw [hm] at ih; simpa using ih
    | _ => simpa using ih

/-- C98. `stop` returns only after every call announced before it has ended: a port that stays blocked blocks `stop` for ever. -/
theorem C98_stop_waits (T w : Nat) (l b : List Act) (s : St) (h : exec T init (l ++ .put w :: b) = some s) (hl : .stop ∉ l)
    (hj : .join ∈ l ++ .put w :: b) : .exit w ∈ b := by
  by_cases he : .exit w ∈ b
  · exact he
  · exfalso
    have happ : l ++ .put w :: b = (l ++ [.put w]) ++ b := by simp
    have hend := (ended_iff T _ s h).2 hj
    rw [happ] at h
    obtain ⟨s0, h0, h1⟩ := exec_take h
    obtain ⟨_, _, hc⟩ := pending T w l b s0 h0 hl s h1 he
    rcases hc with ⟨h1, _⟩ | ⟨h1, _⟩
    · rw [hend] at h1; cases h1
    · exact h1 hend

end Verif.Watchdog
