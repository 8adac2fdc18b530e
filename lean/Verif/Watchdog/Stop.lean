import Verif.Watchdog.Props

namespace Verif.Watchdog

def weight : Nat × Stage → Nat
  | (_, .expired) => 3
  | (_, .waiting _) => 4
  | (_, .ready) => 1
  | (_, .done) => 0

def qweight (q : List (Option Nat)) : Nat := 2 * q.length

def mweight : Mon → Nat
  | .loop => 1
  | .joining => 1
  | .ended => 0

/-- Bounds what the monitor still does when no port method is under way. -/
def measure (s : St) : Nat := qweight s.queue + total weight s.threads + mweight s.mon

/-- Nothing is under way and what is watched has its event set. -/
structure Calm (s : St) : Prop where
  flags : ∀ w, (some w ∈ s.queue ∨ ∃ st, (w, st) ∈ s.threads) → s.flag w = true
  none_waits : ∀ w t, (w, .waiting t) ∉ s.threads
  stopping : s.mon = .loop → none ∈ s.queue

theorem calm_step {T : Nat} {s s' : St} {a : Act} (h : Calm s) (ho : Own a) (hs : Step T s a s') :
    Calm s' ∧ measure s' < measure s := by
  cases hs with
  | clear w _ => cases ho
  | put w _ => cases ho
  | exit w _ => cases ho
  | stop _ => cases ho
  | tick => cases ho
  | takeStop q hm hq =>
    refine ⟨⟨?_, h.none_waits, by intro hc; cases hc⟩, ?_⟩
    · intro w hw
      refine h.flags w ?_
      rcases hw with hw | hw
      · exact .inl (by rw [hq]; simp [hw])
      · exact .inr hw
    · simp only [measure, qweight, hq, hm, mweight, List.length_cons]; omega
  | takeSome w q hm hq =>
    refine ⟨⟨?_, ?_, ?_⟩, ?_⟩
    · intro v hv
      refine h.flags v ?_
      rcases hv with hv | ⟨st, hv⟩
      · exact .inl (by rw [hq]; simp [hv])
      · rcases List.mem_append.1 hv with hv | hv
        · exact .inr ⟨st, hv⟩
        · simp at hv; exact .inl (by rw [hq, hv.1]; simp)
    · intro v t hv
      rcases List.mem_append.1 hv with hv | hv
      · exact h.none_waits v t hv
      · simp at hv
    · intro _
      have := h.stopping hm
      rw [hq] at this; simpa using this
    · simp only [measure, qweight, hq, List.length_cons, total_append]
      simp only [total, weight, List.map_cons, List.map_nil, List.sum_cons, List.sum_nil]; omega
  | wait i w hi =>
    have hf := h.flags w (.inr ⟨_, List.mem_of_getElem? hi⟩)
    refine ⟨⟨?_, ?_, h.stopping⟩, ?_⟩
    · intro v hv
      refine h.flags v ?_
      rcases hv with hv | ⟨st, hv⟩
      · exact .inl hv
      · rcases mem_set_cases hv with hv | hv
        · cases hv; exact .inr ⟨_, List.mem_of_getElem? hi⟩
        · exact .inr ⟨_, hv⟩
    · intro v t hv
      rcases mem_set_cases hv with hv | hv
      · have := congrArg Prod.snd hv
        rw [hf] at this; simp at this
      · exact h.none_waits v t hv
    · have e := total_set weight _ _ (w, if s.flag w then .done else .waiting s.now) _ hi
      rw [hf] at e
      simp only [measure]
      rw [hf]
      simp only [weight, if_true] at e ⊢
      omega
  | expire i w t hi ht => exact absurd (List.mem_of_getElem? hi) (h.none_waits w t)
  | print i w hi =>
    refine ⟨⟨?_, ?_, h.stopping⟩, ?_⟩
    · intro v hv
      refine h.flags v ?_
      rcases hv with hv | ⟨st, hv⟩
      · exact .inl hv
      · rcases mem_set_cases hv with hv | hv
        · cases hv; exact .inr ⟨_, List.mem_of_getElem? hi⟩
        · exact .inr ⟨_, hv⟩
    · intro v t hv
      rcases mem_set_cases hv with hv | hv
      · cases hv
      · exact h.none_waits v t hv
    · have e := total_set weight _ _ (w, .ready) _ hi
      simp only [measure]
      simp only [weight] at e ⊢
      omega
  | join hm hd =>
    refine ⟨⟨h.flags, h.none_waits, by intro hc; cases hc⟩, ?_⟩
    simp only [measure, hm, mweight]; omega

theorem calm_progress {T : Nat} {s : St} (h : Calm s) (hn : ∀ x, Own x → step T s x = none) : s.mon = .ended := by
  cases hm : s.mon with
  | ended => rfl
  | loop =>
    exfalso
    have h1 := h.stopping hm
    have h2 := hn .take trivial
    cases hq : s.queue with
    | nil => rw [hq] at h1; cases h1
    | cons e q => cases e <;> simp [step, doTake, hm, hq] at h2
  | joining =>
    exfalso
    have h2 := hn .join trivial
    simp only [step, doJoin] at h2
    split at h2
    · cases h2
    · rename_i hc
      apply hc
      refine ⟨hm, ?_⟩
      rintro ⟨w, st⟩ ht
      obtain ⟨i, hi⟩ := List.getElem?_of_mem ht
      cases st with
      | done => rfl
      | ready =>
        have := hn (.wait i) trivial
        simp [step, doWait, hi] at this
      | waiting t => exact absurd ht (h.none_waits w t)
      | expired =>
        have := hn (.print i w) trivial
        simp [step, doPrint, hi] at this

theorem stopping_queue (T : Nat) : ∀ l s, exec T init l = some s → s.stopping = true → s.mon = .loop → none ∈ s.queue := by
  apply exec_ind
  · intro h; cases h
  · intro l s a s' _ ih hs
    rw [step_iff] at hs
    cases hs with
    | put w h => intro h1 h2; simpa using ih h1 h2
    | takeStop q hm hq => intro _ h2; cases h2
    | takeSome w q hm hq => intro h1 h2; have := ih h1 h2; rw [hq] at this; simpa using this
    | join hm h => intro _ h2; cases h2
    | stop h => intro _ _; simp
    | clear w h => exact ih
    | exit w h => exact ih
    | wait i w h => exact ih
    | expire i w t h ht => exact ih
    | print i w h => exact ih
    | tick => exact ih

/-- C98. If all calls have ended and no new ones begin, `stop` returns: what the monitor still does is bounded, and it cannot come to rest before its
end. -/
theorem C98_stop_returns (T : Nat) (l : List Act) (s : St) (h : exec T init l = some s) (hs : .stop ∈ l)
    (hall : ∀ w a b, l = a ++ .clear w :: b → .exit w ∈ b) :
    ∃ n, ∀ m s', (∀ x ∈ m, Own x) → exec T s m = some s' →
      m.length ≤ n ∧ ((∀ x, Own x → step T s' x = none) → .join ∈ l ++ m) := by
  have I := inv_holds T l s h
  have hidle : ∀ w, s.op w = .idle := by
    intro w
    by_cases hw : s.op w = .idle
    · exact hw
    · obtain ⟨d, a, b, h1, _, h2, _⟩ := I.under w hw
      exact absurd (hall w a b h1) h2
  have hcalm : Calm s := by
    refine ⟨fun w hw => I.set w hw (hidle w), fun w t hw => (I.waiting w t hw).1 (hidle w), ?_⟩
    exact stopping_queue T l s h ((loop_before_stop T l s h).1.1 hs)
  refine ⟨measure s, ?_⟩
  intro m s' hm he
  have key : ∀ m s1 s2, Calm s1 → (∀ x ∈ m, Own x) → exec T s1 m = some s2 → Calm s2 ∧ m.length + measure s2 ≤ measure s1 := by
    intro m
    induction m with
    | nil => intro s1 s2 hc _ he; cases he; exact ⟨hc, by simp⟩
    | cons a m ih =>
      intro s1 s2 hc ho he
      simp only [exec] at he
      cases hst : step T s1 a with
      | none => rw [hst] at he; cases he
      | some s3 =>
        rw [hst] at he
        obtain ⟨c1, c2⟩ := calm_step hc (ho a (by simp)) (step_iff.1 hst)
        obtain ⟨d1, d2⟩ := ih s3 s2 c1 (fun x hx => ho x (by simp [hx])) he
        exact ⟨d1, by simp only [List.length_cons]; omega⟩
  obtain ⟨k1, k2⟩ := key m s s' hcalm hm he
  refine ⟨by omega, fun hn => ?_⟩
  have hfull : exec T init (l ++ m) = some s' := by rw [exec_append, h]; exact he
  exact (ended_iff T _ s' hfull).1 (calm_progress k1 hn)

/-! ## Too many messages -/

/-- `n` calls that end at once, then one that lasts for the timeout. -/
def burst : Nat → List Act
  | 0 => []
  | n + 1 => burst n ++ [.clear 0, .put 0, .exit 0]

theorem replicate_set {α : Type} (k n : Nat) (a b : α) :
    (List.replicate k a ++ List.replicate (n + 1) b).set k a = List.replicate (k + 1) a ++ List.replicate n b := by
  rw [List.set_append_right _ _ (by simp)]
  simp [List.replicate_succ, List.replicate_succ']
  induction k with
  | zero => rfl
  | succ k ih => simp [List.replicate_succ, ih]

theorem range_map_step {T : Nat} (f : Nat → Act) (x y : Nat × Stage) (s : St)
    (hst : ∀ i th, th[i]? = some x → step T { s with threads := th } (f i) = some { s with threads := th.set i y }) (n : Nat) :
    ∀ k, exec T { s with threads := List.replicate (n + k) x } ((List.range n).map f) =
        some { s with threads := List.replicate n y ++ List.replicate k x } := by
  induction n with
  | zero => intro k; simp [exec]
  | succ n ih =>
    intro k
    rw [List.range_succ, List.map_append, exec_append]
    have e : n + 1 + k = n + (k + 1) := by omega
    rw [e, ih (k + 1)]
    simp only [Option.bind_some, List.map_cons, List.map_nil, exec]
    rw [hst n _ (by rw [List.getElem?_append_right (by simp)]; simp)]
    rw [replicate_set]

theorem prompt_no_tick {T : Nat} (l : List Act) (h : .tick ∉ l) : ∀ s, Prompt T s l := by
  induction l with
  | nil => intro s; trivial
  | cons a l ih =>
    intro s
    exact ⟨fun e => absurd (by simp [e]) h, fun s' _ => ih (fun hc => h (by simp [hc])) s'⟩

/-- The state after `n` short calls. -/
theorem burst_exec (T n : Nat) : ∃ fl o, o 0 = .idle ∧ exec T init (burst n) =
    some ⟨0, fl, o, List.replicate n (some 0), [], .loop, false⟩ := by
  induction n with
  | zero => exact ⟨_, _, rfl, rfl⟩
  | succ n ih =>
    obtain ⟨fl, o, h0, h1⟩ := ih
    refine ⟨upd (upd fl 0 false) 0 true, upd (upd (upd o 0 .cleared) 0 .running) 0 .idle, upd_self _ 0 _, ?_⟩
    simp only [burst]
    rw [exec_append, h1]
    simp only [Option.bind_some, exec, step, doClear, doPut, doExit, h0, if_true, upd_self, List.map_nil, ← List.replicate_succ']

theorem takes_exec (T : Nat) (fl : Nat → Bool) (o : Nat → Op) (n : Nat) : ∀ th : List (Nat × Stage),
    exec T ⟨0, fl, o, List.replicate n (some 0), th, .loop, false⟩ (List.replicate n .take) =
      some ⟨0, fl, o, [], th ++ List.replicate n (0, .ready), .loop, false⟩ := by
  induction n with
  | zero => intro th; simp [exec]
  | succ n ih =>
    intro th
    simp only [List.replicate_succ, exec, step, doTake, if_true]
    rw [ih]
    simp

theorem ticks_exec (T : Nat) (fl : Nat → Bool) (o : Nat → Op) (th : List (Nat × Stage)) (hth : ∀ t ∈ th, t.2 = .waiting 0) (k : Nat) :
    ∀ n, n + k ≤ T → exec T ⟨n, fl, o, [], th, .loop, false⟩ (List.replicate k .tick) = some ⟨n + k, fl, o, [], th, .loop, false⟩ ∧
      Prompt T ⟨n, fl, o, [], th, .loop, false⟩ (List.replicate k .tick) := by
  induction k with
  | zero => intro n _; exact ⟨rfl, trivial⟩
  | succ k ih =>
    intro n hn
    obtain ⟨h1, h2⟩ := ih (n + 1) (by omega)
    refine ⟨?_, ?_, ?_⟩
    · simp only [List.replicate_succ, exec, step]
      rw [h1]
      have e : n + 1 + k = n + (k + 1) := by omega
      rw [e]
    · intro _ x hx
      cases x with
      | take => simp [step, doTake]
      | wait i =>
        simp only [step, doWait]
        split
        · rename_i h; have := hth _ (List.mem_of_getElem? h); cases this
        · rfl
      | expire i =>
        simp only [step, doExpire]
        split
        · rename_i h
          have := hth _ (List.mem_of_getElem? h)
          cases this
          rw [if_neg (by omega)]
        · rfl
      | print i w =>
        simp only [step, doPrint]
        split
        · rename_i h; have := hth _ (List.mem_of_getElem? h); cases this
        · rfl
      | join => simp [step, doJoin]
      | _ => cases hx
    · intro s' hs
      simp only [step, Option.some.injEq] at hs
      subst hs
      exact h2

theorem count_map_zero {α : Type} (l : List α) (f : α → Act) (a : Act) (h : ∀ x, f x ≠ a) : (l.map f).count a = 0 := by
  rw [List.count_eq_zero]
  intro hc
  obtain ⟨x, _, hx⟩ := List.mem_map.1 hc
  exact h x hx

/-- C98, what is wrong: threads of calls that have ended may begin to wait when the event is cleared for the next call. A single call that is blocked
for the timeout can give any number of messages, also with a monitor that is faster than the clock: here `n` calls end at once, the next one
lasts for the timeout and gives `n + 1` messages. -/
theorem C98_witness_duplicates (T n : Nat) :
    ∃ b s, exec T init (burst n ++ .clear 0 :: b) = some s ∧ Prompt T init (burst n ++ .clear 0 :: b) ∧ .clear 0 ∉ b ∧ .exit 0 ∉ b ∧
      ticks b = T ∧ messages 0 b = n + 1 ∧ ticks (burst n) = 0 := by
  refine ⟨.put 0 :: (List.replicate (n + 1) .take ++ ((List.range (n + 1)).map .wait ++ (List.replicate T .tick ++
    ((List.range (n + 1)).map .expire ++ (List.range (n + 1)).map fun i => .print i 0)))), ?_⟩
  obtain ⟨fl, o, h0, h1⟩ := burst_exec T n
  have nb : .tick ∉ burst n := by
    clear h1
    induction n with
    | zero => simp [burst]
    | succ n ih => simpa [burst] using ih
  let fl' := upd fl 0 false
  let o' := upd (upd o 0 .cleared) 0 .running
  have e1 : exec T ⟨0, fl, o, List.replicate n (some 0), [], .loop, false⟩ [.clear 0, .put 0] =
      some ⟨0, fl', o', List.replicate (n + 1) (some 0), [], .loop, false⟩ := by
    simp only [exec, step, doClear, doPut, h0, if_true, upd_self, ← List.replicate_succ']
    rfl
  have e2 := takes_exec T fl' o' (n + 1) []
  have e3 := range_map_step (T := T) Act.wait (0, .ready) (0, .waiting 0) ⟨0, fl', o', [], [], .loop, false⟩
    (by intro i th hi; have : fl' 0 = false := upd_self _ _ _; simp [step, doWait, hi, this]) (n + 1) 0
  have hth : ∀ t ∈ List.replicate (n + 1) ((0, .waiting 0) : Nat × Stage), t.2 = .waiting 0 := by
    intro t ht; rw [(List.mem_replicate.1 ht).2]
  have e4 := ticks_exec T fl' o' _ hth T 0 (by omega)
  have e5 := range_map_step (T := T) Act.expire (0, .waiting 0) (0, .expired) ⟨T, fl', o', [], [], .loop, false⟩
    (by intro i th hi; simp [step, doExpire, hi]) (n + 1) 0
  have e6 := range_map_step (T := T) (fun i => Act.print i 0) (0, .expired) (0, .ready) ⟨T, fl', o', [], [], .loop, false⟩
    (by intro i th hi; simp [step, doPrint, hi]) (n + 1) 0
  simp only [Nat.add_zero, List.replicate_zero, List.append_nil, List.nil_append, Nat.zero_add] at e2 e3 e4 e5 e6
  have split : ∀ m, burst n ++ Act.clear 0 :: Act.put 0 :: m = burst n ++ ([.clear 0, .put 0] ++ m) := by intro m; rfl
  refine ⟨⟨T, fl', o', [], List.replicate (n + 1) (0, .ready), .loop, false⟩, ?_, ?_, ?_, ?_, ?_, ?_, ?_⟩
  · rw [split, exec_append, h1]
    simp only [Option.bind_some]
    rw [exec_append, e1]
    simp only [Option.bind_some]
    rw [exec_append, e2]
    simp only [Option.bind_some]
    rw [exec_append, e3]
    simp only [Option.bind_some]
    rw [exec_append, e4.1]
    simp only [Option.bind_some]
    rw [exec_append, e5]
    simp only [Option.bind_some]
    exact e6
  · rw [split, Prompt.append]
    refine ⟨prompt_no_tick _ nb _, ?_⟩
    intro s hs; rw [h1] at hs; cases hs
    rw [Prompt.append]
    refine ⟨prompt_no_tick _ (by simp) _, ?_⟩
    intro s hs; rw [e1] at hs; cases hs
    rw [Prompt.append]
    refine ⟨prompt_no_tick _ (by simp) _, ?_⟩
    intro s hs; rw [e2] at hs; cases hs
    rw [Prompt.append]
    refine ⟨prompt_no_tick _ (by simp) _, ?_⟩
    intro s hs; rw [e3] at hs; cases hs
    rw [Prompt.append]
    refine ⟨e4.2, ?_⟩
    intro s _
    exact prompt_no_tick _ (by simp) _
  · simp
  · simp
  · have z1 : ((List.range (n + 1)).map Act.wait).count .tick = 0 := count_map_zero _ _ _ (by simp)
    have z2 : ((List.range (n + 1)).map Act.expire).count .tick = 0 := count_map_zero _ _ _ (by simp)
    have z3 : ((List.range (n + 1)).map fun i => Act.print i 0).count .tick = 0 := count_map_zero _ _ _ (by simp)
    have z4 : (List.replicate (n + 1) Act.take).count .tick = 0 := by simp [List.count_replicate]
    simp only [ticks, List.count_cons, List.count_append, z1, z2, z3, z4, List.count_replicate_self]
    simp
  · simp [messages, List.countP_append, List.countP_replicate, List.countP_map, Function.comp_def]
  · simpa [ticks, List.count_eq_zero] using nb

/-- A non-trivial case of `C98_message_means_blocked` and `C98_blocked_means_message`: a call blocked for five ticks with timeout 2 gives two messages. -/
example : (exec 2 init [.clear 7, .put 7, .take, .wait 0, .tick, .tick, .expire 0, .print 0 7, .wait 0, .tick, .tick, .expire 0, .print 0 7, .wait 0,
    .tick, .exit 7, .stop, .take, .join]).isSome = true := by decide

/-- `C98_stop_returns` applies there before `take`. -/
example : (exec 2 init [.clear 7, .put 7, .take, .wait 0, .tick, .exit 7, .stop]).isSome = true ∧
    (exec 2 init [.clear 7, .put 7, .take, .wait 0, .tick, .stop, .take, .join]).isSome = false := by decide

end Verif.Watchdog
