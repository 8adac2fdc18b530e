import Verif.System.DomainsProps

/-! # C127: examples -/

namespace Verif.System

/-- Two processes in a loop: process 0 sends its value on channel 0 and then adds what it receives on channel 1 (like `Dense`: send first); process
1 receives, adds and sends back (like `LIF`). Three time steps. -/
def domLoop : Prog Int Int where
  n := 2
  T := 3
  body := fun p => match p with
    | 0 => [.snd 0, .rcv 1]
    | 1 => [.rcv 0, .snd 1]
    | _ => []
  d0 := fun p => if p = 0 then 1 else 10
  emit := fun _ d _ => d
  absorb := fun _ d _ v => d + v
  tick := fun _ d => d
  cap := fun _ => 2

theorem domLoop_body (p : Nat) (o : Op) : o ∈ domLoop.body p ↔
    (p = 0 ∧ (o = .snd 0 ∨ o = .rcv 1)) ∨ (p = 1 ∧ (o = .rcv 0 ∨ o = .snd 1)) := by
  match p with
  | 0 => simp [domLoop]
  | 1 => simp [domLoop]
  | p + 2 => simp [domLoop]

theorem domLoop_below : domLoop.Below 2 := by
  rintro c ⟨p, _, h | h⟩ <;> rw [domLoop_body] at h <;> simp at h <;> omega

theorem domLoop_wired : Wired domLoop id (fun c => 1 - c) where
  nodup := by
    intro p
    match p with
    | 0 => simp [domLoop]
    | 1 => simp [domLoop]
    | p + 2 => simp [domLoop]
  snd := by intro p c h; rw [domLoop_body] at h; simp at h; simp; omega
  rcv := by intro p c h; rw [domLoop_body] at h; simp at h; omega
  both := by
    intro c hc
    have h := domLoop_below c hc
    have : c = 0 ∨ c = 1 := by omega
    rcases this with rfl | rfl <;> simp [domLoop]
  cap := by intro c _; show 1 ≤ 2; omega

theorem domLoop_no_circle : ¬ ∃ K, CircularWait domLoop id K := by
  refine C77_send_first_breaks_cycles domLoop id _ domLoop_wired (fun p => p = 0) ?_ (fun p => p) ?_
  · rintro p rfl c c' ⟨x, y, z, h⟩
    have h : [Op.snd 0, Op.rcv 1] = x ++ .rcv c' :: (y ++ .snd c :: z) := h
    have hl := congrArg List.length h
    simp only [List.length_append, List.length_cons, List.length_nil] at hl
    have hx : x = [] := List.length_eq_zero_iff.1 (by omega)
    subst hx
    simp at h
  · intro c hc h1 h2
    have h := domLoop_below c hc
    have : c = 0 ∨ c = 1 := by omega
    rcases this with rfl | rfl
    · exact absurd rfl h1
    · exact absurd rfl h2

/-- All in lockstep with one service; all asynchronous; one with a service, the other asynchronous. -/
def oneService : Domains := ⟨1, fun _ => some 0, fun _ => 1⟩
def asynchronous : Domains := ⟨0, fun _ => none, fun _ => 1⟩
def mixed : Domains := ⟨1, fun p => if p = 1 then some 0 else none, fun _ => 1⟩

theorem domains_ok : oneService.OK 2 ∧ asynchronous.OK 2 ∧ mixed.OK 2 := by
  refine ⟨⟨?_, fun _ => Nat.le_refl _⟩, ⟨?_, fun _ => Nat.le_refl _⟩, ⟨?_, fun _ => Nat.le_refl _⟩⟩
  · intro p j _ h; cases h; exact Nat.zero_lt_one
  · intro p j _ h; cases h
  · intro p j hp h
    simp only [mixed] at h ⊢
    split at h
    · cases h; exact Nat.zero_lt_one
    · cases h

/-- The loop under the three divisions, with different schedules. -/
theorem C127_example :
    let s := exec (domLoop.under 2 oneService).net (domLoop.under 2 oneService).init (List.replicate 40 [0, 1, 2]).flatten
    let s' := exec (domLoop.under 2 asynchronous).net (domLoop.under 2 asynchronous).init (List.replicate 40 [1, 0]).flatten
    let s'' := exec (domLoop.under 2 mixed).net (domLoop.under 2 mixed).init (List.replicate 40 [2, 1, 0]).flatten
    (s.hist 0, s.hist 1) = ([1, 12, 35], [11, 23, 58]) ∧ (s'.hist 0, s'.hist 1) = ([1, 12, 35], [11, 23, 58]) ∧
      (s''.hist 0, s''.hist 1) = ([1, 12, 35], [11, 23, 58]) ∧
      (s.q 0).data = 93 ∧ (s'.q 0).data = 93 ∧ (s''.q 0).data = 93 ∧ (s.hist (cmdCh 2 0)).length = 3 ∧ s'.hist (cmdCh 2 0) = [] := by
  decide +kernel

/-- Process 0 sends to process 1 in five time steps; the channel holds two messages. -/
def domChain : Prog Int Int where
  n := 2
  T := 5
  body := fun p => match p with
    | 0 => [.snd 0]
    | 1 => [.rcv 0]
    | _ => []
  d0 := fun _ => 0
  emit := fun _ d _ => d
  absorb := fun _ d _ v => d + v
  tick := fun p d => if p = 0 then d + 1 else d
  cap := fun _ => 2

/-- The bounds on running ahead are met: asynchronously the sender can be three time steps ahead of a receiver over a channel that holds two
messages (the receiver has taken the first message and has not completed its time step), and the receiver one time step ahead of the sender. -/
theorem C127_run_ahead_sharp :
    let s := exec (domChain.under 1 asynchronous).net (domChain.under 1 asynchronous).init [0, 1, 0, 0, 0, 0, 0, 0, 0]
    let s' := exec (domChain.under 1 asynchronous).net (domChain.under 1 asynchronous).init [0, 1, 1]
    (s.q 0).t = (s.q 1).t + domChain.cap 0 + 1 ∧ (s'.q 1).t = (s'.q 0).t + 1 := by
  decide +kernel

end Verif.System
