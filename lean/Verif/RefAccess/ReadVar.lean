import Verif.RefAccess.Examples
import Verif.IO.Props

/-!
# C129: `Read` processes

Any number of `Read` processes (io/sink.py:76-130) refer to Vars of a process, which may use its own post-management phase. Everything runs as
in `Verif.RefAccess.Model`: process models with RefPorts and VarPorts, one runtime service, any schedule. What they record is compared with
`Verif.IO.readAt`, the `Read` of C50, which is given the values of the Var one after the other.
-/

namespace Verif.RefAccess.ReadVar

open Verif.EndToEnd (Phase Flags noFlags nextPhase)

/-- Vars: `time_step`, those of the process that is read, buffer and counter of a `Read`. Each process uses some of them. -/
structure Vars (α β : Type) where
  t : Nat
  st : β
  data : Nat → α
  counter : Nat

/-- A `Read` process: buffer, interval, offset (io/sink.py:88-102). -/
structure ReadPar where
  buffer : Nat
  interval : Nat
  offset : Nat

/-- The process that is read (initial Vars, `run_spk`, `post_guard`, `run_post_mgmt` in each time step), the `Read`s with the Vars they refer to,
the initial content of the buffers, sizes of channels. -/
structure Net (α β : Type) where
  start : β
  f : Nat → β → β
  g : Nat → β → Bool
  h : Nat → β → β
  readers : Nat
  view : Nat → β → α
  par : Nat → ReadPar
  z : α
  cap : Ch → Nat

variable {α β : Type}

/-- Model 0 is the process that is read, model `e + 1` is `Read` number `e`, whose RefPort is `e` (`post_guard` and `run_post_mgmt`,
io/sink.py:123-130). There are no models beyond `readers`. -/
def Net.sys (n : Net α β) : Sys (Vars α β) α where
  n := n.readers + 1
  ne := n.readers
  src e := e + 1
  dst _ := 0
  rd e s := n.view e s.st
  wr _ _ s := s
  cap := n.cap
  init _ := ⟨0, n.start, fun _ => n.z, 0⟩
  spk i s := match i with
    | 0 => .ret { s with t := s.t + 1, st := n.f (s.t + 1) s.st }
    | _ + 1 => .ret { s with t := s.t + 1 }
  pre _ s := .ret s
  lrn _ s := .ret s
  post i s := match i with
    | 0 => .ret { s with st := n.h s.t s.st }
    | e + 1 =>
      if e < n.readers then .read e fun a => .ret { s with data := Verif.IO.upd s.data (s.counter % (n.par e).buffer) a, counter := s.counter + 1 }
      else .ret s
  preGuard _ _ := false
  lrnGuard _ _ := false
  postGuard i s := match i with
    | 0 => n.g s.t s.st
    | e + 1 => Verif.IO.guard (n.par e).interval (n.par e).offset s.t

/-! ### What it is to compute -/

/-- The Vars of the process that is read after `t` time steps, in each of which it does what it does. -/
def Net.after (n : Net α β) : Nat → β
  | 0 => n.start
  | t + 1 => let x := n.f (t + 1) (n.after t); if n.g (t + 1) x then n.h (t + 1) x else x

/-- `Read` number `e` after `t` time steps, if it gets the values at the ends of the time steps (C50). -/
def Net.recorded (n : Net α β) (e t : Nat) : Verif.IO.ReadSt α :=
  Verif.IO.readAt n.z (n.par e).buffer (n.par e).interval (n.par e).offset (fun t => n.view e (n.after t)) t

/-! ### Phases in which nobody waits -/

section
variable {S V : Type}

/-- The first `j` models have had their turn. -/
def done (y : Sys S V) (ph : Phase) (σ new : Nat → S) (d : Nat → List V) (j : Nat) : World S V :=
  ⟨fun i => if i < j then new i else σ i, fun i => if i < j then none else if i < y.n then some (duty y ph i (σ i)) else none, d⟩

theorem done_put (y : Sys S V) (ph : Phase) (σ new : Nat → S) (d : Nat → List V) (j : Nat) :
    (⟨put (done y ph σ new d j).σ j (new j), put (done y ph σ new d j).todo j none, d⟩ : World S V) = done y ph σ new d (j + 1) := by
  unfold done
  congr 1 <;> funext i <;> by_cases hi : i = j
  · subst hi; rw [put_self, if_pos (by omega)]
  · rw [put_ne _ hi]
    dsimp only
    by_cases hlt : i < j
    · rw [if_pos hlt, if_pos (by omega)]
    · rw [if_neg hlt, if_neg (by omega)]
  · subst hi; rw [put_self, if_pos (by omega)]
  · rw [put_ne _ hi]
    dsimp only
    by_cases hlt : i < j
    · rw [if_pos hlt, if_pos (by omega)]
    · rw [if_neg hlt, if_neg (show ¬ i < j + 1 by omega)]

theorem phase_of (y : Sys S V) (ph : Phase) (σ new : Nat → S) (d : Nat → List V)
    (hstep : ∀ j, j < y.n → goOn y j (duty y ph j (σ j)) (done y ph σ new d j) = done y ph σ new d (j + 1)) :
    phaseRef y (fun _ _ => List.range y.n) ph (σ, d) = some (fun i => if i < y.n then new i else σ i, d) := by
  have hall : ∀ j, j ≤ y.n → (List.range j).foldl (turn y) (called y ph (σ, d)) = done y ph σ new d j := by
    intro j
    induction j with
    | zero =>
      intro _
      show called y ph (σ, d) = _
      unfold done called
      congr 1
    | succ j ih =>
      intro hj
      rw [List.range_succ, List.foldl_append, ih (by omega)]
      show turn y (done y ph σ new d j) j = _
      have : (done y ph σ new d j).todo j = some (duty y ph j (σ j)) := by
        show (if j < j then none else if j < y.n then _ else none) = _
        rw [if_neg (by omega), if_pos (by omega)]
      unfold turn
      rw [this]
      exact hstep j (by omega)
  unfold phaseRef
  simp only [hall y.n (Nat.le_refl _)]
  rw [if_pos]
  · rfl
  · intro i hi
    show (if i < y.n then none else _ : Option (Prog S V)).isNone = true
    rw [if_pos hi]
    rfl
end

/-! ### The reference -/

def turns (n : Net α β) : Order (Vars α β) α := fun _ _ => List.range n.sys.n

/-- Values of all processes: the process that is read has `x`, the `Read`s have recorded `r`. -/
def vals (n : Net α β) (t : Nat) (x : β) (r : Nat → Verif.IO.ReadSt α) : Nat → Vars α β
  | 0 => ⟨t, x, fun _ => n.z, 0⟩
  | e + 1 => if e < n.readers then ⟨t, n.start, (r e).data, (r e).counter⟩ else ⟨0, n.start, fun _ => n.z, 0⟩

theorem spk_phase (n : Net α β) (t : Nat) (x : β) (r : Nat → Verif.IO.ReadSt α) :
    phaseRef n.sys (turns n) .spk (vals n t x r, fun _ => []) = some (vals n (t + 1) (n.f (t + 1) x) r, fun _ => []) := by
  unfold turns
  rw [phase_of n.sys .spk (vals n t x r) (vals n (t + 1) (n.f (t + 1) x) r)]
  · congr 2
    funext i
    match i with
    | 0 => exact if_pos (Nat.succ_pos _)
    | e + 1 =>
      by_cases he : e < n.readers
      · exact if_pos (Nat.succ_lt_succ he)
      · refine (if_neg (fun h => he (Nat.lt_of_succ_lt_succ h))).trans ?_
        simp only [vals, if_neg he]
  · intro j hj
    rw [← done_put]
    match j, hj with
    | 0, _ => rfl
    | e + 1, hj =>
      have he : e < n.readers := Nat.lt_of_succ_lt_succ hj
      show goOn n.sys (e + 1) (.ret _) _ = _
      simp only [goOn, vals, if_pos he]
      rfl

theorem post_phase (n : Net α β) (t : Nat) (x : β) (r : Nat → Verif.IO.ReadSt α) :
    phaseRef n.sys (turns n) .post (vals n t x r, fun _ => []) =
      some (vals n t (if n.g t x then n.h t x else x) (fun e => if Verif.IO.guard (n.par e).interval (n.par e).offset t then
          ⟨Verif.IO.upd (r e).data ((r e).counter % (n.par e).buffer) (n.view e (if n.g t x then n.h t x else x)), (r e).counter + 1⟩ else r e),
        fun _ => []) := by
  unfold turns
  rw [phase_of n.sys .post (vals n t x r) (vals n t (if n.g t x then n.h t x else x) (fun e => if Verif.IO.guard (n.par e).interval (n.par e).offset t then
          ⟨Verif.IO.upd (r e).data ((r e).counter % (n.par e).buffer) (n.view e (if n.g t x then n.h t x else x)), (r e).counter + 1⟩ else r e))]
  · congr 2
    funext i
    match i with
    | 0 => exact if_pos (Nat.succ_pos _)
    | e + 1 =>
      by_cases he : e < n.readers
      · exact if_pos (Nat.succ_lt_succ he)
      · refine (if_neg (fun h => he (Nat.lt_of_succ_lt_succ h))).trans ?_
        simp only [vals, if_neg he]
  · intro j hj
    rw [← done_put]
    match j, hj with
    | 0, _ =>
      cases hg : n.g t x
      · show goOn n.sys 0 (cond (n.g t x) _ _) _ = _
        rw [hg]
        simp only [vals, cond_false, goOn]
        rfl
      · show goOn n.sys 0 (cond (n.g t x) _ _) _ = _
        rw [hg]
        simp only [vals, cond_true]
        rfl
    | e + 1, hj =>
      have he : e < n.readers := Nat.lt_of_succ_lt_succ hj
      have hd : duty n.sys .post (e + 1) (vals n t x r (e + 1)) =
          cond (Verif.IO.guard (n.par e).interval (n.par e).offset t)
            (.read e fun a => .ret ⟨t, n.start, Verif.IO.upd (r e).data ((r e).counter % (n.par e).buffer) a, (r e).counter + 1⟩)
            (.ret ⟨t, n.start, (r e).data, (r e).counter⟩) := by
        simp only [vals, if_pos he, duty, Net.sys]
      rw [hd]
      cases hg : Verif.IO.guard (n.par e).interval (n.par e).offset t
      · simp only [cond_false, goOn, vals, if_pos he, hg]
        rfl
      · simp only [cond_true, goOn, vals, if_pos he, hg]
        rfl

/-- One time step of the reference. -/
theorem step_ref (n : Net α β) (t : Nat) :
    stepRef n.sys (turns n) (vals n t (n.after t) (fun e => n.recorded e t), fun _ => []) =
      some (vals n (t + 1) (n.after (t + 1)) (fun e => n.recorded e (t + 1)), fun _ => []) := by
  have hfalse : ∀ σ, anyOf n.sys n.sys.lrnGuard σ = false := by intro σ; simp [anyOf, Net.sys]
  have hpre : ∀ r, wantPre n.sys r = false := by intro r; simp [wantPre, anyOf, Net.sys]
  have hlrn : ∀ r, wantLrn n.sys r = false := fun r => hfalse r.1
  rw [stepRef, spk_phase, Option.bind_some, hpre, phaseIf, if_neg (by simp), Option.bind_some, hlrn, phaseIf, if_neg (by simp),
    Option.bind_some]
  have hend : (fun e => n.recorded e (t + 1)) = (fun e => if Verif.IO.guard (n.par e).interval (n.par e).offset (t + 1) then
      (⟨Verif.IO.upd (n.recorded e t).data ((n.recorded e t).counter % (n.par e).buffer) (n.view e (n.after (t + 1))), (n.recorded e t).counter + 1⟩ :
        Verif.IO.ReadSt α) else n.recorded e t) := rfl
  rw [hend]
  cases hw : wantPost n.sys (vals n (t + 1) (n.f (t + 1) (n.after t)) (fun e => n.recorded e t), fun _ => [])
      (vals n (t + 1) (n.f (t + 1) (n.after t)) (fun e => n.recorded e t), fun _ => [])
  · have hno : ∀ i, i < n.readers + 1 → n.sys.postGuard i (vals n (t + 1) (n.f (t + 1) (n.after t)) (fun e => n.recorded e t) i) = false := by
      intro i hi
      rw [wantPost, hfalse, Bool.false_and, Bool.or_false, anyOf, List.any_eq_false] at hw
      have := hw i (List.mem_range.2 hi)
      simpa [Net.sys] using this
    have hg : n.g (t + 1) (n.f (t + 1) (n.after t)) = false := hno 0 (Nat.succ_pos _)
    have ha : n.after (t + 1) = n.f (t + 1) (n.after t) := by
      show (if n.g (t + 1) (n.f (t + 1) (n.after t)) then _ else _) = _
      rw [hg]; rfl
    rw [phaseIf, if_neg (by simp), ha]
    congr 2
    funext i
    match i with
    | 0 => rfl
    | e + 1 =>
      by_cases he : e < n.readers
      · have h1 := hno (e + 1) (Nat.succ_lt_succ he)
        simp only [vals, if_pos he] at h1 ⊢
        have h2 : Verif.IO.guard (n.par e).interval (n.par e).offset (t + 1) = false := h1
        simp [h2]
      · simp only [vals, if_neg he]
  · rw [phaseIf, if_pos rfl, post_phase]
    rfl

theorem steps_ref (n : Net α β) : ∀ k t,
    stepsRef n.sys (turns n) k (vals n t (n.after t) (fun e => n.recorded e t), fun _ => []) =
      some (vals n (t + k) (n.after (t + k)) (fun e => n.recorded e (t + k)), fun _ => []) := by
  intro k
  induction k with
  | zero => intro t; rfl
  | succ k ih =>
    intro t
    rw [stepsRef, step_ref, Option.bind_some]
    have := ih (t + 1)
    rw [show t + 1 + k = t + (k + 1) by omega] at this
    exact this

theorem run_ref (n : Net α β) (runs : List Nat) :
    runAll n.sys (turns n) runs = some (vals n runs.sum (n.after runs.sum) (fun e => n.recorded e runs.sum), fun _ => []) := by
  have h := steps_ref n runs.sum 0
  rw [Nat.zero_add] at h
  rw [← h]
  unfold runAll
  congr 2
  funext i
  match i with
  | 0 => rfl
  | e + 1 =>
    show _ = if e < n.readers then _ else _
    split <;> rfl

theorem tidy (n : Net α β) (hc : ∀ c, 1 ≤ n.cap c) : Tidy n.sys id id (fun _ => False) where
  some_model := Nat.succ_pos _
  src_lt e he := Nat.succ_lt_succ he
  dst_lt e he := Nat.succ_pos _
  room := hc
  own i ph s := by
    match i with
    | 0 =>
      cases ph <;> simp [duty, Net.sys, Prog.Own]
      cases n.g s.t s.st <;> simp [Prog.Own]
    | e + 1 =>
      cases ph <;> simp [duty, Net.sys, Prog.Own]
      cases Verif.IO.guard (n.par e).interval (n.par e).offset s.t <;> by_cases he : e < n.readers <;> simp [Prog.Own, he]
  noRef_spk i s := by
    match i with
    | 0 => trivial
    | e + 1 => trivial
  noRef_lrn i s := trivial
  waits i ph s := by
    match i with
    | 0 =>
      cases ph <;> simp [duty, Net.sys, Prog.Waits]
      cases n.g s.t s.st <;> simp [Prog.Waits]
    | e + 1 =>
      cases ph <;> simp [duty, Net.sys, Prog.Waits]
      cases Verif.IO.guard (n.par e).interval (n.par e).offset s.t <;> by_cases he : e < n.readers <;> simp [Prog.Waits, he]
  alone_read e e' v s _ _ h := h.elim
  alone_write e e' v v' s _ _ h := h.elim

/-! ### Any schedule -/

/-- **C129.** Whatever the schedule and the division into runs: no more than some number of steps is ever taken, every schedule can be continued
until nothing can happen any more, and then all runs are finished, the process that is read is as it is when nobody reads it, and
each `Read` has recorded the values of its Var at the ends of time steps, after the post-management of the process that is read. -/
theorem C129_every_schedule (n : Net α β) (hc : ∀ c, 1 ≤ n.cap c) (runs : List Nat) :
    (∃ N, ∀ ls, effective (net n.sys) (initial n.sys runs) ls ≤ N) ∧
    (∀ ls, ∃ more, Stuck (net n.sys) (exec (net n.sys) (initial n.sys runs) (ls ++ more))) ∧
    ∀ ls, Stuck (net n.sys) (exec (net n.sys) (initial n.sys runs) ls) →
      Finished (exec (net n.sys) (initial n.sys runs) ls) ∧
      (∃ s, varsOf (exec (net n.sys) (initial n.sys runs) ls) 0 = some s ∧ s.t = runs.sum ∧ s.st = n.after runs.sum) ∧
      ∀ e, e < n.readers → ∃ s, varsOf (exec (net n.sys) (initial n.sys runs) ls) (e + 1) = some s ∧
        s.data = (Verif.IO.readAt n.z (n.par e).buffer (n.par e).interval (n.par e).offset (fun t => n.view e (n.after t)) runs.sum).data ∧
        s.counter = (Verif.IO.readAt n.z (n.par e).buffer (n.par e).interval (n.par e).offset (fun t => n.view e (n.after t)) runs.sum).counter := by
  obtain ⟨h1, h2, h3⟩ := C113_outcome (tidy n hc) (turns n) runs (run_ref n runs)
  refine ⟨h1, h2, fun ls hs => ?_⟩
  obtain ⟨hf, hv, _⟩ := h3 ls hs
  refine ⟨hf, ⟨_, hv 0, rfl, rfl⟩, fun e he => ⟨_, hv (e + 1), ?_, ?_⟩⟩
  · simp only [vals, if_pos he]; rfl
  · simp only [vals, if_pos he]; rfl

/-- **C129.** What is in a buffer when the runs are over, under every schedule: slot `k` modulo the size of the buffer holds the value of the Var at the
end of time step `offset + 1 + k * interval`, if that time step has come and not so many later ones that the slot was used again. -/
theorem C129_slot (n : Net α β) (hc : ∀ c, 1 ≤ n.cap c) (runs : List Nat) (ls : List (Nat × Nat))
    (hs : Stuck (net n.sys) (exec (net n.sys) (initial n.sys runs) ls)) (e : Nat) (he : e < n.readers) {b I o : Nat} (hp : n.par e = ⟨b, I, o⟩)
    (hI : 0 < I) (hb : 0 < b) (k : Nat) (h1 : o % I + 1 + k * I ≤ runs.sum) (h2 : runs.sum < o % I + 1 + (k + b) * I) :
    ∃ s, varsOf (exec (net n.sys) (initial n.sys runs) ls) (e + 1) = some s ∧ s.data (k % b) = n.view e (n.after (o % I + 1 + k * I)) := by
  obtain ⟨s, h, hd, _⟩ := ((C129_every_schedule n hc runs).2.2 ls hs).2.2 e he
  refine ⟨s, h, ?_⟩
  rw [hd, hp]
  exact Verif.IO.C50_read n.z b I o _ hI hb k _ h1 h2

/-- **C129.** Reading disturbs nothing: with and without `Read`s, and with any others, the process that is read comes to the same values. -/
theorem C129_undisturbed (n n' : Net α β) (hc : ∀ c, 1 ≤ n.cap c) (hc' : ∀ c, 1 ≤ n'.cap c) (hstart : n'.start = n.start) (hf : n'.f = n.f)
    (hg : n'.g = n.g) (hh : n'.h = n.h) (runs runs' : List Nat) (hr : runs'.sum = runs.sum) (ls ls' : List (Nat × Nat))
    (hs : Stuck (net n.sys) (exec (net n.sys) (initial n.sys runs) ls)) (hs' : Stuck (net n'.sys) (exec (net n'.sys) (initial n'.sys runs') ls')) :
    ∃ s s', varsOf (exec (net n.sys) (initial n.sys runs) ls) 0 = some s ∧ varsOf (exec (net n'.sys) (initial n'.sys runs') ls') 0 = some s' ∧
      s'.st = s.st ∧ s'.t = s.t := by
  obtain ⟨_, ⟨s, h1, h2, h3⟩, _⟩ := (C129_every_schedule n hc runs).2.2 ls hs
  obtain ⟨_, ⟨s', h1', h2', h3'⟩, _⟩ := (C129_every_schedule n' hc' runs').2.2 ls' hs'
  have hafter : ∀ t, n'.after t = n.after t := by
    intro t
    induction t with
    | zero => exact hstart
    | succ t ih => simp only [Net.after, ih, hf, hg, hh]
  exact ⟨s, s', h1, h1', by rw [h3, h3', hr, hafter], by rw [h2, h2', hr]⟩

/-! ### Examples -/

/-- A counter that is doubled in post-management in every third time step, read by three `Read`s with other intervals, offsets and buffers. -/
def counting : Net Nat Nat where
  start := 0
  f _ x := x + 1
  g t _ := t % 3 == 0
  h _ x := 2 * x
  readers := 3
  view e x := if e = 2 then x % 2 else x
  par e := if e = 0 then ⟨4, 2, 1⟩ else if e = 1 then ⟨10, 1, 0⟩ else ⟨5, 3, 2⟩
  z := 0
  cap _ := 1

/-- **C129.** In ten time steps: the second `Read` records everything (the doubled values too), the first every second value, and its buffer is used
again; the third records from time step 3 on in every third. -/
theorem C129_example :
    ((List.range 11).map counting.after) = [0, 1, 2, 6, 7, 8, 18, 19, 20, 42, 43] ∧
    ((List.range 10).map (counting.recorded 1 10).data) = [1, 2, 6, 7, 8, 18, 19, 20, 42, 43] ∧
    ((List.range 4).map (counting.recorded 0 10).data) = [43, 7, 18, 20] ∧
    ((List.range 5).map (counting.recorded 2 10).data) = [0, 0, 0, 0, 0] := by
  decide +kernel

/-- A process with a Var that does not change, a `Read` and a `Reset` on this Var, both acting in every time step. -/
def readAndReset : Sys (Nat × Nat) Nat :=
  { idleSys 3 2 (fun e => e) (fun _ => 2) with
    init := fun i => (if i = 2 then 5 else 0, 0)
    post := fun i s => if i = 0 then .read 0 fun a => .ret (a, s.2) else if i = 1 then .write 1 9 (.wait 1 (.ret s)) else .ret s
    postGuard := fun _ _ => true }

/-- **C129.** With a `Reset` on the Var that is read (not allowed in the theorems above), what a `Read` records depends on the schedule. -/
theorem C129_read_and_reset_race : ∃ ls ls', Stuck (net readAndReset) (exec (net readAndReset) (initial readAndReset [1]) ls) ∧
    Stuck (net readAndReset) (exec (net readAndReset) (initial readAndReset [1]) ls') ∧
    varsOf (exec (net readAndReset) (initial readAndReset [1]) ls) 0 = some (9, 0) ∧
    varsOf (exec (net readAndReset) (initial readAndReset [1]) ls') 0 = some (5, 0) := by
  refine ⟨rounds [(0, 0), (3, 0), (2, 0), (3, 2), (1, 0), (3, 1)] 40, rounds [(0, 0), (3, 0), (1, 0), (3, 1), (2, 0), (3, 2)] 40, stuck_of ?_, stuck_of ?_, ?_, ?_⟩ <;>
    decide +kernel

end Verif.RefAccess.ReadVar
