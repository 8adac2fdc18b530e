/-!
# C101: applications that talk to a running network

An application calls `Injector.send`, `Extractor.receive`, `run` and `wait` in some order while the network runs in other
operating system processes (proc/io/injector.py, proc/io/extractor.py, with the default channel configuration: block when full,
block when empty, first in first out – proc/io/utils.py:195-209). The two pipes are bounded FIFO channels (`Verif.Channel`,
C01-C03) of the buffer sizes given; all models of a network do a time step together (C78), the Injector's model receiving one item
per time step and the Extractor's model sending one.
-/

namespace Verif.IO.Interactive

/-- What the application does next. A blocking `run(RunSteps(n))` is `start n` followed by `wait` (runtime.py:433-438). -/
inductive Op (X : Type) where
  /-- `Injector.send(x)` (injector.py:72-92), default policy: wait while the pipe is full -/
  | send (x : X)
  /-- `Extractor.receive()` (extractor.py:78-107), default policy: wait while the pipe is empty -/
  | recv
  /-- `run(RunSteps(n, blocking=False))` (runtime.py:433-436): the command is queued -/
  | start (n : Nat)
  /-- `wait()` (runtime.py:449-452): takes the response of the next run that was not waited for -/
  | wait
deriving DecidableEq

/-- A network between an Injector and an Extractor: its state, how a time step changes it, and what the Extractor sends. -/
structure Net (D X Y : Type) where
  capIn : Nat
  capOut : Nat
  /-- one time step with the item of this step -/
  F : D → X → D
  /-- the output, read off the state -/
  G : D → Y
  d0 : D
  /-- the output of a time step depends on the input of the same time step (no Dense in between); otherwise it is a function of
  the state before the step and the Extractor's model does not wait for the Injector's -/
  instant : Bool

structure St (D X Y : Type) where
  prog : List (Op X)
  inq : List X
  outq : List Y
  /-- completed time steps, and the number of time steps of all runs started -/
  k : Nat
  total : Nat
  /-- where each run ends, and how many responses were taken -/
  ends : List Nat
  waits : Nat
  d : D
  /-- in the current time step: the item the Injector's model received; whether the Extractor's model has sent -/
  cur : Option X
  ext : Bool
  /-- what `receive` returned, in order -/
  log : List Y
  /-- history: all items handed to `send` that were accepted -/
  sent : List X

variable {D X Y : Type}

def init (n : Net D X Y) (p : List (Op X)) : St D X Y :=
  { prog := p, inq := [], outq := [], k := 0, total := 0, ends := [], waits := 0, d := n.d0, cur := none, ext := false,
    log := [], sent := [] }

/-- Who does a step. -/
inductive Who where
  | app | inj | ext | sync
deriving DecidableEq

/-- One atomic step; `none` if that party has to wait. -/
def step (n : Net D X Y) (s : St D X Y) : Who → Option (St D X Y)
  | .app =>
    match s.prog with
    | [] => none
    | .send x :: p =>
      -- injector.py:86-87 → io/utils.py:25-37: blocks while the pipe is full
      if s.inq.length < n.capIn then some { s with prog := p, inq := s.inq ++ [x], sent := s.sent ++ [x] } else none
    | .recv :: p =>
      -- extractor.py:94-105 → io/utils.py:77-94, 137-157: blocks while the pipe is empty
      match s.outq with
      | [] => none
      | y :: r => some { s with prog := p, outq := r, log := s.log ++ [y] }
    | .start m :: p => some { s with prog := p, total := s.total + m, ends := s.ends ++ [s.total + m] }
    | .wait :: p =>
      match s.ends[s.waits]? with
      | none => none
      | some e => if e ≤ s.k then some { s with prog := p, waits := s.waits + 1 } else none
  | .inj =>
    -- injector.py:113-127 `PyLoihiInjectorModel.run_spk`
    if s.k < s.total then
      match s.cur, s.inq with
      | none, x :: r => some { s with cur := some x, inq := r }
      | _, _ => none
    else none
  | .ext =>
    -- extractor.py:124-126 `PyLoihiExtractorModel.run_spk`
    if s.k < s.total ∧ s.ext = false ∧ s.outq.length < n.capOut then
      if n.instant then
        match s.cur with
        | some x => some { s with outq := s.outq ++ [n.G (n.F s.d x)], ext := true }
        | none => none
      else some { s with outq := s.outq ++ [n.G s.d], ext := true }
    else none
  | .sync =>
    -- everybody has completed the time step
    match s.cur with
    | some x => if s.ext = true then some { s with d := n.F s.d x, k := s.k + 1, cur := none, ext := false } else none
    | none => none

/-- A schedule; whoever cannot do a step waits. -/
def exec (n : Net D X Y) (s : St D X Y) : List Who → St D X Y
  | [] => s
  | a :: as => exec n ((step n s a).getD s) as

/-- Nobody can do a step. -/
def Stuck (n : Net D X Y) (s : St D X Y) : Prop := ∀ a, step n s a = none

/-! ### Specification -/

/-- The items a program sends, in order. -/
def sends : List (Op X) → List X
  | [] => []
  | .send x :: p => x :: sends p
  | _ :: p => sends p

/-- The output of time step `t` (0-based) for the items `xs`, as a function: the network is fed with the items one per time step. -/
def output (n : Net D X Y) (xs : List X) (t : Nat) : Y :=
  n.G ((xs.take (if n.instant then t + 1 else t)).foldl n.F n.d0)

/-- The program keeps the pipes going: said by counting only. `s` items were sent, `r` received, `total` time steps started; `ends`
are the ends of the runs, `w` of which were waited for. -/
def Flows (n : Net D X Y) (s r total : Nat) (ends : List Nat) (w : Nat) : List (Op X) → Prop
  | [] => True
  | .send _ :: p => s < n.capIn + min total (r + n.capOut + 1) ∧ Flows n (s + 1) r total ends w p
  | .recv :: p => r < min total (if n.instant then s else s + 1) ∧ Flows n s (r + 1) total ends w p
  | .start m :: p => Flows n s r (total + m) (ends ++ [total + m]) w p
  | .wait :: p => (∃ e, ends[w]? = some e ∧ e ≤ min s (r + n.capOut)) ∧ Flows n s r total ends (w + 1) p

/-! ### The invariant -/

structure Inv (n : Net D X Y) (p0 : List (Op X)) (s : St D X Y) : Prop where
  len : s.sent.length = s.k + (if s.cur.isSome then 1 else 0) + s.inq.length
  inq : s.inq = s.sent.drop (s.k + (if s.cur.isSome then 1 else 0))
  cur : ∀ x, s.cur = some x → s.sent[s.k]? = some x
  inCap : s.inq.length ≤ n.capIn
  outLen : s.log.length + s.outq.length = s.k + (if s.ext then 1 else 0)
  outCap : s.outq.length ≤ n.capOut
  kT : s.k ≤ s.total
  busy : s.cur.isSome = true ∨ s.ext = true → s.k < s.total
  inst : n.instant = true → s.ext = true → s.cur.isSome = true
  ends : ∀ e ∈ s.ends, e ≤ s.total
  st : s.d = (s.sent.take s.k).foldl n.F n.d0
  vals : ∀ t y, (s.log ++ s.outq)[t]? = some y → y = output n (sends p0) t
  sends : sends p0 = s.sent ++ sends s.prog
  flows : Flows n 0 0 0 [] 0 p0 ↔ Flows n s.sent.length s.log.length s.total s.ends s.waits s.prog

theorem inv_init (n : Net D X Y) (p : List (Op X)) : Inv n p (init n p) where
  len := rfl
  inq := rfl
  cur := by intro x h; cases h
  inCap := Nat.zero_le _
  outLen := rfl
  outCap := Nat.zero_le _
  kT := Nat.zero_le _
  busy := by intro h; rcases h with h | h <;> cases h
  inst := by intro _ h; cases h
  ends := by intro e h; cases h
  st := rfl
  vals := by intro t y h; cases h
  sends := rfl
  flows := Iff.rfl

theorem inv_app (n : Net D X Y) (p0 : List (Op X)) (s a : St D X Y) (h : Inv n p0 s) (ha : step n s .app = some a) :
    Inv n p0 a := by
  obtain ⟨hlen, hinq, hcur, hinCap, houtLen, houtCap, hkT, hbusy, hinst, hends, hst, hvals, hsends, hflows⟩ := h
  obtain ⟨prog, inq, outq, k, total, ends, waits, d, cur, ext, log, sent⟩ := s
  simp only at hlen hinq hcur hinCap houtLen houtCap hkT hbusy hinst hends hst hvals hsends hflows
  simp only [step] at ha
  have hci : k + (if cur.isSome then 1 else 0) ≤ total := by
    by_cases hc : cur.isSome = true
    · have := hbusy (Or.inl hc); simp [hc]; omega
    · simp [hc]; omega
  have hce : k ≤ log.length + outq.length := by rw [houtLen]; omega
  have hcie : k + (if cur.isSome then 1 else 0) ≤ k + 1 := by split <;> omega
  cases prog with
  | nil => cases ha
  | cons o p =>
    cases o with
    | send x =>
      simp only at ha
      split at ha
      · rename_i hlt
        cases ha
        refine ⟨?_, ?_, ?_, ?_, houtLen, houtCap, hkT, hbusy, hinst, hends, ?_, hvals, ?_, ?_⟩
        · simp only [List.length_append, List.length_cons, List.length_nil]; omega
        · show inq ++ [x] = (sent ++ [x]).drop (k + (if cur.isSome then 1 else 0))
          rw [List.drop_append_of_le_length (by omega), hinq]
        · intro z hz
          have := hcur z hz
          rw [List.getElem?_append_left (List.getElem?_eq_some_iff.1 this).1]
          exact this
        · simp only [List.length_append, List.length_cons, List.length_nil]; omega
        · show d = ((sent ++ [x]).take k).foldl n.F n.d0
          rw [List.take_append_of_le_length (by omega), hst]
        · rw [hsends]; simp [sends]
        · rw [hflows]
          simp only [Flows, List.length_append, List.length_cons, List.length_nil]
          constructor
          · exact fun h => h.2
          · intro h
            refine ⟨?_, h⟩
            omega
      · cases ha
    | recv =>
      simp only at ha
      cases outq with
      | nil => cases ha
      | cons y r =>
        cases ha
        refine ⟨hlen, hinq, hcur, hinCap, ?_, ?_, hkT, hbusy, hinst, hends, hst, ?_, ?_, ?_⟩
        · simp only [List.length_append, List.length_cons, List.length_nil] at houtLen ⊢; omega
        · simp only [List.length_cons] at houtCap; show r.length ≤ n.capOut; omega
        · intro t z hz
          apply hvals t z
          simpa using hz
        · rw [hsends]; simp [sends]
        · rw [hflows]
          simp only [Flows, List.length_append, List.length_cons, List.length_nil]
          constructor
          · exact fun h => h.2
          · intro h
            refine ⟨?_, h⟩
            simp only [List.length_cons] at houtLen
            by_cases he : ext = true
            · have h1 := hbusy (Or.inr he)
              rw [if_pos he] at houtLen
              by_cases hi : n.instant = true
              · have := hinst hi he
                rw [if_pos this] at hlen
                rw [if_pos hi]; omega
              · rw [if_neg hi]; split at hlen <;> omega
            · rw [if_neg he] at houtLen
              by_cases hi : n.instant = true
              · rw [if_pos hi]; split at hlen <;> omega
              · rw [if_neg hi]; split at hlen <;> omega
    | start m =>
      cases ha
      refine ⟨hlen, hinq, hcur, hinCap, houtLen, houtCap, ?_, ?_, hinst, ?_, hst, hvals, ?_, ?_⟩
      · show k ≤ total + m; omega
      · intro h; have := hbusy h; show k < total + m; omega
      · intro e he
        rcases List.mem_append.1 he with he | he
        · have := hends e he; show e ≤ total + m; omega
        · simp only [List.mem_singleton] at he; exact Nat.le_of_eq he
      · rw [hsends]; simp [sends]
      · rw [hflows]; simp only [Flows]
    | wait =>
      simp only at ha
      cases hw : ends[waits]? with
      | none => rw [hw] at ha; cases ha
      | some e =>
        rw [hw] at ha
        simp only at ha
        split at ha
        · rename_i hle
          cases ha
          refine ⟨hlen, hinq, hcur, hinCap, houtLen, houtCap, hkT, hbusy, hinst, hends, hst, hvals, ?_, ?_⟩
          · rw [hsends]; simp [sends]
          · rw [hflows]
            simp only [Flows]
            constructor
            · exact fun h => h.2
            · intro h
              exact ⟨⟨e, hw, by omega⟩, h⟩
        · cases ha

theorem inv_net (n : Net D X Y) (p0 : List (Op X)) (s a : St D X Y) (h : Inv n p0 s) (w : Who) (hw : w ≠ .app)
    (ha : step n s w = some a) : Inv n p0 a := by
  obtain ⟨hlen, hinq, hcur, hinCap, houtLen, houtCap, hkT, hbusy, hinst, hends, hst, hvals, hsends, hflows⟩ := h
  obtain ⟨prog, inq, outq, k, total, ends, waits, d, cur, ext, log, sent⟩ := s
  simp only at hlen hinq hcur hinCap houtLen houtCap hkT hbusy hinst hends hst hvals hsends hflows
  -- the value of the step that is being done
  have hval : ∀ y, (∀ x, n.instant = true → cur = some x → y = n.G (n.F d x)) → (n.instant = true → cur.isSome = true) →
      (n.instant = false → y = n.G d) → y = output n (Interactive.sends p0) k := by
    intro y h1 h2 h3
    unfold output
    rw [hsends]
    cases hi : n.instant with
    | false =>
      rw [if_neg (by simp), List.take_append_of_le_length (by omega), ← hst]
      exact h3 hi
    | true =>
      obtain ⟨x, hx⟩ := Option.isSome_iff_exists.1 (h2 hi)
      have hk := hcur x hx
      have hlt := (List.getElem?_eq_some_iff.1 hk).1
      rw [if_pos rfl, List.take_append_of_le_length (by omega), List.take_add_one, hk]
      simp only [Option.toList_some, List.foldl_append, List.foldl_cons, List.foldl_nil, ← hst]
      exact h1 x hi hx
  cases w with
  | app => exact absurd rfl hw
  | inj =>
    simp only [step] at ha
    split at ha
    · rename_i hlt
      cases cur with
      | some x => cases ha
      | none =>
        cases inq with
        | nil => cases ha
        | cons x r =>
          cases ha
          simp only [Option.isSome_none, Bool.false_eq_true, if_false, List.length_cons] at hlen hinq hinCap
          have hd : sent[k]? = some x := by
            rw [← List.head?_drop, ← Nat.add_zero k, ← hinq]; rfl
          refine ⟨?_, ?_, ?_, ?_, houtLen, houtCap, hkT, fun _ => hlt, fun _ _ => rfl, hends, hst, hvals, hsends, hflows⟩
          · simp only [Option.isSome_some, if_true]; omega
          · show r = sent.drop (k + 1)
            have : sent.drop (k + 1) = (sent.drop (k + 0)).drop 1 := by rw [List.drop_drop]
            rw [this, ← hinq]; rfl
          · intro z hz; cases hz; exact hd
          · show r.length ≤ n.capIn; omega
    · cases ha
  | ext =>
    simp only [step] at ha
    split at ha
    · rename_i hc
      obtain ⟨hlt, he, hcap⟩ := hc
      subst he
      simp only [Bool.false_eq_true, if_false] at houtLen
      have hnew : ∀ y : Y, y = output n (Interactive.sends p0) k → ∀ t z, (log ++ (outq ++ [y]))[t]? = some z →
          z = output n (Interactive.sends p0) t := by
        intro y hy t z hz
        rw [← List.append_assoc] at hz
        by_cases ht : t < (log ++ outq).length
        · rw [List.getElem?_append_left ht] at hz
          exact hvals t z hz
        · rw [List.getElem?_append_right (by omega)] at hz
          have hlt := (List.getElem?_eq_some_iff.1 hz).1
          simp only [List.length_append, List.length_cons, List.length_nil] at ht hlt
          have htk : t = k := by omega
          subst htk
          have e0 : t - (log ++ outq).length = 0 := by simp only [List.length_append]; omega
          rw [e0] at hz
          cases hz
          exact hy
      split at ha
      · rename_i hi
        cases cur with
        | none => cases ha
        | some x =>
          cases ha
          refine ⟨hlen, hinq, hcur, hinCap, ?_, ?_, hkT, fun _ => hlt, fun _ _ => rfl, hends, hst, ?_, hsends, hflows⟩
          · simp only [List.length_append, List.length_cons, List.length_nil, if_true]; omega
          · simp only [List.length_append, List.length_cons, List.length_nil]; omega
          · exact hnew _ (hval _ (by intro z _ hz; cases hz; rfl) (fun _ => rfl) (by intro h; rw [h] at hi; cases hi))
      · rename_i hi
        cases ha
        refine ⟨hlen, hinq, hcur, hinCap, ?_, ?_, hkT, fun _ => hlt, fun h => absurd h hi, hends, hst, ?_, hsends, hflows⟩
        · simp only [List.length_append, List.length_cons, List.length_nil, if_true]; omega
        · simp only [List.length_append, List.length_cons, List.length_nil]; omega
        · exact hnew _ (hval _ (fun _ h => absurd h hi) (fun h => absurd h hi) (fun _ => rfl))
    · cases ha
  | sync =>
    simp only [step] at ha
    cases cur with
    | none => cases ha
    | some x =>
      simp only at ha
      split at ha
      · rename_i he
        cases ha
        have hk := hcur x rfl
        have hlt := (List.getElem?_eq_some_iff.1 hk).1
        have hb := hbusy (Or.inl rfl)
        simp only [Option.isSome_some, if_true, he] at hlen hinq houtLen
        refine ⟨?_, ?_, ?_, hinCap, ?_, houtCap, ?_, ?_, ?_, hends, ?_, hvals, hsends, hflows⟩
        · simp only [Option.isSome_none, Bool.false_eq_true, if_false]; omega
        · simpa using hinq
        · intro z hz; cases hz
        · simp only [Bool.false_eq_true, if_false]; omega
        · show k + 1 ≤ total; omega
        · intro h; rcases h with h | h <;> cases h
        · intro _ h; cases h
        · show n.F d x = (sent.take (k + 1)).foldl n.F n.d0
          rw [List.take_add_one, hk]
          simp only [Option.toList_some, List.foldl_append, List.foldl_cons, List.foldl_nil, ← hst]
      · cases ha

theorem inv_step (n : Net D X Y) (p0 : List (Op X)) (s a : St D X Y) (h : Inv n p0 s) (w : Who) (ha : step n s w = some a) :
    Inv n p0 a := by
  by_cases hw : w = .app
  · subst hw; exact inv_app n p0 s a h ha
  · exact inv_net n p0 s a h w hw ha

theorem inv_exec (n : Net D X Y) (p0 : List (Op X)) : ∀ (l : List Who) (s : St D X Y), Inv n p0 s → Inv n p0 (exec n s l)
  | [], _, h => h
  | w :: l, s, h => by
    rw [exec]
    apply inv_exec n p0 l
    cases ha : step n s w with
    | none => exact h
    | some a => exact inv_step n p0 s a h w ha

/-! ### C101 -/

/-- **C101.** Under every schedule, the `t`-th value `receive` returns is the output of time step `t` of the network fed with the items
the application sends, in the order it sends them, one per time step: nothing is lost, doubled or reordered, and the value does not
depend on timing. -/
theorem C101_values (n : Net D X Y) (p : List (Op X)) (l : List Who) (t : Nat) (y : Y)
    (h : (exec n (init n p) l).log[t]? = some y) : y = output n (sends p) t := by
  have hi := inv_exec n p l _ (inv_init n p)
  apply hi.vals t y
  rw [List.getElem?_append_left (List.getElem?_eq_some_iff.1 h).1]
  exact h

/-- If nobody can do a step, the application has finished or waits for something that will never come. -/
theorem stuck_flows (n : Net D X Y) (hin : 0 < n.capIn) (hout : 0 < n.capOut) (p0 : List (Op X)) (s : St D X Y) (h : Inv n p0 s)
    (hs : Stuck n s) (hf : Flows n s.sent.length s.log.length s.total s.ends s.waits s.prog) : s.prog = [] := by
  obtain ⟨hlen, hinq, hcur, hinCap, houtLen, houtCap, hkT, hbusy, hinst, hends, hst, hvals, hsends, hflows⟩ := h
  obtain ⟨prog, inq, outq, k, total, ends, waits, d, cur, ext, log, sent⟩ := s
  simp only at hlen hinq hcur hinCap houtLen houtCap hkT hbusy hinst hends hst hvals hsends hflows hf
  have sApp := hs .app
  have sInj := hs .inj
  have sExt := hs .ext
  have sSync := hs .sync
  simp only [step] at sApp sInj sExt sSync
  -- the network: what is missing in the current time step
  have hx : k < total → cur = none → inq = [] := by
    intro h1 h2
    rw [if_pos h1, h2] at sInj
    cases inq with
    | nil => rfl
    | cons x r => cases sInj
  have hy : ∀ x, cur = some x → ext = false := by
    intro x h1
    rw [h1] at sSync
    simp only at sSync
    cases ext with
    | false => rfl
    | true => simp at sSync
  have hz : k < total → ext = false → outq.length = n.capOut ∨ (n.instant = true ∧ cur = none) := by
    intro h1 h2
    by_cases h3 : outq.length < n.capOut
    · rw [if_pos ⟨h1, h2, h3⟩] at sExt
      by_cases hi : n.instant = true
      · rw [if_pos hi] at sExt
        cases cur with
        | none => exact Or.inr ⟨hi, rfl⟩
        | some x => cases sExt
      · rw [if_neg hi] at sExt; cases sExt
    · left; omega
  have hfull : k < total → cur.isSome = true → ext = false ∧ outq.length = n.capOut := by
    intro h1 h2
    obtain ⟨x, hx⟩ := Option.isSome_iff_exists.1 h2
    have he := hy x hx
    refine ⟨he, ?_⟩
    rcases hz h1 he with h | h
    · exact h
    · rw [h.2] at h2; cases h2
  cases prog with
  | nil => rfl
  | cons o p =>
    exfalso
    cases o with
    | send x =>
      simp only [Flows] at hf
      simp only at sApp
      have hge : ¬ inq.length < n.capIn := by
        intro hlt; rw [if_pos hlt] at sApp; cases sApp
      by_cases hk : k < total
      · by_cases hc : cur.isSome = true
        · obtain ⟨he, ho⟩ := hfull hk hc
          rw [if_pos hc] at hlen
          rw [he] at houtLen
          simp only [Bool.false_eq_true, if_false] at houtLen
          omega
        · have := hx hk (by simpa using hc)
          rw [this] at hge
          simp at hge; omega
      · omega
    | recv =>
      simp only [Flows] at hf
      have ho : outq = [] := by
        cases outq with
        | nil => rfl
        | cons y r => cases sApp
      subst ho
      simp only [List.length_nil, Nat.add_zero] at houtLen houtCap hz
      by_cases hk : k < total
      · cases ext with
        | true =>
          rw [if_pos rfl] at houtLen
          have hc : cur = none := by
            cases cur with
            | none => rfl
            | some x => have := hy x rfl; cases this
          have hi : ¬ n.instant = true := by
            intro hi; have := hinst hi rfl; rw [hc] at this; cases this
          have := hx hk hc
          rw [if_neg hi] at hf
          rw [this, hc] at hlen
          simp at hlen
          omega
        | false =>
          simp only [Bool.false_eq_true, if_false] at houtLen
          rcases hz hk rfl with h | ⟨hi, hc⟩
          · omega
          · have := hx hk hc
            rw [if_pos hi] at hf
            rw [this, hc] at hlen
            simp at hlen
            omega
      · split at houtLen
        · rename_i he
          have := hbusy (Or.inr he)
          omega
        · omega
    | start m => cases sApp
    | wait =>
      simp only [Flows] at hf
      obtain ⟨⟨e, he, hle⟩, _⟩ := hf
      simp only [he] at sApp
      have hlt : ¬ e ≤ k := by intro h; rw [if_pos h] at sApp; cases sApp
      have hT := hends e (List.mem_of_getElem? he)
      have hk : k < total := by omega
      by_cases hc : cur.isSome = true
      · obtain ⟨h1, h2⟩ := hfull hk hc
        rw [h1] at houtLen
        simp only [Bool.false_eq_true, if_false] at houtLen
        omega
      · have := hx hk (by simpa using hc)
        rw [this, if_neg hc] at hlen
        simp at hlen
        omega

/-- **C101.** Exactly the programs that keep the pipes going complete: for these, every schedule that cannot be continued has completed
the program; for all others, no schedule completes it – the application hangs. -/
theorem C101_completes_iff (n : Net D X Y) (hin : 0 < n.capIn) (hout : 0 < n.capOut) (p : List (Op X)) :
    (Flows n 0 0 0 [] 0 p → ∀ l, Stuck n (exec n (init n p) l) → (exec n (init n p) l).prog = []) ∧
    (¬ Flows n 0 0 0 [] 0 p → ∀ l, (exec n (init n p) l).prog ≠ []) := by
  constructor
  · intro hf l hs
    have hi := inv_exec n p l _ (inv_init n p)
    exact stuck_flows n hin hout p _ hi hs (hi.flows.1 hf)
  · intro hf l hl
    have hi := inv_exec n p l _ (inv_init n p)
    apply hf
    rw [hi.flows, hl]
    trivial

/-- Work left: calls of the application, and for every time step started or yet to be started the receive of the Injector's model, the
send of the Extractor's model and the completion. -/
def stepsIn : List (Op X) → Nat
  | [] => 0
  | .start m :: p => m + stepsIn p
  | _ :: p => stepsIn p

def work (s : St D X Y) : Nat :=
  s.prog.length + 3 * (s.total - s.k + stepsIn s.prog) - (if s.cur.isSome then 1 else 0) - (if s.ext then 1 else 0)

theorem work_step (n : Net D X Y) (p0 : List (Op X)) (s a : St D X Y) (h : Inv n p0 s) (w : Who) (ha : step n s w = some a) :
    work a + 1 = work s := by
  have hb := h.busy
  have hk := h.kT
  obtain ⟨prog, inq, outq, k, total, ends, waits, d, cur, ext, log, sent⟩ := s
  simp only at hb hk
  have h1 : cur.isSome = true → k < total := fun h => hb (Or.inl h)
  have h2 : ext = true → k < total := fun h => hb (Or.inr h)
  cases w with
  | app =>
    simp only [step] at ha
    cases prog with
    | nil => cases ha
    | cons o p =>
      have hx : (if cur.isSome = true then 1 else 0) + (if ext = true then 1 else 0) ≤ 3 * (total - k) := by
        split <;> split <;> simp_all <;> omega
      cases o with
      | send x =>
        simp only at ha
        split at ha
        · cases ha; simp only [work, List.length_cons, stepsIn]; omega
        · cases ha
      | recv =>
        simp only at ha
        cases outq with
        | nil => cases ha
        | cons y r => cases ha; simp only [work, List.length_cons, stepsIn]; omega
      | start m =>
        cases ha
        simp only [work, List.length_cons, stepsIn]
        have : total + m - k + stepsIn p = total - k + (m + stepsIn p) := by omega
        rw [this]; omega
      | wait =>
        simp only at ha
        cases hw : ends[waits]? with
        | none => rw [hw] at ha; cases ha
        | some e =>
          rw [hw] at ha
          simp only at ha
          split at ha
          · cases ha; simp only [work, List.length_cons, stepsIn]; omega
          · cases ha
  | inj =>
    simp only [step] at ha
    split at ha
    · rename_i hlt
      cases cur with
      | some x => cases ha
      | none =>
        cases inq with
        | nil => cases ha
        | cons x r =>
          cases ha
          simp only [work, Option.isSome_some, Option.isSome_none, if_true, Bool.false_eq_true, if_false]
          split <;> omega
    · cases ha
  | ext =>
    simp only [step] at ha
    split at ha
    · rename_i hc
      obtain ⟨hlt, he, _⟩ := hc
      subst he
      split at ha
      · cases cur with
        | none => cases ha
        | some x =>
          cases ha
          simp only [work, Option.isSome_some, if_true, Bool.false_eq_true, if_false]
          omega
      · cases ha
        simp only [work, if_true, Bool.false_eq_true, if_false]
        split <;> omega
    · cases ha
  | sync =>
    simp only [step] at ha
    cases cur with
    | none => cases ha
    | some x =>
      simp only at ha
      split at ha
      · rename_i he
        cases ha
        have := h1 rfl
        simp only [work, Option.isSome_some, Option.isSome_none, if_true, he, Bool.false_eq_true, if_false]
        omega
      · cases ha

/-- Rounds in which everybody is tried. -/
theorem rounds_stuck (n : Net D X Y) (p0 : List (Op X)) : ∀ (rounds : List (List Who)) (s : St D X Y), Inv n p0 s →
    (∀ rd ∈ rounds, ∀ w, w ∈ rd) → work s ≤ rounds.length → Stuck n (exec n s rounds.flatten) := by
  have happ : ∀ (a b : List Who) (s : St D X Y), exec n s (a ++ b) = exec n (exec n s a) b := by
    intro a
    induction a with
    | nil => intro b s; rfl
    | cons x a ih => intro b s; simp only [List.cons_append, exec]; exact ih _ _
  have hle : ∀ (l : List Who) (s : St D X Y), Inv n p0 s → work (exec n s l) ≤ work s := by
    intro l
    induction l with
    | nil => intro s _; exact Nat.le_refl _
    | cons w l ih =>
      intro s hs
      rw [exec]
      cases ha : step n s w with
      | none => exact ih s hs
      | some a =>
        have := work_step n p0 s a hs w ha
        have := ih a (inv_step n p0 s a hs w ha)
        simp only [Option.getD_some]; omega
  -- a round makes progress unless the state is stuck
  have hround : ∀ (l : List Who) (s : St D X Y), Inv n p0 s → (∃ w ∈ l, step n s w ≠ none) → work (exec n s l) < work s := by
    intro l
    induction l with
    | nil => intro s _ h; obtain ⟨w, hw, _⟩ := h; cases hw
    | cons v l ih =>
      intro s hs h
      rw [exec]
      cases ha : step n s v with
      | none =>
        simp only [Option.getD_none]
        apply ih s hs
        obtain ⟨w, hw, hne⟩ := h
        rcases List.mem_cons.1 hw with rfl | hw
        · exact absurd ha hne
        · exact ⟨w, hw, hne⟩
      | some a =>
        have h1 := work_step n p0 s a hs v ha
        have h2 := hle l a (inv_step n p0 s a hs v ha)
        simp only [Option.getD_some]; omega
  intro rounds
  induction rounds with
  | nil =>
    intro s hs _ hw w
    cases ha : step n s w with
    | none => exact ha
    | some a =>
      have h1 := work_step n p0 s a hs w ha
      simp only [List.length_nil] at hw; omega
  | cons rd rounds ih =>
    intro s hs hr hw
    rw [List.flatten_cons, happ]
    by_cases hst : Stuck n s
    · have hfix : ∀ l : List Who, exec n s l = s := by
        intro l
        induction l with
        | nil => rfl
        | cons w l ih => rw [exec, hst w]; exact ih
      rw [hfix rd, hfix]
      exact hst
    · apply ih _ (inv_exec n p0 rd s hs) (fun x hx => hr x (List.mem_cons_of_mem _ hx))
      have hex : ∃ w ∈ rd, step n s w ≠ none := by
        apply Classical.byContradiction
        intro hn
        apply hst
        intro w
        apply Classical.byContradiction
        intro hne
        exact hn ⟨w, hr rd (List.mem_cons_self ..) w, hne⟩
      have := hround rd s hs hex
      simp only [List.length_cons] at hw
      omega

/-- **C101.** And they do get there: a program that keeps the pipes going has completed after as many rounds as it has calls plus three
times the time steps it starts, if in every round everybody is tried at least once, in any order. -/
theorem C101_completes (n : Net D X Y) (hin : 0 < n.capIn) (hout : 0 < n.capOut) (p : List (Op X)) (hf : Flows n 0 0 0 [] 0 p)
    (rounds : List (List Who)) (hr : ∀ rd ∈ rounds, ∀ w, w ∈ rd) (hlen : p.length + 3 * stepsIn p ≤ rounds.length) :
    (exec n (init n p) rounds.flatten).prog = [] := by
  apply (C101_completes_iff n hin hout p).1 hf
  apply rounds_stuck n p rounds _ (inv_init n p) hr
  simpa [work, init] using hlen

/-! ### What the counting condition means for the usual programs -/

/-- `run(RunSteps(n))`, blocking. -/
def run (n : Nat) : List (Op X) := [.start n, .wait]

theorem flows_sends (n : Net D X Y) (r total : Nat) (ends : List Nat) (w : Nat) (q : List (Op X)) : ∀ (xs : List X) (s : Nat),
    Flows n s r total ends w (xs.map .send ++ q) ↔
      (xs ≠ [] → s + xs.length ≤ n.capIn + min total (r + n.capOut + 1)) ∧ Flows n (s + xs.length) r total ends w q
  | [], s => by simp
  | x :: xs, s => by
    simp only [List.map_cons, List.cons_append, Flows, List.length_cons]
    rw [flows_sends n r total ends w q xs (s + 1)]
    have e : s + 1 + xs.length = s + (xs.length + 1) := by omega
    rw [e]
    constructor
    · rintro ⟨h1, h2, h3⟩
      refine ⟨fun _ => ?_, h3⟩
      by_cases hx : xs = []
      · subst hx; simp; omega
      · exact h2 hx
    · rintro ⟨h1, h2⟩
      have := h1 (by simp)
      exact ⟨by omega, fun _ => this, h2⟩

theorem flows_recvs (n : Net D X Y) (s total : Nat) (ends : List Nat) (w : Nat) (q : List (Op X)) : ∀ (m r : Nat),
    Flows n s r total ends w (List.replicate m .recv ++ q) ↔
      (0 < m → r + m ≤ min total (if n.instant then s else s + 1)) ∧ Flows n s (r + m) total ends w q
  | 0, r => by simp
  | m + 1, r => by
    simp only [List.replicate_succ, List.cons_append, Flows]
    rw [flows_recvs n s total ends w q m (r + 1)]
    have e : r + 1 + m = r + (m + 1) := by omega
    rw [e]
    generalize (if n.instant then s else s + 1) = z
    constructor
    · rintro ⟨h1, h2, h3⟩
      refine ⟨fun _ => ?_, h3⟩
      by_cases hm : 0 < m
      · exact h2 hm
      · omega
    · rintro ⟨h1, h2⟩
      have := h1 (by omega)
      exact ⟨by omega, fun _ => this, h2⟩

/-- **C101.** Batch: send all items, run as many time steps, receive all results. Completes exactly if the batch fits in both buffers
(50 items by default). -/
theorem C101_batch (n : Net D X Y) (xs : List X) (hne : xs ≠ []) :
    Flows n 0 0 0 [] 0 (xs.map .send ++ (run xs.length ++ List.replicate xs.length .recv)) ↔
      xs.length ≤ n.capIn ∧ xs.length ≤ n.capOut := by
  have hl : 0 < xs.length := List.length_pos_iff.2 hne
  rw [flows_sends]
  simp only [run, List.cons_append, List.nil_append, Flows, Nat.zero_add, List.getElem?_cons_zero]
  have := flows_recvs n xs.length xs.length [xs.length] 1 [] xs.length 0
  rw [List.append_nil] at this
  rw [this]
  constructor
  · rintro ⟨h1, ⟨e, h2, h3⟩, _⟩
    cases h2
    have := h1 hne
    omega
  · rintro ⟨h1, h2⟩
    refine ⟨fun _ => by omega, ⟨_, rfl, by omega⟩, fun _ => ?_, trivial⟩
    split <;> omega

/-- **C101.** Streaming: with the network running for at least as many steps, all items may be sent before the first result is taken if
and only if they fit in the two buffers and the one place in the network. -/
theorem C101_stream (n : Net D X Y) (xs : List X) (hne : xs ≠ []) (m : Nat) (hm : n.capOut + 1 ≤ m) (hm2 : xs.length ≤ m) :
    Flows n 0 0 0 [] 0 (.start m :: (xs.map .send ++ List.replicate xs.length .recv)) ↔
      xs.length ≤ n.capIn + n.capOut + 1 := by
  simp only [Flows, Nat.zero_add]
  rw [flows_sends]
  have := flows_recvs n xs.length m [m] 0 [] xs.length 0
  rw [List.append_nil] at this
  simp only [Nat.zero_add, List.nil_append] at this ⊢
  rw [this]
  constructor
  · rintro ⟨h1, _⟩
    have := h1 hne
    omega
  · intro h
    refine ⟨fun _ => by omega, fun _ => ?_, trivial⟩
    split <;> omega

/-- Send and receive in turn. -/
def pingPong : List X → List (Op X)
  | [] => []
  | x :: xs => .send x :: .recv :: pingPong xs

theorem flows_pingPong (n : Net D X Y) (hin : 0 < n.capIn) (total : Nat) (ends : List Nat) (w : Nat) (q : List (Op X)) :
    ∀ (xs : List X) (j : Nat), j + xs.length ≤ total → Flows n (j + xs.length) (j + xs.length) total ends w q →
      Flows n j j total ends w (pingPong xs ++ q)
  | [], j, _, h => by simpa [pingPong] using h
  | x :: xs, j, hl, h => by
    simp only [pingPong, List.cons_append, Flows]
    simp only [List.length_cons] at hl h
    refine ⟨by omega, ?_, ?_⟩
    · split <;> omega
    · have e : j + 1 + xs.length = j + (xs.length + 1) := by omega
      exact flows_pingPong n hin total ends w q xs (j + 1) (by omega) (by rw [e]; exact h)

/-- **C101.** A closed loop that sends one item and takes its result before it sends the next completes for every buffer size and every
number of items. -/
theorem C101_ping_pong (n : Net D X Y) (hin : 0 < n.capIn) (hout : 0 < n.capOut) (xs : List X) :
    Flows n 0 0 0 [] 0 (.start xs.length :: (pingPong xs ++ [.wait])) := by
  simp only [Flows, Nat.zero_add]
  refine flows_pingPong n hin xs.length _ 0 _ xs 0 (by omega) ?_
  simp only [Flows, List.nil_append, Nat.zero_add]
  exact ⟨⟨_, rfl, by omega⟩, trivial⟩

/-- **C101.** Waiting for a result before sending anything: possible exactly if the network has a delay. -/
theorem C101_receive_first (n : Net D X Y) (x : X) :
    Flows n 0 0 0 [] 0 [.start 1, .recv, .send x, .wait] ↔ n.instant = false := by
  simp only [Flows]
  cases n.instant with
  | true => simp
  | false => simp

/-! Non-vacuity: the running sum as a network, buffers of one item. -/

def exNet (inst : Bool) : Net Nat Nat Nat := { capIn := 1, capOut := 1, F := fun d x => d + x, G := id, d0 := 0, instant := inst }

/-- Three items in closed loop, and one batch that is too large. -/
example : (exec (exNet true) (init (exNet true) (.start 3 :: (pingPong [5, 7, 9] ++ [.wait])))
      (List.replicate 20 [Who.ext, .inj, .sync, .app]).flatten).log = [5, 12, 21] ∧
    (exec (exNet false) (init (exNet false) (.start 3 :: (pingPong [5, 7, 9] ++ [.wait])))
      (List.replicate 20 [Who.ext, .inj, .sync, .app]).flatten).log = [0, 5, 12] := by decide +kernel

/-- **C101, finding.** The obvious program – send all items, run, receive all results – hangs as soon as there are more items than buffer
places, whatever the schedule. -/
theorem C101_witness_large_batch_hangs (n : Net D X Y) (hin : 0 < n.capIn) (hout : 0 < n.capOut) (xs : List X)
    (h : n.capIn < xs.length ∨ n.capOut < xs.length) (l : List Who) :
    (exec n (init n (xs.map .send ++ (run xs.length ++ List.replicate xs.length .recv))) l).prog ≠ [] := by
  apply (C101_completes_iff n hin hout _).2
  rw [C101_batch n xs (by intro e; subst e; simp at h)]
  omega

end Verif.IO.Interactive
