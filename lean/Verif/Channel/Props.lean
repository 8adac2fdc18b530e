import Verif.Channel.Progress

/-! Properties C01-C04 of the channel (`src/lava/magma/compiler/channels/pypychannel.py`). -/

namespace Verif.Channel

/-- A schedule that pushes three items through a channel with two slots (so the ring wraps), used in the
non-vacuity checks below: the third `send` reuses slot 0. -/
def demo : List Lbl :=
  [.sendStart [1, 10], .sendWrite, .sendWrite, .sendDone, .reqTake,
   .sendStart [2, 20], .sendWrite, .reqPut, .sendWrite, .sendDone, .peekStart, .recvCopy, .recvCopy,
   .peekDone, .recvStart, .recvCopy, .reqTake,
   .sendStart [3, 30],  -- blocks: channel full
   .recvCopy, .recvDone, .ackTake, .ackProbe, .reqPut, .ackRelease,
   .sendStart [3, 30], .sendWrite, .recvStart, .sendWrite, .recvCopy, .sendDone, .recvCopy, .recvDone,
   .reqTake, .reqPut, .recvStart, .recvCopy, .recvCopy, .recvDone]

/-- **C01**: under every schedule what was received is a prefix of what was sent: no loss, no
duplication, no reordering, no torn or overwritten item. -/
theorem C01_fifo (size len : Nat) (hs : 0 < size) (sched : List Lbl) :
    (run size len sched).recvd <+: (run size len sched).sent := by
  have h := (inv_run (len := len) hs sched).pre
  rw [h]; exact List.take_prefix _ _

example : (run 2 2 demo).recvd = [[1, 10], [2, 20], [3, 30]] ∧
    (run 2 2 demo).sent = [[1, 10], [2, 20], [3, 30]] := by decide

/-- **C01**, `send` side: the accepted payloads are exactly those whose shape matched, each whole. -/
theorem C01_shape (size len : Nat) (hs : 0 < size) (sched : List Lbl) :
    ∀ d ∈ (run size len sched).sent, d.length = len :=
  (inv_run hs sched).lens

/-- **C01**: a call with a mismatching shape is rejected and changes nothing the receiver can see. -/
theorem C01_reject (size len : Nat) (s : St) (d : Payload) (h : d.length ≠ len) :
    let t := step size len s (.sendStart d)
    t.sent = s.sent ∧ t.mem = s.mem ∧ t.sem = s.sem ∧ t.req = s.req ∧ t.sPc = s.sPc := by
  simp only [step]
  split <;> simp_all

example : (run 2 2 [.sendStart [1]]).rejected = 1 ∧ (run 2 2 [.sendStart [1]]).sent = [] := by decide

/-- **C02**: at most `size` items are accepted and not yet returned by `recv`, the callback threads never
raise, and neither semaphore nor queue leaves its bound. -/
theorem C02_bounded (size len : Nat) (hs : 0 < size) (sched : List Lbl) :
    let s := run size len sched
    s.sent.length ≤ s.recvd.length + size ∧ s.crashed = false ∧ s.sem ≤ size ∧ s.queue ≤ size := by
  have h := inv_run (len := len) hs sched
  have h1 := h.cap; have h2 := h.flight; have h3 := h.sentLen
  refine ⟨by omega, h.ok, by omega, by omega⟩

/-- The bound is attained: two items in flight in a channel of size two. -/
example : let s := run 2 1 [.sendStart [1], .sendWrite, .sendDone, .sendStart [2], .sendWrite, .sendDone]
    s.sent.length = s.recvd.length + 2 := by decide

/-- **C03** (send side): if fewer than `size` items are outstanding, a `send(d)` issued by an idle
sender can complete with steps of the background threads and of the sender only. -/
theorem C03_send_completes (size len : Nat) (hs : 0 < size) (sched : List Lbl) (d : Payload)
    (hd : d.length = len) :
    let s := run size len sched
    s.sPc = .idle → s.sent.length < s.recvd.length + size →
    ∃ bg snd : List Lbl, (∀ l ∈ bg, l.isBackground = true) ∧ (∀ l ∈ snd, l.isSender = true) ∧
      let t := runFrom size len s (bg ++ .sendStart d :: snd)
      t.sPc = .idle ∧ t.sent = s.sent ++ [d] ∧ t.sendsDone = s.sendsDone + 1 ∧ t.recvd = s.recvd := by
  intro s hidle hlt
  have h := inv_run (len := len) hs sched
  obtain ⟨bg, b1, b2, b3⟩ := bg_drain hs (bgWork s) s (Nat.le_refl _) h
  have h' := inv_runFrom hs h bg
  have hs' : runFrom size len (run size len sched) bg = runFrom size len s bg := rfl
  rw [hs'] at h'
  generalize hu : runFrom size len s bg = u at *
  obtain ⟨q1, q2, q3, q4⟩ := b2
  have c := h'.cap; have f := h'.flight; have sl := h'.sentLen
  rw [q1, q2, q3, q4, b3.sPc, hidle] at c
  rw [q3, q4, b3.recvd] at f
  rw [b3.sent, b3.sPc, hidle] at sl
  simp only [bw, bp, bh, ba, bq] at c f sl
  have hsem : 0 < u.sem := by omega
  refine ⟨bg, List.replicate len .sendWrite ++ [.sendDone], b1, ?_, ?_⟩
  · intro l hl
    rcases List.mem_append.1 hl with e | e
    · rw [List.eq_of_mem_replicate e]; rfl
    · simp at e; rw [e]; rfl
  · rw [runFrom_append, hu]
    have hst : step size len u (.sendStart d) =
        { u with sem := u.sem - 1, sPc := .writing d 0, sent := u.sent ++ [d] } := by
      simp [step, b3.sPc, hidle, hd, hsem]
    have hrun : runFrom size len u (.sendStart d :: (List.replicate len .sendWrite ++ [.sendDone])) =
        runFrom size len { u with sem := u.sem - 1, sPc := .writing d 0, sent := u.sent ++ [d] }
          (List.replicate len .sendWrite ++ [.sendDone]) := by
      simp only [runFrom, List.foldl_cons, hst]
    rw [hrun]
    have hf := finish_send (size := size) (len := len) len
      { u with sem := u.sem - 1, sPc := .writing d 0, sent := u.sent ++ [d] } d 0 (by omega)
      (Nat.zero_le _) rfl
    obtain ⟨f1, f2, f3, f4⟩ := hf
    refine ⟨f2, ?_, ?_, ?_⟩
    · rw [f3]; simp [b3.sent]
    · rw [f1]; simp [b3.sendsDone]
    · rw [f4]; simp [b3.recvd]

/-- **C03** (receive side): if an item was sent and not received, a `recv()` issued by an idle receiver
can complete with steps of the background threads and of the receiver only, and returns the oldest
outstanding item. -/
theorem C03_recv_completes (size len : Nat) (hs : 0 < size) (sched : List Lbl) :
    let s := run size len sched
    s.rPc = .idle → s.recvd.length < s.sendsDone →
    ∃ bg rcv : List Lbl, (∀ l ∈ bg, l.isBackground = true) ∧ (∀ l ∈ rcv, l.isReceiver = true) ∧
      ∃ d, s.sent[s.recvd.length]? = some d ∧
      let t := runFrom size len s (bg ++ .recvStart :: rcv)
      t.rPc = .idle ∧ t.recvd = s.recvd ++ [d] ∧ t.sent = s.sent := by
  intro s hidle hlt
  have h := inv_run (len := len) hs sched
  obtain ⟨bg, b1, b2, b3⟩ := bg_drain hs (bgWork s) s (Nat.le_refl _) h
  have h' := inv_runFrom hs h bg
  have hs' : runFrom size len (run size len sched) bg = runFrom size len s bg := rfl
  rw [hs'] at h'
  have hpre := h.pre
  have hslen := h.sentLen
  change s.recvd = _ at hpre
  change s.sent.length = _ at hslen
  generalize hu : runFrom size len s bg = u at *
  obtain ⟨q1, q2, q3, q4⟩ := b2
  have f := h'.flight
  rw [q3, q4, b3.recvd, b3.rPc, hidle, b3.sendsDone] at f
  simp only [bq, bc] at f
  have hq : 0 < u.queue := by omega
  have hlt' : s.recvd.length < s.sent.length := by
    have : s.sent.length = s.sendsDone + bw s.sPc := hslen
    omega
  refine ⟨bg, List.replicate len .recvCopy ++ [.recvDone], b1, ?_, s.sent[s.recvd.length],
    by simp [hlt'], ?_⟩
  · intro l hl
    rcases List.mem_append.1 hl with e | e
    · rw [List.eq_of_mem_replicate e]; rfl
    · simp at e; rw [e]; rfl
  · rw [runFrom_append, hu]
    have hst : step size len u .recvStart =
        { u with queue := u.queue - 1, rPc := .copying [] } := by
      simp [step, b3.rPc, hidle, hq]
    have hrun : runFrom size len u (.recvStart :: (List.replicate len .recvCopy ++ [.recvDone])) =
        runFrom size len { u with queue := u.queue - 1, rPc := .copying [] }
          (List.replicate len .recvCopy ++ [.recvDone]) := by
      simp only [runFrom, List.foldl_cons, hst]
    have hinv := inv_runFrom hs (inv_step hs h' .recvStart)
      (List.replicate len .recvCopy ++ [.recvDone])
    rw [hst] at hinv
    rw [hrun]
    have hf := finish_recv (size := size) (len := len) len
      { u with queue := u.queue - 1, rPc := .copying [] } [] (by simp) (Nat.zero_le _) rfl
    obtain ⟨f1, f2, f3⟩ := hf
    have hp := hinv.pre
    generalize runFrom size len { u with queue := u.queue - 1, rPc := .copying [] }
          (List.replicate len .recvCopy ++ [.recvDone]) = t at *
    simp only [b3.recvd, b3.sent] at f1 f3
    refine ⟨f2, ?_, f3⟩
    have hget : s.sent[s.recvd.length]? = some s.sent[s.recvd.length] :=
      List.getElem?_eq_getElem hlt'
    rw [hp, f1, f3, ← take_snoc s.sent s.recvd.length _ hget]
    congr 1
    exact hpre.symm

/-- **C03** (every fair background schedule): each enabled background step uses up a finite amount of
work, and once the background threads have nothing left to do, a `send` by an idle sender is enabled
whenever fewer than `size` items are outstanding and a `recv` whenever an item is outstanding. -/
theorem C03_background_terminates (size len : Nat) (hs : 0 < size) (sched : List Lbl) :
    let s := run size len sched
    (∀ l, l.isBackground = true → step size len s l = s ∨ bgWork (step size len s l) < bgWork s) ∧
    ((∀ l, l.isBackground = true → step size len s l = s) →
      (s.sPc = .idle → s.sent.length < s.recvd.length + size → 0 < s.sem) ∧
      (s.rPc = .idle → s.recvd.length < s.sendsDone → 0 < s.queue)) := by
  intro s
  have h := inv_run (len := len) hs sched
  refine ⟨fun l hl => bg_decreases h l hl, fun hq => ?_⟩
  have hquiet : Quiet s := by
    apply Classical.byContradiction
    intro hn
    obtain ⟨l, h1, h2⟩ := bg_exists h hn
    have h3 := hq l h1
    change step size len (run size len sched) l = run size len sched at h3
    rw [h3] at h2
    omega
  obtain ⟨q1, q2, q3, q4⟩ := hquiet
  have c := h.cap; have f := h.flight; have sl := h.sentLen
  change s.sem + bw s.sPc + bp s.sPc + bh s.aPc + ba s.aPc + s.ack + s.req + bq s.qPc + s.queue
          + bc s.rPc = size at c
  change s.sendsDone = s.recvd.length + s.req + bq s.qPc + s.queue + bc s.rPc at f
  change s.sent.length = s.sendsDone + bw s.sPc at sl
  rw [q1, q2, q3, q4] at c
  rw [q3, q4] at f
  simp only [bh, ba, bq] at c f
  constructor
  · intro hp hlt
    rw [hp] at c sl; simp only [bw, bp] at c sl; omega
  · intro hp hlt
    rw [hp] at f; simp only [bc] at f; omega

example : let s := run 2 2 demo
    s.sPc = .idle ∧ s.rPc = .idle ∧ s.sent.length < s.recvd.length + 2 := by decide
example : let s := run 2 1 [.sendStart [1], .sendWrite, .sendDone]
    s.rPc = .idle ∧ s.recvd.length < s.sendsDone := by decide

/-- **C04** (sender's probe): when `probe()` returned True, then after any steps of the other threads,
a unit of the semaphore is available to `send` - either right now, or it is held for a moment by the
callback thread's own probe, whose next step gives it back.  No step of the receiver is needed. -/
theorem C04_send_probe (size len : Nat) (hs : 0 < size) (sched others : List Lbl)
    (ho : ∀ l ∈ others, l.isSender = false) :
    let s := run size len sched
    let p := step size len s .sProbeRel
    p.sProbes = true :: s.sProbes →
    let t := runFrom size len p others
    t.sPc = .idle ∧ (0 < t.sem ∨ t.aPc = .holding ∧ 0 < (step size len t .ackProbeRel).sem) := by
  intro s p hp t
  have hinv : Inv size len t :=
    inv_runFrom hs (inv_step hs (inv_run hs sched) .sProbeRel) others
  have h0 : 0 < p.sem ∧ p.sPc = .idle := by
    revert hp
    simp only [p, step]
    split
    · split
      · simp
      · intro e; simp at e
    · intro e; simp at e
  have h1 := sem_mono_run (size := size) (len := len) others p ho
  have hsp : ∀ (ls : List Lbl) (u : St), (∀ l ∈ ls, l.isSender = false) →
      (runFrom size len u ls).sPc = u.sPc := by
    intro ls
    induction ls with
    | nil => intro u _; rfl
    | cons l ls ih =>
      intro u hl
      have := ih (step size len u l) (fun l' h => hl l' (by simp [h]))
      have hl1 := hl l (by simp)
      have h2 : (step size len u l).sPc = u.sPc := by
        cases l <;> simp [Lbl.isSender] at hl1 <;> simp only [step] <;> repeat' split
        all_goals rfl
      rw [← h2]; exact this
  refine ⟨by rw [hsp others p ho]; exact h0.2, ?_⟩
  by_cases hsem : 0 < t.sem
  · exact Or.inl hsem
  · right
    have h2 : 0 < t.sem + bh t.aPc := Nat.lt_of_lt_of_le (by omega) h1
    cases ha : t.aPc <;> simp [ha, bh] at h2 <;> try omega
    have c := hinv.cap
    rw [ha] at c
    simp only [bh, ba] at c
    refine ⟨rfl, ?_⟩
    simp only [step, ha, if_true]
    rw [if_pos (by omega)]
    simp

example : let s := run 1 1 [.sProbe]
    (step 1 1 s .sProbeRel).sProbes = true :: s.sProbes := by decide

/-- **C04** (receiver's probe): when `probe()` returns True to an idle receiver, a `recv` issued after
any steps of the other threads does not block. -/
theorem C04_recv_probe (size len : Nat) (sched others : List Lbl)
    (ho : ∀ l ∈ others, l.isReceiver = false) :
    let s := run size len sched
    s.rPc = .idle → recvProbe s = true →
    (step size len (runFrom size len s others) .recvStart).rPc = .copying [] := by
  intro s h1 h2
  obtain ⟨q, r⟩ := queue_mono_run (size := size) (len := len) others s ho
  simp only [recvProbe, decide_eq_true_eq] at h2
  have : (runFrom size len s others).rPc = .idle ∧ 0 < (runFrom size len s others).queue :=
    ⟨by rw [r, h1], by omega⟩
  simp only [step]
  rw [if_pos this]

example : let s := run 2 1 [.sendStart [1], .sendWrite, .sendDone, .reqTake, .reqPut]
    s.rPc = .idle ∧ recvProbe s = true := by decide

/-- **C04** (negative probe of the receiver): when `probe()` returns False to the receiver, `recv()` would block at that moment; and unless the notification of a finished send is still on
its way, everything that was sent has been received. -/
theorem C04_recv_probe_false (size len : Nat) (hs : 0 < size) (sched : List Lbl) :
    let s := run size len sched
    s.rPc = .idle → recvProbe s = false →
    (step size len s .recvStart) = s ∧ (s.req = 0 → s.qPc = .wait → s.recvd.length = s.sendsDone) := by
  intro s h1 h2
  have f : s.sendsDone = s.recvd.length + s.req + bq s.qPc + s.queue + bc s.rPc := (inv_run (len := len) hs sched).flight
  have hq : s.queue = 0 := by simpa [recvProbe] using h2
  refine ⟨?_, fun h3 h4 => ?_⟩
  · simp only [step]
    rw [if_neg (by omega)]
  · rw [h1, h4, h3, hq] at f
    simp only [bq, bc] at f
    omega

example : let s := run 2 1 [.sendStart [1], .sendWrite, .sendDone]
    s.rPc = .idle ∧ recvProbe s = false ∧ s.sendsDone = 1 := by decide

/-- **C04** (negative probe): when `probe()` returns False to the sender no item slot was free at that
moment up to the unit being handed back by the callback thread; in particular the channel is full
when no acknowledgement is pending. -/
theorem C04_send_probe_false (size len : Nat) (hs : 0 < size) (sched : List Lbl) :
    let s := run size len sched
    s.sPc = .idle → (step size len s .sProbe).sProbes = false :: s.sProbes →
    s.ack = 0 → s.aPc = .wait → s.sent.length = s.recvd.length + size := by
  intro s h1 h2 h3 h4
  have hinv := inv_run (len := len) hs sched
  have c : s.sem + bw s.sPc + bp s.sPc + bh s.aPc + ba s.aPc + s.ack + s.req + bq s.qPc + s.queue
          + bc s.rPc = size := hinv.cap
  have f : s.sendsDone = s.recvd.length + s.req + bq s.qPc + s.queue + bc s.rPc := hinv.flight
  have sl : s.sent.length = s.sendsDone + bw s.sPc := hinv.sentLen
  have hz : s.sem = 0 := by
    simp only [step, h1, if_true] at h2
    split at h2
    · simp at h2
    · omega
  rw [h1, h4] at c; rw [h1] at sl
  simp only [bw, bp, bh, ba] at c sl
  omega

example : let s := run 1 1 [.sendStart [1], .sendWrite, .sendDone]
    s.sPc = .idle ∧ (step 1 1 s .sProbe).sProbes = false :: s.sProbes ∧ s.ack = 0 ∧ s.aPc = .wait := by
  decide

/-- **C04** (peek): every `peek()` returned the item that the next `recv()` returns: if `n` calls of
`recv` had completed before it, it is the item the `n+1`-st `recv` returns.  (That peeks do not disturb
later receives is part of `C01_fifo`, whose schedules include peeks.) -/
theorem C04_peek (size len : Nat) (hs : 0 < size) (sched : List Lbl) :
    let s := run size len sched
    ∀ n v, (n, v) ∈ s.peeks → s.sent[n]? = some v ∧ (n < s.recvd.length → s.recvd[n]? = some v) := by
  intro s n v hm
  have h := inv_run (len := len) hs sched
  have h1 := h.peeks (n, v) hm
  refine ⟨h1, fun hn => ?_⟩
  have hp : s.recvd = s.sent.take s.recvd.length := h.pre
  rw [hp, List.getElem?_take, if_pos hn]
  exact h1

example : (run 2 2 demo).peeks = [(0, [1, 10])] := by decide

end Verif.Channel
