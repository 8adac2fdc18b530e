import Verif.Channel.Lemmas

/-! Progress lemmas of the channel; helper lemmas for `Verif.Channel.Props`. -/

namespace Verif.Channel

/-- Work left for the two callback threads. -/
def bgWork (s : St) : Nat :=
  4 * s.ack + (match s.aPc with | .wait => 0 | .taken => 3 | .holding => 2 | .release => 1)
    + 2 * s.req + bq s.qPc

/-- No callback thread can move. -/
def Quiet (s : St) : Prop := s.aPc = .wait ∧ s.ack = 0 ∧ s.qPc = .wait ∧ s.req = 0

/-- The fields a callback thread never touches. -/
structure SameApp (s t : St) : Prop where
  sent : t.sent = s.sent
  recvd : t.recvd = s.recvd
  sendsDone : t.sendsDone = s.sendsDone
  sPc : t.sPc = s.sPc
  rPc : t.rPc = s.rPc
  mem : t.mem = s.mem
  sIdx : t.sIdx = s.sIdx
  rIdx : t.rIdx = s.rIdx

theorem SameApp.refl (s : St) : SameApp s s := by constructor <;> rfl

theorem SameApp.trans {a b c : St} (h : SameApp a b) (k : SameApp b c) : SameApp a c := by
  constructor
  · rw [k.sent, h.sent]
  · rw [k.recvd, h.recvd]
  · rw [k.sendsDone, h.sendsDone]
  · rw [k.sPc, h.sPc]
  · rw [k.rPc, h.rPc]
  · rw [k.mem, h.mem]
  · rw [k.sIdx, h.sIdx]
  · rw [k.rIdx, h.rIdx]

theorem bg_same {size len : Nat} (s : St) (l : Lbl) (hl : l.isBackground = true) :
    SameApp s (step size len s l) := by
  cases l <;> simp [Lbl.isBackground] at hl <;> simp only [step] <;>
    repeat' split
  all_goals constructor <;> rfl

/-- Every enabled background step uses up work. -/
theorem bg_decreases {size len : Nat} {s : St} (h : Inv size len s)
    (l : Lbl) (hl : l.isBackground = true) :
    step size len s l = s ∨ bgWork (step size len s l) < bgWork s := by
  have cap := h.cap
  cases l <;> simp [Lbl.isBackground] at hl <;> simp only [step]
  case ackTake =>
    split
    · rename_i hp; right; simp [bgWork, hp.1]; omega
    · simp
  case ackProbe =>
    split
    · rename_i hp; right
      split <;> simp [bgWork, hp]
    · simp
  case ackProbeRel =>
    split
    · rename_i hp
      rw [hp] at cap; simp only [bh, ba] at cap
      split
      · right; simp [bgWork, hp]
      · omega
    · simp
  case ackRelease =>
    split
    · rename_i hp
      rw [hp] at cap; simp only [bh, ba] at cap
      split
      · right; simp [bgWork, hp]
      · omega
    · simp
  case reqTake =>
    split
    · rename_i hp; right; simp [bgWork, hp.1, bq]; omega
    · simp
  case reqPut =>
    split
    · rename_i hp
      rw [hp] at cap; simp only [bq] at cap
      split
      · right; simp [bgWork, hp, bq]
      · omega
    · simp

theorem bg_exists {size len : Nat} {s : St} (h : Inv size len s) (hq : ¬ Quiet s) :
    ∃ l, l.isBackground = true ∧ bgWork (step size len s l) < bgWork s := by
  have key : ∀ l, l.isBackground = true → step size len s l ≠ s →
      ∃ l, l.isBackground = true ∧ bgWork (step size len s l) < bgWork s := by
    intro l hl hne
    rcases bg_decreases h l hl with h1 | h1
    · exact absurd h1 hne
    · exact ⟨l, hl, h1⟩
  have cap := h.cap
  cases ha : s.aPc with
  | taken =>
    refine key .ackProbe rfl ?_
    simp only [step, ha, if_true]
    intro e; have := congrArg St.aPc e
    split at this <;> simp [ha] at this
  | holding =>
    refine key .ackProbeRel rfl ?_
    rw [ha] at cap; simp only [bh, ba] at cap
    simp only [step, ha, if_true]
    rw [if_pos (by omega)]
    intro e; have := congrArg St.aPc e; simp [ha] at this
  | release =>
    refine key .ackRelease rfl ?_
    rw [ha] at cap; simp only [bh, ba] at cap
    simp only [step, ha, if_true]
    rw [if_pos (by omega)]
    intro e; have := congrArg St.aPc e; simp [ha] at this
  | wait =>
    by_cases hk : 0 < s.ack
    · refine key .ackTake rfl ?_
      simp only [step, ha, hk, and_self, if_true]
      intro e; have := congrArg St.aPc e; simp [ha] at this
    · cases hb : s.qPc with
      | taken =>
        refine key .reqPut rfl ?_
        rw [hb] at cap; simp only [bq] at cap
        simp only [step, hb, if_true]
        rw [if_pos (by omega)]
        intro e; have := congrArg St.qPc e; simp [hb] at this
      | wait =>
        by_cases hr : 0 < s.req
        · refine key .reqTake rfl ?_
          simp only [step, hb, hr, and_self, if_true]
          intro e; have := congrArg St.qPc e; simp [hb] at this
        · exact absurd ⟨ha, by omega, hb, by omega⟩ hq

theorem bg_drain {size len : Nat} (hs : 0 < size) :
    ∀ (n : Nat) (s : St), bgWork s ≤ n → Inv size len s →
      ∃ bg : List Lbl, (∀ l ∈ bg, l.isBackground = true) ∧ Quiet (runFrom size len s bg) ∧
        SameApp s (runFrom size len s bg) := by
  intro n
  induction n with
  | zero =>
    intro s hn h
    by_cases hq : Quiet s
    · exact ⟨[], by simp, hq, SameApp.refl s⟩
    · obtain ⟨l, _, h2⟩ := bg_exists h hq
      omega
  | succ n ih =>
    intro s hn h
    by_cases hq : Quiet s
    · exact ⟨[], by simp, hq, SameApp.refl s⟩
    · obtain ⟨l, h1, h2⟩ := bg_exists h hq
      obtain ⟨bg, b1, b2, b3⟩ := ih (step size len s l) (by omega) (inv_step hs h l)
      refine ⟨l :: bg, ?_, b2, (bg_same s l h1).trans b3⟩
      intro l' hl'
      rcases List.mem_cons.1 hl' with e | e
      · rw [e]; exact h1
      · exact b1 _ e

/-- The rest of a `send` call runs without any other thread. -/
theorem finish_send {size len : Nat} :
    ∀ (n : Nat) (s : St) (d : Payload) (k : Nat), len - k = n → k ≤ len → s.sPc = .writing d k →
      let t := runFrom size len s (List.replicate n .sendWrite ++ [.sendDone])
      t.sendsDone = s.sendsDone + 1 ∧ t.sPc = .idle ∧ t.sent = s.sent ∧ t.recvd = s.recvd := by
  intro n
  induction n with
  | zero =>
    intro s d k h1 h2 h3
    have hk : k = len := by omega
    simp [runFrom, step, h3, hk]
  | succ n ih =>
    intro s d k h1 h2 h3
    have hk : k < len := by omega
    simp only [List.replicate_succ, List.cons_append, runFrom, List.foldl_cons]
    have hst : step size len s .sendWrite =
        { s with mem := setMem s.mem s.sIdx k (d.getD k 0), sPc := .writing d (k + 1) } := by
      simp [step, h3, hk]
    rw [hst]
    exact ih { s with mem := setMem s.mem s.sIdx k (d.getD k 0), sPc := .writing d (k + 1) } d
      (k + 1) (by omega) hk rfl

theorem finish_recv {size len : Nat} :
    ∀ (n : Nat) (s : St) (acc : Payload), len - acc.length = n → acc.length ≤ len →
      s.rPc = .copying acc →
      let t := runFrom size len s (List.replicate n .recvCopy ++ [.recvDone])
      t.recvd.length = s.recvd.length + 1 ∧ t.rPc = .idle ∧ t.sent = s.sent := by
  intro n
  induction n with
  | zero =>
    intro s acc h1 h2 h3
    have hk : acc.length = len := by omega
    simp [runFrom, step, h3, hk]
  | succ n ih =>
    intro s acc h1 h2 h3
    have hk : acc.length < len := by omega
    simp only [List.replicate_succ, List.cons_append, runFrom, List.foldl_cons]
    have hst : step size len s .recvCopy =
        { s with rPc := .copying (acc ++ [s.mem s.rIdx acc.length]) } := by
      simp [step, h3, hk]
    rw [hst]
    exact ih { s with rPc := .copying (acc ++ [s.mem s.rIdx acc.length]) }
      (acc ++ [s.mem s.rIdx acc.length])
      (by simp; omega) (by simp; omega) rfl

theorem sem_mono {size len : Nat} (s : St) (l : Lbl) (hl : l.isSender = false) :
    s.sem + bh s.aPc ≤ (step size len s l).sem + bh (step size len s l).aPc := by
  cases l <;> simp [Lbl.isSender] at hl <;> simp only [step] <;> repeat' split
  all_goals simp_all [bh]
  all_goals omega

theorem sem_mono_run {size len : Nat} :
    ∀ (sched : List Lbl) (s : St), (∀ l ∈ sched, l.isSender = false) →
    s.sem + bh s.aPc ≤ (runFrom size len s sched).sem + bh (runFrom size len s sched).aPc := by
  intro sched
  induction sched with
  | nil => intro s _; exact Nat.le_refl _
  | cons l ls ih =>
    intro s h
    exact Nat.le_trans (sem_mono s l (h l (by simp)))
      (ih (step size len s l) (fun l' hl' => h l' (by simp [hl'])))

theorem queue_mono_run {size len : Nat} :
    ∀ (sched : List Lbl) (s : St), (∀ l ∈ sched, l.isReceiver = false) →
    s.queue ≤ (runFrom size len s sched).queue ∧ (runFrom size len s sched).rPc = s.rPc := by
  intro sched
  induction sched with
  | nil => intro s _; exact ⟨Nat.le_refl _, rfl⟩
  | cons l ls ih =>
    intro s h
    have hl := h l (by simp)
    have h1 : s.queue ≤ (step size len s l).queue ∧ (step size len s l).rPc = s.rPc := by
      cases l <;> simp [Lbl.isReceiver] at hl <;> simp only [step] <;> repeat' split
      all_goals simp_all
    obtain ⟨h2, h3⟩ := ih (step size len s l) (fun l' hl' => h l' (by simp [hl']))
    exact ⟨Nat.le_trans h1.1 h2, by rw [← h1.2]; exact h3⟩

end Verif.Channel
