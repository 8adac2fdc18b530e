import Verif.System.Program

/-!
# Counting messages

The invariant of time-stepped programs: how many messages a channel carried and delivered follows from the position of its
sender and its receiver.
-/

namespace Verif.System

variable {D V : Type}

/-- Messages sent on `c` according to the position of a process. -/
def sentBy (q : PS D) (c : Nat) : Nat := q.t + if Op.snd c ∈ q.rest then 0 else 1

/-- Messages received on `c` according to the position of a process. -/
def rcvdBy (q : PS D) (c : Nat) : Nat := q.t + if Op.rcv c ∈ q.rest then 0 else 1

structure Inv (P : Prog D V) (w r : Nat → Nat) (s : St (PS D) V) : Prop where
  suffix : ∀ p, (s.q p).rest <:+ P.body p
  le : ∀ p, (s.q p).t ≤ P.T
  top : ∀ p, (s.q p).t = P.T → (s.q p).rest = P.body p
  sent : ∀ c, P.Used c → (s.hist c).length = sentBy (s.q (w c)) c
  rcvd : ∀ c, P.Used c → rcvdBy (s.q (r c)) c ≤ (s.hist c).length
  chan : ∀ c, P.Used c → s.chan c = (s.hist c).drop (rcvdBy (s.q (r c)) c)

theorem inv_init (P : Prog D V) (w r : Nat → Nat) (hw : Wired P w r) : Inv P w r P.init where
  suffix := fun p => List.suffix_refl _
  le := fun p => Nat.zero_le _
  top := fun p _ => rfl
  sent := fun c hc => by
    have := (hw.both c hc).2.2.1
    simp [Prog.init, sentBy, this]
  rcvd := fun c hc => by
    have := (hw.both c hc).2.2.2
    simp [Prog.init, rcvdBy, this]
  chan := fun c hc => by
    have := (hw.both c hc).2.2.2
    simp [Prog.init]

theorem owned (P : Prog D V) (w r : Nat → Nat) (hw : Wired P w r) : ∀ p c (q : PS D), q.rest <:+ P.body p →
    (∀ v q', P.view p q = .send c v q' → w c = p ∧ P.Used c) ∧ (∀ k, P.view p q = .recv c k → r c = p ∧ P.Used c) := by
  intro p c q hs
  unfold Prog.view
  constructor
  · intro v q' h
    split at h
    · rename_i hp
      split at h
      · cases h
      · rename_i c' rest he
        cases h
        have hm : Op.snd c ∈ P.body p := hs.subset (by rw [he]; simp)
        exact ⟨hw.snd p c hm, p, hp.1, Or.inl hm⟩
      · cases h
    · cases h
  · intro k h
    split at h
    · rename_i hp
      split at h
      · cases h
      · cases h
      · rename_i c' rest he
        cases h
        have hm : Op.rcv c ∈ P.body p := hs.subset (by rw [he]; simp)
        exact ⟨hw.rcv p c hm, p, hp.1, Or.inr hm⟩
    · cases h

/-- The three kinds of steps. -/
inductive StepKind (P : Prog D V) (s a : St (PS D) V) (p : Nat) : Prop where
  | tick (hp : p < P.n) (ht : (s.q p).t < P.T) (hr : (s.q p).rest = [])
      (h : a = { s with q := upd s.q p { t := (s.q p).t + 1, rest := P.body p, data := P.tick p (s.q p).data } })
  | send (hp : p < P.n) (ht : (s.q p).t < P.T) (c : Nat) (r : List Op) (hr : (s.q p).rest = .snd c :: r)
      (hc : (s.chan c).length < P.cap c)
      (h : a = { q := upd s.q p { s.q p with rest := r },
                 chan := upd s.chan c (s.chan c ++ [P.emit p (s.q p).data c]),
                 hist := upd s.hist c (s.hist c ++ [P.emit p (s.q p).data c]) })
  | recv (hp : p < P.n) (ht : (s.q p).t < P.T) (c : Nat) (r : List Op) (hr : (s.q p).rest = .rcv c :: r)
      (v : V) (l : List V) (hc : s.chan c = v :: l)
      (h : a = { s with q := upd s.q p { s.q p with rest := r, data := P.absorb p (s.q p).data c v },
                        chan := upd s.chan c l })

theorem step_kind (P : Prog D V) {s a : St (PS D) V} {p : Nat} (h : step P.net s p = some a) : StepKind P s a p := by
  unfold step Prog.net at h
  simp only [Prog.view] at h
  by_cases hp : p < P.n ∧ (s.q p).t < P.T
  · rw [if_pos hp] at h
    cases hr : (s.q p).rest with
    | nil =>
      rw [hr] at h
      cases h
      exact .tick hp.1 hp.2 hr rfl
    | cons o r =>
      rw [hr] at h
      cases o with
      | snd c =>
        simp only at h
        split at h
        · rename_i hc
          cases h
          exact .send hp.1 hp.2 c r hr hc rfl
        · cases h
      | rcv c =>
        simp only at h
        split at h
        · cases h
        · rename_i v l hc
          cases h
          exact .recv hp.1 hp.2 c r hr v l hc rfl
  · rw [if_neg hp] at h
    cases h

theorem sentBy_cons {q : PS D} {o : Op} {r : List Op} (hr : q.rest = o :: r) (d : D) {c : Nat} (h : o ≠ .snd c) :
    sentBy { q with rest := r, data := d } c = sentBy q c := by
  unfold sentBy
  rw [hr]
  simp [List.mem_cons, Ne.symm h]

theorem rcvdBy_cons {q : PS D} {o : Op} {r : List Op} (hr : q.rest = o :: r) (d : D) {c : Nat} (h : o ≠ .rcv c) :
    rcvdBy { q with rest := r, data := d } c = rcvdBy q c := by
  unfold rcvdBy
  rw [hr]
  simp [List.mem_cons, Ne.symm h]

theorem suffix_cons {o : Op} {r b : List Op} (h : o :: r <:+ b) : r <:+ b :=
  (List.suffix_cons o r).trans h

theorem notMem_of_suffix {o : Op} {r b : List Op} (h : o :: r <:+ b) (hn : b.Nodup) : o ∉ r := by
  obtain ⟨x, hx⟩ := h
  rw [← hx] at hn
  exact (List.nodup_cons.1 (List.nodup_append.1 hn).2.1).1

theorem inv_step (P : Prog D V) (w r : Nat → Nat) (hw : Wired P w r) {s a : St (PS D) V} {p : Nat} (hi : Inv P w r s)
    (h : step P.net s p = some a) : Inv P w r a := by
  cases step_kind P h with
  | tick hp ht hr h =>
    subst h
    have hs : ∀ c, P.Used c → sentBy (upd s.q p { t := (s.q p).t + 1, rest := P.body p, data := P.tick p (s.q p).data } (w c)) c
        = sentBy (s.q (w c)) c := by
      intro c hc
      by_cases he : w c = p
      · subst he
        have := (hw.both c hc).2.2.1
        simp [sentBy, this, hr]
      · rw [upd_ne _ he]
    have hrr : ∀ c, P.Used c → rcvdBy (upd s.q p { t := (s.q p).t + 1, rest := P.body p, data := P.tick p (s.q p).data } (r c)) c
        = rcvdBy (s.q (r c)) c := by
      intro c hc
      by_cases he : r c = p
      · subst he
        have := (hw.both c hc).2.2.2
        simp [rcvdBy, this, hr]
      · rw [upd_ne _ he]
    constructor
    · intro p'
      by_cases he : p' = p
      · subst he; simp
      · simp only [upd_ne _ he]; exact hi.suffix p'
    · intro p'
      by_cases he : p' = p
      · subst he; simp; omega
      · simp only [upd_ne _ he]; exact hi.le p'
    · intro p'
      by_cases he : p' = p
      · subst he; simp
      · simp only [upd_ne _ he]; exact hi.top p'
    · intro c hc; rw [hs c hc]; exact hi.sent c hc
    · intro c hc; rw [hrr c hc]; exact hi.rcvd c hc
    · intro c hc; rw [hrr c hc]; exact hi.chan c hc
  | send hp ht c0 rr hr hcap h =>
    subst h
    have hsuf := hi.suffix p
    rw [hr] at hsuf
    have hnm := notMem_of_suffix hsuf (hw.nodup p)
    have hm : Op.snd c0 ∈ P.body p := hsuf.subset (by simp)
    have hwc : w c0 = p := hw.snd p c0 hm
    have hu : P.Used c0 := ⟨p, hp, Or.inl hm⟩
    have hrr : ∀ c, rcvdBy (upd s.q p { s.q p with rest := rr } (r c)) c = rcvdBy (s.q (r c)) c := by
      intro c
      by_cases he : r c = p
      · rw [he, upd_self]; exact rcvdBy_cons hr _ (by simp)
      · rw [upd_ne _ he]
    constructor
    · intro p'
      by_cases he : p' = p
      · subst he; simp only [upd_self]; exact suffix_cons hsuf
      · simp only [upd_ne _ he]; exact hi.suffix p'
    · intro p'
      by_cases he : p' = p
      · subst he; simp only [upd_self]; exact hi.le _
      · simp only [upd_ne _ he]; exact hi.le p'
    · intro p'
      by_cases he : p' = p
      · subst he; simp only [upd_self]; intro h; omega
      · simp only [upd_ne _ he]; exact hi.top p'
    · intro c hc
      by_cases hcc : c = c0
      · subst hcc
        have := hi.sent c hc
        rw [hwc] at this ⊢
        simp only [upd_self, List.length_append, List.length_singleton, this]
        unfold sentBy
        rw [hr]
        simp [hnm]
      · simp only [upd_ne _ hcc]
        rw [hi.sent c hc]
        by_cases he : w c = p
        · rw [he, upd_self]
          exact (sentBy_cons hr _ (by simp [Ne.symm hcc])).symm
        · rw [upd_ne _ he]
    · intro c hc
      rw [hrr c]
      have := hi.rcvd c hc
      by_cases hcc : c = c0
      · subst hcc; simp only [upd_self, List.length_append]; omega
      · simp only [upd_ne _ hcc]; exact this
    · intro c hc
      rw [hrr c]
      have := hi.chan c hc
      by_cases hcc : c = c0
      · subst hcc
        simp only [upd_self]
        rw [List.drop_append_of_le_length (hi.rcvd c hc), ← this]
      · simp only [upd_ne _ hcc]; exact this
  | recv hp ht c0 rr hr v l hch h =>
    subst h
    have hsuf := hi.suffix p
    rw [hr] at hsuf
    have hnm := notMem_of_suffix hsuf (hw.nodup p)
    have hm : Op.rcv c0 ∈ P.body p := hsuf.subset (by simp)
    have hrc : r c0 = p := hw.rcv p c0 hm
    have hu : P.Used c0 := ⟨p, hp, Or.inr hm⟩
    have hss : ∀ c, sentBy (upd s.q p { s.q p with rest := rr, data := P.absorb p (s.q p).data c0 v } (w c)) c
        = sentBy (s.q (w c)) c := by
      intro c
      by_cases he : w c = p
      · rw [he, upd_self]; exact sentBy_cons hr _ (by simp)
      · rw [upd_ne _ he]
    have hr0 : rcvdBy ({ s.q p with rest := rr, data := P.absorb p (s.q p).data c0 v } : PS D) c0 = rcvdBy (s.q p) c0 + 1 := by
      unfold rcvdBy
      rw [hr]
      simp [hnm]
    have hrr : ∀ c, c ≠ c0 → rcvdBy (upd s.q p { s.q p with rest := rr, data := P.absorb p (s.q p).data c0 v } (r c)) c
        = rcvdBy (s.q (r c)) c := by
      intro c hcc
      by_cases he : r c = p
      · rw [he, upd_self]; exact rcvdBy_cons hr _ (by simp [Ne.symm hcc])
      · rw [upd_ne _ he]
    constructor
    · intro p'
      by_cases he : p' = p
      · subst he; simp only [upd_self]; exact suffix_cons hsuf
      · simp only [upd_ne _ he]; exact hi.suffix p'
    · intro p'
      by_cases he : p' = p
      · subst he; simp only [upd_self]; exact hi.le _
      · simp only [upd_ne _ he]; exact hi.le p'
    · intro p'
      by_cases he : p' = p
      · subst he; simp only [upd_self]; intro h; omega
      · simp only [upd_ne _ he]; exact hi.top p'
    · intro c hc; rw [hss c]; exact hi.sent c hc
    · intro c hc
      by_cases hcc : c = c0
      · subst hcc
        have h1 := hi.rcvd c hc
        have h2 := hi.chan c hc
        dsimp only at h1 h2 ⊢
        rw [hrc] at h1 h2 ⊢
        rw [upd_self]
        have := hr0
        dsimp only at this
        rw [this]
        clear this
        rw [hch] at h2
        have := congrArg List.length h2
        simp only [List.length_cons, List.length_drop] at this
        omega
      · rw [hrr c hcc]; exact hi.rcvd c hc
    · intro c hc
      by_cases hcc : c = c0
      · subst hcc
        have h2 := hi.chan c hc
        dsimp only at h2 ⊢
        rw [hrc] at h2 ⊢
        have := hr0
        dsimp only at this
        rw [upd_self, upd_self, this, ← List.drop_drop, ← h2, hch]
        rfl
      · rw [hrr c hcc]
        dsimp only
        rw [upd_ne _ hcc]; exact hi.chan c hc

theorem inv_exec (P : Prog D V) (w r : Nat → Nat) (hw : Wired P w r) (l : List Nat) : Inv P w r (exec P.net P.init l) := by
  have key : ∀ (l : List Nat) (s : St (PS D) V), Inv P w r s → Inv P w r (exec P.net s l) := by
    intro l
    induction l with
    | nil => intro s h; exact h
    | cons p l ih =>
      intro s h
      rw [exec]
      cases hp : step P.net s p with
      | none => exact ih s h
      | some a => exact ih a (inv_step P w r hw h hp)
  exact key l _ (inv_init P w r hw)

end Verif.System
