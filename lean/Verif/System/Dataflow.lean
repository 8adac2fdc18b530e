import Verif.System.Deadlock

/-!
# C79: a network computes its synchronous equations

The meaning a user gives to a network: in time step `t` every process reads the messages other processes sent in step `t`. The
theorems say that this is what happens under every schedule, however far some processes run ahead of others.
-/

namespace Verif.System

variable {D V : Type}

/-- Effect of part of the body in step `t`, when `H c t` is the message on channel `c` in step `t`. -/
def runOps (P : Prog D V) (p : Nat) (H : Nat → Nat → V) (t : Nat) : List Op → D → D
  | [], d => d
  | .snd _ :: l, d => runOps P p H t l d
  | .rcv c :: l, d => runOps P p H t l (P.absorb p d c (H c t))

/-- State of process `p` after `t` steps. -/
def stateAt (P : Prog D V) (p : Nat) (H : Nat → Nat → V) : Nat → D
  | 0 => P.d0 p
  | t + 1 => P.tick p (runOps P p H t (P.body p) (stateAt P p H t))

/-- The synchronous equation of channel `c` in step `t`: the message is what the sender emits in the state it has in step `t` before
the send. -/
def Equation (P : Prog D V) (w : Nat → Nat) (H : Nat → Nat → V) (c t : Nat) : Prop :=
  ∀ x y, P.body (w c) = x ++ .snd c :: y → H c t = P.emit (w c) (runOps P (w c) H t x (stateAt P (w c) H t)) c

/-- `H` solves the synchronous equations of the network. -/
def Solves (P : Prog D V) (w : Nat → Nat) (H : Nat → Nat → V) : Prop := ∀ c, P.Used c → ∀ t, t < P.T → Equation P w H c t

theorem runOps_append (P : Prog D V) (p : Nat) (H : Nat → Nat → V) (t : Nat) (a b : List Op) (d : D) :
    runOps P p H t (a ++ b) d = runOps P p H t b (runOps P p H t a d) := by
  induction a generalizing d with
  | nil => rfl
  | cons o a ih => cases o <;> simp only [List.cons_append, runOps, ih]

/-- Histories agree with `H`. -/
def Agrees (P : Prog D V) (H : Nat → Nat → V) (s : St (PS D) V) : Prop :=
  ∀ c, P.Used c → ∀ k, k < (s.hist c).length → (s.hist c)[k]? = some (H c k)

structure Good (P : Prog D V) (w : Nat → Nat) (H : Nat → Nat → V) (s : St (PS D) V) : Prop where
  data : ∀ p x, P.body p = x ++ (s.q p).rest → (s.q p).data = runOps P p H (s.q p).t x (stateAt P p H (s.q p).t)
  agrees : Agrees P H s
  eqn : ∀ c, P.Used c → ∀ k, k < (s.hist c).length → Equation P w H c k

theorem good_init (P : Prog D V) (w : Nat → Nat) (H : Nat → Nat → V) : Good P w H P.init where
  data := fun p x h => by
    have h : P.body p = x ++ P.body p := h
    have : x = [] := by
      have := congrArg List.length h
      simp at this
      exact this
    subst this
    rfl
  agrees := fun c _ k hk => by simp [Prog.init] at hk
  eqn := fun c _ k hk => by simp [Prog.init] at hk

theorem suffix_unique {x x' r b : List Op} (h : b = x ++ r) (h' : b = x' ++ r) : x = x' := by
  rw [h] at h'
  exact List.append_cancel_right h'

/-- One step keeps everything in agreement, provided that what is sent agrees with `H`. -/
theorem good_step (P : Prog D V) (w r : Nat → Nat) (hw : Wired P w r) (H : Nat → Nat → V) {s a : St (PS D) V} {p : Nat}
    (hi : Inv P w r s) (hg : Good P w H s) (h : step P.net s p = some a) (ha : Agrees P H a) : Good P w H a := by
  have hia := inv_step P w r hw hi h
  cases step_kind P h with
  | tick hp ht hr h =>
    subst h
    refine ⟨?_, ha, hg.eqn⟩
    intro p' x hx
    by_cases he : p' = p
    · subst he
      simp only [upd_self] at hx ⊢
      have hx0 : x = [] := by
        have := congrArg List.length hx
        simp at this
        exact this
      subst hx0
      simp only [runOps, stateAt]
      rw [hg.data p' (P.body p') (by rw [hr]; simp)]
    · simp only [upd_ne _ he] at hx ⊢
      exact hg.data p' x hx
  | send hp ht c0 rr hr hcap h =>
    subst h
    have hsuf := hi.suffix p
    rw [hr] at hsuf
    obtain ⟨x0, hx0⟩ := hsuf
    have hm : Op.snd c0 ∈ P.body p := by rw [← hx0]; simp
    have hwc : w c0 = p := hw.snd p c0 hm
    have hu : P.Used c0 := ⟨p, hp, Or.inl hm⟩
    have hdata := hg.data p x0 (by rw [hr, hx0])
    have hlen : (s.hist c0).length = (s.q p).t := by
      have := hi.sent c0 hu
      rw [hwc] at this
      unfold sentBy at this
      rw [hr] at this
      simpa using this
    have hval : H c0 (s.q p).t = P.emit p (s.q p).data c0 := by
      have := ha c0 hu (s.q p).t (by simp [hlen])
      simp only [upd_self] at this
      rw [← hlen] at this
      simp at this
      rw [← hlen]
      exact this.symm
    refine ⟨?_, ha, ?_⟩
    · intro p' x hx
      by_cases he : p' = p
      · subst he
        simp only [upd_self] at hx ⊢
        have : x = x0 ++ [.snd c0] := by
          refine suffix_unique hx ?_
          rw [← hx0]; simp
        rw [this, runOps_append, hdata]
        rfl
      · simp only [upd_ne _ he] at hx ⊢
        exact hg.data p' x hx
    · intro c hc k hk
      by_cases hcc : c = c0
      · subst hcc
        simp only [upd_self, List.length_append, List.length_singleton] at hk
        rcases Nat.lt_or_ge k (s.hist c).length with hlt | hge
        · exact hg.eqn c hc k hlt
        · have hk2 : k = (s.q p).t := by omega
          subst hk2
          intro x y hxy
          rw [hwc] at hxy ⊢
          -- the position of the send in the body is unique
          have hxx : x = x0 := by
            have hn : (x ++ Op.snd c :: y).Nodup := hxy ▸ hw.nodup p
            have he : x ++ Op.snd c :: y = x0 ++ Op.snd c :: rr := by rw [← hxy, ← hx0]
            have hnx : Op.snd c ∉ x := fun h => (List.nodup_cons.1 (List.nodup_middle.1 hn)).1 (by simp [h])
            have hnx0 : Op.snd c ∉ x0 := fun h =>
              (List.nodup_cons.1 (List.nodup_middle.1 (he ▸ hn))).1 (by simp [h])
            rcases List.append_eq_append_iff.1 he with ⟨as, h5, h6⟩ | ⟨bs, h5, h6⟩
            · cases as with
              | nil => simp at h5; exact h5.symm
              | cons b as => simp at h6; exact absurd (by rw [h5, ← h6.1]; simp) hnx0
            · cases bs with
              | nil => simp at h5; exact h5
              | cons b bs => simp at h6; exact absurd (by rw [h5, ← h6.1]; simp) hnx
          rw [hxx, hval, hdata]
      · simp only [upd_ne _ hcc] at hk
        exact hg.eqn c hc k hk
  | recv hp ht c0 rr hr v l hch h =>
    subst h
    have hsuf := hi.suffix p
    rw [hr] at hsuf
    obtain ⟨x0, hx0⟩ := hsuf
    have hm : Op.rcv c0 ∈ P.body p := by rw [← hx0]; simp
    have hrc : r c0 = p := hw.rcv p c0 hm
    have hu : P.Used c0 := ⟨p, hp, Or.inr hm⟩
    have hdata := hg.data p x0 (by rw [hr, hx0])
    have hv : v = H c0 (s.q p).t := by
      have h1 := hi.chan c0 hu
      rw [hrc] at h1
      have h2 : rcvdBy (s.q p) c0 = (s.q p).t := by unfold rcvdBy; rw [hr]; simp
      rw [h2, hch] at h1
      have h3 := congrArg (fun l => l[0]?) h1
      simp only [List.getElem?_cons_zero, List.getElem?_drop, Nat.add_zero] at h3
      have hlt : (s.q p).t < (s.hist c0).length := by
        rcases Nat.lt_or_ge (s.q p).t (s.hist c0).length with hl | hl
        · exact hl
        · rw [List.getElem?_eq_none hl] at h3; cases h3
      rw [hg.agrees c0 hu _ hlt] at h3
      exact Option.some.inj h3
    refine ⟨?_, ha, hg.eqn⟩
    intro p' x hx
    by_cases he : p' = p
    · subst he
      simp only [upd_self] at hx ⊢
      have : x = x0 ++ [.rcv c0] := by
        refine suffix_unique hx ?_
        rw [← hx0]; simp
      rw [this, runOps_append, hdata, hv]
      rfl
    · simp only [upd_ne _ he] at hx ⊢
      exact hg.data p' x hx

/-- What was sent stays sent. -/
theorem hist_mono (P : Prog D V) (l : List Nat) : ∀ (s : St (PS D) V) (c : Nat), s.hist c <+: (exec P.net s l).hist c := by
  induction l with
  | nil => intro s c; exact List.prefix_refl _
  | cons p l ih =>
    intro s c
    rw [exec]
    cases h : step P.net s p with
    | none => exact ih s c
    | some a =>
      refine List.IsPrefix.trans ?_ (ih a c)
      cases step_kind P h with
      | tick hp ht hr h => subst h; exact List.prefix_refl _
      | send hp ht c0 rr hr hcap h =>
        subst h
        by_cases hcc : c = c0
        · subst hcc; simp
        · simp only [upd_ne _ hcc]; exact List.prefix_refl _
      | recv hp ht c0 rr hr v l' hch h => subst h; exact List.prefix_refl _

/-- **C79.** Every solution of the synchronous equations describes every execution: under every schedule, the `k`-th message ever
sent on a channel is the message of step `k`, and a process that has completed `t` steps (and has not started the next one) is in the
state the equations give for `t` steps - no matter how far others are ahead or behind. -/
theorem C79_executions_follow_equations (P : Prog D V) (w r : Nat → Nat) (hw : Wired P w r) (H : Nat → Nat → V)
    (hH : Solves P w H) (l : List Nat) :
    (∀ c, P.Used c → ∀ k, k < ((exec P.net P.init l).hist c).length →
      ((exec P.net P.init l).hist c)[k]? = some (H c k)) ∧
    (∀ p, ((exec P.net P.init l).q p).rest = P.body p →
      ((exec P.net P.init l).q p).data = stateAt P p H ((exec P.net P.init l).q p).t) := by
  have key : ∀ (l : List Nat) (s : St (PS D) V), Inv P w r s → Good P w H s → Good P w H (exec P.net s l) := by
    intro l
    induction l with
    | nil => intro s _ h; exact h
    | cons p l ih =>
      intro s hi hg
      rw [exec]
      cases h : step P.net s p with
      | none => exact ih s hi hg
      | some a =>
        refine ih a (inv_step P w r hw hi h) (good_step P w r hw H hi hg h ?_)
        intro c hc k hk
        cases step_kind P h with
        | tick hp ht hr h => subst h; exact hg.agrees c hc k hk
        | recv hp ht c0 rr hr v l' hch h => subst h; exact hg.agrees c hc k hk
        | send hp ht c0 rr hr hcap h =>
          subst h
          by_cases hcc : c = c0
          · subst hcc
            have hsuf := hi.suffix p
            rw [hr] at hsuf
            obtain ⟨x0, hx0⟩ := hsuf
            have hm : Op.snd c ∈ P.body p := by rw [← hx0]; simp
            have hwc : w c = p := hw.snd p c hm
            have hlen : (s.hist c).length = (s.q p).t := by
              have := hi.sent c hc
              rw [hwc] at this
              unfold sentBy at this
              rw [hr] at this
              simpa using this
            simp only [upd_self, List.length_append, List.length_singleton] at hk ⊢
            rcases Nat.lt_or_ge k (s.hist c).length with hlt | hge
            · rw [List.getElem?_append_left hlt]; exact hg.agrees c hc k hlt
            · have hk2 : k = (s.hist c).length := by omega
              subst hk2
              have := hH c hc (s.q p).t ht x0 rr (by rw [hwc, hx0])
              rw [hlen, this, hwc, ← hg.data p x0 (by rw [hr, hx0])]
              rw [← hlen]
              simp
          · simp only [upd_ne _ hcc] at hk ⊢
            exact hg.agrees c hc k hk
  have hg := key l P.init (inv_init P w r hw) (good_init P w H)
  refine ⟨hg.agrees, ?_⟩
  intro p hp
  have := hg.data p [] (by rw [hp]; rfl)
  simpa [runOps] using this

/-- **C79.** And a network without circular wait has a solution, which is unique: what it computes in `T` time steps is a function of
its code and initial values, independent of all scheduling. -/
theorem C79_unique_solution [Inhabited V] (P : Prog D V) (w r : Nat → Nat) (hw : Wired P w r)
    (hK : ¬ ∃ K, CircularWait P w K) :
    ∃ H, Solves P w H ∧ ∀ H', Solves P w H' → ∀ c, P.Used c → ∀ t, t < P.T → H' c t = H c t := by
  -- a completed execution
  let l := (List.replicate (work P) (List.range P.n)).flatten
  have hdone := (C77_no_deadlock P w r hw hK).2 (List.replicate (work P) (List.range P.n))
    (fun rd hrd p hp => by rw [List.eq_of_mem_replicate hrd]; exact List.mem_range.2 hp) (by simp)
  have hi := inv_exec P w r hw l
  have hlen : ∀ c, P.Used c → ((exec P.net P.init l).hist c).length = P.T := by
    intro c hc
    have h1 := hi.sent c hc
    have hb := hw.both c hc
    have h2 := hdone (w c) hb.1
    have h3 := hi.top (w c) h2
    rw [h1]
    unfold sentBy
    rw [h3, if_pos hb.2.2.1, h2]
    rfl
  let H : Nat → Nat → V := fun c t => ((exec P.net P.init l).hist c).getD t default
  have hsolves : Solves P w H := by
    have key : ∀ (l' : List Nat) (s : St (PS D) V), Inv P w r s → Good P w H s →
        Agrees P H (exec P.net s l') → Good P w H (exec P.net s l') := by
      intro l'
      induction l' with
      | nil => intro s _ h _; exact h
      | cons p l' ih =>
        intro s hi hg ha
        rw [exec] at ha ⊢
        cases h : step P.net s p with
        | none => rw [h] at ha; exact ih s hi hg ha
        | some a =>
          rw [h] at ha
          refine ih a (inv_step P w r hw hi h) (good_step P w r hw H hi hg h ?_) ha
          intro c hc k hk
          obtain ⟨y, hy⟩ := hist_mono P l' a c
          have := ha c hc k (by simp only [Option.getD_some]; rw [← hy]; simp; omega)
          simp only [Option.getD_some] at this
          rw [← hy, List.getElem?_append_left hk] at this
          exact this
    have hg := key l P.init (inv_init P w r hw) (good_init P w H) (by
      intro c hc k hk
      simp only [H, List.getD_eq_getElem?_getD]
      rw [List.getElem?_eq_getElem hk]
      rfl)
    intro c hc t ht
    exact hg.eqn c hc t (by rw [hlen c hc]; exact ht)
  refine ⟨H, hsolves, ?_⟩
  intro H' hH' c hc t ht
  have h1 := (C79_executions_follow_equations P w r hw H' hH' l).1 c hc t (by rw [hlen c hc]; exact ht)
  have h2 := (C79_executions_follow_equations P w r hw H hsolves l).1 c hc t (by rw [hlen c hc]; exact ht)
  rw [h1] at h2
  exact Option.some.inj h2

end Verif.System
