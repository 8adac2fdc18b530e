import Verif.System.Counts
import Mathlib.Algebra.BigOperators.Group.Finset.Basic
import Mathlib.Algebra.Order.BigOperators.Group.Finset

/-!
# C77: when time-stepped networks deadlock
-/

namespace Verif.System

variable {D V : Type}

open Finset

theorem owned_net (P : Prog D V) (w r : Nat → Nat) (hw : Wired P w r) : Owned P.net w r P.init := by
  intro l
  have hi := inv_exec P w r hw l
  exact ⟨fun p c v q' h => ((owned P w r hw p c _ (hi.suffix p)).1 v q' h).1,
    fun p c k h => ((owned P w r hw p c _ (hi.suffix p)).2 k h).1⟩

/-- If nobody can do a step, either everybody has finished all time steps or there is a circular wait. -/
theorem stuck_circular (P : Prog D V) (w r : Nat → Nat) (hw : Wired P w r) {s : St (PS D) V} (hi : Inv P w r s)
    (hs : Stuck P.net s) (hh : ¬ AllHalted P.net s) : ∃ K, CircularWait P w K := by
  classical
  have hblocked : ∀ p, p < P.n → (s.q p).t < P.T →
      (∃ c l, (s.q p).rest = .snd c :: l ∧ P.cap c ≤ (s.chan c).length) ∨
      (∃ c l, (s.q p).rest = .rcv c :: l ∧ s.chan c = []) := by
    intro p hp ht
    have h := hs p
    unfold step Prog.net at h
    simp only [Prog.view, if_pos (And.intro hp ht)] at h
    cases hr : (s.q p).rest with
    | nil => rw [hr] at h; simp at h
    | cons o l =>
      rw [hr] at h
      cases o with
      | snd c =>
        simp only at h
        split at h
        · cases h
        · exact Or.inl ⟨c, l, rfl, by omega⟩
      | rcv c =>
        simp only at h
        split at h
        · rename_i hc; exact Or.inr ⟨c, l, rfl, hc⟩
        · cases h
  -- a process that has not finished, with the smallest number of completed steps
  have hex : ∃ k, ∃ p, p < P.n ∧ (s.q p).t < P.T ∧ (s.q p).t = k := by
    unfold AllHalted at hh
    push Not at hh
    obtain ⟨p, hp⟩ := hh
    by_cases h : p < P.n ∧ (s.q p).t < P.T
    · exact ⟨_, p, h.1, h.2, rfl⟩
    · exact absurd (by simp only [Prog.net, Prog.view, if_neg h]) hp
  obtain ⟨p0, hp0, ht0, hk0⟩ := Nat.find_spec hex
  have hmin : ∀ p, p < P.n → (s.q p).t < P.T → Nat.find hex ≤ (s.q p).t := by
    intro p hp ht
    exact Nat.find_min' hex ⟨p, hp, ht, rfl⟩
  generalize Nat.find hex = k at hk0 hmin
  -- processes at step `k` wait for a message
  have hwait : ∀ p, p < P.n → (s.q p).t < P.T → (s.q p).t = k → ∃ c l, (s.q p).rest = .rcv c :: l ∧ s.chan c = [] := by
    intro p hp ht hk
    rcases hblocked p hp ht with ⟨c, l, hr, hc⟩ | h
    · exfalso
      have hm : Op.snd c ∈ P.body p := (hi.suffix p).subset (by rw [hr]; simp)
      have hu : P.Used c := ⟨p, hp, Or.inl hm⟩
      have hwc := hw.snd p c hm
      have h1 := hi.sent c hu
      rw [hwc] at h1
      have h2 : sentBy (s.q p) c = k := by unfold sentBy; rw [hr]; simp [hk]
      have h3 := hi.chan c hu
      have h4 := hw.cap c hu
      have h5 := congrArg List.length h3
      rw [List.length_drop] at h5
      have h6 : (s.q (r c)).t ≤ rcvdBy (s.q (r c)) c := by unfold rcvdBy; omega
      have hb := (hw.both c hu).2.1
      have hlt : (s.q (r c)).t < P.T := by omega
      have := hmin (r c) hb hlt
      omega
    · exact h
  refine ⟨fun c => ∃ p l, p < P.n ∧ (s.q p).t < P.T ∧ (s.q p).t = k ∧ (s.q p).rest = .rcv c :: l ∧ s.chan c = [], ?_, ?_⟩
  · obtain ⟨c, l, h1, h2⟩ := hwait p0 hp0 ht0 hk0
    exact ⟨c, p0, l, hp0, ht0, hk0, h1, h2⟩
  · rintro c ⟨p, l, hp, ht, hk, hr, hc⟩
    have hm : Op.rcv c ∈ P.body p := (hi.suffix p).subset (by rw [hr]; simp)
    have hu : P.Used c := ⟨p, hp, Or.inr hm⟩
    have hrc := hw.rcv p c hm
    obtain ⟨hwn, _, hsm, _⟩ := hw.both c hu
    have h3 := hi.chan c hu
    rw [hc] at h3
    have h5 := congrArg List.length h3
    rw [List.length_drop, hrc, List.length_nil] at h5
    have h6 : rcvdBy (s.q p) c = k := by unfold rcvdBy; rw [hr]; simp [hk]
    have h7 := hi.rcvd c hu
    rw [hrc] at h7
    have h1 := hi.sent c hu
    -- the sender is at step `k` too, before its send
    have hlt : (s.q (w c)).t < P.T := by
      have : (s.q (w c)).t ≤ sentBy (s.q (w c)) c := by unfold sentBy; omega
      omega
    have hge := hmin (w c) hwn hlt
    have hsnd : Op.snd c ∈ (s.q (w c)).rest := by
      by_contra hn
      unfold sentBy at h1
      rw [if_neg hn] at h1
      omega
    have hwk : (s.q (w c)).t = k := by
      unfold sentBy at h1
      rw [if_pos hsnd] at h1
      omega
    obtain ⟨c', l', hr', hc'⟩ := hwait (w c) hwn hlt hwk
    refine ⟨hu, c', ⟨w c, l', hwn, hlt, hwk, hr', hc'⟩, ?_⟩
    obtain ⟨x, hx⟩ := hi.suffix (w c)
    rw [hr'] at hx hsnd
    have hin : Op.snd c ∈ l' := by simpa using hsnd
    obtain ⟨y, z, hyz⟩ := List.append_of_mem hin
    exact ⟨x, y, z, by rw [← hx, hyz]⟩

/-- Work left: channel operations and ends of time steps. -/
def measure (P : Prog D V) (s : St (PS D) V) : Nat :=
  ∑ p ∈ range P.n, ((P.T - (s.q p).t) * ((P.body p).length + 1) - ((P.body p).length - (s.q p).rest.length))

theorem suffix_length {r b : List Op} (h : r <:+ b) : r.length ≤ b.length := h.length_le

/-- Every step of a process does some of the work. -/
theorem measure_step (P : Prog D V) (w r : Nat → Nat) {s a : St (PS D) V} {p : Nat} (hi : Inv P w r s)
    (h : step P.net s p = some a) : measure P a + 1 = measure P s := by
  have key : p < P.n → (∀ p', p' ≠ p → a.q p' = s.q p') →
      (P.T - (a.q p).t) * ((P.body p).length + 1) - ((P.body p).length - (a.q p).rest.length) + 1 =
        (P.T - (s.q p).t) * ((P.body p).length + 1) - ((P.body p).length - (s.q p).rest.length) →
      measure P a + 1 = measure P s := by
    intro hp ho he
    unfold measure
    have hm : p ∈ range P.n := mem_range.2 hp
    rw [← add_sum_erase _ _ hm, ← add_sum_erase _ _ hm, ← he]
    have : ∑ x ∈ (range P.n).erase p, ((P.T - (a.q x).t) * ((P.body x).length + 1) - ((P.body x).length - (a.q x).rest.length)) =
        ∑ x ∈ (range P.n).erase p, ((P.T - (s.q x).t) * ((P.body x).length + 1) - ((P.body x).length - (s.q x).rest.length)) := by
      apply sum_congr rfl
      intro x hx
      rw [ho x (mem_erase.1 hx).1]
    rw [this]
    omega
  have hlen := suffix_length (hi.suffix p)
  cases step_kind P h with
  | tick hp ht hr h =>
    subst h
    refine key hp (fun p' hne => by simp only [upd_ne _ hne]) ?_
    simp only [upd_self, hr, List.length_nil]
    obtain ⟨k, hk⟩ : ∃ k, P.T - (s.q p).t = k + 1 := ⟨P.T - (s.q p).t - 1, by omega⟩
    have : P.T - ((s.q p).t + 1) = k := by omega
    rw [this, hk, Nat.add_mul]
    generalize k * ((P.body p).length + 1) = z
    omega
  | send hp ht c l hr hc h =>
    subst h
    refine key hp (fun p' hne => by simp only [upd_ne _ hne]) ?_
    rw [hr] at hlen
    simp only [upd_self, hr, List.length_cons] at hlen ⊢
    obtain ⟨k, hk⟩ : ∃ k, P.T - (s.q p).t = k + 1 := ⟨P.T - (s.q p).t - 1, by omega⟩
    rw [hk, Nat.add_mul]
    generalize k * ((P.body p).length + 1) = z
    omega
  | recv hp ht c l hr v l' hc h =>
    subst h
    refine key hp (fun p' hne => by simp only [upd_ne _ hne]) ?_
    rw [hr] at hlen
    simp only [upd_self, hr, List.length_cons] at hlen ⊢
    obtain ⟨k, hk⟩ : ∃ k, P.T - (s.q p).t = k + 1 := ⟨P.T - (s.q p).t - 1, by omega⟩
    rw [hk, Nat.add_mul]
    generalize k * ((P.body p).length + 1) = z
    omega

/-- Total work of a run: every operation of every time step, and the end of every time step. -/
def work (P : Prog D V) : Nat := ∑ p ∈ range P.n, P.T * ((P.body p).length + 1)

theorem measure_init (P : Prog D V) : measure P P.init = work P := by
  unfold measure work Prog.init
  apply sum_congr rfl
  intro p _
  simp

/-- From every reachable state some schedule, no longer than the work left, ends in a stuck state. -/
theorem reach_stuck (P : Prog D V) (w r : Nat → Nat) (hw : Wired P w r) : ∀ (k : Nat) (s : St (PS D) V), Inv P w r s →
    measure P s = k → ∃ l, l.length ≤ k ∧ Stuck P.net (exec P.net s l) := by
  intro k
  induction k with
  | zero =>
    intro s hi hm
    refine ⟨[], Nat.le_refl _, ?_⟩
    intro p
    cases h : step P.net s p with
    | none => exact h
    | some a => have := measure_step P w r hi h; omega
  | succ k ih =>
    intro s hi hm
    by_cases hst : Stuck P.net s
    · exact ⟨[], by simp, hst⟩
    · unfold Stuck at hst
      push Not at hst
      obtain ⟨p, hp⟩ := hst
      cases h : step P.net s p with
      | none => exact absurd h hp
      | some a =>
        have := measure_step P w r hi h
        obtain ⟨l, hl, hs⟩ := ih a (inv_step P w r hw hi h) (by omega)
        exact ⟨p :: l, by simp; omega, by rw [exec, h]; exact hs⟩

theorem halted_done (P : Prog D V) (p : Nat) (q : PS D) (h : P.view p q = .halt) : ¬ (p < P.n ∧ q.t < P.T) := by
  intro hlt
  unfold Prog.view at h
  rw [if_pos hlt] at h
  split at h <;> simp at h

/-- **C77.** If there is no circular wait, the network never deadlocks: under every schedule, whenever nobody can do a step
everybody has completed all its time steps. And every schedule that lets everybody try often enough gets there: as many rounds as
there are operations, in each of which every process is tried at least once in any order, complete all time steps. -/
theorem C77_no_deadlock (P : Prog D V) (w r : Nat → Nat) (hw : Wired P w r) (hK : ¬ ∃ K, CircularWait P w K) :
    (∀ l, Stuck P.net (exec P.net P.init l) → AllHalted P.net (exec P.net P.init l)) ∧
    (∀ rounds : List (List Nat), (∀ rd ∈ rounds, ∀ p, p < P.n → p ∈ rd) → work P ≤ rounds.length →
      ∀ p, p < P.n → ((exec P.net P.init rounds.flatten).q p).t = P.T) := by
  have h1 : ∀ l, Stuck P.net (exec P.net P.init l) → AllHalted P.net (exec P.net P.init l) := by
    intro l hs
    by_contra hh
    exact hK (stuck_circular P w r hw (inv_exec P w r hw l) hs hh)
  refine ⟨h1, ?_⟩
  intro rounds hr hlen p hp
  obtain ⟨l, hl, hs⟩ := reach_stuck P w r hw _ P.init (inv_init P w r hw) rfl
  rw [measure_init] at hl
  have he := C76_every_fair_schedule_completes P.net w r P.init (owned_net P w r hw) P.n
    (fun p q hp => by simp only [Prog.net, Prog.view]; rw [if_neg (by omega)]) l hs rounds hr (by omega)
  rw [he]
  have hh := h1 l hs p
  have hle := (inv_exec P w r hw l).le p
  by_contra hne
  have hlt : p < P.n ∧ ((exec P.net P.init l).q p).t < P.T := ⟨hp, by omega⟩
  exact halted_done P p _ hh hlt

/-- **C77, converse.** If there is a circular wait, no schedule ever gets a message through one of its channels or completes the
first time step of one of its processes. -/
theorem C77_deadlock (P : Prog D V) (w r : Nat → Nat) (hw : Wired P w r) (K : Nat → Prop) (hK : CircularWait P w K) (l : List Nat) :
    ∀ c, K c → (exec P.net P.init l).hist c = [] ∧ ((exec P.net P.init l).q (w c)).t = 0 := by
  have key : ∀ (l : List Nat) (s : St (PS D) V), Inv P w r s →
      (∀ c, K c → s.hist c = [] ∧ (s.q (w c)).t = 0) →
      ∀ c, K c → (exec P.net s l).hist c = [] ∧ ((exec P.net s l).q (w c)).t = 0 := by
    intro l
    induction l with
    | nil => intro s _ h; exact h
    | cons p l ih =>
      intro s hi h
      rw [exec]
      cases hp : step P.net s p with
      | none => exact ih s hi h
      | some a =>
        refine ih a (inv_step P w r hw hi hp) ?_
        intro c hc
        obtain ⟨hu, c', hc', x, y, z, hb⟩ := hK.2 c hc
        obtain ⟨h1, h2⟩ := h c hc
        -- the sender of `c` still has its receive on `c'` ahead
        have hu' := (hK.2 c' hc').1
        have hr' : r c' = w c := hw.rcv (w c) c' (by rw [hb]; simp)
        have hch : s.chan c' = [] := by rw [hi.chan c' hu', (h c' hc').1]; simp
        have hin : Op.rcv c' ∈ (s.q (w c)).rest := by
          have := hi.rcvd c' hu'
          rw [(h c' hc').1, hr'] at this
          unfold rcvdBy at this
          by_contra hn
          rw [if_neg hn] at this
          simp at this
        have hrest : ∃ x', (s.q (w c)).rest = x' ++ .rcv c' :: (y ++ .snd c :: z) := by
          obtain ⟨u, hu2⟩ := hi.suffix (w c)
          obtain ⟨v1, v2, hv⟩ := List.append_of_mem hin
          have hn := hw.nodup (w c)
          rw [hv, hb] at hu2
          have he : u ++ v1 = x ∧ v2 = y ++ .snd c :: z := by
            have hn2 : (x ++ Op.rcv c' :: (y ++ .snd c :: z)).Nodup := hb ▸ hn
            rw [← List.append_assoc] at hu2
            have h3 := List.nodup_middle.1 hn2
            have hnx : Op.rcv c' ∉ x := fun hx => (List.nodup_cons.1 h3).1 (by simp [hx])
            have h4 := List.nodup_middle.1 (hu2 ▸ hn2)
            have hnu : Op.rcv c' ∉ u ++ v1 := fun hx => (List.nodup_cons.1 h4).1 (by simp [List.mem_append] at hx ⊢; tauto)
            have := List.append_eq_append_iff.1 hu2
            rcases this with ⟨as, h5, h6⟩ | ⟨bs, h5, h6⟩
            · cases as with
              | nil => simp at h5 h6; exact ⟨h5.symm, h6⟩
              | cons b as => simp at h6; exact absurd (by rw [h5, ← h6.1]; simp) hnx
            · cases bs with
              | nil => simp at h5 h6; exact ⟨h5, h6.symm⟩
              | cons b bs => simp at h6; exact absurd (by rw [h5, ← h6.1]; simp) hnu
          exact ⟨v1, by rw [hv, he.2]⟩
        obtain ⟨x', hx'⟩ := hrest
        cases step_kind P hp with
        | tick hpn ht hr ha =>
          subst ha
          refine ⟨h1, ?_⟩
          by_cases he : w c = p
          · subst he; rw [hr] at hx'; simp at hx'
          · simp only [upd_ne _ he]; exact h2
        | send hpn ht c0 rr hr hcap ha =>
          subst ha
          have hcc : c ≠ c0 := by
            rintro rfl
            have hm : Op.snd c ∈ P.body p := (hi.suffix p).subset (by rw [hr]; simp)
            have hwp := hw.snd p c hm
            rw [← hwp] at hr
            -- the send is not at the front: the receive comes first
            rw [hr] at hx'
            have hsuf := hi.suffix (w c)
            rw [hr] at hsuf
            have hn := notMem_of_suffix hsuf (hw.nodup _)
            cases x' with
            | nil => simp at hx'
            | cons b x' =>
              simp only [List.cons_append, List.cons.injEq] at hx'
              exact hn (by rw [hx'.2]; simp)
          refine ⟨by simp only [upd_ne _ hcc]; exact h1, ?_⟩
          by_cases he : w c = p
          · simp only [he, upd_self]; rw [← he]; exact h2
          · simp only [upd_ne _ he]; exact h2
        | recv hpn ht c0 rr hr v l' hcv ha =>
          subst ha
          refine ⟨h1, ?_⟩
          by_cases he : w c = p
          · simp only [he, upd_self]; rw [← he]; exact h2
          · simp only [upd_ne _ he]; exact h2
  exact key l P.init (inv_init P w r hw) (fun c _ => ⟨rfl, rfl⟩)

/-- **C77, iff.** For at least one time step and finitely many processes: the network completes under every sufficiently long
fair schedule exactly if there is no circular wait. -/
theorem C77_deadlock_iff (P : Prog D V) (w r : Nat → Nat) (hw : Wired P w r) (hT : 0 < P.T) :
    (∀ rounds : List (List Nat), (∀ rd ∈ rounds, ∀ p, p < P.n → p ∈ rd) → work P ≤ rounds.length →
      ∀ p, p < P.n → ((exec P.net P.init rounds.flatten).q p).t = P.T) ↔ ¬ ∃ K, CircularWait P w K := by
  constructor
  · rintro h ⟨K, hK⟩
    obtain ⟨c, hc⟩ := hK.1
    have h0 := (C77_deadlock P w r hw K hK (List.replicate (work P) (List.range P.n)).flatten c hc).2
    have hwn := (hw.both c (hK.2 c hc).1).1
    have h1 := h (List.replicate (work P) (List.range P.n)) (fun rd hrd p hp => by
      rw [List.eq_of_mem_replicate hrd]; exact List.mem_range.2 hp) (by simp) (w c) hwn
    omega
  · exact fun h => (C77_no_deadlock P w r hw h).2

/-- **C77, sufficient condition.** Processes that send all their messages of a time step before they receive any (such as
`Dense`, which sends the activation of the previous step first) break every cycle: if the remaining processes can be ordered such
that no message goes from a later or equal to an earlier or equal one, there is no circular wait, however the network is wired. -/
theorem C77_send_first_breaks_cycles (P : Prog D V) (w r : Nat → Nat) (hw : Wired P w r) (sendFirst : Nat → Prop)
    (h1 : ∀ p, sendFirst p → ∀ c c', ¬ Precedes (P.body p) (.rcv c') (.snd c))
    (rank : Nat → Nat) (h2 : ∀ c, P.Used c → ¬ sendFirst (w c) → ¬ sendFirst (r c) → rank (w c) < rank (r c)) :
    ¬ ∃ K, CircularWait P w K := by
  rintro ⟨K, ⟨c0, hc0⟩, hK⟩
  have key : ∀ (k c : Nat), K c → rank (w c) = k → False := by
    intro k
    induction k using Nat.strong_induction_on with
    | _ k ih =>
      intro c hc hk
      obtain ⟨hu, c', hc', hp⟩ := hK c hc
      obtain ⟨hu', c'', hc'', hp'⟩ := hK c' hc'
      have hr : r c' = w c := by
        obtain ⟨x, y, z, hb⟩ := hp
        exact hw.rcv (w c) c' (by rw [hb]; simp)
      have hlt := h2 c' hu' (fun hs => h1 _ hs _ _ hp') (fun hs => h1 _ hs _ _ (by rw [hr]; exact hp))
      rw [hr, hk] at hlt
      exact ih _ hlt c' hc' rfl
  exact key _ c0 hc0 rfl

end Verif.System
