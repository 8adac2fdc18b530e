import Verif.System.Model
import Mathlib.Data.List.Basic

/-!
# C76: results do not depend on scheduling
-/

namespace Verif.System

variable {Q V : Type}

theorem upd_comm {α : Type} (f : Nat → α) {i j : Nat} (h : i ≠ j) (x y : α) :
    upd (upd f i x) j y = upd (upd f j y) i x := by
  funext k; unfold upd; split <;> split <;> simp_all

@[simp] theorem upd_self {α : Type} (f : Nat → α) (i : Nat) (x : α) : upd f i x i = x := by simp [upd]

theorem upd_ne {α : Type} (f : Nat → α) {i j : Nat} (h : j ≠ i) (x : α) : upd f i x j = f j := by simp [upd, h]

theorem upd_upd {α : Type} (f : Nat → α) (i : Nat) (x y : α) : upd (upd f i x) i y = upd f i y := by
  funext k; unfold upd; split <;> simp_all

/-- Two processes that can both do a step can do both steps in either order, with the same result. -/
theorem diamond {n : Net Q V} {w r : Nat → Nat} {s a b : St Q V} (ho : OwnedAt n w r s) {p q : Nat} (hpq : p ≠ q)
    (ha : step n s p = some a) (hb : step n s q = some b) : ∃ c, step n a q = some c ∧ step n b p = some c := by
  unfold step at ha hb
  cases hp : n.view p (s.q p) with
  | halt => rw [hp] at ha; cases ha
  | tau p' =>
    rw [hp] at ha; cases ha
    cases hq : n.view q (s.q q) with
    | halt => rw [hq] at hb; cases hb
    | tau q' =>
      rw [hq] at hb; cases hb
      exact ⟨{ s with q := upd (upd s.q p p') q q' }, by simp [step, upd_ne _ hpq.symm, hq],
        by simp [step, upd_ne _ hpq, hp, upd_comm _ hpq]⟩
    | send c v q' =>
      rw [hq] at hb
      dsimp only at hb
      split at hb
      · rename_i hc
        cases hb
        exact ⟨_, by simp only [step, upd_ne _ hpq.symm, hq, if_pos hc]; rfl,
          by simp [step, upd_ne _ hpq, hp, upd_comm _ hpq]⟩
      · cases hb
    | recv c k =>
      rw [hq] at hb
      dsimp only at hb
      split at hb
      · cases hb
      · rename_i v rest hc
        cases hb
        exact ⟨_, by simp only [step, upd_ne _ hpq.symm, hq, hc]; rfl,
          by simp [step, upd_ne _ hpq, hp, upd_comm _ hpq]⟩
  | send c v p' =>
    rw [hp] at ha
    dsimp only at ha
    split at ha
    · rename_i hc
      cases ha
      have hwc := ho.send _ _ _ _ hp
      cases hq : n.view q (s.q q) with
      | halt => rw [hq] at hb; cases hb
      | tau q' =>
        rw [hq] at hb; cases hb
        refine ⟨_, by simp only [step, upd_ne _ hpq.symm, hq]; rfl, ?_⟩
        simp only [step, upd_ne _ hpq, hp, if_pos hc]
        rw [upd_comm _ hpq.symm]
      | send c' v' q' =>
        rw [hq] at hb
        dsimp only at hb
        have hwc' := ho.send _ _ _ _ hq
        have hcc : c ≠ c' := by rintro rfl; exact hpq (hwc.symm.trans hwc')
        split at hb
        · rename_i hc'
          cases hb
          refine ⟨_, by simp only [step, upd_ne _ hpq.symm, hq, upd_ne _ hcc.symm, if_pos hc']; rfl, ?_⟩
          simp only [step, upd_ne _ hpq, hp, upd_ne _ hcc, if_pos hc]
          rw [upd_comm _ hpq.symm, upd_comm _ hcc.symm, upd_comm _ hcc.symm]
        · cases hb
      | recv c' k =>
        rw [hq] at hb
        dsimp only at hb
        split at hb
        · cases hb
        · rename_i v' rest hc'
          cases hb
          by_cases hcc : c = c'
          · subst hcc
            refine ⟨{ q := upd (upd s.q p p') q (k v'), chan := upd s.chan c (rest ++ [v]),
                      hist := upd s.hist c (s.hist c ++ [v]) }, ?_, ?_⟩
            · simp only [step, upd_ne _ hpq.symm, hq, upd_self, hc', List.cons_append, upd_upd]
            · have hl : rest.length < n.cap c := by rw [hc'] at hc; simp at hc; omega
              simp only [step, upd_ne _ hpq, hp, upd_self, if_pos hl, upd_upd]
              rw [upd_comm _ hpq.symm]
          · refine ⟨_, by simp only [step, upd_ne _ hpq.symm, hq, upd_ne _ (Ne.symm hcc), hc']; rfl, ?_⟩
            simp only [step, upd_ne _ hpq, hp, upd_ne _ hcc, if_pos hc]
            rw [upd_comm _ hpq.symm, upd_comm _ (Ne.symm hcc)]
    · cases ha
  | recv c k =>
    rw [hp] at ha
    dsimp only at ha
    split at ha
    · cases ha
    · rename_i v rest hc
      cases ha
      have hrc := ho.recv _ _ _ hp
      cases hq : n.view q (s.q q) with
      | halt => rw [hq] at hb; cases hb
      | tau q' =>
        rw [hq] at hb; cases hb
        refine ⟨_, by simp only [step, upd_ne _ hpq.symm, hq]; rfl, ?_⟩
        simp only [step, upd_ne _ hpq, hp, hc]
        rw [upd_comm _ hpq.symm]
      | send c' v' q' =>
        rw [hq] at hb
        dsimp only at hb
        split at hb
        · rename_i hc'
          cases hb
          by_cases hcc : c = c'
          · subst hcc
            have hl : rest.length < n.cap c := by rw [hc] at hc'; simp at hc'; omega
            refine ⟨{ q := upd (upd s.q p (k v)) q q', chan := upd s.chan c (rest ++ [v']),
                      hist := upd s.hist c (s.hist c ++ [v']) }, ?_, ?_⟩
            · simp only [step, upd_ne _ hpq.symm, hq, upd_self, if_pos hl, upd_upd]
            · simp only [step, upd_ne _ hpq, hp, upd_self, hc, List.cons_append, upd_upd]
              rw [upd_comm _ hpq.symm]
          · refine ⟨_, by simp only [step, upd_ne _ hpq.symm, hq, upd_ne _ (Ne.symm hcc), if_pos hc']; rfl, ?_⟩
            simp only [step, upd_ne _ hpq, hp, upd_ne _ hcc, hc]
            rw [upd_comm _ hpq.symm, upd_comm _ (Ne.symm hcc)]
        · cases hb
      | recv c' k' =>
        rw [hq] at hb
        dsimp only at hb
        have hrc' := ho.recv _ _ _ hq
        have hcc : c ≠ c' := by rintro rfl; exact hpq (hrc.symm.trans hrc')
        split at hb
        · cases hb
        · rename_i v' rest' hc'
          cases hb
          refine ⟨_, by simp only [step, upd_ne _ hpq.symm, hq, upd_ne _ hcc.symm, hc']; rfl, ?_⟩
          simp only [step, upd_ne _ hpq, hp, upd_ne _ hcc, hc]
          rw [upd_comm _ hpq.symm, upd_comm _ hcc.symm]

theorem Owned.at {n : Net Q V} {w r : Nat → Nat} {s : St Q V} (h : Owned n w r s) : OwnedAt n w r s := h []

theorem Owned.step {n : Net Q V} {w r : Nat → Nat} {s a : St Q V} {p : Nat} (h : Owned n w r s)
    (hp : step n s p = some a) : Owned n w r a := by
  intro l
  have := h (p :: l)
  rw [exec, hp] at this
  exact this

/-- `k` effective steps lead from one state to another. -/
inductive Steps (n : Net Q V) : Nat → St Q V → St Q V → Prop where
  | refl (s) : Steps n 0 s s
  | cons {k s a t p} : step n s p = some a → Steps n k a t → Steps n (k + 1) s t

theorem Steps.zero {n : Net Q V} {s t : St Q V} (h : Steps n 0 s t) : s = t := by
  generalize hk : 0 = k at h
  induction h with
  | refl => rfl
  | cons => omega

theorem Steps.of_stuck {n : Net Q V} {k : Nat} {s t : St Q V} (h : Steps n k s t) (hs : Stuck n s) :
    k = 0 ∧ s = t := by
  induction h with
  | refl => exact ⟨rfl, rfl⟩
  | cons hp _ _ => rw [hs] at hp; cases hp

/-- The first step of a completed execution may be replaced by any other possible step. -/
theorem Steps.swap {n : Net Q V} {w r : Nat → Nat} {k : Nat} {s t : St Q V}
    (h : Steps n k s t) (ho : Owned n w r s) (ht : Stuck n t) : ∀ {p : Nat} {a : St Q V}, step n s p = some a →
    ∃ k', k = k' + 1 ∧ Steps n k' a t := by
  induction h with
  | refl s => intro p a ha; rw [ht p] at ha; cases ha
  | @cons k s b t q hb hr ih =>
    intro p a ha
    by_cases hpq : p = q
    · subst hpq
      rw [ha] at hb
      cases hb
      exact ⟨k, rfl, hr⟩
    · obtain ⟨c, h1, h2⟩ := diamond ho.at hpq ha hb
      obtain ⟨k', rfl, h3⟩ := ih (ho.step hb) ht h2
      exact ⟨k' + 1, rfl, .cons h1 h3⟩

/-- A schedule as effective steps. -/
theorem exec_steps (n : Net Q V) (s : St Q V) (l : List Nat) : ∃ k, k ≤ l.length ∧ Steps n k s (exec n s l) := by
  induction l generalizing s with
  | nil => exact ⟨0, Nat.le_refl _, .refl _⟩
  | cons p l ih =>
    rw [exec]
    cases h : step n s p with
    | none =>
      obtain ⟨k, hk, hs⟩ := ih s
      exact ⟨k, by simp; omega, by simpa using hs⟩
    | some a =>
      obtain ⟨k, hk, hs⟩ := ih a
      exact ⟨k + 1, by simp; omega, .cons h (by simpa using hs)⟩

/-- Any partial execution extends to the completed one. -/
theorem Steps.extend {n : Net Q V} {w r : Nat → Nat} {j : Nat} {s a : St Q V}
    (h : Steps n j s a) (ho : Owned n w r s) : ∀ {k : Nat} {t : St Q V}, Steps n k s t → Stuck n t →
    ∃ k', k = j + k' ∧ Steps n k' a t := by
  induction h with
  | refl s => intro k t hk ht; exact ⟨k, by omega, hk⟩
  | @cons j s b a p hb hr ih =>
    intro k t hk ht
    obtain ⟨k1, rfl, h1⟩ := hk.swap ho ht hb
    obtain ⟨k2, rfl, h2⟩ := ih (ho.step hb) h1 ht
    exact ⟨k2, by omega, h2⟩

/-- **C76.** If two schedules both run until nobody can do a step, they end in the same state: every process is in the
same state, every channel holds the same messages and carried the same messages in the same order. -/
theorem C76_schedule_independent (n : Net Q V) (w r : Nat → Nat) (s : St Q V) (ho : Owned n w r s) (l1 l2 : List Nat)
    (h1 : Stuck n (exec n s l1)) (h2 : Stuck n (exec n s l2)) : exec n s l1 = exec n s l2 := by
  obtain ⟨k1, _, s1⟩ := exec_steps n s l1
  obtain ⟨k2, _, s2⟩ := exec_steps n s l2
  obtain ⟨k, _, hk⟩ := s1.extend ho s2 h2
  exact (hk.of_stuck h1).2

/-- **C76.** If one schedule completes, every schedule that lets every process try often enough does: with processes
numbered below `m`, a schedule made of as many rounds as the completing one is long, each round listing every
process in any order, ends in the same state. -/
theorem C76_every_fair_schedule_completes (n : Net Q V) (w r : Nat → Nat) (s : St Q V) (ho : Owned n w r s) (m : Nat)
    (hm : ∀ p q, m ≤ p → n.view p q = .halt) (l : List Nat) (hl : Stuck n (exec n s l))
    (rounds : List (List Nat)) (hr : ∀ rd ∈ rounds, ∀ p, p < m → p ∈ rd) (hlen : l.length ≤ rounds.length) :
    exec n s rounds.flatten = exec n s l := by
  obtain ⟨k0, hk0, s0⟩ := exec_steps n s l
  have happ : ∀ (a b : List Nat) (s : St Q V), exec n s (a ++ b) = exec n (exec n s a) b := by
    intro a
    induction a with
    | nil => intro b s; rfl
    | cons p a ih => intro b s; simp only [List.cons_append, exec]; exact ih _ _
  have key : ∀ (rounds : List (List Nat)) (k : Nat) (s t : St Q V), (∀ rd ∈ rounds, ∀ p, p < m → p ∈ rd) →
      Owned n w r s → Steps n k s t → Stuck n t → k ≤ rounds.length → exec n s rounds.flatten = t := by
    intro rounds
    induction rounds with
    | nil =>
      intro k s t _ _ hs _ hk
      simp only [List.length_nil] at hk
      have : k = 0 := by omega
      subst this
      exact hs.zero
    | cons rd rounds ih =>
      intro k s t hrd ho hs ht hk
      rw [List.flatten_cons, happ]
      obtain ⟨j, hj, sj⟩ := exec_steps n s rd
      obtain ⟨k', rfl, s'⟩ := sj.extend ho hs ht
      refine ih k' _ t (fun x hx => hrd x (by simp [hx])) (fun l => by rw [← happ]; exact ho _) s' ht ?_
      simp only [List.length_cons] at hk
      by_cases h0 : j = 0
      · -- nobody moved in this round, so the state is stuck
        subst h0
        have hfix : ∀ (rd : List Nat), exec n s rd = s → ∀ p ∈ rd, Steps n 0 s (exec n s rd) →
            (∀ j, Steps n j s (exec n s rd) → j = 0) → step n s p = none := by
          intro rd
          induction rd with
          | nil => intro _ p hp; simp at hp
          | cons q rd ihr =>
            intro he p hp h00 huniq
            cases hq : step n s q with
            | some a =>
              exfalso
              obtain ⟨j, _, sa⟩ := exec_steps n a rd
              have : exec n s (q :: rd) = exec n a rd := by simp [exec, hq]
              have := huniq (j + 1) (by rw [this]; exact .cons hq sa)
              omega
            | none =>
              have e : exec n s (q :: rd) = exec n s rd := by simp [exec, hq]
              rcases List.mem_cons.1 hp with rfl | hp
              · exact hq
              · exact ihr (e ▸ he) p hp (e ▸ h00) (fun j hj => huniq j (by rw [e]; exact hj))
        have hst : Stuck n s := by
          have he : exec n s rd = s := sj.zero.symm
          intro p
          by_cases hp : p < m
          · refine hfix rd he p (hrd rd (by simp) p hp) sj ?_
            intro j hj
            rw [he] at hj
            obtain ⟨k2, hk2, _⟩ := hj.extend ho hs ht
            obtain ⟨k3, hk3, s3⟩ := hj.extend ho hs ht
            obtain ⟨k4, hk4, s4⟩ := (Steps.refl (n := n) s).extend ho hs ht
            -- lengths of executions from `s` to the stuck state are unique
            have huniq : ∀ {a b : Nat}, Steps n a s t → Steps n b s t → a = b := by
              intro a b ha hb
              obtain ⟨c, hc, hs⟩ := ha.extend ho hb ht
              have := (hs.of_stuck ht).1
              omega
            have := huniq s3 hs
            omega
          · simp only [step, hm p (s.q p) (by omega)]
        have he : exec n s rd = s := sj.zero.symm
        rw [he] at s'
        have := (s'.of_stuck hst).1
        omega
      · omega
  exact key rounds k0 s _ hr ho s0 hl (by omega)

/-- **C76.** No schedule can make more progress than a completing one: every state reached on the way still leads to
the same final state. -/
theorem C76_no_schedule_diverges (n : Net Q V) (w r : Nat → Nat) (s : St Q V) (ho : Owned n w r s) (l l' : List Nat)
    (hl : Stuck n (exec n s l)) : ∃ l'', exec n (exec n s l') l'' = exec n s l := by
  obtain ⟨k0, _, s0⟩ := exec_steps n s l
  obtain ⟨j, _, sj⟩ := exec_steps n s l'
  obtain ⟨k', _, s'⟩ := sj.extend ho s0 hl
  have : ∀ {k : Nat} {a t : St Q V}, Steps n k a t → ∃ l, exec n a l = t := by
    intro k a t h
    induction h with
    | refl s => exact ⟨[], rfl⟩
    | @cons k s a t p hp _ ih =>
      obtain ⟨l, hl⟩ := ih
      exact ⟨p :: l, by simp [exec, hp, hl]⟩
  exact this s'

end Verif.System
