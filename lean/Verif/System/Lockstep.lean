import Verif.System.Deadlock

/-!
# C78: the runtime service keeps process models in lockstep

`LoihiPyRuntimeService` sends the phase command to every process model and then collects a response from every process model
(runtime_services/runtime_service.py:216-236: `_send_pm_cmd`, `_get_pm_resp`), before it sends the next command. A process
model receives the command, runs the phase and sends its response (core/model/py/model.py:207-238, 381-407). Here one phase is
one time step, in which every process model runs the same operations again; which phase comes next (C07) and how phases differ is
not part of this module.
-/

namespace Verif.System

variable {D V : Type}

/-- The wiring of a runtime service `svc` and its process models `pms` with command and response channels. -/
structure Sync (P : Prog D V) (svc : Nat) (pms : List Nat) (cmd resp : Nat → Nat) (ops : Nat → List Op) : Prop where
  svc_lt : svc < P.n
  pms_iff : ∀ p, p ∈ pms ↔ p < P.n ∧ p ≠ svc
  svc_body : P.body svc = pms.map (fun p => Op.snd (cmd p)) ++ pms.map (fun p => Op.rcv (resp p))
  pm_body : ∀ p ∈ pms, P.body p = Op.rcv (cmd p) :: (ops p ++ [Op.snd (resp p)])

/-- **C78.** In lockstep: whatever the scheduling, if a process model has received the command for its time step number `t + 1`
(that is, it has completed `t` steps and started the next one), then every process model of the service has done all operations of
its first `t` time steps. -/
theorem C78_lockstep (P : Prog D V) (w r : Nat → Nat) (hw : Wired P w r) (svc : Nat) (pms : List Nat) (cmd resp : Nat → Nat)
    (ops : Nat → List Op) (hs : Sync P svc pms cmd resp ops) (l : List Nat) (p p' : Nat) (hp : p ∈ pms) (hp' : p' ∈ pms)
    (hstart : Op.rcv (cmd p) ∉ ((exec P.net P.init l).q p).rest) :
    ((exec P.net P.init l).q p).t < ((exec P.net P.init l).q p').t ∨
    ((exec P.net P.init l).q p).t = ((exec P.net P.init l).q p').t ∨
    (((exec P.net P.init l).q p).t = ((exec P.net P.init l).q p').t + 1 ∧ ((exec P.net P.init l).q p').rest = []) := by
  have hi := inv_exec P w r hw l
  generalize exec P.net P.init l = s at hi hstart ⊢
  have hpn := ((hs.pms_iff p).1 hp)
  have hpn' := ((hs.pms_iff p').1 hp')
  have hc : Op.rcv (cmd p) ∈ P.body p := by rw [hs.pm_body p hp]; simp
  have hr' : Op.snd (resp p') ∈ P.body p' := by rw [hs.pm_body p' hp']; simp
  have hcs : Op.snd (cmd p) ∈ P.body svc := by
    rw [hs.svc_body, List.mem_append, List.mem_map]; exact Or.inl ⟨p, hp, rfl⟩
  have hrs : Op.rcv (resp p') ∈ P.body svc := by
    rw [hs.svc_body, List.mem_append, List.mem_map, List.mem_map]; exact Or.inr ⟨p', hp', rfl⟩
  have huc : P.Used (cmd p) := ⟨p, hpn.1, Or.inr hc⟩
  have hur : P.Used (resp p') := ⟨p', hpn'.1, Or.inl hr'⟩
  have e1 : w (cmd p) = svc := hw.snd _ _ hcs
  have e2 : r (cmd p) = p := hw.rcv _ _ hc
  have e3 : w (resp p') = p' := hw.snd _ _ hr'
  have e4 : r (resp p') = svc := hw.rcv _ _ hrs
  have h1 := hi.rcvd _ huc
  have h2 := hi.sent _ huc
  have h3 := hi.rcvd _ hur
  have h4 := hi.sent _ hur
  rw [e1] at h2
  rw [e2] at h1
  rw [e3] at h4
  rw [e4] at h3
  unfold rcvdBy at h1 h3
  unfold sentBy at h2 h4
  rw [if_neg hstart] at h1
  have h5 : (s.q p).t ≤ (s.q svc).t := by
    have : (if Op.snd (cmd p) ∈ (s.q svc).rest then 0 else 1) ≤ 1 := by split <;> omega
    omega
  by_cases hd : Op.snd (resp p') ∈ (s.q p').rest
  · rw [if_pos hd] at h4
    omega
  · rw [if_neg hd] at h4
    have hnil : (s.q p').rest = [] := by
      rcases List.eq_nil_or_concat (s.q p').rest with h | ⟨x, b, h⟩
      · exact h
      · exfalso
        have hsuf := hi.suffix p'
        rw [hs.pm_body p' hp', h] at hsuf
        obtain ⟨y, hy⟩ := hsuf
        have hy2 : (y ++ x) ++ [b] = (Op.rcv (cmd p') :: ops p') ++ [Op.snd (resp p')] := by simpa using hy
        have := (List.append_inj' hy2 rfl).2
        apply hd
        rw [h]
        simp only [List.cons.injEq, and_true] at this
        simp [this]
    have h6 : (s.q p).t ≤ (s.q p').t + 1 := by omega
    rcases Nat.lt_trichotomy (s.q p).t (s.q p').t with h | h | h
    · exact Or.inl h
    · exact Or.inr (Or.inl h)
    · exact Or.inr (Or.inr ⟨by omega, hnil⟩)

/-- **C78.** Adding the runtime service cannot introduce a deadlock: if the operations of the process models alone have no circular
wait, the network with the service and the command and response channels has none. -/
theorem C78_service_adds_no_deadlock (P : Prog D V) (w r : Nat → Nat) (hw : Wired P w r) (svc : Nat) (pms : List Nat)
    (cmd resp : Nat → Nat) (ops : Nat → List Op) (hs : Sync P svc pms cmd resp ops)
    (hK : ¬ ∃ K : Nat → Prop, (∃ c, K c) ∧ ∀ c, K c → P.Used c ∧ ∃ c', K c' ∧ Precedes (ops (w c)) (.rcv c') (.snd c)) :
    ¬ ∃ K, CircularWait P w K := by
  rintro ⟨K, ⟨c0, hc0⟩, hcirc⟩
  -- senders in a circular wait are process models
  have hpm : ∀ c, K c → w c ∈ pms := by
    intro c hc
    obtain ⟨hu, c', hc', x, y, z, hb⟩ := hcirc c hc
    rw [hs.pms_iff]
    refine ⟨(hw.both c hu).1, ?_⟩
    intro he
    rw [he, hs.svc_body] at hb
    have hnot : ∀ (a b : List Nat) (x : List Op), a.map (fun p => Op.snd (cmd p)) ++ b.map (fun p => Op.rcv (resp p)) ≠
        x ++ Op.rcv c' :: (y ++ Op.snd c :: z) := by
      intro a
      induction a with
      | nil =>
        intro b x h
        have : Op.snd c ∈ b.map (fun p => Op.rcv (resp p)) := by
          simp only [List.map_nil, List.nil_append] at h
          rw [h]; simp
        simp at this
      | cons a as ih =>
        intro b x h
        cases x with
        | nil => simp at h
        | cons e x =>
          simp only [List.map_cons, List.cons_append, List.cons.injEq] at h
          exact ih b x h.2
    exact hnot pms pms x hb
  have hstep : ∀ c, K c → ∃ c', K c' ∧ c' ≠ resp (w c') ∧ (c ≠ resp (w c) → Precedes (ops (w c)) (.rcv c') (.snd c)) := by
    intro c hc
    obtain ⟨hu, c', hc', x, y, z, hb⟩ := hcirc c hc
    have hp := hpm c hc
    have hrc : r c' = w c := hw.rcv _ _ (by rw [hb]; simp)
    refine ⟨c', hc', ?_, ?_⟩
    · intro he
      have h1 : Op.rcv c' ∈ P.body svc := by
        rw [hs.svc_body]
        simp only [List.mem_append, List.mem_map]
        exact Or.inr ⟨w c', hpm c' hc', by rw [← he]⟩
      have h2 := hw.rcv _ _ h1
      exact ((hs.pms_iff _).1 hp).2 (by rw [← hrc, h2])
    · intro hne
      rw [hs.pm_body _ hp] at hb
      have hcmd : c' ≠ cmd (w c) := by
        rintro rfl
        have h1 : Op.snd (cmd (w c)) ∈ P.body svc := by
          rw [hs.svc_body]
          simp only [List.mem_append, List.mem_map]
          exact Or.inl ⟨w c, hp, rfl⟩
        exact ((hs.pms_iff _).1 (hpm _ hc')).2 (hw.snd _ _ h1)
      cases x with
      | nil => simp only [List.nil_append, List.cons.injEq, Op.rcv.injEq] at hb; exact absurd hb.1.symm hcmd
      | cons e x =>
        simp only [List.cons_append, List.cons.injEq] at hb
        rcases List.eq_nil_or_concat z with rfl | ⟨z', b, rfl⟩
        · have : ops (w c) ++ [Op.snd (resp (w c))] = (x ++ Op.rcv c' :: y) ++ [Op.snd c] := by simpa using hb.2
          have := (List.append_inj' this rfl).2
          simp only [List.cons.injEq, Op.snd.injEq, and_true] at this
          exact absurd this.symm hne
        · have : ops (w c) ++ [Op.snd (resp (w c))] = (x ++ Op.rcv c' :: (y ++ Op.snd c :: z')) ++ [b] := by simpa using hb.2
          exact ⟨x, y, z', (List.append_inj' this rfl).1⟩
  apply hK
  refine ⟨fun c => K c ∧ c ≠ resp (w c), ?_, ?_⟩
  · obtain ⟨c', h1, h2, _⟩ := hstep c0 hc0
    exact ⟨c', h1, h2⟩
  · rintro c ⟨hc, hne⟩
    obtain ⟨c', h1, h2, h3⟩ := hstep c hc
    exact ⟨(hcirc c hc).1, c', ⟨h1, h2⟩, h3 hne⟩

end Verif.System
