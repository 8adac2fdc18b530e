import Verif.EndToEnd.Access

/-!
# C96: what a user sees is what the calls mean
-/

namespace Verif.EndToEnd

open Verif.System

variable {S V W : Type}

/-! ### Channels have one sender and one receiver -/

def wr (y : Sys S V W) (src : Nat → Nat) (c : Nat) : Nat :=
  if c % 5 = 0 then 2 * src (c / 5) + 2 else if c % 5 = 1 then 2 * y.svc (c / 5) + 1 else if c % 5 = 2 then 2 * (c / 5) + 2
  else if c % 5 = 3 then 0 else 2 * (c / 5) + 1

def rd (y : Sys S V W) (dst : Nat → Nat) (c : Nat) : Nat :=
  if c % 5 = 0 then 2 * dst (c / 5) + 2 else if c % 5 = 1 then 2 * (c / 5) + 2 else if c % 5 = 2 then 2 * y.svc (c / 5) + 1
  else if c % 5 = 3 then 2 * (c / 5) + 1 else 0

section
variable (y : Sys S V W) (src dst : Nat → Nat)

theorem wr_data (c : Nat) : wr y src (dataCh c) = 2 * src c + 2 := by
  unfold wr; rw [if_pos (dataCh_mod c), dataCh_div]
theorem rd_data (c : Nat) : rd y dst (dataCh c) = 2 * dst c + 2 := by
  unfold rd; rw [if_pos (dataCh_mod c), dataCh_div]
theorem wr_cmd (p : Nat) : wr y src (cmdCh p) = 2 * y.svc p + 1 := by
  have h1 : cmdCh p % 5 = 1 := by unfold cmdCh; omega
  have h2 : cmdCh p / 5 = p := by unfold cmdCh; omega
  unfold wr; rw [h1, h2]; simp
theorem rd_cmd (p : Nat) : rd y dst (cmdCh p) = 2 * p + 2 := by
  have h1 : cmdCh p % 5 = 1 := by unfold cmdCh; omega
  have h2 : cmdCh p / 5 = p := by unfold cmdCh; omega
  unfold rd; rw [h1, h2]; simp
theorem wr_rsp (p : Nat) : wr y src (rspCh p) = 2 * p + 2 := by
  have h1 : rspCh p % 5 = 2 := by unfold rspCh; omega
  have h2 : rspCh p / 5 = p := by unfold rspCh; omega
  unfold wr; rw [h1, h2]; simp
theorem rd_rsp (p : Nat) : rd y dst (rspCh p) = 2 * y.svc p + 1 := by
  have h1 : rspCh p % 5 = 2 := by unfold rspCh; omega
  have h2 : rspCh p / 5 = p := by unfold rspCh; omega
  unfold rd; rw [h1, h2]; simp
theorem wr_to (i : Nat) : wr y src (toSvc i) = 0 := by
  have h1 : toSvc i % 5 = 3 := by unfold toSvc; omega
  unfold wr; rw [h1]; simp
theorem rd_to (i : Nat) : rd y dst (toSvc i) = 2 * i + 1 := by
  have h1 : toSvc i % 5 = 3 := by unfold toSvc; omega
  have h2 : toSvc i / 5 = i := by unfold toSvc; omega
  unfold rd; rw [h1, h2]; simp
theorem wr_from (i : Nat) : wr y src (fromSvc i) = 2 * i + 1 := by
  have h1 : fromSvc i % 5 = 4 := by unfold fromSvc; omega
  have h2 : fromSvc i / 5 = i := by unfold fromSvc; omega
  unfold wr; rw [h1, h2]; simp
theorem rd_from (i : Nat) : rd y dst (fromSvc i) = 0 := by
  have h1 : fromSvc i % 5 = 4 := by unfold fromSvc; omega
  unfold rd; rw [h1]; simp
end

/-- The models a service is dealing with are its own. -/
def SvcOk (y : Sys S V W) (i : Nat) : SvcPc V W → Prop
  | .sendPh _ l _ _ | .collect l _ _ | .stopSend l | .stopWait l => ∀ p ∈ l, p ∈ y.pms i
  | .getX p | .getReq p _ | .getNum p | .getNumRelay p _ | .getItem p _ | .getRelay p _ _ => p ∈ y.pms i
  | .setX p | .setReq p _ | .setNum p | .setNumRelay p _ | .setItem p _ | .setRelay p _ _ | .setRsp p => p ∈ y.pms i
  | _ => True

theorem svc_ok {y : Sys S V W} {src dst : Nat → Nat} (hw : WF y src dst) {i : Nat} {s : SvcSt V W} (h : SvcOk y i s.pc) :
    (∀ s', svcView y i s = .tau s' → SvcOk y i s'.pc) ∧
    (∀ c v s', svcView y i s = .send c v s' → wr y src c = 2 * i + 1 ∧ SvcOk y i s'.pc) ∧
    (∀ c k, svcView y i s = .recv c k → rd y dst c = 2 * i + 1 ∧ ∀ v, SvcOk y i (k v).pc) := by
  have hsv : ∀ p ∈ y.pms i, y.svc p = i := fun p hp => (((hw.pms i).2 p).1 hp).2
  obtain ⟨pc, f⟩ := s
  dsimp only at h
  cases pc with
  | idle =>
    refine ⟨by intro s' h; simp [svcView] at h, by intro c v s' h; simp [svcView] at h, ?_⟩
    intro c k hk
    simp only [svcView, Act.recv.injEq] at hk
    obtain ⟨rfl, rfl⟩ := hk
    refine ⟨rd_to y dst i, ?_⟩
    intro v
    cases v <;> simp [SvcOk]
  | top n cur =>
    refine ⟨?_, by intro c v s' h; simp [svcView] at h, by intro c k h; simp [svcView] at h⟩
    intro s' hk
    simp only [svcView, Act.tau.injEq] at hk
    subst hk
    simp [SvcOk]
  | sendPh ph l n cur =>
    cases l with
    | nil =>
      refine ⟨?_, by intro c v s' h; simp [svcView] at h, by intro c k h; simp [svcView] at h⟩
      intro s' hk
      simp only [svcView, Act.tau.injEq] at hk
      subst hk
      dsimp only
      split <;> simp [SvcOk]
    | cons p l =>
      refine ⟨by intro s' h; simp [svcView] at h, ?_, by intro c k h; simp [svcView] at h⟩
      intro c v s' hk
      simp only [svcView, Act.send.injEq] at hk
      obtain ⟨rfl, rfl, rfl⟩ := hk
      exact ⟨by rw [wr_cmd, hsv p (h p (by simp))], fun q hq => h q (by simp [hq])⟩
  | collect l n cur =>
    cases l with
    | nil =>
      refine ⟨?_, by intro c v s' h; simp [svcView] at h, by intro c k h; simp [svcView] at h⟩
      intro s' hk
      simp only [svcView, Act.tau.injEq] at hk
      subst hk
      simp [SvcOk]
    | cons p l =>
      refine ⟨by intro s' h; simp [svcView] at h, by intro c v s' h; simp [svcView] at h, ?_⟩
      intro c k hk
      simp only [svcView, Act.recv.injEq] at hk
      obtain ⟨rfl, rfl⟩ := hk
      exact ⟨by rw [rd_rsp, hsv p (h p (by simp))], fun v q hq => h q (by simp [hq])⟩
  | runDone =>
    refine ⟨by intro s' h; simp [svcView] at h, ?_, by intro c k h; simp [svcView] at h⟩
    intro c v s' hk
    simp only [svcView, Act.send.injEq] at hk
    obtain ⟨rfl, rfl, rfl⟩ := hk
    exact ⟨wr_from y src i, trivial⟩
  | getP =>
    refine ⟨by intro s' h; simp [svcView] at h, by intro c v s' h; simp [svcView] at h, ?_⟩
    intro c k hk
    simp only [svcView, Act.recv.injEq] at hk
    obtain ⟨rfl, rfl⟩ := hk
    refine ⟨rd_to y dst i, ?_⟩
    intro v
    cases v with
    | num p =>
      dsimp only
      split
      · assumption
      · trivial
    | _ => simp [SvcOk]
  | getX p =>
    refine ⟨by intro s' h; simp [svcView] at h, by intro c v s' h; simp [svcView] at h, ?_⟩
    intro c k hk
    simp only [svcView, Act.recv.injEq] at hk
    obtain ⟨rfl, rfl⟩ := hk
    exact ⟨rd_to y dst i, fun v => h⟩
  | getReq p l =>
    cases l with
    | nil =>
      refine ⟨?_, by intro c v s' h; simp [svcView] at h, by intro c k h; simp [svcView] at h⟩
      intro s' hk
      simp only [svcView, Act.tau.injEq] at hk
      subst hk
      exact h
    | cons m l =>
      refine ⟨by intro s' h; simp [svcView] at h, ?_, by intro c k h; simp [svcView] at h⟩
      intro c v s' hk
      simp only [svcView, Act.send.injEq] at hk
      obtain ⟨rfl, rfl, rfl⟩ := hk
      exact ⟨by rw [wr_cmd, hsv p h], h⟩
  | getNum p =>
    refine ⟨by intro s' h; simp [svcView] at h, by intro c v s' h; simp [svcView] at h, ?_⟩
    intro c k hk
    simp only [svcView, Act.recv.injEq] at hk
    obtain ⟨rfl, rfl⟩ := hk
    refine ⟨by rw [rd_rsp, hsv p h], ?_⟩
    intro v
    cases v <;> first | exact h | trivial
  | getNumRelay p j =>
    refine ⟨by intro s' h; simp [svcView] at h, ?_, by intro c k h; simp [svcView] at h⟩
    intro c v s' hk
    simp only [svcView, Act.send.injEq] at hk
    obtain ⟨rfl, rfl, rfl⟩ := hk
    exact ⟨wr_from y src i, h⟩
  | getItem p j =>
    cases j with
    | zero =>
      refine ⟨?_, by intro c v s' h; simp [svcView] at h, by intro c k h; simp [svcView] at h⟩
      intro s' hk
      simp only [svcView, Act.tau.injEq] at hk
      subst hk
      trivial
    | succ j =>
      refine ⟨by intro s' h; simp [svcView] at h, by intro c v s' h; simp [svcView] at h, ?_⟩
      intro c k hk
      simp only [svcView, Act.recv.injEq] at hk
      obtain ⟨rfl, rfl⟩ := hk
      exact ⟨by rw [rd_rsp, hsv p h], fun v => h⟩
  | getRelay p j m =>
    refine ⟨by intro s' h; simp [svcView] at h, ?_, by intro c k h; simp [svcView] at h⟩
    intro c v s' hk
    simp only [svcView, Act.send.injEq] at hk
    obtain ⟨rfl, rfl, rfl⟩ := hk
    exact ⟨wr_from y src i, h⟩
  | setP =>
    refine ⟨by intro s' h; simp [svcView] at h, by intro c v s' h; simp [svcView] at h, ?_⟩
    intro c k hk
    simp only [svcView, Act.recv.injEq] at hk
    obtain ⟨rfl, rfl⟩ := hk
    refine ⟨rd_to y dst i, ?_⟩
    intro v
    cases v with
    | num p =>
      dsimp only
      split
      · assumption
      · trivial
    | _ => simp [SvcOk]
  | setX p =>
    refine ⟨by intro s' h; simp [svcView] at h, by intro c v s' h; simp [svcView] at h, ?_⟩
    intro c k hk
    simp only [svcView, Act.recv.injEq] at hk
    obtain ⟨rfl, rfl⟩ := hk
    exact ⟨rd_to y dst i, fun v => h⟩
  | setReq p l =>
    cases l with
    | nil =>
      refine ⟨?_, by intro c v s' h; simp [svcView] at h, by intro c k h; simp [svcView] at h⟩
      intro s' hk
      simp only [svcView, Act.tau.injEq] at hk
      subst hk
      exact h
    | cons m l =>
      refine ⟨by intro s' h; simp [svcView] at h, ?_, by intro c k h; simp [svcView] at h⟩
      intro c v s' hk
      simp only [svcView, Act.send.injEq] at hk
      obtain ⟨rfl, rfl, rfl⟩ := hk
      exact ⟨by rw [wr_cmd, hsv p h], h⟩
  | setNum p =>
    refine ⟨by intro s' h; simp [svcView] at h, by intro c v s' h; simp [svcView] at h, ?_⟩
    intro c k hk
    simp only [svcView, Act.recv.injEq] at hk
    obtain ⟨rfl, rfl⟩ := hk
    refine ⟨rd_to y dst i, ?_⟩
    intro v
    cases v <;> first | exact h | trivial
  | setNumRelay p j =>
    refine ⟨by intro s' h; simp [svcView] at h, ?_, by intro c k h; simp [svcView] at h⟩
    intro c v s' hk
    simp only [svcView, Act.send.injEq] at hk
    obtain ⟨rfl, rfl, rfl⟩ := hk
    exact ⟨by rw [wr_cmd, hsv p h], h⟩
  | setItem p j =>
    cases j with
    | zero =>
      refine ⟨?_, by intro c v s' h; simp [svcView] at h, by intro c k h; simp [svcView] at h⟩
      intro s' hk
      simp only [svcView, Act.tau.injEq] at hk
      subst hk
      exact h
    | succ j =>
      refine ⟨by intro s' h; simp [svcView] at h, by intro c v s' h; simp [svcView] at h, ?_⟩
      intro c k hk
      simp only [svcView, Act.recv.injEq] at hk
      obtain ⟨rfl, rfl⟩ := hk
      exact ⟨rd_to y dst i, fun v => h⟩
  | setRelay p j m =>
    refine ⟨by intro s' h; simp [svcView] at h, ?_, by intro c k h; simp [svcView] at h⟩
    intro c v s' hk
    simp only [svcView, Act.send.injEq] at hk
    obtain ⟨rfl, rfl, rfl⟩ := hk
    exact ⟨by rw [wr_cmd, hsv p h], h⟩
  | setRsp p =>
    refine ⟨by intro s' h; simp [svcView] at h, by intro c v s' h; simp [svcView] at h, ?_⟩
    intro c k hk
    simp only [svcView, Act.recv.injEq] at hk
    obtain ⟨rfl, rfl⟩ := hk
    exact ⟨by rw [rd_rsp, hsv p h], fun v => trivial⟩
  | setRspRelay m =>
    refine ⟨by intro s' h; simp [svcView] at h, ?_, by intro c k h; simp [svcView] at h⟩
    intro c v s' hk
    simp only [svcView, Act.send.injEq] at hk
    obtain ⟨rfl, rfl, rfl⟩ := hk
    exact ⟨wr_from y src i, trivial⟩
  | stopSend l =>
    cases l with
    | nil =>
      refine ⟨?_, by intro c v s' h; simp [svcView] at h, by intro c k h; simp [svcView] at h⟩
      intro s' hk
      simp only [svcView, Act.tau.injEq] at hk
      subst hk
      exact fun p hp => hp
    | cons p l =>
      refine ⟨by intro s' h; simp [svcView] at h, ?_, by intro c k h; simp [svcView] at h⟩
      intro c v s' hk
      simp only [svcView, Act.send.injEq] at hk
      obtain ⟨rfl, rfl, rfl⟩ := hk
      exact ⟨by rw [wr_cmd, hsv p (h p (by simp))], fun q hq => h q (by simp [hq])⟩
  | stopWait l =>
    cases l with
    | nil =>
      refine ⟨?_, by intro c v s' h; simp [svcView] at h, by intro c k h; simp [svcView] at h⟩
      intro s' hk
      simp only [svcView, Act.tau.injEq] at hk
      subst hk
      trivial
    | cons p l =>
      refine ⟨by intro s' h; simp [svcView] at h, by intro c v s' h; simp [svcView] at h, ?_⟩
      intro c k hk
      simp only [svcView, Act.recv.injEq] at hk
      obtain ⟨rfl, rfl⟩ := hk
      refine ⟨by rw [rd_rsp, hsv p (h p (by simp))], ?_⟩
      intro v
      cases v <;> first | exact fun q hq => h q (by simp [hq]) | trivial
  | stopDone =>
    refine ⟨by intro s' h; simp [svcView] at h, ?_, by intro c k h; simp [svcView] at h⟩
    intro c v s' hk
    simp only [svcView, Act.send.injEq] at hk
    obtain ⟨rfl, rfl, rfl⟩ := hk
    exact ⟨wr_from y src i, trivial⟩
  | dead => exact ⟨by intro s' h; simp [svcView] at h, by intro c v s' h; simp [svcView] at h, by intro c k h; simp [svcView] at h⟩
  | failed => exact ⟨by intro s' h; simp [svcView] at h, by intro c v s' h; simp [svcView] at h, by intro c k h; simp [svcView] at h⟩

/-- The operations a model is about to do are its own. -/
def MdlOk (y : Sys S V W) (p : Nat) : MdlPc V W → Prop
  | .spk l => ∀ o ∈ l, o ∈ y.body p
  | _ => True

theorem mdl_ok {y : Sys S V W} {src dst : Nat → Nat} (hw : WF y src dst) {p : Nat} (hp : p < y.n) {m : MdlSt S V W} (h : MdlOk y p m.pc) :
    (∀ m', mdlView y p m = .tau m' → MdlOk y p m'.pc) ∧
    (∀ c v m', mdlView y p m = .send c v m' → wr y src c = 2 * p + 2 ∧ MdlOk y p m'.pc) ∧
    (∀ c k, mdlView y p m = .recv c k → rd y dst c = 2 * p + 2 ∧ ∀ v, MdlOk y p (k v).pc) := by
  obtain ⟨pc, d⟩ := m
  dsimp only at h
  cases pc with
  | idle =>
    refine ⟨by intro s' h; simp [mdlView] at h, by intro c v s' h; simp [mdlView] at h, ?_⟩
    intro c k hk
    simp only [mdlView, Act.recv.injEq] at hk
    obtain ⟨rfl, rfl⟩ := hk
    refine ⟨rd_cmd y dst p, ?_⟩
    intro v
    cases v with
    | phase ph => cases ph <;> first | trivial | exact fun o ho => ho
    | _ => trivial
  | spk l =>
    cases l with
    | nil =>
      refine ⟨?_, by intro c v s' h; simp [mdlView] at h, by intro c k h; simp [mdlView] at h⟩
      intro s' hk
      simp only [mdlView, Act.tau.injEq] at hk
      subst hk
      trivial
    | cons o l =>
      cases o with
      | snd c =>
        refine ⟨by intro s' h; simp [mdlView] at h, ?_, by intro c k h; simp [mdlView] at h⟩
        intro c' v s' hk
        simp only [mdlView, Act.send.injEq] at hk
        obtain ⟨rfl, rfl, rfl⟩ := hk
        exact ⟨by rw [wr_data, (hw.snd p c hp (h _ (by simp))).1], fun q hq => h q (by simp [hq])⟩
      | rcv c =>
        refine ⟨by intro s' h; simp [mdlView] at h, by intro c v s' h; simp [mdlView] at h, ?_⟩
        intro c' k hk
        simp only [mdlView, Act.recv.injEq] at hk
        obtain ⟨rfl, rfl⟩ := hk
        refine ⟨by rw [rd_data, (hw.rcv p c hp (h _ (by simp))).1], ?_⟩
        intro v
        cases v <;> first | exact fun q hq => h q (by simp [hq]) | trivial
  | sending l =>
    cases l with
    | nil =>
      refine ⟨?_, by intro c v s' h; simp [mdlView] at h, by intro c k h; simp [mdlView] at h⟩
      intro s' hk
      simp only [mdlView, Act.tau.injEq] at hk
      subst hk
      trivial
    | cons m l =>
      refine ⟨by intro s' h; simp [mdlView] at h, ?_, by intro c k h; simp [mdlView] at h⟩
      intro c' v s' hk
      simp only [mdlView, Act.send.injEq] at hk
      obtain ⟨rfl, rfl, rfl⟩ := hk
      exact ⟨wr_rsp y src p, trivial⟩
  | getX =>
    refine ⟨by intro s' h; simp [mdlView] at h, by intro c v s' h; simp [mdlView] at h, ?_⟩
    intro c k hk
    simp only [mdlView, Act.recv.injEq] at hk
    obtain ⟨rfl, rfl⟩ := hk
    exact ⟨rd_cmd y dst p, fun v => by cases v <;> trivial⟩
  | setX =>
    refine ⟨by intro s' h; simp [mdlView] at h, by intro c v s' h; simp [mdlView] at h, ?_⟩
    intro c k hk
    simp only [mdlView, Act.recv.injEq] at hk
    obtain ⟨rfl, rfl⟩ := hk
    exact ⟨rd_cmd y dst p, fun v => by cases v <;> trivial⟩
  | setNum x =>
    refine ⟨by intro s' h; simp [mdlView] at h, by intro c v s' h; simp [mdlView] at h, ?_⟩
    intro c k hk
    simp only [mdlView, Act.recv.injEq] at hk
    obtain ⟨rfl, rfl⟩ := hk
    exact ⟨rd_cmd y dst p, fun v => by cases v <;> trivial⟩
  | setItems x j l =>
    by_cases hc : j < y.vsize p x ∧ l ≠ 0
    · refine ⟨?_, ?_, ?_⟩
      · intro s' h; simp only [mdlView, if_pos hc] at h; cases h
      · intro c v s' h; simp only [mdlView, if_pos hc] at h; cases h
      · intro c k hk
        simp only [mdlView, if_pos hc, Act.recv.injEq] at hk
        obtain ⟨rfl, rfl⟩ := hk
        exact ⟨rd_cmd y dst p, fun v => by cases v <;> trivial⟩
    · refine ⟨?_, ?_, ?_⟩
      · intro s' h; simp only [mdlView, if_neg hc] at h; cases h
      · intro c v s' hk
        simp only [mdlView, if_neg hc, Act.send.injEq] at hk
        obtain ⟨rfl, rfl, rfl⟩ := hk
        exact ⟨wr_rsp y src p, trivial⟩
      · intro c k h; simp only [mdlView, if_neg hc] at h; cases h
  | updating =>
    refine ⟨?_, by intro c v s' h; simp [mdlView] at h, by intro c k h; simp [mdlView] at h⟩
    intro s' hk
    simp only [mdlView, Act.tau.injEq] at hk
    subst hk
    trivial
  | stopping =>
    refine ⟨by intro s' h; simp [mdlView] at h, ?_, by intro c k h; simp [mdlView] at h⟩
    intro c' v s' hk
    simp only [mdlView, Act.send.injEq] at hk
    obtain ⟨rfl, rfl, rfl⟩ := hk
    exact ⟨wr_rsp y src p, trivial⟩
  | dead => exact ⟨by intro s' h; simp [mdlView] at h, by intro c v s' h; simp [mdlView] at h, by intro c k h; simp [mdlView] at h⟩
  | failed => exact ⟨by intro s' h; simp [mdlView] at h, by intro c v s' h; simp [mdlView] at h, by intro c k h; simp [mdlView] at h⟩

theorem host_ok (y : Sys S V W) (src dst : Nat → Nat) (h : HostSt V W) :
    (∀ c v h', hostView y h = .send c v h' → wr y src c = 0) ∧ (∀ c k, hostView y h = .recv c k → rd y dst c = 0) := by
  obtain ⟨pc, calls, b, log⟩ := h
  constructor
  · intro c v h' hk
    unfold hostView at hk
    dsimp only at hk
    split at hk
    case h_1 => split at hk <;> first | cases hk | (split at hk <;> cases hk)
    all_goals first | (cases hk; done) | skip
    all_goals
      simp only [Act.send.injEq] at hk
      obtain ⟨rfl, _, _⟩ := hk
      exact wr_to y src _
  · intro c k hk
    unfold hostView at hk
    dsimp only at hk
    split at hk
    case h_1 => split at hk <;> first | cases hk | (split at hk <;> cases hk)
    all_goals first | (cases hk; done) | skip
    all_goals
      simp only [Act.recv.injEq] at hk
      obtain ⟨rfl, _⟩ := hk
      exact rd_from y dst _

/-- What is known about the state of process `a`. -/
def Ok (y : Sys S V W) (a : Nat) : Proc S V W → Prop
  | .host _ => True
  | .svc s => SvcOk y (a / 2) s.pc
  | .mdl m => MdlOk y (a / 2 - 1) m.pc

theorem mapAct_tau {A B M : Type} {f : A → B} {x : Act A M} {b : B} (h : mapAct f x = .tau b) : ∃ a, x = .tau a ∧ f a = b := by
  cases x <;> simp [mapAct] at h
  exact ⟨_, rfl, h⟩

theorem mapAct_send {A B M : Type} {f : A → B} {x : Act A M} {c : Nat} {v : M} {b : B} (h : mapAct f x = .send c v b) :
    ∃ a, x = .send c v a ∧ f a = b := by
  cases x <;> simp [mapAct] at h
  obtain ⟨rfl, rfl, h⟩ := h
  exact ⟨_, rfl, h⟩

theorem mapAct_recv {A B M : Type} {f : A → B} {x : Act A M} {c : Nat} {k : M → B} (h : mapAct f x = .recv c k) :
    ∃ k', x = .recv c k' ∧ ∀ v, f (k' v) = k v := by
  cases x <;> simp [mapAct] at h
  obtain ⟨rfl, rfl⟩ := h
  exact ⟨_, rfl, fun v => rfl⟩

theorem view_ok {y : Sys S V W} {src dst : Nat → Nat} (hw : WF y src dst) (a : Nat) (q : Proc S V W) (h : Ok y a q) :
    (∀ q', view y a q = .tau q' → Ok y a q') ∧
    (∀ c v q', view y a q = .send c v q' → wr y src c = a ∧ Ok y a q') ∧
    (∀ c k, view y a q = .recv c k → rd y dst c = a ∧ ∀ v, Ok y a (k v)) := by
  cases q with
  | host hh =>
    simp only [view]
    by_cases ha : a = 0
    · rw [if_pos ha]
      refine ⟨?_, ?_, ?_⟩
      · intro q' hq; obtain ⟨h', _, rfl⟩ := mapAct_tau hq; trivial
      · intro c v q' hq
        obtain ⟨h', hv, rfl⟩ := mapAct_send hq
        exact ⟨by rw [(host_ok y src dst hh).1 c v h' hv, ha], trivial⟩
      · intro c k hq
        obtain ⟨k', hv, hk⟩ := mapAct_recv hq
        exact ⟨by rw [(host_ok y src dst hh).2 c k' hv, ha], fun v => by rw [← hk v]; trivial⟩
    · rw [if_neg ha]
      exact ⟨by intro _ h; (cases h), by intro _ _ _ h; (cases h), by intro _ _ h; (cases h)⟩
  | svc s =>
    simp only [view]
    by_cases ha : a % 2 = 1 ∧ a / 2 < y.k
    · rw [if_pos ha]
      obtain ⟨o1, o2, o3⟩ := svc_ok hw (i := a / 2) (s := s) h
      have e : 2 * (a / 2) + 1 = a := by omega
      rw [e] at o2 o3
      refine ⟨?_, ?_, ?_⟩
      · intro q' hq; obtain ⟨s', hv, rfl⟩ := mapAct_tau hq; exact o1 s' hv
      · intro c v q' hq; obtain ⟨s', hv, rfl⟩ := mapAct_send hq; exact o2 c v s' hv
      · intro c k hq
        obtain ⟨k', hv, hk⟩ := mapAct_recv hq
        exact ⟨(o3 c k' hv).1, fun v => by rw [← hk v]; exact (o3 c k' hv).2 v⟩
    · rw [if_neg ha]
      exact ⟨by intro _ h; (cases h), by intro _ _ _ h; (cases h), by intro _ _ h; (cases h)⟩
  | mdl m =>
    simp only [view]
    by_cases ha : a ≠ 0 ∧ a % 2 = 0 ∧ a / 2 - 1 < y.n
    · rw [if_pos ha]
      obtain ⟨o1, o2, o3⟩ := mdl_ok hw (p := a / 2 - 1) ha.2.2 (m := m) h
      have e : 2 * (a / 2 - 1) + 2 = a := by omega
      rw [e] at o2 o3
      refine ⟨?_, ?_, ?_⟩
      · intro q' hq; obtain ⟨s', hv, rfl⟩ := mapAct_tau hq; exact o1 s' hv
      · intro c v q' hq; obtain ⟨s', hv, rfl⟩ := mapAct_send hq; exact o2 c v s' hv
      · intro c k hq
        obtain ⟨k', hv, hk⟩ := mapAct_recv hq
        exact ⟨(o3 c k' hv).1, fun v => by rw [← hk v]; exact (o3 c k' hv).2 v⟩
    · rw [if_neg ha]
      exact ⟨by intro _ h; (cases h), by intro _ _ _ h; (cases h), by intro _ _ h; (cases h)⟩

theorem ok_step {y : Sys S V W} {src dst : Nat → Nat} (hw : WF y src dst) {s s' : St (Proc S V W) (Msg V W)} {a : Nat}
    (h : ∀ a, Ok y a (s.q a)) (hs : step (net y) s a = some s') : ∀ a, Ok y a (s'.q a) := by
  obtain ⟨o1, o2, o3⟩ := view_ok hw a (s.q a) (h a)
  have put : ∀ q', Ok y a q' → ∀ b, Ok y b (upd s.q a q' b) := by
    intro q' hq b
    unfold upd
    split
    · rename_i hb; rw [hb]; exact hq
    · exact h b
  unfold step at hs
  split at hs
  · cases hs
  · rename_i q' hv; cases hs; exact put q' (o1 q' hv)
  · rename_i c v q' hv
    split at hs
    · cases hs; exact put q' (o2 c v q' hv).2
    · cases hs
  · rename_i c k hv
    split at hs
    · cases hs
    · rename_i v r _; cases hs; exact put (k v) ((o3 c k hv).2 v)

theorem ok_exec {y : Sys S V W} {src dst : Nat → Nat} (hw : WF y src dst) (l : List Nat) : ∀ {s : St (Proc S V W) (Msg V W)},
    (∀ a, Ok y a (s.q a)) → ∀ a, Ok y a ((exec (net y) s l).q a) := by
  induction l with
  | nil => intro s h; exact h
  | cons p l ih =>
    intro s h
    rw [exec]
    cases hs : step (net y) s p with
    | none => exact ih h
    | some s' => exact ih (ok_step hw h hs)

theorem ok_initial (y : Sys S V W) (prog : List (Call W)) (a : Nat) : Ok y a ((initial y prog).q a) := by
  unfold initial
  dsimp only
  split
  · trivial
  · split <;> trivial

theorem owned_initial {y : Sys S V W} {src dst : Nat → Nat} (hw : WF y src dst) (prog : List (Call W)) :
    Owned (net y) (wr y src) (rd y dst) (initial y prog) := by
  intro l
  have h := ok_exec hw l (ok_initial y prog)
  refine ⟨?_, ?_⟩
  · intro p c v q' hv; exact ((view_ok hw p _ (h p)).2.1 c v q' hv).1
  · intro p c k hv; exact ((view_ok hw p _ (h p)).2.2 c k hv).1

/-! ### The log -/

theorem host_log (y : Sys S V W) (h : HostSt V W) : (∀ h', hostView y h = .tau h' → h.log <+: h'.log) ∧
    (∀ c v h', hostView y h = .send c v h' → h.log <+: h'.log) ∧ (∀ c k, hostView y h = .recv c k → ∀ v, h.log <+: (k v).log) := by
  obtain ⟨pc, calls, b, log⟩ := h
  refine ⟨?_, ?_, ?_⟩
  · intro h' hk
    unfold hostView at hk
    dsimp only at hk
    split at hk
    case h_1 => split at hk <;> first | (cases hk; simp; done) | (split at hk <;> (cases hk; simp))
    all_goals (cases hk; try simp)
  · intro c v h' hk
    unfold hostView at hk
    dsimp only at hk
    split at hk
    case h_1 => split at hk <;> first | (cases hk; done) | (split at hk <;> cases hk)
    all_goals (cases hk; try simp)
  · intro c k hk v
    unfold hostView at hk
    dsimp only at hk
    split at hk
    case h_1 => split at hk <;> first | (cases hk; done) | (split at hk <;> cases hk)
    all_goals (cases hk; try (cases v <;> simp))

theorem seen_step {y : Sys S V W} {s s' : St (Proc S V W) (Msg V W)} {a : Nat} (hs : step (net y) s a = some s') :
    seen s <+: seen s' := by
  by_cases ha : a = 0
  · subst ha
    cases hq : s.q 0 with
    | svc x =>
      exfalso
      unfold step at hs
      have : (net y).view 0 (s.q 0) = .halt := by rw [hq]; rfl
      rw [this] at hs
      cases hs
    | mdl x =>
      exfalso
      unfold step at hs
      have : (net y).view 0 (s.q 0) = .halt := by rw [hq]; rfl
      rw [this] at hs
      cases hs
    | host h =>
      have hv0 : (net y).view 0 (s.q 0) = mapAct .host (hostView y h) := by rw [hq]; rfl
      have e0 : seen s = h.log := by unfold seen; rw [hq]
      rw [e0]
      obtain ⟨g1, g2, g3⟩ := host_log y h
      unfold step at hs
      rw [hv0] at hs
      cases hv : hostView y h with
      | halt => rw [hv] at hs; cases hs
      | tau h' =>
        rw [hv] at hs
        cases hs
        simpa [seen, upd] using g1 h' hv
      | send c v h' =>
        rw [hv] at hs
        simp only [mapAct] at hs
        split at hs
        · cases hs; simpa [seen, upd] using g2 c v h' hv
        · cases hs
      | recv c k =>
        rw [hv] at hs
        simp only [mapAct] at hs
        split at hs
        · cases hs
        · rename_i v r _; cases hs; simpa [seen, upd] using g3 c k hv v
  · have : s'.q 0 = s.q 0 := by
      unfold step at hs
      split at hs
      · cases hs
      · cases hs; exact upd_ne _ (Ne.symm ha) _
      · split at hs
        · cases hs; exact upd_ne _ (Ne.symm ha) _
        · cases hs
      · split at hs
        · cases hs
        · cases hs; exact upd_ne _ (Ne.symm ha) _
    unfold seen
    rw [this]

theorem seen_exec (y : Sys S V W) (l : List Nat) : ∀ s : St (Proc S V W) (Msg V W), seen s <+: seen (exec (net y) s l) := by
  induction l with
  | nil => intro s; exact List.prefix_refl _
  | cons p l ih =>
    intro s
    rw [exec]
    cases hs : step (net y) s p with
    | none => exact ih s
    | some s' => exact (seen_step hs).trans (ih s')

/-! ### Programs -/

theorem go_program [Inhabited V] {y : Sys S V W} {src dst : Nat → Nat} (hw : WF y src dst) (hc : NoCircle y src) (prog : List (Call W)) :
    ∀ (b : Bool) (σ : Nat → S) (log : List (Res W)), (∀ c ∈ prog, Valid y c) → (b = true ∨ ∃ n, Call.run n ∈ prog) →
      ∃ l σ', Means y b σ prog l ∧ Go y (calm ⟨.next, prog, b, log⟩ σ) (ended y (log ++ l) σ') := by
  induction prog with
  | nil =>
    intro b σ log _ hb
    rcases hb with rfl | ⟨n, hn⟩
    · exact ⟨_, σ, .stop σ, go_stop hw log σ⟩
    · cases hn
  | cons c cs ih =>
    intro b σ log hv hb
    have hv' : ∀ c ∈ cs, Valid y c := fun c hc => hv c (by simp [hc])
    have hb' : (∀ n, c ≠ .run n) → b = true ∨ ∃ n, Call.run n ∈ cs := by
      intro hne
      rcases hb with h | ⟨n, hn⟩
      · exact Or.inl h
      · rcases List.mem_cons.1 hn with h | h
        · exact absurd h.symm (hne n)
        · exact Or.inr ⟨n, h⟩
    cases c with
    | run n =>
      obtain ⟨σ', h1, g1⟩ := go_run hw hc n cs b log σ
      obtain ⟨l, σ'', h2, g2⟩ := ih true σ' (log ++ [.ran]) hv' (Or.inl rfl)
      exact ⟨_, σ'', .run h1 h2, g1.trans (by simpa using g2)⟩
    | get p x =>
      cases b with
      | true =>
        obtain ⟨l, σ'', h2, g2⟩ := ih true σ (log ++ [.value ((List.range (y.vsize p x)).map (y.peek p (σ p) x))]) hv' (Or.inl rfl)
        exact ⟨_, σ'', .get h2, (go_get hw (hv (.get p x) (by simp)) x cs log σ).trans (by simpa using g2)⟩
      | false =>
        obtain ⟨l, σ'', h2, g2⟩ := ih false σ (log ++ [.notStarted]) hv' (hb' (by simp))
        refine ⟨_, σ'', .getEarly h2, ?_⟩
        have e : Go y (calm ⟨.next, .get p x :: cs, false, log⟩ σ) (calm ⟨.next, cs, false, log ++ [.notStarted]⟩ σ) := go_host (by rfl)
        exact e.trans (by simpa using g2)
    | set p x ws =>
      cases b with
      | true =>
        obtain ⟨hp, hl⟩ := hv (.set p x ws) (by simp)
        obtain ⟨l, σ'', h2, g2⟩ := ih true _ (log ++ [.wasSet]) hv' (Or.inl rfl)
        exact ⟨_, σ'', .set h2, (go_set hw hp x ws hl cs log σ).trans (by simpa using g2)⟩
      | false =>
        obtain ⟨l, σ'', h2, g2⟩ := ih false σ (log ++ [.notStarted]) hv' (hb' (by simp))
        refine ⟨_, σ'', .setEarly h2, ?_⟩
        have e : Go y (calm ⟨.next, .set p x ws :: cs, false, log⟩ σ) (calm ⟨.next, cs, false, log ++ [.notStarted]⟩ σ) := go_host (by rfl)
        exact e.trans (by simpa using g2)

theorem oneStep_unique [Inhabited V] {y : Sys S V W} {src dst : Nat → Nat} (hw : WF y src dst) (hc : NoCircle y src) {σ a b : Nat → S}
    (h1 : OneStep y σ a) (h2 : OneStep y σ b) : a = b := by
  obtain ⟨h, hM, ha⟩ := h1
  obtain ⟨h', hM', hb⟩ := h2
  funext p
  rw [ha p, hb p, spiked_unique y hw hc σ h h' hM hM']

theorem stepsTo_unique [Inhabited V] {y : Sys S V W} {src dst : Nat → Nat} (hw : WF y src dst) (hc : NoCircle y src) (n : Nat) :
    ∀ {σ a b : Nat → S}, StepsTo y n σ a → StepsTo y n σ b → a = b := by
  induction n with
  | zero => intro σ a b h1 h2; exact h1.trans h2.symm
  | succ n ih =>
    intro σ a b h1 h2
    obtain ⟨τ, h1, h1'⟩ := h1
    obtain ⟨τ', h2, h2'⟩ := h2
    have := oneStep_unique hw hc h1 h2
    subst this
    exact ih h1' h2'

/-- **C96.** A program of calls has one meaning. -/
theorem C96_meaning_unique [Inhabited V] {y : Sys S V W} {src dst : Nat → Nat} (hw : WF y src dst) (hc : NoCircle y src)
    (prog : List (Call W)) : ∀ (b : Bool) (σ : Nat → S) (l l' : List (Res W)), Means y b σ prog l → Means y b σ prog l' → l = l' := by
  induction prog with
  | nil => intro b σ l l' h1 h2; cases h1; cases h2; rfl
  | cons c cs ih =>
    intro b σ l l' h1 h2
    cases h1 with
    | run s1 m1 =>
      cases h2 with
      | run s2 m2 =>
        have := stepsTo_unique hw hc _ s1 s2
        subst this
        rw [ih _ _ _ _ m1 m2]
    | get m1 => cases h2 with | get m2 => rw [ih _ _ _ _ m1 m2]
    | set m1 => cases h2 with | set m2 => rw [ih _ _ _ _ m1 m2]
    | getEarly m1 => cases h2 with | getEarly m2 => rw [ih _ _ _ _ m1 m2]
    | setEarly m1 => cases h2 with | setEarly m2 => rw [ih _ _ _ _ m1 m2]

theorem ended_halted (y : Sys S V W) (log : List (Res W)) (σ : Nat → S) (hist : Nat → List (Msg V W)) :
    AllHalted (net y) ((ended y log σ).st hist) := by
  intro a
  show view y a ((ended y log σ).q a) = .halt
  unfold Cfg.q
  by_cases h0 : a = 0
  · rw [if_pos h0, h0]; rfl
  · rw [if_neg h0]
    by_cases h1 : a % 2 = 1
    · rw [if_pos h1]
      simp only [view, ended]
      by_cases hk : a / 2 < y.k
      · rw [if_pos ⟨h1, hk⟩, if_pos hk]; rfl
      · rw [if_neg (fun h => hk h.2)]
    · rw [if_neg h1]
      simp only [view, ended]
      by_cases hk : a / 2 - 1 < y.n
      · rw [if_pos ⟨h0, by omega, hk⟩, if_pos hk]; rfl
      · rw [if_neg (fun h => hk h.2.2)]

theorem stuck_of_halted {n : Net (Proc S V W) (Msg V W)} {s : St (Proc S V W) (Msg V W)} (h : AllHalted n s) : Stuck n s := by
  intro p
  unfold step
  rw [h p]

theorem initial_eq (y : Sys S V W) (prog : List (Call W)) :
    initial y prog = (calm ⟨.next, prog, false, []⟩ y.init : Cfg S V W).st (fun _ => []) := rfl

/-- **C96.** A program of calls to a network (`run`, `get`, `set` in any order, then `stop`), executed by the host, any number of runtime
services and process models, which communicate over bounded channels. Its meaning `log` is given by the reference semantics, and
* whatever the schedule, the user sees an initial part of it at any time;
* the system never deadlocks: when nobody can do a step, the user has seen all of it and every process has ended;
* every schedule that lets everybody try often enough gets there. -/
theorem C96_every_schedule [Inhabited V] (y : Sys S V W) (src dst : Nat → Nat) (hw : WF y src dst) (hc : NoCircle y src)
    (prog : List (Call W)) (hp : Proper y prog) : ∃ log, Means y false y.init prog log ∧
      (∀ l, seen (exec (net y) (initial y prog) l) <+: log) ∧
      (∀ l, Stuck (net y) (exec (net y) (initial y prog) l) →
        seen (exec (net y) (initial y prog) l) = log ∧ AllHalted (net y) (exec (net y) (initial y prog) l)) ∧
      (∃ N, ∀ rounds : List (List Nat), (∀ rd ∈ rounds, ∀ a, a ≤ 2 * (y.n + y.k) → a ∈ rd) → N ≤ rounds.length →
        seen (exec (net y) (initial y prog) rounds.flatten) = log ∧
          AllHalted (net y) (exec (net y) (initial y prog) rounds.flatten)) := by
  obtain ⟨log, σ', hM, g⟩ := go_program hw hc prog false y.init [] hp.valid (Or.inr hp.runs)
  obtain ⟨l0, hist, e0⟩ := g (fun _ => [])
  rw [← initial_eq] at e0
  have hown := owned_initial hw prog
  have hh : AllHalted (net y) (exec (net y) (initial y prog) l0) := by rw [e0]; exact ended_halted y _ σ' hist
  have hst := stuck_of_halted hh
  have hseen : seen (exec (net y) (initial y prog) l0) = log := by rw [e0]; rfl
  refine ⟨log, hM, ?_, ?_, l0.length, ?_⟩
  · intro l
    obtain ⟨l'', h⟩ := C76_no_schedule_diverges (net y) _ _ _ hown l0 l hst
    have := seen_exec y l'' (exec (net y) (initial y prog) l)
    rw [h, hseen] at this
    exact this
  · intro l hs
    have := C76_schedule_independent (net y) _ _ _ hown l l0 hs hst
    rw [this]
    exact ⟨hseen, hh⟩
  · intro rounds hr hlen
    have := C76_every_fair_schedule_completes (net y) _ _ _ hown (2 * (y.n + y.k) + 1) (by
      intro a q ha
      show view y a q = .halt
      cases q with
      | host h => simp only [view]; rw [if_neg (by omega)]
      | svc s => simp only [view]; rw [if_neg (by omega)]
      | mdl m => simp only [view]; rw [if_neg (by omega)]) l0 hst rounds
      (fun rd hrd p hp => hr rd hrd p (by omega)) hlen
    rw [this]
    exact ⟨hseen, hh⟩

end Verif.EndToEnd
