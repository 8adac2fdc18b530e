import Verif.EndToEnd.Props

/-!
# C117: processes that wait for each other in a circle never get through the first time step

The invariant follows the channels of the circle, their senders, the services of these and the host.
-/

namespace Verif.EndToEnd

open Verif.System

variable {S V W : Type}

/-- Channels each of whose senders first wants a message from one of them. -/
def Circle (y : Sys S V W) (src : Nat → Nat) (K : Nat → Prop) : Prop :=
  (∃ c, K c) ∧ ∀ c, K c → src c < y.n ∧ Op.snd c ∈ y.body (src c) ∧ ∃ c', K c' ∧ Precedes (y.body (src c)) (.rcv c') (.snd c)

/-! ## One step -/

/-- What a step does to the channels. -/
theorem step_chan {y : Sys S V W} {src dst : Nat → Nat} (hw : WF y src dst) {s s' : St (Proc S V W) (Msg V W)} {a : Nat} (hok : Ok y a (s.q a))
    (hs : step (net y) s a = some s') (x : Nat) (hwr : wr y src x ≠ a) (hrd : rd y dst x ≠ a ∨ s.chan x = []) : s'.chan x = s.chan x := by
  obtain ⟨_, o2, o3⟩ := view_ok hw a (s.q a) hok
  unfold step at hs
  split at hs
  · cases hs
  · cases hs; rfl
  · rename_i c v q' hv
    split at hs
    · cases hs
      refine upd_ne _ ?_ _
      rintro rfl
      exact hwr (o2 _ v q' hv).1
    · cases hs
  · rename_i c k hv
    split at hs
    · cases hs
    · rename_i v r hc
      cases hs
      refine upd_ne _ ?_ _
      rintro rfl
      rcases hrd with h | h
      · exact h (o3 _ k hv).1
      · rw [h] at hc; cases hc

/-! ## The invariant -/

section
variable (y : Sys S V W) (src : Nat → Nat) (K : Nat → Prop) (pre post : List (Call W)) (k : Nat)

/-- Models and services involved. -/
def InP (p : Nat) : Prop := ∃ c, K c ∧ src c = p
def InI (i : Nat) : Prop := ∃ p, InP src K p ∧ y.svc p = i

def HostI (h : HostSt V W) : Prop :=
  (h.pc = .next ∧ h.started = false ∧ ∃ m, m ≤ pre.length ∧ h.calls = pre.drop m ++ .run (k + 1) :: post ∧ h.log = List.replicate m .notStarted) ∨
  (h.log = List.replicate pre.length .notStarted ∧
    ((∃ l, h.pc = .runSend (k + 1) l ∧ l.Nodup) ∨ (∃ l, h.pc = .runWait l ∧ ∀ i, InI y src K i → i ∈ l) ∨ h.pc = .failed))

/-- The host has told service `i` to run. -/
def told (h : HostSt V W) (i : Nat) : Prop :=
  match h.pc with
  | .next => False
  | .runSend _ l => i ∉ l
  | _ => True

def SvcI (t : Prop) (i : Nat) (s : SvcSt V W) (ch : List (Msg V W)) : Prop :=
  (s.f = noFlags ∧ s.pc = .idle ∧ (ch = [] ∧ ¬ t ∨ ch = [.steps (k + 1)] ∧ t)) ∨
  (t ∧ ch = [] ∧ (s.f = noFlags ∧ s.pc = .top (k + 1) 0 ∨ (∃ l, s.pc = .sendPh .spk l (k + 1) 1 ∧ l.Nodup) ∨
    ∃ l, s.pc = .collect l (k + 1) 1 ∧ ∀ p, InP src K p → y.svc p = i → p ∈ l))

/-- The service has told model `p` to spike. -/
def given (s : SvcSt V W) (p : Nat) : Prop :=
  match s.pc with
  | .idle => False
  | .top _ _ => False
  | .sendPh _ l _ _ => p ∉ l
  | _ => True

/-- Before a message of the circle can be sent another one has to be received. -/
def Blocked (p : Nat) (r : List Op) : Prop := ∀ c, K c → src c = p → ∃ c', K c' ∧ Precedes r (.rcv c') (.snd c)

def MdlI (t : Prop) (p : Nat) (m : MdlSt S V W) (ch : List (Msg V W)) : Prop :=
  (m.pc = .idle ∧ (ch = [] ∧ ¬ t ∨ ch = [.phase .spk] ∧ t)) ∨
  (t ∧ ch = [] ∧ ((∃ r, m.pc = .spk r ∧ r.Nodup ∧ Blocked src K p r) ∨ m.pc = .failed))

structure HangInv (c : Cfg S V W) (ch : Nat → List (Msg V W)) : Prop where
  host : HostI y src K pre post k c.h
  svc : ∀ i, InI y src K i → SvcI y src K k (told c.h i) i (c.sv i) (ch (toSvc i)) ∧ ch (fromSvc i) = []
  mdl : ∀ p, InP src K p → MdlI src K (given (c.sv (y.svc p)) p) p (c.md p) (ch (cmdCh p)) ∧ ch (rspCh p) = []
  data : ∀ c, K c → ch (dataCh c) = []
end

theorem precedes_tail {l : List Op} {o a b : Op} (h : Precedes (o :: l) a b) (hne : o ≠ a) : Precedes l a b := by
  obtain ⟨x, y, z, e⟩ := h
  cases x with
  | nil => simp only [List.nil_append, List.cons.injEq] at e; exact absurd e.1 hne
  | cons u x => simp only [List.cons_append, List.cons.injEq] at e; exact ⟨x, y, z, e.2⟩

theorem precedes_mem {l : List Op} {a b : Op} (h : Precedes l a b) : b ∈ l := by
  obtain ⟨x, y, z, rfl⟩ := h; simp

section
variable {y : Sys S V W} {src dst : Nat → Nat} {K : Nat → Prop} {pre post : List (Call W)} {k : Nat}

theorem inP_lt (hK : Circle y src K) {p : Nat} (h : InP src K p) : p < y.n := by
  obtain ⟨c, hc, rfl⟩ := h; exact (hK.2 c hc).1

theorem inI_lt (hw : WF y src dst) (hK : Circle y src K) {i : Nat} (h : InI y src K i) : i < y.k := by
  obtain ⟨p, hp, rfl⟩ := h; exact hw.svc p (inP_lt hK hp)

/-- Channels of different kinds or with different numbers differ. -/
theorem ch_ne {a b : Nat} : toSvc a ≠ fromSvc b ∧ toSvc a ≠ cmdCh b ∧ toSvc a ≠ rspCh b ∧ toSvc a ≠ dataCh b ∧ cmdCh a ≠ rspCh b ∧ cmdCh a ≠ dataCh b ∧
    cmdCh a ≠ fromSvc b ∧ cmdCh a ≠ toSvc b ∧ fromSvc a ≠ toSvc b ∧ fromSvc a ≠ cmdCh b ∧ fromSvc a ≠ rspCh b ∧ fromSvc a ≠ dataCh b ∧ rspCh a ≠ toSvc b ∧ rspCh a ≠ fromSvc b ∧
    rspCh a ≠ cmdCh b ∧ rspCh a ≠ dataCh b ∧ dataCh a ≠ toSvc b ∧ dataCh a ≠ fromSvc b ∧ dataCh a ≠ cmdCh b ∧ dataCh a ≠ rspCh b := by
  unfold toSvc fromSvc cmdCh rspCh dataCh; omega

theorem to_inj {a b : Nat} (h : a ≠ b) : toSvc a ≠ toSvc b := by unfold toSvc; omega
theorem cmd_inj {a b : Nat} (h : a ≠ b) : cmdCh a ≠ cmdCh b := by unfold cmdCh; omega
theorem data_inj {a b : Nat} (h : a ≠ b) : dataCh a ≠ dataCh b := by unfold dataCh; omega
theorem from_inj {a b : Nat} (h : a ≠ b) : fromSvc a ≠ fromSvc b := by unfold fromSvc; omega
theorem rsp_inj {a b : Nat} (h : a ≠ b) : rspCh a ≠ rspCh b := by unfold rspCh; omega

/-- A step of the host. -/
theorem hang_host (hw : WF y src dst) (hK : Circle y src K) (hpre : ∀ n, .run n ∉ pre) {c : Cfg S V W} {ch hist : Nat → List (Msg V W)} {s' : St (Proc S V W) (Msg V W)}
    (hj : HangInv y src K pre post k c ch) (hs : step (net y) ⟨c.q, ch, hist⟩ 0 = some s') :
    ∃ h', s'.q = Cfg.q ⟨h', c.sv, c.md⟩ ∧ HangInv y src K pre post k ⟨h', c.sv, c.md⟩ s'.chan := by
  obtain ⟨h, sv, md⟩ := c
  obtain ⟨pc, calls, started, log⟩ := h
  have hv : (net y).view 0 (Cfg.q (⟨⟨pc, calls, started, log⟩, sv, md⟩ : Cfg S V W) 0) = mapAct .host (hostView y ⟨pc, calls, started, log⟩) := rfl
  -- a local step
  have tau : ∀ h' : HostSt V W, hostView y ⟨pc, calls, started, log⟩ = .tau h' → HostI y src K pre post k h' →
      (∀ i, InI y src K i → (told h' i ↔ told ⟨pc, calls, started, log⟩ i)) →
      ∃ h', s'.q = Cfg.q ⟨h', sv, md⟩ ∧ HangInv y src K pre post k ⟨h', sv, md⟩ s'.chan := by
    intro h' hh hI ht
    unfold step at hs
    rw [hv, hh] at hs
    cases hs
    refine ⟨h', upd_q_host _ h', ⟨hI, fun i hi => ?_, hj.mdl, hj.data⟩⟩
    have e := hj.svc i hi
    rw [← propext (ht i hi)] at e
    exact e
  rcases hj.host with ⟨h1, h2, m, h3, h4, h5⟩ | ⟨h1, ⟨l, h2, h3⟩ | ⟨l, h2, h3⟩ | h2⟩
  · dsimp only at h1 h2 h4 h5
    subst h1 h2 h5
    by_cases hm : m < pre.length
    · rw [List.drop_eq_getElem_cons hm, List.cons_append] at h4
      have hmem : pre[m] ∈ pre := List.getElem_mem hm
      have hI : HostI y src K pre post k ⟨.next, pre.drop (m + 1) ++ .run (k + 1) :: post, false, List.replicate m .notStarted ++ [.notStarted]⟩ :=
        Or.inl ⟨rfl, rfl, m + 1, hm, rfl, by rw [List.replicate_succ']⟩
      cases hc : pre[m] with
      | run n => rw [hc] at hmem; exact absurd hmem (hpre n)
      | get p x =>
        rw [hc] at h4
        subst h4
        exact tau _ rfl hI fun _ _ => Iff.rfl
      | set p x ws =>
        rw [hc] at h4
        subst h4
        exact tau _ rfl hI fun _ _ => Iff.rfl
    · obtain rfl : m = pre.length := by omega
      rw [List.drop_length, List.nil_append] at h4
      subst h4
      refine tau ⟨.runSend (k + 1) (List.range y.k), post, true, _⟩ rfl (Or.inr ⟨rfl, Or.inl ⟨_, rfl, List.nodup_range⟩⟩) fun i hi => ?_
      have : i ∈ List.range y.k := List.mem_range.2 (inI_lt hw hK hi)
      simp [told, this]
  · dsimp only at h1 h2
    subst h1 h2
    cases l with
    | nil =>
      refine tau ⟨.runWait (List.range y.k), calls, started, _⟩ rfl (Or.inr ⟨rfl, Or.inr (Or.inl ⟨_, rfl, fun i hi => List.mem_range.2 (inI_lt hw hK hi)⟩)⟩) fun i hi => ?_
      simp [told]
    | cons i0 l =>
      unfold step at hs
      rw [hv] at hs
      simp only [hostView, mapAct] at hs
      split at hs
      · cases hs
        rw [List.nodup_cons] at h3
        refine ⟨_, upd_q_host _ _, ⟨Or.inr ⟨rfl, Or.inl ⟨l, rfl, h3.2⟩⟩, ?_, ?_, ?_⟩⟩
        · intro i hi
          obtain ⟨e1, e2⟩ := hj.svc i hi
          refine ⟨?_, by dsimp only; rw [upd_ne _ ch_ne.2.2.2.2.2.2.2.2.1]; exact e2⟩
          by_cases hii : i = i0
          · subst hii
            have hnt : ¬ told (⟨.runSend (k + 1) (i :: l), calls, started, List.replicate pre.length .notStarted⟩ : HostSt V W) i := by simp [told]
            rcases e1 with ⟨f1, f2, ⟨f3, _⟩ | ⟨_, f4⟩⟩ | ⟨f1, _⟩
            · left
              refine ⟨f1, f2, Or.inr ⟨?_, h3.1⟩⟩
              dsimp only at f3 ⊢
              rw [upd_self, f3]; rfl
            · exact absurd f4 hnt
            · exact absurd f1 hnt
          · dsimp only
            rw [upd_ne _ (to_inj hii)]
            have ht : told (⟨.runSend (k + 1) l, calls, started, List.replicate pre.length .notStarted⟩ : HostSt V W) i ↔
                told (⟨.runSend (k + 1) (i0 :: l), calls, started, List.replicate pre.length .notStarted⟩ : HostSt V W) i := by simp [told, hii]
            dsimp only at e1 ⊢
            rw [propext ht]
            exact e1
        · intro p hp
          obtain ⟨e1, e2⟩ := hj.mdl p hp
          exact ⟨by dsimp only; rw [upd_ne _ ch_ne.2.2.2.2.2.2.2.1]; exact e1, by dsimp only; rw [upd_ne _ ch_ne.2.2.2.2.2.2.2.2.2.2.2.2.1]; exact e2⟩
        · intro d hd
          dsimp only
          rw [upd_ne _ ch_ne.2.2.2.2.2.2.2.2.2.2.2.2.2.2.2.2.1]
          exact hj.data d hd
      · cases hs
  · dsimp only at h1 h2
    subst h1 h2
    cases l with
    | nil =>
      obtain ⟨d, hd⟩ := hK.1
      exact absurd (h3 _ ⟨src d, ⟨d, hd, rfl⟩, rfl⟩) (by simp)
    | cons i0 l =>
      unfold step at hs
      rw [hv] at hs
      simp only [hostView, mapAct] at hs
      split at hs
      · cases hs
      · rename_i v r hc
        cases hs
        have hn : ¬ InI y src K i0 := fun hi => by rw [(hj.svc i0 hi).2] at hc; cases hc
        have frame : ∀ h' : HostSt V W, HostI y src K pre post k h' → (∀ i, told h' i) →
            HangInv y src K pre post k ⟨h', sv, md⟩ (upd ch (fromSvc i0) r) := by
          intro h' hI ht
          refine ⟨hI, ?_, ?_, ?_⟩
          · intro i hi
            obtain ⟨e1, e2⟩ := hj.svc i hi
            have hne : i ≠ i0 := fun h => hn (h ▸ hi)
            refine ⟨?_, by rw [upd_ne _ (from_inj hne)]; exact e2⟩
            rw [upd_ne _ ch_ne.1]
            have t1 : told (⟨.runWait (i0 :: l), calls, started, List.replicate pre.length .notStarted⟩ : HostSt V W) i ↔ told h' i := ⟨fun _ => ht i, fun _ => trivial⟩
            rw [← propext t1]
            exact e1
          · intro p hp
            obtain ⟨e1, e2⟩ := hj.mdl p hp
            exact ⟨by rw [upd_ne _ ch_ne.2.2.2.2.2.2.1]; exact e1, by rw [upd_ne _ ch_ne.2.2.2.2.2.2.2.2.2.2.2.2.2.1]; exact e2⟩
          · intro d hd
            rw [upd_ne _ ch_ne.2.2.2.2.2.2.2.2.2.2.2.2.2.2.2.2.2.1]
            exact hj.data d hd
        refine ⟨_, upd_q_host _ _, ?_⟩
        have hwait : HostI y src K pre post k ⟨.runWait l, calls, started, List.replicate pre.length .notStarted⟩ :=
          Or.inr ⟨rfl, Or.inr (Or.inl ⟨l, rfl, fun i hi => by
            have := h3 i hi
            rw [List.mem_cons] at this
            rcases this with h | h
            · exact absurd (h ▸ hi) hn
            · exact h⟩)⟩
        have hfail : HostI y src K pre post k ⟨.failed, calls, started, List.replicate pre.length .notStarted⟩ := Or.inr ⟨rfl, Or.inr (Or.inr rfl)⟩
        cases v <;> first | exact frame _ hwait fun _ => trivial | exact frame _ hfail fun _ => trivial
  · dsimp only at h2
    subst h2
    unfold step at hs
    rw [hv] at hs
    cases hs

/-- A step of a service. -/
theorem hang_svc (hw : WF y src dst) (hK : Circle y src K) {c : Cfg S V W} {ch hist : Nat → List (Msg V W)} {s' : St (Proc S V W) (Msg V W)} {i : Nat} (hik : i < y.k)
    (hok : SvcOk y i (c.sv i).pc) (hj : HangInv y src K pre post k c ch) (hs : step (net y) ⟨c.q, ch, hist⟩ (2 * i + 1) = some s') :
    ∃ t', s'.q = Cfg.q ⟨c.h, upd c.sv i t', c.md⟩ ∧ HangInv y src K pre post k ⟨c.h, upd c.sv i t', c.md⟩ s'.chan := by
  have hv : (net y).view (2 * i + 1) (c.q (2 * i + 1)) = mapAct .svc (svcView y i (c.sv i)) := by rw [q_svc]; exact view_svc y hik _
  by_cases hi : InI y src K i
  · obtain ⟨e1, e2⟩ := hj.svc i hi
    -- the invariant after a change of this service
    have put : ∀ (t' : SvcSt V W) (ch' : Nat → List (Msg V W)), SvcI y src K k (told c.h i) i t' (ch' (toSvc i)) → (∀ j, j ≠ i → ch' (toSvc j) = ch (toSvc j)) →
        (∀ j, InI y src K j → ch' (fromSvc j) = ch (fromSvc j)) → (∀ p, InP src K p → y.svc p ≠ i → ch' (cmdCh p) = ch (cmdCh p)) →
        (∀ p, InP src K p → y.svc p = i → MdlI src K (given t' p) p (c.md p) (ch' (cmdCh p))) →
        (∀ p, InP src K p → ch' (rspCh p) = ch (rspCh p)) → (∀ d, ch' (dataCh d) = ch (dataCh d)) → HangInv y src K pre post k ⟨c.h, upd c.sv i t', c.md⟩ ch' := by
      intro t' ch' a1 a2 a3 a4 a5 a6 a7
      refine ⟨hj.host, fun j hjI => ?_, fun p hp => ?_, fun d hd => by rw [a7]; exact hj.data d hd⟩
      · rw [a3 j hjI]
        refine ⟨?_, (hj.svc j hjI).2⟩
        by_cases hji : j = i
        · subst hji; dsimp only; rw [upd_self]; exact a1
        · dsimp only; rw [upd_ne _ hji, a2 j hji]; exact (hj.svc j hjI).1
      · rw [a6 p hp]
        refine ⟨?_, (hj.mdl p hp).2⟩
        by_cases hpi : y.svc p = i
        · dsimp only; rw [hpi, upd_self]; exact a5 p hp hpi
        · dsimp only; rw [upd_ne _ hpi, a4 p hp hpi]; exact (hj.mdl p hp).1
    have mdl := fun p hp => (hj.mdl p hp).1
    have put' : ∀ (t' : SvcSt V W), SvcI y src K k (told c.h i) i t' (ch (toSvc i)) → (∀ p, InP src K p → y.svc p = i → (given t' p ↔ given (c.sv i) p)) →
        HangInv y src K pre post k ⟨c.h, upd c.sv i t', c.md⟩ ch := by
      intro t' a1 a2
      refine put t' ch a1 (fun _ _ => rfl) (fun _ _ => rfl) (fun _ _ _ => rfl) (fun p hp hpi => ?_) (fun _ _ => rfl) (fun _ => rfl)
      have := mdl p hp
      rw [hpi, ← propext (a2 p hp hpi)] at this
      exact this
    rcases hsv : c.sv i with ⟨pc, f⟩
    rw [hsv] at e1 hok hv put'
    unfold step at hs
    rw [hv] at hs
    rcases e1 with ⟨f1, f2, f3⟩ | ⟨f0, f1, ⟨f2, f3⟩ | ⟨l, f2, f3⟩ | ⟨l, f2, f3⟩⟩
    · dsimp only at f1 f2
      subst f1 f2
      simp only [svcView, mapAct] at hs
      rcases f3 with ⟨g1, _⟩ | ⟨g1, g2⟩
      · rw [g1] at hs; cases hs
      · rw [g1] at hs
        cases hs
        refine ⟨_, upd_q_svc _ _ _, put _ _ (Or.inr ⟨g2, upd_self _ _ _, Or.inl ⟨rfl, rfl⟩⟩) (fun j hji => upd_ne _ (to_inj hji) _) (fun j _ => upd_ne _ ch_ne.2.2.2.2.2.2.2.2.1 _)
          (fun p _ _ => upd_ne _ ch_ne.2.2.2.2.2.2.2.1 _) (fun p hp hpi => ?_) (fun p _ => upd_ne _ ch_ne.2.2.2.2.2.2.2.2.2.2.2.2.1 _) (fun d => upd_ne _ ch_ne.2.2.2.2.2.2.2.2.2.2.2.2.2.2.2.2.1 _)⟩
        have := mdl p hp
        rw [hpi, hsv] at this
        dsimp only
        rw [upd_ne _ ch_ne.2.2.2.2.2.2.2.1]
        exact this
    · dsimp only at f2 f3
      subst f2 f3
      have hnp : nextPhase noFlags (0 == k + 1) = (.spk, noFlags) := rfl
      simp only [svcView, mapAct, hnp, if_true] at hs
      cases hs
      refine ⟨_, upd_q_svc _ _ _, put' _ (Or.inr ⟨f0, f1, Or.inr (Or.inl ⟨y.pms i, rfl, (hw.pms i).1⟩)⟩) (fun p hp hpi => ?_)⟩
      have : p ∈ y.pms i := ((hw.pms i).2 p).2 ⟨inP_lt hK hp, hpi⟩
      simp [given, this]
    · dsimp only at f2
      subst f2
      cases l with
      | nil =>
        simp only [svcView, mapAct] at hs
        cases hs
        refine ⟨_, upd_q_svc _ _ _, put' _ (Or.inr ⟨f0, f1, Or.inr (Or.inr ⟨y.pms i, rfl, fun p hp hpi => ((hw.pms i).2 p).2 ⟨inP_lt hK hp, hpi⟩⟩)⟩) (fun p hp hpi => ?_)⟩
        simp [given]
      | cons p0 l =>
        rw [List.nodup_cons] at f3
        simp only [svcView, mapAct] at hs
        split at hs
        · cases hs
          have hp0 : y.svc p0 = i := (((hw.pms i).2 p0).1 (hok p0 (by simp))).2
          refine ⟨_, upd_q_svc _ _ _, put _ _ (Or.inr ⟨f0, by dsimp only; rw [upd_ne _ ch_ne.2.1]; exact f1, Or.inr (Or.inl ⟨l, rfl, f3.2⟩)⟩) (fun j _ => upd_ne _ ch_ne.2.1 _)
            (fun j _ => upd_ne _ ch_ne.2.2.2.2.2.2.2.2.2.1 _) (fun p _ hpi => upd_ne _ (cmd_inj (by rintro rfl; exact hpi hp0)) _) (fun p hp hpi => ?_)
            (fun p _ => upd_ne _ ch_ne.2.2.2.2.2.2.2.2.2.2.2.2.2.2.1 _) (fun d => upd_ne _ ch_ne.2.2.2.2.2.2.2.2.2.2.2.2.2.2.2.2.2.2.1 _)⟩
          have hm := mdl p hp
          rw [hpi, hsv] at hm
          by_cases hpp : p = p0
          · subst hpp
            have hng : ¬ given (⟨.sendPh .spk (p :: l) (k + 1) 1, f⟩ : SvcSt V W) p := by simp [given]
            rcases hm with ⟨g1, ⟨g2, _⟩ | ⟨_, g3⟩⟩ | ⟨g1, _⟩
            · refine Or.inl ⟨g1, Or.inr ⟨?_, f3.1⟩⟩
              dsimp only
              rw [upd_self, g2]; rfl
            · exact absurd g3 hng
            · exact absurd g1 hng
          · dsimp only
            rw [upd_ne _ (cmd_inj hpp)]
            have hg : given (⟨.sendPh .spk l (k + 1) 1, f⟩ : SvcSt V W) p ↔ given (⟨.sendPh .spk (p0 :: l) (k + 1) 1, f⟩ : SvcSt V W) p := by simp [given, hpp]
            rw [propext hg]
            exact hm
        · cases hs
    · dsimp only at f2
      subst f2
      cases l with
      | nil =>
        obtain ⟨p, hp, hpi⟩ := hi
        exact absurd (f3 p hp hpi) (by simp)
      | cons p0 l =>
        simp only [svcView, mapAct] at hs
        split at hs
        · cases hs
        · rename_i v r hc
          cases hs
          have hn : ¬ InP src K p0 := fun hp => by rw [(hj.mdl p0 hp).2] at hc; cases hc
          refine ⟨_, upd_q_svc _ _ _, put _ _ (Or.inr ⟨f0, by dsimp only; rw [upd_ne _ ch_ne.2.2.1]; exact f1, Or.inr (Or.inr ⟨l, rfl, fun p hp hpi => ?_⟩)⟩) (fun j _ => upd_ne _ ch_ne.2.2.1 _)
            (fun j _ => upd_ne _ ch_ne.2.2.2.2.2.2.2.2.2.2.1 _) (fun p _ _ => upd_ne _ ch_ne.2.2.2.2.1 _) (fun p hp hpi => ?_)
            (fun p hp => upd_ne _ (rsp_inj (by rintro rfl; exact hn hp)) _) (fun d => upd_ne _ ch_ne.2.2.2.2.2.2.2.2.2.2.2.2.2.2.2.2.2.2.2 _)⟩
          · have := f3 p hp hpi
            rw [List.mem_cons] at this
            rcases this with rfl | h
            · exact absurd hp hn
            · exact h
          · have hm := mdl p hp
            rw [hpi, hsv] at hm
            dsimp only
            rw [upd_ne _ ch_ne.2.2.2.2.1]
            exact hm
  · -- another service
    have hok' : Ok y (2 * i + 1) (c.q (2 * i + 1)) := by
      rw [q_svc]
      show SvcOk y ((2 * i + 1) / 2) (c.sv i).pc
      rw [show (2 * i + 1) / 2 = i by omega]; exact hok
    have fr := step_chan hw (s := ⟨c.q, ch, hist⟩) hok' hs
    have hq : ∃ t', s'.q = upd c.q (2 * i + 1) (.svc t') := by
      unfold step at hs
      rw [hv] at hs
      cases hsv : svcView y i (c.sv i) with
      | halt => rw [hsv] at hs; cases hs
      | tau t => rw [hsv] at hs; cases hs; exact ⟨t, rfl⟩
      | send a v t =>
        rw [hsv] at hs
        simp only [mapAct] at hs
        split at hs
        · cases hs; exact ⟨t, rfl⟩
        · cases hs
      | recv a t =>
        rw [hsv] at hs
        simp only [mapAct] at hs
        split at hs
        · cases hs
        · rename_i v r _; cases hs; exact ⟨t v, rfl⟩
    obtain ⟨t', hq⟩ := hq
    refine ⟨t', by rw [hq, upd_q_svc], ⟨hj.host, fun j hjI => ?_, fun p hp => ?_, fun d hd => ?_⟩⟩
    · have hne : j ≠ i := fun h => hi (h ▸ hjI)
      rw [fr (toSvc j) (by rw [wr_to]; omega) (Or.inl (by rw [rd_to]; omega)), fr (fromSvc j) (by rw [wr_from]; omega) (Or.inl (by rw [rd_from]; omega))]
      dsimp only
      rw [upd_ne _ hne]
      exact hj.svc j hjI
    · have hne : y.svc p ≠ i := fun h => hi ⟨p, hp, h⟩
      rw [fr (cmdCh p) (by rw [wr_cmd]; omega) (Or.inl (by rw [rd_cmd]; omega)), fr (rspCh p) (by rw [wr_rsp]; omega) (Or.inl (by rw [rd_rsp]; omega))]
      dsimp only
      rw [upd_ne _ hne]
      exact hj.mdl p hp
    · rw [fr (dataCh d) (by rw [wr_data]; omega) (Or.inl (by rw [rd_data]; omega))]
      exact hj.data d hd

/-- A step of a process model. -/
theorem hang_mdl (hw : WF y src dst) (hK : Circle y src K) {c : Cfg S V W} {ch hist : Nat → List (Msg V W)} {s' : St (Proc S V W) (Msg V W)} {p : Nat} (hpn : p < y.n)
    (hok : MdlOk y p (c.md p).pc) (hj : HangInv y src K pre post k c ch) (hs : step (net y) ⟨c.q, ch, hist⟩ (2 * p + 2) = some s') :
    ∃ t', s'.q = Cfg.q ⟨c.h, c.sv, upd c.md p t'⟩ ∧ HangInv y src K pre post k ⟨c.h, c.sv, upd c.md p t'⟩ s'.chan := by
  have hv : (net y).view (2 * p + 2) (c.q (2 * p + 2)) = mapAct .mdl (mdlView y p (c.md p)) := by rw [q_mdl]; exact view_mdl y hpn _
  have hok' : Ok y (2 * p + 2) (c.q (2 * p + 2)) := by
    rw [q_mdl]
    show MdlOk y ((2 * p + 2) / 2 - 1) (c.md p).pc
    rw [show (2 * p + 2) / 2 - 1 = p by omega]; exact hok
  have fr := step_chan hw (s := ⟨c.q, ch, hist⟩) hok' hs
  have hq : ∃ t', s'.q = upd c.q (2 * p + 2) (.mdl t') := by
    unfold step at hs
    rw [hv] at hs
    cases hsv : mdlView y p (c.md p) with
    | halt => rw [hsv] at hs; cases hs
    | tau t => rw [hsv] at hs; cases hs; exact ⟨t, rfl⟩
    | send a v t =>
      rw [hsv] at hs
      simp only [mapAct] at hs
      split at hs
      · cases hs; exact ⟨t, rfl⟩
      · cases hs
    | recv a t =>
      rw [hsv] at hs
      simp only [mapAct] at hs
      split at hs
      · cases hs
      · rename_i v r _; cases hs; exact ⟨t v, rfl⟩
  -- channels and processes not touched
  have keep : ∀ (t' : MdlSt S V W), (∀ d, K d → s'.chan (dataCh d) = []) →
      (InP src K p → MdlI src K (given (c.sv (y.svc p)) p) p t' (s'.chan (cmdCh p)) ∧ s'.chan (rspCh p) = []) →
      HangInv y src K pre post k ⟨c.h, c.sv, upd c.md p t'⟩ s'.chan := by
    intro t' a1 a2
    refine ⟨hj.host, fun j hjI => ?_, fun q hp => ?_, a1⟩
    · rw [fr (toSvc j) (by rw [wr_to]; omega) (Or.inl (by rw [rd_to]; omega)), fr (fromSvc j) (by rw [wr_from]; omega) (Or.inl (by rw [rd_from]; omega))]
      exact hj.svc j hjI
    · by_cases hqp : q = p
      · subst hqp
        dsimp only
        rw [upd_self]
        exact a2 hp
      · rw [fr (cmdCh q) (by rw [wr_cmd]; omega) (Or.inl (by rw [rd_cmd]; omega)), fr (rspCh q) (by rw [wr_rsp]; omega) (Or.inl (by rw [rd_rsp]; omega))]
        dsimp only
        rw [upd_ne _ hqp]
        exact hj.mdl q hp
  by_cases hp : InP src K p
  · obtain ⟨e1, e2⟩ := hj.mdl p hp
    have frd : ∀ d, K d → src d ≠ p → s'.chan (dataCh d) = [] := by
      intro d hd hne
      rw [fr (dataCh d) (by rw [wr_data]; omega) (Or.inr (hj.data d hd))]
      exact hj.data d hd
    rcases hsv : c.md p with ⟨pc, dat⟩
    rw [hsv] at e1 hv
    unfold step at hs
    rw [hv] at hs
    rcases e1 with ⟨f1, f2⟩ | ⟨f0, f1, ⟨r, f2, f3, f4⟩ | f2⟩
    · dsimp only at f1
      subst f1
      simp only [mdlView, mapAct] at hs
      rcases f2 with ⟨g1, _⟩ | ⟨g1, g2⟩
      · rw [g1] at hs; cases hs
      · rw [g1] at hs
        cases hs
        refine ⟨_, upd_q_mdl _ _ _, keep _ (fun d hd => ?_) (fun _ => ⟨Or.inr ⟨g2, upd_self _ _ _, Or.inl ⟨_, rfl, hw.nodup p, fun d hd hs => ?_⟩⟩, ?_⟩)⟩
        · dsimp only
          rw [upd_ne _ ch_ne.2.2.2.2.2.2.2.2.2.2.2.2.2.2.2.2.2.2.1]
          exact hj.data d hd
        · obtain ⟨_, _, d', h1, h2⟩ := hK.2 d hd
          rw [hs] at h2
          exact ⟨d', h1, h2⟩
        · dsimp only
          rw [upd_ne _ ch_ne.2.2.2.2.2.2.2.2.2.2.2.2.2.2.1]
          exact e2
    · dsimp only at f2
      subst f2
      cases r with
      | nil =>
        obtain ⟨d, hd, hsd⟩ := hp
        obtain ⟨d', _, h⟩ := f4 d hd hsd
        exact absurd (precedes_mem h) (by simp)
      | cons o r =>
        rw [List.nodup_cons] at f3
        cases o with
        | snd d0 =>
          simp only [mdlView, mapAct] at hs
          split at hs
          · cases hs
            have hn : ¬ (K d0 ∧ src d0 = p) := by
              rintro ⟨h1, h2⟩
              obtain ⟨d', _, h⟩ := f4 d0 h1 h2
              exact f3.1 (precedes_mem (precedes_tail h (by simp)))
            refine ⟨_, upd_q_mdl _ _ _, keep _ (fun d hd => ?_) (fun _ => ⟨Or.inr ⟨f0, ?_, Or.inl ⟨r, rfl, f3.2, fun d hd hs => ?_⟩⟩, ?_⟩)⟩
            · by_cases hsd : src d = p
              · dsimp only
                rw [upd_ne _ (data_inj (by rintro rfl; exact hn ⟨hd, hsd⟩))]
                exact hj.data d hd
              · exact frd d hd hsd
            · dsimp only
              rw [upd_ne _ ch_ne.2.2.2.2.2.1]
              exact f1
            · obtain ⟨d', h1, h⟩ := f4 d hd hs
              exact ⟨d', h1, precedes_tail h (by simp)⟩
            · dsimp only
              rw [upd_ne _ ch_ne.2.2.2.2.2.2.2.2.2.2.2.2.2.2.2.1]
              exact e2
          · cases hs
        | rcv d0 =>
          simp only [mdlView, mapAct] at hs
          split at hs
          · cases hs
          · rename_i v q hc
            cases hs
            have hn : ¬ K d0 := fun h => by rw [hj.data d0 h] at hc; cases hc
            have a1 : ∀ d, K d → upd ch (dataCh d0) q (dataCh d) = [] := fun d hd => by
              rw [upd_ne _ (data_inj (by rintro rfl; exact hn hd))]
              exact hj.data d hd
            have a2 : upd ch (dataCh d0) q (cmdCh p) = [] := by rw [upd_ne _ ch_ne.2.2.2.2.2.1]; exact f1
            have a3 : upd ch (dataCh d0) q (rspCh p) = [] := by rw [upd_ne _ ch_ne.2.2.2.2.2.2.2.2.2.2.2.2.2.2.2.1]; exact e2
            have hb : Blocked src K p r := fun d hd hs => by
              obtain ⟨d', h1, h⟩ := f4 d hd hs
              exact ⟨d', h1, precedes_tail h (by rintro ⟨⟩; exact hn h1)⟩
            refine ⟨_, upd_q_mdl _ _ _, keep _ a1 (fun _ => ⟨Or.inr ⟨f0, a2, ?_⟩, a3⟩)⟩
            cases v <;> first | exact Or.inl ⟨r, rfl, f3.2, hb⟩ | exact Or.inr rfl
    · dsimp only at f2
      subst f2
      cases hs
  · obtain ⟨t', hq⟩ := hq
    refine ⟨t', by rw [hq, upd_q_mdl], keep t' (fun d hd => ?_) (fun h => absurd h hp)⟩
    have hne : src d ≠ p := fun h => hp ⟨d, hd, h⟩
    rw [fr (dataCh d) (by rw [wr_data]; omega) (Or.inr (hj.data d hd))]
    exact hj.data d hd

theorem hang_exec (hw : WF y src dst) (hK : Circle y src K) (hpre : ∀ n, .run n ∉ pre) (l : List Nat) : ∀ (c : Cfg S V W) (ch hist : Nat → List (Msg V W)),
    (∀ a, Ok y a (c.q a)) → HangInv y src K pre post k c ch →
    ∃ c' : Cfg S V W, (exec (net y) ⟨c.q, ch, hist⟩ l).q = c'.q ∧ HangInv y src K pre post k c' (exec (net y) ⟨c.q, ch, hist⟩ l).chan := by
  induction l with
  | nil => intro c ch hist _ hj; exact ⟨c, rfl, hj⟩
  | cons a l ih =>
    intro c ch hist hok hj
    rw [exec]
    cases hs : step (net y) ⟨c.q, ch, hist⟩ a with
    | none => exact ih c ch hist hok hj
    | some s' =>
      have key : ∃ c' : Cfg S V W, s'.q = c'.q ∧ HangInv y src K pre post k c' s'.chan := by
        by_cases h0 : a = 0
        · subst h0
          obtain ⟨h', e, g⟩ := hang_host hw hK hpre hj hs
          exact ⟨_, e, g⟩
        · by_cases h1 : a % 2 = 1
          · obtain ⟨i, rfl⟩ : ∃ i, a = 2 * i + 1 := ⟨a / 2, by omega⟩
            by_cases hik : i < y.k
            · have hoki := hok (2 * i + 1)
              rw [q_svc] at hoki
              have hoki : SvcOk y ((2 * i + 1) / 2) (c.sv i).pc := hoki
              rw [show (2 * i + 1) / 2 = i by omega] at hoki
              obtain ⟨t', e, g⟩ := hang_svc hw hK hik hoki hj hs
              exact ⟨_, e, g⟩
            · exfalso
              unfold step at hs
              have : (net y).view (2 * i + 1) (c.q (2 * i + 1)) = .halt := by
                rw [q_svc]
                change view y (2 * i + 1) (.svc (c.sv i)) = _
                simp only [view]
                rw [if_neg (by omega)]
              rw [this] at hs
              cases hs
          · obtain ⟨p, rfl⟩ : ∃ p, a = 2 * p + 2 := ⟨a / 2 - 1, by omega⟩
            by_cases hpn : p < y.n
            · have hokp := hok (2 * p + 2)
              rw [q_mdl] at hokp
              have hokp : MdlOk y ((2 * p + 2) / 2 - 1) (c.md p).pc := hokp
              rw [show (2 * p + 2) / 2 - 1 = p by omega] at hokp
              obtain ⟨t', e, g⟩ := hang_mdl hw hK hpn hokp hj hs
              exact ⟨_, e, g⟩
            · exfalso
              unfold step at hs
              have : (net y).view (2 * p + 2) (c.q (2 * p + 2)) = .halt := by
                rw [q_mdl]
                change view y (2 * p + 2) (.mdl (c.md p)) = _
                simp only [view]
                rw [if_neg (by omega)]
              rw [this] at hs
              cases hs
      obtain ⟨c', e, g⟩ := key
      have hok' := ok_step hw (s := ⟨c.q, ch, hist⟩) hok hs
      obtain ⟨q', ch', hist'⟩ := s'
      dsimp only at e g
      subst e
      exact ih c' ch' hist' hok' g
end

/-- **C117.** If there is a circle of processes each of which wants a message from the one before it first, the first `run` of at least one step never returns: whatever the schedule, the user sees
nothing but the errors of `get` and `set` calls made before it. -/
theorem C117_circle_hangs (y : Sys S V W) (src dst : Nat → Nat) (hw : WF y src dst) (hc : ¬ NoCircle y src) (pre post : List (Call W)) (hpre : ∀ n, .run n ∉ pre) (k : Nat) (l : List Nat) :
    seen (exec (net y) (initial y (pre ++ .run (k + 1) :: post)) l) <+: List.replicate pre.length .notStarted := by
  obtain ⟨K, hK⟩ := Classical.not_not.1 hc
  have hK : Circle y src K := hK
  have h0 : HangInv y src K pre post k (⟨⟨.next, pre ++ .run (k + 1) :: post, false, []⟩, fun _ => ⟨.idle, noFlags⟩, fun p => ⟨.idle, y.init p⟩⟩ : Cfg S V W) (fun _ => []) := by
    refine ⟨Or.inl ⟨rfl, rfl, 0, Nat.zero_le _, rfl, rfl⟩, fun i _ => ⟨Or.inl ⟨rfl, rfl, Or.inl ⟨rfl, ?_⟩⟩, rfl⟩, fun p _ => ⟨Or.inl ⟨rfl, Or.inl ⟨rfl, ?_⟩⟩, rfl⟩, fun _ _ => rfl⟩
    · simp [told]
    · simp [given]
  obtain ⟨c', e, g⟩ := hang_exec hw hK hpre l
    (⟨⟨.next, pre ++ .run (k + 1) :: post, false, []⟩, fun _ => ⟨.idle, noFlags⟩, fun p => ⟨.idle, y.init p⟩⟩ : Cfg S V W) _ (fun _ => []) (fun a => ok_initial y (pre ++ .run (k + 1) :: post) a) h0
  have e : (exec (net y) (initial y (pre ++ .run (k + 1) :: post)) l).q = c'.q := e
  have hs : seen (exec (net y) (initial y (pre ++ .run (k + 1) :: post)) l) = c'.h.log := by
    unfold seen
    rw [e]
    rfl
  rw [hs]
  rcases g.host with ⟨_, _, m, h3, _, h5⟩ | ⟨h1, _⟩
  · rw [h5]
    exact ⟨List.replicate (pre.length - m) .notStarted, by rw [List.replicate_append_replicate]; congr 1; omega⟩
  · rw [h1]

end Verif.EndToEnd
