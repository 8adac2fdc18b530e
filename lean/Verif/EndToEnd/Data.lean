import Verif.EndToEnd.Go

/-!
# The spiking phase: the process models exchange data

One time step of the data network (`Verif.System`) is a part of the execution of the whole system.
-/

namespace Verif.EndToEnd

open Verif.System

variable {S V W : Type}

/-- The spiking phase of all process models as a program of one time step. -/
def prog1 (y : Sys S V W) (σ : Nat → S) : Prog S V where
  n := y.n
  T := 1
  body := fun p => if p < y.n then y.body p else []
  d0 := fun p => y.start p (σ p)
  emit := y.emit
  absorb := y.absorb
  tick := y.tick
  cap := fun c => y.cap (dataCh c)

theorem prog1_body (y : Sys S V W) (σ : Nat → S) {p : Nat} (hp : p < y.n) : (prog1 y σ).body p = y.body p := if_pos hp

theorem mem_prog1 (y : Sys S V W) (σ : Nat → S) {p : Nat} {o : Op} (h : o ∈ (prog1 y σ).body p) : p < y.n ∧ o ∈ y.body p := by
  unfold prog1 at h
  dsimp only at h
  by_cases hp : p < y.n
  · rw [if_pos hp] at h; exact ⟨hp, h⟩
  · rw [if_neg hp] at h; cases h

theorem prog1_wired (y : Sys S V W) {src dst : Nat → Nat} (hw : WF y src dst) (σ : Nat → S) : Wired (prog1 y σ) src dst where
  nodup := fun p => by
    unfold prog1
    dsimp only
    split
    · exact hw.nodup p
    · exact List.nodup_nil
  snd := fun p c h => by
    obtain ⟨hp, h⟩ := mem_prog1 y σ h
    exact (hw.snd p c hp h).1
  rcv := fun p c h => by
    obtain ⟨hp, h⟩ := mem_prog1 y σ h
    exact (hw.rcv p c hp h).1
  both := fun c h => by
    obtain ⟨p, hp, h | h⟩ := h
    · obtain ⟨_, h⟩ := mem_prog1 y σ h
      obtain ⟨h1, h2, h3⟩ := hw.snd p c hp h
      subst h1
      exact ⟨hp, h2, by rw [prog1_body y σ hp]; exact h, by rw [prog1_body y σ h2]; exact h3⟩
    · obtain ⟨_, h⟩ := mem_prog1 y σ h
      obtain ⟨h1, h2, h3⟩ := hw.rcv p c hp h
      subst h1
      exact ⟨h2, hp, by rw [prog1_body y σ h2]; exact h3, by rw [prog1_body y σ hp]; exact h⟩
  cap := fun c _ => hw.cap _

theorem prog1_no_circle (y : Sys S V W) {src dst : Nat → Nat} (hw : WF y src dst) (hc : NoCircle y src) (σ : Nat → S) :
    ¬ ∃ K, CircularWait (prog1 y σ) src K := by
  rintro ⟨K, h0, hK⟩
  apply hc
  refine ⟨K, h0, ?_⟩
  intro c hcK
  obtain ⟨hu, c', hc', hpre⟩ := hK c hcK
  have hb := (prog1_wired y hw σ).both c hu
  rw [prog1_body y σ hb.1] at hpre
  refine ⟨hb.1, ?_, c', hc', hpre⟩
  have := hb.2.2.1
  rwa [prog1_body y σ hb.1] at this

theorem runOps_after (y : Sys S V W) (σ : Nat → S) (p : Nat) (H : Nat → Nat → V) (h : Nat → V) (hh : ∀ c, H c 0 = h c) (l : List Op) :
    ∀ d, runOps (prog1 y σ) p H 0 l d = after y h p l d := by
  induction l with
  | nil => intro d; rfl
  | cons o l ih =>
    intro d
    cases o with
    | snd c => simp only [runOps, after]; exact ih d
    | rcv c => simp only [runOps, after]; rw [ih, hh]; rfl

theorem messages_of_solves (y : Sys S V W) {src dst : Nat → Nat} (hw : WF y src dst) (σ : Nat → S) (H : Nat → Nat → V)
    (hH : Solves (prog1 y σ) src H) : Messages y σ (fun c => H c 0) := by
  intro p c x z hp hb
  have hm : Op.snd c ∈ y.body p := by rw [hb]; simp
  have hs := (hw.snd p c hp hm).1
  subst hs
  have hu : (prog1 y σ).Used c := ⟨src c, hp, Or.inl (by rw [prog1_body y σ hp]; exact hm)⟩
  have := hH c hu 0 (by exact Nat.zero_lt_one) x z (by rw [prog1_body y σ hp]; exact hb)
  rw [runOps_after y σ (src c) H (fun c => H c 0) (fun _ => rfl)] at this
  exact this

theorem solves_of_messages (y : Sys S V W) {src dst : Nat → Nat} (hw : WF y src dst) (σ : Nat → S) (h : Nat → V)
    (hM : Messages y σ h) : Solves (prog1 y σ) src (fun c _ => h c) := by
  intro c hu t ht x z hb
  have hb' := (prog1_wired y hw σ).both c hu
  rw [prog1_body y σ hb'.1] at hb
  have ht0 : t = 0 := by
    have : (prog1 y σ).T = 1 := rfl
    omega
  subst ht0
  rw [runOps_after y σ (src c) (fun c _ => h c) h (fun _ => rfl)]
  exact hM (src c) c x z hb'.1 hb

/-- The messages of a time step exist, and are unique on the channels in use. -/
theorem messages_exist [Inhabited V] (y : Sys S V W) {src dst : Nat → Nat} (hw : WF y src dst) (hc : NoCircle y src) (σ : Nat → S) :
    ∃ h, Messages y σ h ∧ ∀ h', Messages y σ h' → ∀ c, (prog1 y σ).Used c → h' c = h c := by
  obtain ⟨H, hH, huniq⟩ := C79_unique_solution _ _ _ (prog1_wired y hw σ) (prog1_no_circle y hw hc σ)
  refine ⟨fun c => H c 0, messages_of_solves y hw σ H hH, ?_⟩
  intro h' hM c hu
  exact huniq _ (solves_of_messages y hw σ h' hM) c hu 0 (by exact Nat.zero_lt_one)

theorem after_congr (y : Sys S V W) (h h' : Nat → V) (p : Nat) (l : List Op) (hl : ∀ c, Op.rcv c ∈ l → h' c = h c) :
    ∀ d, after y h' p l d = after y h p l d := by
  induction l with
  | nil => intro d; rfl
  | cons o l ih =>
    intro d
    have ih := ih (fun c hc => hl c (by simp [hc]))
    cases o with
    | snd c => simp only [after]; exact ih d
    | rcv c => simp only [after]; rw [hl c (by simp)]; exact ih _

theorem spiked_unique [Inhabited V] (y : Sys S V W) {src dst : Nat → Nat} (hw : WF y src dst) (hc : NoCircle y src) (σ : Nat → S)
    (h h' : Nat → V) (hM : Messages y σ h) (hM' : Messages y σ h') : spiked y h σ = spiked y h' σ := by
  obtain ⟨h0, _, hu⟩ := messages_exist y hw hc σ
  funext p
  unfold spiked
  by_cases hp : p < y.n
  · rw [if_pos hp, if_pos hp]
    congr 1
    apply after_congr
    intro c hcm
    have hused : (prog1 y σ).Used c := ⟨p, hp, Or.inr (by rw [prog1_body y σ hp]; exact hcm)⟩
    rw [hu h hM c hused, hu h' hM' c hused]
  · rw [if_neg hp, if_neg hp]

/-! ### Simulation -/

/-- A process model in the spiking phase. -/
def lift (y : Sys S V W) (p : Nat) (q : PS S) : MdlSt S V W :=
  if q.t = 0 then ⟨.spk q.rest, q.data⟩ else ⟨.sending [spkResp y p q.data], q.data⟩

/-- The state of the system during the spiking phase. -/
structure Sim (y : Sys S V W) (c : Cfg S V W) (s : St (PS S) V) (b : St (Proc S V W) (Msg V W)) : Prop where
  q : b.q = Cfg.q ⟨c.h, c.sv, fun p => if p < y.n then lift y p (s.q p) else c.md p⟩
  chan : b.chan = fun ch => if ch % 5 = 0 then (s.chan (ch / 5)).map .data else []

theorem dataCh_mod (c : Nat) : dataCh c % 5 = 0 := by unfold dataCh; omega
theorem dataCh_div (c : Nat) : dataCh c / 5 = c := by unfold dataCh; omega

theorem upd_data (s : Nat → List V) (c : Nat) (l : List V) :
    upd (fun ch => if ch % 5 = 0 then (s (ch / 5)).map (Msg.data (W := W)) else []) (dataCh c) (l.map .data) =
      fun ch => if ch % 5 = 0 then ((upd s c l) (ch / 5)).map .data else [] := by
  funext ch
  unfold upd
  by_cases h : ch = dataCh c
  · subst h
    rw [if_pos rfl, if_pos (dataCh_mod c), if_pos (dataCh_div c)]
  · rw [if_neg h]
    dsimp only
    by_cases h5 : ch % 5 = 0
    · rw [if_pos h5, if_pos h5, if_neg]
      intro h'
      apply h
      unfold dataCh
      omega
    · rw [if_neg h5, if_neg h5]

theorem sim_q (y : Sys S V W) (c : Cfg S V W) (s : Nat → PS S) {p : Nat} (hp : p < y.n) (q' : PS S) :
    upd (Cfg.q ⟨c.h, c.sv, fun p => if p < y.n then lift y p (s p) else c.md p⟩) (2 * p + 2) (.mdl (lift y p q')) =
      Cfg.q ⟨c.h, c.sv, fun p' => if p' < y.n then lift y p' (upd s p q' p') else c.md p'⟩ := by
  rw [upd_q_mdl]
  congr 1
  congr 1
  funext j
  unfold upd
  by_cases hj : j = p
  · subst hj; rw [if_pos rfl, if_pos hp, if_pos rfl]
  · rw [if_neg hj]
    dsimp only
    by_cases hn : j < y.n
    · rw [if_pos hn, if_pos hn, if_neg hj]
    · rw [if_neg hn, if_neg hn]

theorem sim_step (y : Sys S V W) (σ : Nat → S) (c : Cfg S V W) {s a : St (PS S) V} {b : St (Proc S V W) (Msg V W)}
    (hs : Sim y c s b) {p : Nat} (h : step (prog1 y σ).net s p = some a) : ∃ b', step (net y) b (2 * p + 2) = some b' ∧ Sim y c a b' := by
  have hview : ∀ m, p < y.n → (net y).view (2 * p + 2) (.mdl m) = mapAct .mdl (mdlView y p m) := fun m hp => view_mdl y hp m
  have hbq : p < y.n → b.q (2 * p + 2) = .mdl (lift y p (s.q p)) := by
    intro hp
    rw [hs.q, q_mdl]
    dsimp only
    rw [if_pos hp]
  have hT : (prog1 y σ).T = 1 := rfl
  cases step_kind (prog1 y σ) h with
  | tick hp ht hr h =>
    have hp : p < y.n := hp
    have ht0 : (s.q p).t = 0 := by omega
    refine ⟨⟨upd b.q (2 * p + 2) (.mdl (lift y p ⟨(s.q p).t + 1, (prog1 y σ).body p, (prog1 y σ).tick p (s.q p).data⟩)), b.chan, b.hist⟩, ?_, ?_⟩
    · unfold step
      rw [hbq hp, hview _ hp]
      unfold lift
      rw [if_pos ht0, hr]
      rfl
    · subst h
      exact ⟨by dsimp only; rw [hs.q, sim_q y c s.q hp], hs.chan⟩
  | recv hp ht c0 rr hr v l hch h =>
    have hp : p < y.n := hp
    have ht0 : (s.q p).t = 0 := by omega
    have hbc : b.chan (dataCh c0) = .data v :: l.map .data := by
      rw [hs.chan]
      dsimp only
      rw [if_pos (dataCh_mod c0), dataCh_div, hch]
      rfl
    refine ⟨⟨upd b.q (2 * p + 2) (.mdl (lift y p { s.q p with rest := rr, data := y.absorb p (s.q p).data c0 v })),
      upd b.chan (dataCh c0) (l.map .data), b.hist⟩, ?_, ?_⟩
    · unfold step
      rw [hbq hp, hview _ hp]
      unfold lift
      rw [if_pos ht0, hr, if_pos ht0]
      simp only [mdlView, mapAct]
      rw [hbc]
    · subst h
      refine ⟨by dsimp only; rw [hs.q, sim_q y c s.q hp]; rfl, ?_⟩
      dsimp only
      rw [hs.chan, upd_data]
  | send hp ht c0 rr hr hcap h =>
    have hp : p < y.n := hp
    have ht0 : (s.q p).t = 0 := by omega
    have hbc : b.chan (dataCh c0) = (s.chan c0).map .data := by
      rw [hs.chan]
      dsimp only
      rw [if_pos (dataCh_mod c0), dataCh_div]
    refine ⟨⟨upd b.q (2 * p + 2) (.mdl (lift y p { s.q p with rest := rr })),
      upd b.chan (dataCh c0) ((s.chan c0 ++ [y.emit p (s.q p).data c0]).map .data),
      upd b.hist (dataCh c0) (b.hist (dataCh c0) ++ [.data (y.emit p (s.q p).data c0)])⟩, ?_, ?_⟩
    · unfold step
      rw [hbq hp, hview _ hp]
      unfold lift
      rw [if_pos ht0, hr, if_pos ht0]
      simp only [mdlView, mapAct]
      rw [hbc]
      rw [if_pos (by rw [List.length_map]; exact hcap)]
      simp
    · subst h
      refine ⟨by dsimp only; rw [hs.q, sim_q y c s.q hp], ?_⟩
      dsimp only
      rw [hs.chan, upd_data]
      rfl

theorem sim_exec (y : Sys S V W) (σ : Nat → S) (c : Cfg S V W) (l : List Nat) : ∀ {s : St (PS S) V} {b : St (Proc S V W) (Msg V W)},
    Sim y c s b → ∃ l', Sim y c (exec (prog1 y σ).net s l) (exec (net y) b l') := by
  induction l with
  | nil => intro s b h; exact ⟨[], h⟩
  | cons p l ih =>
    intro s b h
    rw [exec]
    cases hp : step (prog1 y σ).net s p with
    | none => exact ih h
    | some a =>
      obtain ⟨b', hb, hs⟩ := sim_step y σ c h hp
      obtain ⟨l', hl⟩ := ih hs
      exact ⟨(2 * p + 2) :: l', by rw [exec, hb]; exact hl⟩

/-- Channels that are not in use stay empty. -/
theorem unused_empty (y : Sys S V W) {src dst : Nat → Nat} (hw : WF y src dst) (σ : Nat → S) (l : List Nat) (c : Nat)
    (hc : ¬ (prog1 y σ).Used c) : (exec (prog1 y σ).net (prog1 y σ).init l).chan c = [] := by
  have key : ∀ (l : List Nat) (s : St (PS S) V), Inv (prog1 y σ) src dst s → s.chan c = [] → (exec (prog1 y σ).net s l).chan c = [] := by
    intro l
    induction l with
    | nil => intro s _ h; exact h
    | cons p l ih =>
      intro s hi h
      rw [exec]
      cases hp : step (prog1 y σ).net s p with
      | none => exact ih s hi h
      | some a =>
        refine ih a (inv_step _ _ _ (prog1_wired y hw σ) hi hp) ?_
        cases step_kind (prog1 y σ) hp with
        | tick _ _ _ e => subst e; exact h
        | recv h1 _ c0 rr hr v l hch e =>
          subst e
          by_cases hcc : c = c0
          · subst hcc; rw [h] at hch; cases hch
          · simp only [upd_ne _ hcc]; exact h
        | send h1 _ c0 rr hr hcap e =>
          subst e
          by_cases hcc : c = c0
          · subst hcc
            exfalso
            exact hc ⟨p, h1, Or.inl ((hi.suffix p).subset (by rw [hr]; simp))⟩
          · simp only [upd_ne _ hcc]; exact h
  exact key l _ (inv_init _ _ _ (prog1_wired y hw σ)) rfl

/-- The spiking phase: all process models exchange their data and are then about to respond. -/
theorem go_data [Inhabited V] {y : Sys S V W} {src dst : Nat → Nat} (hw : WF y src dst) (hc : NoCircle y src) (σ : Nat → S)
    (c : Cfg S V W) (hm : ∀ p, p < y.n → c.md p = ⟨.spk (y.body p), y.start p (σ p)⟩) : ∃ h, Messages y σ h ∧
    Go y c ⟨c.h, c.sv, fun p => if p < y.n then ⟨.sending [spkResp y p (spiked y h σ p)], spiked y h σ p⟩ else c.md p⟩ := by
  have hwd := prog1_wired y hw σ
  have hnc := prog1_no_circle y hw hc σ
  obtain ⟨H, hH, _⟩ := C79_unique_solution _ _ _ hwd hnc
  refine ⟨fun c => H c 0, messages_of_solves y hw σ H hH, ?_⟩
  intro hist
  have h0 : Sim y c (prog1 y σ).init (c.st hist) := by
    refine ⟨?_, ?_⟩
    · show c.q = _
      obtain ⟨ch, cs, cm⟩ := c
      congr 2
      funext p
      by_cases hp : p < y.n
      · rw [if_pos hp]
        have := hm p hp
        dsimp only at this
        rw [this]
        unfold lift Prog.init
        simp [prog1_body y σ hp]
        rfl
      · rw [if_neg hp]
    · funext ch
      simp [Cfg.st, Prog.init]
  obtain ⟨l', hl⟩ := sim_exec y σ c (List.replicate (work (prog1 y σ)) (List.range (prog1 y σ).n)).flatten h0
  have hdone := (C77_no_deadlock _ _ _ hwd hnc).2 (List.replicate (work (prog1 y σ)) (List.range (prog1 y σ).n))
    (fun rd hrd p hp => by rw [List.eq_of_mem_replicate hrd]; exact List.mem_range.2 hp) (by simp)
  generalize (List.replicate (work (prog1 y σ)) (List.range (prog1 y σ).n)).flatten = L at hl hdone
  have hi := inv_exec _ _ _ hwd L
  have hch : ∀ c0, (exec (prog1 y σ).net (prog1 y σ).init L).chan c0 = [] := by
    intro c0
    by_cases hu : (prog1 y σ).Used c0
    · have hb := hwd.both c0 hu
      rw [hi.chan c0 hu]
      apply List.drop_eq_nil_of_le
      rw [hi.sent c0 hu]
      unfold sentBy rcvdBy
      rw [hdone _ hb.1, hdone _ hb.2.1, hi.top _ (hdone _ hb.1), hi.top _ (hdone _ hb.2.1), if_pos hb.2.2.1, if_pos hb.2.2.2]
    · exact unused_empty y hw σ L c0 hu
  refine ⟨l', (exec (net y) (c.st hist) l').hist, ?_⟩
  have hq := hl.q
  have hcn := hl.chan
  generalize exec (net y) (c.st hist) l' = b at hq hcn
  obtain ⟨bq, bc, bh⟩ := b
  dsimp only at hq hcn
  subst hq hcn
  unfold Cfg.st
  congr 1
  · congr 2
    funext p
    by_cases hp : p < y.n
    · rw [if_pos hp, if_pos hp]
      have hd := (C79_executions_follow_equations _ _ _ hwd H hH L).2 p (hi.top p (hdone p hp))
      have ht := hdone p hp
      have ht1 : ((exec (prog1 y σ).net (prog1 y σ).init L).q p).t = 1 := ht
      unfold lift
      rw [if_neg (by omega), hd, ht1]
      have e : stateAt (prog1 y σ) p H 1 = spiked y (fun c => H c 0) σ p := by
        show y.tick p (runOps (prog1 y σ) p H 0 ((prog1 y σ).body p) (y.start p (σ p))) = _
        rw [runOps_after y σ p H (fun c => H c 0) (fun _ => rfl), prog1_body y σ hp]
        unfold spiked
        rw [if_pos hp]
      rw [e]
    · rw [if_neg hp, if_neg hp]
  · funext ch
    rw [hch]
    simp

end Verif.EndToEnd
