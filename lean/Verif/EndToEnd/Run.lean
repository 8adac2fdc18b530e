import Verif.EndToEnd.Data

/-!
# Phases, time steps and runs
-/

namespace Verif.EndToEnd

open Verif.System

variable {S V W : Type}

/-- What an idle process model does when it receives a phase (model.py:381-448). -/
def react (y : Sys S V W) (p : Nat) (ph : Phase) (d : S) : MdlSt S V W :=
  match ph with
  | .spk => ⟨.spk (y.body p), y.start p d⟩
  | .pre => ⟨.sending [.reqLrn], doPre y p d⟩
  | .lrn => ⟨.sending [if y.postGuard p (doLrn y p d) then .reqPost else .done], doLrn y p d⟩
  | .post => ⟨.sending [.done], doPost y p d⟩
  | .host => ⟨.idle, d⟩

theorem put_put (y : Sys S V W) (c : Cfg S V W) (i : Nat) (b b' : SvcSt V W) (B B' : Nat → MdlSt S V W) :
    (c.put y i b B).put y i b' B' = c.put y i b' B' := by
  unfold Cfg.put
  simp only [upd_upd, Cfg.mk.injEq, true_and]
  funext p
  by_cases h : p ∈ y.pms i
  · rw [if_pos h, if_pos h]
  · rw [if_neg h, if_neg h, if_neg h]

theorem put_congr (y : Sys S V W) (c : Cfg S V W) (i : Nat) (b : SvcSt V W) (B B' : Nat → MdlSt S V W)
    (h : ∀ p ∈ y.pms i, B p = B' p) : c.put y i b B = c.put y i b B' := by
  unfold Cfg.put
  congr 1
  funext p
  by_cases hp : p ∈ y.pms i
  · rw [if_pos hp, if_pos hp, h p hp]
  · rw [if_neg hp, if_neg hp]

theorem put_sv (y : Sys S V W) (c : Cfg S V W) (i : Nat) (b : SvcSt V W) (B : Nat → MdlSt S V W) : (c.put y i b B).sv i = b := by
  simp [Cfg.put]

theorem put_md (y : Sys S V W) (c : Cfg S V W) (i : Nat) (b : SvcSt V W) (B : Nat → MdlSt S V W) {p : Nat} (hp : p ∈ y.pms i) :
    (c.put y i b B).md p = B p := if_pos hp

/-- A service informs its models about a phase. -/
theorem go_send {y : Sys S V W} {src dst : Nat → Nat} (hw : WF y src dst) {i : Nat} (hi : i < y.k) (ph : Phase) (n cur : Nat) (f : Flags)
    (τ : Nat → S) (c : Cfg S V W) (hs : c.sv i = ⟨.sendPh ph (y.pms i) n cur, f⟩) (hm : ∀ p ∈ y.pms i, c.md p = ⟨.idle, τ p⟩) :
    Go y c (c.put y i ⟨.sendPh ph [] n cur, f⟩ (fun p => react y p ph (τ p))) := by
  have := go_models (y := y) hi (F := Unit) (fun l _ => ⟨.sendPh ph l n cur, f⟩) (fun _ _ => ())
    (fun p => ⟨.idle, τ p⟩) (fun p => react y p ph (τ p)) (by
      intro p rest _ hp c hs hm
      have hpn := (((hw.pms i).2 p).1 hp).1
      refine (go_svc_mdl (y := y) (c := c) (i := i) (p := p) hi hpn (hw.cap (cmdCh p)) (v := .phase ph)
        (s' := ⟨.sendPh ph rest n cur, f⟩) (by rw [hs]; rfl) (by rw [hm]; rfl)).trans (Go.of_eq ?_)
      congr 1
      cases ph <;> rfl)
    (y.pms i) (hw.pms i).1 (fun p hp => hp) () c hs hm
  exact this

/-- A service collects the responses of its models. -/
theorem go_collect {y : Sys S V W} {src dst : Nat → Nat} (hw : WF y src dst) {i : Nat} (hi : i < y.k) (n cur : Nat) (f : Flags)
    (r : Nat → Msg V W) (τ : Nat → S) (c : Cfg S V W) (hs : c.sv i = ⟨.collect (y.pms i) n cur, f⟩)
    (hm : ∀ p ∈ y.pms i, c.md p = ⟨.sending [r p], τ p⟩) :
    Go y c (c.put y i ⟨.collect [] n cur, (y.pms i).foldl (fun f p => addReq f (r p)) f⟩ (fun p => ⟨.idle, τ p⟩)) := by
  exact go_models (y := y) hi (F := Flags) (fun l f => ⟨.collect l n cur, f⟩) (fun f p => addReq f (r p))
    (fun p => ⟨.sending [r p], τ p⟩) (fun p => ⟨.idle, τ p⟩) (by
      intro p rest f hp c hs hm
      have hpn := (((hw.pms i).2 p).1 hp).1
      have h1 := go_mdl_svc (y := y) (c := c) (i := i) (p := p) hi hpn (hw.cap (rspCh p)) (v := r p)
        (m' := ⟨.sending [], τ p⟩) (by rw [hm]; rfl) (by rw [hs]; rfl)
      refine h1.trans ?_
      refine (go_mdl (y := y) (p := p) (m' := ⟨.idle, τ p⟩) hpn (by simp [mdlView])).trans (Go.of_eq ?_)
      simp only [upd_upd])
    (y.pms i) (hw.pms i).1 (fun p hp => hp) f c hs hm

/-! ### Flags -/

def isPre : Msg V W → Bool | .reqPre => true | _ => false
def isLrn : Msg V W → Bool | .reqLrn => true | _ => false
def isPost : Msg V W → Bool | .reqPost => true | _ => false

theorem flags_fold (r : Nat → Msg V W) (l : List Nat) : ∀ f : Flags, l.foldl (fun f p => addReq f (r p)) f =
    ⟨f.pre || l.any (fun p => isPre (r p)), f.lrn || l.any (fun p => isLrn (r p)), f.post || l.any (fun p => isPost (r p))⟩ := by
  induction l with
  | nil => intro f; simp
  | cons p l ih =>
    intro f
    rw [List.foldl_cons, ih]
    simp only [List.any_cons]
    cases hr : r p <;> simp [addReq, isPre, isLrn, isPost]

/-! ### Phases of one service -/

/-- A phase other than SPK and HOST. -/
theorem go_phase {y : Sys S V W} {src dst : Nat → Nat} (hw : WF y src dst) {i : Nat} (hi : i < y.k) (ph : Phase) (n cur : Nat) (f f' : Flags)
    (hph : nextPhase f (cur == n) = (ph, f')) (h1 : ph ≠ .spk) (h2 : ph ≠ .host) (r : Nat → Msg V W) (g : Nat → S → S) (τ : Nat → S)
    (hr : ∀ p ∈ y.pms i, react y p ph (τ p) = ⟨.sending [r p], g p (τ p)⟩) (c : Cfg S V W) (hs : c.sv i = ⟨.top n cur, f⟩)
    (hm : ∀ p ∈ y.pms i, c.md p = ⟨.idle, τ p⟩) :
    Go y c (c.put y i ⟨.top n cur, (y.pms i).foldl (fun f p => addReq f (r p)) f'⟩ (fun p => ⟨.idle, g p (τ p)⟩)) := by
  have e1 := go_svc (y := y) (c := c) hi (s' := ⟨.sendPh ph (y.pms i) n cur, f'⟩) (by
    rw [hs]
    simp only [svcView]
    rw [hph]
    simp [h1])
  have e2 := go_send hw hi ph n cur f' τ ⟨c.h, upd c.sv i ⟨.sendPh ph (y.pms i) n cur, f'⟩, c.md⟩ (by simp) hm
  have e3 := go_svc (y := y) (c := Cfg.put y ⟨c.h, upd c.sv i ⟨.sendPh ph (y.pms i) n cur, f'⟩, c.md⟩ i ⟨.sendPh ph [] n cur, f'⟩
    (fun p => react y p ph (τ p))) hi (s' := ⟨.collect (y.pms i) n cur, f'⟩) (by
      rw [put_sv]
      simp [svcView, h2])
  have e4 := go_collect hw hi n cur f' r (fun p => g p (τ p)) ⟨c.h, upd c.sv i ⟨.collect (y.pms i) n cur, f'⟩,
    fun p => if p ∈ y.pms i then react y p ph (τ p) else c.md p⟩ (by simp) (by
      intro p hp
      dsimp only
      rw [if_pos hp]
      exact hr p hp)
  have e5 := go_svc (y := y) (c := c.put y i ⟨.collect [] n cur, (y.pms i).foldl (fun f p => addReq f (r p)) f'⟩
    (fun p => ⟨.idle, g p (τ p)⟩)) hi (s' := ⟨.top n cur, (y.pms i).foldl (fun f p => addReq f (r p)) f'⟩) (by
      rw [put_sv]
      rfl)
  refine e1.trans (e2.trans (e3.trans ((Go.of_eq ?_).trans (e4.trans ((Go.of_eq ?_).trans (e5.trans (Go.of_eq ?_)))))))
  · simp [Cfg.put, upd_upd]
  · simp only [Cfg.put, upd_upd, Cfg.mk.injEq, true_and]
    funext p
    by_cases hp : p ∈ y.pms i
    · rw [if_pos hp, if_pos hp]
    · rw [if_neg hp, if_neg hp, if_neg hp]
  · simp [Cfg.put, upd_upd]

theorem stage_pre {y : Sys S V W} {src dst : Nat → Nat} (hw : WF y src dst) {i : Nat} (hi : i < y.k) (n cur : Nat) (f : Flags)
    (hne : f.pre = true → y.pms i ≠ []) (τ : Nat → S) (c : Cfg S V W) (hs : c.sv i = ⟨.top n cur, f⟩)
    (hm : ∀ p ∈ y.pms i, c.md p = ⟨.idle, τ p⟩) :
    Go y c (c.put y i ⟨.top n cur, ⟨false, f.lrn || f.pre, f.post⟩⟩ (fun p => ⟨.idle, phaseIf y i f.pre (doPre y) τ p⟩)) := by
  cases hf : f.pre with
  | false =>
    refine Go.of_eq ?_
    obtain ⟨ch, cs, cm⟩ := c
    unfold Cfg.put
    congr 1
    · funext j
      unfold upd
      split
      · rename_i h
        subst h
        dsimp only at hs
        rw [hs]
        obtain ⟨a, b, d⟩ := f
        dsimp only at hf
        simp [hf]
      · rfl
    · funext p
      split
      · rename_i hp
        have := hm p hp
        dsimp only at this
        rw [this]
        simp [phaseIf]
      · rfl
  | true =>
    have := go_phase hw hi .pre n cur f ⟨false, f.lrn, f.post⟩ (by simp [nextPhase, hf]) (by decide) (by decide) (fun _ => .reqLrn)
      (doPre y) τ (fun p _ => rfl) c hs hm
    refine this.trans (Go.of_eq ?_)
    rw [flags_fold]
    have hany : (y.pms i).any (fun _ => isLrn (Msg.reqLrn : Msg V W)) = true := by
      have := hne hf
      cases h : y.pms i with
      | nil => exact absurd h this
      | cons a l => simp [isLrn]
    have e : (⟨false || (y.pms i).any (fun _ => isPre (Msg.reqLrn : Msg V W)), f.lrn || (y.pms i).any (fun _ => isLrn (Msg.reqLrn : Msg V W)),
        f.post || (y.pms i).any (fun _ => isPost (Msg.reqLrn : Msg V W))⟩ : Flags) = ⟨false, f.lrn || true, f.post⟩ := by
      rw [hany]; simp [isPre, isPost]
    rw [e]
    apply put_congr
    intro p hp
    simp [phaseIf, hp]

theorem stage_lrn {y : Sys S V W} {src dst : Nat → Nat} (hw : WF y src dst) {i : Nat} (hi : i < y.k) (n cur : Nat) (f : Flags)
    (hpre : f.pre = false) (τ : Nat → S) (c : Cfg S V W) (hs : c.sv i = ⟨.top n cur, f⟩)
    (hm : ∀ p ∈ y.pms i, c.md p = ⟨.idle, τ p⟩) :
    Go y c (c.put y i ⟨.top n cur, ⟨false, false, f.post || (f.lrn && anyOf y i y.postGuard (phaseIf y i f.lrn (doLrn y) τ))⟩⟩
      (fun p => ⟨.idle, phaseIf y i f.lrn (doLrn y) τ p⟩)) := by
  cases hf : f.lrn with
  | false =>
    refine Go.of_eq ?_
    obtain ⟨ch, cs, cm⟩ := c
    unfold Cfg.put
    congr 1
    · funext j
      unfold upd
      split
      · rename_i h
        subst h
        dsimp only at hs
        rw [hs]
        obtain ⟨a, b, d⟩ := f
        dsimp only at hf hpre
        simp [hf, hpre]
      · rfl
    · funext p
      split
      · rename_i hp
        have := hm p hp
        dsimp only at this
        rw [this]
        simp [phaseIf]
      · rfl
  | true =>
    have := go_phase hw hi .lrn n cur f ⟨false, false, f.post⟩ (by obtain ⟨a, b, d⟩ := f; simp_all [nextPhase]) (by decide) (by decide)
      (fun p => if y.postGuard p (doLrn y p (τ p)) then .reqPost else .done) (doLrn y) τ (fun p _ => rfl) c hs hm
    refine this.trans (Go.of_eq ?_)
    rw [flags_fold]
    have e1 : (y.pms i).any (fun p => isPre (if y.postGuard p (doLrn y p (τ p)) then (.reqPost : Msg V W) else .done)) = false := by
      rw [List.any_eq_false]; intro p _; split <;> simp [isPre]
    have e2 : (y.pms i).any (fun p => isLrn (if y.postGuard p (doLrn y p (τ p)) then (.reqPost : Msg V W) else .done)) = false := by
      rw [List.any_eq_false]; intro p _; split <;> simp [isLrn]
    have e3 : (y.pms i).any (fun p => isPost (if y.postGuard p (doLrn y p (τ p)) then (.reqPost : Msg V W) else .done)) =
        anyOf y i y.postGuard (phaseIf y i true (doLrn y) τ) := by
      unfold anyOf
      rw [Bool.eq_iff_iff, List.any_eq_true, List.any_eq_true]
      constructor
      · rintro ⟨p, hp, h⟩
        refine ⟨p, hp, ?_⟩
        unfold phaseIf
        rw [if_pos ⟨rfl, hp⟩]
        by_cases hg : y.postGuard p (doLrn y p (τ p)) = true
        · exact hg
        · rw [if_neg hg] at h; cases h
      · rintro ⟨p, hp, h⟩
        refine ⟨p, hp, ?_⟩
        unfold phaseIf at h
        rw [if_pos ⟨rfl, hp⟩] at h
        rw [if_pos h]
        rfl
    rw [e1, e2, e3]
    simp only [Bool.or_false, Bool.true_and]
    apply put_congr
    intro p hp
    simp [phaseIf, hp]

theorem stage_post {y : Sys S V W} {src dst : Nat → Nat} (hw : WF y src dst) {i : Nat} (hi : i < y.k) (n cur : Nat) (b : Bool)
    (τ : Nat → S) (c : Cfg S V W) (hs : c.sv i = ⟨.top n cur, ⟨false, false, b⟩⟩)
    (hm : ∀ p ∈ y.pms i, c.md p = ⟨.idle, τ p⟩) :
    Go y c (c.put y i ⟨.top n cur, noFlags⟩ (fun p => ⟨.idle, phaseIf y i b (doPost y) τ p⟩)) := by
  cases b with
  | false =>
    refine Go.of_eq ?_
    obtain ⟨ch, cs, cm⟩ := c
    unfold Cfg.put
    congr 1
    · funext j
      unfold upd
      split
      · rename_i h
        subst h
        exact hs
      · rfl
    · funext p
      split
      · rename_i hp
        have := hm p hp
        dsimp only at this
        rw [this]
        simp [phaseIf]
      · rfl
  | true =>
    have := go_phase hw hi .post n cur ⟨false, false, true⟩ noFlags rfl (by decide) (by decide)
      (fun _ => .done) (doPost y) τ (fun p _ => rfl) c hs hm
    refine this.trans (Go.of_eq ?_)
    rw [flags_fold]
    have e : (⟨noFlags.pre || (y.pms i).any (fun _ => isPre (Msg.done : Msg V W)), noFlags.lrn || (y.pms i).any (fun _ => isLrn (Msg.done : Msg V W)),
        noFlags.post || (y.pms i).any (fun _ => isPost (Msg.done : Msg V W))⟩ : Flags) = noFlags := by
      simp [isPre, isLrn, isPost, noFlags]
    rw [e]
    apply put_congr
    intro p hp
    simp [phaseIf, hp]

/-- Flags after the spiking phase. -/
theorem spk_flags (y : Sys S V W) (i : Nat) (τ : Nat → S) :
    (y.pms i).foldl (fun f p => addReq f (spkResp y p (τ p))) noFlags =
      ⟨anyOf y i (fun p s => y.lrnGuard p s && y.preGuard p s) τ, anyOf y i (fun p s => y.lrnGuard p s && !y.preGuard p s) τ,
        anyOf y i (fun p s => !y.lrnGuard p s && y.postGuard p s) τ⟩ := by
  rw [flags_fold]
  unfold anyOf noFlags
  simp only [Bool.false_or, Flags.mk.injEq]
  refine ⟨?_, ?_, ?_⟩ <;>
  · congr 1
    funext p
    unfold spkResp
    cases y.lrnGuard p (τ p) <;> cases y.preGuard p (τ p) <;> cases y.postGuard p (τ p) <;> rfl

/-- The phases after the spiking phase. -/
theorem go_managed {y : Sys S V W} {src dst : Nat → Nat} (hw : WF y src dst) {i : Nat} (hi : i < y.k) (n cur : Nat)
    (τ : Nat → S) (c : Cfg S V W)
    (hs : c.sv i = ⟨.top n cur, (y.pms i).foldl (fun f p => addReq f (spkResp y p (τ p))) noFlags⟩)
    (hm : ∀ p ∈ y.pms i, c.md p = ⟨.idle, τ p⟩) :
    Go y c (c.put y i ⟨.top n cur, noFlags⟩ (fun p => ⟨.idle, managed y i τ p⟩)) := by
  rw [spk_flags] at hs
  have hlrn : (anyOf y i (fun p s => y.lrnGuard p s && !y.preGuard p s) τ || anyOf y i (fun p s => y.lrnGuard p s && y.preGuard p s) τ) =
      anyOf y i y.lrnGuard τ := by
    unfold anyOf
    rw [Bool.eq_iff_iff, Bool.or_eq_true, List.any_eq_true, List.any_eq_true, List.any_eq_true]
    constructor
    · rintro (⟨p, hp, h⟩ | ⟨p, hp, h⟩)
      · rw [Bool.and_eq_true] at h; exact ⟨p, hp, h.1⟩
      · rw [Bool.and_eq_true] at h; exact ⟨p, hp, h.1⟩
    · rintro ⟨p, hp, h⟩
      cases hg : y.preGuard p (τ p) with
      | false => exact Or.inl ⟨p, hp, by simp [h, hg]⟩
      | true => exact Or.inr ⟨p, hp, by simp [h, hg]⟩
  have e1 := stage_pre hw hi n cur _ (by
    intro h hnil
    unfold anyOf at h
    rw [hnil] at h
    cases h) τ c hs hm
  dsimp only at e1
  rw [hlrn] at e1
  refine e1.trans ?_
  refine (stage_lrn hw hi n cur ⟨false, anyOf y i y.lrnGuard τ, anyOf y i (fun p s => !y.lrnGuard p s && y.postGuard p s) τ⟩ rfl _ _
    (put_sv y c i _ _) (fun p hp => put_md y c i _ _ hp)).trans ?_
  refine (stage_post hw hi n cur _ _ _ (put_sv y _ i _ _) (fun p hp => put_md y _ i _ _ hp)).trans (Go.of_eq ?_)
  rw [put_put, put_put]
  rfl

/-! ### A time step -/

theorem go_step [Inhabited V] {y : Sys S V W} {src dst : Nat → Nat} (hw : WF y src dst) (hc : NoCircle y src) (n cur : Nat) (hne : cur ≠ n)
    (σ : Nat → S) (c : Cfg S V W) (hs : ∀ i, i < y.k → c.sv i = ⟨.top n cur, noFlags⟩) (hm : ∀ p, p < y.n → c.md p = ⟨.idle, σ p⟩) :
    ∃ σ', OneStep y σ σ' ∧ Go y c ⟨c.h, fun i => if i < y.k then ⟨.top n (cur + 1), noFlags⟩ else c.sv i,
      fun p => if p < y.n then ⟨.idle, σ' p⟩ else c.md p⟩ := by
  have e1 := go_services hw c.h (fun _ => ⟨.top n cur, noFlags⟩) (fun i => ⟨.collect (y.pms i) n (cur + 1), noFlags⟩)
    (fun p => ⟨.idle, σ p⟩) (fun p => ⟨.spk (y.body p), y.start p (σ p)⟩) (by
      intro i hi c _ hs hm
      have e1 := go_svc (y := y) (c := c) hi (s' := ⟨.sendPh .spk (y.pms i) n (cur + 1), noFlags⟩) (by
        rw [hs]
        have : (cur == n) = false := by simp [hne]
        simp [svcView, nextPhase, noFlags, this])
      have e2 := go_send hw hi .spk n (cur + 1) noFlags σ ⟨c.h, upd c.sv i ⟨.sendPh .spk (y.pms i) n (cur + 1), noFlags⟩, c.md⟩ (by simp) hm
      have e3 := go_svc (y := y) (c := Cfg.put y ⟨c.h, upd c.sv i ⟨.sendPh .spk (y.pms i) n (cur + 1), noFlags⟩, c.md⟩ i
        ⟨.sendPh .spk [] n (cur + 1), noFlags⟩ (fun p => react y p .spk (σ p))) hi (s' := ⟨.collect (y.pms i) n (cur + 1), noFlags⟩) (by
          rw [put_sv]
          simp [svcView])
      refine e1.trans (e2.trans (e3.trans (Go.of_eq ?_)))
      simp only [Cfg.put, upd_upd]
      rfl) c rfl hs hm
  obtain ⟨h, hM, e2⟩ := go_data hw hc σ ⟨c.h, fun i => if i < y.k then ⟨.collect (y.pms i) n (cur + 1), noFlags⟩ else c.sv i,
    fun p => if p < y.n then ⟨.spk (y.body p), y.start p (σ p)⟩ else c.md p⟩ (by
      intro p hp
      dsimp only
      rw [if_pos hp])
  have e3 := go_services hw c.h (fun i => ⟨.collect (y.pms i) n (cur + 1), noFlags⟩) (fun _ => ⟨.top n (cur + 1), noFlags⟩)
    (fun p => ⟨.sending [spkResp y p (spiked y h σ p)], spiked y h σ p⟩) (fun p => ⟨.idle, managed y (y.svc p) (spiked y h σ) p⟩) (by
      intro i hi c _ hs hm
      have e1 := go_collect hw hi n (cur + 1) noFlags (fun p => spkResp y p (spiked y h σ p)) (spiked y h σ) c hs hm
      have e2 := go_svc (y := y) (c := c.put y i ⟨.collect [] n (cur + 1), (y.pms i).foldl (fun f p => addReq f (spkResp y p (spiked y h σ p))) noFlags⟩
        (fun p => ⟨.idle, spiked y h σ p⟩)) hi
        (s' := ⟨.top n (cur + 1), (y.pms i).foldl (fun f p => addReq f (spkResp y p (spiked y h σ p))) noFlags⟩) (by
          rw [put_sv]
          rfl)
      have e3 := go_managed hw hi n (cur + 1) (spiked y h σ) (c.put y i
        ⟨.top n (cur + 1), (y.pms i).foldl (fun f p => addReq f (spkResp y p (spiked y h σ p))) noFlags⟩ (fun p => ⟨.idle, spiked y h σ p⟩))
        (put_sv y c i _ _) (fun p hp => put_md y c i _ _ hp)
      refine e1.trans (e2.trans ((Go.of_eq ?_).trans (e3.trans (Go.of_eq ?_))))
      · simp [Cfg.put, upd_upd]
      · rw [put_put]
        apply put_congr
        intro p hp
        rw [(((hw.pms i).2 p).1 hp).2])
    ⟨c.h, fun i => if i < y.k then ⟨.collect (y.pms i) n (cur + 1), noFlags⟩ else c.sv i,
      fun p => if p < y.n then ⟨.sending [spkResp y p (spiked y h σ p)], spiked y h σ p⟩ else
        if p < y.n then ⟨.spk (y.body p), y.start p (σ p)⟩ else c.md p⟩ rfl
    (by intro i hi; dsimp only; rw [if_pos hi]) (by intro p hp; dsimp only; rw [if_pos hp])
  refine ⟨fun p => if p < y.n then managed y (y.svc p) (spiked y h σ) p else σ p, ⟨h, hM, fun p => rfl⟩, ?_⟩
  refine e1.trans (e2.trans (e3.trans (Go.of_eq ?_)))
  congr 1
  · funext i
    by_cases hi : i < y.k
    · rw [if_pos hi, if_pos hi]
    · rw [if_neg hi, if_neg hi]; dsimp only; rw [if_neg hi]
  · funext p
    by_cases hp : p < y.n
    · rw [if_pos hp, if_pos hp]; dsimp only; rw [if_pos hp]
    · rw [if_neg hp, if_neg hp]; dsimp only; rw [if_neg hp, if_neg hp]

/-- Everybody is waiting for commands, with the values `σ`. -/
def calm (h : HostSt V W) (σ : Nat → S) : Cfg S V W := ⟨h, fun _ => ⟨.idle, noFlags⟩, fun p => ⟨.idle, σ p⟩⟩

/-- Everybody is in a run. -/
def busy (y : Sys S V W) (h : HostSt V W) (n cur : Nat) (σ : Nat → S) : Cfg S V W :=
  ⟨h, fun i => if i < y.k then ⟨.top n cur, noFlags⟩ else ⟨.idle, noFlags⟩, fun p => ⟨.idle, σ p⟩⟩

theorem go_busy [Inhabited V] {y : Sys S V W} {src dst : Nat → Nat} (hw : WF y src dst) (hc : NoCircle y src) (h : HostSt V W) (n : Nat) :
    ∀ (m cur : Nat) (σ : Nat → S), cur + m = n → ∃ σ', StepsTo y m σ σ' ∧ Go y (busy y h n cur σ) (busy y h n n σ') := by
  intro m
  induction m with
  | zero =>
    intro cur σ hm
    have : cur = n := by omega
    subst this
    exact ⟨σ, rfl, Go.refl y _⟩
  | succ m ih =>
    intro cur σ hm
    obtain ⟨τ, h1, g1⟩ := go_step hw hc n cur (by omega) σ (busy y h n cur σ)
      (by intro i hi; simp [busy, hi]) (by intro p _; rfl)
    obtain ⟨σ', h2, g2⟩ := ih (cur + 1) τ (by omega)
    refine ⟨σ', ⟨τ, h1, h2⟩, (g1.trans (Go.of_eq ?_)).trans g2⟩
    unfold busy
    congr 1
    · funext i
      by_cases hi : i < y.k
      · rw [if_pos hi, if_pos hi]
      · rw [if_neg hi, if_neg hi]; dsimp only; rw [if_neg hi]
    · funext p
      by_cases hp : p < y.n
      · rw [if_pos hp]
      · rw [if_neg hp]
        obtain ⟨_, _, h4⟩ := h1
        rw [h4 p, if_neg hp]

/-- A call of `run`. -/
theorem go_run [Inhabited V] {y : Sys S V W} {src dst : Nat → Nat} (hw : WF y src dst) (hc : NoCircle y src) (n : Nat) (cs : List (Call W))
    (b : Bool) (log : List (Res W)) (σ : Nat → S) : ∃ σ', StepsTo y n σ σ' ∧
    Go y (calm ⟨.next, .run n :: cs, b, log⟩ σ) (calm ⟨.next, cs, true, log ++ [.ran]⟩ σ') := by
  obtain ⟨σ', h1, g⟩ := go_busy hw hc (⟨.runWait (List.range y.k), cs, true, log⟩ : HostSt V W) n n 0 σ (by omega)
  refine ⟨σ', h1, ?_⟩
  have e1 : Go y (calm ⟨.next, .run n :: cs, b, log⟩ σ) (calm ⟨.runSend n (List.range y.k), cs, true, log⟩ σ) :=
    go_host (by rfl)
  have e2 := go_host_all (y := y) (fun l => ⟨.runSend n l, cs, true, log⟩) (fun _ => ⟨.idle, noFlags⟩) (fun _ => ⟨.top n 0, noFlags⟩) (by
    intro i rest hi c hh hs
    exact go_host_svc (y := y) (c := c) hi (hw.cap (toSvc i)) (v := .steps n) (h' := ⟨.runSend n rest, cs, true, log⟩)
      (by rw [hh]; rfl) (by rw [hs]; rfl)) (calm ⟨.runSend n (List.range y.k), cs, true, log⟩ σ) rfl (fun i _ => rfl)
  have e3 : Go y (⟨⟨.runSend n [], cs, true, log⟩, fun i => if i < y.k then ⟨.top n 0, noFlags⟩ else ⟨.idle, noFlags⟩, fun p => ⟨.idle, σ p⟩⟩ : Cfg S V W)
      (busy y ⟨.runWait (List.range y.k), cs, true, log⟩ n 0 σ) := go_host (by rfl)
  have e4 := go_services hw (⟨.runWait (List.range y.k), cs, true, log⟩ : HostSt V W) (fun _ => ⟨.top n n, noFlags⟩) (fun _ => ⟨.runDone, noFlags⟩)
    (fun p => ⟨.idle, σ' p⟩) (fun p => ⟨.idle, σ' p⟩) (by
      intro i hi c _ hs hm
      have e1 := go_svc (y := y) (c := c) hi (s' := ⟨.sendPh .host (y.pms i) n n, noFlags⟩) (by
        rw [hs]
        simp [svcView, nextPhase, noFlags])
      have e2 := go_send hw hi .host n n noFlags σ' ⟨c.h, upd c.sv i ⟨.sendPh .host (y.pms i) n n, noFlags⟩, c.md⟩ (by simp) hm
      have e3 := go_svc (y := y) (c := Cfg.put y ⟨c.h, upd c.sv i ⟨.sendPh .host (y.pms i) n n, noFlags⟩, c.md⟩ i
        ⟨.sendPh .host [] n n, noFlags⟩ (fun p => react y p .host (σ' p))) hi (s' := ⟨.runDone, noFlags⟩) (by
          rw [put_sv]
          simp [svcView])
      refine e1.trans (e2.trans (e3.trans (Go.of_eq ?_)))
      simp only [Cfg.put, upd_upd]
      rfl) (busy y ⟨.runWait (List.range y.k), cs, true, log⟩ n n σ') rfl (by intro i hi; simp [busy, hi]) (fun p _ => rfl)
  have e5 := go_host_all (y := y) (fun l => ⟨.runWait l, cs, true, log⟩) (fun _ => ⟨.runDone, noFlags⟩) (fun _ => ⟨.idle, noFlags⟩) (by
    intro i rest hi c hh hs
    exact go_svc_host (y := y) (c := c) hi (hw.cap (fromSvc i)) (v := .done) (s' := ⟨.idle, noFlags⟩)
      (by rw [hs]; rfl) (by rw [hh]; rfl)) ⟨⟨.runWait (List.range y.k), cs, true, log⟩,
        fun i => if i < y.k then ⟨.runDone, noFlags⟩ else ⟨.idle, noFlags⟩, fun p => ⟨.idle, σ' p⟩⟩ rfl (by intro i hi; simp [hi])
  have e6 : Go y (calm ⟨.runWait [], cs, true, log⟩ σ') (calm ⟨.next, cs, true, log ++ [.ran]⟩ σ') := go_host (by rfl)
  refine e1.trans (e2.trans (e3.trans (g.trans (e4.trans ((Go.of_eq ?_).trans (e5.trans ((Go.of_eq ?_).trans e6)))))))
  · congr 1
    · funext i
      by_cases hi : i < y.k
      · rw [if_pos hi, if_pos hi]
      · rw [if_neg hi, if_neg hi]; simp [busy, hi]
    · funext p
      split <;> rfl
  · unfold calm
    congr 1
    funext i
    split
    · rfl
    · rename_i hi; dsimp only; rw [if_neg hi]

end Verif.EndToEnd
