import Verif.Learning.VarUpdate
import Verif.Learning.RuleObjProps
import Mathlib.Tactic.Linarith
import Mathlib.Tactic.Ring
import Mathlib.Data.List.Induction

/-!
# C105: setting a Var of a running learning connection changes what that Var stands for and nothing else
-/

namespace Verif.Learning

/-! ## Specification -/

/-- The values given to the impulse of trace `i` by a history. -/
def impSets (i : Trc) : List Cmd → List ℚ
  | [] => []
  | .imp j q :: cs => if j = i then q :: impSets i cs else impSets i cs
  | _ :: cs => impSets i cs

/-- The values given to the time constant of trace `i`. -/
def tauSets (i : Trc) : List Cmd → List ℚ
  | [] => []
  | .tau j q :: cs => if j = i then q :: tauSets i cs else tauSets i cs
  | _ :: cs => tauSets i cs

/-- The texts given to target `g`. -/
def textSets (g : Tgt) : List Cmd → List (List Char)
  | [] => []
  | .text h s :: cs => if h = g then s :: textSets g cs else textSets g cs
  | _ :: cs => textSets g cs

/-- The last value of a list, or a default. -/
def lastOr {α : Type} (l : List α) (d : α) : α := l.getLast?.getD d

/-! ## Lemmas -/

theorem truncQ_int (z : Int) : truncQ (z : ℚ) = z := by
  unfold truncQ; split <;> simp

theorem truncQ_nonneg {q : ℚ} (h : 0 ≤ q) : truncQ q = ⌊q⌋ := by
  unfold truncQ; rw [if_neg (not_lt.2 h)]

theorem store_idem (b : Bool) (q : ℚ) : store b (store b q) = store b q := by
  cases b
  · rfl
  · simp [store, truncQ_int]

theorem store_nonneg (b : Bool) {q : ℚ} (h : 0 ≤ q) : 0 ≤ store b q := by
  cases b
  · exact h
  · simp only [store, if_true, truncQ_nonneg h]
    exact_mod_cast Int.floor_nonneg.2 h

theorem texts_self (t : Texts) : t.set .dw t.dw = t := rfl

theorem run_snoc (b : Bool) (l l' : Live) (cs : List Cmd) (c : Cmd) :
    l.run b (cs ++ [c]) = some l' ↔ ∃ m, l.run b cs = some m ∧ m.set b c = some l' := by
  unfold Live.run
  rw [List.foldlM_append]
  simp [Option.bind_eq_some_iff]

theorem set_some {b : Bool} {l l' : Live} {c : Cmd} :
    l.set b c = some l' ↔ l.vars.apply b c = some l'.vars ∧ onVarUpdate l.rule l'.vars = some l'.rule := by
  unfold Live.set
  simp only [Option.bind_eq_some_iff, Option.map_eq_some_iff]
  constructor
  · rintro ⟨v, h1, r, h2, rfl⟩; exact ⟨h1, h2⟩
  · rintro ⟨h1, h2⟩; exact ⟨_, h1, _, h2, rfl⟩

theorem lastOr_snoc {α : Type} (l : List α) (a d : α) : lastOr (l ++ [a]) d = a := by simp [lastOr]

theorem impSets_append (i : Trc) (a b : List Cmd) : impSets i (a ++ b) = impSets i a ++ impSets i b := by
  induction a with
  | nil => rfl
  | cons c cs ih => cases c <;> simp only [List.cons_append, impSets, ih]; split <;> rfl

theorem tauSets_append (i : Trc) (a b : List Cmd) : tauSets i (a ++ b) = tauSets i a ++ tauSets i b := by
  induction a with
  | nil => rfl
  | cons c cs ih => cases c <;> simp only [List.cons_append, tauSets, ih]; split <;> rfl

theorem textSets_append (i : Tgt) (a b : List Cmd) : textSets i (a ++ b) = textSets i a ++ textSets i b := by
  induction a with
  | nil => rfl
  | cons c cs ih => cases c <;> simp only [List.cons_append, textSets, ih]; split <;> rfl

/-- The Vars after a history. -/
theorem vars_history (b : Bool) (t : Texts) (p : Params) (l0 : Live) (h0 : Live.build b t p = some l0) (cs : List Cmd) :
    ∀ l, l0.run b cs = some l →
      (∀ i, l.vars.imp i = store b (lastOr (impSets i cs) (p.imp i))) ∧
      (∀ i, l.vars.tau i = store b (lastOr (tauSets i cs) (p.tau i))) ∧
      (∀ g, l.vars.texts.of g = if textSets g cs = [] then t.of g else (textSets g cs).getLast?) := by
  obtain ⟨r, hr, rfl⟩ := Option.map_eq_some_iff.1 h0
  induction cs using List.reverseRecOn with
  | nil =>
    intro l hl
    cases hl
    exact ⟨fun i => rfl, fun i => rfl, fun g => rfl⟩
  | append_singleton cs c ih =>
    intro l hl
    obtain ⟨m, hm, hs⟩ := (run_snoc b _ _ cs c).1 hl
    obtain ⟨h1, h2, h3⟩ := ih m hm
    obtain ⟨ha, _⟩ := set_some.1 hs
    simp only [impSets_append, tauSets_append, textSets_append]
    cases c with
    | imp j q =>
      simp only [ConnVars.apply, Option.some.injEq] at ha
      rw [← ha]
      refine ⟨fun i => ?_, fun i => by simpa [tauSets] using h2 i, fun g => by simpa [textSets] using h3 g⟩
      by_cases hij : j = i
      · subst hij; simp [impSets, lastOr_snoc]
      · simp [impSets, hij, Function.update_of_ne (Ne.symm hij), h1]
    | tau j q =>
      simp only [ConnVars.apply, Option.some.injEq] at ha
      rw [← ha]
      refine ⟨fun i => by simpa [impSets] using h1 i, fun i => ?_, fun g => by simpa [textSets] using h3 g⟩
      by_cases hij : j = i
      · subst hij; simp [tauSets, lastOr_snoc]
      · simp [tauSets, hij, Function.update_of_ne (Ne.symm hij), h2]
    | text j s =>
      simp only [ConnVars.apply] at ha
      split at ha
      · rw [← Option.some.inj ha]
        refine ⟨fun i => by simpa [impSets] using h1 i, fun i => by simpa [tauSets] using h2 i, fun g => ?_⟩
        rw [texts_set_of]
        by_cases hg : g = j
        · subst hg; simp [textSets]
        · simp [textSets, hg, Ne.symm hg, h3]
      · cases ha
    | other =>
      simp only [ConnVars.apply, Option.some.injEq] at ha
      rw [← ha]
      exact ⟨fun i => by simpa [impSets] using h1 i, fun i => by simpa [tauSets] using h2 i, fun g => by simpa [textSets] using h3 g⟩

/-- The rule in use is the one constructed from its own attributes, and its texts are those of the Vars. -/
theorem rule_invariant (b : Bool) (t : Texts) (p : Params) (l0 : Live) (h0 : Live.build b t p = some l0) (cs : List Cmd) :
    ∀ l, l0.run b cs = some l →
      construct l.vars.texts l.rule.par = some l.rule ∧ l.rule.par.epoch = p.epoch ∧
      (cs ≠ [] → l.rule.par.imp = l.vars.imp ∧ l.rule.par.tau = l.vars.tau) := by
  obtain ⟨r, hr, rfl⟩ := Option.map_eq_some_iff.1 h0
  have hp : r.par = p := (construct_some.1 hr).2.1
  induction cs using List.reverseRecOn with
  | nil =>
    intro l hl
    cases hl
    exact ⟨by rw [hp]; exact hr, by rw [hp], fun h => absurd rfl h⟩
  | append_singleton cs c ih =>
    intro l hl
    obtain ⟨m, hm, hs⟩ := (run_snoc b _ _ cs c).1 hl
    obtain ⟨h1, h2, _⟩ := ih m hm
    obtain ⟨_, hu⟩ := set_some.1 hs
    have he : 0 < m.rule.par.epoch := (construct_some.1 h1).2.2.1.2.2
    have := C92_update_as_constructed m.rule l.rule l.vars he hu
    have hpar := (construct_some.1 this).2.1
    refine ⟨by rw [hpar]; exact this, by rw [hpar]; exact h2, fun _ => by rw [hpar]; exact ⟨rfl, rfl⟩⟩

/-! ## Theorems -/

/-- **C105 (every history).** After any non-empty history of accepted `set` calls the connection uses the rule freshly constructed from: for each
trace parameter the stored form of the value it was last set to – of the value the rule was constructed with, if it never was –, for each target
the text it was last set to, and the original epoch length. After an empty history it uses the original rule. -/
theorem C105_history (b : Bool) (t : Texts) (p : Params) (l0 l : Live) (h0 : Live.build b t p = some l0) (cs : List Cmd)
    (h : l0.run b cs = some l) :
    (cs = [] → construct t p = some l.rule) ∧
    (cs ≠ [] → ∃ t' : Texts, (∀ g, t'.of g = if textSets g cs = [] then t.of g else (textSets g cs).getLast?) ∧
      construct t' ⟨fun i => store b (lastOr (impSets i cs) (p.imp i)), fun i => store b (lastOr (tauSets i cs) (p.tau i)), p.epoch⟩ =
        some l.rule) := by
  constructor
  · rintro rfl
    obtain ⟨r, hr, rfl⟩ := Option.map_eq_some_iff.1 h0
    cases h
    exact hr
  · intro hne
    obtain ⟨v1, v2, v3⟩ := vars_history b t p l0 h0 cs l h
    obtain ⟨r1, r2, r3⟩ := rule_invariant b t p l0 h0 cs l h
    obtain ⟨r4, r5⟩ := r3 hne
    refine ⟨l.vars.texts, v3, ?_⟩
    have : (⟨fun i => store b (lastOr (impSets i cs) (p.imp i)), fun i => store b (lastOr (tauSets i cs) (p.tau i)), p.epoch⟩ : Params) =
        l.rule.par := by
      cases hl : l.rule.par with
      | mk a c e =>
        rw [hl] at r2 r4 r5
        dsimp only at r2 r4 r5
        rw [r4, r5, r2, Params.mk.injEq]
        exact ⟨funext fun i => (v1 i).symm, funext fun i => (v2 i).symm, rfl⟩
    rw [this]; exact r1

/-- **C105 (floating point).** In the floating-point model a history of `set` calls changes exactly the parameters that were set. -/
theorem C105_float (t : Texts) (p : Params) (l0 l : Live) (h0 : Live.build false t p = some l0) (cs : List Cmd)
    (h : l0.run false cs = some l) :
    (∀ i, l.rule.par.imp i = lastOr (impSets i cs) (p.imp i)) ∧ (∀ i, l.rule.par.tau i = lastOr (tauSets i cs) (p.tau i)) ∧
    (∀ i, l.vars.imp i = l.rule.par.imp i) ∧ (∀ i, l.vars.tau i = l.rule.par.tau i) := by
  obtain ⟨v1, v2, _⟩ := vars_history false t p l0 h0 cs l h
  obtain ⟨_, _, r3⟩ := rule_invariant false t p l0 h0 cs l h
  by_cases hc : cs = []
  · subst hc
    obtain ⟨r, hr, rfl⟩ := Option.map_eq_some_iff.1 h0
    cases h
    have hp : r.par = p := (construct_some.1 hr).2.1
    refine ⟨fun i => by rw [hp]; rfl, fun i => by rw [hp]; rfl, fun i => by rw [hp]; rfl, fun i => by rw [hp]; rfl⟩
  · obtain ⟨r4, r5⟩ := r3 hc
    refine ⟨fun i => by rw [r4, v1]; rfl, fun i => by rw [r5, v2]; rfl, fun i => by rw [r4], fun i => by rw [r5]⟩

/-- **C105 (sets that are not refused).** A `set` of a Var that is no parameter of the rule is always accepted. -/
theorem C105_other_accepted (b : Bool) (t : Texts) (p : Params) (l0 l : Live) (h0 : Live.build b t p = some l0) (cs : List Cmd)
    (h : l0.run b cs = some l) : ∃ l', l.set b .other = some l' := by
  obtain ⟨r1, r2, r3⟩ := rule_invariant b t p l0 h0 cs l h
  obtain ⟨_, hp, hok, hv, hs⟩ := construct_some.1 r1
  have hnn : (∀ i, 0 ≤ l.vars.imp i) ∧ (∀ i, 0 ≤ l.vars.tau i) := by
    by_cases hc : cs = []
    · subst hc
      obtain ⟨r, hr, rfl⟩ := Option.map_eq_some_iff.1 h0
      cases h
      have hok := (construct_some.1 hr).2.2.1
      exact ⟨fun i => store_nonneg b (hok.1 i), fun i => store_nonneg b (hok.2.1 i)⟩
    · obtain ⟨r4, r5⟩ := r3 hc
      rw [← r4, ← r5]; exact ⟨hok.1, hok.2.1⟩
  have : ∃ r', onVarUpdate l.rule ⟨l.vars.texts, l.vars.imp, l.vars.tau⟩ = some r' := by
    have := (C92_update_accepts l.vars.texts l.rule.par l.rule r1 .dw l.vars.texts.dw l.vars.imp l.vars.tau)
    rw [texts_self] at this
    refine this.2 ⟨⟨l.vars.texts, ⟨l.vars.imp, l.vars.tau, l.rule.par.epoch⟩, l.rule.dec, l.rule.series⟩, ?_⟩
    exact construct_some.2 ⟨rfl, rfl, ⟨hnn.1, hnn.2, hok.2.2⟩, hv, hs⟩
  obtain ⟨r', hr'⟩ := this
  exact ⟨⟨r', l.vars⟩, set_some.2 ⟨rfl, hr'⟩⟩

/-- **C105 (fixed point), finding.** In the fixed-point model the first `set` of any Var – say of the weights – replaces every trace parameter by
its integer part: the parameters stay what they were exactly if they were integers. -/
theorem C105_fixed_unrelated_iff (t : Texts) (p : Params) (l0 : Live) (h0 : Live.build true t p = some l0) :
    ∃ l, l0.set true .other = some l ∧
      (∀ i, l.rule.par.imp i = ⌊p.imp i⌋ ∧ l.rule.par.tau i = ⌊p.tau i⌋) ∧
      (l.rule.par = l0.rule.par ↔ ∀ i, (∃ z : Int, p.imp i = z) ∧ ∃ z : Int, p.tau i = z) := by
  obtain ⟨l, hl⟩ := C105_other_accepted true t p l0 l0 h0 [] rfl
  have hrun : l0.run true [.other] = some l := (run_snoc true l0 l [] .other).2 ⟨l0, rfl, hl⟩
  obtain ⟨v1, v2, _⟩ := vars_history true t p l0 h0 _ l hrun
  obtain ⟨_, re, r3⟩ := rule_invariant true t p l0 h0 _ l hrun
  obtain ⟨r4, r5⟩ := r3 (by simp)
  obtain ⟨r, hr, rfl⟩ := Option.map_eq_some_iff.1 h0
  obtain ⟨_, hp, hok, _, _⟩ := construct_some.1 hr
  have e1 : ∀ i, l.rule.par.imp i = ⌊p.imp i⌋ := by
    intro i; rw [r4, v1]
    simp [impSets, lastOr, store, truncQ_nonneg (hok.1 i)]
  have e2 : ∀ i, l.rule.par.tau i = ⌊p.tau i⌋ := by
    intro i; rw [r5, v2]
    simp [tauSets, lastOr, store, truncQ_nonneg (hok.2.1 i)]
  refine ⟨l, hl, fun i => ⟨e1 i, e2 i⟩, ?_⟩
  dsimp only
  rw [hp]
  constructor
  · intro h i
    exact ⟨⟨⌊p.imp i⌋, by rw [← e1 i, h]⟩, ⟨⌊p.tau i⌋, by rw [← e2 i, h]⟩⟩
  · intro h
    cases hl : l.rule.par with
    | mk a c e =>
      rw [hl] at e1 e2 re
      dsimp only at e1 e2 re
      cases p with
      | mk a' c' e' =>
        rw [Params.mk.injEq]
        refine ⟨funext fun i => ?_, funext fun i => ?_, re⟩
        · obtain ⟨z, hz⟩ := (h i).1
          dsimp only at hz e1
          rw [e1, hz, Int.floor_intCast]
        · obtain ⟨z, hz⟩ := (h i).2
          dsimp only at hz e2
          rw [e2, hz, Int.floor_intCast]

/-- **C105 (fixed point, integer parameters).** If the rule was constructed with integer parameters and only integers are set, the fixed-point
model changes exactly the parameters that were set. -/
theorem C105_fixed_integers (t : Texts) (p : Params) (l0 l : Live) (h0 : Live.build true t p = some l0) (cs : List Cmd)
    (h : l0.run true cs = some l)
    (hi : ∀ i, (∃ z : Int, p.imp i = z) ∧ (∀ q ∈ impSets i cs, ∃ z : Int, q = z))
    (ht : ∀ i, (∃ z : Int, p.tau i = z) ∧ (∀ q ∈ tauSets i cs, ∃ z : Int, q = z)) :
    (∀ i, l.rule.par.imp i = lastOr (impSets i cs) (p.imp i)) ∧ (∀ i, l.rule.par.tau i = lastOr (tauSets i cs) (p.tau i)) := by
  have key : ∀ (s : List ℚ) (d : ℚ), (∃ z : Int, d = z) → (∀ q ∈ s, ∃ z : Int, q = z) → store true (lastOr s d) = lastOr s d := by
    intro s d hd hs
    have : ∃ z : Int, lastOr s d = z := by
      unfold lastOr
      cases hg : s.getLast? with
      | none => exact hd
      | some q => exact hs q (List.mem_of_getLast? hg)
    obtain ⟨z, hz⟩ := this
    rw [hz]; simp [store, truncQ_int]
  obtain ⟨v1, v2, _⟩ := vars_history true t p l0 h0 cs l h
  obtain ⟨_, _, r3⟩ := rule_invariant true t p l0 h0 cs l h
  by_cases hc : cs = []
  · subst hc
    obtain ⟨r, hr, rfl⟩ := Option.map_eq_some_iff.1 h0
    cases h
    have hp : r.par = p := (construct_some.1 hr).2.1
    exact ⟨fun i => by rw [hp]; rfl, fun i => by rw [hp]; rfl⟩
  · obtain ⟨r4, r5⟩ := r3 hc
    exact ⟨fun i => by rw [r4, v1, key _ _ (hi i).1 (hi i).2], fun i => by rw [r5, v2, key _ _ (ht i).1 (ht i).2]⟩

/-- **C105 (get), finding.** Before the first `set`, `get` of a trace parameter of the fixed-point model returns its integer part although the
model computes with the fraction too. -/
theorem C105_get_before_set (t : Texts) (p : Params) (l0 : Live) (h0 : Live.build true t p = some l0) (i : Trc) :
    l0.vars.imp i = ⌊p.imp i⌋ ∧ l0.rule.par.imp i = p.imp i ∧ l0.vars.tau i = ⌊p.tau i⌋ ∧ l0.rule.par.tau i = p.tau i := by
  obtain ⟨r, hr, rfl⟩ := Option.map_eq_some_iff.1 h0
  obtain ⟨_, hp, hok, _, _⟩ := construct_some.1 hr
  dsimp only
  rw [hp]
  simp [store, truncQ_nonneg (hok.1 i), truncQ_nonneg (hok.2.1 i)]

/-- **C105 (text of a target without rule).** Setting it is refused. -/
theorem C105_absent_text_refused (b : Bool) (t : Texts) (p : Params) (l0 l : Live) (h0 : Live.build b t p = some l0) (cs : List Cmd)
    (h : l0.run b cs = some l) (g : Tgt) (hg : t.of g = none) (s : List Char) : l.set b (.text g s) = none := by
  have hno : textSets g cs = [] ∧ l.vars.texts.of g = none := by
    revert l
    induction cs using List.reverseRecOn with
    | nil =>
      intro l hl
      obtain ⟨r, hr, rfl⟩ := Option.map_eq_some_iff.1 h0
      cases hl; exact ⟨rfl, hg⟩
    | append_singleton cs c ih =>
      intro l hl
      obtain ⟨m, hm, hs⟩ := (run_snoc b _ _ cs c).1 hl
      obtain ⟨i1, i2⟩ := ih m hm
      obtain ⟨ha, _⟩ := set_some.1 hs
      rw [textSets_append, i1]
      cases c with
      | imp j q => simp only [ConnVars.apply, Option.some.injEq] at ha; rw [← ha]; exact ⟨rfl, i2⟩
      | tau j q => simp only [ConnVars.apply, Option.some.injEq] at ha; rw [← ha]; exact ⟨rfl, i2⟩
      | other => simp only [ConnVars.apply, Option.some.injEq] at ha; rw [← ha]; exact ⟨rfl, i2⟩
      | text j s' =>
        simp only [ConnVars.apply] at ha
        split at ha
        · rename_i hj
          have hne : j ≠ g := by rintro rfl; rw [i2] at hj; cases hj
          rw [← Option.some.inj ha]
          exact ⟨by simp [textSets, hne], by rw [texts_set_of, if_neg (Ne.symm hne)]; exact i2⟩
        · cases ha
  unfold Live.set ConnVars.apply
  simp [hno.2]

/-! ## What this does to the traces -/

theorem roundEven_err (q : ℚ) : |(roundEven q : ℚ) - q| ≤ 1 / 2 := by
  have h1 := Int.floor_le q
  have h2 := Int.lt_floor_add_one q
  unfold roundEven
  rw [abs_le]
  split
  · constructor <;> linarith
  · rename_i h3
    split
    · push_cast; constructor <;> linarith
    · rename_i h4
      split
      · constructor <;> linarith
      · push_cast; constructor <;> linarith

/-- **C105 (parameters before the first `set`).** The model represents an impulse with an error of at most 1/512. -/
theorem C105_impulse_precision (e : ℚ → ℚ) (p : Params) (i : Trc) :
    |((trCfg e p i).imp : ℚ) + ((trCfg e p i).frac : ℚ) / 256 - p.imp i| ≤ 1 / 512 := by
  have h := roundEven_err ((p.imp i - ⌊p.imp i⌋) * 2 ^ 8)
  dsimp only [trCfg]
  rw [abs_le] at h ⊢
  obtain ⟨h1, h2⟩ := h
  have h3 := Int.floor_add_fract (p.imp i)
  norm_num at h1 h2 ⊢
  constructor <;> linarith

/-- **C105 (fixed point), finding.** After the first `set` of any Var an impulse below 1 is gone – a spike adds nothing to the trace – and a time
constant below 1 makes the trace vanish within one step. -/
theorem C105_fixed_small_parameters (e : ℚ → ℚ) (t : Texts) (p : Params) (l0 l : Live) (h0 : Live.build true t p = some l0)
    (h : l0.set true .other = some l) (i : Trc) :
    (p.imp i < 1 → ∀ (rnd : Int) (tr : Int), 0 ≤ rnd → 0 ≤ tr → tr ≤ 127 → addImpulse (trCfg e l.rule.par i) rnd tr = tr) ∧
    (p.tau i < 1 → ∀ (rnd : ℚ) (tr : Int), 0 ≤ rnd → decayTrace (trCfg e l.rule.par i) rnd tr = 0) := by
  obtain ⟨l', hl', hv, _⟩ := C105_fixed_unrelated_iff t p l0 h0
  rw [h] at hl'
  cases hl'
  obtain ⟨r, hr, rfl⟩ := Option.map_eq_some_iff.1 h0
  obtain ⟨_, hp, hok, _, _⟩ := construct_some.1 hr
  constructor
  · intro hi rnd tr h1 h2 h3
    have hz : ⌊p.imp i⌋ = 0 := by rw [Int.floor_eq_zero_iff]; exact ⟨hok.1 i, hi⟩
    have : l.rule.par.imp i = 0 := by rw [(hv i).1, hz]; rfl
    simp only [addImpulse, trCfg, this, Int.floor_zero, stochRound]
    have hr0 : roundEven ((0 - ((0 : Int) : ℚ)) * 2 ^ 8) = 0 := by norm_num [roundEven]
    rw [hr0, if_neg (by push_cast; exact not_lt.2 (by exact_mod_cast h1))]
    unfold clipI; omega
  · intro hi rnd tr h1
    have hz : ⌊p.tau i⌋ = 0 := by rw [Int.floor_eq_zero_iff]; exact ⟨hok.2.1 i, hi⟩
    have : l.rule.par.tau i = 0 := by rw [(hv i).2, hz]; rfl
    simp only [decayTrace, trCfg, this, if_pos, stochRound]
    rw [if_neg (by simpa using h1)]
    simp

/-! ## A concrete case -/

/-- Impulses 1/2 and time constants 5/2. -/
def parFrac : Params := ⟨fun _ => 1 / 2, fun _ => 5 / 2, 4⟩

theorem parFrac_built : ∃ l0, Live.build true texts0 parFrac = some l0 := by
  obtain ⟨r, hr, _⟩ := texts0_accepted
  obtain ⟨_, _, _, hv, hs⟩ := construct_some.1 hr
  refine ⟨_, Option.map_eq_some_iff.2 ⟨⟨texts0, parFrac, r.dec, r.series⟩, construct_some.2 ⟨rfl, rfl, ?_, hv, hs⟩, rfl⟩⟩
  exact ⟨fun _ => by norm_num [parFrac], fun _ => by norm_num [parFrac], by norm_num [parFrac]⟩

/-- **C105 is false of the fixed-point model.** With impulses 1/2, setting another Var turns all impulses into 0. -/
theorem C105_witness : ∃ l0 l, Live.build true texts0 parFrac = some l0 ∧ l0.set true .other = some l ∧
    l0.rule.par.imp .x1 = 1 / 2 ∧ l.rule.par.imp .x1 = 0 ∧ l.rule.par.tau .x1 = 2 := by
  obtain ⟨l0, h0⟩ := parFrac_built
  obtain ⟨l, hl, hv, _⟩ := C105_fixed_unrelated_iff texts0 parFrac l0 h0
  refine ⟨l0, l, h0, hl, (C105_get_before_set _ _ _ h0 .x1).2.1, ?_, ?_⟩
  · rw [(hv .x1).1]; norm_num [parFrac]
  · rw [(hv .x1).2]; norm_num [parFrac]

/-- A history that meets the hypotheses of `C105_history`: a `set` of the weights and one of an impulse. -/
example : ∃ l0 l1 l, Live.build true texts0 parFrac = some l0 ∧ l0.run true [.other] = some l1 ∧ l1.set true .other = some l := by
  obtain ⟨l0, h0⟩ := parFrac_built
  obtain ⟨l1, h1⟩ := C105_other_accepted true texts0 parFrac l0 l0 h0 [] rfl
  have hr : l0.run true [.other] = some l1 := (run_snoc true l0 l1 [] .other).2 ⟨l0, rfl, h1⟩
  obtain ⟨l, hl⟩ := C105_other_accepted true texts0 parFrac l0 l1 h0 _ hr
  exact ⟨l0, l1, l, h0, hr, hl⟩

end Verif.Learning
