import Verif.Learning.FloatRule

/-!
# C87: reward-modulated STDP
-/

set_option linter.unusedSectionVars false

namespace Verif.Learning

open Spec
open Verif.Weights (SignMode)

namespace Spec
variable {K : Type} [Field K]

/-- The STDP term of epoch `m`: at the last pre-synaptic spike `aMinus` times the post-synaptic trace `y1` received last in the epoch (which decays by `dY` per
step), at the last post-synaptic spike `aPlus` times the pre-synaptic trace. -/
def stdpTerm (aMinus aPlus impX dX dY : K) (T : Nat) (pre post : Nat → Bool) (y1 : Nat → K) (m : Nat) : K :=
  ∑ j ∈ Finset.range T, ((if pre (m * T + j + 1) = true ∧ ¬ Later T pre (m * T + j + 1) then aMinus * (y1 ((m + 1) * T) * dY ^ (j + 1)) else 0) +
    (if post (m * T + j + 1) = true ∧ ¬ Later T post (m * T + j + 1) then aPlus * trace impX dX T pre (m * T + j + 1) else 0))

/-- The eligibility trace: a leaky sum of STDP terms with leak `rate` per epoch. -/
def elig (e0 rate : K) (term : Nat → K) (m : Nat) : K := e0 * (1 - rate) ^ m + ∑ k ∈ Finset.range m, (1 - rate) ^ (m - 1 - k) * term k

end Spec

section
variable {K : Type} [Field K] [LinearOrder K]

theorem elig_succ (e0 rate : K) (term : Nat → K) (m : Nat) : elig e0 rate term (m + 1) = elig e0 rate term m * (1 - rate) + term m := by
  unfold elig
  rw [Finset.sum_range_succ, add_mul, Finset.sum_mul, add_assoc]
  congr 1
  · rw [pow_succ]; ring
  · congr 1
    · apply Finset.sum_congr rfl
      intro k hk
      have := Finset.mem_range.1 hk
      rw [show m + 1 - 1 - k = (m - 1 - k) + 1 by omega, pow_succ]; ring
    · simp

/-- The products of `RewardModulatedSTDP`. -/
def rstdpDtProducts (m1 e1 m2 e2 m3 e3 : Int) : List Product :=
  [⟨.x0, m1, e1, [⟨.v .y1, none, false⟩], none⟩, ⟨.y0, m2, e2, [⟨.v .x1, none, false⟩], none⟩, ⟨.u, m3, e3, [⟨.v .t, none, false⟩], some 0⟩]

def rstdpDwProducts : List Product := [⟨.u, 1, 7, [⟨.v .t, none, false⟩, ⟨.v .y2, none, false⟩], some 0⟩]

/-- The traces received last. -/
theorem recvN_y (c : FCfg K) (h2 : c.two = false) (m : Nat) (inp : Nat → FInp K) (s : FSt K) (i : Nat) :
    (recvN c m inp s (i + 1)).y1 = some (inp (m * c.tEpoch + i + 1)).y1 ∧ (recvN c m inp s (i + 1)).y2 = some (inp (m * c.tEpoch + i + 1)).y2 := by
  simp only [recvN, fRecv, h2, Bool.false_eq_true, if_false]
  exact ⟨trivial, trivial⟩

/-- Parameters of a three-factor rule (learning_rule.py:735-751): impulses of the post-synaptic traces are zero, `dY` is `exp(-1/65535)`. -/
structure ThreeFactor (c : FCfg K) (dY : K) : Prop where
  two : c.two = false
  y1 : c.cy1 = ⟨0, some dY⟩
  y2 : c.cy2 = ⟨0, some dY⟩

theorem fhist_zero_imp (d : K) (ts : Nat) (y : K) (i : Nat) : fhist ⟨0, some d⟩ ts (some y) i = some (y * d ^ i) := by
  rw [fhist_closed]; simp

/-- **C87.** The eligibility trace. For every pair of spike trains, received traces and epoch length: after `n` epochs it is the leaky sum of the STDP terms. -/
theorem C87_eligibility (c : FCfg K) (hT : 0 < c.tEpoch) (hg : c.graded = .regular) (dY : K) (h3 : ThreeFactor c dY) (hdec : c.dec = some 0)
    (m1 e1 m2 e2 m3 e3 : Int) (hdt : c.dt = some (rstdpDtProducts m1 e1 m2 e2 m3 e3)) (dx : K) (hx : c.cx1.decay = some dx)
    (s0 : FSt K) (h0 : Fresh s0) (t0 : K) (ht : s0.t = some t0) (inp : Nat → FInp K) (n : Nat) :
    (fRun c s0 inp (n * c.tEpoch)).t = some (elig t0 (-coef m3 e3)
      (stdpTerm (coef m1 e1) (coef m2 e2) c.cx1.imp dx dY c.tEpoch (preSpk inp) (postSpk inp) (fun t => (inp t).y1)) n) := by
  induction n with
  | zero => simp [fRun, ht, elig]
  | succ n ih =>
    rw [fRun_epoch c s0 inp hT n]
    obtain ⟨h4, h5, h6⟩ := run_start c hT hg s0 h0 inp n
    obtain ⟨_, _, _, _, h7⟩ := recvN_traces c hg n inp _ h4 h5 c.tEpoch (Nat.le_refl _)
    have hown : own c .x1 = true := by simp [own, V.isTrace]
    obtain ⟨r2, hr2, hs2⟩ := last_term c hT hg s0 h0 inp n (v := .y1) (v' := .x1) rfl hown (by show c.cx1.decay ≠ none; rw [hx]; simp) (coef m2 e2)
    have e2' : decOf c .x1 = dx := by unfold decOf; show (c.cx1.decay).getD 0 = dx; rw [hx]; rfl
    rw [e2'] at hs2
    change coef m2 e2 * (if 0 < (beforeLrn c s0 inp n).ty then 1 else 0) * r2 = _ at hs2
    obtain ⟨k, hk⟩ : ∃ k, c.tEpoch = k + 1 := ⟨c.tEpoch - 1, by omega⟩
    have hyl : (beforeLrn c s0 inp n).y1 = some (inp ((n + 1) * c.tEpoch)).y1 := by
      have := (recvN_y c h3.two n inp (fRun c s0 inp (n * c.tEpoch)) k).1
      rw [← hk, show n * c.tEpoch + k + 1 = (n + 1) * c.tEpoch by rw [Nat.add_mul, hk]; ring] at this
      exact this
    have hr1 : fTraceAt c (beforeLrn c s0 inp n) (fReadTime c (beforeLrn c s0 inp n) .x0) .y1 =
        some ((inp ((n + 1) * c.tEpoch)).y1 * dY ^ (beforeLrn c s0 inp n).tx) := by
      show fhist c.cy1 _ (beforeLrn c s0 inp n).y1 (beforeLrn c s0 inp n).tx = _
      rw [hyl, h3.y1, fhist_zero_imp]
    have hl := (last_sum c hT hg s0 h0 inp n (v := .x1) rfl (fun j => coef m1 e1 * ((inp ((n + 1) * c.tEpoch)).y1 * dY ^ (j + 1)))).2
    have hs1 : coef m1 e1 * (if 0 < (beforeLrn c s0 inp n).tx then 1 else 0) * ((inp ((n + 1) * c.tEpoch)).y1 * dY ^ (beforeLrn c s0 inp n).tx) =
        ∑ j ∈ Finset.range c.tEpoch, if preSpk inp (n * c.tEpoch + j + 1) = true ∧ ¬ Later c.tEpoch (preSpk inp) (n * c.tEpoch + j + 1) then
          coef m1 e1 * ((inp ((n + 1) * c.tEpoch)).y1 * dY ^ (j + 1)) else 0 := by
      have hsum : ∑ j ∈ Finset.range c.tEpoch, (if preSpk inp (n * c.tEpoch + j + 1) = true ∧ ¬ Later c.tEpoch (preSpk inp) (n * c.tEpoch + j + 1) then
          coef m1 e1 * ((inp ((n + 1) * c.tEpoch)).y1 * dY ^ (j + 1)) else 0) =
          lastSum (fun j => spikesOf inp .x1 (n * c.tEpoch + j + 1)) c.tEpoch 0 (fun j => coef m1 e1 * ((inp ((n + 1) * c.tEpoch)).y1 * dY ^ (j + 1))) := by
        unfold lastSum
        apply Finset.sum_congr rfl
        intro j hj
        have hj' := Finset.mem_range.1 hj
        have he := later_epoch (m := n) hj' (spikesOf inp .x1)
        have hpe : ∀ t, spikesOf inp .x1 t = preSpk inp t := fun _ => rfl
        have hpf : spikesOf inp .x1 = preSpk inp := rfl
        simp only [hpe]
        rw [hpf] at he
        by_cases hs : preSpk inp (n * c.tEpoch + j + 1) = true
        · by_cases hL : Later c.tEpoch (preSpk inp) (n * c.tEpoch + j + 1)
          · rw [if_neg (fun h => h.2 hL), if_pos hs, if_pos (he.1 hL)]
          · rw [if_pos ⟨hs, hL⟩, if_pos hs, if_neg (fun h => hL (he.2 h))]
        · rw [if_neg (fun h => hs h.1), if_neg hs]
      rw [hsum, hl]
      show _ = if (beforeLrn c s0 inp n).tx = 0 then 0 else _
      by_cases hz : (beforeLrn c s0 inp n).tx = 0
      · simp [hz]
      · have hp : 0 < (beforeLrn c s0 inp n).tx := by omega
        rw [if_neg hz, if_pos hp, mul_one]
        congr 3
        show _ = (beforeLrn c s0 inp n).tx - 1 + 1
        omega
    have ht' : (beforeLrn c s0 inp n).t = _ := h7.trans ih
    change (match c.dt with
      | none => (beforeLrn c s0 inp n).t
      | some ps => fApply c ((n + 1) * c.tEpoch) (beforeLrn c s0 inp n) ps (beforeLrn c s0 inp n).t) = _
    rw [hdt]
    have hu : fDep c ((n + 1) * c.tEpoch) (beforeLrn c s0 inp n) .u = 1 := by
      simp only [fDep, hdec]
      rw [pow_zero, Nat.mod_one, if_pos rfl]
    change fTraceAt c (beforeLrn c s0 inp n) (fReadTime c (beforeLrn c s0 inp n) .y0) .x1 = some r2 at hr2
    have hrt : fTraceAt c (beforeLrn c s0 inp n) (fReadTime c (beforeLrn c s0 inp n) .u) .t = (beforeLrn c s0 inp n).t := rfl
    simp only [fApply, rstdpDtProducts, List.map_cons, List.map_nil, List.foldl_cons, List.foldl_nil, fProduct, fFactor, hr1, hr2, hrt, hu, ht', nanMul, nanAdd,
      Option.map_some, Option.bind_some, Option.getD_none, Rat.cast_zero, add_zero, zero_add, Bool.false_eq_true, if_false, mul_one]
    congr 1
    rw [elig_succ]
    have hterm : coef m1 e1 * (if 0 < (beforeLrn c s0 inp n).tx then 1 else 0) * ((inp ((n + 1) * c.tEpoch)).y1 * dY ^ (beforeLrn c s0 inp n).tx) +
        coef m2 e2 * (if 0 < (beforeLrn c s0 inp n).ty then 1 else 0) * r2 =
        stdpTerm (coef m1 e1) (coef m2 e2) c.cx1.imp dx dY c.tEpoch (preSpk inp) (postSpk inp) (fun t => (inp t).y1) n := by
      unfold stdpTerm
      rw [Finset.sum_add_distrib, hs1, hs2]
      rfl
    rw [← hterm]
    show _ + ((m1 : K) * 2 ^ (e1 - 7) * (if 0 < (beforeLrn c s0 inp n).tx then 1 else 0) * _ +
      (m2 : K) * 2 ^ (e2 - 7) * (if 0 < (beforeLrn c s0 inp n).ty then 1 else 0) * r2 + _) = _
    simp only [coef]
    ring

/-- **C87.** The weight: every epoch adds the eligibility trace at the start of the epoch times the reward `y2` received last (decayed over the epoch). -/
theorem C87_reward_weight (c : FCfg K) (hT : 0 < c.tEpoch) (hg : c.graded = .regular) (dY : K) (h3 : ThreeFactor c dY) (hdec : c.dec = some 0) (hm : c.mode = .mixed)
    (m1 e1 m2 e2 m3 e3 : Int) (hdt : c.dt = some (rstdpDtProducts m1 e1 m2 e2 m3 e3)) (hdw : c.dw = some rstdpDwProducts) (dx : K) (hx : c.cx1.decay = some dx)
    (s0 : FSt K) (h0 : Fresh s0) (t0 w0 : K) (ht : s0.t = some t0) (hw : s0.w = some w0) (inp : Nat → FInp K) (n : Nat) :
    (fRun c s0 inp (n * c.tEpoch)).w = some (w0 + ∑ k ∈ Finset.range n, elig t0 (-coef m3 e3)
      (stdpTerm (coef m1 e1) (coef m2 e2) c.cx1.imp dx dY c.tEpoch (preSpk inp) (postSpk inp) (fun t => (inp t).y1)) k *
        ((inp ((k + 1) * c.tEpoch)).y2 * dY ^ c.tEpoch)) := by
  induction n with
  | zero => simp [fRun, hw]
  | succ n ih =>
    have hel := C87_eligibility c hT hg dY h3 hdec m1 e1 m2 e2 m3 e3 hdt dx hx s0 h0 t0 ht inp n
    rw [fRun_epoch c s0 inp hT n]
    obtain ⟨h4, h5, h6⟩ := run_start c hT hg s0 h0 inp n
    obtain ⟨_, _, h6w, _, h7⟩ := recvN_traces c hg n inp _ h4 h5 c.tEpoch (Nat.le_refl _)
    obtain ⟨k, hk⟩ : ∃ k, c.tEpoch = k + 1 := ⟨c.tEpoch - 1, by omega⟩
    have hyl : (beforeLrn c s0 inp n).y2 = some (inp ((n + 1) * c.tEpoch)).y2 := by
      have := (recvN_y c h3.two n inp (fRun c s0 inp (n * c.tEpoch)) k).2
      rw [← hk, show n * c.tEpoch + k + 1 = (n + 1) * c.tEpoch by rw [Nat.add_mul, hk]; ring] at this
      exact this
    have hr : fTraceAt c (beforeLrn c s0 inp n) (fReadTime c (beforeLrn c s0 inp n) .u) .y2 = some ((inp ((n + 1) * c.tEpoch)).y2 * dY ^ c.tEpoch) := by
      show fhist c.cy2 _ (beforeLrn c s0 inp n).y2 c.tEpoch = _
      rw [hyl, h3.y2, fhist_zero_imp]
    have ht' : (beforeLrn c s0 inp n).t = _ := h7.trans hel
    have hw' : (beforeLrn c s0 inp n).w = _ := h6w.trans ih
    change (match c.dw with
      | none => (beforeLrn c s0 inp n).w
      | some ps => fSatW c.mode (fApply c ((n + 1) * c.tEpoch) (beforeLrn c s0 inp n) ps (beforeLrn c s0 inp n).w)) = _
    rw [hdw, hm]
    have hu : fDep c ((n + 1) * c.tEpoch) (beforeLrn c s0 inp n) .u = 1 := by
      simp only [fDep, hdec]
      rw [pow_zero, Nat.mod_one, if_pos rfl]
    have hrt : fTraceAt c (beforeLrn c s0 inp n) (fReadTime c (beforeLrn c s0 inp n) .u) .t = (beforeLrn c s0 inp n).t := rfl
    change fApply c ((n + 1) * c.tEpoch) (beforeLrn c s0 inp n) rstdpDwProducts _ = _
    simp only [fApply, rstdpDwProducts, List.map_cons, List.map_nil, List.foldl_cons, List.foldl_nil, fProduct, fFactor, hr, hrt, hu, ht', hw', nanMul, nanAdd,
      Option.map_some, Option.bind_some, Option.getD_none, Rat.cast_zero, add_zero, zero_add, Bool.false_eq_true, if_false, mul_one]
    congr 1
    rw [Finset.sum_range_succ, add_assoc]
    congr 1
    simp

end

/-! ## C87: the texts -/

/-- The `dt` rule of `RewardModulatedSTDP` as a sum of products. -/
def rstdpDtEqn (lr am ap el : Option (Int × Option Int)) : Eqn :=
  ⟨none, scaled lr am [.x0, .var .y1], [(.plus, scaled lr ap [.y0, .var .x1]), (.minus, .u '0' :: .var .t :: litAtoms el)]⟩

theorem rstdpDtEqn_ok (lr am ap el : Option (Int × Option Int)) : (rstdpDtEqn lr am ap el).ok := by
  refine ⟨scaled_ok lr am ?_ (by simp [canonical]) trivial, ?_⟩
  · intro x hx; simp at hx; rcases hx with rfl | rfl <;> exact trivial
  · intro p hp
    simp only [rstdpDtEqn, List.mem_cons, List.not_mem_nil, or_false] at hp
    rcases hp with rfl | rfl
    · refine scaled_ok lr ap ?_ (by simp [canonical]) trivial
      intro x hx; simp at hx; rcases hx with rfl | rfl <;> exact trivial
    · refine ⟨by simp, ?_, ?_⟩
      · intro x hx
        simp only [List.mem_cons] at hx
        rcases hx with rfl | rfl | hx
        · show Char.isDigit '0' = true
          decide
        · exact trivial
        · exact litAtoms_ok el x hx
      · show canonical (litAtoms el)
        have := canonical_lit el (r := []) trivial trivial
        rwa [List.append_nil] at this

theorem rstdpDtEqn_render (lr am ap el : Option (Int × Option Int)) : (rstdpDt lr am ap el).filter (· ≠ ' ') = (rstdpDtEqn lr am ap el).render := by
  have h : renderAtoms (Atom.u '0' :: .var .t :: litAtoms el) = 'u' :: '0' :: '*' :: 't' :: '*' :: (litText el).filter (· ≠ ' ') := by
    rw [← litAtoms_render]
    have := litAtoms_ne el
    cases hl : litAtoms el with
    | nil => exact absurd hl this
    | cons a r => rfl
  simp only [rstdpDt, rstdpDtEqn, Eqn.render, optSgRender, renderTail, List.filter_append, scaled_render _ _ (by simp : [Atom.x0, Atom.var V.y1] ≠ []),
    scaled_render _ _ (by simp : [Atom.y0, Atom.var V.x1] ≠ []), h]
  simp [renderAtoms, Atom.render, V.render, Sg.render]

/-- What the `dt` text compiles to. -/
theorem rstdp_compile (lr am ap el : Option (Int × Option Int)) : compileRule (rstdpDt lr am ap el) =
    (finish ⟨some .x0, none, litMant lr * litMant am, litExp lr + litExp am, [⟨.v .y1, none, false⟩], none⟩).bind fun p =>
      (finish ⟨some .y0, none, litMant lr * litMant ap, litExp lr + litExp ap, [⟨.v .x1, none, false⟩], none⟩).bind fun q =>
        (finish ⟨some .u, some 0, -litMant el, litExp el, [⟨.v .t, none, false⟩], some 0⟩).map fun r => [p, q, r] := by
  unfold compileRule
  rw [C55_tokenizes _ _ (rstdpDtEqn_ok lr am ap el) (rstdpDtEqn_render lr am ap el)]
  simp only [Option.bind_some]
  rw [separate_eqn (rstdpDtEqn_ok lr am ap el)]
  have h3 : ((litAtoms el).map Atom.sym).foldlM genStep (⟨some .u, some 0, -1, 0, [⟨.v .t, none, false⟩], some 0⟩ : PSt) =
      some ⟨some .u, some 0, -litMant el, litExp el, [⟨.v .t, none, false⟩], some 0⟩ := by
    have := lit_fold el ⟨some .u, some 0, -1, 0, [⟨.v .t, none, false⟩], some 0⟩ []
    rw [List.append_nil] at this
    rw [this]
    simp
  have hu : (PSt.addUk ⟨none, none, -1, 0, [], none⟩ (digitsVal ['0'])) = some ⟨some .u, some 0, -1, 0, [], some 0⟩ := by decide
  simp only [rstdpDtEqn, optSgSyms, List.nil_append, List.map_cons, List.map_nil, genProducts, genProduct, scaled_fold, List.foldlM_cons, Sg.sym, genStep,
    Option.bind_eq_bind, Option.bind_some, Atom.sym, PSt.addDep, List.foldlM_nil, Int.one_mul, Int.zero_add, hu, h3]
  cases hf : finish ⟨some .x0, none, litMant lr * litMant am, litExp lr + litExp am, [⟨.v .y1, none, false⟩], none⟩ <;>
    cases hf2 : finish ⟨some .y0, none, litMant lr * litMant ap, litExp lr + litExp ap, [⟨.v .x1, none, false⟩], none⟩ <;>
    cases hf3 : finish ⟨some .u, some 0, -litMant el, litExp el, [⟨.v .t, none, false⟩], some 0⟩ <;> simp [hf, hf2, hf3, hu, h3]

section Rule
variable {K : Type} [Field K] [LinearOrder K] [IsStrictOrderedRing K]

/-- **C87.** For all parameters: if the texts of `RewardModulatedSTDP` are accepted, they are compiled to the products of the eligibility trace and of the reward,
with the numbers that the literals in the text stand for; the leak is the literal of the parameter `eligibility_trace_decay_tau` itself. -/
theorem C87_texts (lr am ap el : Option (Int × Option Int)) (ps : List Product) (h : compileRule (rstdpDt lr am ap el) = some ps) :
    compileRule rstdpDw = some rstdpDwProducts ∧ ∃ m1 e1 m2 e2 m3 e3, ps = rstdpDtProducts m1 e1 m2 e2 m3 e3 ∧
      (coef m1 e1 : K) = ((litValue lr * litValue am : ℚ) : K) ∧ (coef m2 e2 : K) = ((litValue lr * litValue ap : ℚ) : K) ∧
      -(coef m3 e3 : K) = ((litValue el : ℚ) : K) := by
  refine ⟨by decide +kernel, ?_⟩
  rw [rstdp_compile] at h
  obtain ⟨p, hp, h2⟩ := Option.bind_eq_some_iff.1 h
  obtain ⟨q, hq, h3⟩ := Option.bind_eq_some_iff.1 h2
  obtain ⟨r, hr, rfl⟩ := Option.map_eq_some_iff.1 h3
  obtain ⟨a1, a2, a3, a4⟩ := coef_cast (K := K) hp
  obtain ⟨b1, b2, b3, b4⟩ := coef_cast (K := K) hq
  obtain ⟨c1, c2, c3, c4⟩ := coef_cast (K := K) hr
  refine ⟨p.m, p.sexp, q.m, q.sexp, r.m, r.sexp, ?_, ?_, ?_, ?_⟩
  · rcases p with ⟨pd, pm, ps, pf, pdec⟩
    rcases q with ⟨qd, qm, qs, qf, qdec⟩
    rcases r with ⟨rd, rm, rs, rf, rdec⟩
    simp only [Option.some.injEq] at a2 a3 a4 b2 b3 b4 c2 c3 c4
    subst a2 a3 a4 b2 b3 b4 c2 c3 c4
    rfl
  · rw [a1, scale_lits]
  · rw [b1, scale_lits]
  · rw [c1, litValue_scale]
    unfold scale
    push_cast
    ring

/-- **C87.** Putting it together: a connection with the rule `RewardModulatedSTDP(lr, aPlus, aMinus, elig)`, for all spike trains and reward traces. -/
theorem C87_reward_modulated_stdp (c : FCfg K) (hT : 0 < c.tEpoch) (hg : c.graded = .regular) (dY : K) (h3 : ThreeFactor c dY) (hdec : c.dec = some 0)
    (hm : c.mode = .mixed) (lr aMinus aPlus el : ℚ)
    (hdt : c.dt = compileRule (rstdpDt (floatToLiteral lr) (floatToLiteral aMinus) (floatToLiteral aPlus) (floatToLiteral el)))
    (hdw : c.dw = compileRule rstdpDw) (hacc : c.dt ≠ none) (dx : K) (hx : c.cx1.decay = some dx)
    (s0 : FSt K) (h0 : Fresh s0) (t0 w0 : K) (ht : s0.t = some t0) (hw : s0.w = some w0) (inp : Nat → FInp K) (n : Nat) :
    ∃ E : Nat → K, (E = elig t0 ((litValue (floatToLiteral el) : ℚ) : K)
        (stdpTerm ((litValue (floatToLiteral lr) * litValue (floatToLiteral aMinus) : ℚ) : K) ((litValue (floatToLiteral lr) * litValue (floatToLiteral aPlus) : ℚ) : K)
          c.cx1.imp dx dY c.tEpoch (preSpk inp) (postSpk inp) (fun t => (inp t).y1))) ∧
      (fRun c s0 inp (n * c.tEpoch)).t = some (E n) ∧
      (fRun c s0 inp (n * c.tEpoch)).w = some (w0 + ∑ k ∈ Finset.range n, E k * ((inp ((k + 1) * c.tEpoch)).y2 * dY ^ c.tEpoch)) := by
  obtain ⟨ps, hps⟩ := Option.ne_none_iff_exists'.1 hacc
  obtain ⟨hw2, m1, e1, m2, e2, m3, e3, rfl, hc1, hc2, hc3⟩ := C87_texts (K := K) _ _ _ _ ps (hdt.symm.trans hps)
  refine ⟨_, rfl, ?_, ?_⟩
  · rw [C87_eligibility c hT hg dY h3 hdec m1 e1 m2 e2 m3 e3 hps dx hx s0 h0 t0 ht inp n, hc1, hc2, hc3]
  · rw [C87_reward_weight c hT hg dY h3 hdec hm m1 e1 m2 e2 m3 e3 hps (hdw.trans hw2) dx hx s0 h0 t0 w0 ht hw inp n, hc1, hc2, hc3]

/-- **C87, finding.** The parameter called `eligibility_trace_decay_tau` ("decay time constant") acts as the leak itself: without spikes the eligibility trace is
multiplied by `1 - tau` each epoch, so every time constant above 2 makes it grow without bound and alternate in sign. -/
theorem C87_finding_tau_is_a_rate (e0 tau : K) (h : 2 < tau) (he : e0 ≠ 0) (m : Nat) :
    elig e0 tau (fun _ => 0) m = e0 * (1 - tau) ^ m ∧ |elig e0 tau (fun _ => 0) m| < |elig e0 tau (fun _ => 0) (m + 1)| := by
  have h1 : ∀ m, elig e0 tau (fun _ => 0) m = e0 * (1 - tau) ^ m := by
    intro m; unfold elig; simp
  refine ⟨h1 m, ?_⟩
  rw [h1, h1, pow_succ, ← mul_assoc, abs_mul (e0 * (1 - tau) ^ m)]
  have h2 : 1 < |1 - tau| := by rw [abs_of_neg (by linarith)]; linarith
  have h3 : 0 < |e0 * (1 - tau) ^ m| := abs_pos.2 (mul_ne_zero he (pow_ne_zero _ (by intro h4; rw [h4, abs_zero] at h2; linarith)))
  exact lt_mul_of_one_lt_right h3 h2

end Rule

/-- A configuration: `RewardModulatedSTDP(learning_rate=1, A_plus=2, A_minus=-2, eligibility_trace_decay_tau=1/2)`. -/
def exRCfg (el : ℚ) : FCfg ℚ :=
  { tEpoch := 1, graded := .regular, two := false, cx1 := ⟨16, some (1 / 2)⟩, cx2 := ⟨0, none⟩, cy1 := ⟨0, some 1⟩, cy2 := ⟨0, some 1⟩, cy3 := ⟨0, some 1⟩,
    mode := .mixed, dw := compileRule rstdpDw,
    dt := compileRule (rstdpDt (floatToLiteral 1) (floatToLiteral (-2)) (floatToLiteral 2) (floatToLiteral el)), dd := none, dec := some 0 }

/-- Pre-synaptic spike at 1, post-synaptic spike at 2, reward 1/4 from step 3 on. -/
def exRInp (n : Nat) : FInp ℚ := ⟨if n = 1 then 1 else 0, decide (n = 2), 0, if n ≥ 3 then 1 / 4 else 0, 0⟩

/-- The hypotheses are met, and the weight moves after the reward arrives; a second run shows the finding: with time constant 10 the trace explodes. -/
theorem C87_example : (exRCfg (1 / 2)).dt ≠ none ∧ ThreeFactor (exRCfg (1 / 2)) 1 ∧ Fresh exFSt ∧
    (fRun (exRCfg (1 / 2)) exFSt exRInp 2).t = some 16 ∧ (fRun (exRCfg (1 / 2)) exFSt exRInp 2).w = some 10 ∧
    (fRun (exRCfg (1 / 2)) exFSt exRInp 3).w = some 14 ∧ (fRun (exRCfg (1 / 2)) exFSt exRInp 3).t = some 8 ∧
    (fRun (exRCfg 10) exFSt exRInp 4).t = some (16 * 81) := by
  refine ⟨by decide +kernel, ⟨rfl, rfl, rfl⟩, ⟨rfl, rfl, rfl, rfl, rfl, rfl, rfl⟩, by decide +kernel, by decide +kernel, by decide +kernel, by decide +kernel,
    by decide +kernel⟩

end Verif.Learning
