import Verif.Learning.FloatProps

/-!
# C86: the rule texts of STDPLoihi and RewardModulatedSTDP, and the literals in them
-/

set_option linter.unusedSectionVars false

namespace Verif.Learning

/-! ## Texts -/

/-- The number a literal stands for. -/
def litValue : Option (Int × Option Int) → ℚ
  | none => 0
  | some (m, e) => (m : ℚ) * 2 ^ (e.getD 0)

def litMant : Option (Int × Option Int) → Int
  | none => 0
  | some (m, _) => m

def litExp : Option (Int × Option Int) → Int
  | none => 0
  | some (_, e) => e.getD 0

theorem litValue_scale (l : Option (Int × Option Int)) : litValue l = scale (litMant l) (litExp l) := by
  rcases l with _ | ⟨m, e⟩
  · simp [litValue, scale, litMant]
  · rfl

def sgOf (z : Int) : Option Sg := if z < 0 then some .minus else none

theorem natText_ok (n : Nat) : okDigits (natText n) ∧ digitsVal (natText n) = n := by
  unfold natText
  split
  · rename_i h
    subst h
    exact ⟨⟨by simp, by simp, by simp⟩, by decide⟩
  · rename_i h
    have hlt : ∀ d ∈ (Nat.digits 10 n).reverse, d < 10 := by
      intro d hd
      exact Nat.digits_lt_base (by norm_num) (List.mem_reverse.1 hd)
    refine ⟨⟨?_, ?_, ?_⟩, ?_⟩
    · simp [Nat.digits_ne_nil_iff_ne_zero, h]
    · intro c hc
      obtain ⟨d, hd, rfl⟩ := List.mem_map.1 hc
      have := hlt d hd
      interval_cases d <;> decide
    · intro hh
      exfalso
      have hne : Nat.digits 10 n ≠ [] := Nat.digits_ne_nil_iff_ne_zero.2 h
      rw [List.head?_map, List.head?_reverse, List.getLast?_eq_some_getLast hne] at hh
      have h1 := Nat.getLast_digit_ne_zero 10 h
      have h2 : (Nat.digits 10 n).getLast hne < 10 := Nat.digits_lt_base (by norm_num) (List.getLast_mem hne)
      generalize (Nat.digits 10 n).getLast hne = d at *
      simp only [Option.map_some, Option.some.injEq] at hh
      interval_cases d <;> revert hh <;> first | decide | exact absurd rfl h1
    · rw [C55_numbers_decimal _ hlt, List.reverse_reverse, Nat.ofDigits_digits]

theorem intText_eq (z : Int) : intText z = optSgRender (sgOf z) ++ natText z.natAbs ∧ sgInt (sgOf z) * (digitsVal (natText z.natAbs) : Int) = z := by
  unfold intText sgOf
  rw [(natText_ok _).2]
  by_cases h : z < 0
  · simp only [h, if_true]
    refine ⟨rfl, ?_⟩
    simp only [sgInt]; omega
  · simp only [h, if_false]
    refine ⟨rfl, ?_⟩
    simp only [sgInt]; omega

/-- The atoms of a literal. -/
def litAtoms : Option (Int × Option Int) → List Atom
  | none => [.lit (.int ['0'])]
  | some (m, none) => [.br (.lit (sgOf m) (.int (natText m.natAbs)))]
  | some (m, some e) => [.br (.lit (sgOf m) (.int (natText m.natAbs))), .lit (.pow (sgOf e) (natText e.natAbs))]

theorem natText_no_space (n : Nat) : (natText n).filter (· ≠ ' ') = natText n := by
  apply List.filter_eq_self.2
  intro c hc
  have := (natText_ok n).1.2.1 c hc
  rcases eq_or_ne c ' ' with rfl | h
  · exact absurd this (by decide)
  · simpa using h

theorem intText_no_space (z : Int) : (intText z).filter (· ≠ ' ') = intText z := by
  unfold intText
  rw [List.filter_append, natText_no_space]
  split <;> rfl

theorem litAtoms_ne (l : Option (Int × Option Int)) : litAtoms l ≠ [] := by
  rcases l with _ | ⟨m, _ | e⟩ <;> simp [litAtoms]

theorem litAtoms_ok (l : Option (Int × Option Int)) : ∀ a ∈ litAtoms l, a.ok := by
  rcases l with _ | ⟨m, _ | e⟩
  · intro a ha
    simp only [litAtoms, List.mem_singleton] at ha
    subst ha
    exact ⟨by simp, by simp, by simp⟩
  · intro a ha
    simp only [litAtoms, List.mem_singleton] at ha
    subst ha
    exact (natText_ok _).1
  · intro a ha
    simp only [litAtoms, List.mem_cons, List.not_mem_nil, or_false] at ha
    rcases ha with rfl | rfl
    · exact (natText_ok _).1
    · exact (natText_ok _).1

theorem litAtoms_render (l : Option (Int × Option Int)) : renderAtoms (litAtoms l) = (litText l).filter (· ≠ ' ') := by
  rcases l with _ | ⟨m, _ | e⟩
  · rfl
  · simp only [litAtoms, litText, renderAtoms, Atom.render, Br.render, Lit.render]
    rw [List.filter_cons, List.filter_append, intText_no_space, (intText_eq m).1]
    rfl
  · simp only [litAtoms, litText, renderAtoms, Atom.render, Br.render, Lit.render]
    rw [List.filter_cons, List.filter_append, List.filter_append, intText_no_space, intText_no_space, (intText_eq m).1, (intText_eq e).1]
    simp

theorem renderAtoms_append : ∀ {a b : List Atom}, a ≠ [] → b ≠ [] → renderAtoms (a ++ b) = renderAtoms a ++ '*' :: renderAtoms b
  | [], _, h, _ => absurd rfl h
  | [x], b, _, hb => by
    cases b with
    | nil => exact absurd rfl hb
    | cons y b => rfl
  | x :: y :: a, b, _, hb => by
    have ih := renderAtoms_append (a := y :: a) (b := b) (by simp) hb
    show x.render ++ '*' :: renderAtoms (y :: a ++ b) = (x.render ++ '*' :: renderAtoms (y :: a)) ++ '*' :: renderAtoms b
    rw [ih]
    simp

/-- The list does not start with a power of two. -/
def noPow : List Atom → Prop
  | .lit (.pow _ _) :: _ => False
  | _ => True

theorem litAtoms_noPow (l : Option (Int × Option Int)) (r : List Atom) : noPow (litAtoms l ++ r) := by
  rcases l with _ | ⟨m, _ | e⟩ <;> exact trivial

theorem canonical_lit (l : Option (Int × Option Int)) {r : List Atom} (h : canonical r) (hp : noPow r) : canonical (litAtoms l ++ r) := by
  rcases l with _ | ⟨m, _ | e⟩
  · show canonical (Atom.lit (.int ['0']) :: r)
    cases r with
    | nil => exact trivial
    | cons a r =>
      cases a with
      | lit l => cases l <;> first | exact h | exact absurd hp (by simp [noPow])
      | _ => exact h
  · exact h
  · exact h

/-- Effect of a literal on the product being built. -/
theorem lit_fold (l : Option (Int × Option Int)) (st : PSt) (r : List Sym) :
    ((litAtoms l).map Atom.sym ++ r).foldlM genStep st = r.foldlM genStep { st with m := st.m * litMant l, e := st.e + litExp l } := by
  have hbr : ∀ (m : Int) (st : PSt), genStep st (.bracket (optSgSyms (sgOf m) ++ [.lit (digitsVal (natText m.natAbs)) 0])) =
      some { st with m := st.m * m, e := st.e + 0 } := by
    intro m st
    have h2 := (intText_eq m).2
    simp only [genStep, bracketOut]
    rw [withOp_opt rfl]
    simp only [bracketOne, Option.map_some, PSt.addBr, List.append_nil, Option.some.injEq]
    rw [Int.mul_comm] at h2
    rw [sg_sign_int, h2]
  rcases l with _ | ⟨m, _ | e⟩
  · simp only [litAtoms, List.map_cons, List.map_nil, List.cons_append, List.nil_append, List.foldlM_cons, Atom.sym, Lit.sym, genStep]
    rfl
  · simp only [litAtoms, List.map_cons, List.map_nil, List.cons_append, List.nil_append, List.foldlM_cons, Atom.sym, Br.syms, Lit.sym]
    rw [hbr]
    rfl
  · simp only [litAtoms, List.map_cons, List.map_nil, List.cons_append, List.nil_append, List.foldlM_cons, Atom.sym, Br.syms, Lit.sym]
    rw [hbr]
    have h2 := (intText_eq e).2
    simp only [genStep, Option.bind_eq_bind, Option.bind_some, h2, Int.mul_one, Int.add_zero]
    rfl

/-- The atoms of `lr * a * rest`. -/
def scaled (lr a : Option (Int × Option Int)) (rest : List Atom) : List Atom := litAtoms lr ++ (litAtoms a ++ rest)

theorem scaled_ok (lr a : Option (Int × Option Int)) {rest : List Atom} (h : ∀ x ∈ rest, x.ok) (hc : canonical rest) (hp : noPow rest) :
    okAtoms (scaled lr a rest) := by
  refine ⟨?_, ?_, ?_⟩
  · have := litAtoms_ne lr
    unfold scaled
    simp [this]
  · intro x hx
    rcases List.mem_append.1 hx with h1 | h1
    · exact litAtoms_ok lr x h1
    · rcases List.mem_append.1 h1 with h2 | h2
      · exact litAtoms_ok a x h2
      · exact h x h2
  · exact canonical_lit lr (canonical_lit a hc hp) (litAtoms_noPow a rest)

theorem scaled_render (lr a : Option (Int × Option Int)) {rest : List Atom} (h : rest ≠ []) : renderAtoms (scaled lr a rest) =
    (litText lr).filter (· ≠ ' ') ++ '*' :: ((litText a).filter (· ≠ ' ') ++ '*' :: renderAtoms rest) := by
  unfold scaled
  rw [renderAtoms_append (litAtoms_ne lr) (by simp [litAtoms_ne a]), renderAtoms_append (litAtoms_ne a) h, litAtoms_render, litAtoms_render]

theorem scaled_fold (lr a : Option (Int × Option Int)) (rest : List Atom) (st : PSt) :
    ((scaled lr a rest).map Atom.sym).foldlM genStep st =
      (rest.map Atom.sym).foldlM genStep { st with m := st.m * litMant lr * litMant a, e := st.e + litExp lr + litExp a } := by
  unfold scaled
  rw [List.map_append, lit_fold, List.map_append, lit_fold]

/-- The rule of `STDPLoihi` as a sum of products. -/
def stdpEqn (lr am ap : Option (Int × Option Int)) : Eqn :=
  ⟨none, scaled lr am [.x0, .var .y1], [(.plus, scaled lr ap [.y0, .var .x1])]⟩

theorem stdpEqn_ok (lr am ap : Option (Int × Option Int)) : (stdpEqn lr am ap).ok := by
  refine ⟨scaled_ok lr am ?_ (by simp [canonical]) trivial, ?_⟩
  · intro x hx; simp at hx; rcases hx with rfl | rfl <;> exact trivial
  · intro p hp
    simp only [stdpEqn, List.mem_singleton] at hp
    subst hp
    refine scaled_ok lr ap ?_ (by simp [canonical]) trivial
    intro x hx; simp at hx; rcases hx with rfl | rfl <;> exact trivial

theorem stdpEqn_render (lr am ap : Option (Int × Option Int)) : (stdpText lr am ap).filter (· ≠ ' ') = (stdpEqn lr am ap).render := by
  simp only [stdpText, stdpEqn, Eqn.render, optSgRender, renderTail, List.filter_append, scaled_render _ _ (by simp : [Atom.x0, Atom.var V.y1] ≠ []),
    scaled_render _ _ (by simp : [Atom.y0, Atom.var V.x1] ≠ [])]
  simp [renderAtoms, Atom.render, V.render, Sg.render]

/-- What the text of `STDPLoihi` compiles to. -/
theorem stdp_compile (lr am ap : Option (Int × Option Int)) : compileRule (stdpText lr am ap) =
    (finish ⟨some .x0, none, litMant lr * litMant am, litExp lr + litExp am, [⟨.v .y1, none, false⟩], none⟩).bind fun p =>
      (finish ⟨some .y0, none, litMant lr * litMant ap, litExp lr + litExp ap, [⟨.v .x1, none, false⟩], none⟩).map fun q => [p, q] := by
  unfold compileRule
  rw [C55_tokenizes _ _ (stdpEqn_ok lr am ap) (stdpEqn_render lr am ap)]
  simp only [Option.bind_some]
  rw [separate_eqn (stdpEqn_ok lr am ap)]
  simp only [stdpEqn, optSgSyms, List.nil_append, List.map_cons, List.map_nil, genProducts, genProduct, scaled_fold, List.foldlM_cons, Sg.sym, genStep,
    Option.bind_eq_bind, Option.bind_some, Atom.sym, PSt.addDep, List.foldlM_nil, Int.one_mul, Int.zero_add]
  cases hf : finish ⟨some .x0, none, litMant lr * litMant am, litExp lr + litExp am, [⟨.v .y1, none, false⟩], none⟩ <;>
    cases hf2 : finish ⟨some .y0, none, litMant lr * litMant ap, litExp lr + litExp ap, [⟨.v .x1, none, false⟩], none⟩ <;> simp [hf, hf2]

/-! ## C86: the rule -/

section Rule
variable {K : Type} [Field K] [LinearOrder K] [IsStrictOrderedRing K]

theorem coef_cast {st : PSt} {p : Product} (h : finish st = some p) : (coef p.m p.sexp : K) = ((scale st.m st.e : ℚ) : K) ∧ st.dep = some p.dep ∧
    p.factors = st.factors ∧ p.dec = st.dec := by
  unfold finish at h
  obtain ⟨d, hd, h2⟩ := Option.bind_eq_some_iff.1 h
  split at h2
  · simp only [Option.some.injEq] at h2
    subst h2
    refine ⟨?_, hd, rfl, rfl⟩
    rw [← normalise_scale]
    unfold coef scale
    push_cast
    rw [show (normalise st.m st.e).2 + 7 - 7 = (normalise st.m st.e).2 by omega]
  · simp at h2

theorem scale_lits (a b : Option (Int × Option Int)) : scale (litMant a * litMant b) (litExp a + litExp b) = litValue a * litValue b := by
  rw [scale_mul, litValue_scale, litValue_scale]

/-- **C86.** For all parameters: if the text `STDPLoihi` writes is accepted, it is compiled to the two products of STDP, and their factors are the products of the
numbers that the literals in the text stand for. -/
theorem C86_stdp_text (lr am ap : Option (Int × Option Int)) (ps : List Product) (h : compileRule (stdpText lr am ap) = some ps) :
    ∃ m1 e1 m2 e2, ps = stdpProducts m1 e1 m2 e2 ∧ (coef m1 e1 : K) = ((litValue lr * litValue am : ℚ) : K) ∧
      (coef m2 e2 : K) = ((litValue lr * litValue ap : ℚ) : K) := by
  rw [stdp_compile] at h
  obtain ⟨p, hp, h2⟩ := Option.bind_eq_some_iff.1 h
  obtain ⟨q, hq, rfl⟩ := Option.map_eq_some_iff.1 h2
  obtain ⟨a1, a2, a3, a4⟩ := coef_cast (K := K) hp
  obtain ⟨b1, b2, b3, b4⟩ := coef_cast (K := K) hq
  refine ⟨p.m, p.sexp, q.m, q.sexp, ?_, ?_, ?_⟩
  · rcases p with ⟨pd, pm, ps, pf, pdec⟩
    rcases q with ⟨qd, qm, qs, qf, qdec⟩
    simp only [Option.some.injEq] at a2 a3 a4 b2 b3 b4
    subst a2 a3 a4 b2 b3 b4
    rfl
  · rw [a1, scale_lits]
  · rw [b1, scale_lits]

/-- **C86.** Putting it together: a connection with the rule `STDPLoihi(lr, aPlus, aMinus)` does pair-based STDP with the factors its literals stand for. -/
theorem C86_stdp_loihi (c : FCfg K) (hT : 0 < c.tEpoch) (hg : c.graded = .regular) (h2 : c.two = true) (hm : c.mode = .mixed)
    (lr aMinus aPlus : ℚ) (hdw : c.dw = compileRule (stdpText (floatToLiteral lr) (floatToLiteral aMinus) (floatToLiteral aPlus))) (hacc : c.dw ≠ none)
    (dx dy : K) (hx : c.cx1.decay = some dx) (hy : c.cy1.decay = some dy)
    (s0 : FSt K) (h0 : Fresh s0) (w0 : K) (hw : s0.w = some w0) (inp : Nat → FInp K) (h1 : Spec.OnePerEpoch c.tEpoch (preSpk inp))
    (h1' : Spec.OnePerEpoch c.tEpoch (postSpk inp)) (n : Nat) :
    (fRun c s0 inp (n * c.tEpoch)).w =
      some (w0 + Spec.pairStdp ((litValue (floatToLiteral lr) * litValue (floatToLiteral aMinus) : ℚ) : K)
        ((litValue (floatToLiteral lr) * litValue (floatToLiteral aPlus) : ℚ) : K)
        c.cx1.imp dx c.cy1.imp dy (preSpk inp) (postSpk inp) (n * c.tEpoch)) := by
  obtain ⟨ps, hps⟩ := Option.ne_none_iff_exists'.1 hacc
  obtain ⟨m1, e1, m2, e2, rfl, hc1, hc2⟩ := C86_stdp_text (K := K) _ _ _ ps (hdw.symm.trans hps)
  rw [C86_stdp_is_pair_based c hT hg h2 hm m1 e1 m2 e2 hps dx dy hx hy s0 h0 w0 hw inp h1 h1' n, hc1, hc2]

end Rule

/-! ## C86: literals -/

theorem roundLog2_spec {r : ℚ} (hr : 0 < r) : r ^ 2 ≤ 2 * (2 ^ roundLog2 r) ^ 2 ∧ (2 ^ roundLog2 r) ^ 2 ≤ 2 * r ^ 2 := by
  have h1 : (2 : ℚ) ^ Int.log 2 r ≤ r := by
    have := Int.zpow_log_le_self (b := 2) (by norm_num) hr
    simpa using this
  have h2 : r < (2 : ℚ) ^ (Int.log 2 r + 1) := by
    have := Int.lt_zpow_succ_log_self (b := 2) (by norm_num) r
    simpa using this
  have hpos : (0 : ℚ) < 2 ^ Int.log 2 r := zpow_pos (by norm_num) _
  have e1 : (2 : ℚ) ^ (Int.log 2 r + 1) = 2 * 2 ^ Int.log 2 r := by rw [two_zpow_add, zpow_one]; ring
  have e2 : (2 : ℚ) ^ (2 * Int.log 2 r + 1) = 2 * (2 ^ Int.log 2 r) ^ 2 := by
    rw [two_zpow_add, zpow_one, show 2 * Int.log 2 r = Int.log 2 r + Int.log 2 r by ring, two_zpow_add]; ring
  unfold roundLog2
  generalize hx : (2 : ℚ) ^ Int.log 2 r = x at *
  split
  · rename_i h
    rw [e2] at h
    rw [e1] at h2 ⊢
    constructor
    · nlinarith
    · nlinarith
  · rename_i h
    rw [e2] at h
    rw [hx]
    constructor
    · nlinarith
    · nlinarith

/-- **C86.** The literal has the sign of the parameter and is within a factor of the square root of two of it, for every parameter. -/
theorem C86_literal_close (p : ℚ) : p ^ 2 ≤ 2 * litValue (floatToLiteral p) ^ 2 ∧ litValue (floatToLiteral p) ^ 2 ≤ 2 * p ^ 2 ∧
    0 ≤ p * litValue (floatToLiteral p) := by
  unfold floatToLiteral
  by_cases h0 : p = 0
  · subst h0; simp [litValue]
  rw [if_neg h0]
  have hab : 0 < |p| := abs_pos.2 h0
  have hm : (1 : ℤ) ≤ max ⌊|p|⌋ 1 := le_max_right _ _
  have hmq : (0 : ℚ) < ((max ⌊|p|⌋ 1 : ℤ) : ℚ) := by exact_mod_cast (by omega : (0 : ℤ) < max ⌊|p|⌋ 1)
  have hsq : |p| ^ 2 = p ^ 2 := sq_abs p
  have hsg : ((if p < 0 then (-1 : ℤ) else 1 : ℤ) : ℚ) ^ 2 = 1 ∧ p * ((if p < 0 then (-1 : ℤ) else 1 : ℤ) : ℚ) = |p| := by
    split
    · rename_i h; rw [abs_of_neg h]; constructor <;> push_cast <;> ring
    · rename_i h; rw [abs_of_nonneg (not_lt.1 h)]; constructor <;> push_cast <;> ring
  simp only
  generalize hM : ((max ⌊|p|⌋ 1 : ℤ)) = M at *
  generalize hS : (if p < 0 then (-1 : ℤ) else 1 : ℤ) = S at *
  split
  · rename_i hr
    have h1 : |p| = M := by rw [div_eq_one_iff_eq (ne_of_gt hmq)] at hr; exact hr
    have h2 : litValue (some (S * M, none)) = S * M := by simp [litValue]
    rw [h2, mul_pow, hsg.1, ← h1, hsq, ← mul_assoc p, hsg.2]
    refine ⟨?_, ?_, ?_⟩
    · nlinarith [sq_nonneg p]
    · nlinarith [sq_nonneg p]
    · positivity
  · have hr : 0 < |p| / M := div_pos hab hmq
    obtain ⟨a, b⟩ := roundLog2_spec hr
    have h2 : litValue (some (S * M, some (roundLog2 (|p| / M)))) = S * M * 2 ^ roundLog2 (|p| / M) := by simp [litValue]
    have h3 : |p| = M * (|p| / M) := by field_simp
    have hpos : (0 : ℚ) < 2 ^ roundLog2 (|p| / M) := zpow_pos (by norm_num) _
    rw [h2]
    generalize (2 : ℚ) ^ roundLog2 (|p| / M) = y at *
    generalize |p| / (M : ℚ) = x at *
    refine ⟨?_, ?_, ?_⟩
    · rw [← hsq, h3, mul_pow, mul_pow, mul_pow, hsg.1]
      nlinarith [sq_nonneg (M : ℚ)]
    · rw [← hsq, h3, mul_pow, mul_pow, mul_pow, hsg.1]
      nlinarith [sq_nonneg (M : ℚ)]
    · rw [show p * (S * M * y) = (p * S) * (M * y) by ring, hsg.2]
      positivity

theorem roundLog2_zpow (e : Int) : roundLog2 ((2 : ℚ) ^ e) = e := by
  unfold roundLog2
  have h1 : Int.log 2 ((2 : ℚ) ^ e) = e := by
    have := Int.log_zpow (R := ℚ) (b := 2) (by norm_num) e
    simpa using this
  rw [h1]
  have hpos : (0 : ℚ) < 2 ^ e := zpow_pos (by norm_num) _
  have e2 : (2 : ℚ) ^ (2 * e + 1) = 2 * (2 ^ e) ^ 2 := by
    rw [two_zpow_add, zpow_one, show 2 * e = e + e by ring, two_zpow_add]; ring
  rw [if_neg]
  rw [e2, not_lt]
  nlinarith

/-- **C86.** The literal is exact precisely for integers and for the powers of two below one (with either sign); every other parameter is changed silently. -/
theorem C86_literal_exact_iff (p : ℚ) : litValue (floatToLiteral p) = p ↔ (∃ z : Int, p = z) ∨ ∃ k : Nat, |p| = 1 / 2 ^ k := by
  unfold floatToLiteral
  by_cases h0 : p = 0
  · subst h0
    simp only [if_true, litValue, true_iff]
    exact Or.inl ⟨0, by simp⟩
  rw [if_neg h0]
  have hab : 0 < |p| := abs_pos.2 h0
  have hm : (1 : ℤ) ≤ max ⌊|p|⌋ 1 := le_max_right _ _
  have hmq : (0 : ℚ) < ((max ⌊|p|⌋ 1 : ℤ) : ℚ) := by exact_mod_cast (by omega : (0 : ℤ) < max ⌊|p|⌋ 1)
  have hsg : ((if p < 0 then (-1 : ℤ) else 1 : ℤ) : ℚ) * |p| = p := by
    split
    · rename_i h; rw [abs_of_neg h]; push_cast; ring
    · rename_i h; rw [abs_of_nonneg (not_lt.1 h)]; push_cast; ring
  have hs0 : ((if p < 0 then (-1 : ℤ) else 1 : ℤ) : ℚ) ≠ 0 := by split <;> simp
  simp only
  generalize hS : (if p < 0 then (-1 : ℤ) else 1 : ℤ) = S at *
  split
  · rename_i hr
    have h1 : |p| = ((max ⌊|p|⌋ 1 : ℤ) : ℚ) := by rw [div_eq_one_iff_eq (ne_of_gt hmq)] at hr; exact hr
    have h2 : litValue (some (S * max ⌊|p|⌋ 1, none)) = S * ((max ⌊|p|⌋ 1 : ℤ) : ℚ) := by simp [litValue]
    rw [h2, ← h1, hsg]
    refine ⟨fun _ => Or.inl ⟨S * max ⌊|p|⌋ 1, ?_⟩, fun _ => rfl⟩
    rw [Int.cast_mul, ← h1, hsg]
  · rename_i hr
    have h2 : litValue (some (S * max ⌊|p|⌋ 1, some (roundLog2 (|p| / ((max ⌊|p|⌋ 1 : ℤ) : ℚ))))) =
        S * (((max ⌊|p|⌋ 1 : ℤ) : ℚ) * 2 ^ roundLog2 (|p| / ((max ⌊|p|⌋ 1 : ℤ) : ℚ))) := by simp [litValue]; ring
    rw [h2]
    have h3 : (S : ℚ) * (((max ⌊|p|⌋ 1 : ℤ) : ℚ) * 2 ^ roundLog2 (|p| / ((max ⌊|p|⌋ 1 : ℤ) : ℚ))) = p ↔
        (2 : ℚ) ^ roundLog2 (|p| / ((max ⌊|p|⌋ 1 : ℤ) : ℚ)) = |p| / ((max ⌊|p|⌋ 1 : ℤ) : ℚ) := by
      rw [eq_div_iff (ne_of_gt hmq)]
      constructor
      · intro h
        rw [← hsg] at h
        rw [mul_comm]
        have h4 := mul_left_cancel₀ hs0 h
        rw [hsg] at h4
        exact h4
      · intro h
        rw [mul_comm _ ((2 : ℚ) ^ _), h, hsg]
    rw [h3]
    constructor
    · intro h
      right
      by_cases hlt : |p| < 1
      · have hM : max ⌊|p|⌋ 1 = 1 := by
          apply max_eq_right
          have : ⌊|p|⌋ < 1 := Int.floor_lt.2 (by simpa using hlt)
          omega
        rw [hM, Int.cast_one, div_one] at h
        have he : roundLog2 |p| < 0 := by
          by_contra hc
          have : (1 : ℚ) ≤ 2 ^ roundLog2 |p| := one_le_zpow₀ (by norm_num) (by omega)
          rw [h] at this
          linarith
        refine ⟨(-roundLog2 |p|).toNat, ?_⟩
        rw [← zpow_natCast, one_div, ← zpow_neg, Int.toNat_of_nonneg (by omega), neg_neg, h]
      · exfalso
        have h1 : 1 ≤ |p| := not_lt.1 hlt
        have hf : (1 : ℤ) ≤ ⌊|p|⌋ := Int.le_floor.2 (by simpa using h1)
        have hM : max ⌊|p|⌋ 1 = ⌊|p|⌋ := max_eq_left hf
        rw [hM] at h hr hmq
        have hfl := Int.floor_le |p|
        have hfu := Int.lt_floor_add_one |p|
        have hfq : (1 : ℚ) ≤ (⌊|p|⌋ : ℚ) := by exact_mod_cast hf
        have a : 1 ≤ |p| / (⌊|p|⌋ : ℚ) := by rw [le_div_iff₀ hmq]; linarith
        have b : |p| / (⌊|p|⌋ : ℚ) < 2 := by rw [div_lt_iff₀ hmq]; linarith
        generalize roundLog2 (|p| / (⌊|p|⌋ : ℚ)) = e at h
        rw [← h] at a b hr
        rcases lt_trichotomy e 0 with he | he | he
        · have : (2 : ℚ) ^ e < 1 := zpow_lt_one_of_neg₀ (by norm_num) he
          linarith
        · rw [he, zpow_zero] at hr
          exact hr rfl
        · have : (2 : ℚ) ^ (1 : Int) ≤ 2 ^ e := zpow_le_zpow_right₀ (by norm_num) (by omega)
          rw [zpow_one] at this
          linarith
    · rintro (⟨z, hz⟩ | ⟨k, hk⟩)
      · exfalso
        apply hr
        have hz0 : z ≠ 0 := by rintro rfl; exact h0 (by simpa using hz)
        have hzz : |p| = ((|z| : ℤ) : ℚ) := by rw [hz, Int.cast_abs]
        have hf : ⌊|p|⌋ = |z| := by rw [hzz, Int.floor_intCast]
        have hz1 : 1 ≤ |z| := Int.one_le_abs hz0
        rw [hf, max_eq_left hz1, ← hzz, div_self (ne_of_gt hab)]
      · have hz : |p| = (2 : ℚ) ^ (-(k : Int)) := by rw [hk, zpow_neg, zpow_natCast, one_div]
        have hle : |p| ≤ 1 := by
          rw [hk, div_le_one (by positivity)]
          exact one_le_pow₀ (by norm_num)
        have hM : max ⌊|p|⌋ 1 = 1 := by
          apply max_eq_right
          have : ⌊|p|⌋ ≤ ⌊(1 : ℚ)⌋ := Int.floor_le_floor hle
          simpa using this
        rw [hM, Int.cast_one, div_one, hz, roundLog2_zpow]

/-- Parameters that are changed: 0.3 becomes 0.25, 1.5 becomes 2, 5.5 becomes 5. -/
theorem C86_literal_examples : floatToLiteral (3 / 10) = some (1, some (-2)) ∧ floatToLiteral (3 / 2) = some (1, some 1) ∧
    floatToLiteral (11 / 2) = some (5, some 0) ∧ litText (floatToLiteral (-3 / 10)) = "(-1) * 2 ^ -2".toList := by
  decide +kernel

/-! ## C86: findings and examples -/

section Nan
variable {K : Type} [Field K] [LinearOrder K]

theorem fhist_nan (c : FTr K) (hd : c.decay = none) (ts : Nat) (tr : Option K) (t : Nat) : fhist c ts tr (t + 1) = none := by
  simp only [fhist, hd, Option.bind_none]
  split <;> rfl

theorem fhist_of_nan (c : FTr K) (hd : c.decay = none) (ts : Nat) : ∀ t, fhist c ts (none : Option K) t = none
  | 0 => rfl
  | t + 1 => fhist_nan c hd ts none t

theorem recvN_y1_nan (c : FCfg K) (h2 : c.two = true) (m : Nat) (inp : Nat → FInp K) (s : FSt K) (hs : s.y1 = none) : ∀ i, (recvN c m inp s i).y1 = none
  | 0 => hs
  | i + 1 => by
    simp only [recvN, fRecv, h2, if_true, fPost, fPre, recvN_y1_nan c h2 m inp s hs i, bump]
    split <;> rfl

/-- **C86, finding.** If the time constant of the post-synaptic trace is left at its default 0, the weight under `STDPLoihi` is NaN from the end of the second
epoch on, for every input, even if nobody ever spikes. (The fixed-point model treats such a trace as zero.) -/
theorem C86_zero_tau_weight_nan (c : FCfg K) (hT : 0 < c.tEpoch) (h2 : c.two = true) (m1 e1 m2 e2 : Int) (hdw : c.dw = some (stdpProducts m1 e1 m2 e2))
    (hy : c.cy1.decay = none) (s0 : FSt K) (inp : Nat → FInp K) (n : Nat) : (fRun c s0 inp ((n + 2) * c.tEpoch)).w = none := by
  have hy1 : ∀ k, (fRun c s0 inp ((k + 1) * c.tEpoch)).y1 = none := by
    intro k
    rw [fRun_epoch c s0 inp hT k]
    obtain ⟨T, hk⟩ : ∃ T, c.tEpoch = T + 1 := ⟨c.tEpoch - 1, by omega⟩
    show (if c.two then fTraceAt c _ c.tEpoch .y1 else _) = none
    rw [h2, if_pos rfl]
    show fhist c.cy1 _ _ c.tEpoch = none
    rw [hk]
    exact fhist_nan _ hy _ _ _
  rw [fRun_epoch c s0 inp hT (n + 1)]
  have h3 := recvN_y1_nan c h2 (n + 1) inp _ (hy1 n) c.tEpoch
  generalize recvN c (n + 1) inp (fRun c s0 inp ((n + 1) * c.tEpoch)) c.tEpoch = s at *
  show (match c.dw with
    | none => s.w
    | some ps => fSatW c.mode (fApply c ((n + 1 + 1) * c.tEpoch) s ps s.w)) = none
  rw [hdw]
  have h4 : fApply c ((n + 1 + 1) * c.tEpoch) s (stdpProducts m1 e1 m2 e2) s.w = none := by
    have h5 : fTraceAt c s (fReadTime c s .x0) .y1 = none := by
      show fhist c.cy1 _ s.y1 _ = none
      rw [h3]
      exact fhist_of_nan _ hy _ _
    simp only [fApply, stdpProducts, List.map_cons, List.map_nil, List.foldl_cons, List.foldl_nil, fProduct, fFactor, h5, nanMul, nanAdd, Option.map_none,
      Option.bind_some, Option.bind_none, Bool.false_eq_true, if_false]
    cases s.w <;> rfl
  show fSatW c.mode (fApply c _ s _ s.w) = none
  rw [h4]
  cases c.mode <;> rfl

end Nan

/-- A configuration: `STDPLoihi(learning_rate=1/2, A_plus=1, A_minus=-1)` with decays one half. -/
def exFCfg (T : Nat) : FCfg ℚ :=
  { tEpoch := T, graded := .regular, two := true, cx1 := ⟨16, some (1 / 2)⟩, cx2 := ⟨0, none⟩, cy1 := ⟨16, some (1 / 2)⟩, cy2 := ⟨0, none⟩, cy3 := ⟨0, none⟩,
    mode := .mixed, dw := compileRule (stdpText (floatToLiteral (1 / 2)) (floatToLiteral (-1)) (floatToLiteral 1)), dd := none, dt := none, dec := none }

def exFSt : FSt ℚ := ⟨some 0, some 0, some 0, some 0, some 0, 0, 0, some 10, some 0, some 0⟩

/-- Spikes at the given times. -/
def exFInp (pre post : List Nat) (n : Nat) : FInp ℚ := ⟨if n ∈ pre then 1 else 0, decide (n ∈ post), 0, 0, 0⟩

/-- The hypotheses of `C86_stdp_loihi` are met and the weight moves: pre at 1, post at 2 and pre at 3 (epochs of two steps). -/
theorem C86_example : (exFCfg 2).dw = some (stdpProducts (-1) 6 1 6) ∧ Fresh exFSt ∧ Spec.OnePerEpoch 2 (preSpk (exFInp [1, 3] [2])) ∧
    Spec.OnePerEpoch 2 (postSpk (exFInp [1, 3] [2])) ∧
    (fRun (exFCfg 2) exFSt (exFInp [1, 3] [2]) 2).w = some (10 + 1 / 2 * (16 * (1 / 2))) ∧
    (fRun (exFCfg 2) exFSt (exFInp [1, 3] [2]) 4).w = some (10 + 1 / 2 * (16 * (1 / 2)) - 1 / 2 * (16 * (1 / 2))) := by
  refine ⟨by decide +kernel, ⟨rfl, rfl, rfl, rfl, rfl, rfl, rfl⟩, ?_, ?_, by decide +kernel, by decide +kernel⟩
  · rintro s hs h ⟨s', h1, h2, h3⟩
    have ha : s = 1 ∨ s = 3 := by
      by_contra hc
      simp only [not_or] at hc
      simp [preSpk, exFInp, hc.1, hc.2] at h
    have hb : s' = 1 ∨ s' = 3 := by
      by_contra hc
      simp only [not_or] at hc
      simp [preSpk, exFInp, hc.1, hc.2] at h3
    unfold Spec.epochOf at h1
    omega
  · rintro s hs h ⟨s', h1, h2, h3⟩
    have ha : s = 2 := by
      by_contra hc
      simp [postSpk, exFInp, hc] at h
    have hb : s' = 2 := by
      by_contra hc
      simp [postSpk, exFInp, hc] at h3
    omega

/-- **C86, finding.** Two spikes in one epoch are not pair-based STDP: with pre at 1 and 2 and post at 2 the weight moves by another amount than the pair rule says. -/
theorem C86_witness_two_spikes_per_epoch :
    (fRun (exFCfg 2) exFSt (exFInp [1, 2] [2]) 2).w ≠
      some (10 + Spec.pairStdp (-1 / 2) (1 / 2) 16 (1 / 2) 16 (1 / 2) (preSpk (exFInp [1, 2] [2])) (postSpk (exFInp [1, 2] [2])) 2) ∧
    (fRun (exFCfg 2) exFSt (exFInp [1, 2] [2]) 2).w = some 12 := by
  decide +kernel

end Verif.Learning
