import Verif.Learning.EqCompile
import Mathlib.Data.Nat.Digits.Defs
import Mathlib.Tactic.IntervalCases

/-!
# C55: a learning-rule string compiles to an equivalent sum of products

The specification is `Verif/Learning/EqSpec.lean`: `Eqn.render` is the text of a rule and
`Eqn.value` the number the text denotes.  The English claim is false for two forms of text (a lone
negated variable between brackets, whose sign the code drops), so the theorem carries the suffix
`_partial`; the counterexamples are proved below.
-/

namespace Verif.Learning

/-- `_parse` does not depend on the recursion bound of the model: every bound above the length of
the string gives the same result. -/
theorem C55_parse_fuel (s : List Char) (n m : Nat) (hn : s.length < n) (hm : s.length < m) :
    parse n s = parse m s := parse_fuel_aux s.length s n m (Nat.le_refl _) hn hm

/-- The tokenizer reads the text of every well-formed rule, with spaces anywhere, and recovers its
structure. -/
theorem C55_tokenizes (q : Eqn) (s : List Char) (hok : q.ok)
    (hs : s.filter (· ≠ ' ') = q.render) : symbolList s = some q.syms := by
  unfold symbolList
  rw [hs]
  have hl : (s.filter (· ≠ ' ')).length ≤ s.length := List.length_filter_le _ _
  rw [hs] at hl
  exact eqn_parses hok _ (by omega)

/-- The text of a number is read as a decimal numeral: for every list of digits, most significant first. -/
theorem C55_numbers_decimal (ds : List Nat) (h : ∀ d ∈ ds, d < 10) :
    digitsVal (ds.map fun d => Char.ofNat (48 + d)) = Nat.ofDigits 10 ds.reverse := by
  have key : ∀ (ds : List Nat) (a : Nat), (∀ d ∈ ds, d < 10) →
      (ds.map fun d => Char.ofNat (48 + d)).foldl (fun n c => 10 * n + (c.toNat - 48)) a =
        Nat.ofDigits 10 ds.reverse + 10 ^ ds.length * a := by
    intro ds
    induction ds with
    | nil => intro a _; simp
    | cons d ds ih =>
      intro a hd
      have h1 : (Char.ofNat (48 + d)).toNat - 48 = d := by
        have := hd d (by simp)
        interval_cases d <;> rfl
      rw [List.map_cons, List.foldl_cons, h1, ih _ (fun x hx => hd x (by simp [hx])), List.reverse_cons,
        Nat.ofDigits_append, Nat.ofDigits_singleton, List.length_reverse, List.length_cons, pow_succ]
      ring
  have := key ds 0 h
  simpa [digitsVal] using this

example : digitsVal "205".toList = 205 := by decide

/-- **C55** (for rules without a lone negated variable between brackets).  Whatever the rule and
wherever spaces are put in its text: if `ProductSeries` accepts the text, then for every assignment
of values (with `u_k` being 0 or 1) the sum of products has the value of the text read as
arithmetic.  Missing for the full claim: the forms `(-v)` and `sgn(-v)`, for which it is false. -/
theorem C55_value_partial (q : Eqn) (s : List Char) (ps : List Product) (hok : q.ok)
    (hk : q.signKept) (hs : s.filter (· ≠ ' ') = q.render) (hc : compileRule s = some ps)
    (env : Env) (hu : ∀ k, env.u k = 0 ∨ env.u k = 1) : evalSeries env ps = q.value env := by
  have hu' : ∀ k, env.u k * env.u k = env.u k := by
    intro k; rcases hu k with h | h <;> simp [h]
  unfold compileRule at hc
  rw [C55_tokenizes q s hok hs] at hc
  simp only [Option.bind_some] at hc
  rw [separate_eqn hok] at hc
  simp only [genProducts, Option.bind_eq_some_iff, Option.map_eq_some_iff] at hc
  obtain ⟨⟨p, sdec'⟩, h1, qs, h2, rfl⟩ := hc
  have e1 := genProduct_value env hu' hk.1 h1
  have e2 := genProducts_value env hu' hk.2 h2
  simp only [evalSeries, List.map_cons, List.sum_cons] at e2 ⊢
  rw [e2, e1]
  rfl

/-- The same for the floating-point applier, which is what the Dense and Sparse models evaluate:
whenever it can be built from the text, it computes the value of the text. -/
theorem C55_float_applier_partial (q : Eqn) (s : List Char) (ps : List Product) (f : Env → ℚ)
    (hok : q.ok) (hk : q.signKept) (hs : s.filter (· ≠ ' ') = q.render)
    (hc : compileRule s = some ps) (hf : floatApplier ps = some f)
    (env : Env) (hu : ∀ k, env.u k = 0 ∨ env.u k = 1) : f env = q.value env := by
  unfold floatApplier at hf
  split at hf
  · simp only [Option.some.injEq] at hf
    subst hf
    exact C55_value_partial q s ps hok hk hs hc env hu
  · simp at hf

/-! ## Acceptance -/

/-- Mantissa and exponent as written. -/
def Lit.scale : Lit → Int × Int
  | .int ds => (digitsVal ds, 0)
  | .pow s es => (1, sgInt s * digitsVal es)
  | .mp ds s es => (digitsVal ds, sgInt s * digitsVal es)

/-- What an atom contributes to the scaling factor of its product: literals outside brackets or
alone between brackets, and the sign of a bracketed variable next to a constant. -/
def Atom.scale : Atom → Int × Int
  | .lit l => l.scale
  | .br (.lit s l) => (l.scale.1 * sgInt s, l.scale.2)
  | .br (.varLit s _ _ _) => (sgInt s, 0)
  | .br (.litVar _ _ s2 _) => (sgInt (some s2), 0)
  | _ => (1, 0)

/-- An `sgn(...)` the documentation allows: a synaptic variable, not negated, with or without a
constant. -/
def Atom.sgnOk : Atom → Bool
  | .sgn (.var _ v) => v.isSyn
  | .sgn (.lit _ _) => false
  | .sgn (.varLit s (.v v) _ _) => v.isSyn && s != some .minus
  | .sgn (.litVar _ _ s2 (.v v)) => v.isSyn && s2 != .minus
  | .sgn _ => false
  | _ => true

/-- A product the generator must accept, when `k` is the common decimate exponent: it has a
dependency, `u` is used only with `u_k` as the leading dependency, `sgn` is used as documented, and
the scaling factor is `m * 2^e` with `|m| ≤ 7` and `-7 ≤ e ≤ 8`. -/
structure Accepted (k : Nat) (as : List Atom) : Prop where
  dep : firstDep as ≠ none
  uk : ∀ c, Atom.u c ∈ as → digitsVal [c] = k ∧ firstDep as = some .u
  sgn : ∀ a ∈ as, a.sgnOk = true
  mant : ((as.map fun (a : Atom) => a.scale.1).prod).natAbs ≤ 7
  expLo : -7 ≤ (as.map fun (a : Atom) => a.scale.2).sum
  expHi : (as.map fun (a : Atom) => a.scale.2).sum ≤ 8

theorem lit_sym_scale (l : Lit) : l.sym = .lit l.scale.1 l.scale.2 := by cases l <;> rfl

theorem sg_sign_int (s : Option Sg) : (s.getD .plus).sym.sign = sgInt s := by
  rcases s with _ | s
  · rfl
  · cases s <;> rfl

theorem sg_isSub (s : Option Sg) : (s.getD .plus).sym.isSub = true → s = some .minus := by
  rcases s with _ | s
  · intro h; simp [Sg.sym, Sym.isSub] at h
  · cases s <;> intro h
    · simp [Sg.sym, Sym.isSub] at h
    · rfl

theorem bracketOut_varLit (s : Option Sg) (v : FVar) (s2 : Sg) (l : Lit) :
    bracketOut (Br.varLit s v s2 l).syms = some (bracketTwo (s.getD .plus).sym v s2.sym l.scale) := by
  unfold bracketOut Br.syms
  rw [withOp_opt (isOp_fvar v)]
  simp only [(fvar_fvar? v).1, lit_sym_scale l, Sym.lit?]

theorem bracketOut_litVar (s : Option Sg) (l : Lit) (s2 : Sg) (v : FVar) :
    bracketOut (Br.litVar s l s2 v).syms = some (bracketTwo s2.sym v (s.getD .plus).sym l.scale) := by
  unfold bracketOut Br.syms
  rw [withOp_opt (isOp_lit l)]
  have h1 : l.sym.fvar? = none := by rw [lit_sym_scale]; rfl
  have h2 : l.sym.lit? = some l.scale := by rw [lit_sym_scale]; rfl
  simp only [(fvar_fvar? v).1, h1, h2]

theorem bracketOut_var (s : Option Sg) (v : V) :
    bracketOut (Br.var s v).syms = some ⟨1, 0, some (.v v), none, false⟩ := by
  unfold bracketOut Br.syms
  rw [withOp_opt rfl]
  rfl

theorem bracketOut_lit (s : Option Sg) (l : Lit) :
    bracketOut (Br.lit s l).syms = some ⟨l.scale.1 * sgInt s, l.scale.2, none, none, false⟩ := by
  unfold bracketOut Br.syms
  rw [withOp_opt (isOp_lit l), lit_sym_scale l]
  simp [bracketOne, sg_sign_int]

/-- What the generator knows after a prefix of a product it accepts. -/
theorem genStep_accept {k : Nat} {st : PSt} {a : Atom} (hs : st.sdec.all (· == k) = true)
    (hu : ∀ c, a = .u c → digitsVal [c] = k) (hsg : a.sgnOk = true) :
    ∃ st', genStep st a.sym = some st' ∧ st'.sdec.all (· == k) = true ∧
      st'.m = st.m * a.scale.1 ∧ st'.e = st.e + a.scale.2 ∧
      st'.dep = st.dep.or (firstDep [a]) ∧ (st'.dec.isSome → st.dec.isSome ∨ ∃ c, a = .u c) := by
  cases a with
  | x0 =>
    refine ⟨_, rfl, ?_⟩
    obtain ⟨dep, dec, m, e, fs, sdec⟩ := st
    cases dep <;> simp_all [PSt.addDep, Atom.scale, firstDep]
  | y0 =>
    refine ⟨_, rfl, ?_⟩
    obtain ⟨dep, dec, m, e, fs, sdec⟩ := st
    cases dep <;> simp_all [PSt.addDep, Atom.scale, firstDep]
  | u c =>
    have hc := hu c rfl
    refine ⟨_, by simp only [Atom.sym, genStep, PSt.addUk]; rw [if_pos (by rw [hc]; exact hs)], ?_⟩
    obtain ⟨dep, dec, m, e, fs, sdec⟩ := st
    cases dep <;> simp_all [Atom.scale, firstDep]
  | var v =>
    refine ⟨_, rfl, ?_⟩
    simp_all [Atom.scale, firstDep]
  | lit l =>
    refine ⟨_, by simp only [Atom.sym, lit_sym_scale l, genStep]; rfl, ?_⟩
    simp_all [Atom.scale, firstDep]
  | br b =>
    cases b with
    | var s v =>
      refine ⟨_, by simp only [Atom.sym, genStep, bracketOut_var, Option.map_some]; rfl, ?_⟩
      simp_all [Atom.scale, firstDep, PSt.addBr]
    | lit s l =>
      refine ⟨_, by simp only [Atom.sym, genStep, bracketOut_lit, Option.map_some]; rfl, ?_⟩
      simp_all [Atom.scale, firstDep, PSt.addBr]
    | varLit s v s2 l =>
      refine ⟨_, by simp only [Atom.sym, genStep, bracketOut_varLit, Option.map_some]; rfl, ?_⟩
      simp_all [Atom.scale, firstDep, PSt.addBr, bracketTwo, sg_sign_int]
    | litVar s l s2 v =>
      refine ⟨_, by simp only [Atom.sym, genStep, bracketOut_litVar, Option.map_some]; rfl, ?_⟩
      have := sg_sign_int (some s2)
      simp_all [Atom.scale, firstDep, PSt.addBr, bracketTwo]
  | sgn b =>
    cases b with
    | var s v =>
      have hv : v.isSyn = true := hsg
      refine ⟨_, by
        simp only [Atom.sym, genStep, bracketOut_var, Option.bind_some, PSt.addSgn, hv]
        rfl, ?_⟩
      simp_all [Atom.scale, firstDep]
    | lit s l => simp [Atom.sgnOk] at hsg
    | varLit s v s2 l =>
      cases v with
      | x0 => simp [Atom.sgnOk] at hsg
      | y0 => simp [Atom.sgnOk] at hsg
      | v z =>
        simp only [Atom.sgnOk, Bool.and_eq_true, bne_iff_ne, ne_eq] at hsg
        have hn : (s.getD .plus).sym.isSub = false := by
          cases h : (s.getD .plus).sym.isSub
          · rfl
          · exact absurd (sg_isSub s h) hsg.2
        refine ⟨_, by
          simp only [Atom.sym, genStep, bracketOut_varLit, Option.bind_some, PSt.addSgn, bracketTwo,
            hsg.1, hn]
          rfl, ?_⟩
        simp_all [Atom.scale, firstDep, Sym.sign]
    | litVar s l s2 v =>
      cases v with
      | x0 => simp [Atom.sgnOk] at hsg
      | y0 => simp [Atom.sgnOk] at hsg
      | v z =>
        simp only [Atom.sgnOk, Bool.and_eq_true, bne_iff_ne, ne_eq] at hsg
        have hn : s2.sym.isSub = false := by
          cases s2
          · rfl
          · exact absurd rfl hsg.2
        refine ⟨_, by
          simp only [Atom.sym, genStep, bracketOut_litVar, Option.bind_some, PSt.addSgn, bracketTwo,
            hsg.1, hn]
          rfl, ?_⟩
        simp_all [Atom.scale, firstDep, Sym.sign]

theorem fold_accept {k : Nat} : ∀ {as : List Atom} {st : PSt}, st.sdec.all (· == k) = true →
    (∀ c, Atom.u c ∈ as → digitsVal [c] = k) → (∀ a ∈ as, a.sgnOk = true) →
    ∃ st', (as.map Atom.sym).foldlM genStep st = some st' ∧ st'.sdec.all (· == k) = true ∧
      st'.m = st.m * (as.map fun (a : Atom) => a.scale.1).prod ∧
      st'.e = st.e + (as.map fun (a : Atom) => a.scale.2).sum ∧
      st'.dep = st.dep.or (firstDep as) ∧
      (st'.dec.isSome → st.dec.isSome ∨ ∃ c, Atom.u c ∈ as) := by
  intro as
  induction as with
  | nil =>
    intro st hs _ _
    exact ⟨st, rfl, hs, by simp, by simp, by simp [firstDep], fun h => Or.inl h⟩
  | cons a r ih =>
    intro st hs hu hsg
    obtain ⟨s1, h1, hs1, hm1, he1, hd1, hc1⟩ := genStep_accept (a := a) hs
      (fun c hc => hu c (by simp [hc])) (hsg a (by simp))
    obtain ⟨s2, h2, hs2, hm2, he2, hd2, hc2⟩ := ih hs1 (fun c hc => hu c (by simp [hc]))
      (fun x hx => hsg x (by simp [hx]))
    refine ⟨s2, ?_, hs2, ?_, ?_, ?_, ?_⟩
    · rw [List.map_cons, List.foldlM_cons, h1]
      exact h2
    · rw [hm2, hm1]; simp [mul_assoc]
    · rw [he2, he1]; simp [add_assoc]
    · rw [hd2, hd1, firstDep_cons a r]
      cases st.dep <;> simp
    · intro h
      rcases hc2 h with h | ⟨c, h⟩
      · rcases hc1 h with h | ⟨c, h⟩
        · exact Or.inl h
        · exact Or.inr ⟨c, by simp [h]⟩
      · exact Or.inr ⟨c, by simp [h]⟩

theorem normalise_small {m e : Int} (h : m.natAbs ≤ 7) : normalise m e = (m, e) := by
  unfold normalise
  cases hn : m.natAbs with
  | zero => rfl
  | succ n =>
    unfold normLoop
    rw [if_neg (by omega)]

theorem genProduct_accept {k : Nat} {sdec : Option Nat} {s : Option Sg} {as : List Atom}
    (hs : sdec.all (· == k) = true) (h : Accepted k as) :
    ∃ p sdec', genProduct sdec (optSgSyms s ++ as.map Atom.sym) = some (p, sdec') ∧
      sdec'.all (· == k) = true := by
  obtain ⟨st, hst, hsd, hm, he, hd, hc⟩ := fold_accept
    (st := ⟨none, none, sgInt s, 0, [], sdec⟩) hs (fun c hc => (h.uk c hc).1) h.sgn
  have hfold : (optSgSyms s ++ as.map Atom.sym).foldlM genStep ⟨none, none, 1, 0, [], sdec⟩
      = some st := by
    rcases s with _ | s
    · exact hst
    · cases s
      · exact hst
      · have he : optSgSyms (some .minus) ++ as.map Atom.sym = Sym.sub :: as.map Atom.sym := rfl
        rw [he, List.foldlM_cons]
        simpa [genStep, sgInt] using hst
  simp only [Option.none_or] at hd
  obtain ⟨d, hfd⟩ := Option.ne_none_iff_exists'.mp h.dep
  have hmm : st.m.natAbs ≤ 7 := by
    rw [hm, Int.natAbs_mul]
    have : (sgInt s).natAbs = 1 := by
      rcases s with _ | s
      · rfl
      · cases s <;> rfl
    rw [this, Nat.one_mul]
    exact h.mant
  have hlo := h.expLo
  have hhi := h.expHi
  simp only [Int.zero_add] at he
  unfold genProduct
  rw [hfold]
  simp only [Option.bind_some]
  unfold finish
  rw [hd, hfd]
  simp only [Option.bind_some]
  rw [normalise_small hmm]
  have hdec : st.dec.isSome = true → d = .u := by
    intro hh
    rcases hc hh with h' | ⟨c, h'⟩
    · simp at h'
    · have := (h.uk c h').2
      rw [hfd] at this
      simpa using this
  rw [if_pos ⟨by omega, by omega, by omega, by omega, hdec⟩]
  exact ⟨_, _, rfl, hsd⟩

theorem genProducts_accept {k : Nat} : ∀ {tl : List (Sg × List Atom)} {sdec : Option Nat},
    sdec.all (· == k) = true → (∀ p ∈ tl, Accepted k p.2) →
    ∃ ps, genProducts sdec (tl.map fun p => p.1.sym :: p.2.map Atom.sym) = some ps := by
  intro tl
  induction tl with
  | nil => intro sdec _ _; exact ⟨[], rfl⟩
  | cons p tl ih =>
    intro sdec hs h
    obtain ⟨q, sd, h1, h2⟩ := genProduct_accept (s := some p.1) hs (h p (by simp))
    obtain ⟨ps, h3⟩ := ih h2 (fun x hx => h x (by simp [hx]))
    refine ⟨q :: ps, ?_⟩
    simp only [List.map_cons, genProducts]
    have h1' : genProduct sdec (p.1.sym :: p.2.map Atom.sym) = some (q, sd) := h1
    rw [h1']
    simp only [Option.bind_some, h3, Option.map_some]

/-- Rules as documented are accepted: every product has a dependency, all `u_k` use one `k` and are
leading dependencies, `sgn` is applied to a synaptic variable, and scaling factors are small. -/
theorem C55_accepts (q : Eqn) (s : List Char) (k : Nat) (hok : q.ok)
    (hs : s.filter (· ≠ ' ') = q.render) (h0 : Accepted k q.head)
    (ht : ∀ p ∈ q.tail, Accepted k p.2) : ∃ ps, compileRule s = some ps := by
  unfold compileRule
  rw [C55_tokenizes q s hok hs]
  simp only [Option.bind_some]
  rw [separate_eqn hok]
  obtain ⟨p, sd, h1, h2⟩ := genProduct_accept (s := q.sign) (sdec := none) rfl h0
  obtain ⟨ps, h3⟩ := genProducts_accept h2 ht
  refine ⟨p :: ps, ?_⟩
  simp only [genProducts, h1, Option.bind_some, h3, Option.map_some]

/-- Within the exponent range, a scaling factor is rejected for its mantissa only if no admissible
mantissa and exponent denote the same number. -/
theorem C55_scale_rejection_justified (m e : Int) (he : -7 ≤ e) (he' : e < 9)
    (hr : ¬ (-8 ≤ (normalise m e).1 ∧ (normalise m e).1 < 8 ∧
      -7 ≤ (normalise m e).2 ∧ (normalise m e).2 < 9)) :
    ∀ m' e' : Int, -8 ≤ m' → m' < 8 → -7 ≤ e' → e' < 9 →
      (m : ℚ) * (2 : ℚ) ^ e ≠ (m' : ℚ) * (2 : ℚ) ^ e' := by
  have hrange : ∀ (n : Nat) (m e : Int), -7 ≤ e → e < 9 →
      -7 ≤ (normLoop n m e).2 ∧ (normLoop n m e).2 < 9 := by
    intro n
    induction n with
    | zero => intro m e h1 h2; exact ⟨h1, h2⟩
    | succ n ih =>
      intro m e h1 h2
      unfold normLoop
      split
      · exact ih _ _ (by omega) (by omega)
      · exact ⟨h1, h2⟩
  have hre := hrange m.natAbs m e he he'
  have hdone := normLoop_done m.natAbs m e (Nat.le_refl _)
  have hsc := normalise_scale m e
  unfold normalise at hr hsc
  generalize hM : (normLoop m.natAbs m e).1 = M at *
  generalize hE : (normLoop m.natAbs m e).2 = E at *
  have hbig : M < -8 ∨ 8 ≤ M := by
    by_contra hcon
    exact hr ⟨by omega, by omega, hre.1, hre.2⟩
  intro m' e' h1 h2 h3 h4 heq
  have heq : scale M E = scale m' e' := by rw [hsc]; exact heq
  unfold scale at heq
  have hpos : ∀ z : Int, (0 : ℚ) < (2 : ℚ) ^ z := fun z => zpow_pos (by norm_num) z
  by_cases hEe : e' ≤ E
  · obtain ⟨n, hn⟩ : ∃ n : Nat, E = e' + n := ⟨(E - e').toNat, by omega⟩
    rw [hn, two_zpow_add, zpow_natCast] at heq
    have h5 : (M : ℚ) * 2 ^ n = m' := by
      have := hpos e'
      have hne := ne_of_gt this
      apply mul_right_cancel₀ hne
      linear_combination heq
    have h6 : M * 2 ^ n = m' := by exact_mod_cast h5
    have h7 : (1 : Int) ≤ 2 ^ n := by
      have : (1 : Int) ^ n ≤ 2 ^ n := pow_le_pow_left₀ (by norm_num) (by norm_num) n
      simpa using this
    rcases hbig with hb | hb
    · nlinarith
    · nlinarith
  · obtain ⟨n, hn⟩ : ∃ n : Nat, e' = E + (n + 1) := ⟨(e' - E - 1).toNat, by omega⟩
    have hn' : e' = E + ((n + 1 : Nat) : Int) := by push_cast; omega
    rw [hn', two_zpow_add, zpow_natCast] at heq
    have h5 : (M : ℚ) = m' * 2 ^ (n + 1) := by
      have := hpos E
      have hne := ne_of_gt this
      apply mul_right_cancel₀ hne
      linear_combination heq
    have h6 : M = m' * 2 ^ (n + 1) := by exact_mod_cast h5
    have hev : M % 2 = 0 := by
      rw [h6, pow_succ, ← Int.mul_assoc]
      exact Int.mul_emod_left _ _
    exact hdone ⟨by omega, hev, by omega⟩

/-! ## Non-vacuity and findings -/

/-- The rule `-2 * x0 * (y1 - 3) + 2^-3*y0*x1*sgn(w)`. -/
def exampleRule : Eqn :=
  ⟨some .minus, [.lit (.int ['2']), .x0, .br (.varLit none (.v .y1) .minus (.int ['3']))],
    [(.plus, [.lit (.pow (some .minus) ['3']), .y0, .var .x1, .sgn (.var none .w)])]⟩

example : String.ofList exampleRule.render = "-2*x0*(y1-3)+2^-3*y0*x1*sgn(w)" := by decide

example : exampleRule.ok ∧ exampleRule.signKept := by
  simp [exampleRule, Eqn.ok, Eqn.signKept, okAtoms, Atom.ok, Lit.ok, Br.ok, okDigits, canonical,
    Atom.signKept, Br.loneNeg]

example : ("- 2 * x0 * (y1 - 3) + 2^-3 * y0 * x1 * sgn(w)".toList).filter (· ≠ ' ')
    = exampleRule.render := by decide

/-- A rule is compiled to the products one expects. -/
example : (compileRule "- 2 * x0 * (y1 - 3) + 2^-3 * y0 * x1 * sgn(w)".toList)
    = some [⟨.x0, -2, 7, [⟨.v .y1, some (-3), false⟩], none⟩,
            ⟨.y0, 1, 4, [⟨.v .x1, none, false⟩, ⟨.v .w, none, true⟩], none⟩] := by
  decide +kernel

/-- The hypotheses of `C55_accepts` hold for it. -/
example : ∃ ps, compileRule exampleRule.render = some ps := by
  refine C55_accepts exampleRule _ 0 ?_ (by decide) ?_ ?_
  · simp [exampleRule, Eqn.ok, okAtoms, Atom.ok, Lit.ok, Br.ok, okDigits, canonical]
  · exact ⟨by decide, by simp [exampleRule], by decide, by decide, by decide, by decide⟩
  · intro p hp
    simp only [exampleRule, List.mem_singleton] at hp
    subst hp
    exact ⟨by decide, by simp, by decide, by decide, by decide, by decide⟩

/-- Mixed decimate exponents are rejected. -/
theorem C55_mixed_uk_rejected : compileRule "u0*x1+u1*y1".toList = none := by decide +kernel

/-- A product without a dependency is rejected. -/
theorem C55_no_dependency_rejected : compileRule "2*x1".toList = none := by decide +kernel

/-- **Finding.** `x0*(-x1)` is compiled to the same series as `x0*(x1)`: the sign of a lone negated
variable between brackets is lost. -/
theorem C55_bracketed_negation_loses_sign :
    compileRule "x0*(-x1)".toList = compileRule "x0*(x1)".toList ∧
    (∃ ps, compileRule "x0*(-x1)".toList = some ps) ∧
    ∃ (q : Eqn) (ps : List Product) (env : Env), q.ok ∧
      "x0*(-x1)".toList = q.render ∧ compileRule q.render = some ps ∧
      evalSeries env ps ≠ q.value env := by
  have h : compileRule "x0*(-x1)".toList = some [⟨.x0, 1, 7, [⟨.v .x1, none, false⟩], none⟩] := by
    decide +kernel
  refine ⟨by decide +kernel, ⟨_, h⟩, ⟨none, [.x0, .br (.var (some .minus) .x1)], []⟩,
    _, ⟨1, 0, fun _ => 0, fun _ _ => 1⟩, ?_, by decide, h, ?_⟩
  · simp [Eqn.ok, okAtoms, Atom.ok, Br.ok, canonical]
  · norm_num [evalSeries, Product.eval, Env.dep, Factor.eval, Env.fvar, Eqn.value, atomsValue,
      optSgVal, Atom.value, Br.value, Sg.val, firstDep]

/-- **Finding.** `sgn(-w)` is accepted and compiled like `sgn(w)`, although a negated variable next
to a constant in `sgn` is rejected. -/
theorem C55_sgn_negation_loses_sign :
    compileRule "x0*sgn(-w)".toList = compileRule "x0*sgn(w)".toList ∧
    compileRule "x0*sgn(-w)".toList ≠ none ∧
    compileRule "x0*sgn(-w+1)".toList = none := by decide +kernel

/-- **Finding.** Texts outside the grammar of `EqSpec` are accepted with a different meaning instead
of being rejected: a product between brackets is read as a sum, further terms between brackets and
bracketed dependencies are dropped, and an inner minus sign splits a product in two. -/
theorem C55_unsupported_text_accepted :
    compileRule "x0*(x1*2)".toList = compileRule "x0*(x1+2)".toList ∧
    compileRule "x0*(x1+2+3)".toList = compileRule "x0*(x1+2)".toList ∧
    compileRule "x0*(y0)".toList = compileRule "x0".toList ∧
    compileRule "x0*-2*y0".toList = compileRule "x0-2*y0".toList ∧
    compileRule "u12*x1".toList = compileRule "u1*2*x1".toList ∧
    compileRule "x0*(x1*2)".toList ≠ none ∧ compileRule "x0*(y0)".toList ≠ none ∧
    compileRule "x0-2*y0".toList ≠ none ∧ compileRule "u12*x1".toList ≠ none := by
  decide +kernel

/-- **Finding.** A spike dependency as a second factor is accepted by `ProductSeries`, but the
floating-point applier cannot be built from it. -/
theorem C55_float_applier_rejects_spike_factor :
    ∃ ps, compileRule "x0*y0".toList = some ps ∧ (floatApplier ps).isNone = true := by
  refine ⟨[⟨.x0, 1, 7, [⟨.y0, none, false⟩], none⟩], by decide +kernel, ?_⟩
  decide +kernel

/-- **Finding.** `2*2^8` is accepted while the equal `2^9` is rejected: the loop only moves factors
of two from the mantissa to the exponent. -/
theorem C55_exponent_not_balanced :
    compileRule "2*2^8*x0".toList ≠ none ∧ compileRule "2^9*x0".toList = none := by decide +kernel

end Verif.Learning
