import Verif.Learning.EqLemmas
import Mathlib.Tactic.Linarith
import Mathlib.Tactic.LinearCombination
import Mathlib.Algebra.Order.Ring.Int

/-!
# Lemmas on the product-series generator
-/

namespace Verif.Learning

/-! ## Separation into products -/

theorem separate_atom {a : Atom} {cur : List Sym} {L : List Sym} :
    separate cur (a.sym :: L) = separate (cur ++ [a.sym]) L := by
  cases a with
  | lit l => cases l <;> rfl
  | _ => rfl

theorem separate_atoms : ∀ {as : List Atom} {cur L : List Sym},
    separate cur (atomsSyms as ++ L) = separate (cur ++ as.map Atom.sym) L := by
  intro as
  induction as with
  | nil => intro cur L; simp [atomsSyms]
  | cons a r ih =>
    intro cur L
    cases r with
    | nil => simp only [atomsSyms, List.cons_append, List.nil_append, List.map_cons, List.map_nil]
             exact separate_atom
    | cons b r =>
      have : atomsSyms (a :: b :: r) ++ L = a.sym :: .mul :: (atomsSyms (b :: r) ++ L) := by
        simp [atomsSyms]
      rw [this, separate_atom]
      have h2 : separate (cur ++ [a.sym]) (.mul :: (atomsSyms (b :: r) ++ L))
          = separate (cur ++ [a.sym]) (atomsSyms (b :: r) ++ L) := rfl
      rw [h2, ih]
      simp

theorem separate_tail : ∀ {tl : List (Sg × List Atom)} {cur : List Sym}, cur ≠ [] →
    (∀ p ∈ tl, p.2 ≠ []) →
    separate cur (tailSyms tl) = cur :: tl.map fun p => p.1.sym :: p.2.map Atom.sym := by
  intro tl
  induction tl with
  | nil => intro cur _ _; rfl
  | cons p tl ih =>
    intro cur hc hne
    obtain ⟨s, as⟩ := p
    have h1 : separate cur (tailSyms ((s, as) :: tl))
        = cur :: separate [s.sym] (atomsSyms as ++ tailSyms tl) := by
      have he : cur.isEmpty = false := by cases cur <;> simp_all
      cases s <;> simp [tailSyms, Sg.sym, separate, he]
    rw [h1, separate_atoms, ih (by simp) (fun q hq => hne q (by simp [hq]))]
    simp

theorem separate_eqn {q : Eqn} (h : q.ok) :
    separate [] q.syms = (optSgSyms q.sign ++ q.head.map Atom.sym) ::
      q.tail.map fun p => p.1.sym :: p.2.map Atom.sym := by
  have hh : q.head.map Atom.sym ≠ [] := by simpa using h.1.1
  have ht : ∀ p ∈ q.tail, p.2 ≠ [] := fun p hp => (h.2 p hp).1
  unfold Eqn.syms
  cases hs : q.sign with
  | none =>
    simp only [optSgSyms, List.nil_append]
    rw [separate_atoms, List.nil_append, separate_tail hh ht]
  | some s =>
    have h1 : separate [] (optSgSyms (some s) ++ (atomsSyms q.head ++ tailSyms q.tail))
        = separate [s.sym] (atomsSyms q.head ++ tailSyms q.tail) := by
      cases s <;> rfl
    rw [h1, separate_atoms, separate_tail (by simp) ht]
    rfl

/-! ## Normalisation -/

/-- The scaling factor. -/
def scale (m e : Int) : ℚ := (m : ℚ) * (2 : ℚ) ^ e

theorem two_zpow_add (a b : Int) : (2 : ℚ) ^ (a + b) = 2 ^ a * 2 ^ b :=
  zpow_add₀ (by norm_num) a b

theorem normLoop_scale : ∀ (n : Nat) (m e : Int),
    scale (normLoop n m e).1 (normLoop n m e).2 = scale m e := by
  intro n
  induction n with
  | zero => intro m e; rfl
  | succ n ih =>
    intro m e
    unfold normLoop
    split
    · rename_i h
      rw [ih]
      unfold scale
      have h2 : m = 2 * (m / 2) := by omega
      have h3 : (m : ℚ) = 2 * ((m / 2 : Int) : ℚ) := by
        conv_lhs => rw [h2]
        push_cast
        ring
      rw [two_zpow_add, h3, zpow_one]
      ring
    · rfl

theorem normLoop_done : ∀ (n : Nat) (m e : Int), m.natAbs ≤ n →
    ¬ (7 < (normLoop n m e).1.natAbs ∧ (normLoop n m e).1 % 2 = 0 ∧ (normLoop n m e).2 < 8) := by
  intro n
  induction n with
  | zero =>
    intro m e h hc
    simp only [normLoop] at hc
    omega
  | succ n ih =>
    intro m e h
    unfold normLoop
    split
    · rename_i hc
      exact ih _ _ (by omega)
    · assumption

theorem normalise_scale (m e : Int) :
    scale (normalise m e).1 (normalise m e).2 = scale m e := normLoop_scale _ m e

/-! ## Literals and brackets -/

theorem twoPow_eq (s : Option Sg) (n : Nat) : (2 : ℚ) ^ (sgInt s * n) = twoPow s n := by
  rcases s with _ | s
  · simp [sgInt, twoPow]
  · cases s
    · simp [sgInt, twoPow]
    · simp [sgInt, twoPow, zpow_neg]

theorem lit_sym (l : Lit) : ∃ m e, l.sym = .lit m e ∧ scale m e = l.value := by
  cases l with
  | int ds => exact ⟨_, _, rfl, by simp [scale, Lit.value]⟩
  | pow s es => exact ⟨_, _, rfl, by simp [scale, Lit.value, twoPow_eq]⟩
  | mp ds s es => exact ⟨_, _, rfl, by simp [scale, Lit.value, twoPow_eq]⟩

theorem lit_lit? (l : Lit) : ∃ c, l.sym.lit? = some c ∧ litVal c = l.value ∧
    l.sym.fvar? = none := by
  obtain ⟨m, e, h, hv⟩ := lit_sym l
  exact ⟨(m, e), by rw [h]; rfl, hv, by rw [h]; rfl⟩

theorem fvar_fvar? (v : FVar) : v.sym.fvar? = some v ∧ v.sym.lit? = none := by
  cases v <;> exact ⟨rfl, rfl⟩

theorem sg_sign (s : Sg) : ((s.sym.sign : Int) : ℚ) = s.val := by
  cases s <;> simp [Sg.sym, Sym.sign, Sym.isSub, Sg.val]

/-- Value of a bracket's contribution. -/
def BrOut.value (env : Env) (d : Dep) (o : BrOut) : ℚ :=
  scale o.m o.e * (match o.var with
    | some v => env.fvar d v + o.const.getD 0
    | none => 1)

theorem withOp_opt {s : Option Sg} {t : Sym} {r : List Sym} (h : t.isOp = false) :
    withOp (optSgSyms s ++ t :: r) = ((s.getD .plus).sym :: t :: r) := by
  rcases s with _ | s
  · simp [withOp, optSgSyms, h, Sg.sym]
  · cases s <;> simp [withOp, optSgSyms, Sg.sym, Sym.isOp]

theorem optSg_getD (s : Option Sg) : (s.getD .plus).val = optSgVal s := by
  rcases s with _ | s <;> rfl

theorem sg_val_sq (s : Sg) : s.val * s.val = 1 := by cases s <;> norm_num [Sg.val]

theorem bracketTwo_value (env : Env) (d : Dep) (sv : Sg) (v : FVar) (sc : Sg) (c : Int × Int) :
    (bracketTwo sv.sym v sc.sym c).value env d
      = sv.val * env.fvar d v + sc.val * litVal c := by
  unfold bracketTwo BrOut.value scale
  simp only [Option.getD_some, zpow_zero]
  rw [sg_sign, sg_sign]
  have := sg_val_sq sv
  linear_combination (sc.val * litVal c) * this

theorem isOp_lit (l : Lit) : l.sym.isOp = false := by cases l <;> rfl

theorem isOp_fvar (v : FVar) : v.sym.isOp = false := by cases v <;> rfl

theorem bracketOut_value (env : Env) (d : Dep) {b : Br} (hk : b.loneNeg = false) :
    ∃ o, bracketOut b.syms = some o ∧ o.value env d = b.value env d := by
  cases b with
  | var s v =>
    refine ⟨⟨1, 0, some (.v v), none, false⟩, ?_, ?_⟩
    · unfold bracketOut Br.syms
      rw [withOp_opt rfl]
      rfl
    · have : optSgVal s = 1 := by
        rcases s with _ | s
        · rfl
        · cases s
          · rfl
          · simp [Br.loneNeg] at hk
      simp [BrOut.value, scale, Br.value, this, Env.fvar]
  | lit s l =>
    obtain ⟨m, e, hl, hv⟩ := lit_sym l
    refine ⟨⟨m * (s.getD .plus).sym.sign, e, none, none, false⟩, ?_, ?_⟩
    · unfold bracketOut Br.syms
      rw [withOp_opt (isOp_lit l), hl]
      rfl
    · simp only [BrOut.value, Br.value, ← hv, scale, mul_one]
      push_cast
      rw [sg_sign, optSg_getD]
      ring
  | varLit s v s2 l =>
    obtain ⟨c, hc, hv, _⟩ := lit_lit? l
    refine ⟨bracketTwo (s.getD .plus).sym v s2.sym c, ?_, ?_⟩
    · unfold bracketOut Br.syms
      rw [withOp_opt (isOp_fvar v)]
      simp only [(fvar_fvar? v).1, hc]
    · rw [bracketTwo_value, hv, optSg_getD]
      rfl
  | litVar s l s2 v =>
    obtain ⟨c, hc, hv, hn⟩ := lit_lit? l
    refine ⟨bracketTwo s2.sym v (s.getD .plus).sym c, ?_, ?_⟩
    · unfold bracketOut Br.syms
      rw [withOp_opt (isOp_lit l)]
      simp only [hn, (fvar_fvar? v).1, hc]
    · rw [bracketTwo_value, hv, optSg_getD]
      simp only [Br.value]
      ring

/-- An sgn-bracket that the generator accepts contributes only its variable and constant. -/
theorem bracketOut_sgn {b : Br} {o : BrOut} {v : V} (hk : b.loneNeg = false)
    (ho : bracketOut b.syms = some o) (hvar : o.var = some (.v v)) (hneg : o.negVar = false)
    (env : Env) (d : Dep) :
    o.m = 1 ∧ o.e = 0 ∧ env.val d v + o.const.getD 0 = b.value env d := by
  obtain ⟨o', ho', hv'⟩ := bracketOut_value env d hk
  rw [ho] at ho'
  simp only [Option.some.injEq] at ho'
  subst ho'
  have hme : o.m = 1 ∧ o.e = 0 := by
    cases b with
    | var s z =>
      unfold bracketOut Br.syms at ho
      rw [withOp_opt rfl] at ho
      simp only [Option.some.injEq] at ho
      subst ho
      exact ⟨rfl, rfl⟩
    | lit s l =>
      obtain ⟨m, e, hl, _⟩ := lit_sym l
      unfold bracketOut Br.syms at ho
      rw [withOp_opt (isOp_lit l), hl] at ho
      simp only [Option.some.injEq] at ho
      subst ho
      simp [bracketOne] at hvar
    | varLit s z s2 l =>
      obtain ⟨c, hc, _, _⟩ := lit_lit? l
      unfold bracketOut Br.syms at ho
      rw [withOp_opt (isOp_fvar z)] at ho
      simp only [(fvar_fvar? z).1, hc, Option.some.injEq] at ho
      subst ho
      simp only [bracketTwo] at hneg ⊢
      simp [Sym.sign, hneg]
    | litVar s l s2 z =>
      obtain ⟨c, hc, _, hn⟩ := lit_lit? l
      unfold bracketOut Br.syms at ho
      rw [withOp_opt (isOp_lit l)] at ho
      simp only [hn, (fvar_fvar? z).1, hc, Option.some.injEq] at ho
      subst ho
      simp only [bracketTwo] at hneg ⊢
      simp [Sym.sign, hneg]
  refine ⟨hme.1, hme.2, ?_⟩
  rw [← hv']
  simp [BrOut.value, hvar, hme.1, hme.2, scale, Env.fvar]

/-! ## One product -/

/-- The value represented by the local variables of the generator. -/
def PSt.value (env : Env) (d : Dep) (st : PSt) : ℚ :=
  scale st.m st.e * (match st.dep with
    | some dd => env.dep st.dec dd
    | none => 1) * (st.factors.map (Factor.eval env d)).prod

/-- The decimate exponent is set together with the dependency `u`. -/
def PSt.inv (st : PSt) : Prop :=
  (st.dep = none → st.dec = none) ∧ (st.dep = some .u → ∃ k, st.dec = some k ∧ st.sdec = some k)

/-- The product will be rejected: a decimate exponent with a spike dependency. -/
def PSt.doomed (st : PSt) : Prop := st.dec.isSome = true ∧ ∃ d, st.dep = some d ∧ d ≠ .u

theorem scale_mul (m e m' e' : Int) : scale (m * m') (e + e') = scale m e * scale m' e' := by
  unfold scale
  rw [two_zpow_add]
  push_cast
  ring

theorem genStep_atom (env : Env) (hu : ∀ k, env.u k * env.u k = env.u k) (d : Dep) {st st' : PSt}
    {a : Atom} (hk : a.signKept = true) (hinv : st.inv) (h : genStep st a.sym = some st') :
    st'.inv ∧ st'.dep = st.dep.or (firstDep [a]) ∧ (st.doomed → st'.doomed) ∧
      (st'.doomed ∨ st'.value env d = st.value env d * a.value env d) := by
  cases a with
  | x0 =>
    simp only [Atom.sym, genStep, Option.some.injEq] at h
    subst h
    obtain ⟨dep, dec, m, e, fs, sdec⟩ := st
    cases dep with
    | none =>
      have hd : dec = none := hinv.1 rfl
      subst hd
      refine ⟨⟨by simp [PSt.addDep], by simp [PSt.addDep]⟩, rfl, by simp [PSt.doomed], Or.inr ?_⟩
      simp only [PSt.addDep, PSt.value, Env.dep, Atom.value]
      ring
    | some dd =>
      refine ⟨⟨by simp [PSt.addDep], ?_⟩, rfl, fun h => h, Or.inr ?_⟩
      · intro hh; exact hinv.2 hh
      · simp only [PSt.addDep, PSt.value, List.map_append, List.prod_append, List.map_cons,
          List.map_nil, List.prod_cons, List.prod_nil, Factor.eval, Env.fvar, Atom.value,
          Option.getD_none]
        simp
        ring
  | y0 =>
    simp only [Atom.sym, genStep, Option.some.injEq] at h
    subst h
    obtain ⟨dep, dec, m, e, fs, sdec⟩ := st
    cases dep with
    | none =>
      have hd : dec = none := hinv.1 rfl
      subst hd
      refine ⟨⟨by simp [PSt.addDep], by simp [PSt.addDep]⟩, rfl, by simp [PSt.doomed], Or.inr ?_⟩
      simp only [PSt.addDep, PSt.value, Env.dep, Atom.value]
      ring
    | some dd =>
      refine ⟨⟨by simp [PSt.addDep], ?_⟩, rfl, fun h => h, Or.inr ?_⟩
      · intro hh; exact hinv.2 hh
      · simp only [PSt.addDep, PSt.value, List.map_append, List.prod_append, List.map_cons,
          List.map_nil, List.prod_cons, List.prod_nil, Factor.eval, Env.fvar, Atom.value,
          Option.getD_none]
        simp
        ring
  | u c =>
    simp only [Atom.sym, genStep, PSt.addUk] at h
    split at h
    · rename_i hall
      simp only [Option.some.injEq] at h
      subst h
      obtain ⟨dep, dec, m, e, fs, sdec⟩ := st
      cases dep with
      | none =>
        have hd : dec = none := hinv.1 rfl
        subst hd
        refine ⟨⟨by simp, by simp⟩, rfl, by simp [PSt.doomed], Or.inr ?_⟩
        simp only [PSt.value, Env.dep, Atom.value, Option.getD_none, Option.getD_some]
        ring
      | some dd =>
        by_cases hdu : dd = .u
        · subst hdu
          obtain ⟨k, hk1, hk2⟩ := hinv.2 rfl
          simp only at hk1 hk2
          subst hk1
          subst hk2
          simp only [Option.all_some, beq_iff_eq] at hall
          subst hall
          refine ⟨⟨by simp, by simp⟩, rfl, fun h => h, Or.inr ?_⟩
          simp only [PSt.value, Env.dep, Atom.value, Option.getD_some]
          have := hu (digitsVal [c])
          linear_combination (-(scale m e * (fs.map (Factor.eval env d)).prod)) * this
        · have hdoom : PSt.doomed ⟨some dd, some (digitsVal [c]), m, e, fs, some (digitsVal [c])⟩ :=
            ⟨rfl, dd, rfl, hdu⟩
          exact ⟨⟨by simp, by simp⟩, rfl, fun _ => hdoom, Or.inl hdoom⟩
    · simp at h
  | var v =>
    simp only [Atom.sym, genStep, Option.some.injEq] at h
    subst h
    refine ⟨hinv, by simp [firstDep], fun h => h, Or.inr ?_⟩
    simp only [PSt.value, List.map_append, List.prod_append, List.map_cons,
      List.map_nil, List.prod_cons, List.prod_nil, Factor.eval, Env.fvar, Atom.value,
      Option.getD_none]
    simp
    ring
  | lit l =>
    obtain ⟨m, e, hl, hv⟩ := lit_sym l
    simp only [Atom.sym, hl, genStep, Option.some.injEq] at h
    subst h
    refine ⟨hinv, by simp [firstDep], fun h => h, Or.inr ?_⟩
    simp only [PSt.value, scale_mul, Atom.value, ← hv]
    ring
  | br b =>
    have hb : b.loneNeg = false := by simpa [Atom.signKept] using hk
    obtain ⟨o, ho, hov⟩ := bracketOut_value env d hb
    simp only [Atom.sym, genStep, ho, Option.map_some, Option.some.injEq] at h
    subst h
    refine ⟨hinv, by simp [firstDep, PSt.addBr], fun h => h, Or.inr ?_⟩
    simp only [Atom.value, ← hov]
    simp only [PSt.addBr, PSt.value, scale_mul, BrOut.value, List.map_append, List.prod_append]
    cases hvar : o.var with
    | none => simp; ring
    | some v =>
      simp only [List.map_cons, List.map_nil, List.prod_cons, List.prod_nil, Factor.eval]
      simp
      ring
  | sgn b =>
    have hb : b.loneNeg = false := by simpa [Atom.signKept] using hk
    simp only [Atom.sym, genStep, Option.bind_eq_some_iff] at h
    obtain ⟨o, ho, h⟩ := h
    unfold PSt.addSgn at h
    split at h
    · rename_i v hvar
      split at h
      · rename_i hc
        simp only [Bool.and_eq_true, Bool.not_eq_true'] at hc
        obtain ⟨h1, h2, h3⟩ := bracketOut_sgn hb ho hvar hc.2 env d
        simp only [Option.some.injEq] at h
        subst h
        refine ⟨hinv, by simp [firstDep], fun h => h, Or.inr ?_⟩
        simp only [PSt.value, Atom.value, ← h3, h1, h2, List.map_append, List.prod_append,
          List.map_cons, List.map_nil, List.prod_cons, List.prod_nil, Factor.eval, Env.fvar]
        simp
        ring
      · simp at h
    · simp at h

theorem firstDep_cons (a : Atom) (r : List Atom) :
    firstDep (a :: r) = (firstDep [a]).or (firstDep r) := by
  cases a <;> simp [firstDep]

theorem fold_atoms (env : Env) (hu : ∀ k, env.u k * env.u k = env.u k) (d : Dep) :
    ∀ {as : List Atom} {st st' : PSt}, (∀ a ∈ as, a.signKept = true) → st.inv →
    (as.map Atom.sym).foldlM genStep st = some st' →
    st'.dep = st.dep.or (firstDep as) ∧ (st.doomed → st'.doomed) ∧
      (st'.doomed ∨ st'.value env d = st.value env d * (as.map (Atom.value env d)).prod) := by
  intro as
  induction as with
  | nil =>
    intro st st' _ _ h
    simp only [List.map_nil, List.foldlM_nil] at h
    cases h
    exact ⟨by simp [firstDep], fun h => h, Or.inr (by simp)⟩
  | cons a r ih =>
    intro st st' hk hinv h
    rw [List.map_cons, List.foldlM_cons] at h
    simp only [Option.bind_eq_bind, Option.bind_eq_some_iff] at h
    obtain ⟨s1, h1, h2⟩ := h
    obtain ⟨hi1, hd1, hm1, hv1⟩ := genStep_atom env hu d (hk a (by simp)) hinv h1
    obtain ⟨hd2, hm2, hv2⟩ := ih (fun x hx => hk x (by simp [hx])) hi1 h2
    refine ⟨?_, fun h => hm2 (hm1 h), ?_⟩
    · rw [hd2, hd1, firstDep_cons a r]
      cases st.dep <;> simp
    · rcases hv1 with hv1 | hv1
      · exact Or.inl (hm2 hv1)
      · rcases hv2 with hv2 | hv2
        · exact Or.inl hv2
        · right
          rw [hv2, hv1, List.map_cons, List.prod_cons]
          ring

theorem finish_value (env : Env) {st : PSt} {p : Product} (h : finish st = some p) :
    ¬ st.doomed ∧ st.dep = some p.dep ∧ p.eval env = st.value env p.dep := by
  unfold finish at h
  simp only [Option.bind_eq_some_iff] at h
  obtain ⟨d, hd, h⟩ := h
  split at h
  · rename_i hc
    simp only [Option.some.injEq] at h
    subst h
    refine ⟨?_, hd, ?_⟩
    · rintro ⟨h1, d', h2, h3⟩
      rw [hd] at h2
      cases h2
      exact h3 (hc.2.2.2.2 h1)
    · simp only [Product.eval, PSt.value, hd]
      rw [← normalise_scale st.m st.e]
      unfold scale
      rw [show (normalise st.m st.e).2 + 7 - 7 = (normalise st.m st.e).2 by omega]
  · simp at h

theorem init_inv (sdec : Option Nat) : PSt.inv ⟨none, none, 1, 0, [], sdec⟩ :=
  ⟨fun _ => rfl, fun h => by simp at h⟩

theorem genProduct_value (env : Env) (hu : ∀ k, env.u k * env.u k = env.u k)
    {sdec sdec' : Option Nat} {s : Option Sg} {as : List Atom} {p : Product}
    (hk : ∀ a ∈ as, a.signKept = true)
    (h : genProduct sdec (optSgSyms s ++ as.map Atom.sym) = some (p, sdec')) :
    p.eval env = optSgVal s * atomsValue env as := by
  unfold genProduct at h
  simp only [Option.bind_eq_some_iff, Option.map_eq_some_iff] at h
  obtain ⟨st, hst, q, hq, heq⟩ := h
  simp only [Prod.mk.injEq] at heq
  obtain ⟨rfl, _⟩ := heq
  obtain ⟨hnd, hdep, hval⟩ := finish_value env hq
  have key : ∃ m0 : Int, (m0 : ℚ) = optSgVal s ∧
      (as.map Atom.sym).foldlM genStep ⟨none, none, m0, 0, [], sdec⟩ = some st := by
    rcases s with _ | s
    · exact ⟨1, by simp [optSgVal], hst⟩
    · cases s
      · exact ⟨1, by simp [optSgVal, Sg.val], hst⟩
      · refine ⟨-1, by simp [optSgVal, Sg.val], ?_⟩
        have he : optSgSyms (some .minus) ++ as.map Atom.sym = Sym.sub :: as.map Atom.sym := rfl
        rw [he, List.foldlM_cons] at hst
        simpa [genStep] using hst
  obtain ⟨m0, hm0, hst⟩ := key
  obtain ⟨hd, _, hv⟩ := fold_atoms env hu q.dep hk
    (st := ⟨none, none, m0, 0, [], sdec⟩) ⟨fun _ => rfl, fun h => by simp at h⟩ hst
  simp only [Option.none_or] at hd
  rcases hv with hv | hv
  · exact absurd hv hnd
  · rw [hval, hv]
    unfold atomsValue
    rw [← hd, hdep]
    simp [PSt.value, scale, hm0]

theorem genProducts_value (env : Env) (hu : ∀ k, env.u k * env.u k = env.u k) :
    ∀ {tl : List (Sg × List Atom)} {sdec : Option Nat} {ps : List Product},
    (∀ p ∈ tl, ∀ a ∈ p.2, a.signKept = true) →
    genProducts sdec (tl.map fun p => p.1.sym :: p.2.map Atom.sym) = some ps →
    evalSeries env ps = (tl.map fun p => p.1.val * atomsValue env p.2).sum := by
  intro tl
  induction tl with
  | nil =>
    intro sdec ps _ h
    simp only [List.map_nil, genProducts, Option.some.injEq] at h
    subst h
    simp [evalSeries]
  | cons p tl ih =>
    intro sdec ps hk h
    simp only [List.map_cons, genProducts, Option.bind_eq_some_iff, Option.map_eq_some_iff] at h
    obtain ⟨⟨q, sdec'⟩, h1, qs, h2, rfl⟩ := h
    have e1 := genProduct_value env hu (s := some p.1) (hk p (by simp)) h1
    have e2 := ih (fun x hx => hk x (by simp [hx])) h2
    simp only [evalSeries, List.map_cons, List.sum_cons] at e2 ⊢
    rw [e2, e1]
    rfl

end Verif.Learning
