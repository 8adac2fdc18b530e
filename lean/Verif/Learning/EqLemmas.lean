import Verif.Learning.EqSpec
import Mathlib.Tactic.Ring
import Mathlib.Tactic.NormNum
import Mathlib.Algebra.GroupWithZero.Basic

/-!
# Lemmas on the tokenizer: the text of a rule is tokenized as intended
-/

namespace Verif.Learning

/-! ## Fuel -/

theorem closeAt_length : ∀ (r : List Char) (k : Nat) (p : List Char × List Char),
    closeAt k r = some p → p.1.length + p.2.length + 1 = r.length := by
  intro r
  induction r with
  | nil => intro k p h; simp [closeAt] at h
  | cons c r ih =>
    intro k p h
    unfold closeAt at h
    split at h
    · simp only [Option.map_eq_some_iff] at h
      obtain ⟨q, hq, rfl⟩ := h
      have := ih _ _ hq
      simp only [List.length_cons]; omega
    · split at h
      · split at h
        · simp only [Option.some.injEq] at h
          subst h; simp
        · simp only [Option.map_eq_some_iff] at h
          obtain ⟨q, hq, rfl⟩ := h
          have := ih _ _ hq
          simp only [List.length_cons]; omega
      · simp only [Option.map_eq_some_iff] at h
        obtain ⟨q, hq, rfl⟩ := h
        have := ih _ _ hq
        simp only [List.length_cons]; omega

theorem optSign_length (s : List Char) : (optSign s).2.length ≤ s.length := by
  unfold optSign; split <;> simp

theorem digits_split (s : List Char) :
    (digitsOf s).length + (afterDigits s).length = s.length := by
  unfold digitsOf afterDigits
  rw [← List.length_append, List.takeWhile_append_dropWhile]

theorem findExp_length (s : List Char) (p : Int × List Char) (h : findExp s = some (some p)) :
    p.2.length < s.length := by
  unfold findExp at h
  have h1 := optSign_length s
  have h2 := digits_split (optSign s).2
  cases hd : digitsOf (optSign s).2 with
  | nil => rw [hd] at h; simp at h
  | cons c t =>
    rw [hd] at h h2
    simp only [Option.some.injEq, Option.map_eq_some_iff] at h
    obtain ⟨n, _, rfl⟩ := h
    simp only [List.length_cons] at h2
    show (afterDigits _).length < _
    omega

theorem findLit_length (s : List Char) (p : Sym × List Char) (h : findLit s = some p) :
    p.2.length < s.length := by
  have h1 := optSign_length s
  have h2 := digits_split (optSign s).2
  unfold findLit at h
  split at h
  · rename_i o ho
    subst h
    unfold findLit0 at ho
    split at ho
    · simp at ho
    · rename_i ds r hd hne
      simp only [Option.map_eq_some_iff] at ho
      obtain ⟨o, ho, hb⟩ := ho
      simp only [Option.bind_eq_some_iff, Option.map_eq_some_iff] at hb
      obtain ⟨q, rfl, m, _, rfl⟩ := hb
      have := findExp_length _ _ ho
      rw [hd] at h2
      simp only [List.length_cons] at h2
      show q.2.length < _
      omega
    · simp at ho
  · split at h
    · rename_i o ho
      subst h
      unfold findLit1 at ho
      split at ho
      · rename_i r hr
        simp only [Option.map_eq_some_iff] at ho
        obtain ⟨o, ho, hb⟩ := ho
        obtain ⟨q, rfl, rfl⟩ := hb
        have := findExp_length _ _ ho
        rw [hr] at h1
        simp only [List.length_cons] at h1
        show q.2.length < _
        omega
      · simp at ho
    · split at h
      · rename_i o ho
        subst h
        unfold findLit2 at ho
        split at ho
        · simp at ho
        · rename_i ds hne
          simp only [Option.some.injEq, Option.map_eq_some_iff] at ho
          obtain ⟨m, _, rfl⟩ := ho
          have : digitsOf (optSign s).2 ≠ [] := fun hh => hne hh
          have := List.length_pos_of_ne_nil this
          show (afterDigits _).length < _
          omega
      · simp at h

/-- A symbol consumes at least one character, and `_parse` is called only on shorter strings. -/
theorem findNext_congr (f g : List Char → Option (List Sym)) (s : List Char)
    (h : ∀ r : List Char, r.length < s.length → f r = g r) : findNext f s = findNext g s := by
  unfold findNext
  split <;> try rfl
  · rename_i r
    cases hc : closeAt 1 r with
    | none => rfl
    | some p =>
      have := closeAt_length _ _ _ hc
      simp only [Option.bind_some]
      rw [h p.1 (by simp only [List.length_cons]; omega)]
  · rename_i r
    cases hc : closeAt 1 r with
    | none => rfl
    | some p =>
      have := closeAt_length _ _ _ hc
      simp only [Option.bind_some]
      rw [h p.1 (by simp only [List.length_cons]; omega)]

theorem findNext_length (f : List Char → Option (List Sym)) (s : List Char) (p : Sym × List Char)
    (h : findNext f s = some p) : p.2.length < s.length := by
  unfold findNext at h
  split at h <;> try (simp only [Option.some.injEq] at h; subst h; simp only [List.length_cons]; omega)
  · split at h
    · simp only [Option.some.injEq] at h; subst h; simp only [List.length_cons]; omega
    · simp at h
  · simp only [Option.bind_eq_some_iff, Option.map_eq_some_iff] at h
    obtain ⟨q, hq, l, _, rfl⟩ := h
    have := closeAt_length _ _ _ hq
    simp only [List.length_cons]; omega
  · simp only [Option.bind_eq_some_iff, Option.map_eq_some_iff] at h
    obtain ⟨q, hq, l, _, rfl⟩ := h
    have := closeAt_length _ _ _ hq
    simp only [List.length_cons]; omega
  · exact findLit_length _ _ h

theorem parse_fuel_aux : ∀ (k : Nat) (s : List Char) (n m : Nat), s.length ≤ k → s.length < n →
    s.length < m → parse n s = parse m s := by
  intro k
  induction k with
  | zero =>
    intro s n m hk hn hm
    have : s = [] := List.length_eq_zero_iff.mp (by omega)
    subst this
    obtain ⟨n, rfl⟩ : ∃ n', n = n' + 1 := ⟨n - 1, by omega⟩
    obtain ⟨m, rfl⟩ : ∃ m', m = m' + 1 := ⟨m - 1, by omega⟩
    unfold parse
    rw [findNext_congr (parse n) (parse m) [] (by simp)]
    cases hf : findNext (parse m) [] with
    | none => rfl
    | some p => exact absurd (findNext_length _ _ _ hf) (by simp)
  | succ k ih =>
    intro s n m hk hn hm
    obtain ⟨n, rfl⟩ : ∃ n', n = n' + 1 := ⟨n - 1, by omega⟩
    obtain ⟨m, rfl⟩ : ∃ m', m = m' + 1 := ⟨m - 1, by omega⟩
    unfold parse
    rw [findNext_congr (parse n) (parse m) s
      (fun r hr => ih r n m (by omega) (by omega) (by omega))]
    cases hf : findNext (parse m) s with
    | none => rfl
    | some p =>
      have hl := findNext_length _ _ _ hf
      simp only [Option.bind_some]
      unfold parseRest
      cases hp : p.2 with
      | nil => rfl
      | cons c r =>
        rw [hp] at hl
        simp only
        rw [ih (c :: r) n m (by omega) (by omega) (by omega)]

/-! ## Intended symbols of a text -/

/-- Sign as an integer. -/
def sgInt : Option Sg → Int
  | some .minus => -1
  | _ => 1

/-- Symbol of a sign. -/
def Sg.sym : Sg → Sym
  | .plus => .add
  | .minus => .sub

/-- Symbols of an optional sign. -/
def optSgSyms : Option Sg → List Sym
  | none => []
  | some s => [s.sym]

/-- Symbol of a literal. -/
def Lit.sym : Lit → Sym
  | .int ds => .lit (digitsVal ds) 0
  | .pow s es => .lit 1 (sgInt s * digitsVal es)
  | .mp ds s es => .lit (digitsVal ds) (sgInt s * digitsVal es)

/-- Symbol of a variable or spike dependency. -/
def FVar.sym : FVar → Sym
  | .x0 => .x0
  | .y0 => .y0
  | .v a => .var a

/-- Symbols of the inside of a bracket. -/
def Br.syms : Br → List Sym
  | .var s v => optSgSyms s ++ [.var v]
  | .lit s l => optSgSyms s ++ [l.sym]
  | .varLit s v s2 l => optSgSyms s ++ [v.sym, s2.sym, l.sym]
  | .litVar s l s2 v => optSgSyms s ++ [l.sym, s2.sym, v.sym]

/-- Symbol of an atom. -/
def Atom.sym : Atom → Sym
  | .x0 => .x0
  | .y0 => .y0
  | .u k => .uk (digitsVal [k])
  | .var v => .var v
  | .lit l => l.sym
  | .br b => .bracket b.syms
  | .sgn b => .sgn b.syms

/-- Symbols of a product. -/
def atomsSyms : List Atom → List Sym
  | [] => []
  | [a] => [a.sym]
  | a :: r => a.sym :: .mul :: atomsSyms r

/-- Symbols of the further products. -/
def tailSyms : List (Sg × List Atom) → List Sym
  | [] => []
  | (s, as) :: r => s.sym :: (atomsSyms as ++ tailSyms r)

/-- Symbols of a rule. -/
def Eqn.syms (q : Eqn) : List Sym := optSgSyms q.sign ++ (atomsSyms q.head ++ tailSyms q.tail)

/-! ## Literals -/

/-- What may follow a token: not a digit, not `^`. -/
def follow (R : List Char) : Prop := ∀ c r, R = c :: r → c.isDigit = false ∧ c ≠ '^'

theorem follow_nil : follow [] := by intro c r h; cases h

theorem follow_cons {c : Char} {r : List Char} (h : c.isDigit = false) (h2 : c ≠ '^') :
    follow (c :: r) := by
  intro c' r' h'
  cases h'
  exact ⟨h, h2⟩

theorem digitsOf_app {ds R : List Char} (hd : ∀ c ∈ ds, c.isDigit = true) (hR : follow R) :
    digitsOf (ds ++ R) = ds ∧ afterDigits (ds ++ R) = R := by
  unfold digitsOf afterDigits
  have h1 : R.takeWhile Char.isDigit = [] := by
    cases R with
    | nil => rfl
    | cons c r => simp [List.takeWhile_cons, (hR c r rfl).1]
  have h2 : R.dropWhile Char.isDigit = R := by
    cases R with
    | nil => rfl
    | cons c r => simp [List.dropWhile_cons, (hR c r rfl).1]
  rw [List.takeWhile_append_of_pos hd, h1, List.dropWhile_append_of_pos hd, h2]
  simp

theorem litEval_ok {ds : List Char} (h : okDigits ds) : litEval ds = some (digitsVal ds) := by
  unfold litEval
  split
  · rename_i c r
    have := h.2.2 rfl
    simp at this
  · rfl

theorem optSign_digits {ds R : List Char} (h : okDigits ds) : optSign (ds ++ R) = (1, ds ++ R) := by
  obtain ⟨hne, hall, _⟩ := h
  cases ds with
  | nil => exact absurd rfl hne
  | cons c t =>
    have hc := hall c (by simp)
    unfold optSign
    split
    · rename_i heq
      simp only [List.cons_append, List.cons.injEq] at heq
      obtain ⟨rfl, _⟩ := heq
      exact absurd hc (by decide)
    · rename_i heq
      simp only [List.cons_append, List.cons.injEq] at heq
      obtain ⟨rfl, _⟩ := heq
      exact absurd hc (by decide)
    · rfl

theorem optSign_signed {s : Option Sg} {ds R : List Char} (h : okDigits ds) :
    optSign (optSgRender s ++ ds ++ R) = (sgInt s, ds ++ R) := by
  cases s with
  | none => simpa [optSgRender, sgInt] using optSign_digits h
  | some s => cases s <;> simp [optSgRender, Sg.render, optSign, sgInt]

theorem findExp_ok {s : Option Sg} {es R : List Char} (h : okDigits es) (hR : follow R) :
    findExp (optSgRender s ++ es ++ R) = some (some (sgInt s * digitsVal es, R)) := by
  unfold findExp
  rw [optSign_signed h, (digitsOf_app h.2.1 hR).1, (digitsOf_app h.2.1 hR).2]
  cases es with
  | nil => exact absurd rfl h.1
  | cons c t => simp only [litEval_ok h]; rfl

theorem findLit_ok {l : Lit} {R : List Char} (h : l.ok) (hR : follow R)
    (hi : ∀ ds, l = .int ds → ∀ r, R ≠ '*' :: '2' :: '^' :: r) :
    findLit (l.render ++ R) = some (l.sym, R) := by
  cases l with
  | int ds =>
    have h : okDigits ds := h
    have hi := hi ds rfl
    have h0 : findLit0 (ds ++ R) = none := by
      unfold findLit0
      rw [optSign_digits h]
      dsimp only
      rw [(digitsOf_app h.2.1 hR).1, (digitsOf_app h.2.1 hR).2]
      split
      · rfl
      · rename_i r _ _
        exact absurd rfl (hi r)
      · rfl
    have h1 : findLit1 (ds ++ R) = none := by
      unfold findLit1
      rw [optSign_digits h]
      dsimp only
      split
      · rename_i r heq
        exfalso
        obtain ⟨hne, hall, _⟩ := h
        match ds, hne, hall with
        | [c], _, _ =>
          simp only [List.cons_append, List.nil_append, List.cons.injEq] at heq
          exact (hR _ _ heq.2).2 rfl
        | c :: c' :: t, _, hall =>
          simp only [List.cons_append, List.cons.injEq] at heq
          have := hall c' (by simp)
          rw [heq.2.1] at this
          exact absurd this (by decide)
      · rfl
    have h2 : findLit2 (ds ++ R) = some (some (.lit (digitsVal ds) 0, R)) := by
      unfold findLit2
      rw [optSign_digits h]
      dsimp only
      rw [(digitsOf_app h.2.1 hR).1, (digitsOf_app h.2.1 hR).2]
      cases ds with
      | nil => exact absurd rfl h.1
      | cons c t => simp [litEval_ok h]
    unfold findLit
    show (match findLit0 (ds ++ R) with | some o => o | none => _) = _
    rw [h0]
    dsimp only
    show (match findLit1 (ds ++ R) with | some o => o | none => _) = _
    rw [h1]
    dsimp only
    show (match findLit2 (ds ++ R) with | some o => o | none => _) = _
    rw [h2]
    rfl
  | pow s es =>
    have h : okDigits es := h
    have h0 : findLit0 ('2' :: '^' :: (optSgRender s ++ es ++ R)) = none := by
      simp [findLit0, optSign, digitsOf, afterDigits, List.takeWhile_cons, List.dropWhile_cons,
        show Char.isDigit '2' = true from rfl, show Char.isDigit '^' = false from rfl]
    have h1 : findLit1 ('2' :: '^' :: (optSgRender s ++ es ++ R))
        = some (some (.lit 1 (sgInt s * digitsVal es), R)) := by
      have ho : optSign ('2' :: '^' :: (optSgRender s ++ es ++ R))
          = (1, '2' :: '^' :: (optSgRender s ++ es ++ R)) := by simp [optSign]
      unfold findLit1
      rw [ho]
      simp only [findExp_ok h hR]
      rfl
    unfold findLit
    have : (Lit.pow s es).render ++ R = '2' :: '^' :: (optSgRender s ++ es ++ R) := rfl
    rw [this, h0]
    dsimp only
    rw [h1]
    rfl
  | mp ds s es =>
    have h : okDigits ds ∧ okDigits es := h
    have hf : follow ('*' :: '2' :: '^' :: (optSgRender s ++ es ++ R)) :=
      follow_cons (by rfl) (by decide)
    have h0 : findLit0 (ds ++ '*' :: '2' :: '^' :: (optSgRender s ++ es ++ R))
        = some (some (.lit (digitsVal ds) (sgInt s * digitsVal es), R)) := by
      unfold findLit0
      rw [optSign_digits h.1]
      dsimp only
      rw [(digitsOf_app h.1.2.1 hf).1, (digitsOf_app h.1.2.1 hf).2]
      cases ds with
      | nil => exact absurd rfl h.1.1
      | cons c t => simp only [findExp_ok h.2 hR, litEval_ok h.1]; simp
    have : (Lit.mp ds s es).render ++ R
        = ds ++ '*' :: '2' :: '^' :: (optSgRender s ++ es ++ R) := by
      simp [Lit.render]
    unfold findLit
    rw [this, h0]
    rfl

theorem findNext_lit {l : Lit} {R : List Char} (f : List Char → Option (List Sym)) (h : l.ok)
    (hR : follow R) (hi : ∀ ds, l = .int ds → ∀ r, R ≠ '*' :: '2' :: '^' :: r) :
    findNext f (l.render ++ R) = some (l.sym, R) := by
  have hd : ∃ c t, l.render ++ R = c :: t ∧ c.isDigit = true := by
    cases l with
    | int ds =>
      obtain ⟨hne, hall, _⟩ : okDigits ds := h
      cases ds with
      | nil => exact absurd rfl hne
      | cons c t => exact ⟨c, t ++ R, rfl, hall c (by simp)⟩
    | pow s es => exact ⟨'2', _, rfl, rfl⟩
    | mp ds s es =>
      obtain ⟨hne, hall, _⟩ : okDigits ds := h.1
      cases ds with
      | nil => exact absurd rfl hne
      | cons c t => exact ⟨c, _, rfl, hall c (by simp)⟩
  rw [← findLit_ok h hR hi]
  obtain ⟨c, t, he, hc⟩ := hd
  rw [he]
  unfold findNext
  split <;> first
    | rfl
    | (rename_i heq
       simp only [List.cons.injEq] at heq
       obtain ⟨rfl, _⟩ := heq
       exact absurd hc (by decide))

/-! ## Chaining tokens -/

/-- `s` is tokenized to `l` (with any sufficient bound). -/
def Parses (s : List Char) (l : List Sym) : Prop := ∀ n, s.length < n → parse n s = some l

/-- `s` at the head of a string is tokenized to `t`, leaving `R`. -/
def Tok (s : List Char) (t : Sym) (R : List Char) : Prop :=
  ∀ n, (s ++ R).length ≤ n → findNext (parse n) (s ++ R) = some (t, R)

theorem Parses.one {s : List Char} {t : Sym} (h : Tok s t []) : Parses s [t] := by
  intro n hn
  obtain ⟨n, rfl⟩ : ∃ n', n = n' + 1 := ⟨n - 1, by omega⟩
  unfold parse
  have := h n (by simp only [List.append_nil]; omega)
  simp only [List.append_nil] at this
  rw [this]
  rfl

theorem Parses.cons {s R : List Char} {t : Sym} {l : List Sym} (hs : s ≠ []) (hR : R ≠ [])
    (h : Tok s t R) (hl : Parses R l) : Parses (s ++ R) (t :: l) := by
  intro n hn
  obtain ⟨n, rfl⟩ : ∃ n', n = n' + 1 := ⟨n - 1, by omega⟩
  unfold parse
  rw [h n (by omega)]
  simp only [Option.bind_some]
  unfold parseRest
  have hp := List.length_pos_of_ne_nil hs
  rw [List.length_append] at hn
  cases R with
  | nil => exact absurd rfl hR
  | cons c r =>
    simp only
    rw [hl n (by omega)]
    rfl

theorem tok_sg (s : Sg) (R : List Char) : Tok s.render s.sym R := by
  intro n _
  cases s <;> simp [Sg.render, Sg.sym, findNext]

theorem tok_var (v : V) (R : List Char) : Tok v.render (.var v) R := by
  intro n _
  cases v <;> simp [V.render, findNext]

theorem tok_fvar (v : FVar) (R : List Char) : Tok v.render v.sym R := by
  intro n hn
  cases v with
  | x0 => simp [FVar.render, FVar.sym, findNext]
  | y0 => simp [FVar.render, FVar.sym, findNext]
  | v a => exact tok_var a R n hn

theorem tok_lit {l : Lit} {R : List Char} (h : l.ok) (hR : follow R)
    (hi : ∀ ds, l = .int ds → ∀ r, R ≠ '*' :: '2' :: '^' :: r) : Tok l.render l.sym R :=
  fun _ _ => findNext_lit _ h hR hi

theorem sg_ne (s : Sg) : s.render ≠ [] := by cases s <;> simp [Sg.render]

theorem var_ne (v : V) : v.render ≠ [] := by cases v <;> simp [V.render]

theorem fvar_ne (v : FVar) : v.render ≠ [] := by
  cases v with
  | v a => exact var_ne a
  | _ => simp [FVar.render]

theorem lit_ne {l : Lit} (h : l.ok) : l.render ≠ [] := by
  cases l with
  | int ds => exact h.1
  | pow s es => simp [Lit.render]
  | mp ds s es => simp [Lit.render]

theorem follow_sg (s : Sg) (R : List Char) : follow (s.render ++ R) := by
  cases s <;> exact follow_cons rfl (by decide)

theorem Parses.optSg {s : Option Sg} {R : List Char} {l : List Sym} (hR : R ≠ [])
    (hl : Parses R l) : Parses (optSgRender s ++ R) (optSgSyms s ++ l) := by
  cases s with
  | none => exact hl
  | some s => exact Parses.cons (sg_ne s) hR (tok_sg s R) hl

theorem sg_not_star (s : Sg) (R r : List Char) : s.render ++ R ≠ '*' :: r := by
  cases s <;> simp [Sg.render]

theorem br_parses {b : Br} (h : b.ok) : Parses b.render b.syms := by
  cases b with
  | var s v =>
    exact Parses.optSg (var_ne v) (Parses.one (tok_var v []))
  | lit s l =>
    exact Parses.optSg (lit_ne h) (Parses.one (tok_lit h follow_nil (by intro _ _ r hr; cases hr)))
  | varLit s v s2 l =>
    have h3 : Parses l.render [l.sym] :=
      Parses.one (tok_lit h follow_nil (by intro _ _ r hr; cases hr))
    have h2 : Parses (s2.render ++ l.render) [s2.sym, l.sym] :=
      Parses.cons (sg_ne s2) (lit_ne h) (tok_sg s2 _) h3
    have h1 : Parses (v.render ++ (s2.render ++ l.render)) [v.sym, s2.sym, l.sym] :=
      Parses.cons (fvar_ne v) (by simp [sg_ne]) (tok_fvar v _) h2
    have := Parses.optSg (s := s) (by simp [fvar_ne]) h1
    simpa [Br.render, Br.syms] using this
  | litVar s l s2 v =>
    have h : l.ok := h
    have h3 : Parses v.render [v.sym] := Parses.one (tok_fvar v [])
    have h2 : Parses (s2.render ++ v.render) [s2.sym, v.sym] :=
      Parses.cons (sg_ne s2) (fvar_ne v) (tok_sg s2 _) h3
    have h1 : Parses (l.render ++ (s2.render ++ v.render)) [l.sym, s2.sym, v.sym] :=
      Parses.cons (lit_ne h) (by simp [sg_ne])
        (tok_lit h (follow_sg s2 _) (fun _ _ r => sg_not_star s2 _ _)) h2
    have := Parses.optSg (s := s) (by simp [lit_ne h]) h1
    simpa [Br.render, Br.syms] using this

/-! ## Brackets -/

/-- No bracket character. -/
def flat (s : List Char) : Prop := ∀ c ∈ s, c ≠ '(' ∧ c ≠ ')'

theorem closeAt_flat : ∀ {s : List Char} (R : List Char), flat s →
    closeAt 1 (s ++ ')' :: R) = some (s, R) := by
  intro s
  induction s with
  | nil => intro R _; simp [closeAt]
  | cons c s ih =>
    intro R h
    have hc := h c (by simp)
    have hs : flat s := fun c' hc' => h c' (by simp [hc'])
    simp only [List.cons_append, closeAt]
    rw [if_neg hc.1, if_neg hc.2, ih R hs]
    rfl

theorem flat_append {s t : List Char} (hs : flat s) (ht : flat t) : flat (s ++ t) := by
  intro c hc
  rcases List.mem_append.mp hc with h | h
  · exact hs c h
  · exact ht c h

theorem flat_digits {ds : List Char} (h : okDigits ds) : flat ds := by
  intro c hc
  have := h.2.1 c hc
  constructor <;> (rintro rfl; exact absurd this (by decide))

theorem flat_optSg (s : Option Sg) : flat (optSgRender s) := by
  rcases s with _ | s
  · intro c hc; simp [optSgRender] at hc
  · cases s <;> (intro c hc; simp [optSgRender, Sg.render] at hc; subst hc; decide)

theorem flat_sg (s : Sg) : flat s.render := flat_optSg (some s)

theorem flat_var (v : V) : flat v.render := by
  cases v <;> (intro c hc; simp [V.render] at hc)
  all_goals first
    | (rcases hc with rfl | rfl <;> decide)
    | (subst hc; decide)

theorem flat_fvar (v : FVar) : flat v.render := by
  cases v with
  | v a => exact flat_var a
  | _ =>
    intro c hc
    simp [FVar.render] at hc
    rcases hc with rfl | rfl <;> decide

theorem flat_lit {l : Lit} (h : l.ok) : flat l.render := by
  have h2 : flat ['2', '^'] := by
    intro c hc; simp at hc; rcases hc with rfl | rfl <;> decide
  have h3 : flat ['*', '2', '^'] := by
    intro c hc; simp at hc; rcases hc with rfl | rfl | rfl <;> decide
  cases l with
  | int ds => exact flat_digits h
  | pow s es =>
    exact flat_append h2 (flat_append (flat_optSg s) (flat_digits h))
  | mp ds s es =>
    exact flat_append (flat_digits h.1)
      (flat_append h3 (flat_append (flat_optSg s) (flat_digits h.2)))

theorem flat_br {b : Br} (h : b.ok) : flat b.render := by
  cases b with
  | var s v => exact flat_append (flat_optSg s) (flat_var v)
  | lit s l => exact flat_append (flat_optSg s) (flat_lit h)
  | varLit s v s2 l =>
    exact flat_append (flat_append (flat_append (flat_optSg s) (flat_fvar v)) (flat_sg s2))
      (flat_lit h)
  | litVar s l s2 v =>
    exact flat_append (flat_append (flat_append (flat_optSg s) (flat_lit h)) (flat_sg s2))
      (flat_fvar v)

/-! ## Atoms, products, rules -/

theorem tok_atom {a : Atom} {R : List Char} (h : a.ok) (hR : follow R)
    (hi : ∀ ds, a = .lit (.int ds) → ∀ r, R ≠ '*' :: '2' :: '^' :: r) : Tok a.render a.sym R := by
  cases a with
  | x0 => intro n _; simp [Atom.render, Atom.sym, findNext]
  | y0 => intro n _; simp [Atom.render, Atom.sym, findNext]
  | u k =>
    intro n _
    have h : k.isDigit = true := h
    simp [Atom.render, Atom.sym, findNext, h]
  | var v => exact tok_var v R
  | lit l =>
    exact tok_lit h hR (fun ds hl => hi ds (by rw [hl]))
  | br b =>
    intro n hn
    have he : Atom.render (.br b) ++ R = '(' :: (b.render ++ ')' :: R) := by simp [Atom.render]
    rw [he] at hn ⊢
    simp only [findNext, closeAt_flat R (flat_br h), Option.bind_some]
    rw [br_parses h n (by
      simp only [List.length_cons, List.length_append] at hn; omega)]
    rfl
  | sgn b =>
    intro n hn
    have he : Atom.render (.sgn b) ++ R = 's' :: 'g' :: 'n' :: '(' :: (b.render ++ ')' :: R) := by
      simp [Atom.render]
    rw [he] at hn ⊢
    simp only [findNext, closeAt_flat R (flat_br h), Option.bind_some]
    rw [br_parses h n (by
      simp only [List.length_cons, List.length_append] at hn; omega)]
    rfl

theorem atom_ne {a : Atom} (h : a.ok) : a.render ≠ [] := by
  cases a with
  | var v => exact var_ne v
  | lit l => exact lit_ne h
  | _ => simp [Atom.render]

theorem renderAtoms_ne {as : List Atom} (hne : as ≠ []) (h : ∀ a ∈ as, a.ok) :
    renderAtoms as ≠ [] := by
  match as, hne with
  | [a], _ => exact atom_ne (h a (by simp))
  | a :: b :: r, _ => simp [renderAtoms]

/-- Only a power literal starts with `2^`. -/
theorem atom_not_pow {a : Atom} {R r : List Char} (h : a.ok) (hR : follow R)
    (hp : ∀ s es, a ≠ .lit (.pow s es)) : a.render ++ R ≠ '2' :: '^' :: r := by
  intro heq
  cases a with
  | x0 => simp [Atom.render] at heq
  | y0 => simp [Atom.render] at heq
  | u k => simp [Atom.render] at heq
  | var v => cases v <;> simp [Atom.render, V.render] at heq
  | br b => simp [Atom.render] at heq
  | sgn b => simp [Atom.render] at heq
  | lit l =>
    cases l with
    | pow s es => exact hp s es rfl
    | int ds =>
      obtain ⟨hne, hall, _⟩ : okDigits ds := h
      simp only [Atom.render, Lit.render] at heq
      match ds, hne, hall with
      | [c], _, _ =>
        simp only [List.cons_append, List.nil_append, List.cons.injEq] at heq
        exact (hR _ _ heq.2).2 rfl
      | c :: c' :: t, _, hall =>
        simp only [List.cons_append, List.cons.injEq] at heq
        have := hall c' (by simp)
        rw [heq.2.1] at this
        exact absurd this (by decide)
    | mp ds s es =>
      obtain ⟨hne, hall, _⟩ : okDigits ds := h.1
      simp only [Atom.render, Lit.render] at heq
      match ds, hne, hall with
      | [c], _, _ => simp at heq
      | c :: c' :: t, _, hall =>
        simp only [List.cons_append, List.cons.injEq] at heq
        have := hall c' (by simp)
        rw [heq.2.1] at this
        exact absurd this (by decide)

theorem follow_star (R : List Char) : follow ('*' :: R) := follow_cons rfl (by decide)

theorem canonical_tail {a : Atom} {r : List Atom} (h : canonical (a :: r)) : canonical r := by
  unfold canonical at h
  split at h
  · exact h.elim
  · rename_i heq; cases heq; exact h
  · rename_i heq; cases heq

theorem atoms_parse : ∀ {as : List Atom} {R : List Char} {L : List Sym}, as ≠ [] →
    (∀ a ∈ as, a.ok) → canonical as →
    ((R = [] ∧ L = []) ∨ (R ≠ [] ∧ Parses R L ∧ follow R ∧ ∀ r, R ≠ '*' :: r)) →
    Parses (renderAtoms as ++ R) (atomsSyms as ++ L) := by
  intro as
  induction as with
  | nil => intro R L h; exact absurd rfl h
  | cons a r ih =>
    intro R L _ hok hcan hR
    have ha : a.ok := hok a (by simp)
    cases r with
    | nil =>
      rcases hR with ⟨rfl, rfl⟩ | ⟨hne, hp, hf, hs⟩
      · simp only [renderAtoms, atomsSyms, List.append_nil]
        exact Parses.one (tok_atom ha follow_nil (by intro _ _ r hr; cases hr))
      · exact Parses.cons (atom_ne ha) hne (tok_atom ha hf (fun _ _ r => hs _)) hp
    | cons b r =>
      have hb : b.ok := hok b (by simp)
      have htl := ih (R := R) (L := L) (by simp) (fun x hx => hok x (by simp [hx]))
        (canonical_tail hcan) hR
      have hRf : follow R := by
        rcases hR with ⟨rfl, _⟩ | ⟨_, _, hf, _⟩
        · exact follow_nil
        · exact hf
      have hmul : Tok ['*'] .mul (renderAtoms (b :: r) ++ R) := by
        intro n _; simp [findNext]
      have h1 : Parses ('*' :: (renderAtoms (b :: r) ++ R)) (.mul :: (atomsSyms (b :: r) ++ L)) :=
        Parses.cons (by simp)
          (by simp [renderAtoms_ne (as := b :: r) (by simp) (fun x hx => hok x (by simp [hx]))])
          hmul htl
      have hi : ∀ ds, a = .lit (.int ds) →
          ∀ q, '*' :: (renderAtoms (b :: r) ++ R) ≠ '*' :: '2' :: '^' :: q := by
        intro ds hds q hq
        subst hds
        have hp : ∀ s es, b ≠ .lit (.pow s es) := by
          intro s es hb
          subst hb
          exact hcan
        simp only [List.cons.injEq, true_and] at hq
        cases r with
        | nil => exact atom_not_pow hb hRf hp hq
        | cons c r =>
          have : renderAtoms (b :: c :: r) ++ R = b.render ++ ('*' :: (renderAtoms (c :: r) ++ R)) := by
            simp [renderAtoms]
          rw [this] at hq
          exact atom_not_pow hb (follow_star _) hp hq
      have := Parses.cons (atom_ne ha) (by simp) (tok_atom ha (follow_star _) hi) h1
      simpa [renderAtoms, atomsSyms] using this

theorem tail_parse : ∀ {tl : List (Sg × List Atom)}, (∀ p ∈ tl, okAtoms p.2) →
    (renderTail tl = [] ∧ tailSyms tl = []) ∨ (renderTail tl ≠ [] ∧
      Parses (renderTail tl) (tailSyms tl) ∧ follow (renderTail tl) ∧
      ∀ r, renderTail tl ≠ '*' :: r) := by
  intro tl
  induction tl with
  | nil => intro _; exact Or.inl ⟨rfl, rfl⟩
  | cons p tl ih =>
    intro h
    obtain ⟨s, as⟩ := p
    have hp : okAtoms as := h (s, as) (by simp)
    have hih := ih (fun q hq => h q (by simp [hq]))
    right
    have he : renderTail ((s, as) :: tl) = s.render ++ (renderAtoms as ++ renderTail tl) := by
      simp [renderTail]
    rw [he]
    refine ⟨by simp [sg_ne], ?_, follow_sg s _, fun r => sg_not_star s _ _⟩
    exact Parses.cons (sg_ne s) (by simp [renderAtoms_ne hp.1 hp.2.1]) (tok_sg s _)
      (atoms_parse hp.1 hp.2.1 hp.2.2 hih)

theorem eqn_parses {q : Eqn} (h : q.ok) : Parses q.render q.syms := by
  have h1 := atoms_parse h.1.1 h.1.2.1 h.1.2.2 (tail_parse h.2)
  have := Parses.optSg (s := q.sign)
    (by simp [renderAtoms_ne h.1.1 h.1.2.1]) h1
  simpa [Eqn.render, Eqn.syms] using this

end Verif.Learning
