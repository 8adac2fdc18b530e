import Verif.Learning.RuleObj
import Verif.Learning.EqProps
import Mathlib.Data.List.TakeWhile

/-!
# Lemmas on learning-rule objects
-/

namespace Verif.Learning

/-! ## The search for `u_k` -/

/-- The text contains `u` followed by the maximal run of digits `run`. -/
def UkIn (s run : List Char) : Prop :=
  ∃ a b, s = a ++ 'u' :: (run ++ b) ∧ run ≠ [] ∧ (∀ c ∈ run, c.isDigit = true) ∧
    ∀ c, b.head? = some c → c.isDigit = false

theorem ukFind_cons_ne {c : Char} {r : List Char} (h : c ≠ 'u') : ukFind (c :: r) = ukFind r := by
  simp [ukFind, h]

theorem ukFind_mono {c : Char} {r m : List Char} (h : m ∈ ukFind r) : m ∈ ukFind (c :: r) := by
  unfold ukFind
  split
  · split
    · exact h
    · exact List.mem_cons_of_mem _ h
  · exact h

theorem ukFind_suffix {a s m : List Char} (h : m ∈ ukFind s) : m ∈ ukFind (a ++ s) := by
  induction a with
  | nil => exact h
  | cons c a ih => exact ukFind_mono ih

theorem takeWhile_run {run b : List Char} (h : ∀ c ∈ run, c.isDigit = true)
    (hb : ∀ c, b.head? = some c → c.isDigit = false) :
    (run ++ b).takeWhile Char.isDigit = run := by
  induction run with
  | nil =>
    cases b with
    | nil => rfl
    | cons c b => simp [hb c rfl]
  | cons c run ih =>
    simp [h c (by simp), ih (fun x hx => h x (by simp [hx]))]

theorem mem_ukFind {s m : List Char} : m ∈ ukFind s ↔ UkIn s m := by
  constructor
  · induction s with
    | nil => intro h; simp [ukFind] at h
    | cons c r ih =>
      intro h
      have lift : UkIn r m → UkIn (c :: r) m := by
        rintro ⟨a, b, h1, h2⟩
        exact ⟨c :: a, b, by rw [h1]; rfl, h2⟩
      unfold ukFind at h
      split at h
      · rename_i hc
        subst hc
        split at h
        · exact lift (ih h)
        · rename_i d ds hds
          rcases List.mem_cons.1 h with h | h
          · subst h
            refine ⟨[], r.dropWhile Char.isDigit, ?_, by simp, ?_, ?_⟩
            · rw [← hds, List.takeWhile_append_dropWhile]; rfl
            · intro x hx
              rw [← hds] at hx
              exact List.mem_takeWhile_imp hx
            · intro x hx
              have h3 := List.head?_dropWhile_not Char.isDigit r
              rw [hx] at h3
              simpa using h3
          · exact lift (ih h)
      · exact lift (ih h)
  · rintro ⟨a, b, rfl, hne, hd, hb⟩
    refine ukFind_suffix ?_
    unfold ukFind
    rw [if_pos rfl, takeWhile_run hd hb]
    cases m with
    | nil => exact absurd rfl hne
    | cons d ds => simp

/-! ## Symbols `u_k` of a parsed text -/

/-- The text contains `u` immediately followed by a digit of value `k`. -/
def UkPos (s : List Char) (k : Nat) : Prop :=
  ∃ a c b, s = a ++ 'u' :: c :: b ∧ c.isDigit = true ∧ digitsVal [c] = k

theorem UkPos.suffix {a s : List Char} {k : Nat} (h : UkPos s k) : UkPos (a ++ s) k := by
  obtain ⟨x, c, b, h1, h2⟩ := h
  exact ⟨a ++ x, c, b, by rw [h1]; simp, h2⟩

theorem ukPos_find {s : List Char} {k : Nat} (h : UkPos s k) :
    ∃ m ∈ ukFind s, m.head?.map (fun c => digitsVal [c]) = some k := by
  obtain ⟨a, c, b, rfl, hc, hk⟩ := h
  refine ⟨c :: b.takeWhile Char.isDigit, ukFind_suffix ?_, by simp [hk]⟩
  unfold ukFind
  rw [if_pos rfl]
  simp [hc]

theorem closeAt_suffix : ∀ {s : List Char} {d : Nat} {p : List Char × List Char},
    closeAt d s = some p → ∃ a, s = a ++ p.2 := by
  intro s
  induction s with
  | nil => intro d p h; simp [closeAt] at h
  | cons c r ih =>
    intro d p h
    unfold closeAt at h
    split at h
    · simp only [Option.map_eq_some_iff] at h
      obtain ⟨q, hq, rfl⟩ := h
      obtain ⟨a, ha⟩ := ih hq
      exact ⟨c :: a, by simp [← ha]⟩
    · split at h
      · split at h
        · simp only [Option.some.injEq] at h
          subst h
          exact ⟨[c], rfl⟩
        · simp only [Option.map_eq_some_iff] at h
          obtain ⟨q, hq, rfl⟩ := h
          obtain ⟨a, ha⟩ := ih hq
          exact ⟨c :: a, by simp [← ha]⟩
      · simp only [Option.map_eq_some_iff] at h
        obtain ⟨q, hq, rfl⟩ := h
        obtain ⟨a, ha⟩ := ih hq
        exact ⟨c :: a, by simp [← ha]⟩

theorem optSign_suffix (s : List Char) : ∃ a, s = a ++ (optSign s).2 := by
  unfold optSign
  split
  · exact ⟨['+'], rfl⟩
  · exact ⟨['-'], rfl⟩
  · exact ⟨[], rfl⟩

theorem afterDigits_suffix (s : List Char) : ∃ a, s = a ++ afterDigits s :=
  ⟨s.takeWhile Char.isDigit, by unfold afterDigits; rw [List.takeWhile_append_dropWhile]⟩

theorem optAfter_suffix (s : List Char) : ∃ a, s = a ++ afterDigits (optSign s).2 := by
  obtain ⟨a, ha⟩ := optSign_suffix s
  obtain ⟨b, hb⟩ := afterDigits_suffix (optSign s).2
  exact ⟨a ++ b, by rw [List.append_assoc, ← hb, ← ha]⟩

theorem findExp_suffix {s : List Char} {p : Int × List Char} (h : findExp s = some (some p)) :
    ∃ a, s = a ++ p.2 := by
  unfold findExp at h
  split at h
  · simp at h
  · simp only [Option.some.injEq, Option.map_eq_some_iff] at h
    obtain ⟨n, _, rfl⟩ := h
    exact optAfter_suffix s

theorem findLit_lit {s : List Char} {p : Sym × List Char} (h : findLit s = some p) :
    (∃ m e, p.1 = .lit m e) ∧ ∃ a, s = a ++ p.2 := by
  unfold findLit at h
  split at h
  · rename_i o ho
    subst h
    unfold findLit0 at ho
    split at ho
    · simp at ho
    · rename_i r0 rr tl hr hne
      simp only [Option.map_eq_some_iff, Option.bind_eq_some_iff] at ho
      obtain ⟨o, ho, h2⟩ := ho
      obtain ⟨q, rfl, m, _, rfl⟩ := h2
      obtain ⟨a, ha⟩ := findExp_suffix ho
      obtain ⟨b, hb⟩ := optAfter_suffix s
      exact ⟨⟨_, _, rfl⟩, b ++ ('*' :: '2' :: '^' :: a), by rw [hb, hr, ha]; simp⟩
    · simp at ho
  · split at h
    · rename_i o ho
      subst h
      unfold findLit1 at ho
      split at ho
      · rename_i r hr
        simp only [Option.map_eq_some_iff] at ho
        obtain ⟨o, ho, h2⟩ := ho
        obtain ⟨q, rfl, rfl⟩ := h2
        obtain ⟨a, ha⟩ := findExp_suffix ho
        obtain ⟨b, hb⟩ := optSign_suffix s
        exact ⟨⟨_, _, rfl⟩, b ++ ('2' :: '^' :: a), by rw [hb, hr, ha]; simp⟩
      · simp at ho
    · split at h
      · rename_i o ho
        subst h
        unfold findLit2 at ho
        split at ho
        · simp at ho
        · simp only [Option.some.injEq, Option.map_eq_some_iff] at ho
          obtain ⟨m, _, rfl⟩ := ho
          exact ⟨⟨_, _, rfl⟩, optAfter_suffix s⟩
      · simp at h

/-- A symbol found is either not a `u_k`, or is the `u` and the digit at the head of the text; in
both cases the rest is a suffix of the text. -/
theorem findNext_uk {sub : List Char → Option (List Sym)} {s : List Char} {p : Sym × List Char}
    (h : findNext sub s = some p) :
    (∃ a, s = a ++ p.2) ∧ ∀ k, p.1 = .uk k → UkPos s k := by
  unfold findNext at h
  split at h
  any_goals
    (simp only [Option.some.injEq] at h
     subst h
     first
     | exact ⟨⟨[_], rfl⟩, by intro k hk; cases hk⟩
     | exact ⟨⟨[_, _], rfl⟩, by intro k hk; cases hk⟩)
  · rename_i c r
    split at h
    · rename_i hc
      simp only [Option.some.injEq] at h
      subst h
      refine ⟨⟨['u', c], rfl⟩, ?_⟩
      intro k hk
      simp only [Sym.uk.injEq] at hk
      exact ⟨[], c, r, rfl, hc, hk⟩
    · simp at h
  · rename_i r
    simp only [Option.bind_eq_some_iff, Option.map_eq_some_iff] at h
    obtain ⟨q, hq, l, _, rfl⟩ := h
    obtain ⟨a, ha⟩ := closeAt_suffix hq
    exact ⟨⟨'(' :: a, by rw [ha]; rfl⟩, by intro k hk; cases hk⟩
  · rename_i r
    simp only [Option.bind_eq_some_iff, Option.map_eq_some_iff] at h
    obtain ⟨q, hq, l, _, rfl⟩ := h
    obtain ⟨a, ha⟩ := closeAt_suffix hq
    exact ⟨⟨'s' :: 'g' :: 'n' :: '(' :: a, by rw [ha]; rfl⟩, by intro k hk; cases hk⟩
  · obtain ⟨⟨m, e, hm⟩, ha⟩ := findLit_lit h
    exact ⟨ha, by intro k hk; rw [hm] at hk; cases hk⟩

theorem parse_uk : ∀ {n : Nat} {s : List Char} {l : List Sym} {k : Nat},
    parse n s = some l → .uk k ∈ l → UkPos s k := by
  intro n
  induction n with
  | zero => intro s l k h; simp [parse] at h
  | succ n ih =>
    intro s l k h hk
    simp only [parse, Option.bind_eq_some_iff] at h
    obtain ⟨p, hp, h⟩ := h
    obtain ⟨⟨a, ha⟩, hu⟩ := findNext_uk hp
    unfold parseRest at h
    split at h
    · simp only [Option.some.injEq] at h
      subst h
      simp only [List.mem_singleton] at hk
      exact hu k hk.symm
    · simp only [Option.map_eq_some_iff] at h
      obtain ⟨l', hl', rfl⟩ := h
      rcases List.mem_cons.1 hk with hk | hk
      · exact hu k hk.symm
      · rw [ha]
        exact (ih hl' hk).suffix

/-- No `u` is directly followed by a space. -/
def noUSpace (s : List Char) : Prop := ¬ ['u', ' '] <:+: s

theorem filter_split {p : Char → Bool} : ∀ {s a b : List Char} {x : Char},
    s.filter p = a ++ x :: b → ∃ a' b', s = a' ++ x :: b' ∧ b'.filter p = b := by
  intro s
  induction s with
  | nil => intro a b x h; simp at h
  | cons c r ih =>
    intro a b x h
    rw [List.filter_cons] at h
    split at h
    · cases a with
      | nil =>
        simp only [List.nil_append, List.cons.injEq] at h
        exact ⟨[], r, by rw [h.1]; rfl, h.2⟩
      | cons y a =>
        simp only [List.cons_append, List.cons.injEq] at h
        obtain ⟨a', b', h1, h2⟩ := ih h.2
        exact ⟨c :: a', b', by rw [h1]; rfl, h2⟩
    · obtain ⟨a', b', h1, h2⟩ := ih h
      exact ⟨c :: a', b', by rw [h1]; rfl, h2⟩

theorem ukPos_of_filter {s : List Char} {k : Nat} (hs : noUSpace s)
    (h : UkPos (s.filter (· ≠ ' ')) k) : UkPos s k := by
  obtain ⟨a, c, b, h1, h2⟩ := h
  obtain ⟨a', b', h3, h4⟩ := filter_split h1
  cases b' with
  | nil => simp at h4
  | cons y b' =>
    by_cases hy : y = ' '
    · subst hy
      exact absurd ⟨a', b', by rw [h3]; simp⟩ hs
    · rw [List.filter_cons, if_pos (by simpa using hy)] at h4
      simp only [List.cons.injEq] at h4
      exact ⟨a', c, b', by rw [h3, h4.1], h2⟩

/-! ## The decimate exponents of a series -/

theorem genStep_dec {st st' : PSt} {x : Sym} (h : genStep st x = some st') :
    (∀ k, st'.dec = some k → st.dec = some k ∨ x = .uk k) ∧
    (st.dep = some .u → st.dec.isSome) → (st'.dep = some .u → st'.dec.isSome) := by
  intro hi
  cases x with
  | uk k =>
    simp only [genStep, PSt.addUk] at h
    split at h
    · simp only [Option.some.injEq] at h
      subst h
      simp
    · simp at h
  | x0 =>
    simp only [genStep, Option.some.injEq, PSt.addDep] at h
    subst h
    cases hd : st.dep with
    | none => simp
    | some d => intro h2; simp only [hd] at h2 hi ⊢; exact hi.2 h2
  | y0 =>
    simp only [genStep, Option.some.injEq, PSt.addDep] at h
    subst h
    cases hd : st.dep with
    | none => simp
    | some d => intro h2; simp only [hd] at h2 hi ⊢; exact hi.2 h2
  | add => simp only [genStep, Option.some.injEq] at h; subst h; exact hi.2
  | sub => simp only [genStep, Option.some.injEq] at h; subst h; exact hi.2
  | lit m e => simp only [genStep, Option.some.injEq] at h; subst h; exact hi.2
  | var v => simp only [genStep, Option.some.injEq] at h; subst h; exact hi.2
  | mul => simp [genStep] at h
  | bracket l =>
    simp only [genStep, Option.map_eq_some_iff] at h
    obtain ⟨o, _, rfl⟩ := h
    exact hi.2
  | sgn l =>
    simp only [genStep, Option.bind_eq_some_iff] at h
    obtain ⟨o, _, h⟩ := h
    unfold PSt.addSgn at h
    split at h
    · split at h
      · simp only [Option.some.injEq] at h
        subst h
        exact hi.2
      · simp at h
    · simp at h

theorem genStep_src {st st' : PSt} {x : Sym} (h : genStep st x = some st') :
    ∀ k, st'.dec = some k → st.dec = some k ∨ x = .uk k := by
  intro k hk
  cases x with
  | uk j =>
    simp only [genStep, PSt.addUk] at h
    split at h
    · simp only [Option.some.injEq] at h
      subst h
      simp only [Option.some.injEq] at hk
      exact Or.inr (by rw [hk])
    · simp at h
  | x0 =>
    simp only [genStep, Option.some.injEq, PSt.addDep] at h
    subst h
    cases hd : st.dep <;> simp only [hd] at hk <;> exact Or.inl hk
  | y0 =>
    simp only [genStep, Option.some.injEq, PSt.addDep] at h
    subst h
    cases hd : st.dep <;> simp only [hd] at hk <;> exact Or.inl hk
  | add => simp only [genStep, Option.some.injEq] at h; subst h; exact Or.inl hk
  | sub => simp only [genStep, Option.some.injEq] at h; subst h; exact Or.inl hk
  | lit m e => simp only [genStep, Option.some.injEq] at h; subst h; exact Or.inl hk
  | var v => simp only [genStep, Option.some.injEq] at h; subst h; exact Or.inl hk
  | mul => simp [genStep] at h
  | bracket l =>
    simp only [genStep, Option.map_eq_some_iff] at h
    obtain ⟨o, _, rfl⟩ := h
    exact Or.inl hk
  | sgn l =>
    simp only [genStep, Option.bind_eq_some_iff] at h
    obtain ⟨o, _, h⟩ := h
    unfold PSt.addSgn at h
    split at h
    · split at h
      · simp only [Option.some.injEq] at h
        subst h
        exact Or.inl hk
      · simp at h
    · simp at h

theorem fold_dec : ∀ {syms : List Sym} {st st' : PSt}, syms.foldlM genStep st = some st' →
    (st.dep = some .u → st.dec.isSome) →
    (∀ k, st'.dec = some k → st.dec = some k ∨ .uk k ∈ syms) ∧
    (st'.dep = some .u → st'.dec.isSome) := by
  intro syms
  induction syms with
  | nil =>
    intro st st' h hi
    simp only [List.foldlM_nil] at h
    cases h
    exact ⟨fun k hk => Or.inl hk, hi⟩
  | cons x r ih =>
    intro st st' h hi
    rw [List.foldlM_cons] at h
    simp only [Option.bind_eq_bind, Option.bind_eq_some_iff] at h
    obtain ⟨s1, h1, h2⟩ := h
    have hs := genStep_src h1
    obtain ⟨hA, hB⟩ := ih h2 (genStep_dec h1 ⟨hs, hi⟩)
    refine ⟨fun k hk => ?_, hB⟩
    rcases hA k hk with h | h
    · rcases hs k h with h | h
      · exact Or.inl h
      · exact Or.inr (by rw [h]; simp)
    · exact Or.inr (List.mem_cons_of_mem _ h)

theorem genProduct_dec {sdec sdec' : Option Nat} {syms : List Sym} {p : Product}
    (h : genProduct sdec syms = some (p, sdec')) :
    (∀ k, p.dec = some k → .uk k ∈ syms) ∧ (p.dep = .u → p.dec.isSome) := by
  unfold genProduct at h
  simp only [Option.bind_eq_some_iff, Option.map_eq_some_iff] at h
  obtain ⟨st, hst, q, hq, heq⟩ := h
  simp only [Prod.mk.injEq] at heq
  obtain ⟨rfl, _⟩ := heq
  obtain ⟨h1, h2⟩ := fold_dec hst (by simp)
  unfold finish at hq
  simp only [Option.bind_eq_some_iff] at hq
  obtain ⟨d, hd, hq⟩ := hq
  split at hq
  · simp only [Option.some.injEq] at hq
    subst hq
    refine ⟨fun k hk => ?_, fun hdu => ?_⟩
    · rcases h1 k hk with h | h
      · simp at h
      · exact h
    · exact h2 (by rw [hd]; exact congrArg some hdu)
  · simp at hq

theorem genProducts_dec : ∀ {L : List (List Sym)} {sdec : Option Nat} {ps : List Product},
    genProducts sdec L = some ps → ∀ p ∈ ps,
      (∀ k, p.dec = some k → ∃ l ∈ L, .uk k ∈ l) ∧ (p.dep = .u → p.dec.isSome) := by
  intro L
  induction L with
  | nil =>
    intro sdec ps h p hp
    simp only [genProducts, Option.some.injEq] at h
    subst h
    simp at hp
  | cons l L ih =>
    intro sdec ps h p hp
    simp only [genProducts, Option.bind_eq_some_iff, Option.map_eq_some_iff] at h
    obtain ⟨⟨q, sd⟩, h1, qs, h2, rfl⟩ := h
    rcases List.mem_cons.1 hp with hp | hp
    · subst hp
      obtain ⟨hA, hB⟩ := genProduct_dec h1
      exact ⟨fun k hk => ⟨l, by simp, hA k hk⟩, hB⟩
    · obtain ⟨hA, hB⟩ := ih h2 p hp
      exact ⟨fun k hk => by
        obtain ⟨m, hm, hm2⟩ := hA k hk
        exact ⟨m, by simp [hm], hm2⟩, hB⟩

theorem separate_mem : ∀ {L cur l : List Sym} {x : Sym}, l ∈ separate cur L → x ∈ l →
    x ∈ cur ∨ x ∈ L := by
  intro L
  induction L with
  | nil =>
    intro cur l x hl hx
    simp only [separate, List.mem_singleton] at hl
    subst hl
    exact Or.inl hx
  | cons s r ih =>
    intro cur l x hl hx
    have app : l ∈ separate (cur ++ [s]) r → x ∈ cur ∨ x ∈ s :: r := by
      intro h
      rcases ih h hx with h | h
      · rcases List.mem_append.1 h with h | h
        · exact Or.inl h
        · exact Or.inr (by simp only [List.mem_singleton] at h; simp [h])
      · exact Or.inr (List.mem_cons_of_mem _ h)
    have op : l ∈ cur :: separate [s] r → x ∈ cur ∨ x ∈ s :: r := by
      intro h
      rcases List.mem_cons.1 h with h | h
      · exact Or.inl (h ▸ hx)
      · rcases ih h hx with h | h
        · exact Or.inr (by simp only [List.mem_singleton] at h; simp [h])
        · exact Or.inr (List.mem_cons_of_mem _ h)
    cases s with
    | mul =>
      rcases ih (show l ∈ separate cur r from hl) hx with h | h
      · exact Or.inl h
      · exact Or.inr (List.mem_cons_of_mem _ h)
    | add =>
      simp only [separate] at hl
      split at hl
      · exact app hl
      · exact op hl
    | sub =>
      simp only [separate] at hl
      split at hl
      · exact app hl
      · exact op hl
    | _ => exact app hl

/-- Every decimate exponent of a compiled text is written in the text, and products conditioned on
`u` have one. -/
theorem compileRule_dec {s : List Char} {ps : List Product} (hs : noUSpace s)
    (h : compileRule s = some ps) : ∀ p ∈ ps,
      (∀ k, p.dec = some k → UkPos s k) ∧ (p.dep = .u → p.dec.isSome) := by
  unfold compileRule at h
  simp only [Option.bind_eq_some_iff] at h
  obtain ⟨l, hl, h⟩ := h
  intro p hp
  obtain ⟨hA, hB⟩ := genProducts_dec h p hp
  refine ⟨fun k hk => ?_, hB⟩
  obtain ⟨m, hm, hm2⟩ := hA k hk
  rcases separate_mem hm hm2 with h3 | h3
  · simp at h3
  · exact ukPos_of_filter hs (parse_uk hl h3)

/-! ## Construction -/

theorem compileOpt_none {o : Option (List Product)} : compileOpt none = some o ↔ o = none := by
  simp [compileOpt, eq_comm]

theorem validateUk_some {ts : List (List Char)} {o : Option Nat} (h : validateUk ts = some o) :
    ∀ s ∈ ts, ∀ m ∈ ukFind s, m.head?.map (fun c => digitsVal [c]) = o := by
  intro s hs m hm
  have hmem : m ∈ ts.flatMap ukFind := List.mem_flatMap.2 ⟨s, hs, hm⟩
  unfold validateUk at h
  split at h
  · rename_i h0
    rw [h0] at hmem
    simp at hmem
  · rename_i m0 ms h0
    rw [h0] at hmem
    split at h
    · rename_i hall
      simp only [Option.some.injEq] at h
      rw [← h]
      rcases List.mem_cons.1 hmem with h1 | h1
      · rw [h1]
      · have := List.all_eq_true.1 hall m h1
        simp only [beq_iff_eq] at this
        rw [this]
    · simp at h

theorem validateUk_iff {ts : List (List Char)} : (∃ o, validateUk ts = some o) ↔
    ∀ s ∈ ts, ∀ m ∈ ukFind s, ∀ s' ∈ ts, ∀ m' ∈ ukFind s', m = m' := by
  have key : (∀ s ∈ ts, ∀ m ∈ ukFind s, ∀ s' ∈ ts, ∀ m' ∈ ukFind s', m = m') ↔
      ∀ m ∈ ts.flatMap ukFind, ∀ m' ∈ ts.flatMap ukFind, m = m' := by
    constructor
    · intro h m hm m' hm'
      obtain ⟨s, hs, hm⟩ := List.mem_flatMap.1 hm
      obtain ⟨s', hs', hm'⟩ := List.mem_flatMap.1 hm'
      exact h s hs m hm s' hs' m' hm'
    · intro h s hs m hm s' hs' m' hm'
      exact h m (List.mem_flatMap.2 ⟨s, hs, hm⟩) m' (List.mem_flatMap.2 ⟨s', hs', hm'⟩)
  rw [key]
  unfold validateUk
  cases hL : ts.flatMap ukFind with
  | nil => simp
  | cons m ms =>
    simp only
    constructor
    · rintro ⟨o, h⟩
      split at h
      · rename_i hall
        have hall' : ∀ x ∈ m :: ms, x = m := by
          intro x hx
          rcases List.mem_cons.1 hx with h1 | h1
          · exact h1
          · simpa using List.all_eq_true.1 hall x h1
        intro a ha b hb
        rw [hall' a ha, hall' b hb]
      · simp at h
    · intro h
      have : ms.all (· == m) = true := by
        rw [List.all_eq_true]
        intro x hx
        simpa using h x (by simp [hx]) m (by simp)
      exact ⟨_, by rw [if_pos this]⟩

theorem createSeries_spec {t : Texts} {f : Tgt → Option (List Product)}
    (h : createSeries t = some f) : ∀ g, compileOpt (t.of g) = some (f g) := by
  unfold createSeries at h
  simp only [Option.bind_eq_some_iff, Option.map_eq_some_iff] at h
  obtain ⟨w, hw, d, hd, x, hx, rfl⟩ := h
  intro g
  cases g
  · exact hw
  · exact hd
  · exact hx

theorem createSeries_iff {t : Texts} : (∃ f, createSeries t = some f) ↔
    ∀ g s, t.of g = some s → ∃ ps, compileRule s = some ps := by
  constructor
  · rintro ⟨f, hf⟩ g s hs
    have h2 := createSeries_spec hf g
    rw [hs] at h2
    simp only [compileOpt, Option.map_eq_some_iff] at h2
    obtain ⟨ps, hps, _⟩ := h2
    exact ⟨ps, hps⟩
  · intro h
    have key : ∀ g, ∃ o, compileOpt (t.of g) = some o := by
      intro g
      cases hs : t.of g with
      | none => exact ⟨none, rfl⟩
      | some s =>
        obtain ⟨ps, hps⟩ := h g s hs
        exact ⟨some ps, by simp [compileOpt, hps]⟩
    obtain ⟨w, hw⟩ := key .dw
    obtain ⟨d, hd⟩ := key .dd
    obtain ⟨x, hx⟩ := key .dt
    simp only [Texts.of] at hw hd hx
    exact ⟨seriesFn w d x, by simp [createSeries, hw, hd, hx]⟩

theorem mem_active {t : Texts} {s : List Char} : s ∈ t.active ↔ ∃ g, t.of g = some s := by
  unfold Texts.active
  simp only [List.mem_append, Option.mem_toList]
  constructor
  · rintro ((h | h) | h)
    · exact ⟨.dw, h⟩
    · exact ⟨.dd, h⟩
    · exact ⟨.dt, h⟩
  · rintro ⟨g, h⟩
    cases g
    · exact Or.inl (Or.inl h)
    · exact Or.inl (Or.inr h)
    · exact Or.inr h

theorem construct_some {t : Texts} {p : Params} {r : Rule} : construct t p = some r ↔
    r.texts = t ∧ r.par = p ∧ p.ok ∧ validateStrings t = some r.dec ∧
      createSeries t = some r.series := by
  unfold construct
  simp only [Option.bind_eq_some_iff]
  constructor
  · rintro ⟨k, hk, h⟩
    split at h
    · rename_i hok
      simp only [Option.map_eq_some_iff] at h
      obtain ⟨f, hf, rfl⟩ := h
      exact ⟨rfl, rfl, hok, hk, hf⟩
    · simp at h
  · rintro ⟨rfl, rfl, hok, hk, hf⟩
    refine ⟨r.dec, hk, ?_⟩
    rw [if_pos hok, hf]
    rfl

theorem texts_set_of (t : Texts) (g : Tgt) (s : Option (List Char)) :
    ∀ g', (t.set g s).of g' = if g' = g then s else t.of g' := by
  intro g'
  cases g <;> cases g' <;> simp [Texts.set, Texts.of]

theorem setText_ok {r : Rule} {g : Tgt} {s : Option (List Char)} :
    (r.setText g s).2 = true ↔
      ∃ k f, validateStrings (r.texts.set g s) = some k ∧
        createSeries (r.texts.set g s) = some f ∧
        (r.setText g s).1 = ⟨r.texts.set g s, r.par, k, f⟩ := by
  unfold Rule.setText
  split
  · rename_i h
    simp [h]
  · rename_i k h
    split
    · rename_i h2
      simp [h2]
    · rename_i f h2
      simp [h, h2]

end Verif.Learning
