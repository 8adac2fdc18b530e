import Verif.Learning.RuleObjLemmas

/-!
# C92: learning-rule objects

Specification used here: `UkIn` (which `u_k` a text writes), `Eqn.render`/`Eqn.value` from
`EqSpec` (text of a rule and the number it denotes), and the documented meaning of `u_k`: it is 1
in every `2^k`-th learning epoch and 0 otherwise (`clock`).
-/

namespace Verif.Learning

/-- The documented meaning of `u_k`: 1 in every `2^k`-th epoch, 0 otherwise. -/
def clock (epoch : Nat) (k : Nat) : ℚ := if epoch % 2 ^ k = 0 then 1 else 0

/-- **C92 (which rules are accepted).**  A learning rule can be constructed exactly if at least one
of `dw`, `dd`, `dt` is given, no impulse or time constant is negative, the epoch length is positive,
each text given is accepted as a sum of products, and all occurrences of `u` followed by digits, in
all texts, carry the same digits. -/
theorem C92_accepts_iff (t : Texts) (p : Params) : (∃ r, construct t p = some r) ↔
    (∃ g s, t.of g = some s) ∧ ((∀ i, 0 ≤ p.imp i) ∧ (∀ i, 0 ≤ p.tau i) ∧ 0 < p.epoch) ∧
    (∀ g s, t.of g = some s → ∃ ps, compileRule s = some ps) ∧
    ∀ g s, t.of g = some s → ∀ m, UkIn s m → ∀ g' s', t.of g' = some s' → ∀ m', UkIn s' m' →
      m = m' := by
  have hne : t.active = [] ↔ ¬ ∃ g s, t.of g = some s := by
    rw [List.eq_nil_iff_forall_not_mem]
    constructor
    · rintro h ⟨g, s, hs⟩
      exact h s (mem_active.2 ⟨g, hs⟩)
    · intro h s hs
      obtain ⟨g, hg⟩ := mem_active.1 hs
      exact h ⟨g, s, hg⟩
  constructor
  · rintro ⟨r, h⟩
    obtain ⟨_, _, hok, hv, hs⟩ := construct_some.1 h
    unfold validateStrings at hv
    split at hv
    · simp at hv
    · rename_i hact
      refine ⟨by_contra fun hc => hact (hne.2 hc), hok, createSeries_iff.1 ⟨_, hs⟩, ?_⟩
      intro g s hg m hm g' s' hg' m' hm'
      exact validateUk_iff.1 ⟨_, hv⟩ s (mem_active.2 ⟨g, hg⟩) m (mem_ukFind.2 hm) s'
        (mem_active.2 ⟨g', hg'⟩) m' (mem_ukFind.2 hm')
  · rintro ⟨h1, hok, h3, h4⟩
    have hact : ¬ t.active = [] := fun h => hne.1 h h1
    obtain ⟨o, ho⟩ : ∃ o, validateUk t.active = some o := by
      rw [validateUk_iff]
      intro s hs m hm s' hs' m' hm'
      obtain ⟨g, hg⟩ := mem_active.1 hs
      obtain ⟨g', hg'⟩ := mem_active.1 hs'
      exact h4 g s hg m (mem_ukFind.1 hm) g' s' hg' m' (mem_ukFind.1 hm')
    obtain ⟨f, hf⟩ := createSeries_iff.2 h3
    exact ⟨⟨t, p, o, f⟩, construct_some.2 ⟨rfl, rfl, hok, by
      unfold validateStrings; rw [if_neg hact]; exact ho, hf⟩⟩

/-- The attributes of a constructed rule: texts and parameters as given, and for each target the
product series of its text (nothing without a text). -/
theorem C92_attributes (t : Texts) (p : Params) (r : Rule) (h : construct t p = some r) :
    r.texts = t ∧ r.par = p ∧
    (∀ g, t.of g = none → r.series g = none) ∧
    (∀ g s, t.of g = some s → ∃ ps, r.series g = some ps ∧ compileRule s = some ps) := by
  obtain ⟨h1, h2, _, _, hs⟩ := construct_some.1 h
  refine ⟨h1, h2, ?_, ?_⟩
  · intro g hg
    have := createSeries_spec hs g
    rw [hg] at this
    simpa [compileOpt] using this.symm
  · intro g s hg
    have := createSeries_spec hs g
    rw [hg] at this
    simp only [compileOpt, Option.map_eq_some_iff] at this
    obtain ⟨ps, h3, h4⟩ := this
    exact ⟨ps, h4.symm, h3⟩

/-- **C92 (one decimate exponent).**  In an accepted rule whose texts have no space between `u` and
its digit, every product that is conditioned on `u_k`, in whichever of the three equations, uses the
decimate exponent of the rule. -/
theorem C92_decimate (t : Texts) (p : Params) (r : Rule) (h : construct t p = some r)
    (g : Tgt) (s : List Char) (ps : List Product) (hg : t.of g = some s) (hs : noUSpace s)
    (hps : r.series g = some ps) (q : Product) (hq : q ∈ ps) :
    (∀ k, q.dec = some k → r.dec = some k) ∧ (q.dep = .u → ∃ k, q.dec = some k ∧ r.dec = some k) := by
  obtain ⟨ps', h1, hc⟩ := (C92_attributes t p r h).2.2.2 g s hg
  rw [hps] at h1
  cases h1
  obtain ⟨_, _, _, hv, _⟩ := construct_some.1 h
  unfold validateStrings at hv
  split at hv
  · simp at hv
  · obtain ⟨hA, hB⟩ := compileRule_dec hs hc q hq
    have key : ∀ k, q.dec = some k → r.dec = some k := by
      intro k hk
      obtain ⟨m, hm, hm2⟩ := ukPos_find (hA k hk)
      rw [← validateUk_some hv s (mem_active.2 ⟨g, hg⟩) m hm, hm2]
    refine ⟨key, fun hd => ?_⟩
    obtain ⟨k, hk⟩ := Option.isSome_iff_exists.1 (hB hd)
    exact ⟨k, hk, key k hk⟩

/-- **C92 (the scalar `u` is the right one for every product).**  Although a running connection
hands one scalar `u` to all products of all equations, every product series gets the value it has
when each `u_k` is read as 1 in every `2^k`-th epoch. -/
theorem C92_series_value (t : Texts) (p : Params) (r : Rule) (h : construct t p = some r)
    (g : Tgt) (s : List Char) (ps : List Product) (hg : t.of g = some s) (hs : noUSpace s)
    (hps : r.series g = some ps) (step : Nat) (x0 y0 : ℚ) (val : Dep → V → ℚ) :
    evalSeries (r.applierEnv step x0 y0 val) ps =
      evalSeries ⟨x0, y0, clock (step / p.epoch), val⟩ ps := by
  unfold evalSeries
  congr 1
  apply List.map_congr_left
  intro q hq
  have hd := (C92_decimate t p r h g s ps hg hs hps q hq).2
  have hpar : r.par = p := (C92_attributes t p r h).2.1
  have e1 : (r.applierEnv step x0 y0 val).dep q.dec q.dep =
      Env.dep ⟨x0, y0, clock (step / p.epoch), val⟩ q.dec q.dep := by
    cases hqd : q.dep with
    | x0 => rfl
    | y0 => rfl
    | u =>
      obtain ⟨k, hk, hk2⟩ := hd hqd
      simp only [Env.dep, Rule.applierEnv, Rule.uScalar, hk, hk2, hpar, Option.getD_some, clock]
  have e2 : Factor.eval (r.applierEnv step x0 y0 val) q.dep =
      Factor.eval ⟨x0, y0, clock (step / p.epoch), val⟩ q.dep := by
    funext f
    have : ∀ fv, (r.applierEnv step x0 y0 val).fvar q.dep fv =
        Env.fvar ⟨x0, y0, clock (step / p.epoch), val⟩ q.dep fv := by
      intro fv; cases fv <;> rfl
    unfold Factor.eval
    rw [this]
  unfold Product.eval
  rw [e1, e2]

/-- **C92 (value).**  Whatever equations a learning rule is made of, in every time step the change
it computes for a target is the number its text denotes, with `u_k` equal to 1 in every `2^k`-th
learning epoch and 0 otherwise.  Spaces may stand anywhere except directly behind a `u`; the forms
`(-v)` and `sgn(-v)` are excluded (`C55_bracketed_negation_loses_sign`). -/
theorem C92_value_partial (t : Texts) (p : Params) (r : Rule) (h : construct t p = some r)
    (g : Tgt) (s : List Char) (q : Eqn) (hg : t.of g = some s) (hs : noUSpace s) (hok : q.ok)
    (hk : q.signKept) (hq : s.filter (· ≠ ' ') = q.render)
    (step : Nat) (x0 y0 : ℚ) (val : Dep → V → ℚ) :
    r.change g step x0 y0 val = some (q.value ⟨x0, y0, clock (step / p.epoch), val⟩) := by
  obtain ⟨ps, h1, hc⟩ := (C92_attributes t p r h).2.2.2 g s hg
  unfold Rule.change
  rw [h1, Option.map_some, C92_series_value t p r h g s ps hg hs h1]
  rw [C55_value_partial q s ps hok hk hq hc]
  intro k
  show clock _ k = 0 ∨ clock _ k = 1
  unfold clock
  split
  · exact Or.inr rfl
  · exact Or.inl rfl

/-- A target without a text is never changed. -/
theorem C92_absent_rule (t : Texts) (p : Params) (r : Rule) (h : construct t p = some r)
    (g : Tgt) (hg : t.of g = none) (step : Nat) (x0 y0 : ℚ) (val : Dep → V → ℚ) :
    r.change g step x0 y0 val = none := by
  unfold Rule.change
  rw [(C92_attributes t p r h).2.2.1 g hg]
  rfl

/-! ## Documented rules are accepted -/

theorem ukFind_append {a b : List Char} (hb : ∀ c, b.head? = some c → c.isDigit = false) :
    ukFind (a ++ b) = ukFind a ++ ukFind b := by
  induction a with
  | nil => simp [ukFind]
  | cons c a ih =>
    have htw : (a ++ b).takeWhile Char.isDigit = a.takeWhile Char.isDigit := by
      clear ih
      induction a with
      | nil =>
        cases b with
        | nil => rfl
        | cons x b => simp [hb x rfl]
      | cons y a ih2 =>
        by_cases hy : y.isDigit = true
        · simp [hy, ih2]
        · simp [hy]
    simp only [List.cons_append, ukFind]
    rw [htw, ih]
    split
    · split
      · rfl
      · simp
    · rfl

theorem ukFind_nil {s : List Char} (h : 'u' ∉ s) : ukFind s = [] := by
  induction s with
  | nil => rfl
  | cons c r ih =>
    simp only [List.mem_cons, not_or] at h
    rw [ukFind_cons_ne (Ne.symm h.1), ih h.2]

theorem digits_no_u {ds : List Char} (h : okDigits ds) : 'u' ∉ ds := by
  intro hu
  have := h.2.1 'u' hu
  revert this
  decide

theorem optSg_no_u (s : Option Sg) : 'u' ∉ optSgRender s := by
  rcases s with _ | s
  · simp [optSgRender]
  · cases s <;> simp [optSgRender, Sg.render]

theorem lit_no_u {l : Lit} (h : l.ok) : 'u' ∉ l.render := by
  cases l with
  | int ds => exact digits_no_u h
  | pow s es =>
    simp [Lit.render, optSg_no_u, digits_no_u (show okDigits es from h)]
  | mp ds s es =>
    simp [Lit.render, optSg_no_u, digits_no_u h.1, digits_no_u h.2]

theorem fvar_no_u (v : FVar) : 'u' ∉ v.render := by
  cases v with
  | v a => cases a <;> decide
  | _ => decide

theorem sg_no_u (s : Sg) : 'u' ∉ s.render := by cases s <;> decide

theorem br_no_u {b : Br} (h : b.ok) : 'u' ∉ b.render := by
  cases b with
  | var s v =>
    simp only [Br.render, List.mem_append, not_or]
    exact ⟨optSg_no_u s, fvar_no_u (.v v)⟩
  | lit s l =>
    simp only [Br.render, List.mem_append, not_or]
    exact ⟨optSg_no_u s, lit_no_u h⟩
  | varLit s v s2 l =>
    simp only [Br.render, List.mem_append, not_or]
    exact ⟨⟨⟨optSg_no_u s, fvar_no_u v⟩, sg_no_u s2⟩, lit_no_u h⟩
  | litVar s l s2 v =>
    simp only [Br.render, List.mem_append, not_or]
    exact ⟨⟨⟨optSg_no_u s, lit_no_u h⟩, sg_no_u s2⟩, fvar_no_u v⟩

/-- The `u_k` an atom writes. -/
theorem ukFind_atom {a : Atom} (h : a.ok) : ∀ m ∈ ukFind a.render, ∃ c, a = .u c ∧ m = [c] := by
  cases a with
  | u c =>
    intro m hm
    have hc : c.isDigit = true := h
    have hcu : c ≠ 'u' := by rintro rfl; revert hc; decide
    simp only [Atom.render, ukFind, if_true, List.takeWhile_cons, hc, List.takeWhile_nil,
      if_neg hcu, List.mem_singleton] at hm
    exact ⟨c, rfl, hm⟩
  | x0 => intro m hm; rw [ukFind_nil (by decide)] at hm; simp at hm
  | y0 => intro m hm; rw [ukFind_nil (by decide)] at hm; simp at hm
  | var v => intro m hm; rw [ukFind_nil (show 'u' ∉ (Atom.var v).render from fvar_no_u (.v v))] at hm; simp at hm
  | lit l => intro m hm; rw [ukFind_nil (show 'u' ∉ (Atom.lit l).render from lit_no_u h)] at hm; simp at hm
  | br b =>
    intro m hm
    rw [ukFind_nil (by simp [Atom.render, br_no_u (show b.ok from h)])] at hm
    simp at hm
  | sgn b =>
    intro m hm
    rw [ukFind_nil (by simp [Atom.render, br_no_u (show b.ok from h)])] at hm
    simp at hm

theorem ukFind_atoms : ∀ {as : List Atom}, (∀ a ∈ as, a.ok) →
    ∀ m ∈ ukFind (renderAtoms as), ∃ c, Atom.u c ∈ as ∧ m = [c] := by
  intro as
  induction as with
  | nil => intro _ m hm; simp [renderAtoms, ukFind] at hm
  | cons a r ih =>
    intro hok m hm
    cases r with
    | nil =>
      obtain ⟨c, h1, h2⟩ := ukFind_atom (hok a (by simp)) m hm
      exact ⟨c, by simp [h1], h2⟩
    | cons b r =>
      rw [show renderAtoms (a :: b :: r) = a.render ++ '*' :: renderAtoms (b :: r) from rfl,
        ukFind_append (by intro c hc; simp only [List.head?_cons, Option.some.injEq] at hc
                          subst hc; decide),
        ukFind_cons_ne (by decide)] at hm
      rcases List.mem_append.1 hm with hm | hm
      · obtain ⟨c, h1, h2⟩ := ukFind_atom (hok a (by simp)) m hm
        exact ⟨c, by simp [h1], h2⟩
      · obtain ⟨c, h1, h2⟩ := ih (fun x hx => hok x (by simp [hx])) m hm
        exact ⟨c, by simp [h1], h2⟩

theorem renderTail_head (tl : List (Sg × List Atom)) :
    ∀ c, (renderTail tl).head? = some c → c.isDigit = false := by
  intro c hc
  cases tl with
  | nil => simp [renderTail] at hc
  | cons p tl =>
    obtain ⟨s, as⟩ := p
    cases s <;> simp [renderTail, Sg.render] at hc <;> subst hc <;> decide

theorem ukFind_tail : ∀ {tl : List (Sg × List Atom)}, (∀ p ∈ tl, ∀ a ∈ p.2, a.ok) →
    ∀ m ∈ ukFind (renderTail tl), ∃ p ∈ tl, ∃ c, Atom.u c ∈ p.2 ∧ m = [c] := by
  intro tl
  induction tl with
  | nil => intro _ m hm; simp [renderTail, ukFind] at hm
  | cons p tl ih =>
    intro hok m hm
    obtain ⟨s, as⟩ := p
    rw [show renderTail ((s, as) :: tl) = s.render ++ renderAtoms as ++ renderTail tl from rfl,
      ukFind_append (renderTail_head tl)] at hm
    rcases List.mem_append.1 hm with hm | hm
    · have : ukFind (s.render ++ renderAtoms as) = ukFind (renderAtoms as) := by
        cases s <;> exact ukFind_cons_ne (by decide)
      rw [this] at hm
      obtain ⟨c, h1, h2⟩ := ukFind_atoms (hok (s, as) (by simp)) m hm
      exact ⟨(s, as), by simp, c, h1, h2⟩
    · obtain ⟨p, hp, h⟩ := ih (fun x hx => hok x (by simp [hx])) m hm
      exact ⟨p, by simp [hp], h⟩

theorem ukFind_eqn {q : Eqn} (h : q.ok) : ∀ m ∈ ukFind q.render,
    ∃ c, (Atom.u c ∈ q.head ∨ ∃ p ∈ q.tail, Atom.u c ∈ p.2) ∧ m = [c] := by
  intro m hm
  unfold Eqn.render at hm
  rw [ukFind_append (renderTail_head q.tail)] at hm
  rcases List.mem_append.1 hm with hm | hm
  · have : ukFind (optSgRender q.sign ++ renderAtoms q.head) = ukFind (renderAtoms q.head) := by
      cases q.sign with
      | none => rfl
      | some s => cases s <;> exact ukFind_cons_ne (by decide)
    rw [this] at hm
    obtain ⟨c, h1, h2⟩ := ukFind_atoms h.1.2.1 m hm
    exact ⟨c, Or.inl h1, h2⟩
  · obtain ⟨p, hp, c, h1, h2⟩ := ukFind_tail (fun p hp => (h.2 p hp).2.1) m hm
    exact ⟨c, Or.inr ⟨p, hp, h1⟩, h2⟩

theorem takeWhile_filter_prefix (s : List Char) :
    s.takeWhile Char.isDigit <+: (s.filter (· ≠ ' ')).takeWhile Char.isDigit := by
  induction s with
  | nil => exact List.prefix_refl _
  | cons c r ih =>
    by_cases hc : c.isDigit = true
    · have hsp : c ≠ ' ' := by rintro rfl; revert hc; decide
      rw [List.takeWhile_cons, if_pos hc, List.filter_cons, if_pos (by simpa using hsp),
        List.takeWhile_cons, if_pos hc]
      exact (List.prefix_cons_inj c).2 ih
    · rw [List.takeWhile_cons, if_neg hc]
      exact List.nil_prefix

/-- Deleting spaces can only lengthen a match. -/
theorem ukFind_filter {s m : List Char} (h : m ∈ ukFind s) :
    m ≠ [] ∧ ∃ m' ∈ ukFind (s.filter (· ≠ ' ')), m <+: m' := by
  refine ⟨?_, ?_⟩
  · obtain ⟨_, _, _, h, _⟩ := mem_ukFind.1 h
    exact h
  · induction s with
    | nil => simp [ukFind] at h
    | cons c r ih =>
      by_cases hc : c = 'u'
      · subst hc
        rw [List.filter_cons, if_pos (by decide)]
        have hp := takeWhile_filter_prefix r
        unfold ukFind at h
        rw [if_pos rfl] at h
        split at h
        · obtain ⟨m', h1, h2⟩ := ih h
          exact ⟨m', ukFind_mono h1, h2⟩
        · rename_i d ds hds
          rcases List.mem_cons.1 h with h | h
          · subst h
            rw [hds] at hp
            refine ⟨_, ?_, hp⟩
            unfold ukFind
            rw [if_pos rfl]
            obtain ⟨z, hz⟩ := hp
            rw [← hz]
            simp
          · obtain ⟨m', h1, h2⟩ := ih h
            exact ⟨m', ukFind_mono h1, h2⟩
      · rw [ukFind_cons_ne hc] at h
        obtain ⟨m', h1, h2⟩ := ih h
        rw [List.filter_cons]
        split
        · exact ⟨m', ukFind_mono h1, h2⟩
        · exact ⟨m', h1, h2⟩

/-- **C92 (documented rules are accepted).**  If every equation given is a well-formed sum of
products as documented, all with the same `k` in their `u_k`, at least one is given and the
parameters are in range, then the rule can be constructed, wherever spaces are put. -/
theorem C92_documented_accepted (t : Texts) (p : Params) (k : Nat) (hok : p.ok)
    (hne : ∃ g s, t.of g = some s)
    (hdoc : ∀ g s, t.of g = some s → ∃ q : Eqn, q.ok ∧ s.filter (· ≠ ' ') = q.render ∧
      Accepted k q.head ∧ ∀ x ∈ q.tail, Accepted k x.2) :
    ∃ r, construct t p = some r := by
  rw [C92_accepts_iff]
  refine ⟨hne, hok, ?_, ?_⟩
  · intro g s hs
    obtain ⟨q, hq, hr, h0, ht⟩ := hdoc g s hs
    exact C55_accepts q s k hq hr h0 ht
  · have key : ∀ g s, t.of g = some s → ∀ m, UkIn s m →
        ∃ c, m = [c] ∧ c.isDigit = true ∧ digitsVal [c] = k := by
      intro g s hs m hm
      obtain ⟨q, hq, hr, h0, ht⟩ := hdoc g s hs
      obtain ⟨hmne, m', hm', hpre⟩ := ukFind_filter (mem_ukFind.2 hm)
      rw [hr] at hm'
      obtain ⟨c, hc, rfl⟩ := ukFind_eqn hq m' hm'
      have hmc : m = [c] := by
        obtain ⟨z, hz⟩ := hpre
        cases m with
        | nil => exact absurd rfl hmne
        | cons y m =>
          simp only [List.cons_append, List.cons.injEq, List.append_eq_nil_iff] at hz
          rw [hz.1, hz.2.1]
      refine ⟨c, hmc, ?_, ?_⟩
      · obtain ⟨_, _, _, _, hd, _⟩ := hm
        exact hd c (by simp [hmc])
      · rcases hc with hc | ⟨x, hx, hc⟩
        · exact (h0.uk c hc).1
        · exact ((ht x hx).uk c hc).1
    intro g s hs m hm g' s' hs' m' hm'
    obtain ⟨c, rfl, hd, hk⟩ := key g s hs m hm
    obtain ⟨c', rfl, hd', hk'⟩ := key g' s' hs' m' hm'
    have hcc : c = c' := by
      simp only [digitsVal, List.foldl_cons, List.foldl_nil] at hk hk'
      have b1 : 48 ≤ c.toNat ∧ c.toNat ≤ 57 := by
        simp only [Char.isDigit, ge_iff_le, Bool.and_eq_true, decide_eq_true_eq] at hd
        exact ⟨hd.1, hd.2⟩
      have b2 : 48 ≤ c'.toNat ∧ c'.toNat ≤ 57 := by
        simp only [Char.isDigit, ge_iff_le, Bool.and_eq_true, decide_eq_true_eq] at hd'
        exact ⟨hd'.1, hd'.2⟩
      have : c.toNat = c'.toNat := by omega
      exact Char.toNat_inj.1 this
    rw [hcc]

/-! ## Changing a rule -/

/-- **C92 (setters).**  Setting one of the texts succeeds exactly if a rule could be constructed
from the new texts, and then the object equals that freshly constructed rule: nothing of its history
remains. -/
theorem C92_set_as_constructed (r : Rule) (g : Tgt) (s : Option (List Char)) (hok : r.par.ok) :
    ((r.setText g s).2 = true ↔ ∃ r', construct (r.texts.set g s) r.par = some r') ∧
    ((r.setText g s).2 = true → construct (r.texts.set g s) r.par = some (r.setText g s).1) := by
  have hfwd : (r.setText g s).2 = true →
      construct (r.texts.set g s) r.par = some (r.setText g s).1 := by
    intro h
    obtain ⟨k, f, h1, h2, h3⟩ := setText_ok.1 h
    rw [h3]
    exact construct_some.2 ⟨rfl, rfl, hok, h1, h2⟩
  refine ⟨⟨fun h => ⟨_, hfwd h⟩, ?_⟩, hfwd⟩
  rintro ⟨r', h⟩
  obtain ⟨_, _, _, h1, h2⟩ := construct_some.1 h
  unfold Rule.setText
  rw [h1, h2]

theorem setText?_some {r r' : Rule} {g : Tgt} {s : Option (List Char)} :
    r.setText? g s = some r' ↔
      ∃ k f, validateStrings (r.texts.set g s) = some k ∧
        createSeries (r.texts.set g s) = some f ∧ r' = ⟨r.texts.set g s, r.par, k, f⟩ := by
  unfold Rule.setText?
  constructor
  · intro h
    split at h
    · rename_i hb
      obtain ⟨k, f, h1, h2, h3⟩ := setText_ok.1 hb
      simp only [Option.some.injEq] at h
      exact ⟨k, f, h1, h2, by rw [← h, h3]⟩
    · simp at h
  · rintro ⟨k, f, h1, h2, rfl⟩
    unfold Rule.setText
    simp [h1, h2]

/-- **C92 (updates at run time).**  If the update of a running connection after a Var was set goes
through, the rule it uses from then on equals the rule freshly constructed from the current values
of the Vars. -/
theorem C92_update_as_constructed (r r' : Rule) (v : ConnVars) (he : 0 < r.par.epoch)
    (h : onVarUpdate r v = some r') :
    construct v.texts ⟨v.imp, v.tau, r.par.epoch⟩ = some r' := by
  unfold onVarUpdate at h
  split at h
  · rename_i hp
    simp only [Option.bind_eq_some_iff] at h
    obtain ⟨r1, h1, r2, h2, h3⟩ := h
    obtain ⟨k1, f1, _, _, rfl⟩ := setText?_some.1 h1
    obtain ⟨k2, f2, _, _, rfl⟩ := setText?_some.1 h2
    obtain ⟨k3, f3, h4, h5, rfl⟩ := setText?_some.1 h3
    have ht : ((r.texts.set .dw v.texts.dw).set .dd v.texts.dd).set .dt v.texts.dt = v.texts := rfl
    simp only [ht] at h4 h5 ⊢
    exact construct_some.2 ⟨rfl, rfl, ⟨hp.1, hp.2, he⟩, h4, h5⟩
  · simp at h

/-- **C92 (which single changes are accepted at run time).**  Starting from a rule that agrees with
the Vars, changing the parameters at will and at most one of the three texts is accepted exactly if
a rule could be constructed from the new values. -/
theorem C92_update_accepts (t : Texts) (p : Params) (r : Rule) (h : construct t p = some r)
    (g : Tgt) (s : Option (List Char)) (imp tau : Trc → ℚ) :
    (∃ r', onVarUpdate r ⟨t.set g s, imp, tau⟩ = some r') ↔
      ∃ r', construct (t.set g s) ⟨imp, tau, p.epoch⟩ = some r' := by
  obtain ⟨ht, hp, hok, hv, hs⟩ := construct_some.1 h
  constructor
  · rintro ⟨r', hr'⟩
    have := C92_update_as_constructed r r' _ (by rw [hp]; exact hok.2.2) hr'
    rw [hp] at this
    exact ⟨r', this⟩
  · rintro ⟨r', hr'⟩
    obtain ⟨_, _, hok', hv', hs'⟩ := construct_some.1 hr'
    have hcond : (∀ i, 0 ≤ imp i) ∧ (∀ i, 0 ≤ tau i) := ⟨hok'.1, hok'.2.1⟩
    unfold onVarUpdate
    rw [if_pos hcond]
    subst ht
    cases g with
    | dw =>
      refine ⟨r', ?_⟩
      simp only [Option.bind_eq_some_iff]
      refine ⟨_, setText?_some.2 ⟨r'.dec, r'.series, hv', hs', rfl⟩, ?_⟩
      refine ⟨_, setText?_some.2 ⟨r'.dec, r'.series, hv', hs', rfl⟩, ?_⟩
      refine setText?_some.2 ⟨r'.dec, r'.series, hv', hs', ?_⟩
      obtain ⟨h1, h2, _⟩ := construct_some.1 hr'
      obtain ⟨a, b, c, d⟩ := r'
      simp only at h1 h2
      subst h1; subst h2
      rw [hp]; rfl
    | dd =>
      refine ⟨r', ?_⟩
      simp only [Option.bind_eq_some_iff]
      refine ⟨_, setText?_some.2 ⟨r.dec, r.series, hv, hs, rfl⟩, ?_⟩
      refine ⟨_, setText?_some.2 ⟨r'.dec, r'.series, hv', hs', rfl⟩, ?_⟩
      refine setText?_some.2 ⟨r'.dec, r'.series, hv', hs', ?_⟩
      obtain ⟨h1, h2, _⟩ := construct_some.1 hr'
      obtain ⟨a, b, c, d⟩ := r'
      simp only at h1 h2
      subst h1; subst h2
      rw [hp]; rfl
    | dt =>
      refine ⟨r', ?_⟩
      simp only [Option.bind_eq_some_iff]
      refine ⟨_, setText?_some.2 ⟨r.dec, r.series, hv, hs, rfl⟩, ?_⟩
      refine ⟨_, setText?_some.2 ⟨r.dec, r.series, hv, hs, rfl⟩, ?_⟩
      refine setText?_some.2 ⟨r'.dec, r'.series, hv', hs', ?_⟩
      obtain ⟨h1, h2, _⟩ := construct_some.1 hr'
      obtain ⟨a, b, c, d⟩ := r'
      simp only at h1 h2
      subst h1; subst h2
      rw [hp]; rfl

/-- A history of updates, each accepted. -/
inductive Updates : Rule → List ConnVars → Rule → Prop
  | nil (r) : Updates r [] r
  | snoc {r vs r1 v r2} : Updates r vs r1 → onVarUpdate r1 v = some r2 → Updates r (vs ++ [v]) r2

/-- **C92 (every history).**  After any history of accepted updates the rule in use is the one
freshly constructed from the Vars of the last update (or the original one if there was none), with
the original epoch length. -/
theorem C92_history (t : Texts) (p : Params) (r r' : Rule) (h : construct t p = some r)
    (vs : List ConnVars) (hu : Updates r vs r') :
    (vs = [] ∧ r' = r) ∨
      ∃ v, vs.getLast? = some v ∧ construct v.texts ⟨v.imp, v.tau, p.epoch⟩ = some r' := by
  have key : r'.par.epoch = p.epoch ∧ ((vs = [] ∧ r' = r) ∨
      ∃ v, vs.getLast? = some v ∧ construct v.texts ⟨v.imp, v.tau, p.epoch⟩ = some r') := by
    obtain ⟨_, hp, hok, _, _⟩ := construct_some.1 h
    induction hu with
    | nil => exact ⟨by rw [hp], Or.inl ⟨rfl, rfl⟩⟩
    | snoc hu h1 ih =>
      rename_i rr vv r1 v r2
      obtain ⟨he, _⟩ := ih
      have hc := C92_update_as_constructed r1 r2 v (by rw [he]; exact hok.2.2) h1
      rw [he] at hc
      refine ⟨?_, Or.inr ⟨v, by simp, hc⟩⟩
      rw [(construct_some.1 hc).2.1]
  exact key.2

/-- **C92 (two equations with `u_k`).**  While two equations write a `u_k`, the digits of `k` cannot
be changed in one of them alone: setting that text at run time is refused. -/
theorem C92_cannot_change_k (t : Texts) (p : Params) (r : Rule) (h : construct t p = some r)
    (g g' : Tgt) (hgg : g' ≠ g) (s s' : List Char) (m m' : List Char) (hs' : t.of g' = some s')
    (hm' : UkIn s' m') (hm : UkIn s m) (hne : m ≠ m') (imp tau : Trc → ℚ) :
    onVarUpdate r ⟨t.set g (some s), imp, tau⟩ = none := by
  rw [← Option.not_isSome_iff_eq_none, Option.isSome_iff_exists, C92_update_accepts t p r h,
    C92_accepts_iff]
  rintro ⟨_, _, _, h4⟩
  exact hne (h4 g s (by rw [texts_set_of, if_pos rfl]) m hm g' s'
    (by rw [texts_set_of, if_neg hgg]; exact hs') m' hm')

/-! ## Active traces -/

/-- **C92 (active traces).**  The traces a rule reports for a dependency are exactly those that
occur as a factor in a product conditioned on that dependency, in any of its equations. -/
theorem C92_active_traces (r : Rule) (d : Dep) (f : FVar) : f ∈ r.active d ↔
    f ∈ [FVar.v .x1, FVar.v .x2, FVar.v .y1, FVar.v .y2, FVar.v .y3] ∧ ∃ g ps q, r.series g = some ps ∧ q ∈ ps ∧ q.dep = d ∧
      ∃ x ∈ q.factors, x.var = f := by
  have key : ∀ g, f ∈ activeTraces ((r.series g).getD []) d ↔
      f.isTrace = true ∧ ∃ ps q, r.series g = some ps ∧ q ∈ ps ∧ q.dep = d ∧
        ∃ x ∈ q.factors, x.var = f := by
    intro g
    unfold activeTraces
    simp only [List.mem_flatMap, List.mem_filter, List.mem_map, beq_iff_eq]
    constructor
    · rintro ⟨q, ⟨hq, hd⟩, ⟨x, hx, hf⟩, ht⟩
      cases hs : r.series g with
      | none => simp [hs] at hq
      | some ps => exact ⟨ht, ps, q, rfl, by simpa [hs] using hq, hd, x, hx, hf⟩
    · rintro ⟨ht, ps, q, hs, hq, hd, x, hx, hf⟩
      exact ⟨q, ⟨by simpa [hs] using hq, hd⟩, ⟨x, hx, hf⟩, ht⟩
  have htr : f ∈ [FVar.v .x1, FVar.v .x2, FVar.v .y1, FVar.v .y2, FVar.v .y3] ↔
      f.isTrace = true := by
    cases f with
    | v a => cases a <;> decide
    | _ => decide
  rw [htr]
  unfold Rule.active
  simp only [List.mem_flatMap]
  constructor
  · rintro ⟨g, _, h⟩
    obtain ⟨h1, h2⟩ := (key g).1 h
    exact ⟨h1, g, h2⟩
  · rintro ⟨h1, g, h2⟩
    exact ⟨g, by cases g <;> simp, (key g).2 ⟨h1, h2⟩⟩

/-! ## Witnesses and findings -/

/-- Parameters in range. -/
def par0 : Params := ⟨fun _ => 1, fun _ => 2, 4⟩

theorem par0_ok : par0.ok := ⟨fun _ => by simp [par0], fun _ => by simp [par0], by simp [par0]⟩

/-- A rule with two equations and a `u_k`. -/
def texts0 : Texts := ⟨some "u2*x1 - x0*y1".toList, none, some "y0*x1 + 2^-1*u2*t".toList⟩

/-- What `construct` computes for `texts0`. -/
theorem texts0_accepted : ∃ r, construct texts0 par0 = some r ∧ r.dec = some 2 := by
  have h1 : validateStrings texts0 = some (some 2) := by decide +kernel
  have h2 : (createSeries texts0).isSome = true := by
    have hw : (compileOpt texts0.dw).isSome = true := by decide +kernel
    have ht : (compileOpt texts0.dt).isSome = true := by decide +kernel
    obtain ⟨w, hw⟩ := Option.isSome_iff_exists.1 hw
    obtain ⟨x, hx⟩ := Option.isSome_iff_exists.1 ht
    unfold createSeries
    rw [hw, hx]
    rfl
  obtain ⟨f, hf⟩ := Option.isSome_iff_exists.1 h2
  exact ⟨⟨texts0, par0, some 2, f⟩, construct_some.2 ⟨rfl, rfl, par0_ok, h1, hf⟩, rfl⟩

/-- The equation `u2*x1-x0*y1`. -/
def eqn0 : Eqn := ⟨none, [.u '2', .var .x1], [(.minus, [.x0, .var .y1])]⟩

/-- The hypotheses of `C92_value_partial` are met; at step 16 (epoch 4) the `u2` term counts, at
step 12 (epoch 3) it does not. -/
example : ∃ r, construct texts0 par0 = some r ∧
    (r.change .dw 16 1 0 (fun _ _ => 3) = some 0) ∧
    (r.change .dw 12 1 0 (fun _ _ => 3) = some (-3)) := by
  obtain ⟨r, hr, _⟩ := texts0_accepted
  have hv := C92_value_partial texts0 par0 r hr .dw "u2*x1 - x0*y1".toList eqn0 rfl
    (by unfold noUSpace; decide +kernel)
    (by simp [eqn0, Eqn.ok, okAtoms, Atom.ok, canonical])
    (by simp [eqn0, Eqn.signKept, Atom.signKept]) (by decide)
  refine ⟨r, hr, ?_, ?_⟩
  · rw [hv]
    norm_num [eqn0, Eqn.value, atomsValue, Atom.value, firstDep, optSgVal, Sg.val, clock, par0,
      show digitsVal ['2'] = 2 by decide]
  · rw [hv]
    norm_num [eqn0, Eqn.value, atomsValue, Atom.value, firstDep, optSgVal, Sg.val, clock, par0,
      show digitsVal ['2'] = 2 by decide]

/-- The hypotheses of `C92_documented_accepted` are met by the one-equation rule `u2*x1-x0*y1`. -/
example : ∃ r, construct ⟨some "u2 * x1 - x0 * y1".toList, none, none⟩ par0 = some r := by
  refine C92_documented_accepted _ par0 2 par0_ok ⟨.dw, _, rfl⟩ ?_
  intro g s hs
  cases g with
  | dw =>
    simp only [Texts.of, Option.some.injEq] at hs
    subst hs
    refine ⟨eqn0, by simp [eqn0, Eqn.ok, okAtoms, Atom.ok, canonical], by decide, ?_, ?_⟩
    · refine ⟨by decide, ?_, by decide, by decide, by decide, by decide⟩
      intro c hc
      simp only [eqn0, List.mem_cons, Atom.u.injEq, reduceCtorEq, List.not_mem_nil, or_false] at hc
      subst hc
      exact ⟨by decide, rfl⟩
    · intro x hx
      simp only [eqn0, List.mem_singleton] at hx
      subst hx
      exact ⟨by decide, by simp, by decide, by decide, by decide, by decide⟩
  | dd => simp [Texts.of] at hs
  | dt => simp [Texts.of] at hs

/-- **Finding.** A space between `u` and its digit is accepted by the parser but not seen by the
search for the decimate exponent: the rule has no exponent and its `u_0` term, which should apply in
every epoch, never does. -/
theorem C92_space_disables_uk : ∃ r, construct ⟨some "u 0*x1".toList, none, none⟩ par0 = some r ∧
    r.dec = none ∧ compileRule "u 0*x1".toList = compileRule "u0*x1".toList ∧
    ∀ step x0 y0 val, r.change .dw step x0 y0 val = some 0 := by
  have hc : compileRule "u 0*x1".toList = some [⟨.u, 1, 7, [⟨.v .x1, none, false⟩], some 0⟩] := by
    decide +kernel
  refine ⟨⟨⟨some "u 0*x1".toList, none, none⟩, par0, none,
    seriesFn (some [⟨.u, 1, 7, [⟨.v .x1, none, false⟩], some 0⟩]) none none⟩, ?_, rfl, ?_, ?_⟩
  · refine construct_some.2 ⟨rfl, rfl, par0_ok, by decide +kernel, ?_⟩
    unfold createSeries
    simp only [compileOpt, hc, Option.map_some, Option.bind_some]
  · rw [hc]; decide +kernel
  · intro step x0 y0 val
    simp [Rule.change, seriesFn, evalSeries, Product.eval, Rule.applierEnv, Rule.uScalar, Env.dep]

/-- **Finding.** Only one digit of `k` is read: `u12` compiles to the product `u1*2`, and `u1` in one
equation with `u12` in another is refused as two different factors although both mean `u_1`. -/
theorem C92_two_digit_k :
    compileRule "u12*x1".toList = compileRule "u1*2*x1".toList ∧
    validateStrings ⟨some "u12*x1".toList, none, none⟩ = some (some 1) ∧
    validateStrings ⟨some "u1*2*x1".toList, some "u12*x1".toList, none⟩ = none := by
  refine ⟨by decide +kernel, by decide +kernel, by decide +kernel⟩

/-- **Finding.** A refused assignment to a text is not undone: the object then shows the new text
but keeps the series of the old one. -/
theorem C92_refused_set_leaves_text : ∃ r, construct ⟨some "x0*y1".toList, none, none⟩ par0 = some r ∧
    (r.setText .dw (some "x0*(".toList)).2 = false ∧
    (r.setText .dw (some "x0*(".toList)).1.texts.dw = some "x0*(".toList ∧
    (r.setText .dw (some "x0*(".toList)).1.series = r.series ∧ r.series .dw ≠ none := by
  have hc : compileRule "x0*y1".toList = some [⟨.x0, 1, 7, [⟨.v .y1, none, false⟩], none⟩] := by
    decide +kernel
  have h1 : validateStrings (Texts.mk (some "x0*(".toList) none none) = some none := by
    decide +kernel
  have h2 : compileRule "x0*(".toList = none := by decide +kernel
  have h3 : createSeries (Texts.mk (some "x0*(".toList) none none) = none := by
    unfold createSeries
    simp only [compileOpt, h2, Option.map_none, Option.bind_none]
  refine ⟨⟨⟨some "x0*y1".toList, none, none⟩, par0, none,
    seriesFn (some [⟨.x0, 1, 7, [⟨.v .y1, none, false⟩], none⟩]) none none⟩, ?_, ?_⟩
  · refine construct_some.2 ⟨rfl, rfl, par0_ok, by decide +kernel, ?_⟩
    unfold createSeries
    simp only [compileOpt, hc, Option.map_some, Option.bind_some]
  · unfold Rule.setText
    simp only [Texts.set, h1, h3]
    simp [seriesFn]

/-- The hypotheses of `C92_cannot_change_k` are met by `texts0`: `u2` in `dw` cannot be changed to
`u3` while `dt` writes `u2`. -/
example : ∃ r, construct texts0 par0 = some r ∧
    ∀ imp tau, onVarUpdate r ⟨texts0.set .dw (some "u3*x1".toList), imp, tau⟩ = none := by
  obtain ⟨r, hr, _⟩ := texts0_accepted
  refine ⟨r, hr, fun imp tau => ?_⟩
  exact C92_cannot_change_k texts0 par0 r hr .dw .dt (by decide) _ _ ['3'] ['2'] rfl
    (mem_ukFind.1 (by decide +kernel)) (mem_ukFind.1 (by decide +kernel)) (by decide) imp tau

/-- An accepted update: `u2` in `dw` is removed. -/
example : ∃ r r', construct texts0 par0 = some r ∧
    onVarUpdate r ⟨texts0.set .dw (some "x0*y1".toList), par0.imp, par0.tau⟩ = some r' := by
  obtain ⟨r, hr, _⟩ := texts0_accepted
  have h : ∃ r', construct (texts0.set .dw (some "x0*y1".toList)) par0 = some r' := by
    have h1 : validateStrings (texts0.set .dw (some "x0*y1".toList)) = some (some 2) := by
      decide +kernel
    have hw : (compileOpt (some "x0*y1".toList)).isSome = true := by decide +kernel
    have ht : (compileOpt texts0.dt).isSome = true := by decide +kernel
    obtain ⟨w, hw⟩ := Option.isSome_iff_exists.1 hw
    obtain ⟨x, hx⟩ := Option.isSome_iff_exists.1 ht
    refine ⟨⟨_, par0, some 2, seriesFn w none x⟩, construct_some.2 ⟨rfl, rfl, par0_ok, h1, ?_⟩⟩
    show (compileOpt (some "x0*y1".toList)).bind _ = _
    rw [hw]
    show (compileOpt none).bind (fun d => (compileOpt texts0.dt).map fun x => seriesFn w d x) = _
    rw [hx]
    rfl
  obtain ⟨r', h'⟩ := (C92_update_accepts texts0 par0 r hr .dw (some "x0*y1".toList) par0.imp
    par0.tau).2 h
  exact ⟨r, r', hr, h'⟩

end Verif.Learning
