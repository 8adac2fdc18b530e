import Verif.Learning.Equation

/-!
# Learning-rule objects

Models `src/lava/magma/core/learning/learning_rule.py` (`LoihiLearningRule`: construction, the
setters of the rule texts and of the trace parameters, the decimate exponent, the active traces)
and the parts of `src/lava/magma/core/model/py/connection.py` that use such an object in a running
connection (`on_var_update` 152-176 and the scalar `u` of `_extract_applier_args` 1009-1018 and
1505-1513).

A Python exception of any class is `none`.

Simplifications
* texts are `List Char` and the class `[0-9]` is the ten ASCII digits;
* numbers are rationals;
* the random seed (which does not influence the other attributes) is absent;
* the three dictionaries keyed by target (`_active_str_learning_rules`, `_active_product_series`)
  and the attributes `_dw`, `_dd`, `_dt` hold the same series, so one function is kept.
-/

namespace Verif.Learning

/-- `LEARNING_RULE_TARGETS` (string_symbols.py:38). -/
inductive Tgt
  | dw | dd | dt
  deriving DecidableEq, Repr

/-- The traces that carry an impulse and a time constant (learning_rule.py:105-117). -/
inductive Trc
  | x1 | x2 | y1 | y2 | y3
  deriving DecidableEq, Repr

/-- The rule texts `_dw_str`, `_dd_str`, `_dt_str` (learning_rule.py:99-101). -/
structure Texts where
  dw : Option (List Char)
  dd : Option (List Char)
  dt : Option (List Char)
  deriving DecidableEq

/-- The text of a target. -/
def Texts.of (t : Texts) : Tgt → Option (List Char)
  | .dw => t.dw
  | .dd => t.dd
  | .dt => t.dt

/-- Assignment to `_dw_str`, `_dd_str` or `_dt_str` (learning_rule.py:188, 198, 208). -/
def Texts.set (t : Texts) (g : Tgt) (s : Option (List Char)) : Texts :=
  match g with
  | .dw => ⟨s, t.dd, t.dt⟩
  | .dd => ⟨t.dw, s, t.dt⟩
  | .dt => ⟨t.dw, t.dd, s⟩

/-- The texts that were provided, in the order dw, dd, dt (learning_rule.py:133-145). -/
def Texts.active (t : Texts) : List (List Char) :=
  t.dw.toList ++ t.dd.toList ++ t.dt.toList

/-- `re.compile("u[0-9]+").findall(rule)` (learning_rule.py:505-508); a match is given by its
digits.  Matches cannot overlap because a digit is not a `u`, so the search may go on directly
behind the `u`. -/
def ukFind : List Char → List (List Char)
  | [] => []
  | c :: r =>
    if c = 'u' then
      match r.takeWhile Char.isDigit with
      | [] => ukFind r
      | d :: ds => (d :: ds) :: ukFind r
    else ukFind r

/-- `_validate_uk` (learning_rule.py:486-522): no match gives no exponent; one distinct match gives
its first digit, `int(uk_list[0][1])`; several distinct matches raise.  The text searched is the
one the user wrote, spaces included. -/
def validateUk (texts : List (List Char)) : Option (Option Nat) :=
  match texts.flatMap ukFind with
  | [] => some none
  | m :: ms => if ms.all (· == m) then some (m.head?.map fun c => digitsVal [c]) else none

/-- Impulses, time constants and epoch length (learning_rule.py:105-120). -/
structure Params where
  imp : Trc → ℚ
  tau : Trc → ℚ
  epoch : Nat

/-- `_validate_impulse`, `_validate_tau` (not negative) and `_validate_t_epoch` (positive) on all
parameters (learning_rule.py:524-581). -/
def Params.ok (p : Params) : Prop := (∀ i, 0 ≤ p.imp i) ∧ (∀ i, 0 ≤ p.tau i) ∧ 0 < p.epoch

/-- A learning-rule object. -/
structure Rule where
  texts : Texts
  par : Params
  dec : Option Nat
  series : Tgt → Option (List Product)

/-- `_generate_product_series_from_string` for an optional text: nothing for a missing text
(`some none`), an exception (`none`) for a text that is refused (learning_rule.py:159-170). -/
def compileOpt : Option (List Char) → Option (Option (List Product))
  | none => some none
  | some s => (compileRule s).map some

/-- The series of the three targets as a function of the target. -/
def seriesFn (w d t : Option (List Product)) : Tgt → Option (List Product)
  | .dw => w
  | .dd => d
  | .dt => t

/-- `_create_product_series` (learning_rule.py:157-170). -/
def createSeries (t : Texts) : Option (Tgt → Option (List Product)) :=
  (compileOpt t.dw).bind fun w =>
    (compileOpt t.dd).bind fun d =>
      (compileOpt t.dt).map fun x => seriesFn w d x

/-- `_validate_learning_rule_strings` (learning_rule.py:131-155): at least one rule, one `u_k`. -/
def validateStrings (t : Texts) : Option (Option Nat) :=
  if t.active = [] then none else validateUk t.active

open Classical in
/-- `LoihiLearningRule.__init__` (learning_rule.py:80-129). -/
noncomputable def construct (t : Texts) (p : Params) : Option Rule :=
  (validateStrings t).bind fun k =>
    if p.ok then (createSeries t).map fun f => ⟨t, p, k, f⟩ else none

/-- The setters `dw_str`, `dd_str`, `dt_str` (learning_rule.py:186-210).  The text is stored first,
then the exponent, then the series; an exception (`false`) leaves what was stored before it. -/
def Rule.setText (r : Rule) (g : Tgt) (s : Option (List Char)) : Rule × Bool :=
  match validateStrings (r.texts.set g s) with
  | none => (⟨r.texts.set g s, r.par, r.dec, r.series⟩, false)
  | some k =>
    match createSeries (r.texts.set g s) with
    | none => (⟨r.texts.set g s, r.par, k, r.series⟩, false)
    | some f => (⟨r.texts.set g s, r.par, k, f⟩, true)

/-- The values of the Vars of a learning connection that mirror the rule
(process/connection.py:92-106). -/
structure ConnVars where
  texts : Texts
  imp : Trc → ℚ
  tau : Trc → ℚ

/-- The setter of a text, as used inside `on_var_update`: an exception ends the update. -/
def Rule.setText? (r : Rule) (g : Tgt) (s : Option (List Char)) : Option Rule :=
  if (r.setText g s).2 then some (r.setText g s).1 else none

open Classical in
/-- `on_var_update` (model/py/connection.py:152-170): the ten trace parameters are validated and
stored, then the texts are stored in the order dw, dd, dt, each through its setter.  The epoch
length has no Var. -/
noncomputable def onVarUpdate (r : Rule) (v : ConnVars) : Option Rule :=
  if (∀ i, 0 ≤ v.imp i) ∧ (∀ i, 0 ≤ v.tau i) then
    ((Rule.mk r.texts ⟨v.imp, v.tau, r.par.epoch⟩ r.dec r.series).setText? .dw v.texts.dw).bind
      fun r1 => (r1.setText? .dd v.texts.dd).bind fun r2 => r2.setText? .dt v.texts.dt
  else none

/-- The scalar `u` handed to every applier (model/py/connection.py:1009-1018, 1505-1512).
`int(time_step / t_epoch)` is the quotient for the nonnegative numbers involved. -/
def Rule.uScalar (r : Rule) (step : Nat) : ℚ :=
  match r.dec with
  | none => 0
  | some k => if step / r.par.epoch % 2 ^ k = 0 then 1 else 0

/-- The values an applier of this rule reads at a time step: one scalar `u`, whatever the product
says (learning_rule_applier.py:74-97). -/
def Rule.applierEnv (r : Rule) (step : Nat) (x0 y0 : ℚ) (val : Dep → V → ℚ) : Env :=
  ⟨x0, y0, fun _ => r.uScalar step, val⟩

/-- The change a rule computes for a target, `none` if the target has no rule
(model/py/connection.py:293-301; learning_rule_applier.py:167-172). -/
def Rule.change (r : Rule) (g : Tgt) (step : Nat) (x0 y0 : ℚ) (val : Dep → V → ℚ) : Option ℚ :=
  (r.series g).map fun ps => evalSeries (r.applierEnv step x0 y0 val) ps

/-- `factor.state_var in TRACES` (product_series.py:476). -/
def FVar.isTrace : FVar → Bool
  | .v a => !a.isSyn
  | _ => false

/-- `_get_active_traces_per_dependency_from_products` (product_series.py:448-481): the traces
listed under a dependency. -/
def activeTraces (ps : List Product) (d : Dep) : List FVar :=
  (ps.filter (·.dep == d)).flatMap fun p => (p.factors.map (·.var)).filter FVar.isTrace

/-- `_get_active_traces_from_active_product_series` (learning_rule.py:583-633). -/
def Rule.active (r : Rule) (d : Dep) : List FVar :=
  [Tgt.dw, Tgt.dd, Tgt.dt].flatMap fun g => activeTraces ((r.series g).getD []) d

end Verif.Learning
