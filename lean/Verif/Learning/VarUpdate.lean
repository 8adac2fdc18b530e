import Verif.Learning.RuleObj
import Verif.Learning.Plasticity
import Mathlib.Logic.Function.Basic

/-!
# The Vars of a running learning connection

How a learning connection starts (`LearningConnectionProcess.__init__`, `process/connection.py:92-106`; the Vars of the model,
`py_builder.py:397-425`; `model/py/connection.py:133-150, 606-647`) and what a `set` of one of its Vars does to it
(`model/py/model.py:143-201`, `model/py/connection.py:152-175`).

Simplifications: numbers are rationals; the range of machine integers is not modelled; an exception, which ends the process model, is `none`.
-/

namespace Verif.Learning

/-- What is kept of a number stored in a Var: the Vars of the trace parameters are integer arrays in the fixed-point model
(model/py/connection.py:606-616; assignment of a float truncates), float arrays in the floating-point model
(model/py/connection.py:1242-1252). -/
def store (fixed : Bool) (q : ℚ) : ℚ := if fixed then (truncQ q : ℚ) else q

/-- A running learning connection: its copy of the learning rule and its Vars. -/
structure Live where
  rule : Rule
  vars : ConnVars

/-- The start: the model takes the parameters from the rule itself (model/py/connection.py:133-150); the Vars get the same values as initial
values (process/connection.py:92-106) and store them in their own type (py_builder.py:399-404). -/
noncomputable def Live.build (fixed : Bool) (t : Texts) (p : Params) : Option Live :=
  (construct t p).map fun r => ⟨r, ⟨t, fun i => store fixed (p.imp i), fun i => store fixed (p.tau i)⟩⟩

/-- `var.set(value)`: a trace parameter, a text, or any other Var of the connection (weights, traces, tags, ...). -/
inductive Cmd where
  | imp (i : Trc) (q : ℚ)
  | tau (i : Trc) (q : ℚ)
  | text (g : Tgt) (s : List Char)
  | other

/-- `_set_var` (model/py/model.py:142-201): the value arrives in the array or in the text; a Var whose value is `None` – the text of a target
without a rule – has no supported type. -/
def ConnVars.apply (fixed : Bool) (v : ConnVars) : Cmd → Option ConnVars
  | .imp i q => some ⟨v.texts, Function.update v.imp i (store fixed q), v.tau⟩
  | .tau i q => some ⟨v.texts, v.imp, Function.update v.tau i (store fixed q)⟩
  | .text g s => if (v.texts.of g).isSome then some ⟨v.texts.set g (some s), v.imp, v.tau⟩ else none
  | .other => some v

/-- `_set_var` followed by `on_var_update` (model/py/model.py:201, model/py/connection.py:152-175), whichever Var was set. -/
noncomputable def Live.set (fixed : Bool) (l : Live) (c : Cmd) : Option Live :=
  (l.vars.apply fixed c).bind fun v => (onVarUpdate l.rule v).map fun r => ⟨r, v⟩

/-- A history of `set` calls. -/
noncomputable def Live.run (fixed : Bool) (l : Live) (cs : List Cmd) : Option Live := cs.foldlM (Live.set fixed) l

/-- `np.round`: half to even. -/
def roundEven (q : ℚ) : Int :=
  if q - ⌊q⌋ < 1 / 2 then ⌊q⌋ else if 1 / 2 < q - ⌊q⌋ then ⌊q⌋ + 1 else if ⌊q⌋ % 2 = 0 then ⌊q⌋ else ⌊q⌋ + 1

/-- `_decompose_impulses` and the choice of the decayed traces (model/py/connection.py:618-672, 841-852): the configuration of a trace of the
fixed-point model; `e tau` stands for `np.exp(-1 / tau)`. -/
def trCfg (e : ℚ → ℚ) (p : Params) (i : Trc) : TrCfg :=
  ⟨⌊p.imp i⌋, roundEven ((p.imp i - ⌊p.imp i⌋) * 2 ^ 8), if p.tau i = 0 then 0 else e (p.tau i)⟩

end Verif.Learning
