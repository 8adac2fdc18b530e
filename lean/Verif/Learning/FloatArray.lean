import Verif.Learning.FloatModel

/-!
# The floating-point learning connection as array code

`LearningConnectionModelFloat` (magma/core/model/py/connection.py:1175-1566) for a dense connection of any size: traces and spike times are vectors over the pre- or post-synaptic neurons,
synaptic variables are matrices. Arrays are functions of their indices, so shapes are not checked (that the expressions of the common base class fit together is C108); NaN is `none` as in
`Verif.Learning.FloatModel`, which follows a single synapse.
-/

namespace Verif.Learning

variable {K : Type} [Field K] [LinearOrder K]

/-- State: pre-synaptic traces and spike times by `j`, post-synaptic ones by `i`, `weights`, `tag_2`, `tag_1` by `i` and `j`. -/
structure FArr (K : Type) where
  x1 : Nat → Option K
  x2 : Nat → Option K
  tx : Nat → Nat
  y1 : Nat → Option K
  y2 : Nat → Option K
  y3 : Nat → Option K
  ty : Nat → Nat
  w : Nat → Nat → Option K
  d : Nat → Nat → Option K
  t : Nat → Nat → Option K

/-- Synapse from neuron `j` to neuron `i`. -/
def FArr.syn (s : FArr K) (i j : Nat) : FSt K := ⟨s.x1 j, s.x2 j, s.y1 i, s.y2 i, s.y3 i, s.tx j, s.ty i, s.w i j, s.d i j, s.t i j⟩

/-- `v[mask] += imp` with `mask = (t_spike > 0) & spiked` (connection.py:1324-1342, 1359-1364). -/
def bumpV (imp : K) (tSpike : Nat → Nat) (spiked : Nat → Bool) (v : Nat → Option K) : Nat → Option K :=
  fun k => if decide (0 < tSpike k) && spiked k then (v k).map (· + imp) else v k

/-- `_process_pre_spikes` (connection.py:1302-1345). -/
def fPreA (c : FCfg K) (time : Nat) (s : FArr K) (a : Nat → K) : FArr K :=
  { s with
    x1 := match c.graded with
      | .regular => bumpV c.cx1.imp s.tx (fun j => decide (a j ≠ 0)) s.x1
      | .overwrite => fun j => if a j ≠ 0 then some (a j / 2) else s.x1 j
      | .addSat | .addNoSat => fun j => (s.x1 j).map (· + a j / 2)
    x2 := bumpV c.cx2.imp s.tx (fun j => decide (a j ≠ 0)) s.x2
    tx := fun j => if a j ≠ 0 then withinEpoch c.tEpoch time else s.tx j }

/-- `_process_post_spikes` (connection.py:1347-1368). -/
def fPostA (c : FCfg K) (time : Nat) (s : FArr K) (post : Nat → Bool) : FArr K :=
  { s with
    y1 := bumpV c.cy1.imp s.ty post s.y1
    y2 := bumpV c.cy2.imp s.ty post s.y2
    y3 := bumpV c.cy3.imp s.ty post s.y3
    ty := fun i => if post i then withinEpoch c.tEpoch time else s.ty i }

/-- A row of `_compute_trace_histories` (connection.py:1370-1424), one column per neuron. -/
def fhistA (c : FTr K) (tSpike : Nat → Nat) (tr : Nat → Option K) : Nat → Nat → Option K
  | 0 => tr
  | t + 1 => fun k =>
    let v := c.decay.bind fun e => (fhistA c tSpike tr t k).map (e * ·)
    if tSpike k = t + 1 then v.map (· + c.imp) else v

/-- `_extract_applier_evaluated_traces` and the synaptic variables (connection.py:474-525, 1485-1492): the arrays named `trace_dependency`, broadcast to one row per post-synaptic and one column per
pre-synaptic neuron. -/
def evalA (c : FCfg K) (s : FArr K) (dep : Dep) (v : V) (i j : Nat) : Option K :=
  let xt := match dep with
    | .x0 => s.tx j
    | .y0 => s.ty i
    | .u => c.tEpoch
  match v with
  | .x1 => fhistA c.cx1 s.tx s.x1 xt j
  | .x2 => fhistA c.cx2 s.tx s.x2 xt j
  | .y1 => fhistA c.cy1 s.ty s.y1 xt i
  | .y2 => fhistA c.cy2 s.ty s.y2 xt i
  | .y3 => fhistA c.cy3 s.ty s.y3 xt i
  | .w => s.w i j
  | .d => s.d i j
  | .t => s.t i j

/-- `x0`, `y0` and `u`, broadcast (connection.py:443-445, 1485-1511). -/
def depA (c : FCfg K) (time : Nat) (s : FArr K) (i j : Nat) : Dep → K
  | .x0 => if 0 < s.tx j then 1 else 0
  | .y0 => if 0 < s.ty i then 1 else 0
  | .u => match c.dec with
    | none => 0
    | some k => if (time / c.tEpoch) % 2 ^ k = 0 then 1 else 0

/-- A factor (learning_rule_applier.py:107-142). -/
def factorA (c : FCfg K) (time : Nat) (s : FArr K) (dep : Dep) (f : Factor) (i j : Nat) : Option K :=
  let v := match f.var with
    | .x0 => some (depA c time s i j .x0)
    | .y0 => some (depA c time s i j .y0)
    | .v v => evalA c s dep v i j
  let v := v.map (· + ((f.const.getD 0 : ℚ) : K))
  if f.isSgn then v.map signK else v

/-- `LearningRuleApplierFloat.apply` (learning_rule_applier.py:74-97, 144-172). -/
def applyA (c : FCfg K) (time : Nat) (s : FArr K) (ps : List Product) (v : Nat → Nat → Option K) (i j : Nat) : Option K :=
  nanAdd (v i j) ((ps.map fun p => (p.factors.map fun f => factorA c time s p.dep f i j).foldl nanMul
    (some ((p.m : K) * 2 ^ (p.sexp - 7) * depA c time s i j p.dep))).foldl nanAdd (some 0))

/-- `run_lrn` (connection.py:431-437, 451-466, 526-531, 1449-1468). -/
def fLrnA (c : FCfg K) (time : Nat) (s : FArr K) : FArr K where
  x1 := fhistA c.cx1 s.tx s.x1 c.tEpoch
  x2 := fhistA c.cx2 s.tx s.x2 c.tEpoch
  y1 := if c.two then fhistA c.cy1 s.ty s.y1 c.tEpoch else s.y1
  y2 := if c.two then fhistA c.cy2 s.ty s.y2 c.tEpoch else s.y2
  y3 := if c.two then fhistA c.cy3 s.ty s.y3 c.tEpoch else s.y3
  tx _ := 0
  ty _ := 0
  w := match c.dw with
    | none => s.w
    | some ps => fun i j => fSatW c.mode (applyA c time s ps s.w i j)
  d := match c.dd with
    | none => s.d
    | some ps => fun i j => (applyA c time s ps s.d i j).map (max 0)
  t := match c.dt with
    | none => s.t
    | some ps => applyA c time s ps s.t

theorem syn_pre (c : FCfg K) (time : Nat) (s : FArr K) (a : Nat → K) (i j : Nat) : (fPreA c time s a).syn i j = fPre c time (s.syn i j) (a j) := by
  unfold fPreA fPre FArr.syn
  cases c.graded <;> rfl

omit [LinearOrder K] in
theorem syn_post (c : FCfg K) (time : Nat) (s : FArr K) (post : Nat → Bool) (i j : Nat) : (fPostA c time s post).syn i j = fPost c time (s.syn i j) (post i) := rfl

omit [LinearOrder K] in
theorem fhistA_eq (c : FTr K) (tSpike : Nat → Nat) (tr : Nat → Option K) (k : Nat) : ∀ t, fhistA c tSpike tr t k = fhist c (tSpike k) (tr k) t
  | 0 => rfl
  | t + 1 => by simp only [fhistA, fhist, fhistA_eq c tSpike tr k t]

omit [LinearOrder K] in
theorem evalA_eq (c : FCfg K) (s : FArr K) (dep : Dep) (v : V) (i j : Nat) : evalA c s dep v i j = fTraceAt c (s.syn i j) (fReadTime c (s.syn i j) dep) v := by
  cases v <;> cases dep <;> simp only [evalA, fTraceAt, fReadTime, FArr.syn, fhistA_eq]

omit [LinearOrder K] in
theorem depA_eq (c : FCfg K) (time : Nat) (s : FArr K) (i j : Nat) (dep : Dep) : depA c time s i j dep = fDep c time (s.syn i j) dep := by
  cases dep <;> rfl

theorem applyA_eq (c : FCfg K) (time : Nat) (s : FArr K) (ps : List Product) (v : Nat → Nat → Option K) (i j : Nat) :
    applyA c time s ps v i j = fApply c time (s.syn i j) ps (v i j) := by
  unfold applyA fApply
  congr 2
  apply List.map_congr_left
  intro p _
  unfold fProduct
  rw [depA_eq]
  congr 1
  apply List.map_congr_left
  intro f _
  unfold factorA fFactor
  cases f.var <;> simp only [evalA_eq, depA_eq]

theorem syn_lrn (c : FCfg K) (time : Nat) (s : FArr K) (i j : Nat) : (fLrnA c time s).syn i j = fLrn c time (s.syn i j) := by
  unfold fLrnA fLrn
  simp only [FArr.syn, fTraceAt, FSt.mk.injEq]
  refine ⟨fhistA_eq .., fhistA_eq .., ?_, ?_, ?_, trivial, trivial, ?_, ?_, ?_⟩
  · cases c.two
    · rfl
    · exact fhistA_eq ..
  · cases c.two
    · rfl
    · exact fhistA_eq ..
  · cases c.two
    · rfl
    · exact fhistA_eq ..
  · cases c.dw with
    | none => rfl
    | some ps => show fSatW c.mode _ = fSatW c.mode _; rw [applyA_eq]; rfl
  · cases c.dd with
    | none => rfl
    | some ps => show Option.map _ _ = Option.map _ _; rw [applyA_eq]; rfl
  · cases c.dt with
    | none => rfl
    | some ps => show applyA _ _ _ _ _ _ _ = _; rw [applyA_eq]; rfl

end Verif.Learning
