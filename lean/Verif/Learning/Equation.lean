import Mathlib.Data.Rat.Defs
import Mathlib.Algebra.Order.Ring.Rat
import Mathlib.Algebra.Field.Rat
import Mathlib.Algebra.BigOperators.Group.List.Basic

/-!
# Learning-rule strings: tokenizer, product series, evaluation

Models
* `src/lava/magma/core/learning/symbolic_equation.py` (string → list of symbols),
* `src/lava/magma/core/learning/product_series.py` (list of symbols → product series),
* `src/lava/magma/core/learning/learning_rule_applier.py:61-172` (value of a product series).

A Python exception of any class is `none`.

Simplifications (all stated again at the definitions):
* strings are `List Char`, and the regular expression class `\d` is the ten ASCII digits;
* floating-point numbers are rationals; `int(s_mantissa / 2)` in the normalisation loop is exact
  halving (Python goes through a float, exact below `2^53`);
* the flag `combine_literals` is the constant `True` in the code (product_series.py:566), so the
  branches taken only when it is `False` are absent.
-/

namespace Verif.Learning

/-- The variables a rule may name: traces `x1 x2 y1 y2 y3` and synaptic variables `w d t`
(string_symbols.py:12-32). -/
inductive V
  | x1 | x2 | y1 | y2 | y3 | w | d | t
  deriving DecidableEq, Repr

/-- `v ∈ SYNAPTIC_VARIABLES` (string_symbols.py:26). -/
def V.isSyn : V → Bool
  | .w | .d | .t => true
  | _ => false

/-- Symbols (symbolic_equation.py:134-765).  A `Literal` is kept as mantissa and exponent; its
base is 2 except for plain integers, which have exponent 0 (symbolic_equation.py:687-706), so
`mantissa * base ** exponent` is `m * 2^e` in every case. -/
inductive Sym
  | add | sub | mul | x0 | y0
  | uk (k : Nat)
  | var (v : V)
  | lit (m : Int) (e : Int)
  | bracket (l : List Sym)
  | sgn (l : List Sym)
  deriving Repr

/-- The value of a run of decimal digits, `ast.literal_eval` / `int` on `\d+`. -/
def digitsVal (ds : List Char) : Nat := ds.foldl (fun n c => 10 * n + (c.toNat - 48)) 0

/-- `ast.literal_eval` of a run of digits: Python rejects redundant leading zeros in a non-zero
integer (`007` is a SyntaxError, `00` is `0`). -/
def litEval (ds : List Char) : Option Nat :=
  match ds with
  | '0' :: c :: r => if (c :: r).all (· == '0') then some 0 else none
  | ds => some (digitsVal ds)

/-- The regular expression part `[\+\-]?` together with the sign it stands for. -/
def optSign : List Char → Int × List Char
  | '+' :: r => (1, r)
  | '-' :: r => (-1, r)
  | r => (1, r)

/-- The greedy run `\d+` at the head of the string. -/
def digitsOf (s : List Char) : List Char := s.takeWhile Char.isDigit

/-- What is left after the greedy run `\d+`. -/
def afterDigits (s : List Char) : List Char := s.dropWhile Char.isDigit

/-- `[\+\-]?\d+` read as an exponent: `none` if the expression does not match, `some none` if it
matches and `ast.literal_eval` raises (symbolic_equation.py:690-701). -/
def findExp (s : List Char) : Option (Option (Int × List Char)) :=
  match digitsOf (optSign s).2 with
  | [] => none
  | ds => some ((litEval ds).map fun (n : Nat) => ((optSign s).1 * (n : Int), afterDigits (optSign s).2))

/-- `Literal.find` on `[\+\-]?\d+\*2\^[\+\-]?\d+` with `to_int` for literal type 0
(symbolic_equation.py:741-745, 690-695). -/
def findLit0 (s : List Char) : Option (Option (Sym × List Char)) :=
  match digitsOf (optSign s).2, afterDigits (optSign s).2 with
  | [], _ => none
  | ds, '*' :: '2' :: '^' :: r =>
    (findExp r).map fun o => o.bind fun p =>
      (litEval ds).map fun (m : Nat) => (.lit ((optSign s).1 * (m : Int)) p.1, p.2)
  | _, _ => none

/-- `Literal.find` on `[\+\-]?2\^[\+\-]?\d+` with `to_int` for literal type 1
(symbolic_equation.py:747-751, 696-701): the mantissa is `int(±2 / 2)`. -/
def findLit1 (s : List Char) : Option (Option (Sym × List Char)) :=
  match (optSign s).2 with
  | '2' :: '^' :: r => (findExp r).map fun o => o.map fun p => (.lit (optSign s).1 p.1, p.2)
  | _ => none

/-- `Literal.find` on `[\+\-]?\d+` with `to_int` for literal type 2
(symbolic_equation.py:752-757, 702-706). -/
def findLit2 (s : List Char) : Option (Option (Sym × List Char)) :=
  match digitsOf (optSign s).2 with
  | [] => none
  | ds => some ((litEval ds).map fun (m : Nat) =>
      (.lit ((optSign s).1 * (m : Int)) 0, afterDigits (optSign s).2))

/-- `Literal.find` (symbolic_equation.py:720-762): the three forms are tried in this order.  `none`
at the end is either an exception of `literal_eval` or "no symbol found", which makes
`SymbolList.append(None)` raise (symbolic_equation.py:109-119). -/
def findLit (s : List Char) : Option (Sym × List Char) :=
  match findLit0 s with
  | some o => o
  | none =>
    match findLit1 s with
    | some o => o
    | none =>
      match findLit2 s with
      | some o => o
      | none => none

/-- `Expression._find_closing_bracket_idx` and the slicing in `find_sub_expr`
(symbolic_equation.py:459-487, 497-519, 561-583): scan for the bracket that closes the one already
open.  `depth` is the number of open brackets; the result is the text inside and the rest. -/
def closeAt : Nat → List Char → Option (List Char × List Char)
  | _, [] => none
  | depth, c :: r =>
    if c = '(' then (closeAt (depth + 1) r).map fun p => (c :: p.1, p.2)
    else if c = ')' then
      if depth ≤ 1 then some ([], r) else (closeAt (depth - 1) r).map fun p => (c :: p.1, p.2)
    else (closeAt depth r).map fun p => (c :: p.1, p.2)

/-- `SymbolicEquation._find_next_symbol` (symbolic_equation.py:815-845) over `SYMBOL_CLASSES`
(line 768-769).  The classes are tried in list order; apart from the optional sign of a literal,
which `Addition`/`Subtraction` take first, their regular expressions start with different
characters, so the order of the alternatives below is the code's order.  `sub` is the recursive
`_parse`. -/
def findNext (sub : List Char → Option (List Sym)) : List Char → Option (Sym × List Char)
  | '+' :: r => some (.add, r)
  | '-' :: r => some (.sub, r)
  | '*' :: r => some (.mul, r)
  | 'x' :: '0' :: r => some (.x0, r)
  | 'y' :: '0' :: r => some (.y0, r)
  | 'u' :: c :: r => if c.isDigit then some (.uk (digitsVal [c]), r) else none
  | 'x' :: '1' :: r => some (.var .x1, r)
  | 'x' :: '2' :: r => some (.var .x2, r)
  | 'y' :: '1' :: r => some (.var .y1, r)
  | 'y' :: '2' :: r => some (.var .y2, r)
  | 'y' :: '3' :: r => some (.var .y3, r)
  | 'w' :: r => some (.var .w, r)
  | 'd' :: r => some (.var .d, r)
  | 't' :: r => some (.var .t, r)
  | '(' :: r => (closeAt 1 r).bind fun p => (sub p.1).map fun l => (.bracket l, p.2)
  | 's' :: 'g' :: 'n' :: '(' :: r =>
    (closeAt 1 r).bind fun p => (sub p.1).map fun l => (.sgn l, p.2)
  | s => findLit s

/-- One turn of the loop of `_parse` after a symbol was found (symbolic_equation.py:866-869). -/
def parseRest (rec : List Char → Option (List Sym)) (p : Sym × List Char) : Option (List Sym) :=
  match p.2 with
  | [] => some [p.1]
  | r => (rec r).map (p.1 :: ·)

/-- `SymbolicEquation._parse` (symbolic_equation.py:847-871).  The first argument bounds the
recursion; `C55_parse_fuel` shows that any bound above the length of the string gives the same
result. -/
def parse : Nat → List Char → Option (List Sym)
  | 0, _ => none
  | n + 1, s => (findNext (parse n) s).bind (parseRest (parse n))

/-- `_generate_symbol_list_from_string` (symbolic_equation.py:873-885): `re.sub(' ', '', ...)`
followed by `_parse`. -/
def symbolList (s : List Char) : Option (List Sym) :=
  parse (s.length + 1) (s.filter (· ≠ ' '))

/-! ## Product series -/

/-- `DEPENDENCIES` (string_symbols.py:5-10). -/
inductive Dep
  | x0 | y0 | u
  deriving DecidableEq, Repr

/-- State variables of a factor, `FACTOR_STATE_VARS` without the never produced `C`
(string_symbols.py:30-32). -/
inductive FVar
  | x0 | y0
  | v (v : V)
  deriving DecidableEq, Repr

/-- `Factor` (product_series.py:26-64). -/
structure Factor where
  var : FVar
  const : Option ℚ
  isSgn : Bool
  deriving DecidableEq

/-- `Product` (product_series.py:166-210); `sexp` is the stored exponent, 7 more than the
exponent of the scaling factor. -/
structure Product where
  dep : Dep
  m : Int
  sexp : Int
  factors : List Factor
  dec : Option Nat
  deriving DecidableEq

/-- `isinstance(symbol, Operator)`. -/
def Sym.isOp : Sym → Bool
  | .add | .sub | .mul => true
  | _ => false

/-- `isinstance(symbol, Subtraction)`. -/
def Sym.isSub : Sym → Bool
  | .sub => true
  | _ => false

/-- `isinstance(symbol, Addition)`. -/
def Sym.isAdd : Sym → Bool
  | .add => true
  | _ => false

/-- The sign an operator stands for: `-1` for `Subtraction`, else `1`
(product_series.py:623-626, 667-679). -/
def Sym.sign (s : Sym) : Int := if s.isSub then -1 else 1

/-- `isinstance(symbol, (Dependency, Variable))` for the symbols `Factor` accepts; `u_k` is a
`Dependency` too, but `Factor("u0")` raises (product_series.py:112-128). -/
def Sym.fvar? : Sym → Option FVar
  | .x0 => some .x0
  | .y0 => some .y0
  | .var v => some (.v v)
  | _ => none

/-- `isinstance(symbol, Literal)` with mantissa and exponent. -/
def Sym.lit? : Sym → Option (Int × Int)
  | .lit m e => some (m, e)
  | _ => none

/-- What a bracket contributes (product_series.py:611-693): a multiplier of the mantissa, an
addend of the exponent, the variable and constant of the factor (if any), and whether the variable
carried an explicit sign index that is a `Subtraction`. -/
structure BrOut where
  m : Int
  e : Int
  var : Option FVar
  const : Option ℚ
  negVar : Bool
  deriving DecidableEq

/-- `sub_symbol_list.insert(0, Addition())` unless the list starts with an operator
(product_series.py:614-615). -/
def withOp (l : List Sym) : List Sym :=
  match l with
  | [] => []
  | t :: r => if t.isOp then t :: r else .add :: t :: r

/-- The value `mantissa * base ** exponent` of a literal (product_series.py:680-684). -/
def litVal (p : Int × Int) : ℚ := (p.1 : ℚ) * (2 : ℚ) ^ p.2

/-- The branch `len(sub_symbol_list) <= 2` for the single symbol after the operator
(product_series.py:620-642): a variable (whatever its sign), a literal that joins the scaling
factor, or anything else, which leaves no trace. -/
def bracketOne (op s : Sym) : BrOut :=
  match s with
  | .var v => ⟨1, 0, some (.v v), none, false⟩
  | .lit m e => ⟨m * op.sign, e, none, none, false⟩
  | _ => ⟨1, 0, none, none, false⟩

/-- The end of the branch for `[+,-]var[+,-]const` (product_series.py:667-689): a negative sign of
the variable is moved to the scaling factor. -/
def bracketTwo (sv : Sym) (v : FVar) (sc : Sym) (c : Int × Int) : BrOut :=
  ⟨sv.sign, 0, some v, some (litVal c * sc.sign * sv.sign), sv.isSub⟩

/-- The bracket branch of `_generate_product` (product_series.py:611-689); `none` for the
`IndexError`s of a list of length 1 or 3 and for the `ValueError`s. -/
def bracketOut (l : List Sym) : Option BrOut :=
  match withOp l with
  | [op, s] => some (bracketOne op s)
  | o0 :: s1 :: o2 :: s3 :: _ =>
    match s1.fvar?, s3.lit? with
    | some v, some c => some (bracketTwo o0 v o2 c)
    | _, _ =>
      match s3.fvar?, s1.lit? with
      | some v, some c => some (bracketTwo o2 v o0 c)
      | _, _ => none
  | _ => none

/-- Local variables of `_generate_product` together with `self._decimate_exponent`
(product_series.py:560-567). -/
structure PSt where
  dep : Option Dep
  dec : Option Nat
  m : Int
  e : Int
  factors : List Factor
  sdec : Option Nat
  deriving DecidableEq

/-- A spike dependency sets the dependency, or becomes a factor if it is set already
(product_series.py:592-596). -/
def PSt.addDep (st : PSt) (d : Dep) (f : FVar) : PSt :=
  match st.dep with
  | none => { st with dep := some d }
  | some _ => { st with factors := st.factors ++ [⟨f, none, false⟩] }

/-- `u_k` (product_series.py:578-591): all `k` in one series must agree; as a second dependency it
only sets the decimate exponent. -/
def PSt.addUk (st : PSt) (k : Nat) : Option PSt :=
  if st.sdec.all (· == k) then
    some { st with
      dec := some k
      sdec := some k
      dep := some (st.dep.getD .u) }
  else none

/-- Effects of a bracket's contribution for a `BracketExpression` (product_series.py:691-693). -/
def PSt.addBr (st : PSt) (o : BrOut) : PSt :=
  { st with
    m := st.m * o.m
    e := st.e + o.e
    factors := st.factors ++ (match o.var with
      | some v => [⟨v, o.const, false⟩]
      | none => []) }

/-- Effects for a `SgnExpression` (product_series.py:695-709). -/
def PSt.addSgn (st : PSt) (o : BrOut) : Option PSt :=
  match o.var with
  | some (.v v) =>
    if v.isSyn && !o.negVar then
      some { st with
        m := st.m * o.m
        e := st.e + o.e
        factors := st.factors ++ [⟨.v v, o.const, true⟩] }
    else none
  | _ => none

/-- One turn of the loop over the symbols of a product (product_series.py:569-714).  `mul` cannot
occur after `_separate_products`; the code raises for it. -/
def genStep (st : PSt) : Sym → Option PSt
  | .add => some st
  | .sub => some { st with m := st.m * -1 }
  | .uk k => st.addUk k
  | .x0 => some (st.addDep .x0 .x0)
  | .y0 => some (st.addDep .y0 .y0)
  | .lit m e => some { st with
      m := st.m * m
      e := st.e + e }
  | .var v => some { st with factors := st.factors ++ [⟨.v v, none, false⟩] }
  | .bracket l => (bracketOut l).map st.addBr
  | .sgn l => (bracketOut l).bind st.addSgn
  | .mul => none

/-- The normalisation loop (product_series.py:716-718).  The first argument bounds the number of
turns; every turn at least halves the mantissa, so `|m|` turns are always enough
(`normLoop_done`). -/
def normLoop : Nat → Int → Int → Int × Int
  | 0, m, e => (m, e)
  | n + 1, m, e =>
    if 7 < m.natAbs ∧ m % 2 = 0 ∧ e < 8 then normLoop n (m / 2) (e + 1) else (m, e)

/-- The normalisation with enough turns. -/
def normalise (m e : Int) : Int × Int := normLoop m.natAbs m e

/-- The end of `_generate_product` (product_series.py:720-743) with the validation in
`Product.__init__` (product_series.py:318-348). -/
def finish (st : PSt) : Option Product :=
  st.dep.bind fun d =>
    if -8 ≤ (normalise st.m st.e).1 ∧ (normalise st.m st.e).1 < 8 ∧
        -7 ≤ (normalise st.m st.e).2 ∧ (normalise st.m st.e).2 < 9 ∧
        (st.dec.isSome → d = .u) then
      some ⟨d, (normalise st.m st.e).1, (normalise st.m st.e).2 + 7, st.factors, st.dec⟩
    else none

/-- `_generate_product` (product_series.py:547-743); the state carries `self._decimate_exponent` to
the next product. -/
def genProduct (sdec : Option Nat) (syms : List Sym) : Option (Product × Option Nat) :=
  (syms.foldlM genStep ⟨none, none, 1, 0, [], sdec⟩).bind fun st =>
    (finish st).map fun p => (p, st.sdec)

/-- `_separate_products` (product_series.py:507-545): `cur` is `current_product`. -/
def separate (cur : List Sym) : List Sym → List (List Sym)
  | [] => [cur]
  | s :: r =>
    match s with
    | .mul => separate cur r
    | .add | .sub => if cur.isEmpty then separate (cur ++ [s]) r else cur :: separate [s] r
    | _ => separate (cur ++ [s]) r

/-- `_generate_product_list_from_symbol_list` (product_series.py:483-505). -/
def genProducts (sdec : Option Nat) : List (List Sym) → Option (List Product)
  | [] => some []
  | p :: r => (genProduct sdec p).bind fun q => (genProducts q.2 r).map (q.1 :: ·)

/-- `ProductSeries(SymbolicEquation(target, s)).products`
(learning_rule.py:635-658, product_series.py:391-401). -/
def compileRule (s : List Char) : Option (List Product) :=
  (symbolList s).bind fun l => genProducts none (separate [] l)

/-! ## Value of a product series -/

/-- Values of everything a rule can name.  `u k` is the value of the dependency `u_k`; `val d v` is
the value of variable `v` read for dependency `d` (traces are read at the spike time of the
product's dependency: `x1_x0`, `x1_y0`, `x1_u`; connection.py:474-525). -/
structure Env where
  x0 : ℚ
  y0 : ℚ
  u : Nat → ℚ
  val : Dep → V → ℚ

/-- `np.sign`. -/
def signQ (q : ℚ) : ℚ := if 0 < q then 1 else if q < 0 then -1 else 0

/-- Value of a state variable of a factor (learning_rule_applier.py:122-132, 212-229). -/
def Env.fvar (env : Env) (d : Dep) : FVar → ℚ
  | .x0 => env.x0
  | .y0 => env.y0
  | .v v => env.val d v

/-- Value of a dependency; `u` is the `u_k` of the product's decimate exponent
(connection.py:1485-1512). -/
def Env.dep (env : Env) (dec : Option Nat) : Dep → ℚ
  | .x0 => env.x0
  | .y0 => env.y0
  | .u => env.u (dec.getD 0)

/-- Value of a factor (learning_rule_applier.py:107-142): variable plus constant, wrapped in
`np.sign` for an sgn factor. -/
def Factor.eval (env : Env) (d : Dep) (f : Factor) : ℚ :=
  if f.isSgn then signQ (env.fvar d f.var + f.const.getD 0)
  else env.fvar d f.var + f.const.getD 0

/-- Value of a product: `(m) * 2. ** ((s_exp) - 7) * dep * factors`
(learning_rule_applier.py:74-97). -/
def Product.eval (env : Env) (p : Product) : ℚ :=
  (p.m : ℚ) * (2 : ℚ) ^ (p.sexp - 7) * env.dep p.dec p.dep *
    (p.factors.map (Factor.eval env p.dep)).prod

/-- Value of the series: the sum of its products (learning_rule_applier.py:99-105, 167-172). -/
def evalSeries (env : Env) (ps : List Product) : ℚ := (ps.map (Product.eval env)).sum

/-- `LearningRuleApplierFloat._build_applier_str` (learning_rule_applier.py:61-142): a factor that
is a spike dependency makes it raise. -/
def floatApplier (ps : List Product) : Option (Env → ℚ) :=
  if ps.all fun p => p.factors.all fun f => f.var != .x0 && f.var != .y0 then
    some fun env => evalSeries env ps
  else none

end Verif.Learning
