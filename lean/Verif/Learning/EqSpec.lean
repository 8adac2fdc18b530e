import Verif.Learning.Equation

/-!
# Specification: the grammar of learning rules and its reading as arithmetic

This file does not mention the tokenizer or the product-series generator.  It says which strings
are learning rules (`Eqn.render`) and which number such a string denotes (`Eqn.value`).
-/

namespace Verif.Learning

/-- An explicit sign. -/
inductive Sg
  | plus | minus
  deriving DecidableEq, Repr

/-- Text of a sign. -/
def Sg.render : Sg → List Char
  | .plus => ['+']
  | .minus => ['-']

/-- `+1` or `-1`. -/
def Sg.val : Sg → ℚ
  | .plus => 1
  | .minus => -1

/-- Text of an optional sign. -/
def optSgRender : Option Sg → List Char
  | none => []
  | some s => s.render

/-- A missing sign is a plus. -/
def optSgVal : Option Sg → ℚ
  | none => 1
  | some s => s.val

/-- Literals `x`, `2^y`, `x*2^y`, where `x` is a run of digits and `y` an optionally signed one. -/
inductive Lit
  | int (ds : List Char)
  | pow (s : Option Sg) (es : List Char)
  | mp (ds : List Char) (s : Option Sg) (es : List Char)
  deriving DecidableEq, Repr

/-- Text of a literal. -/
def Lit.render : Lit → List Char
  | .int ds => ds
  | .pow s es => '2' :: '^' :: (optSgRender s ++ es)
  | .mp ds s es => ds ++ '*' :: '2' :: '^' :: (optSgRender s ++ es)

/-- `2` to an optionally signed integer. -/
def twoPow (s : Option Sg) (n : Nat) : ℚ :=
  match s with
  | some .minus => 1 / 2 ^ n
  | _ => 2 ^ n

/-- The number a literal denotes. -/
def Lit.value : Lit → ℚ
  | .int ds => (digitsVal ds : ℚ)
  | .pow s es => twoPow s (digitsVal es)
  | .mp ds s es => (digitsVal ds : ℚ) * twoPow s (digitsVal es)

/-- A run of digits that Python reads as a decimal integer: non-empty, no redundant leading zero. -/
def okDigits (ds : List Char) : Prop :=
  ds ≠ [] ∧ (∀ c ∈ ds, c.isDigit = true) ∧ (ds.head? = some '0' → ds = ['0'])

/-- The digit runs of a literal are well formed. -/
def Lit.ok : Lit → Prop
  | .int ds => okDigits ds
  | .pow _ es => okDigits es
  | .mp ds _ es => okDigits ds ∧ okDigits es

/-- Text of a variable. -/
def V.render : V → List Char
  | .x1 => ['x', '1']
  | .x2 => ['x', '2']
  | .y1 => ['y', '1']
  | .y2 => ['y', '2']
  | .y3 => ['y', '3']
  | .w => ['w']
  | .d => ['d']
  | .t => ['t']

/-- Text of a variable or spike dependency. -/
def FVar.render : FVar → List Char
  | .x0 => ['x', '0']
  | .y0 => ['y', '0']
  | .v a => a.render

/-- What may stand between brackets: a variable, a literal, or the sum or difference of a
variable and a literal in either order. -/
inductive Br
  | var (s : Option Sg) (v : V)
  | lit (s : Option Sg) (l : Lit)
  | varLit (s : Option Sg) (v : FVar) (s2 : Sg) (l : Lit)
  | litVar (s : Option Sg) (l : Lit) (s2 : Sg) (v : FVar)
  deriving DecidableEq, Repr

/-- Text between the brackets. -/
def Br.render : Br → List Char
  | .var s v => optSgRender s ++ v.render
  | .lit s l => optSgRender s ++ l.render
  | .varLit s v s2 l => optSgRender s ++ v.render ++ s2.render ++ l.render
  | .litVar s l s2 v => optSgRender s ++ l.render ++ s2.render ++ v.render

/-- The number the bracket denotes, with variables read for dependency `d`. -/
def Br.value (env : Env) (d : Dep) : Br → ℚ
  | .var s v => optSgVal s * env.val d v
  | .lit s l => optSgVal s * l.value
  | .varLit s v s2 l => optSgVal s * env.fvar d v + s2.val * l.value
  | .litVar s l s2 v => optSgVal s * l.value + s2.val * env.fvar d v

/-- Literals inside the bracket are well formed. -/
def Br.ok : Br → Prop
  | .var _ _ => True
  | .lit _ l => l.ok
  | .varLit _ _ _ l => l.ok
  | .litVar _ l _ _ => l.ok

/-- Atoms of a product. -/
inductive Atom
  | x0 | y0
  | u (k : Char)
  | var (v : V)
  | lit (l : Lit)
  | br (b : Br)
  | sgn (b : Br)
  deriving DecidableEq, Repr

/-- Text of an atom. -/
def Atom.render : Atom → List Char
  | .x0 => ['x', '0']
  | .y0 => ['y', '0']
  | .u k => ['u', k]
  | .var v => v.render
  | .lit l => l.render
  | .br b => '(' :: (b.render ++ [')'])
  | .sgn b => 's' :: 'g' :: 'n' :: '(' :: (b.render ++ [')'])

/-- The number an atom denotes, with variables read for dependency `d`. -/
def Atom.value (env : Env) (d : Dep) : Atom → ℚ
  | .x0 => env.x0
  | .y0 => env.y0
  | .u k => env.u (digitsVal [k])
  | .var v => env.val d v
  | .lit l => l.value
  | .br b => b.value env d
  | .sgn b => signQ (b.value env d)

/-- The atom is well formed: its digits are digits. -/
def Atom.ok : Atom → Prop
  | .u k => k.isDigit = true
  | .lit l => l.ok
  | .br b => b.ok
  | .sgn b => b.ok
  | _ => True

/-- The form whose sign the code loses (finding; see `C55_bracketed_negation_loses_sign`): a lone
negated variable between brackets. -/
def Br.loneNeg : Br → Bool
  | .var (some .minus) _ => true
  | _ => false

/-- The atom is not one of the two forms `(-v)`, `sgn(-v)`. -/
def Atom.signKept : Atom → Bool
  | .br b => !b.loneNeg
  | .sgn b => !b.loneNeg
  | _ => true

/-- `3` followed by `2^4` is the text `3*2^4`, which is already the text of one literal; a list of
atoms is canonical if it does not write that literal as two atoms.  Every text has a canonical
list. -/
def canonical : List Atom → Prop
  | .lit (.int _) :: .lit (.pow _ _) :: _ => False
  | _ :: r => canonical r
  | [] => True

/-- A product: atoms joined by `*`. -/
def renderAtoms : List Atom → List Char
  | [] => []
  | [a] => a.render
  | a :: r => a.render ++ '*' :: renderAtoms r

/-- The dependency a product is conditioned on: its first `x0`, `y0` or `u_k` outside brackets. -/
def firstDep : List Atom → Option Dep
  | [] => none
  | .x0 :: _ => some .x0
  | .y0 :: _ => some .y0
  | .u _ :: _ => some .u
  | _ :: r => firstDep r

/-- The number a product denotes; its variables are read for the dependency the product is
conditioned on (a product without one is rejected by the code, so the default is immaterial). -/
def atomsValue (env : Env) (as : List Atom) : ℚ :=
  (as.map (Atom.value env ((firstDep as).getD .x0))).prod

/-- A learning rule: an optionally signed product followed by signed products. -/
structure Eqn where
  sign : Option Sg
  head : List Atom
  tail : List (Sg × List Atom)

/-- Text of the signed products after the first. -/
def renderTail : List (Sg × List Atom) → List Char
  | [] => []
  | (s, as) :: r => s.render ++ renderAtoms as ++ renderTail r

/-- Text of a rule, without spaces. -/
def Eqn.render (q : Eqn) : List Char :=
  optSgRender q.sign ++ renderAtoms q.head ++ renderTail q.tail

/-- The number a rule denotes. -/
def Eqn.value (env : Env) (q : Eqn) : ℚ :=
  optSgVal q.sign * atomsValue env q.head +
    (q.tail.map fun p => p.1.val * atomsValue env p.2).sum

/-- A product is well formed. -/
def okAtoms (as : List Atom) : Prop := as ≠ [] ∧ (∀ a ∈ as, a.ok) ∧ canonical as

/-- A rule is well formed. -/
def Eqn.ok (q : Eqn) : Prop := okAtoms q.head ∧ ∀ p ∈ q.tail, okAtoms p.2

/-- No lone negated variable between brackets occurs in the rule. -/
def Eqn.signKept (q : Eqn) : Prop :=
  (∀ a ∈ q.head, a.signKept = true) ∧ ∀ p ∈ q.tail, ∀ a ∈ p.2, a.signKept = true

end Verif.Learning
