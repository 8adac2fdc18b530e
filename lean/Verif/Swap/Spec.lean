import Verif.Wired.Theorems
import Verif.Snn.Spec

/-!
# Reference: process models that cannot be told apart

Two process models match if, fed with the same data in every time step, they send the same data, ask for the same management phases, and show the same values of the Vars that a program reads; and if a
program's writes keep it so. Nothing is said about how they store their Vars: their Vars may have values in different types.
-/

namespace Verif.Swap.Spec

open Verif.Wired (PM POp Platform)
open Verif.Wired.Spec (after)
open Verif.EndToEnd (Call)

variable {S S' V W : Type}

/-- `R` relates values of the Vars of two process models between phases. `rd x`: Var `x` may be read, `wr x`: it may be written. -/
structure Matches (P : PM S V W) (P' : PM S' V W) (rd wr : Nat → Prop) (R : S → S' → Prop) : Prop where
  /-- the ports are used in the same order -/
  ops : P'.ops = P.ops
  init : R P.init P'.init
  /-- in a time step the same is sent as long as the same is received -/
  sends : ∀ s s' (inp : String → V) l y r, R s s' → P.ops = l ++ .send y :: r →
    P'.value (after P' inp l (P'.start s')) y = P.value (after P inp l (P.start s)) y
  step : ∀ s s' (inp : String → V), R s s' → R (P.finish (after P inp P.ops (P.start s))) (P'.finish (after P' inp P'.ops (P'.start s')))
  pre : ∀ s s', R s s' → P'.preGuard s' = P.preGuard s ∧ R (P.runPre s) (P'.runPre s')
  lrn : ∀ s s', R s s' → P'.lrnGuard s' = P.lrnGuard s ∧ R (P.runLrn s) (P'.runLrn s')
  post : ∀ s s', R s s' → P'.postGuard s' = P.postGuard s ∧ R (P.runPost s) (P'.runPost s')
  read : ∀ x, rd x → P'.vsize x = P.vsize x ∧ ∀ s s' j, R s s' → P'.peek s' x j = P.peek s x j
  write : ∀ x, wr x → P'.vsize x = P.vsize x ∧ ∀ s s' j w, R s s' → R (P.poke s x j w) (P'.poke s' x j w)
  updated : ∀ s s', R s s' → R (P.updated s) (P'.updated s')

/-- A program reads and writes only the given Vars. -/
def Within (rd wr : Nat → Nat → Prop) (prog : List (Call W)) : Prop :=
  (∀ p x, .get p x ∈ prog → rd p x) ∧ ∀ p x ws, .set p x ws ∈ prog → wr p x

/-- The same processes share a runtime service. -/
def SameServices (x : Platform S V W) (x' : Platform S' V W) : Prop :=
  x'.n = x.n ∧ ∀ p q, p < x.n → q < x.n → (x'.svc p = x'.svc q ↔ x.svc p = x.svc q)

end Verif.Swap.Spec
