import Verif.Host.Model
import Mathlib.Logic.Function.Iterate

/-!
# What the calls of the runtime should do

A sequential machine without services, channels and schedules.
-/

namespace Verif.Host

variable {D : Type}

/-- The list of the data of `S` services. -/
def vec (S : Nat) (d : Nat → D) : List D := (List.range S).map d

/-- Results of a program: `d` is the data of the services, `r` tells whether a non-blocking run is going on, `st` whether there
was a run at all. -/
def ref (S : Nat) (tick : Nat → D → D) : (Nat → D) → Bool → Bool → List (Call D) → List (Res D)
  | _, _, _, [] => []
  | d, _, _, .run n b :: p =>
    (if b then .returned (vec S fun i => (tick i)^[n] (d i)) else .started) ::
      ref S tick (fun i => (tick i)^[n] (d i)) (!b) true p
  | d, r, st, .wait :: p => (if r then .returned (vec S d) else .nothing) :: ref S tick d false st p
  | d, r, st, .get i :: p => (if r then .refused else if st then .value (d i) else .notStarted) :: ref S tick d r st p
  | d, r, st, .set i v :: p =>
    (if r then .refused else if st then .setOk else .notStarted) ::
      ref S tick (if r then d else if st then upd d i v else d) r st p
  | _, _, _, .stop :: _ => [.stopped]

/-- Programs that use the calls as intended: no run and no stop while a non-blocking run is going on (call wait before), stop
once, at the end, after a run. -/
def Proper (S : Nat) : Bool → Bool → List (Call D) → Prop
  | _, _, [] => True
  | r, _, .run _ b :: p => r = false ∧ Proper S (!b) true p
  | _, st, .wait :: p => Proper S false st p
  | r, st, .get i :: p => i < S ∧ Proper S r st p
  | r, st, .set i _ :: p => i < S ∧ Proper S r st p
  | r, st, .stop :: p => r = false ∧ st = true ∧ p = []

end Verif.Host
