import Verif.Pause.Model
import Mathlib.Logic.Function.Iterate

/-!
# What the calls of the runtime should do, with continuous runs

A machine without services, channels and schedules. The only freedom is how many time steps a continuous run gets before it is paused.
-/

namespace Verif.Pause

variable {D : Type}

/-- The list of the data of `S` services. -/
def vec (S : Nat) (d : Nat → D) : List D := (List.range S).map d

/-- What is going on: nothing, a non-blocking run of some steps, a continuous run. -/
inductive Going where
  | off | steps | cont
deriving DecidableEq

/-- `Ref S tick d g st p rs`: a program `p`, with data `d` of the services, may return the results `rs`. `st` tells whether there was a run at all. For a continuous
run, `d` is the data at its start; when it is paused each service has done one step or more. -/
inductive Ref (S : Nat) (tick : Nat → D → D) : (Nat → D) → Going → Bool → List (Call D) → List (Res D) → Prop where
  | nil (d g st) : Ref S tick d g st [] []
  | run (d g st n b p rs) : Ref S tick (fun i => (tick i)^[n] (d i)) (if b then .off else .steps) true p rs →
      Ref S tick d g st (.run n b :: p) ((if b then .returned (vec S fun i => (tick i)^[n] (d i)) else .started) :: rs)
  | cont (d g st p rs) : Ref S tick d .cont true p rs → Ref S tick d g st (.cont :: p) (.started :: rs)
  | wait (d g st p rs) : Ref S tick d .off st p rs → Ref S tick d g st (.wait :: p) ((if g = .off then .nothing else .returned (vec S d)) :: rs)
  | pauseOff (d st p rs) : Ref S tick d .off st p rs → Ref S tick d .off st (.pause :: p) (.nothing :: rs)
  | pauseCont (d st p rs) (k : Nat → Nat) : (∀ i, 1 ≤ k i) → Ref S tick (fun i => (tick i)^[k i] (d i)) .off st p rs →
      Ref S tick d .cont st (.pause :: p) (.paused (vec S fun i => (tick i)^[k i] (d i)) :: rs)
  | get (d g st i p rs) : Ref S tick d g st p rs →
      Ref S tick d g st (.get i :: p) ((if g ≠ .off then .refused else if st then .value (d i) else .notStarted) :: rs)
  | set (d g st i v p rs) : Ref S tick (if g ≠ .off then d else if st then upd d i v else d) g st p rs →
      Ref S tick d g st (.set i v :: p) ((if g ≠ .off then .refused else if st then .setOk else .notStarted) :: rs)
  | stop (d g st p) : Ref S tick d g st (.stop :: p) [.stopped]

/-- Programs that use the calls as intended and stay clear of the findings below, and leave the runtime in a state `E`. `pz` tells whether a continuous run was paused
before. No run while one is going on; only continuous runs are paused or stopped; no wait for a continuous run; no run of given length after a pause; stop once, at
the end, after a run. -/
def ProperTo (S : Nat) (E : Going → Bool → Prop) : Going → Bool → Bool → List (Call D) → Prop
  | g, pz, _, [] => E g pz
  | g, pz, _, .run _ b :: p => g = .off ∧ pz = false ∧ ProperTo S E (if b then .off else .steps) pz true p
  | g, pz, _, .cont :: p => g = .off ∧ ProperTo S E .cont pz true p
  | g, pz, st, .wait :: p => g ≠ .cont ∧ ProperTo S E .off pz st p
  | g, pz, st, .pause :: p => g ≠ .steps ∧ ProperTo S E .off (pz || g = .cont) st p
  | g, pz, st, .get i :: p => i < S ∧ ProperTo S E g pz st p
  | g, pz, st, .set i _ :: p => i < S ∧ ProperTo S E g pz st p
  | g, _, st, .stop :: p => g ≠ .steps ∧ st = true ∧ p = []

/-- Programs that use the calls as intended. -/
def Proper (S : Nat) (p : List (Call D)) : Prop := ProperTo S (fun _ _ => True) .off false false p

end Verif.Pause
