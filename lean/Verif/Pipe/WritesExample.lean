import Verif.Pipe.Writes
import Verif.Sdnn.Example

/-!
# C122: an example

The sigma-delta network of the example of C120; `Sigma` (process 5) is reset after four steps.
-/

namespace Verif.Sdnn

open Verif.EndToEnd (Call)
open Verif.Snn (platform)
open Verif.Snn.Spec (Gives)
open Verif.Swap.Spec (stateAt)
open Verif.Trains.Spec (shownWith writes stateWith oneStep overwrite)
open Verif.Pipe.Spec (incomingWith)
open Verif.Wired.Spec (Proper)

/-- Without writes this is `stateAt`. -/
theorem stateWith_nothing {X V W : Type} (P : Snn.Proc X V W) (a : Nat → V) : ∀ t, stateWith P (fun _ => []) a t = stateAt P a t
  | 0 => rfl
  | t + 1 => by
    unfold stateWith stateAt oneStep
    rw [stateWith_nothing P a t]
    cases P.kind <;> rfl

def exWrites : List (Call ℚ) := [.set 5 0 [7], .run 4, .get 5 0, .set 5 0 [1], .get 5 0, .run 4, .get 6 0, .get 5 0]

theorem exWrites_proper (P : Nat → Snn.Proc SVars (Nat → ℚ) ℚ) (h : (P 5).pm.vsize 0 = 1) : Proper 7 (fun p => (P p).pm) exWrites where
  gets := by
    intro p x hm
    simp only [exWrites, List.mem_cons, Call.get.injEq, List.not_mem_nil, or_false, reduceCtorEq, false_or] at hm
    omega
  sets := by
    intro p x ws hm
    simp only [exWrites, List.mem_cons, Call.set.injEq, List.not_mem_nil, or_false, reduceCtorEq, false_or] at hm
    rcases hm with ⟨rfl, rfl, rfl⟩ | ⟨rfl, rfl, rfl⟩ <;> exact ⟨by decide, by rw [h]; decide⟩
  runs := ⟨4, by simp [exWrites]⟩

/-- **C122, example.** `set` before the first `run` is refused; after four steps the sum 45/4 of `Sigma` is replaced by 1, and as the input does not change any more, 1 is recorded from then on. -/
theorem C122_example :
    Gives (platform 7 (chain 1 exLay 8 8 exData) 2 (fun p => p % 2) exPms fun _ => 1) exBuilders exWrites
      [.notStarted, .ran, .value [45 / 4], .wasSet, .value [1], .ran, .value [0, 0, 0, 45 / 4, 1, 1, 1, 1], .value [1], .stopped] := by
  have h := Pipe.C122_chain 50 exCalls 7 (chain 1 exLay 8 8 exData) 2 _ _ _ _ _ _ _ _ _ (ex_deployed _ (ex_kind 8)) (ex_chain _ (ex_kind 8)) exWrites (exWrites_proper _ rfl)
  have e : shownWith (chain 1 exLay 8 8 exData) (incomingWith (chain 1 exLay 8 8 exData) (writes exWrites)) [] exWrites =
      [.notStarted, .ran, .value [45 / 4], .wasSet, .value [1], .ran, .value [0, 0, 0, 45 / 4, 1, 1, 1, 1], .value [1], .stopped] := by decide +kernel
  rw [e] at h
  exact h

end Verif.Sdnn
