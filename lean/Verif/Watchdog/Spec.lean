import Verif.Watchdog.Model
/-!
# What watchdogs are for

Statements about what is seen from outside: when port methods begin (`clear`) and end (`exit`), which messages are printed, when `stop` is called
and returns (`join`), how much time passes (`tick`).
-/

namespace Verif.Watchdog

/-- Time that passes in a part of an execution. -/
def ticks (l : List Act) : Nat := l.count .tick

/-- Messages about `w` in a part of an execution. -/
def messages (w : Nat) (l : List Act) : Nat := l.countP fun a => match a with
  | .print _ v => v = w
  | _ => false

/-- `l` contains an operation with watchdog `w` (up to its end, or the end of `l`) that lasts at least `d`. -/
def LongOp (w d : Nat) (l : List Act) : Prop :=
  ∃ a b c, l = a ++ .clear w :: (b ++ c) ∧ .clear w ∉ b ∧ .exit w ∉ b ∧ d ≤ ticks b

/-- What the monitor and its threads do by themselves. -/
def Own : Act → Prop
  | .take | .wait _ | .expire _ | .print _ _ | .join => True
  | _ => False

/-- The monitor and its threads are faster than a tick of the clock: time passes only when they all wait. -/
def Prompt (T : Nat) : St → List Act → Prop
  | _, [] => True
  | s, a :: l => (a = .tick → ∀ x, Own x → step T s x = none) ∧ ∀ s', step T s a = some s' → Prompt T s' l

end Verif.Watchdog
