/-!
# Networks whose processes may choose

As in `Verif.System.Model` a running program is a set of sequential processes that communicate over bounded first-in-first-out channels with
one sender and one receiver each. Here a process may have several next actions to choose from: a process model that owns a
VarPort waits with `CspSelector.select` for a command of its runtime service or a request of a RefPort, whichever comes first
(core/model/py/model.py:236-238; pypychannel.py:334-352). Which one it takes depends on timing; here it is a choice of the scheduler.

An action is: receive one message or none, then go to another state and send one message or none.
-/

namespace Verif.RefAccess

/-- Update of one entry. -/
def put {α β : Type} [DecidableEq α] (f : α → β) (a : α) (b : β) : α → β := fun x => if x = a then b else f x

/-- A possible action. `C` are the channels, `Q` the states of processes, `M` the messages. -/
inductive Act (C Q M : Type) where
  /-- no such action -/
  | none
  /-- new state and, possibly, a message to be sent on a channel -/
  | go (r : Q × Option (C × M))
  /-- receive on channel `c`, then do the same -/
  | recv (c : C) (k : M → Q × Option (C × M))

/-- `view p q a`: the action number `a` of process `p` in state `q`. -/
structure Net (C Q M : Type) where
  view : Nat → Q → Nat → Act C Q M
  cap : C → Nat

/-- States of all processes, messages in all channels. -/
structure St (C Q M : Type) where
  q : Nat → Q
  chan : C → List M

variable {C Q M : Type} [DecidableEq C]

/-- Process `p` goes to a new state and sends. -/
def finish (n : Net C Q M) (s : St C Q M) (p : Nat) (r : Q × Option (C × M)) : Option (St C Q M) :=
  match r.2 with
  | .none => some ⟨put s.q p r.1, s.chan⟩
  | .some (c, v) => if (s.chan c).length < n.cap c then some ⟨put s.q p r.1, put s.chan c (s.chan c ++ [v])⟩ else .none

/-- One step: process `l.1` does its action number `l.2`; `none` if it cannot. -/
def step (n : Net C Q M) (s : St C Q M) (l : Nat × Nat) : Option (St C Q M) :=
  match n.view l.1 (s.q l.1) l.2 with
  | .none => .none
  | .go r => finish n s l.1 r
  | .recv c k =>
    match s.chan c with
    | [] => .none
    | v :: rest => finish n ⟨s.q, put s.chan c rest⟩ l.1 (k v)

/-- A schedule: who tries to do what. What is not possible is skipped. -/
def exec (n : Net C Q M) (s : St C Q M) : List (Nat × Nat) → St C Q M
  | [] => s
  | l :: ls => exec n ((step n s l).getD s) ls

/-- Nobody can do anything. -/
def Stuck (n : Net C Q M) (s : St C Q M) : Prop := ∀ l, step n s l = .none

/-- Channels have one sender and one receiver (pypychannel.py:355-405): in state `s` whoever is at an operation on a channel is its
sender (`w`) or receiver (`r`). -/
structure OwnedAt (n : Net C Q M) (w r : C → Nat) (s : St C Q M) : Prop where
  send : ∀ p a x c v, n.view p (s.q p) a = .go (x, .some (c, v)) → w c = p
  recv : ∀ p a c k, n.view p (s.q p) a = .recv c k → r c = p
  reply : ∀ p a c k v x c' v', n.view p (s.q p) a = .recv c k → k v = (x, .some (c', v')) → w c' = p

end Verif.RefAccess
