import Verif.Events.Model

/-!
# What the calls should do when process models request a pause or stop, or raise exceptions

One runtime service, that is one synchronous network of processes. `tick d = some (d', e)`: in a time step the data of the process models changes from `d` to `d'` and they
do `e`.
-/

namespace Verif.Events

variable {D : Type}

/-- `k` time steps lead from `d` to `d'`, and in none of them there is a request or exception. -/
inductive Quietly (tick : D → Option (D × Ev)) : Nat → D → D → Prop where
  | zero (d) : Quietly tick 0 d d
  | succ (k d d1 d2) : Quietly tick k d d1 → tick d1 = some (d2, ⟨false, false, 0⟩) → Quietly tick (k + 1) d d2

/-- How a run ends. -/
inductive End (D : Type) where
  /-- it did all its steps -/
  | done (d : D)
  /-- a pause was requested; `stop` tells whether a stop was requested as well, `last` whether this was in the last step -/
  | paused (d : D) (stop last : Bool)
  | stopped (d : D) (last : Bool)
  /-- so many process models raised an exception -/
  | raised (c : Nat)

/-- A run of `n` steps, endless for `none`, ends with the first step in which there is a request or exception. -/
inductive Ends (tick : D → Option (D × Ev)) (n : Option Nat) (d : D) : End D → Prop where
  | done (m d') : n = some m → Quietly tick m d d' → Ends tick n d (.done d')
  | paused (k d1 d2 e) : (∀ m, n = some m → k < m) → Quietly tick k d d1 → tick d1 = some (d2, e) → e.errs = 0 → e.pause = true →
      Ends tick n d (.paused d2 e.stop (n = some (k + 1)))
  | stopped (k d1 d2 e) : (∀ m, n = some m → k < m) → Quietly tick k d d1 → tick d1 = some (d2, e) → e.errs = 0 → e.pause = false → e.stop = true →
      Ends tick n d (.stopped d2 (n = some (k + 1)))
  | raised (k d1 d2 e) : (∀ m, n = some m → k < m) → Quietly tick k d d1 → tick d1 = some (d2, e) → e.errs ≠ 0 → Ends tick n d (.raised e.errs)

/-- The situation of the user between two calls. -/
inductive Abs (D : Type) where
  /-- nothing is going on; `ps`: a stop was requested together with a pause and is still pending; `st`: there was a run -/
  | idle (d : D) (ps st : Bool)
  /-- a non-blocking run was started -/
  | going (n : Option Nat) (d : D) (ps : Bool)
  /-- stopped -/
  | over
  /-- after an exception -/
  | broken

/-- Result and situation after a run; no situation after a RuntimeError for an unexpected response. -/
inductive Fin (tick : D → Option (D × Ev)) (n : Option Nat) (d : D) : Bool → Res D → Option (Abs D) → Prop where
  | pending : Fin tick n d true .stopped (some .over)
  | pendingRace : n = some 0 → Fin tick n d true .protocol none
  | done (d') : Ends tick n d (.done d') → Fin tick n d false (.returned [d']) (some (.idle d' false true))
  | paused (d' s l) : Ends tick n d (.paused d' s l) → Fin tick n d false (.returned [d']) (some (.idle d' s true))
  | pausedRace (d' s) : Ends tick n d (.paused d' s true) → Fin tick n d false .protocol none
  | stopped (d' l) : Ends tick n d (.stopped d' l) → Fin tick n d false .stopped (some .over)
  | stoppedRace (d') : Ends tick n d (.stopped d' true) → Fin tick n d false .protocol none
  | raised (c) : Ends tick n d (.raised c) → Fin tick n d false (.raised c) (some .broken)

/-- `Ref tick a p rs`: in situation `a`, the calls `p` may give the results `rs`, of which there are fewer if a call does not return. -/
inductive Ref (tick : D → Option (D × Ev)) : Abs D → List (Call D) → List (Res D) → Prop where
  | nil (a p) : Ref tick a p []
  | run (d ps st n p r a rs) : Fin tick (some n) d ps r (some a) → Ref tick a p rs → Ref tick (.idle d ps st) (.run n true :: p) (r :: rs)
  | runFail (d ps st n p) : Fin tick (some n) d ps .protocol none → Ref tick (.idle d ps st) (.run n true :: p) [.protocol]
  | start (d ps st n p rs) : Ref tick (.going (some n) d ps) p rs → Ref tick (.idle d ps st) (.run n false :: p) (.started :: rs)
  | cont (d ps st p rs) : Ref tick (.going none d ps) p rs → Ref tick (.idle d ps st) (.cont :: p) (.started :: rs)
  | wait (n d ps p r a rs) : Fin tick n d ps r (some a) → Ref tick a p rs → Ref tick (.going n d ps) (.wait :: p) (r :: rs)
  | waitFail (n d ps p) : Fin tick n d ps .protocol none → Ref tick (.going n d ps) (.wait :: p) [.protocol]
  | waitIdle (d ps st p rs) : Ref tick (.idle d ps st) p rs → Ref tick (.idle d ps st) (.wait :: p) (.nothing :: rs)
  | pauseIdle (d ps st p rs) : Ref tick (.idle d ps st) p rs → Ref tick (.idle d ps st) (.pause :: p) (.nothing :: rs)
  | get (d ps st p rs) : Ref tick (.idle d ps st) p rs → Ref tick (.idle d ps st) (.get 0 :: p) ((if st then .value d else .notStarted) :: rs)
  | set (d ps st v p rs) : Ref tick (.idle (if st then v else d) ps st) p rs →
      Ref tick (.idle d ps st) (.set 0 v :: p) ((if st then .setOk else .notStarted) :: rs)
  | getGoing (n d ps p rs) : Ref tick (.going n d ps) p rs → Ref tick (.going n d ps) (.get 0 :: p) (.refused :: rs)
  | setGoing (n d ps v p rs) : Ref tick (.going n d ps) p rs → Ref tick (.going n d ps) (.set 0 v :: p) (.refused :: rs)
  | stop (d ps p rs) : Ref tick .over p rs → Ref tick (.idle d ps true) (.stop :: p) (.stopped :: rs)
  | overGet (p rs) : Ref tick .over p rs → Ref tick .over (.get 0 :: p) (.notStarted :: rs)
  | overSet (v p rs) : Ref tick .over p rs → Ref tick .over (.set 0 v :: p) (.notStarted :: rs)
  | overWait (p rs) : Ref tick .over p rs → Ref tick .over (.wait :: p) (.nothing :: rs)
  | overPause (p rs) : Ref tick .over p rs → Ref tick .over (.pause :: p) (.nothing :: rs)
  | overStop (p rs) : Ref tick .over p rs → Ref tick .over (.stop :: p) (.stopped :: rs)
  | overStart (n p rs) : Ref tick .broken p rs → Ref tick .over (.run n false :: p) (.started :: rs)
  | overCont (p rs) : Ref tick .broken p rs → Ref tick .over (.cont :: p) (.started :: rs)
  | brokenGet (p rs) : Ref tick .broken p rs → Ref tick .broken (.get 0 :: p) (.refused :: rs)
  | brokenSet (v p rs) : Ref tick .broken p rs → Ref tick .broken (.set 0 v :: p) (.refused :: rs)
  | brokenStart (n p rs) : Ref tick .broken p rs → Ref tick .broken (.run n false :: p) (.started :: rs)
  | brokenCont (p rs) : Ref tick .broken p rs → Ref tick .broken (.cont :: p) (.started :: rs)

/-- Programs that, while a non-blocking run is going on, do nothing but read, write and wait. -/
def Proper : Bool → List (Call D) → Prop
  | _, [] => True
  | g, .run _ b :: p => g = false ∧ Proper (!b) p
  | g, .cont :: p => g = false ∧ Proper true p
  | _, .wait :: p => Proper false p
  | g, .pause :: p => g = false ∧ Proper false p
  | g, .get i :: p => i = 0 ∧ Proper g p
  | g, .set i _ :: p => i = 0 ∧ Proper g p
  | g, .stop :: p => g = false ∧ Proper false p

end Verif.Events
