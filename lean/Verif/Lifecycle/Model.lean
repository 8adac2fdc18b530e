import Verif.Graphs.Expand
import Verif.Graphs.Props

/-!
# Model of the life of a process: compile once, then control one run

`src/lava/magma/core/process/process.py:320-440` (`run`, `create_runtime`, `compile`, `wait`, `pause`, `stop`),
`src/lava/magma/compiler/compiler_graphs.py:621-651` (the start of compilation), `src/lava/magma/compiler/executable.py:48-50`,
`src/lava/magma/runtime/runtime.py:158-177, 410-447` (`initialize`, `start`).

Processes and runtimes are numbers. What a runtime does with the calls that reach it is the subject of C06, C80, C89-C91; here a runtime is
the list of calls that have reached it.
-/

namespace Verif.Lifecycle

open Verif.Graphs (findProcs mapProcs Sel Conn Inside HasSub)

/-- A `RunConfig` with all that decides how compilation of a network under it ends. -/
structure Cfg where
  /-- names of process classes, see `Graphs.mapProcs` -/
  cls : Nat → String
  /-- the selected process models (C32), with the sub processes their SubProcessModels construct -/
  sel : Nat → Sel Nat
  /-- connections made by the constructors of the SubProcessModels -/
  wire : Nat → List Nat
  /-- whether everything after the selection of process models succeeds (compiler.py:138-195) -/
  compiles : Bool
  /-- whether every process model and runtime service is built without an exception (runtime.py:158-177) -/
  builds : Bool

/-- A call that reaches a `Runtime`: `start(condition)`, `wait()`, `pause()`, `stop()`. -/
inductive Cmd where
  | run (cond : Nat)
  | wait
  | pause
  | stop
deriving DecidableEq, Repr

/-- A `Runtime`: the leaf processes it executes (`executable.process_list`), `_is_initialized`, and the calls that have reached it. -/
structure Rt where
  members : List Nat
  ready : Bool
  cmds : List Cmd
deriving DecidableEq, Repr

/-- All processes: the processes at the other ends of their ports, `_is_compiled`, `_runtime` (index into `rts`). -/
structure W where
  nbrs : Nat → List Nat
  compiled : Nat → Bool
  rt : Nat → Option Nat
  rts : List Rt

/-- A call by the user. `connect a b` connects some port of `a` with some port of `b`. -/
inductive Call where
  | run (p : Nat) (cond : Nat) (cfg : Option Cfg)
  | wait (p : Nat)
  | pause (p : Nat)
  | stop (p : Nat)
  | connect (a b : Nat)

/-- What the user sees of a call: an exception, or a normal return. `told r` and `ignored` both are normal returns; the second did
nothing. -/
inductive Out where
  | told (r : Nat)
  | ignored
  /-- ValueError("run_cfg must not be None …") -/
  | noConfig
  /-- ProcessAlreadyCompiled -/
  | already (p : Nat)
  /-- any exception later in `compile` (no process model, RecursionError, …) -/
  | compileError
  /-- an exception while process models are built, raised again by `Runtime.initialize` -/
  | buildError
deriving DecidableEq, Repr

/-- `Runtime.start` (runtime.py:410-447) and the other calls on a runtime that exists. -/
def tell (w : W) (r : Nat) (c : Cmd) : W × Out :=
  match w.rts[r]? with
  | none => (w, .ignored)
  | some x =>
    match c, x.ready with
    | .run _, false => (w, .ignored)
    | _, _ => ({ w with rts := w.rts.set r { x with cmds := x.cmds ++ [c] } }, .told r)

/-- The loop that marks the processes of the network (compiler_graphs.py:631-633). -/
def mark (compiled : Nat → Bool) : List Nat → (Nat → Bool) × Option Nat
  | [] => (compiled, none)
  | p :: l => if compiled p then (compiled, some p) else mark (fun q => if q = p then true else compiled q) l

/-- `Compiler.compile` (compiler.py:110-195) as far as it concerns the flags of the processes: the world afterwards, and the leaf processes
or the exception. `ord` is the iteration order of Python sets, `lim` the recursion limit. -/
def compile (ord : List Nat → List Nat) (lim : Nat) (w : W) (p : Nat) (cfg : Cfg) : W × (Out ⊕ List Nat) :=
  match findProcs w.nbrs ord lim p [] with
  | none => (w, .inl .compileError)
  | some (_, found) =>
    match mark w.compiled found with
    | (c, some q) => ({ w with compiled := c }, .inl (.already q))
    | (c, none) =>
      match mapProcs cfg.cls cfg.sel lim found (fun _ => none) with
      | none => ({ w with compiled := c }, .inl .compileError)
      | some e =>
        let w := { w with compiled := c, nbrs := fun q => if q ∈ e.elab_ then w.nbrs q ++ cfg.wire q else w.nbrs q }
        if cfg.compiles then (w, .inr (e.map.map Prod.fst)) else (w, .inl .compileError)

/-- `create_runtime` (process.py:367-393): `_runtime` of `p` and of all leaf processes is the new runtime, even if it cannot be
initialized. -/
def createRuntime (ord : List Nat → List Nat) (lim : Nat) (w : W) (p : Nat) (cfg : Cfg) : W × Option Out :=
  match compile ord lim w p cfg with
  | (w, .inl e) => (w, some e)
  | (w, .inr leaves) =>
    ({ w with rts := w.rts ++ [{ members := leaves, ready := cfg.builds, cmds := [] }],
              rt := fun q => if q = p ∨ q ∈ leaves then some w.rts.length else w.rt q },
     if cfg.builds then none else some .buildError)

/-- One call. `run` (process.py:359-365), `wait`, `pause`, `stop` (process.py:414-440). -/
def call (ord : List Nat → List Nat) (lim : Nat) (w : W) : Call → W × Out
  | .run p cond cfg =>
    match w.rt p with
    | some r => tell w r (.run cond)
    | none =>
      match cfg with
      | none => (w, .noConfig)
      | some cfg =>
        match createRuntime ord lim w p cfg with
        | (w, some e) => (w, e)
        | (w, none) =>
          match w.rt p with
          | some r => tell w r (.run cond)
          | none => (w, .ignored)
  | .wait p => match w.rt p with
    | some r => tell w r .wait
    | none => (w, .ignored)
  | .pause p => match w.rt p with
    | some r => tell w r .pause
    | none => (w, .ignored)
  | .stop p => match w.rt p with
    | some r => tell w r .stop
    | none => (w, .ignored)
  | .connect a b =>
    ({ w with nbrs := fun q => if q = a then w.nbrs q ++ [b] else if q = b then w.nbrs q ++ [a] else w.nbrs q }, .ignored)

/-- The world after a sequence of calls; exceptions are caught by the user. -/
def after (ord : List Nat → List Nat) (lim : Nat) (w : W) (h : List Call) : W := h.foldl (fun w c => (call ord lim w c).1) w

/-- Before any call. -/
def fresh (nbrs : Nat → List Nat) : W := { nbrs := nbrs, compiled := fun _ => false, rt := fun _ => none, rts := [] }

end Verif.Lifecycle
