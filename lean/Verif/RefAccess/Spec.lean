import Verif.RefAccess.Model

/-!
# Specification: when accesses are disciplined, and what a run then computes

`Tidy` says what a user has to keep to. `runAll` is the reference: one thing after the other, every access to a Var of
another process done at once. It knows no channels of RefPorts, no commands and no service.
-/

namespace Verif.RefAccess

open Verif.EndToEnd (Phase Flags noFlags nextPhase)

variable {S V : Type}

/-- Management phases: the phases of a time step in which RefPorts may be used. -/
def mgmt : Phase → Bool
  | .pre => true
  | .post => true
  | _ => false

/-- A program of model `i` uses the ports of its own process only. `cs c`, `cd c`: the models with the OutPort and the InPort of channel `c`;
`W e`: RefPort `e` is used for writing. -/
def Prog.Own (y : Sys S V) (cs cd : Nat → Nat) (W : Nat → Prop) (i : Nat) : Prog S V → Prop
  | .ret _ => True
  | .read e k => e < y.ne ∧ y.src e = i ∧ ∀ v, (k v).Own y cs cd W i
  | .write e _ k => e < y.ne ∧ y.src e = i ∧ W e ∧ k.Own y cs cd W i
  | .send c _ k => cs c = i ∧ k.Own y cs cd W i
  | .recv c k => cd c = i ∧ ∀ v, (k v).Own y cs cd W i

/-- It uses no RefPort. -/
def Prog.NoRef : Prog S V → Prop
  | .ret _ => True
  | .read _ _ => False
  | .write _ _ _ => False
  | .send _ _ k => k.NoRef
  | .recv _ k => ∀ v, (k v).NoRef

/-- It waits (`wait` or `read` on the same RefPort) after every write before it returns. `pend`: RefPorts with a write not waited for. -/
def Prog.Waits (pend : Nat → Prop) : Prog S V → Prop
  | .ret _ => ∀ e, ¬ pend e
  | .read e k => ∀ v, (k v).Waits (fun x => pend x ∧ x ≠ e)
  | .write e _ k => k.Waits (fun x => pend x ∨ x = e)
  | .send _ _ k => k.Waits pend
  | .recv _ k => ∀ v, (k v).Waits pend

/-- What model `i` has to do in a phase: the method of the phase, if its guard says so. -/
def duty (y : Sys S V) (ph : Phase) (i : Nat) (s : S) : Prog S V :=
  match ph with
  | .spk => y.spk i s
  | .pre => cond (y.preGuard i s) (y.pre i s) (.ret s)
  | .lrn => cond (y.lrnGuard i s) (y.lrn i s) (.ret s)
  | .post => cond (y.postGuard i s) (y.post i s) (.ret s)
  | .host => .ret s

/-- Disciplined use of RefPorts. -/
structure Tidy (y : Sys S V) (cs cd : Nat → Nat) (W : Nat → Prop) : Prop where
  some_model : 0 < y.n
  src_lt : ∀ e, e < y.ne → y.src e < y.n
  dst_lt : ∀ e, e < y.ne → y.dst e < y.n
  room : ∀ c, 1 ≤ y.cap c
  /-- everybody uses its own ports -/
  own : ∀ i ph s, (duty y ph i s).Own y cs cd W i
  /-- RefPorts are used in the management phases only -/
  noRef_spk : ∀ i s, (y.spk i s).NoRef
  noRef_lrn : ∀ i s, (y.lrn i s).NoRef
  /-- writes are waited for -/
  waits : ∀ i ph s, (duty y ph i s).Waits (fun _ => False)
  /-- a Var that is written through a RefPort is accessed through no other RefPort -/
  alone_read : ∀ e e' v s, e < y.ne → e' < y.ne → W e → e' ≠ e → y.dst e' = y.dst e → y.rd e' (y.wr e v s) = y.rd e' s
  alone_write : ∀ e e' v v' s, e < y.ne → e' < y.ne → W e → W e' → e' ≠ e → y.dst e' = y.dst e →
    y.wr e v (y.wr e' v' s) = y.wr e' v' (y.wr e v s)

/-! ### The reference -/

/-- The world of the reference: the Vars of all processes, what is left of the methods being executed (`none`: finished), and
what is on its way between OutPorts and InPorts. -/
structure World (S V : Type) where
  σ : Nat → S
  todo : Nat → Option (Prog S V)
  d : Nat → List V

/-- Model `i` goes on with its method as far as it can. It accesses Vars of others directly, once their own methods are finished. -/
def goOn (y : Sys S V) (i : Nat) : Prog S V → World S V → World S V
  | .ret s, w => ⟨put w.σ i s, put w.todo i none, w.d⟩
  | .read e k, w =>
    match w.todo (y.dst e) with
    | none => goOn y i (k (y.rd e (w.σ (y.dst e)))) w
    | some _ => ⟨w.σ, put w.todo i (some (.read e k)), w.d⟩
  | .write e v k, w =>
    match w.todo (y.dst e) with
    | none => goOn y i k ⟨put w.σ (y.dst e) (y.wr e v (w.σ (y.dst e))), w.todo, w.d⟩
    | some _ => ⟨w.σ, put w.todo i (some (.write e v k)), w.d⟩
  | .send c v k, w =>
    if (w.d c).length < y.cap (.data c) then goOn y i k ⟨w.σ, w.todo, put w.d c (w.d c ++ [v])⟩
    else ⟨w.σ, put w.todo i (some (.send c v k)), w.d⟩
  | .recv c k, w =>
    match w.d c with
    | v :: r => goOn y i (k v) ⟨w.σ, w.todo, put w.d c r⟩
    | [] => ⟨w.σ, put w.todo i (some (.recv c k)), w.d⟩

/-- It is the turn of model `i`. -/
def turn (y : Sys S V) (w : World S V) (i : Nat) : World S V :=
  match w.todo i with
  | none => w
  | some p => goOn y i p w

/-- The values of all Vars, and what is on its way between OutPorts and InPorts. -/
abbrev Vals (S V : Type) := (Nat → S) × (Nat → List V)

/-- All methods of a phase are called. -/
def called (y : Sys S V) (ph : Phase) (r : Vals S V) : World S V := ⟨r.1, fun i => if i < y.n then some (duty y ph i (r.1 i)) else none, r.2⟩

/-- An order: whose turn it is, one after the other, in each phase. It may depend on the values at the start of the phase. -/
abbrev Order (S V : Type) := Phase → Vals S V → List Nat

/-- A phase: all methods start, the models take turns; `none` if somebody has not finished. -/
def phaseRef (y : Sys S V) (turns : Order S V) (ph : Phase) (r : Vals S V) : Option (Vals S V) :=
  if ∀ i, i < y.n → (((turns ph r).foldl (turn y) (called y ph r)).todo i).isNone then
    some (((turns ph r).foldl (turn y) (called y ph r)).σ, ((turns ph r).foldl (turn y) (called y ph r)).d)
  else none

/-- A phase that takes place only if somebody asked for it. -/
def phaseIf (y : Sys S V) (turns : Order S V) (b : Bool) (ph : Phase) (r : Vals S V) : Option (Vals S V) :=
  if b then phaseRef y turns ph r else some r

/-- Somebody says so. -/
def anyOf (y : Sys S V) (g : Nat → S → Bool) (σ : Nat → S) : Bool := (List.range y.n).any fun i => g i (σ i)

/-- Who asks for the other phases, after the spiking phase (values `r1`), and for POST_MGMT after the learning phase (values `r3`). -/
def wantPre (y : Sys S V) (r1 : Vals S V) : Bool := anyOf y (fun i s => y.lrnGuard i s && y.preGuard i s) r1.1
def wantLrn (y : Sys S V) (r1 : Vals S V) : Bool := anyOf y y.lrnGuard r1.1
def wantPost (y : Sys S V) (r1 r3 : Vals S V) : Bool :=
  anyOf y (fun i s => !y.lrnGuard i s && y.postGuard i s) r1.1 || (anyOf y y.lrnGuard r1.1 && anyOf y y.postGuard r3.1)

/-- A time step: the spiking phase, and the other phases if somebody asks for them. -/
def stepRef (y : Sys S V) (turns : Order S V) (r : Vals S V) : Option (Vals S V) :=
  (phaseRef y turns .spk r).bind fun r1 =>
  (phaseIf y turns (wantPre y r1) .pre r1).bind fun r2 =>
  (phaseIf y turns (wantLrn y r1) .lrn r2).bind fun r3 =>
  phaseIf y turns (wantPost y r1 r3) .post r3

/-- `k` time steps. -/
def stepsRef (y : Sys S V) (turns : Order S V) : Nat → Vals S V → Option (Vals S V)
  | 0, r => some r
  | k + 1, r => (stepRef y turns r).bind (stepsRef y turns k)

/-- All runs, from the start. -/
def runAll (y : Sys S V) (turns : Order S V) (runs : List Nat) : Option (Vals S V) := stepsRef y turns runs.sum (y.init, fun _ => [])

/-- The values when a management phase of the time step that starts with `r` begins; `none` if it does not take place. -/
def atPre (y : Sys S V) (turns : Order S V) (r : Vals S V) : Option (Vals S V) :=
  (phaseRef y turns .spk r).bind fun r1 => if wantPre y r1 then some r1 else none
def atPost (y : Sys S V) (turns : Order S V) (r : Vals S V) : Option (Vals S V) :=
  (phaseRef y turns .spk r).bind fun r1 =>
  (phaseIf y turns (wantPre y r1) .pre r1).bind fun r2 =>
  (phaseIf y turns (wantLrn y r1) .lrn r2).bind fun r3 => if wantPost y r1 r3 then some r3 else none

/-- The models of a set are all about to access a Var of a model of the set. -/
def Circle (y : Sys S V) (C : Nat → Prop) (w : World S V) : Prop :=
  ∀ i, C i → ∃ e, C (y.dst e) ∧ ((∃ k, w.todo i = some (.read e k)) ∨ ∃ v k, w.todo i = some (.write e v k))

/-- A program that uses no OutPort and no InPort. -/
def Prog.NoData : Prog S V → Prop
  | .ret _ => True
  | .read _ k => ∀ v, (k v).NoData
  | .write _ _ k => k.NoData
  | .send _ _ _ => False
  | .recv _ _ => False

/-! ### What is observed -/

/-- The Vars of process model `i`. -/
def varsOf (s : St Ch (Proc S V) (Msg V)) (i : Nat) : Option S :=
  match s.q (i + 1) with
  | .mdl m => some m.s
  | .svc _ => none

/-- All runs are done. -/
def Finished (s : St Ch (Proc S V) (Msg V)) : Prop := ∃ f, s.q 0 = .svc ⟨.idle, f, []⟩

end Verif.RefAccess
