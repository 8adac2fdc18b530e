import Verif.Plastic.ReadBack
import Verif.Plastic.Example
import Verif.LIF.Model

/-!
# C125: an example

The network of `Verif.Plastic.Example` in fixed point: a neuron excites another one through a connection that learns, and the spikes of the second come back to the connection.
-/

namespace Verif.Plastic

open Verif.PortGraph (G run)
open Verif.Wired.Spec (Script Linked Proper)
open Verif.EndToEnd (Call Res)
open Verif.Snn.Spec (Gives)
open Verif.Wired (POp)
open Spec

/-- Vars of a population or of a ring buffer. -/
inductive FixV where
  | pop (o : Nat → LIF.Obj) (spk : Nat → Bool)
  | ring (t : Nat) (d : Nat → Nat → Int)

/-- `LIF` with `PyLifModelBitAcc` (lif/models.py:81-278), as `Snn.lifFix`. Var 0 is `u`, Var 1 is `v`. -/
def lifBit (size : Nat) (par : Nat → LIF.Par) (vth : Nat → Int) : Proc FixV (Nat → Int) Int where
  late := true
  ins := ["a_in"]
  outs := ["s_out"]
  init := .pop (fun _ => ⟨⟨0, 0⟩, none⟩) fun _ => false
  begin_ s := s
  absorb s _ a := match s with
    | .pop o _ => .pop (fun i => (LIF.runSpk (par i) (vth i) (o i) (a i)).1) fun i => (LIF.runSpk (par i) (vth i) (o i) (a i)).2
    | s => s
  out s _ := match s with
    | .pop _ spk => fun i => if spk i then 1 else 0
    | _ => fun _ => 0
  guard _ := false
  learn s := s
  vsize _ := size
  peek s x j := match s with | .pop o _ => if x = 0 then (o j).st.u else (o j).st.v | _ => 0
  poke s x j w := match s with
    | .pop o spk => .pop (fun i => if i = j then (if x = 0 then { o i with st := { (o i).st with u := w } } else { o i with st := { (o i).st with v := w } }) else o i) spk
    | s => s

/-- `time_step += 1` of a ring buffer (core/model/py/model.py:385-387). -/
def fixTick (s : FixV) : FixV := match s with | .ring t d => .ring (t + 1) d | s => s

/-- `source.RingBuffer` (io/source.py:28-43). -/
def sourceBit (rows len : Nat) (data : Nat → Nat → Int) : Proc FixV (Nat → Int) Int where
  late := false
  ins := []
  outs := ["s_out"]
  init := .ring 0 data
  begin_ := fixTick
  absorb s _ _ := s
  out s _ := match s with | .ring t d => IO.sourceSend d len t | _ => fun _ => 0
  guard _ := false
  learn s := s
  vsize _ := rows * len
  peek s _ j := match s with | .ring _ d => d (j % len) (j / len) | _ => 0
  poke s _ j w := match s with | .ring t d => .ring t fun k i => if k = j % len ∧ i = j / len then w else d k i | s => s

/-- `sink.RingBuffer` (io/sink.py:16-52). -/
def sinkBit (rows len : Nat) : Proc FixV (Nat → Int) Int where
  late := false
  ins := ["a_in"]
  outs := []
  init := .ring 0 fun _ _ => 0
  begin_ := fixTick
  absorb s _ a := match s with | .ring t d => .ring t (IO.upd d ((t - 1) % len) a) | s => s
  out _ _ := fun _ => 0
  guard _ := false
  learn s := s
  vsize _ := rows * len
  peek s _ j := match s with | .ring _ d => d (j % len) (j / len) | _ => 0
  poke s _ j w := match s with | .ring t d => .ring t fun k i => if k = j % len ∧ i = j / len then w else d k i | s => s

/-- No process. -/
def noBit : Proc FixV (Nat → Int) Int where
  late := false
  ins := []
  outs := []
  init := .ring 0 fun _ _ => 0
  begin_ s := s
  absorb s _ _ := s
  out _ _ := fun _ => 0
  guard _ := false
  learn s := s
  vsize _ := 0
  peek _ _ _ := 0
  poke s _ _ _ := s

/-- The engine of `Learning.exM` for one synapse, `t_epoch = 2`. -/
def exLPar : LPar := ⟨{ Learning.exM with post := 1, pre := 1 }, false, false, 6, 8, fun _ => ⟨0, 1 / 2, 0, 1 / 2, 0, 1 / 2⟩⟩

/-- The two populations 0 and 1, the learning connection 2 from 0 to 1, the sources 3 and 4, the sinks 5 and 6. -/
def exBit : Nat → Proc (LVars FixV) (Nat → Int) Int
  | 0 | 1 => other (lifBit 1 (fun _ => ⟨4095, 4095, 0, 0⟩) fun _ => 10)
  | 2 => bitLearn exLPar fun _ _ => 20
  | 3 | 4 => other (sourceBit 1 8 fun t _ => if t = 0 then 4000 else 0)
  | 5 | 6 => other (sinkBit 1 4)
  | _ => other noBit

theorem exBit_ops (p : Nat) : (exBit p).ops = (exProcs p).ops := by
  rw [ex_ops]
  rcases p with _ | _ | _ | _ | _ | _ | _ | p
  all_goals rfl

theorem exBit_deployed : Deployed 50 exCalls 7 exBit 2 (fun p => p % 2) exPms (fun _ => 1) exOwn exName exOuts (List.range 7) (fun _ _ => true) exBuilders where
  good := ex_good
  hosted := ⟨ex_deployed.hosted.cap, ex_deployed.hosted.svc, ex_deployed.hosted.pms⟩
  all := ex_deployed.all
  script :=
    { io := ex_script.io
      names := ex_script.names
      members := ex_script.members
      leafOut := ex_script.leafOut
      leafIn := ex_script.leafIn
      once := fun p => by show (exBit p).ops.Nodup; rw [exBit_ops]; exact ex_script.once p
      recvs := fun p x h => by
        have h : POp.recv x ∈ (exBit p).ops := h
        rw [exBit_ops] at h; exact ex_script.recvs p x h
      sends := fun p x h => by
        have h : POp.send x ∈ (exBit p).ops := h
        rw [exBit_ops] at h; exact ex_script.sends p x h
      usesIn := fun i a b c d => by show _ ∈ (exBit _).ops; rw [exBit_ops]; exact ex_script.usesIn i a b c d
      usesOut := fun i a b c d => by show _ ∈ (exBit _).ops; rw [exBit_ops]; exact ex_script.usesOut i a b c d }
  found := ex_deployed.found
  built := ex_deployed.built

theorem exBit_late : ∀ p, (exBit p).late = true ↔ p < 2 := by
  intro p
  rcases p with _ | _ | _ | _ | _ | _ | _ | p
  all_goals simp [exBit, other, lifBit, bitLearn, sourceBit, sinkBit, noBit]

theorem exBit_fed : Fed exG 7 exOwn exName exBit := by
  rintro p o x hp hl ⟨h1, h2, i, h4, h5, h6, h7⟩
  have hi := (Wired.reaches_ends ex_inv h7).2.1
  rw [ex_next] at hi
  have ho := (ex_reaches.1 h7)
  have h : ∀ o, o < 11 → ∀ i, i < 11 → i ∈ (exG.port o).outs → exOwn i < 2 → 2 ≤ exOwn o := by decide +kernel
  have hlp := (exBit_late p).1 hl
  have := h o ho.1 i hi ho.2 (by omega)
  cases hq : (exBit (exOwn o)).late with
  | false => rfl
  | true => have := (exBit_late _).1 hq; omega

/-- The program: two epochs, a look at the weight, a new weight, another epoch. -/
def exProg : List (Call Int) := [.run 4, .get 2 0, .set 2 0 [30], .get 2 0, .run 2, .get 2 0]

/-- **C125, example.** The hypotheses hold for a network of neurons and a connection that learns; what is shown of the weight is legal, and the weight that is set is read back. -/
theorem C125_example : ∃ log, Gives (platform 7 exBit 2 (fun p => p % 2) exPms fun _ => 1) exBuilders exProg log ∧ ∃ w, -256 ≤ w ∧ w ≤ 255 ∧ log[1]? = some (.value [w]) := by
  have hprop : Proper 7 (fun p => (exBit p).pm) exProg := by
    refine ⟨?_, ?_, 4, by simp [exProg]⟩
    · intro p x h
      simp [exProg] at h
      omega
    · intro p x ws h
      simp [exProg] at h
      obtain ⟨rfl, rfl, rfl⟩ := h
      decide
  obtain ⟨log, h1, h2⟩ := C125_weights_shown_are_legal 50 exCalls 7 exBit 2 (fun p => p % 2) exPms (fun _ => 1) exOwn exName exOuts (List.range 7) (fun _ _ => true) exBuilders
    exBit_deployed exBit_fed exProg hprop
  obtain ⟨ws, h3, h4, h5⟩ := h2 2 exLPar (fun _ _ => 20) rfl (fun _ => by constructor <;> norm_num [exLPar]) (by decide) (by intro i j _ _; show (-2 ^ 8 : Int) ≤ 20 ∧ (20 : Int) ≤ 2 ^ 8 - 1; decide) (by
    intro ws h v hv
    simp [exProg] at h
    subst h
    simp at hv
    subst hv
    show (-2 ^ 8 : Int) ≤ 30 ∧ (30 : Int) ≤ 2 ^ 8 - 1; decide) [.run 4] [.set 2 0 [30], .get 2 0, .run 2, .get 2 0] rfl rfl
  refine ⟨log, h1, ?_⟩
  have hl : ws.length = 1 := h4
  obtain ⟨w, rfl⟩ := List.length_eq_one_iff.1 hl
  have := h5 w (by simp)
  exact ⟨w, this.1, this.2, h3⟩

end Verif.Plastic
