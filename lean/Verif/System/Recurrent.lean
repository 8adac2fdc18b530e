import Verif.System.Dataflow
import Verif.System.Lockstep
import Verif.LIF.Props
import Verif.Dense.Props

/-!
# Concrete networks

A population of LIF neurons with a recurrent Dense connection, `lif.s_out.connect(dense.s_in)`, `dense.a_out.connect(lif.a_in)`, built
from the models of `Verif.LIF` and `Verif.Dense`; and examples for C76-C79.
-/

namespace Verif.System

open Verif.Dense (Vec Mat)

/-- Variables of the two processes; a process uses its own part only. -/
structure RecData where
  neurons : Nat → Verif.LIF.Obj
  out : Vec
  conn : Verif.Dense.St

/-- Parameters: those of the neurons, of the connection, initial neurons and weights. -/
structure RecPar where
  lif : Verif.LIF.Par
  vth : Int
  dense : Verif.Dense.Par
  start : Nat → Verif.LIF.Obj
  weights : Mat

/-- The network: process 0 is the population, which receives, updates and sends (lif/models.py:194-216); process 1 is the
connection, which sends its buffer and then receives (dense/models.py:77-107). Channel 0 carries spikes, channel 1 activations. -/
def recProg (a : RecPar) (T : Nat) (cap : Nat → Nat) : Prog RecData Vec where
  n := 2
  T := T
  body := fun p => if p = 0 then [.rcv 1, .snd 0] else if p = 1 then [.snd 1, .rcv 0] else []
  d0 := fun _ => { neurons := a.start, out := fun _ => 0, conn := Verif.Dense.init a.weights }
  emit := fun p d _ => if p = 0 then d.out else (Verif.Dense.runSpk a.dense d.conn (fun _ => 0)).2
  absorb := fun p d _ v =>
    if p = 0 then
      { d with
        neurons := fun i => (Verif.LIF.runSpk a.lif a.vth (d.neurons i) (v i)).1
        out := fun i => if (Verif.LIF.runSpk a.lif a.vth (d.neurons i) (v i)).2 then 1 else 0 }
    else { d with conn := (Verif.Dense.runSpk a.dense d.conn v).1 }
  tick := fun _ d => d
  cap := cap

theorem rec_body (a : RecPar) (T : Nat) (cap : Nat → Nat) (p : Nat) (o : Op) :
    o ∈ (recProg a T cap).body p ↔ (p = 0 ∧ (o = .rcv 1 ∨ o = .snd 0)) ∨ (p = 1 ∧ (o = .snd 1 ∨ o = .rcv 0)) := by
  simp only [recProg]
  by_cases h0 : p = 0
  · simp [h0]
  · by_cases h1 : p = 1
    · simp [h1]
    · simp [h0, h1]

theorem rec_used (a : RecPar) (T : Nat) (cap : Nat → Nat) (c : Nat) : (recProg a T cap).Used c ↔ c < 2 := by
  constructor
  · rintro ⟨p, _, h | h⟩
    · rw [rec_body] at h; simp at h; omega
    · rw [rec_body] at h; simp at h; omega
  · intro h
    refine ⟨c, h, Or.inl ?_⟩
    rw [rec_body]
    simp
    omega

theorem rec_wired (a : RecPar) (T : Nat) (cap : Nat → Nat) (hc : ∀ c, c < 2 → 1 ≤ cap c) :
    Wired (recProg a T cap) (fun c => c) (fun c => 1 - c) where
  nodup := fun p => by
    simp only [recProg]
    split
    · decide
    · split
      · decide
      · exact List.nodup_nil
  snd := fun p c h => by rw [rec_body] at h; simp at h; omega
  rcv := fun p c h => by rw [rec_body] at h; simp at h; omega
  both := fun c h => by
    rw [rec_used] at h
    simp only [rec_body]
    refine ⟨h, show 1 - c < 2 by omega, ?_, ?_⟩
    · simp; omega
    · simp; omega
  cap := fun c h => hc c ((rec_used a T cap c).1 h)

/-- The connection sends before it receives, so nothing waits in a circle. -/
theorem rec_no_circle (a : RecPar) (T : Nat) (cap : Nat → Nat) (hc : ∀ c, c < 2 → 1 ≤ cap c) :
    ¬ ∃ K, CircularWait (recProg a T cap) (fun c => c) K := by
  refine C77_send_first_breaks_cycles _ _ _ (rec_wired a T cap hc) (fun p => p = 1) ?_ (fun p => p) ?_
  · rintro p rfl c c' ⟨x, y, z, h⟩
    have h : [Op.snd 1, Op.rcv 0] = x ++ Op.rcv c' :: (y ++ Op.snd c :: z) := h
    match x with
    | [] => simp at h
    | [_] => simp at h
    | _ :: _ :: _ => simp at h
  · intro c hu h1 h2
    rw [rec_used] at hu
    omega

theorem runAll_append (p : Verif.LIF.Par) (vth : Int) : ∀ (xs ys : List Int) (o : Verif.LIF.Obj),
    Verif.LIF.runAll p vth o (xs ++ ys) = ((Verif.LIF.runAll p vth (Verif.LIF.runAll p vth o xs).1 ys).1,
      (Verif.LIF.runAll p vth o xs).2 ++ (Verif.LIF.runAll p vth (Verif.LIF.runAll p vth o xs).1 ys).2)
  | [], _, _ => rfl
  | x :: xs, ys, o => by
    simp only [List.cons_append, Verif.LIF.runAll]
    rw [runAll_append p vth xs ys]

/-- The first `k` values of a train at position `i`. -/
def train (A : Nat → Vec) (i k : Nat) : List Int := (List.range k).map fun t => A t i

theorem train_succ (A : Nat → Vec) (i k : Nat) : train A i (k + 1) = train A i k ++ [A k i] := by
  simp [train, List.range_succ]

theorem rec_state0 (a : RecPar) (T : Nat) (cap : Nat → Nat) (H : Nat → Nat → Vec) (i : Nat) : ∀ t,
    (stateAt (recProg a T cap) 0 H t).neurons i = (Verif.LIF.runAll a.lif a.vth (a.start i) (train (H 1) i t)).1
  | 0 => rfl
  | t + 1 => by
    rw [train_succ, runAll_append]
    show (Verif.LIF.runSpk a.lif a.vth ((stateAt (recProg a T cap) 0 H t).neurons i) (H 1 t i)).1 = _
    rw [rec_state0 a T cap H i t]
    rfl

theorem rec_state1 (a : RecPar) (T : Nat) (cap : Nat → Nat) (H : Nat → Nat → Vec) : ∀ t,
    (stateAt (recProg a T cap) 1 H t).conn = Verif.Dense.stateAt a.dense (Verif.Dense.init a.weights) (H 0) t
  | 0 => rfl
  | t + 1 => by
    show (Verif.Dense.runSpk a.dense (stateAt (recProg a T cap) 1 H t).conn (H 0 t)).1 = _
    rw [rec_state1 a T cap H t]
    rfl

/-- **C79.** A recurrent network of a LIF population and a Dense connection: for every number of steps, every channel capacity, every
weight matrix and parameters there are a spike train `S` and an activation train `A` such that

* activations start with zero and `A (t + 1)` is the weight matrix applied to the spikes `S t`, scaled by the weight exponent;
* neuron `i` spikes in step `t` exactly if a LIF neuron fed with `A 0 i, ..., A t i` spikes at the last of these inputs;
* under *every* schedule the messages of the two channels are `S 0, S 1, ...` and `A 0, A 1, ...`;
* under every fair schedule both processes finish all `T` steps. -/
theorem C79_recurrent_lif_dense (a : RecPar) (T : Nat) (cap : Nat → Nat) (hc : ∀ c, c < 2 → 1 ≤ cap c) :
    ∃ S A : Nat → Vec,
      (∀ i, 0 < T → A 0 i = 0) ∧
      (∀ t i, t + 1 < T → A (t + 1) i = Verif.scaled a.dense.weightExp (Verif.Dense.matVec a.dense.nIn
        (Verif.Dense.prepared a.dense a.weights) (if a.dense.graded then S t else Verif.Dense.bin (S t)) i)) ∧
      (∀ t i, t < T → S t i = if (Verif.LIF.runAll a.lif a.vth (a.start i) (train A i (t + 1))).2[t]? = some true then 1 else 0) ∧
      (∀ l k, (k < ((exec (recProg a T cap).net (recProg a T cap).init l).hist 0).length →
          ((exec (recProg a T cap).net (recProg a T cap).init l).hist 0)[k]? = some (S k)) ∧
        (k < ((exec (recProg a T cap).net (recProg a T cap).init l).hist 1).length →
          ((exec (recProg a T cap).net (recProg a T cap).init l).hist 1)[k]? = some (A k))) ∧
      (∀ rounds : List (List Nat), (∀ rd ∈ rounds, 0 ∈ rd ∧ 1 ∈ rd) → 6 * T ≤ rounds.length →
        ((exec (recProg a T cap).net (recProg a T cap).init rounds.flatten).hist 0).length = T ∧
        ((exec (recProg a T cap).net (recProg a T cap).init rounds.flatten).hist 1).length = T) := by
  have hw := rec_wired a T cap hc
  have hK := rec_no_circle a T cap hc
  obtain ⟨H, hH, _⟩ := C79_unique_solution _ _ _ hw hK
  have u0 : (recProg a T cap).Used 0 := (rec_used a T cap 0).2 (by omega)
  have u1 : (recProg a T cap).Used 1 := (rec_used a T cap 1).2 (by omega)
  have hA : ∀ t, t < T → H 1 t = Verif.Dense.sentAt a.dense (Verif.Dense.init a.weights) (H 0) t := by
    intro t ht
    have := hH 1 u1 t ht [] [.rcv 0] rfl
    rw [this]
    show (Verif.Dense.runSpk a.dense (stateAt (recProg a T cap) 1 H t).conn (fun _ => 0)).2 = _
    rw [rec_state1]
    rfl
  have hlen : ∀ (xs : List Int) (o : Verif.LIF.Obj), (Verif.LIF.runAll a.lif a.vth o xs).2.length = xs.length := by
    intro xs
    induction xs with
    | nil => intro o; rfl
    | cons x xs ih => intro o; simp [Verif.LIF.runAll, ih]
  refine ⟨H 0, H 1, ?_, ?_, ?_, ?_, ?_⟩
  · intro i hT
    rw [hA 0 hT]
    exact (Verif.Dense.C39_dense_product a.dense a.weights (H 0) i).1
  · intro t i ht
    rw [hA (t + 1) ht]
    exact (Verif.Dense.C39_dense_product a.dense a.weights (H 0) i).2 t
  · intro t i ht
    have := hH 0 u0 t ht [.rcv 1] [] rfl
    rw [this, train_succ, runAll_append]
    have hl : (Verif.LIF.runAll a.lif a.vth (a.start i) (train (H 1) i t)).2.length = t := by
      rw [hlen]; simp [train]
    rw [List.getElem?_append_right (by omega), hl, Nat.sub_self]
    show (if (Verif.LIF.runSpk a.lif a.vth ((stateAt (recProg a T cap) 0 H t).neurons i) (H 1 t i)).2 = true then (1 : Int) else 0) = _
    rw [rec_state0 a T cap H i t]
    simp only [Verif.LIF.runAll, List.getElem?_cons_zero, Option.some.injEq]
  · intro l k
    have := C79_executions_follow_equations _ _ _ hw H hH l
    exact ⟨this.1 0 u0 k, this.1 1 u1 k⟩
  · intro rounds hr hT
    have hwork : work (recProg a T cap) = 6 * T := by
      simp [work, Finset.sum_range_succ, recProg]
      omega
    have hdone := (C77_no_deadlock _ _ _ hw hK).2 rounds (fun rd hrd p hp => by
      have hp : p < 2 := hp
      have := hr rd hrd
      rcases (show p = 0 ∨ p = 1 by omega) with rfl | rfl
      · exact this.1
      · exact this.2) (by omega)
    have hi := inv_exec _ _ _ hw rounds.flatten
    have hlen : ∀ c, c < 2 → ((exec (recProg a T cap).net (recProg a T cap).init rounds.flatten).hist c).length = T := by
      intro c hc
      have hu := (rec_used a T cap c).2 hc
      have h2 := hdone c hc
      have h3 := hi.top c h2
      rw [hi.sent c hu]
      unfold sentBy
      rw [h3, if_pos (hw.both c hu).2.2.1, h2]
      rfl
    exact ⟨hlen 0 (by omega), hlen 1 (by omega)⟩

/-- A concrete instance: two neurons exciting each other, of which neuron 0 starts above its threshold. -/
def exRec : RecPar where
  lif := { du := 4095, dv := 0, biasMant := 0, biasExp := 0 }
  vth := 1
  dense := { nIn := 2, graded := false, weightExp := 0, signMode := .mixed, numWeightBits := 8 }
  start := fun i => { st := { u := 0, v := if i = 0 then 100 else 0 }, eff := none }
  weights := fun i j => if i + j = 1 then 4 else 0

/-- Neuron 0 spikes first, then they spike in turn; two different schedules give the same messages. -/
example : (((exec (recProg exRec 3 (fun _ => 1)).net (recProg exRec 3 (fun _ => 1)).init
      (List.replicate 18 [0, 1]).flatten).hist 0).map fun v => (v 0, v 1)) = [(1, 0), (0, 1), (1, 0)] ∧
    (((exec (recProg exRec 3 (fun _ => 2)).net (recProg exRec 3 (fun _ => 2)).init
      (List.replicate 18 [1, 1, 0]).flatten).hist 1).map fun v => (v 0, v 1)) = [(0, 0), (0, 4), (4, 0)] := by
  decide +kernel

/-! ## A deadlock -/

/-- Two processes that both receive before they send, connected in a circle. -/
def exCircle : Prog Nat Nat where
  n := 2
  T := 1
  body := fun p => if p = 0 then [.rcv 1, .snd 0] else if p = 1 then [.rcv 0, .snd 1] else []
  d0 := fun _ => 0
  emit := fun _ d _ => d
  absorb := fun _ d _ v => d + v
  tick := fun _ d => d + 1
  cap := fun _ => 8

/-- They are in a circular wait: nothing is ever sent, whatever the capacity of the channels (C77). -/
example : CircularWait exCircle (fun c => c) (fun c => c < 2) := by
  refine ⟨⟨0, by omega⟩, ?_⟩
  intro c hc
  rcases (show c = 0 ∨ c = 1 by omega) with rfl | rfl
  · exact ⟨⟨0, by decide, Or.inl (by simp [exCircle])⟩, 1, by omega, [], [], [], by simp [exCircle]⟩
  · exact ⟨⟨1, by decide, Or.inl (by simp [exCircle])⟩, 0, by omega, [], [], [], by simp [exCircle]⟩

example : step exCircle.net exCircle.init 0 = none ∧ step exCircle.net exCircle.init 1 = none ∧
    ¬ AllHalted exCircle.net exCircle.init := by
  refine ⟨rfl, rfl, ?_⟩
  intro h
  have := h 0
  simp [exCircle, Prog.net, Prog.view, Prog.init] at this

/-! ## A runtime service -/

/-- Process 2 is a runtime service; processes 0 and 1 are process models, of which 0 sends to 1. Channels: 0 data, 1 and 2 commands,
3 and 4 responses. -/
def exSync : Prog Nat Nat where
  n := 3
  T := 2
  body := fun p =>
    if p = 0 then [.rcv 1, .snd 0, .snd 3] else if p = 1 then [.rcv 2, .rcv 0, .snd 4]
    else if p = 2 then [.snd 1, .snd 2, .rcv 3, .rcv 4] else []
  d0 := fun p => p
  emit := fun _ d _ => d
  absorb := fun _ d _ v => d + v
  tick := fun _ d => d + 1
  cap := fun _ => 1

/-- The hypotheses of C78 hold. -/
example : Wired exSync (fun c => if c = 0 ∨ c = 3 then 0 else if c = 4 then 1 else 2)
      (fun c => if c = 1 then 0 else if c = 0 ∨ c = 2 then 1 else 2) ∧
    Sync exSync 2 [0, 1] (fun p => p + 1) (fun p => p + 3) (fun p => if p = 0 then [.snd 0] else [.rcv 0]) := by
  have hm : ∀ p o, o ∈ exSync.body p ↔ (p = 0 ∧ (o = .rcv 1 ∨ o = .snd 0 ∨ o = .snd 3)) ∨
      (p = 1 ∧ (o = .rcv 2 ∨ o = .rcv 0 ∨ o = .snd 4)) ∨
      (p = 2 ∧ (o = .snd 1 ∨ o = .snd 2 ∨ o = .rcv 3 ∨ o = .rcv 4)) := by
    intro p o
    simp only [exSync]
    by_cases h0 : p = 0
    · simp [h0]
    · by_cases h1 : p = 1
      · simp [h1]
      · by_cases h2 : p = 2
        · simp [h2]
        · simp [h0, h1, h2]
  have hu : ∀ c, exSync.Used c → c < 5 := by
    rintro c ⟨p, _, h | h⟩
    · rw [hm] at h; simp at h; omega
    · rw [hm] at h; simp at h; omega
  constructor
  · refine ⟨?_, ?_, ?_, ?_, fun _ _ => Nat.le_refl _⟩
    · intro p
      simp only [exSync]
      split
      · decide
      · split
        · decide
        · split
          · decide
          · exact List.nodup_nil
    · intro p c h
      rw [hm] at h
      simp at h
      rcases h with ⟨rfl, rfl | rfl⟩ | ⟨rfl, rfl⟩ | ⟨rfl, rfl | rfl⟩ <;> rfl
    · intro p c h
      rw [hm] at h
      simp at h
      rcases h with ⟨rfl, rfl⟩ | ⟨rfl, rfl | rfl⟩ | ⟨rfl, rfl | rfl⟩ <;> rfl
    · intro c hc
      have := hu c hc
      simp only [hm]
      rcases (show c = 0 ∨ c = 1 ∨ c = 2 ∨ c = 3 ∨ c = 4 by omega) with rfl | rfl | rfl | rfl | rfl <;> simp [exSync]
  · refine ⟨by decide, ?_, by simp [exSync], ?_⟩
    · intro p
      show p ∈ [0, 1] ↔ p < 3 ∧ p ≠ 2
      simp
      omega
    · intro p hp
      simp at hp
      rcases hp with rfl | rfl <;> simp [exSync]

end Verif.System
