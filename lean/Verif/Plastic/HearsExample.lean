import Verif.Plastic.BitHears
import Verif.Plastic.BitExample
import Verif.Plastic.States

/-!
# C125: an example with one-shot learning, and one with silence

A learning connection (process 0) with three sources: for `s_in`, `s_in_bap` and (with a three-factor rule) `s_in_y1`.
-/

namespace Verif.Plastic

open Verif.PortGraph (G run Reaches dstPorts)
open Verif.Wired.Spec (Script Linked Proper)
open Verif.Wired (connections POp)
open Verif.Wiring (Builders buildChannels)
open Verif.EndToEnd (Call Res)
open Verif.Snn.Spec (Feeds Gives)
open Verif.Trains.Spec (writes)
open Spec

/-- Ports of the connection: `s_in`, `s_in_bap`, `s_in_y1`, `s_in_y2`, `s_in_y3`, `a_out`; then `s_out` of the sources. `b`: the third source is connected. -/
def osCalls (b : Bool) : List PortGraph.Op :=
  [.new .inp [2], .new .inp [1], .new .inp [1], .new .inp [1], .new .inp [1], .new .out [1], .new .out [2], .new .out [1], .new .out [1], .connect 6 (.one 0) 1, .connect 7 (.one 1) 1] ++
    (if b then [.connect 8 (.one 2) 1] else [])

def osOwn : Nat → Nat
  | 0 => 0 | 1 => 0 | 2 => 0 | 3 => 0 | 4 => 0 | 5 => 0 | 6 => 1 | 7 => 2 | 8 => 3 | _ => 99

def osName : Nat → String
  | 0 => "s_in" | 1 => "s_in_bap" | 2 => "s_in_y1" | 3 => "s_in_y2" | 4 => "s_in_y3" | 5 => "a_out" | 6 => "s_out" | 7 => "s_out" | 8 => "s_out" | _ => ""

def osOuts : Nat → List Nat
  | 0 => [5] | 1 => [6] | 2 => [7] | 3 => [8] | _ => []

abbrev osG (b : Bool) : G := run 50 G.empty (osCalls b)

theorem os_good (b : Bool) : ∀ op ∈ osCalls b, op.Good := by
  intro op hop
  have h : op ∈ osCalls true := by
    cases b
    · exact List.mem_append.2 (Or.inl (by simpa [osCalls] using hop))
    · exact hop
  simp only [osCalls, if_true, List.cons_append, List.nil_append, List.mem_cons, List.not_mem_nil, or_false] at h
  rcases h with rfl | rfl | rfl | rfl | rfl | rfl | rfl | rfl | rfl | rfl | rfl | rfl <;> simp [PortGraph.Op.Good, PortGraph.Arg.toList, PortGraph.CfgOk]

theorem os_next (b : Bool) : (osG b).next = 9 := by cases b <;> decide +kernel

theorem os_inv (b : Bool) : PortGraph.Inv (osG b) := PortGraph.inv_run PortGraph.inv_empty 50 (osCalls b) (os_good b)

theorem os_reaches {b : Bool} {o i : Nat} : Reaches (osG b) o i ↔ o < 9 ∧ i ∈ ((osG b).port o).outs := by
  have hflat : ∀ o, o < 9 → ∀ m ∈ ((osG b).port o).outs, ((osG b).port m).outs = [] := by cases b <;> decide +kernel
  constructor
  · intro h
    have ho : o < 9 := by have := (Wired.reaches_ends (os_inv b) h).1; rwa [os_next] at this
    refine ⟨ho, ?_⟩
    rcases PortGraph.reaches_cases.1 h with h | ⟨m, hm, h⟩
    · exact h
    · exact absurd (hflat o ho m hm) (Wired.reaches_ends (os_inv b) h).2.2.1
  · rintro ⟨_, h⟩; exact .direct h

/-- Data of the three sources: two graded spikes, then the order to learn. -/
def osData : Nat → Nat → Nat → Int
  | 1 => fun t i => if t = 1 ∧ i = 0 then 200 else if t = 2 ∧ i = 1 then 50 else 0
  | 2 => fun t _ => if t = 4 then 1 else 0
  | _ => fun t _ => if t = 4 then 127 else 0

/-- The prototype learner's rule and decay (`Learning.cfg1`), two features, one prototype. -/
def osLPar : LPar where
  cfg :=
    { pre := 2, post := 1, tEpoch := 1, graded := .overwrite, e := fun _ => 65535 / 65536, x1 := ⟨0, 0, 1⟩, x2 := ⟨0, 0, 0⟩, y1 := ⟨0, 0, 1⟩, y2 := ⟨0, 0, 1⟩, y3 := ⟨0, 0, 1⟩,
      mode := .excitatory, dw := Learning.compileRule "2^-3*y1*x1*y0".toList, dd := none, dt := none, dec := none }
  three := true
  msg := true
  weightExp := 0
  bits := 8
  rnd := fun _ => ⟨0, 1 / 1000, 0, 1 / 1000, 0, 1 / 2⟩

/-- The processes: three-factor rule and three sources with data, or two-factor rule and silent sources. -/
def osProcs (b : Bool) : Nat → Proc (LVars FixV) (Nat → Int) Int
  | 0 => if b then bitLearn osLPar fun _ _ => 0 else bitLearn { exLPar with cfg := { exLPar.cfg with pre := 2 } } fun _ _ => 20
  | 1 => other (sourceBit 2 8 fun t i => if b then osData 1 t i else 0)
  | 2 => other (sourceBit 1 8 fun t i => if b then osData 2 t i else 0)
  | 3 => other (sourceBit 1 8 fun t i => if b then osData 3 t i else 0)
  | _ => other noBit

def osOps (b : Bool) : Nat → List POp
  | 0 => if b then [.send "a_out", .recv "s_in", .recv "s_in_bap", .recv "s_in_y1", .recv "s_in_y2", .recv "s_in_y3"] else [.send "a_out", .recv "s_in", .recv "s_in_bap"]
  | 1 => [.send "s_out"] | 2 => [.send "s_out"] | 3 => [.send "s_out"] | _ => []

theorem os_ops (b : Bool) (p : Nat) : (osProcs b p).ops = osOps b p := by
  rcases p with _ | _ | _ | _ | p
  all_goals cases b <;> rfl

theorem os_key (b : Bool) : ∀ p, p < 4 → ∀ op ∈ osOps b p, ∃ i ∈ List.range 9, osOwn i = p ∧ op = (if ((osG b).port i).kind = .inp then .recv (osName i) else .send (osName i)) ∧
    (((osG b).port i).kind = .inp ∨ ((osG b).port i).kind = .out) := by cases b <;> decide +kernel

theorem os_ops_lt {b : Bool} {p : Nat} {op : POp} (h : op ∈ osOps b p) : p < 4 := by
  rcases p with _ | _ | _ | _ | p
  iterate 4 omega
  simp [osOps] at h

theorem os_script (b : Bool) : Script (osG b) 4 osOwn osName osOuts fun p => (osProcs b p).pm where
  io := by rw [os_next]; cases b <;> decide +kernel
  names := by
    have h : ∀ i, i < 9 → ∀ j, j < 9 → osOwn i = osOwn j → osName i = osName j → i = j := by decide +kernel
    rw [os_next]
    exact fun i j hi hj => h i hi j hj
  members := by
    intro p hp i
    rw [os_next]
    have h : ∀ p, p < 4 → ∀ i, i < 9 → (i ∈ osOuts p ↔ osOwn i = p ∧ ((osG b).port i).kind = .out) := by cases b <;> decide +kernel
    constructor
    · intro hm
      have hi : i < 9 := by
        have : ∀ p, p < 4 → ∀ i ∈ osOuts p, i < 9 := by decide
        exact this p hp i hm
      exact ⟨hi, (h p hp i hi).1 hm⟩
    · rintro ⟨hi, hx⟩
      exact (h p hp i hi).2 hx
  leafOut := by rw [os_next]; cases b <;> decide +kernel
  leafIn := by rw [os_next]; cases b <;> decide +kernel
  once := by
    intro p
    show (osProcs b p).ops.Nodup
    rw [os_ops]
    rcases p with _ | _ | _ | _ | p
    iterate 4 cases b <;> decide
    simp [osOps]
  recvs := by
    intro p x h
    have h : POp.recv x ∈ (osProcs b p).ops := h
    rw [os_ops] at h
    rw [os_next]
    obtain ⟨i, h1, h2, h3, h4⟩ := os_key b p (os_ops_lt h) _ h
    refine ⟨i, List.mem_range.1 h1, h2, ?_⟩
    split at h3
    · rename_i hki
      cases h3
      exact ⟨rfl, hki⟩
    · cases h3
  sends := by
    intro p x h
    have h : POp.send x ∈ (osProcs b p).ops := h
    rw [os_ops] at h
    rw [os_next]
    obtain ⟨i, h1, h2, h3, h4⟩ := os_key b p (os_ops_lt h) _ h
    refine ⟨i, List.mem_range.1 h1, h2, ?_⟩
    split at h3
    · cases h3
    · rename_i hki
      cases h3
      exact ⟨rfl, h4.resolve_left hki⟩
  usesIn := by
    rw [os_next]
    intro i hi h1 h2 h3
    show POp.recv (osName i) ∈ (osProcs b (osOwn i)).ops
    rw [os_ops]
    have : ∀ i, i < 9 → ((osG b).port i).kind = .inp → ((osG b).port i).ins ≠ [] → POp.recv (osName i) ∈ osOps b (osOwn i) := by cases b <;> decide +kernel
    exact this i hi h2 h3
  usesOut := by
    rw [os_next]
    intro i hi h1 h2 _
    show POp.send (osName i) ∈ (osProcs b (osOwn i)).ops
    rw [os_ops]
    have : ∀ i, i < 9 → ((osG b).port i).kind = .out → POp.send (osName i) ∈ osOps b (osOwn i) := by cases b <;> decide +kernel
    exact this i hi h2

def osBuilders (b : Bool) : Builders := (buildChannels (fun _ _ => true) (connections (osG b) 50 (List.range 4) osOuts osOwn osName)).getD Wiring.empty

def osPms (i : Nat) : List Nat := if i < 2 then (List.range 4).filter fun p => p % 2 = i else []

theorem os_deployed (b : Bool) : Deployed 50 (osCalls b) 4 (osProcs b) 2 (fun p => p % 2) osPms (fun _ => 1) osOwn osName osOuts (List.range 4) (fun _ _ => true) (osBuilders b) where
  good := os_good b
  hosted := {
    cap := fun _ => Nat.le_refl 1
    svc := fun p _ => Nat.mod_lt p (by decide)
    pms := by
      intro i
      show (osPms i).Nodup ∧ ∀ p, p ∈ osPms i ↔ p < 4 ∧ p % 2 = i
      unfold osPms
      split
      · exact ⟨List.nodup_range.filter _, fun p => by simp⟩
      · exact ⟨by simp, fun p => by simp; omega⟩ }
  all p := List.mem_range
  script := os_script b
  found := by
    intro p hp s hs
    have h : ∀ p, p < 4 → ∀ s ∈ osOuts p, (dstPorts (osG b) false 50 s).isSome = true := by cases b <;> decide +kernel
    exact Option.isSome_iff_exists.1 (h p hp s hs)
  built := by
    have h : (buildChannels (fun _ _ => true) (connections (osG b) 50 (List.range 4) osOuts osOwn osName)).isSome = true := by cases b <;> decide +kernel
    unfold osBuilders
    obtain ⟨b, hb⟩ := Option.isSome_iff_exists.1 h
    rw [hb]; rfl

theorem os_late (b : Bool) : ∀ p, (osProcs b p).late = false := by
  intro p
  rcases p with _ | _ | _ | _ | p
  all_goals cases b <;> rfl

theorem os_fed (b : Bool) : Fed (osG b) 4 osOwn osName (osProcs b) := fun p _ _ _ hl _ => by rw [os_late] at hl; cases hl

theorem os_one (b : Bool) : ∀ p, (osProcs b p).outs.length ≤ 1 := by
  intro p
  rcases p with _ | _ | _ | _ | p
  all_goals cases b <;> simp [osProcs, other, noBit, bitLearn, sourceBit]

open Verif.Wired.Spec (linkedSum)
open Verif.Trains.Spec (steps started)

theorem os_linked {b : Bool} {o : Nat} {x : String} : Linked (osG b) 4 osOwn osName o 0 x ↔
    (o = 6 ∧ x = "s_in") ∨ (o = 7 ∧ x = "s_in_bap") ∨ (b = true ∧ o = 8 ∧ x = "s_in_y1") := by
  constructor
  · rintro ⟨h1, h2, i, h3, h4, h5, h6⟩
    obtain ⟨ho, hm⟩ := os_reaches.1 h6
    have key : ∀ o, o < 9 → ∀ i ∈ ((osG b).port o).outs, (o = 6 ∧ osName i = "s_in") ∨ (o = 7 ∧ osName i = "s_in_bap") ∨ (b = true ∧ o = 8 ∧ osName i = "s_in_y1") := by cases b <;> decide +kernel
    have := key o ho i hm
    rwa [h4] at this
  · have key : ∀ o, o < 9 → ∀ i ∈ ((osG b).port o).outs, osOwn o < 4 ∧ ((osG b).port o).kind = .out ∧ osOwn i = 0 ∧ ((osG b).port i).kind = .inp := by cases b <;> decide +kernel
    rintro (⟨rfl, rfl⟩ | ⟨rfl, rfl⟩ | ⟨rfl, rfl, rfl⟩)
    · have hm : 0 ∈ ((osG b).port 6).outs := by cases b <;> decide +kernel
      obtain ⟨a, c, d, e⟩ := key 6 (by decide) 0 hm
      exact ⟨a, c, 0, d, by rfl, e, os_reaches.2 ⟨by decide, hm⟩⟩
    · have hm : 1 ∈ ((osG b).port 7).outs := by cases b <;> decide +kernel
      obtain ⟨a, c, d, e⟩ := key 7 (by decide) 1 hm
      exact ⟨a, c, 1, d, by rfl, e, os_reaches.2 ⟨by decide, hm⟩⟩
    · have hm : 2 ∈ ((osG true).port 8).outs := by decide +kernel
      obtain ⟨a, c, d, e⟩ := key 8 (by decide) 2 hm
      exact ⟨a, c, 2, d, by rfl, e, os_reaches.2 ⟨by decide, hm⟩⟩

theorem os_heard {b : Bool} (y : Nat → String → Nat → Nat → Int) (m : Nat) {x : String} {k : Nat} (hk : k < 9) (h : ∀ o, Linked (osG b) 4 osOwn osName o 0 x ↔ o = k) :
    heard (osG b) 4 osOwn osName y 0 m x = y (osOwn k) (osName k) m := by
  classical
  unfold heard linkedSum
  rw [os_next]
  have e : (List.range 9).filter (fun o => decide (Linked (osG b) 4 osOwn osName o 0 x)) = (List.range 9).filter fun o => decide (o = k) := by
    apply List.filter_congr; intro o _; simp [h o]
  simp only [e]
  have e2 : (List.range 9).filter (fun o => decide (o = k)) = [k] := by
    have : ∀ k, k < 9 → (List.range 9).filter (fun o => decide (o = k)) = [k] := by decide
    exact this k hk
  rw [e2]

  simp

theorem source_state (rows : Nat) (data : Nat → Nat → Int) (a : Nat → String → Nat → Int) (t : Nat) :
    stateWith (other (Y := FixV) (sourceBit rows 8 data)) (fun _ => []) a t = .other (.ring t data) := by
  induction t with
  | zero => rfl
  | succ t ih => unfold stateWith; rw [ih]; rfl

/-- What the sources send. -/
def osSends (b : Bool) (q m : Nat) (i : Nat) : Int := if b then osData q (m % 8) i else 0

def osProg : List (Call Int) := [.run 3, .get 0 0, .run 5, .get 0 0]

theorem os_proper (b : Bool) : Proper 4 (fun p => (osProcs b p).pm) osProg := by
  refine ⟨?_, ?_, 3, by simp [osProg]⟩
  · intro p x h
    simp [osProg] at h
    omega
  · intro p x ws h
    simp [osProg] at h

theorem os_writes (p t : Nat) : Trains.Spec.writes osProg p t = [] := by
  simp [Trains.Spec.writes, osProg, Trains.Spec.writesFrom]

theorem os_sends {b : Bool} {y : Nat → String → Nat → Nat → Int} (h : SolvesWith (osG b) 4 osOwn osName (osProcs b) (Trains.Spec.writes osProg) y) (q m : Nat) (hq : q = 1 ∨ q = 2 ∨ q = 3) :
    y q "s_out" m = osSends b q m := by
  rw [h q "s_out" m (by omega)]
  have hw : Trains.Spec.writes osProg q = fun _ => [] := funext fun t => os_writes q t
  rw [hw]
  rcases hq with rfl | rfl | rfl
  all_goals
    simp only [osProcs]
    rw [source_state]
    rfl

theorem os_hears {b : Bool} {y : Nat → String → Nat → Nat → Int} (h : SolvesWith (osG b) 4 osOwn osName (osProcs b) (Trains.Spec.writes osProg) y) (m : Nat) :
    heard (osG b) 4 osOwn osName y 0 m "s_in" = osSends b 1 m ∧ heard (osG b) 4 osOwn osName y 0 m "s_in_bap" = osSends b 2 m ∧
      (b = true → heard (osG b) 4 osOwn osName y 0 m "s_in_y1" = osSends b 3 m) := by
  refine ⟨?_, ?_, ?_⟩
  · rw [os_heard y m (k := 6) (by decide) fun o => by rw [os_linked]; simp]
    exact os_sends h 1 m (by simp)
  · rw [os_heard y m (k := 7) (by decide) fun o => by rw [os_linked]; simp]
    exact os_sends h 2 m (by simp)
  · intro hb
    rw [os_heard y m (k := 8) (by decide) fun o => by rw [os_linked]; simp [hb]]
    exact os_sends h 3 m (by simp)

/-- **C125, example.** One-shot learning: two features are seen in steps 2 and 3, in step 5 the prototype is told to learn them; the weights are 0 after three steps and near the payloads after eight. -/
theorem C125_example_pattern : ∃ log, Gives (platform 4 (osProcs true) 2 (fun p => p % 2) osPms fun _ => 1) (osBuilders true) osProg log ∧
    log[1]? = some (.value [0, 0]) ∧ ∃ v w, log[3]? = some (.value [v, w]) ∧ 196 ≤ v ∧ v ≤ 201 ∧ 46 ≤ w ∧ w ≤ 51 := by
  obtain ⟨⟨y, hy⟩, _⟩ := C125_one_solution (osG true) 4 osOwn osName (osProcs true) (os_fed true) (Trains.Spec.writes osProg)
  obtain ⟨log, h1, h2⟩ := C125_patterns_stored_in_network 50 (osCalls true) 4 (osProcs true) 2 (fun p => p % 2) osPms (fun _ => 1) osOwn osName osOuts (List.range 4) (fun _ _ => true) (osBuilders true)
    (os_deployed true) (os_fed true) osProg (os_proper true) y hy
  have hh := os_hears hy
  have key := h2 0 osLPar (65535 / 65536) (fun _ => 5) rfl ⟨⟨rfl, rfl, rfl⟩, rfl, rfl, rfl, rfl, Or.inr rfl⟩ (by norm_num) (by norm_num) (by norm_num) rfl rfl
    (fun m => ⟨by norm_num [osLPar], by norm_num [osLPar], by norm_num [osLPar], by norm_num [osLPar], by norm_num [osLPar], by norm_num [osLPar]⟩)
    (fun m => ⟨by norm_num [osLPar], by norm_num [osLPar]⟩) (by intro x ws h; simp [osProg] at h)
    (by
      intro m j
      rw [(hh m).1]
      simp only [osSends, osData, if_true]
      split
      · omega
      · split <;> omega)
  have hK : ∀ N, N ≤ 8 → ∀ i, i < 1 → 1 ≤ 5 ∧ heard (osG true) 4 osOwn osName y 0 (5 - 1) "s_in_y1" i = 127 ∧
      ∀ m, m < N → (heard (osG true) 4 osOwn osName y 0 m "s_in_bap" i ≠ 0 ↔ m + 1 = 5) := by
    intro N hN i _
    refine ⟨by decide, ?_, ?_⟩
    · rw [(hh 4).2.2 rfl]; rfl
    · intro m hm
      rw [(hh m).2.1]
      have : m % 8 = m := Nat.mod_eq_of_lt (by omega)
      simp only [osSends, osData, if_true, this]
      split <;> omega
  have hlast : lastHeard (heard (osG true) 4 osOwn osName y 0) 0 5 = 200 ∧ lastHeard (heard (osG true) 4 osOwn osName y 0) 1 5 = 50 := by
    simp only [lastHeard, (hh _).1]
    decide
  obtain ⟨ws, e1, e3, e2⟩ := key [.run 3] [.run 5, .get 0 0] rfl rfl (by decide) (hK 3 (by decide))
  obtain ⟨ws', e1', e3', e2'⟩ := key [.run 3, .get 0 0, .run 5] [] rfl rfl (by decide) (hK 8 (by decide))
  refine ⟨log, h1, ?_, ?_⟩
  · obtain ⟨a, c, rfl⟩ := List.length_eq_two.1 (show ws.length = 2 from e3)
    obtain ⟨v, a1, a2, _⟩ := e2 0 0 (by decide) (by decide)
    obtain ⟨w, b1, b2, _⟩ := e2 0 1 (by decide) (by decide)
    have a1 : some a = some v := a1
    have b1 : some c = some w := b1
    rw [Option.some.inj a1, Option.some.inj b1, a2 (by decide), b2 (by decide)] at e1
    exact e1
  · obtain ⟨a, c, rfl⟩ := List.length_eq_two.1 (show ws'.length = 2 from e3')
    obtain ⟨v, a1, _, a2⟩ := e2' 0 0 (by decide) (by decide)
    obtain ⟨w, b1, _, b2⟩ := e2' 0 1 (by decide) (by decide)
    have a1 : some a = some v := a1
    have b1 : some c = some w := b1
    have a2 := a2 (by decide)
    have b2 := b2 (by decide)
    rw [hlast.1, ← Option.some.inj a1] at a2
    rw [hlast.2, ← Option.some.inj b1] at b2
    exact ⟨a, c, e1', by omega, by omega, by omega, by omega⟩

/-- **C125, example.** Silence: no source sends anything, the weights stay what they were (20, with 8 bits). -/
theorem C125_example_silent : ∃ log, Gives (platform 4 (osProcs false) 2 (fun p => p % 2) osPms fun _ => 1) (osBuilders false) osProg log ∧
    ∃ ws, log[3]? = some (.value ws) ∧ ws[0]? = some 20 ∧ ws[1]? = some 20 := by
  obtain ⟨⟨y, hy⟩, _⟩ := C125_one_solution (osG false) 4 osOwn osName (osProcs false) (os_fed false) (Trains.Spec.writes osProg)
  obtain ⟨log, h1, h2⟩ := C125_silent_synapse_keeps_its_weight 50 (osCalls false) 4 (osProcs false) 2 (fun p => p % 2) osPms (fun _ => 1) osOwn osName osOuts (List.range 4) (fun _ _ => true) (osBuilders false)
    (os_deployed false) (os_fed false) osProg (os_proper false) y hy
  have hh := os_hears hy
  have key := fun j hj => h2 0 { exLPar with cfg := { exLPar.cfg with pre := 2 } } (fun _ _ => 20) 0 j rfl rfl
    (fun m => ⟨by norm_num [exLPar], by norm_num [exLPar], by norm_num [exLPar], by norm_num [exLPar], by norm_num [exLPar], by norm_num [exLPar]⟩)
    (by intro x ws h; simp [osProg] at h) (by decide) hj (by decide) (by
      intro ps h q hq
      have h : Learning.exM.dw = some ps := h
      have e : (Learning.exM.dw.map fun ps => ps.all fun q => decide (q.dep ≠ .u)) = some true := by decide +kernel
      rw [h] at e
      have e : (ps.all fun q => decide (q.dep ≠ .u)) = true := Option.some.inj e
      exact of_decide_eq_true (List.all_eq_true.1 e q hq)) (by show (-2 ^ 8 : Int) ≤ 20 ∧ (20 : Int) ≤ 2 ^ 8 - 1; decide) (by
      intro m
      rw [(hh m).1, (hh m).2.1]
      exact ⟨rfl, rfl⟩) [.run 3, .get 0 0, .run 5] [] rfl rfl (by decide)
  obtain ⟨ws, e1, e2⟩ := key 0 (by decide)
  obtain ⟨ws', e1', e2'⟩ := key 1 (by decide)
  have : ws = ws' := by rw [e1] at e1'; cases e1'; rfl
  subst this
  exact ⟨log, h1, ws, e1, e2, e2'⟩

end Verif.Plastic
