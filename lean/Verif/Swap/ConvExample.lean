import Verif.Swap.Conv
import Verif.Swap.Example

/-!
# C123: examples
-/

namespace Verif.Swap

open Verif.PortGraph (G run)
open Verif.Snn (platform exCalls exBuilders exPms exG exOwn exName exData)
open Verif.Snn.Spec (Gives Arrangement recorded)
open Verif.SpikeNet (Net Conn osc oscSize fixSpike)
open Verif.Conv (Cfg Ker convToSparse srcNWHC dstNWHC)
open Spec

/-- An image of 3 x 3 pixels, kernel 2 x 2, stride 1, no padding. -/
def ex33 : Cfg := { xin := 3, yin := 3, cin := 1, xout := 2, yout := 2, cout := 1, kx := 2, ky := 2, sx := 1, sy := 1, px := 0, py := 0, dx := 1, dy := 1, grp := 1 }

def exKer : Ker := fun _ a b _ => if a = 0 ∧ b = 0 then 2 else if a = 1 ∧ b = 0 then -4 else if a = 0 ∧ b = 1 then 6 else if a = 1 ∧ b = 1 then 8 else 0

theorem legal_mixed {v : Int} (h1 : -256 ≤ v) (h2 : v ≤ 254) (h3 : 2 ∣ v) : Weights.Legal .mixed 8 v ∧ 2 ^ Weights.cleared .mixed 8 ∣ v := by
  refine ⟨?_, ?_⟩
  · unfold Weights.Legal
    norm_num
    omega
  · exact h3

theorem exKer_legal : ∀ k a b c, Weights.Legal .mixed 8 (exKer k a b c) ∧ 2 ^ Weights.cleared .mixed 8 ∣ exKer k a b c := by
  intro k a b c
  unfold exKer
  split
  · exact legal_mixed (by decide) (by decide) (by decide)
  split
  · exact legal_mixed (by decide) (by decide) (by decide)
  split
  · exact legal_mixed (by decide) (by decide) (by decide)
  split <;> exact legal_mixed (by decide) (by decide) (by decide)

def exDensePar : Dense.Par := { nIn := 9, graded := false, weightExp := 0, signMode := .mixed, numWeightBits := 8 }

/-- Spikes at the pixels (0, 0), (1, 1) and (1, 2) in step 0. -/
def exSpikes : Nat → Nat → Int := fun t i => if t = 0 ∧ (i = 0 ∨ i = 4 ∨ i = 5) then 1 else 0

/-- **C123, example.** What a `Conv` process and the `Dense` process send. -/
theorem C123_dense_example : ∃ ts, convToSparse ex33 (srcNWHC ex33) (dstNWHC ex33) exKer = some ts ∧
    SameTrains (convC (N := LIF.Obj) ex33 false exKer) (denseC 4 exDensePar (matrix ts)) ∧
    (List.range 3).map (fun t => (sentAt (denseC (N := LIF.Obj) 4 exDensePar (matrix ts)) exSpikes t).map fun v => (List.range 4).map v) = [some [0, 0, 0, 0], some [10, 8, -4, 4], some [0, 0, 0, 0]] ∧
    (List.range 3).map (fun t => (sentAt (convC (N := LIF.Obj) ex33 false exKer) exSpikes t).map fun v => (List.range 4).map v) = [some [0, 0, 0, 0], some [10, 8, -4, 4], some [0, 0, 0, 0]] := by
  obtain ⟨ts, h⟩ : ∃ ts, convToSparse ex33 (srcNWHC ex33) (dstNWHC ex33) exKer = some ts := Option.isSome_iff_exists.1 (by decide +kernel)
  have hs := (C123_dense_for_conv (N := LIF.Obj) (by decide) (by decide) (by decide) (by decide) h exDensePar 8 (by decide) rfl rfl rfl rfl exKer_legal (by decide)).1
  have e : (List.range 3).map (fun t => (sentAt (convC (N := LIF.Obj) ex33 false exKer) exSpikes t).map fun v => (List.range 4).map v) = [some [0, 0, 0, 0], some [10, 8, -4, 4], some [0, 0, 0, 0]] := by
    decide +kernel
  refine ⟨ts, h, hs, ?_, e⟩
  rw [← e]
  apply List.map_congr_left
  intro t _
  exact congrArg _ (hs.2 exSpikes t)

/-! ### The oscillator with Conv connections -/

/-- A single pixel, kernel 3 x 3, padding 1: only the centre of the kernel meets the image. -/
def ex11 : Cfg := { xin := 1, yin := 1, cin := 1, xout := 1, yout := 1, cout := 1, kx := 3, ky := 3, sx := 1, sy := 1, px := 1, py := 1, dx := 1, dy := 1, grp := 1 }

def exKer11 (c : Nat) : Ker := fun _ a b _ => if a = 1 ∧ b = 1 then (if c = 0 then 20 else -20) else 2

def exTs (c : Nat) : List Verif.Conv.Triple := (convToSparse ex11 (srcNWHC ex11) (dstNWHC ex11) (exKer11 c)).getD []

def exConvNet : Net := { lif := osc.lif, vth := osc.vth, conns := (List.range 2).map fun c => ⟨c, 1 - c, { nIn := 1, graded := false, weightExp := 0, signMode := .mixed, numWeightBits := 8 }, matrix (exTs c), fun _ _ => 0⟩ }

theorem ex_isConv : ∀ c k x, exConvNet.conns[c]? = some k → (some (ex11, exKer11 c) : Option (Cfg × Ker)) = some x → IsConv k (oscSize k.dst) x.1 x.2 := by
  intro c k x h hx
  have hc : c < 2 := (List.getElem?_eq_some_iff.1 h).1
  obtain ⟨_, h⟩ := List.getElem?_eq_some_iff.1 h
  have h : (⟨c, 1 - c, { nIn := 1, graded := false, weightExp := 0, signMode := .mixed, numWeightBits := 8 }, matrix (exTs c), fun _ _ => 0⟩ : Conn) = k := by
    rw [← h]
    simp [exConvNet]
  rw [← h, ← Option.some.inj hx]
  refine ⟨⟨Nat.one_pos, Nat.one_pos⟩, ⟨Nat.succ_pos 2, Nat.succ_pos 2⟩, ?_, ?_, rfl, rfl, rfl, ⟨8, by decide, rfl, ?_⟩, show 3 * 3 * (1 / 1) < 2 ^ 15 by decide⟩
  · obtain ⟨ts, e⟩ : ∃ ts, convToSparse ex11 (srcNWHC ex11) (dstNWHC ex11) (exKer11 c) = some ts := by
      apply Option.isSome_iff_exists.1
      interval_cases c <;> decide +kernel
    exact ⟨ts, e, by unfold exTs; rw [e]; rfl⟩
  · interval_cases c <;> rfl
  · intro i a b d
    dsimp only
    unfold exKer11
    split
    · split <;> exact legal_mixed (by decide) (by decide) (by decide)
    · exact legal_mixed (by decide) (by decide) (by decide)

theorem ex_convArranged : Arrangement exG exOwn exName 2 exConvNet.conns where
  pops := by
    intro q hq p
    refine (Snn.ex_arrangement.pops q hq p).trans (or_congr Iff.rfl ?_)
    constructor
    · rintro ⟨c, hc, h1, h2⟩
      have hc : c < 2 := hc
      interval_cases c
      · exact ⟨0, by decide, h1, h2⟩
      · exact ⟨1, by decide, h1, h2⟩
    · rintro ⟨c, hc, h1, h2⟩
      have hc : c < 2 := hc
      interval_cases c
      · exact ⟨0, by decide, h1, h2⟩
      · exact ⟨1, by decide, h1, h2⟩
  links := by
    intro c hc
    have hc : c < 2 := hc
    interval_cases c
    · exact Snn.ex_arrangement.links 0 (by decide)
    · exact Snn.ex_arrangement.links 1 (by decide)
  sinks := Snn.ex_arrangement.sinks

theorem ex_convKind (p : Nat) : (convProcs exConvNet 2 oscSize 1 6 exData (fun c => some (ex11, exKer11 c)) p).kind = Snn.exKind p := by
  rcases p with _ | _ | _ | _ | _ | _ | _ | _ | p
  iterate 8 exact rfl
  unfold convProcs anyProcs Snn.arranged Snn.exKind
  rw [show exConvNet.conns.length = 2 from rfl]
  rw [if_neg (by omega), if_neg (by omega), if_neg (by omega), if_neg (by omega), if_neg (by omega), if_neg (by omega), if_neg (by omega), if_neg (by omega)]
  try rfl

/-- **C123, example.** The oscillator with `Conv` connections shows the spikes that `C115_example` shows for `Dense` ones. -/
theorem C123_example :
    Gives (platform 8 (convProcs exConvNet 2 oscSize 1 6 exData fun c => some (ex11, exKer11 c)) 2 (fun p => p % 2) exPms fun _ => 1) exBuilders [.run 6, .get 6 0] [.ran, .value [1, 1, 0, 0, 1, 1], .stopped] ∧
    Gives (platform 8 (convProcs exConvNet 2 oscSize 1 6 exData fun c => some (ex11, exKer11 c)) 2 (fun p => p % 2) exPms fun _ => 1) exBuilders [.run 6, .get 7 0] [.ran, .value [0, 1, 1, 0, 0, 1], .stopped] := by
  have f0 := C123_recorded_conv exConvNet 2 oscSize 1 6 exData _ ex_isConv 50 exCalls 2 _ _ _ _ _ _ _ _ _ (Snn.ex_deployed _ ex_convKind) ex_convArranged 6 (le_refl 6) 0 (by decide)
  have f1 := C123_recorded_conv exConvNet 2 oscSize 1 6 exData _ ex_isConv 50 exCalls 2 _ _ _ _ _ _ _ _ _ (Snn.ex_deployed _ ex_convKind) ex_convArranged 6 (le_refl 6) 1 (by decide)
  have e0 : (recorded (oscSize 0) 6 6 fun t i => fixSpike exConvNet (Snn.extOf 1 exData) t 0 i : List Int) = [1, 1, 0, 0, 1, 1] := by decide +kernel
  have e1 : (recorded (oscSize 1) 6 6 fun t i => fixSpike exConvNet (Snn.extOf 1 exData) t 1 i : List Int) = [0, 1, 1, 0, 0, 1] := by decide +kernel
  rw [e0] at f0
  rw [e1] at f1
  exact ⟨f0, f1⟩

end Verif.Swap
