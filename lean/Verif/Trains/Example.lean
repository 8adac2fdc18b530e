import Verif.Trains.Delays
import Verif.Swap.Example

/-!
# C119: an example

The oscillator of `Verif.Swap.Example` with delays: spikes of population 0 arrive two steps later at population 1.
-/

namespace Verif.Trains

open Verif.PortGraph (G run)
open Verif.Snn (platform exCalls exBuilders exPms exOwn exName exOuts exG exData)
open Verif.Snn.Spec (Gives Arrangement recorded)
open Verif.SpikeNet (Net Conn oscSize)
open Verif.Swap (exNet ex_arranged)
open Spec

namespace Spec

/-- What the equations say if the spikes were `s`. -/
def improve (net : Net) (ans : Nat → (Nat → Nat → Int) → Nat → Nat → Int) (ext : Nat → Nat → Nat → Int) (s : Nat → Nat → Nat → Bool) (q t i : Nat) : Bool :=
  lifSpike (net.lif q i) (net.vth q i) (fun u => input net.conns ans ext s q u i) t

end Spec

theorem lifObj_congr (par : LIF.Par) (vth : Int) {a a' : Nat → Int} : ∀ t, (∀ u, u < t → a u = a' u) → lifObj par vth a t = lifObj par vth a' t
  | 0, _ => rfl
  | t + 1, h => by
    unfold lifObj
    rw [lifObj_congr par vth t fun u hu => h u (by omega), h t (by omega)]

/-- **C119.** If connections answer in a step only to what they have received before, the spikes of the first `k` steps are found by inserting any guess into the equations `k` times. -/
theorem C119_computed (net : Net) (np : Nat) (ans : Nat → (Nat → Nat → Int) → Nat → Nat → Int) (ext : Nat → Nat → Nat → Int)
    (hans : ∀ c a a' t i, (∀ u, u < t → a u = a' u) → ans c a t i = ans c a' t i) (hsrc : ∀ k ∈ net.conns, k.src < np) (s : Nat → Nat → Nat → Bool) (hs : SpikeEq net np ans ext s)
    (guess : Nat → Nat → Nat → Bool) : ∀ k t, t < k → ∀ q, q < np → ∀ i, s q t i = (improve net ans ext)^[k] guess q t i
  | 0, t, h, _, _, _ => absurd h (Nat.not_lt_zero t)
  | k + 1, t, h, q, hq, i => by
    rw [Function.iterate_succ_apply', hs q hq t i]
    have hin : ∀ u, u ≤ t → input net.conns ans ext s q u i = input net.conns ans ext ((improve net ans ext)^[k] guess) q u i := by
      intro u hu
      unfold input
      congr 2
      apply List.map_congr_left
      intro c hc
      rw [List.mem_range] at hc
      rw [List.getElem?_eq_getElem hc]
      dsimp only
      split
      · apply hans
        intro v hv
        funext j
        rw [C119_computed net np ans ext hans hsrc s hs guess k v (by omega) _ (hsrc _ (List.getElem_mem hc)) j]
      · rfl
    show _ = lifSpike (net.lif q i) (net.vth q i) (fun u => input net.conns ans ext ((improve net ans ext)^[k] guess) q u i) t
    unfold lifSpike
    dsimp only
    rw [lifObj_congr _ _ t fun u hu => hin u (Nat.le_of_lt hu), hin t (Nat.le_refl t)]

theorem delayAns_causal (net : Net) (size : Nat → Nat) (delay : Nat → Nat → Nat → Nat) (c : Nat) (a a' : Nat → Nat → Int) (t i : Nat) (h : ∀ u, u < t → a u = a' u) :
    delayAns net size delay c a t i = delayAns net size delay c a' t i := by
  unfold delayAns
  split
  · split
    · unfold delivered
      apply Finset.sum_congr rfl
      intro j _
      split
      · rw [h _ (by omega)]
      · rfl
    · rfl
  · rfl

/-- Two steps for spikes of population 0, none for those of population 1. -/
def exDelays (c _ _ : Nat) : Nat := if c = 0 then 2 else 0

theorem ex_kind (p : Nat) : (delayProcs exNet 2 oscSize 1 8 exData (fun _ => 3) exDelays p).kind = Snn.exKind p := by
  rcases p with _ | _ | _ | _ | _ | _ | _ | _ | p
  iterate 8 exact rfl
  unfold delayProcs Swap.anyProcs Snn.arranged Snn.exKind
  rw [show exNet.conns.length = 2 from rfl]
  rw [if_neg (by omega), if_neg (by omega), if_neg (by omega), if_neg (by omega), if_neg (by omega), if_neg (by omega), if_neg (by omega), if_neg (by omega)]
  try rfl

/-- **C119, example.** The oscillator runs with twice the period of `C118_example`. -/
theorem C119_example :
    Gives (platform 8 (delayProcs exNet 2 oscSize 1 8 exData (fun _ => 3) exDelays) 2 (fun p => p % 2) exPms fun _ => 1) exBuilders [.run 8, .get 6 0]
      [.ran, .value [1, 1, 1, 1, 0, 0, 0, 0], .stopped] := by
  obtain ⟨s, h1, _, h2⟩ := C119_delays exNet 2 oscSize 1 8 exData (fun _ => 3) exDelays (by decide) (by intro c i j; unfold exDelays; split <;> omega) 50 exCalls 2 _ _ _ _ _ _ _ _ _
    (Snn.ex_deployed _ ex_kind) ex_arranged
  have f := h2 8 (Nat.le_refl 8) 0 (by decide)
  have hc := C119_computed exNet 2 (delayAns exNet oscSize exDelays) (Snn.extOf 1 exData) (delayAns_causal exNet oscSize exDelays) (by decide) s h1 (fun _ _ _ => false) 8
  have e : (recorded (oscSize 0) 8 8 fun t i => s 0 t i : List Int) = recorded (oscSize 0) 8 8 fun t i => (improve exNet (delayAns exNet oscSize exDelays) (Snn.extOf 1 exData))^[8] (fun _ _ _ => false) 0 t i := by
    unfold recorded
    apply List.map_congr_left
    intro j _
    by_cases h : j % 8 < 8
    · simp only [hc (j % 8) h 0 (by decide)]
    · simp [h]
  rw [e] at f
  have e' : (recorded (oscSize 0) 8 8 fun t i => (improve exNet (delayAns exNet oscSize exDelays) (Snn.extOf 1 exData))^[8] (fun _ _ _ => false) 0 t i : List Int) = [1, 1, 1, 1, 0, 0, 0, 0] := by decide +kernel
  rw [e'] at f
  exact f

end Verif.Trains
