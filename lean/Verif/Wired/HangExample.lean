import Verif.Wired.Hang
import Verif.Wired.Example

/-!
# C117: an example of a circle

The network of `Wired.Example` in which the source 0 receives before it sends: it waits for the integrator, which waits for it.
-/

namespace Verif.Wired

open Verif.PortGraph (G Reaches dstPorts run Kind)
open Verif.EndToEnd (net initial seen Call Res)
open Verif.System (exec)
open Verif.Wiring (Port Builders buildChannels)
open Spec

def circPms : Nat → PM Int Int Int
  | 0 => exPM 1 [.recv "fb", .send "out"] (fun s _ v => s + v)
  | p + 1 => exPms (p + 1)

def circPlatform : Platform Int Int Int := { exPlatform with pm := circPms }

theorem circ_ops (p : Nat) (o : POp) : o ∈ (circPms p).ops ↔ o ∈ (exPms p).ops := by
  cases p with
  | zero =>
    show o ∈ [POp.recv "fb", POp.send "out"] ↔ o ∈ [POp.send "out", POp.recv "fb"]
    simp [or_comm]
  | succ p => rfl

theorem circ_script : Script (run 50 G.empty exCalls) 3 exOwn exName exOuts circPms where
  io := ex_script.io
  names := ex_script.names
  members := ex_script.members
  leafOut := ex_script.leafOut
  leafIn := ex_script.leafIn
  once p := by
    cases p with
    | zero => show [POp.recv "fb", POp.send "out"].Nodup; decide
    | succ p => exact ex_script.once (p + 1)
  recvs p x h := ex_script.recvs p x ((circ_ops p _).1 h)
  sends p x h := ex_script.sends p x ((circ_ops p _).1 h)
  usesIn i h1 h2 h3 h4 := (circ_ops _ _).2 (ex_script.usesIn i h1 h2 h3 h4)
  usesOut i h1 h2 h3 h4 := (circ_ops _ _).2 (ex_script.usesOut i h1 h2 h3 h4)

theorem circ_circle : ¬ NoCircleOfPorts (run 50 G.empty exCalls) 3 exOwn exName circPms := by
  refine Classical.not_not.2 ⟨fun o => o = 0 ∨ o = 5, ⟨0, Or.inl rfl⟩, ?_⟩
  rintro o (rfl | rfl)
  · refine ⟨by decide +kernel, by decide, 5, "fb", Or.inr rfl, ⟨by decide, by decide +kernel, 1, rfl, rfl, by decide +kernel, .direct (by decide +kernel)⟩, [], [], [], rfl⟩
  · refine ⟨by decide +kernel, by decide, 0, "inp", Or.inl rfl, ⟨by decide, by decide +kernel, 3, rfl, rfl, by decide +kernel, .step (m := 2) (by decide +kernel) (.direct (by decide +kernel))⟩,
      [], [.recv "bias"], [], rfl⟩

/-- **C117, example.** All hypotheses of `C117_run_returns_iff` hold of this network; it has a circle, so its first `run` never returns. -/
theorem C117_example :
    Script (run 50 G.empty exCalls) 3 exOwn exName exOuts circPms ∧ Hosted circPlatform ∧ ¬ NoCircleOfPorts (run 50 G.empty exCalls) 3 exOwn exName circPms ∧
    ∀ l, seen (exec (net (sys circPlatform exBuilders fun _ => [])) (initial (sys circPlatform exBuilders fun _ => []) [.get 2 0, .run 1, .get 2 0]) l) <+: [.notStarted] := by
  obtain ⟨h1, h2, _, h4, _, _, h7, _⟩ := C114_example
  have hh : Hosted circPlatform := ⟨ex_hosted.cap, ex_hosted.svc, ex_hosted.pms⟩
  refine ⟨circ_script, hh, circ_circle, fun l => ?_⟩
  refine (C117_run_returns_iff circPlatform 50 exCalls h1 exOwn exName exOuts [2, 0, 1] h2 circ_script h4 hh _ exBuilders h7 [.get 2 0] [.get 2 0] (by simp) 0 ⟨?_, ?_, ⟨1, by simp⟩⟩).2 circ_circle l
  · intro p x h
    simp at h
    show p < 3
    omega
  · intro p x ws h
    simp at h

end Verif.Wired
