import Verif.Plastic.Loihi
import Verif.Plastic.Spec
import Verif.Learning.FloatSpec

/-!
# Reference: equations of a network with spike-timing dependent plasticity

Everything is stated in terms of the spikes `spk q i t` (neuron `i` of population `q` in step `t`, from 1 on).
-/

namespace Verif.Plastic.Spec

open Verif.Neurons (FLSt flStep)
open Verif.Learning.Spec (Later trace pairStdp OnePerEpoch)
open Verif.PortGraph (G)
open Verif.Snn.Spec (Feeds)

/-- The change of a weight in `n` steps according to STDP with epochs of `T` steps: the last spike of a pre-synaptic neuron in an epoch adds `aMinus` times the post-synaptic trace, the last
spike of a post-synaptic neuron `aPlus` times the pre-synaptic trace. -/
def stdpChange (T : Nat) (aMinus aPlus impX dx impY dy : ℚ) (pre post : Nat → Bool) (n : Nat) : ℚ :=
  ∑ t ∈ Finset.Icc 1 n, ((if pre t = true ∧ ¬ Later T pre t then aMinus * trace impY dy T post t else 0) +
    (if post t = true ∧ ¬ Later T post t then aPlus * trace impX dx T pre t else 0))

/-- Learning rate times amplitude, each rounded to a mantissa and a power of two (C86). -/
def amount (lr a : ℚ) : ℚ := Learning.litValue (Learning.floatToLiteral lr) * Learning.litValue (Learning.floatToLiteral a)

/-- The weight from neuron `j` to neuron `i` after `t` steps: it changes at the end of epochs. -/
def weight (c : PConn) (spk : Nat → Nat → Nat → Bool) (t i j : Nat) : ℚ :=
  match c.rule with
  | none => c.w0 i j
  | some r => c.w0 i j + stdpChange r.cfg.tEpoch (amount r.lr r.aMinus) (amount r.lr r.aPlus) r.cfg.cx1.imp r.dx r.cfg.cy1.imp r.dy (spk c.src j) (spk c.dst i)
      (t / r.cfg.tEpoch * r.cfg.tEpoch)

/-- What neuron `i` of population `q` receives in step `t`: external input, and for every spike of the step before the weight it had when the spike was sent. -/
def input (net : PNet) (ext : Nat → Nat → Nat → ℚ) (spk : Nat → Nat → Nat → Bool) (t q i : Nat) : ℚ :=
  ext t q i + (net.conns.map fun c => if c.dst = q then ∑ j ∈ (Finset.range c.nIn).filter (fun j => spk c.src j (t - 1) = true), weight c spk (t - 2) i j else 0).sum

/-- Current and voltage after `t` steps. -/
def membrane (net : PNet) (ext : Nat → Nat → Nat → ℚ) (spk : Nat → Nat → Nat → Bool) (q i : Nat) : Nat → FLSt
  | 0 => ⟨0, 0⟩
  | t + 1 => (flStep (net.lif q i) (membrane net ext spk q i t) (input net ext spk (t + 1) q i)).1

/-- `spk` are spikes of the network: a neuron spikes when its voltage exceeds the threshold. -/
structure Solves (net : PNet) (np : Nat) (ext : Nat → Nat → Nat → ℚ) (spk : Nat → Nat → Nat → Bool) : Prop where
  start : ∀ q i, spk q i 0 = false
  step : ∀ q, q < np → ∀ i t, spk q i (t + 1) = (flStep (net.lif q i) (membrane net ext spk q i t) (input net ext spk (t + 1) q i)).2

/-- Rules considered: `STDPLoihi` with regular impulses, weights of both signs and time constants other than 0. -/
structure Rule.Ok (r : Rule) : Prop where
  epoch : 0 < r.cfg.tEpoch
  graded : r.cfg.graded = .regular
  two : r.cfg.two = true
  mode : r.cfg.mode = .mixed
  dw : r.cfg.dw = Learning.compileRule (Learning.stdpText (Learning.floatToLiteral r.lr) (Learning.floatToLiteral r.aMinus) (Learning.floatToLiteral r.aPlus))
  parses : r.cfg.dw ≠ none
  dx : r.cfg.cx1.decay = some r.dx
  dy : r.cfg.cy1.decay = some r.dy

/-- The connections of the network: processes `0 ..< np` are the populations, then come the connections, a source for each population and a sink for each population. A learning connection also gets the spikes of the
population it goes to. -/
structure Arrangement (g : G) (own : Nat → Nat) (name : Nat → String) (np : Nat) (conns : List PConn) : Prop where
  pops : ∀ q, q < np → ∀ p, Feeds g (np + conns.length + np + np) own name p q "a_in" ↔
    p = np + conns.length + q ∨ ∃ c, ∃ h : c < conns.length, conns[c].dst = q ∧ p = np + c
  links : ∀ c (h : c < conns.length), conns[c].src < np ∧ ∀ p, Feeds g (np + conns.length + np + np) own name p (np + c) "s_in" ↔ p = conns[c].src
  baps : ∀ c (h : c < conns.length), conns[c].rule ≠ none → conns[c].dst < np ∧ ∀ p, Feeds g (np + conns.length + np + np) own name p (np + c) "s_in_bap" ↔ p = conns[c].dst
  sinks : ∀ q, q < np → ∀ p, Feeds g (np + conns.length + np + np) own name p (np + conns.length + np + q) "a_in" ↔ p = q

end Verif.Plastic.Spec
