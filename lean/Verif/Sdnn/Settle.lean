import Verif.Sdnn.Props

/-!
# C120: an input that does not change causes no spikes
-/

namespace Verif.Sdnn

open Verif.Wiring (Builders)
open Verif.PortGraph (G run)
open Verif.Snn (Proc platform accumFlt)
open Verif.Snn.Spec (Gives Deployed)
open Verif.Swap.Spec (stateAt sentAt)
open Verif.Pipe.Spec (Chain train)
open Verif.SDN (DPar DSt SDSt initD initSD sdStep deltaStep deltaStep_conserve deltaStep_residue activation Within gate)
open Spec

/-- A neuron whose value does not change keeps what it has kept back, and sends nothing. -/
theorem quiet (vth : ℚ) (d : DSt ℚ) (x : ℚ) : (deltaStep ⟨vth, false⟩ (deltaStep ⟨vth, false⟩ d x).1 x).2 = 0 := by
  have h := deltaStep_residue ⟨vth, false⟩ rfl d x
  have ha := (deltaStep_conserve ⟨vth, false⟩ d x).1
  generalize (deltaStep ⟨vth, false⟩ d x).1 = d' at h ha
  unfold deltaStep
  dsimp only
  rw [if_neg (by decide), ha, sub_self, zero_add]
  show gate vth d'.residue d'.residue = 0
  unfold gate
  rcases h with h | h
  · rw [h]; simp
  · rw [if_neg (not_le.2 h)]

section
variable (L : Nat) (lay : Nat → Layer) (len buf : Nat) (data : Nat → Nat → ℚ)

theorem train_dense {k : Nat} (hk : k ≤ L) (t i : Nat) : train (chain L lay len buf data) (2 * k + 2) (t + 1) i =
    ∑ j ∈ Finset.range (lay (k + 1)).cols, (lay (k + 1)).w i j * train (chain L lay len buf data) (2 * k + 1) t j := by
  show (sentAt (chain L lay len buf data (2 * k + 2)) (train (chain L lay len buf data) (2 * k + 1)) (t + 1)).getD 0 i = _
  rw [chain_dense L lay len buf data hk]
  show (denseProc (lay (k + 1))).out (stateAt (denseProc (lay (k + 1))) (train (chain L lay len buf data) (2 * k + 1)) (t + 1)) i = _
  rw [stateAt_dense]
  show accumFlt _ true _ _ i = _
  unfold accumFlt
  rw [if_pos rfl]

theorem dense_quiet {k t : Nat} (hk : k ≤ L) (h : ∀ j, train (chain L lay len buf data) (2 * k + 1) t j = 0) (i : Nat) : train (chain L lay len buf data) (2 * k + 2) (t + 1) i = 0 := by
  rw [train_dense L lay len buf data hk]
  exact Finset.sum_eq_zero fun j _ => by rw [h j, mul_zero]

/-- If the input does not change from step `t₀` on, layer `k` is silent after step `t₀ + k`. -/
theorem layer_quiet (hcum : ∀ k, k ≤ L → (lay k).cum = false) (t₀ : Nat) (hin : ∀ t, t₀ ≤ t → data (t % len) = data (t₀ % len)) : ∀ k, k ≤ L → ∀ t, t₀ + k ≤ t → ∀ i,
    train (chain L lay len buf data) (2 * k + 1) (t + 1) i = 0
  | 0, hk, t, ht, i => by
    show (sentAt (deltaProc (lay 0).rows (lay 0).vth (lay 0).cum) (train (chain L lay len buf data) 0) (t + 1)).getD 0 i = 0
    unfold deltaProc
    rw [sent_graded]
    show (deltaStep ⟨(lay 0).vth i, (lay 0).cum⟩ (deltaStep ⟨(lay 0).vth i, (lay 0).cum⟩ (cell _ _ t).d (train (chain L lay len buf data) 0 t i)).1 (train (chain L lay len buf data) 0 (t + 1) i)).2 = 0
    rw [train_source, train_source, hin t (by omega), hin (t + 1) (by omega), hcum 0 hk]
    exact quiet _ _ _
  | k + 1, hk, t, ht, i => by
    obtain ⟨u, rfl⟩ : ∃ u, t = u + 1 := ⟨t - 1, by omega⟩
    have ih := layer_quiet hcum t₀ hin k (by omega) u (by omega)
    have hz := dense_quiet L lay len buf data (by omega) ih i
    show (sentAt (chain L lay len buf data (2 * k + 3)) (train (chain L lay len buf data) (2 * k + 2)) (u + 1 + 1)).getD 0 i = 0
    rw [chain_sd L lay len buf data (by omega)]
    unfold sdProc
    rw [sent_graded]
    show (sdStep _ _ _ (sdStep ⟨(lay (k + 1)).vth i, (lay (k + 1)).cum⟩ (lay (k + 1)).relu ((lay (k + 1)).bias i) (cell _ _ (u + 1)) (train (chain L lay len buf data) (2 * k + 2) (u + 1) i)).1
      (train (chain L lay len buf data) (2 * k + 2) (u + 1 + 1) i)).2 = 0
    rw [hz, hcum (k + 1) hk]
    show (deltaStep _ (deltaStep _ _ _).1 (activation (lay (k + 1)).relu ((lay (k + 1)).bias i) (0 + _))).2 = 0
    rw [zero_add]
    exact quiet _ _ _

theorem sigma_settled (hcum : ∀ k, k ≤ L → (lay k).cum = false) (t₀ : Nat) (hin : ∀ t, t₀ ≤ t → data (t % len) = data (t₀ % len)) : ∀ t, t₀ + L + 2 ≤ t → ∀ i,
    train (chain L lay len buf data) (2 * L + 3) t i = train (chain L lay len buf data) (2 * L + 3) (t₀ + L + 1) i := by
  intro t ht i
  obtain ⟨n, rfl⟩ := Nat.exists_eq_add_of_le (show t₀ + L + 1 ≤ t by omega)
  clear ht
  induction n with
  | zero => rfl
  | succ n ih =>
    rw [← ih, train_sigma, train_sigma]
    apply Finset.sum_congr rfl
    intro j _
    congr 1
    rw [show t₀ + L + 1 + (n + 1) = t₀ + L + 1 + n + 1 by omega]
    unfold total
    rw [Finset.sum_range_succ, show t₀ + L + 1 + n = t₀ + L + n + 1 by omega, layer_quiet L lay len buf data hcum t₀ hin L (Nat.le_refl L) (t₀ + L + n) (by omega), add_zero]

end

/-- **C120.** If errors are not accumulated and the input does not change from step `t₀` on, what the sink records does not change from step `t₀ + L + 1` on. -/
theorem C120_settles (L : Nat) (lay : Nat → Layer) (len buf : Nat) (data : Nat → Nat → ℚ) (hcum : ∀ k, k ≤ L → (lay k).cum = false) (t₀ : Nat)
    (hin : ∀ t, t₀ ≤ t → data (t % len) = data (t₀ % len)) (lim : Nat) (calls : List PortGraph.Op) (k : Nat) (svc : Nat → Nat) (pms : Nat → List Nat) (cap : Nat → Nat) (own : Nat → Nat)
    (name : Nat → String) (outs : Nat → List Nat) (procs : List Nat) (has : Nat → String → Bool) (b : Builders)
    (hd : Deployed lim calls (2 * L + 5) (chain L lay len buf data) k svc pms cap own name outs procs has b)
    (hc : Chain (run lim G.empty calls) (2 * L + 5) own name (chain L lay len buf data)) :
    ∃ out : Nat → Nat → ℚ,
      (∀ t, t₀ + L + 1 ≤ t → ∀ i, out t i = out (t₀ + L + 1) i) ∧
      ∀ T, T ≤ buf → Gives (platform (2 * L + 5) (chain L lay len buf data) k svc pms cap) b [.run T, .get (2 * L + 4) 0]
        [.ran, .value (table (lay (L + 1)).rows buf T out), .stopped] := by
  refine ⟨train (chain L lay len buf data) (2 * L + 3), fun t ht i => ?_, fun T hT => recorded_chain L lay len buf data lim calls k svc pms cap own name outs procs has b hd hc T hT⟩
  rcases Nat.lt_or_ge t (t₀ + L + 2) with h | h
  · rw [show t = t₀ + L + 1 by omega]
  · exact sigma_settled L lay len buf data hcum t₀ hin t h i

end Verif.Sdnn
