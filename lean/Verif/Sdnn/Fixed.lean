import Verif.Sdnn.FixedModel
import Verif.Sdnn.Props
import Verif.Dense.Props

/-!
# C121: sigma-delta networks in fixed point
-/

namespace Verif.Sdnn

open Verif.Wiring (Builders)
open Verif.EndToEnd (Call Res)
open Verif.PortGraph (G run)
open Verif.Snn (Proc Kind Vars platform connProc sourceProc sinkProc noProc)
open Verif.Snn.Spec (Gives Deployed)
open Verif.Swap.Spec (stateAt sentAt)
open Verif.Trains.Spec (shown)
open Verif.Pipe.Spec (Chain train incoming)
open Verif.SDN (DPar DSt SDSt initD initSD deltaStep deltaStep_conserve deltaStep_dvd corrStep shr shr_bounds shr_mul_of_dvd gate gate_cases activation)
open Spec

/-- The update of a `Delta` neuron. -/
def deltaUpd (thr : Int) (cum : Bool) (k e : Nat) (s : SDSt Int) (a : Int) : SDSt Int × Int :=
  ({ s with d := (deltaStep ⟨thr, cum⟩ s.d (a * 2 ^ (k + e))).1 }, shr (deltaStep ⟨thr, cum⟩ s.d (a * 2 ^ (k + e))).2 e)

/-- Nothing is lost by the shift. -/
theorem deltaUpd_dvd (thr : Int) (cum : Bool) (k e : Nat) (a : Nat → Int) : ∀ t, (2 : Int) ^ e ∣ (cell (deltaUpd thr cum k e) a t).d.act ∧ (2 : Int) ^ e ∣ (cell (deltaUpd thr cum k e) a t).d.residue
  | 0 => ⟨dvd_zero _, dvd_zero _⟩
  | t + 1 => by
    obtain ⟨h1, h2⟩ := deltaUpd_dvd thr cum k e a t
    have ha : (2 : Int) ^ e ∣ a t * 2 ^ (k + e) := by rw [pow_add]; exact ⟨a t * 2 ^ k, by ring⟩
    have h := deltaStep_dvd (2 ^ e) ⟨thr, cum⟩ (cell (deltaUpd thr cum k e) a t).d _ ha h1 h2
    exact ⟨h.2.1, h.2.2⟩

theorem delta_fixed (thr : Int) (cum : Bool) (k e : Nat) (hv : 0 ≤ thr) (a : Nat → Int) (t : Nat) :
    |(∑ u ∈ Finset.range (t + 1), (deltaUpd thr cum k e (cell (deltaUpd thr cum k e) a u) (a u)).2) * 2 ^ e - a t * 2 ^ (k + e)| ≤ if cum then 2 * thr else thr := by
  refine coded thr cum (2 ^ e) hv (deltaUpd thr cum k e) (fun _ x => x * 2 ^ (k + e)) (fun _ _ => rfl) a (fun t => ?_) t
  have ha : (2 : Int) ^ e ∣ a t * 2 ^ (k + e) := by rw [pow_add]; exact ⟨a t * 2 ^ k, by ring⟩
  obtain ⟨h1, h2⟩ := deltaUpd_dvd thr cum k e a t
  exact shr_mul_of_dvd _ _ (deltaStep_dvd (2 ^ e) ⟨thr, cum⟩ (cell (deltaUpd thr cum k e) a t).d _ ha h1 h2).1

/-- The update of a corrected `SigmaDelta` neuron. -/
def corrUpd (thr : Int) (relu : Bool) (off : Int) (e : Nat) (s : SDSt Int) (a : Int) : SDSt Int × Int :=
  ({ sigma := (corrStep thr relu off e ⟨s.sigma, s.d.act⟩ a).1.sigma, d := { s.d with act := (corrStep thr relu off e ⟨s.sigma, s.d.act⟩ a).1.act } }, (corrStep thr relu off e ⟨s.sigma, s.d.act⟩ a).2)

theorem corr_fixed (thr : Int) (relu : Bool) (off : Int) (e : Nat) (a : Nat → Int) (t : Nat) :
    |(∑ u ∈ Finset.range (t + 1), (corrUpd thr relu off e (cell (corrUpd thr relu off e) a u) (a u)).2) * 2 ^ e - activation relu off (∑ u ∈ Finset.range (t + 1), a u)| ≤ max thr (2 ^ e) := by
  have hact : ∀ t, (∑ u ∈ Finset.range t, (corrUpd thr relu off e (cell (corrUpd thr relu off e) a u) (a u)).2) * 2 ^ e = (cell (corrUpd thr relu off e) a t).d.act := by
    intro t
    induction t with
    | zero => simp [cell, initSD, initD]
    | succ t ih =>
      rw [Finset.sum_range_succ, add_mul, ih]
      rfl
  have hsig := sigma_sum (corrUpd thr relu off e) (fun _ _ => rfl) a t
  rw [Finset.sum_range_succ, add_mul, hact t, Finset.sum_range_succ a, ← hsig, add_comm _ (a t)]
  show |_ + shr (gate thr (activation relu off (a t + (cell (corrUpd thr relu off e) a t).sigma) - (cell (corrUpd thr relu off e) a t).d.act)
    (activation relu off (a t + (cell (corrUpd thr relu off e) a t).sigma) - (cell (corrUpd thr relu off e) a t).d.act)) e * 2 ^ e - _| ≤ _
  generalize activation relu off (a t + (cell (corrUpd thr relu off e) a t).sigma) = x
  generalize (cell (corrUpd thr relu off e) a t).d.act = y
  rcases gate_cases thr (x - y) (x - y) with ⟨_, h⟩ | ⟨h1, h⟩
  · rw [h]
    have hb := shr_bounds (x - y) e
    refine le_trans ?_ (le_max_right _ _)
    rw [abs_le]; constructor <;> linarith
  · rw [h]
    have h0 : shr 0 e = 0 := by simp [shr]
    rw [h0]
    refine le_trans ?_ (le_max_left _ _)
    have : y + 0 * 2 ^ e - x = -(x - y) := by ring
    rw [this, abs_neg]; exact le_of_lt h1

/-! ### The connections -/

theorem stateAt_denseFixed (l : FLayer) (a : Nat → Nat → Int) : ∀ t, stateAt (denseFixed l) a t = .conn (Dense.stateAt l.par (Dense.init l.w) a t)
  | 0 => rfl
  | t + 1 => by
    show (denseFixed l).absorb (stateAt (denseFixed l) a t) (a t) = _
    rw [stateAt_denseFixed l a t]
    rfl

theorem denseFixed_sum (l : FLayer) (hg : l.par.graded = true) (he : 0 ≤ l.par.weightExp) (a : Nat → Nat → Int) (i : Nat) : ∀ t,
    ((∑ u ∈ Finset.range (t + 1), (sentAt (denseFixed l) a u).getD 0 i : Int) : ℚ) = ∑ j ∈ Finset.range l.par.nIn, weight l i j * ((∑ u ∈ Finset.range t, a u j : Int) : ℚ)
  | 0 => by
    rw [Nat.zero_add, Finset.range_one, Finset.sum_singleton]
    simp only [Finset.range_zero, Finset.sum_empty, Int.cast_zero, mul_zero, Finset.sum_const_zero]
    rfl
  | t + 1 => by
    rw [Finset.sum_range_succ, Int.cast_add, denseFixed_sum l hg he a i t]
    have e : (sentAt (denseFixed l) a (t + 1)).getD 0 i = (∑ j ∈ Finset.range l.par.nIn, Dense.prepared l.par l.w i j * a t j) * 2 ^ l.par.weightExp.toNat := by
      show (denseFixed l).out (stateAt (denseFixed l) a (t + 1)) i = _
      rw [stateAt_denseFixed]
      have h := (Dense.C39_dense_product l.par l.w a i).2 t
      rw [hg, if_pos rfl, ← Dense.shiftExp_scaled] at h
      refine Eq.trans h ?_
      unfold Dense.shiftExp
      by_cases h0 : l.par.weightExp > 0
      · rw [if_pos h0]; rfl
      · rw [if_neg h0, show l.par.weightExp = 0 by omega]
        simp [Dense.matVec]
    rw [e]
    push_cast
    rw [Finset.sum_mul, ← Finset.sum_add_distrib]
    apply Finset.sum_congr rfl
    intro j _
    rw [Finset.sum_range_succ]
    unfold weight
    ring

/-! ### The chain -/

section
variable (L : Nat) (lay : Nat → FLayer) (len buf : Nat) (data : Nat → Nat → Int)

theorem fixChain_dense {k : Nat} (hk : k ≤ L) : fixChain L lay len buf data (2 * k + 2) = denseFixed (lay (k + 1)) := by
  unfold fixChain
  rw [if_neg (by omega), if_neg (by omega), if_pos (by omega), if_pos (by omega)]
  congr 2; omega

theorem fixChain_sd {k : Nat} (hk : k < L) : fixChain L lay len buf data (2 * k + 3) = sdFix (lay (k + 1)) := by
  unfold fixChain
  rw [if_neg (by omega), if_neg (by omega), if_pos (by omega), if_neg (by omega)]
  congr 2; omega

theorem fixChain_sigma : fixChain L lay len buf data (2 * L + 3) = sigmaProc (lay (L + 1)).rows := by
  unfold fixChain
  rw [if_neg (by omega), if_neg (by omega), if_neg (by omega), if_pos rfl]

theorem fixChain_sink : fixChain L lay len buf data (2 * L + 4) = sinkProc (lay (L + 1)).rows buf := by
  unfold fixChain
  rw [if_neg (by omega), if_neg (by omega), if_neg (by omega), if_neg (by omega), if_pos rfl]

/-- Sum of everything that layer `k` has sent in the first `t` steps. -/
def fixTotal (k t i : Nat) : Int := ∑ u ∈ Finset.range t, train (fixChain L lay len buf data) (2 * k + 1) u i

theorem fixTrain_source (t : Nat) : train (fixChain L lay len buf data) 0 t = data (t % len) := by
  have h : ∀ t, stateAt (sourceProc (lay 0).rows len data : Proc IVars _ _) (fun _ => 0) t = .ring t data := by
    intro t
    induction t with
    | zero => rfl
    | succ t ih =>
      show (sourceProc (lay 0).rows len data : Proc IVars _ _).begin_ (stateAt (sourceProc (lay 0).rows len data : Proc IVars _ _) (fun _ => 0) t) = _
      rw [ih]; rfl
  show (sourceProc (lay 0).rows len data : Proc IVars _ _).out ((sourceProc (lay 0).rows len data : Proc IVars _ _).begin_ (stateAt (sourceProc (lay 0).rows len data : Proc IVars _ _) (fun _ => 0) t)) = _
  rw [h]
  show IO.sourceSend data len (t + 1) = _
  unfold IO.sourceSend
  rw [Nat.add_sub_cancel]

variable (hg : ∀ k, k ≤ L → (lay (k + 1)).par.graded = true) (he : ∀ k, k ≤ L → 0 ≤ (lay (k + 1)).par.weightExp)

include hg he in
theorem fixDense_total {k : Nat} (hk : k ≤ L) (t i : Nat) : ((∑ u ∈ Finset.range (t + 1), train (fixChain L lay len buf data) (2 * k + 2) u i : Int) : ℚ) =
    ∑ j ∈ Finset.range (lay (k + 1)).par.nIn, weight (lay (k + 1)) i j * (fixTotal L lay len buf data k t j : ℚ) := by
  refine Eq.trans ?_ (denseFixed_sum (lay (k + 1)) (hg k hk) (he k hk) (train (fixChain L lay len buf data) (2 * k + 1)) i t)
  congr 1
  apply Finset.sum_congr rfl
  intro u _
  show (sentAt (fixChain L lay len buf data (2 * k + 2)) (train (fixChain L lay len buf data) (2 * k + 1)) u).getD 0 i = _
  rw [fixChain_dense L lay len buf data hk]

theorem activation_cast (relu : Bool) (b x : Int) : ((activation relu b x : Int) : ℚ) = activation relu (b : ℚ) (x : ℚ) := by
  unfold activation
  cases relu
  · simp
  · simp

include hg he in
/-- After `k` steps, what layer `k` has sent adds up to the output of the layer for the input of `k` steps ago. -/
theorem fixLayer_total (hv : ∀ i, 0 ≤ (lay 0).vth i) : ∀ k, k ≤ L → ∀ t, k ≤ t → ∀ i,
    |(fixTotal L lay len buf data k (t + 1) i : ℚ) - fixForward lay (data ((t - k) % len)) k i| ≤ fixSlack lay k i
  | 0, _, t, _, i => by
    have h := delta_fixed ((lay 0).thr i) (lay 0).cum (lay 0).spikeExp (lay 0).stateExp (mul_nonneg (hv i) (by positivity)) (fun u => train (fixChain L lay len buf data) 0 u i) t
    have e : fixTotal L lay len buf data 0 (t + 1) i = ∑ u ∈ Finset.range (t + 1),
        (deltaUpd ((lay 0).thr i) (lay 0).cum (lay 0).spikeExp (lay 0).stateExp
          (cell (deltaUpd ((lay 0).thr i) (lay 0).cum (lay 0).spikeExp (lay 0).stateExp) (fun u => train (fixChain L lay len buf data) 0 u i) u) (train (fixChain L lay len buf data) 0 u i)).2 :=
      Finset.sum_congr rfl fun u _ => by
        show (sentAt (deltaFix (lay 0)) (train (fixChain L lay len buf data) 0) u).getD 0 i = _
        unfold deltaFix
        rw [sent_graded]
        rfl
    rw [← e, fixTrain_source] at h
    have h' : |(fixTotal L lay len buf data 0 (t + 1) i : ℚ) * 2 ^ (lay 0).stateExp - (data (t % len) i : ℚ) * 2 ^ ((lay 0).spikeExp + (lay 0).stateExp)| ≤
        (if (lay 0).cum then 2 else 1) * (lay 0).vth i * 2 ^ ((lay 0).spikeExp + (lay 0).stateExp) := by
      have h2 : ((|fixTotal L lay len buf data 0 (t + 1) i * 2 ^ (lay 0).stateExp - data (t % len) i * 2 ^ ((lay 0).spikeExp + (lay 0).stateExp)| : Int) : ℚ) ≤
          ((if (lay 0).cum then 2 * (lay 0).thr i else (lay 0).thr i : Int) : ℚ) := Int.cast_le.2 h
      push_cast at h2
      refine h2.trans (le_of_eq ?_)
      unfold FLayer.thr
      push_cast
      split <;> ring
    have hp : (0 : ℚ) < 2 ^ (lay 0).stateExp := by positivity
    rw [Nat.sub_zero]
    show |_ - (data (t % len) i : ℚ) * 2 ^ (lay 0).spikeExp| ≤ _ * _ * 2 ^ (lay 0).spikeExp
    rw [← mul_le_mul_iff_left₀ hp, ← abs_of_pos hp, ← abs_mul, abs_of_pos hp]
    refine le_trans (le_of_eq ?_) (h'.trans (le_of_eq ?_))
    · congr 1; rw [pow_add]; ring
    · rw [pow_add]; ring
  | k + 1, hk, t, ht, i => by
    obtain ⟨t, rfl⟩ : ∃ u, t = u + 1 := ⟨t - 1, by omega⟩
    have ih := fixLayer_total hv k (by omega) t (by omega)
    have h := corr_fixed ((lay (k + 1)).thr i) (lay (k + 1)).relu ((lay (k + 1)).off i) (lay (k + 1)).stateExp (fun u => train (fixChain L lay len buf data) (2 * k + 2) u i) (t + 1)
    have e : fixTotal L lay len buf data (k + 1) (t + 1 + 1) i = ∑ u ∈ Finset.range (t + 1 + 1),
        (corrUpd ((lay (k + 1)).thr i) (lay (k + 1)).relu ((lay (k + 1)).off i) (lay (k + 1)).stateExp
          (cell (corrUpd ((lay (k + 1)).thr i) (lay (k + 1)).relu ((lay (k + 1)).off i) (lay (k + 1)).stateExp) (fun u => train (fixChain L lay len buf data) (2 * k + 2) u i) u)
          (train (fixChain L lay len buf data) (2 * k + 2) u i)).2 :=
      Finset.sum_congr rfl fun u _ => by
        show (sentAt (fixChain L lay len buf data (2 * k + 3)) (train (fixChain L lay len buf data) (2 * k + 2)) u).getD 0 i = _
        rw [fixChain_sd L lay len buf data (by omega)]
        unfold sdFix
        rw [sent_graded]
        rfl
    rw [← e] at h
    have h' : |(fixTotal L lay len buf data (k + 1) (t + 1 + 1) i : ℚ) * 2 ^ (lay (k + 1)).stateExp -
        activation (lay (k + 1)).relu ((lay (k + 1)).off i : ℚ) (∑ j ∈ Finset.range (lay (k + 1)).par.nIn, weight (lay (k + 1)) i j * (fixTotal L lay len buf data k (t + 1) j : ℚ))| ≤
        max ((lay (k + 1)).vth i * 2 ^ ((lay (k + 1)).spikeExp + (lay (k + 1)).stateExp) : ℚ) (2 ^ (lay (k + 1)).stateExp) := by
      rw [← fixDense_total L lay len buf data hg he (by omega) (t + 1) i, ← activation_cast]
      have h2 := (Int.cast_le (R := ℚ)).2 h
      unfold FLayer.thr at h2
      push_cast at h2 ⊢
      exact h2
    have hp : (0 : ℚ) < 2 ^ (lay (k + 1)).stateExp := by positivity
    have ef : fixForward lay (data ((t + 1 - (k + 1)) % len)) (k + 1) i =
        activation (lay (k + 1)).relu ((lay (k + 1)).off i : ℚ) (∑ j ∈ Finset.range (lay (k + 1)).par.nIn, weight (lay (k + 1)) i j * fixForward lay (data ((t - k) % len)) k j) /
          2 ^ (lay (k + 1)).stateExp := by
      rw [Nat.add_sub_add_right]
      unfold FLayer.off activation
      push_cast
      rfl
    rw [ef]
    have ha := activation_le (lay (k + 1)).relu ((lay (k + 1)).off i : ℚ) (∑ j ∈ Finset.range (lay (k + 1)).par.nIn, weight (lay (k + 1)) i j * (fixTotal L lay len buf data k (t + 1) j : ℚ))
      (∑ j ∈ Finset.range (lay (k + 1)).par.nIn, weight (lay (k + 1)) i j * fixForward lay (data ((t - k) % len)) k j)
    have hw := weighted_le (lay (k + 1)).par.nIn (weight (lay (k + 1)) i) _ _ _ ih
    have es : fixSlack lay (k + 1) i = ((∑ j ∈ Finset.range (lay (k + 1)).par.nIn, |weight (lay (k + 1)) i j| * fixSlack lay k j) +
        max ((lay (k + 1)).vth i * 2 ^ ((lay (k + 1)).spikeExp + (lay (k + 1)).stateExp) : ℚ) (2 ^ (lay (k + 1)).stateExp)) / 2 ^ (lay (k + 1)).stateExp := rfl
    rw [es]
    rw [le_div_iff₀ hp, ← abs_of_pos hp, ← abs_mul, abs_of_pos hp, sub_mul, div_mul_cancel₀ _ (ne_of_gt hp)]
    refine (abs_sub_le _ (activation (lay (k + 1)).relu ((lay (k + 1)).off i : ℚ)
      (∑ j ∈ Finset.range (lay (k + 1)).par.nIn, weight (lay (k + 1)) i j * (fixTotal L lay len buf data k (t + 1) j : ℚ))) _).trans ?_
    refine (add_le_add h' (ha.trans hw)).trans (le_of_eq ?_)
    exact add_comm _ _

include hg he in
/-- What `Sigma` sends is the read-out of what the last layer has sent. -/
theorem fixTrain_sigma (t i : Nat) : (train (fixChain L lay len buf data) (2 * L + 3) t i : ℚ) =
    ∑ j ∈ Finset.range (lay (L + 1)).par.nIn, weight (lay (L + 1)) i j * (fixTotal L lay len buf data L t j : ℚ) := by
  have e : train (fixChain L lay len buf data) (2 * L + 3) t i = train (fixChain L lay len buf data) (2 * L + 2) t i +
      (cell (fun s a => ({ s with sigma := a + s.sigma }, a + s.sigma)) (fun u => train (fixChain L lay len buf data) (2 * L + 2) u i) t).sigma := by
    show (sentAt (fixChain L lay len buf data (2 * L + 3)) (train (fixChain L lay len buf data) (2 * L + 2)) t).getD 0 i = _
    rw [fixChain_sigma]
    unfold sigmaProc
    rw [sent_graded]
    rfl
  rw [e, sigma_sum _ (fun _ _ => rfl), add_comm, ← Finset.sum_range_succ, fixDense_total L lay len buf data hg he (Nat.le_refl L)]

include hg he in
theorem fixSigma_close (hv : ∀ i, 0 ≤ (lay 0).vth i) (t : Nat) (ht : L + 1 ≤ t) (i : Nat) :
    |(train (fixChain L lay len buf data) (2 * L + 3) t i : ℚ) - fixOutput L lay (data ((t - (L + 1)) % len)) i| ≤ fixOutSlack L lay i := by
  obtain ⟨t, rfl⟩ : ∃ u, t = u + 1 := ⟨t - 1, by omega⟩
  rw [fixTrain_sigma L lay len buf data hg he, Nat.add_sub_add_right]
  exact weighted_le _ _ _ _ _ (fixLayer_total L lay len buf data hg he hv L (Nat.le_refl L) t (by omega))

end

theorem stateAt_sinkI (rows buf : Nat) (a : Nat → Nat → Int) : ∀ t, stateAt (sinkProc rows buf : Proc IVars _ _) a t = .ring t (IO.sinkAt (fun _ => 0) buf (fun τ => a (τ - 1)) t)
  | 0 => rfl
  | t + 1 => by
    show (sinkProc rows buf : Proc IVars _ _).absorb ((sinkProc rows buf : Proc IVars _ _).begin_ (stateAt (sinkProc rows buf : Proc IVars _ _) a t)) (a t) = _
    rw [stateAt_sinkI rows buf a t]
    rfl

/-- What the sink shows. -/
theorem recorded_fixChain (L : Nat) (lay : Nat → FLayer) (len buf : Nat) (data : Nat → Nat → Int)
    (lim : Nat) (calls : List PortGraph.Op) (k : Nat) (svc : Nat → Nat) (pms : Nat → List Nat) (cap : Nat → Nat) (own : Nat → Nat)
    (name : Nat → String) (outs : Nat → List Nat) (procs : List Nat) (has : Nat → String → Bool) (b : Builders)
    (hd : Deployed lim calls (2 * L + 5) (fixChain L lay len buf data) k svc pms cap own name outs procs has b)
    (hc : Chain (run lim G.empty calls) (2 * L + 5) own name (fixChain L lay len buf data)) (T : Nat) (hT : T ≤ buf) :
    Gives (platform (2 * L + 5) (fixChain L lay len buf data) k svc pms cap) b [.run T, .get (2 * L + 4) 0]
      [.ran, .value (fixTable (lay (L + 1)).rows buf T (train (fixChain L lay len buf data) (2 * L + 3))), .stopped] := by
  have h := Pipe.C120_chain lim calls (2 * L + 5) (fixChain L lay len buf data) k svc pms cap own name outs procs has b hd hc [.run T, .get (2 * L + 4) 0] (Snn.proper_get (by omega)) (by simp)
  have e : shown (fixChain L lay len buf data) (incoming (fixChain L lay len buf data)) false 0 [.run T, .get (2 * L + 4) 0] =
      [.ran, .value (fixTable (lay (L + 1)).rows buf T (train (fixChain L lay len buf data) (2 * L + 3))), .stopped] := by
    simp only [shown, Nat.zero_add]
    rw [show incoming (fixChain L lay len buf data) (2 * L + 4) = train (fixChain L lay len buf data) (2 * L + 3) from rfl, fixChain_sink, stateAt_sinkI]
    congr 3
    unfold fixTable
    apply List.map_congr_left
    intro j hj
    have hb : 0 < buf := by
      rw [List.mem_range] at hj
      rcases Nat.eq_zero_or_pos buf with h0 | h0
      · have hj : j < (lay (L + 1)).rows * buf := hj
        rw [h0, Nat.mul_zero] at hj; omega
      · exact h0
    show IO.sinkAt (fun _ => 0) buf (fun τ => train (fixChain L lay len buf data) (2 * L + 3) (τ - 1)) T (j % buf) (j / buf) = _
    rw [Snn.sink_column hT (Nat.mod_lt _ hb)]
    by_cases h1 : j % buf < T
    · rw [if_pos h1, if_pos h1]
    · rw [if_neg h1, if_neg h1]
  rw [e] at h
  exact h

/-- **C121.** The network of C120 in fixed point, with the corrected `SigmaDelta` model: from step `L + 1` on the sink records the output of the artificial neural network for the input of `L + 1` steps before,
with an error that does not grow with time: thresholds and lost bits carried through the weights. -/
theorem C121_fixed_sdn_is_ann (L : Nat) (lay : Nat → FLayer) (len buf : Nat) (data : Nat → Nat → Int) (hg : ∀ k, k ≤ L → (lay (k + 1)).par.graded = true)
    (he : ∀ k, k ≤ L → 0 ≤ (lay (k + 1)).par.weightExp) (hv : ∀ i, 0 ≤ (lay 0).vth i)
    (lim : Nat) (calls : List PortGraph.Op) (k : Nat) (svc : Nat → Nat) (pms : Nat → List Nat) (cap : Nat → Nat) (own : Nat → Nat)
    (name : Nat → String) (outs : Nat → List Nat) (procs : List Nat) (has : Nat → String → Bool) (b : Builders)
    (hd : Deployed lim calls (2 * L + 5) (fixChain L lay len buf data) k svc pms cap own name outs procs has b)
    (hc : Chain (run lim G.empty calls) (2 * L + 5) own name (fixChain L lay len buf data)) :
    ∃ out : Nat → Nat → Int,
      (∀ t, L + 1 ≤ t → ∀ i, |(out t i : ℚ) - fixOutput L lay (data ((t - (L + 1)) % len)) i| ≤ fixOutSlack L lay i) ∧
      ∀ T, T ≤ buf → Gives (platform (2 * L + 5) (fixChain L lay len buf data) k svc pms cap) b [.run T, .get (2 * L + 4) 0]
        [.ran, .value (fixTable (lay (L + 1)).rows buf T out), .stopped] :=
  ⟨train (fixChain L lay len buf data) (2 * L + 3), fixSigma_close L lay len buf data hg he hv, recorded_fixChain L lay len buf data lim calls k svc pms cap own name outs procs has b hd hc⟩

end Verif.Sdnn
