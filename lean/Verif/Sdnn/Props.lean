import Verif.Sdnn.Spec
import Verif.Pipe.Props

/-!
# C120: a sigma-delta network computes the artificial neural network
-/

namespace Verif.Sdnn

open Verif.Wiring (Builders)
open Verif.EndToEnd (Call Res)
open Verif.PortGraph (G run)
open Verif.Snn (Proc Kind Vars platform connProc sourceProc sinkProc noProc accumFlt)
open Verif.Snn.Spec (Gives Deployed)
open Verif.Swap.Spec (stateAt sentAt)
open Verif.Trains.Spec (shown)
open Verif.Pipe.Spec (Chain train incoming)
open Verif.SDN (DPar DSt SDSt initD initSD sdStep deltaStep deltaStep_conserve deltaStep_residue cum_step activation Within)
open Spec

/-! ### One neuron -/

set_option linter.unusedSectionVars false

section
variable {C R : Type} [CommRing R] [LinearOrder R]

/-- State of one neuron before step `t`. -/
def cell (step : SDSt R → R → SDSt R × R) (a : Nat → R) : Nat → SDSt R
  | 0 => initSD
  | t + 1 => (step (cell step a t) (a t)).1

theorem stateAt_graded (size : Nat) (step : Nat → SDSt R → R → SDSt R × R) (a : Nat → Nat → R) : ∀ t,
    stateAt (gradedProc size step : Proc (Vars (SDSt R) C R) _ _) a t = .pop fun i => cell (step i) (fun u => a u i) t
  | 0 => rfl
  | t + 1 => by
    show ((gradedProc size step : Proc (Vars (SDSt R) C R) _ _).fire (stateAt (gradedProc size step : Proc (Vars (SDSt R) C R) _ _) a t) (a t)).1 = _
    rw [stateAt_graded size step a t]
    rfl

theorem sent_graded (size : Nat) (step : Nat → SDSt R → R → SDSt R × R) (a : Nat → Nat → R) (t : Nat) :
    sentAt (gradedProc size step : Proc (Vars (SDSt R) C R) _ _) a t = some fun i => (step i (cell (step i) (fun u => a u i) t) (a t i)).2 := by
  show some ((gradedProc size step : Proc (Vars (SDSt R) C R) _ _).fire (stateAt (gradedProc size step : Proc (Vars (SDSt R) C R) _ _) a t) (a t)).2 = _
  rw [stateAt_graded size step a t]
  rfl

/-- `sigma` is the sum of what has been received. -/
theorem sigma_sum (step : SDSt R → R → SDSt R × R) (h : ∀ s x, (step s x).1.sigma = x + s.sigma) (a : Nat → R) : ∀ t, (cell step a t).sigma = ∑ u ∈ Finset.range t, a u
  | 0 => rfl
  | t + 1 => by
    unfold cell
    rw [h, sigma_sum step h a t, Finset.sum_range_succ, add_comm]

variable [IsStrictOrderedRing R]

/-- What is kept back is bounded in every step. -/
theorem residue_le (vth : R) (cum : Bool) (hv : 0 ≤ vth) (d : DSt R) (he : cum = true → d.error = 0 ∨ |d.error| < vth) (x : R) :
    |(deltaStep ⟨vth, cum⟩ d x).1.residue| ≤ (if cum then 2 * vth else vth) ∧
    (cum = true → (deltaStep ⟨vth, cum⟩ d x).1.error = 0 ∨ |(deltaStep ⟨vth, cum⟩ d x).1.error| < vth) := by
  cases cum with
  | false =>
    refine ⟨?_, fun h => absurd h (by decide)⟩
    rw [if_neg (by decide)]
    rcases deltaStep_residue ⟨vth, false⟩ rfl d x with h | h
    · rw [h, abs_zero]; exact hv
    · exact le_of_lt h
  | true =>
    have h := cum_step vth d x (he rfl)
    rw [if_pos rfl]
    refine ⟨?_, fun _ => h.1⟩
    rcases h.2 with h | h
    · rw [h, abs_zero]; linarith
    · exact le_of_lt h

/-- A neuron that sends the delta code of `f` (in units of `c`): the sum of everything sent is the value of `f` in this step, up to what is kept back. -/
theorem coded (vth : R) (cum : Bool) (c : R) (hv : 0 ≤ vth) (step : SDSt R → R → SDSt R × R) (f : SDSt R → R → R) (h1 : ∀ s x, (step s x).1.d = (deltaStep ⟨vth, cum⟩ s.d (f s x)).1)
    (a : Nat → R) (h2 : ∀ t, (step (cell step a t) (a t)).2 * c = (deltaStep ⟨vth, cum⟩ (cell step a t).d (f (cell step a t) (a t))).2) (t : Nat) :
    |(∑ u ∈ Finset.range (t + 1), (step (cell step a u) (a u)).2) * c - f (cell step a t) (a t)| ≤ if cum then 2 * vth else vth := by
  have key : ∀ t, (cum = true → (cell step a t).d.error = 0 ∨ |(cell step a t).d.error| < vth) ∧
      (∑ u ∈ Finset.range t, (step (cell step a u) (a u)).2) * c = (cell step a t).d.act - (cell step a t).d.residue := by
    intro t
    induction t with
    | zero =>
      refine ⟨fun _ => .inl rfl, ?_⟩
      simp [cell, initSD, initD]
    | succ t ih =>
      rw [Finset.sum_range_succ, add_mul, ih.2, h2, show cell step a (t + 1) = (step (cell step a t) (a t)).1 from rfl, h1]
      refine ⟨(residue_le vth cum hv _ ih.1 _).2, ?_⟩
      obtain ⟨e1, e2⟩ := deltaStep_conserve (⟨vth, cum⟩ : DPar R) (cell step a t).d (f (cell step a t) (a t))
      rw [e1, e2]
      ring
  rw [Finset.sum_range_succ, add_mul, (key t).2, h2]
  obtain ⟨_, e2⟩ := deltaStep_conserve (⟨vth, cum⟩ : DPar R) (cell step a t).d (f (cell step a t) (a t))
  have hr := (residue_le vth cum hv _ (key t).1 (f (cell step a t) (a t))).1
  have e : (cell step a t).d.act - (cell step a t).d.residue + (deltaStep ⟨vth, cum⟩ (cell step a t).d (f (cell step a t) (a t))).2 - f (cell step a t) (a t) =
      -(deltaStep ⟨vth, cum⟩ (cell step a t).d (f (cell step a t) (a t))).1.residue := by
    rw [e2]; ring
  rw [e, abs_neg]
  exact hr

end

/-! ### The connections -/

theorem stateAt_dense (l : Layer) (a : Nat → Nat → ℚ) (t : Nat) : stateAt (denseProc l) a (t + 1) = .conn (accumFlt l.cols true l.w (a t)) := by
  have h : ∀ t, ∃ b, stateAt (denseProc l) a t = .conn b := by
    intro t
    induction t with
    | zero => exact ⟨_, rfl⟩
    | succ t ih =>
      obtain ⟨b, hb⟩ := ih
      refine ⟨accumFlt l.cols true l.w (a t), ?_⟩
      show (denseProc l).absorb (stateAt (denseProc l) a t) (a t) = _
      rw [hb]
      rfl
  obtain ⟨b, hb⟩ := h t
  show (denseProc l).absorb (stateAt (denseProc l) a t) (a t) = _
  rw [hb]
  rfl

/-- The sum of everything that `Dense` has sent: the weights times the sum of everything sent to it before. -/
theorem dense_sum (l : Layer) (a : Nat → Nat → ℚ) (i : Nat) : ∀ t,
    (∑ u ∈ Finset.range (t + 1), (sentAt (denseProc l) a u).getD 0 i) = ∑ j ∈ Finset.range l.cols, l.w i j * ∑ u ∈ Finset.range t, a u j
  | 0 => by
    rw [Nat.zero_add, Finset.range_one, Finset.sum_singleton]
    simp only [Finset.range_zero, Finset.sum_empty, mul_zero, Finset.sum_const_zero]
    rfl
  | t + 1 => by
    rw [Finset.sum_range_succ, dense_sum l a i t]
    have e : (sentAt (denseProc l) a (t + 1)).getD 0 i = ∑ j ∈ Finset.range l.cols, l.w i j * a t j := by
      show (denseProc l).out (stateAt (denseProc l) a (t + 1)) i = _
      rw [stateAt_dense]
      show accumFlt l.cols true l.w (a t) i = _
      unfold accumFlt
      rw [if_pos rfl]
    rw [e, ← Finset.sum_add_distrib]
    apply Finset.sum_congr rfl
    intro j _
    rw [Finset.sum_range_succ, mul_add]

/-! ### The chain -/

section
variable (L : Nat) (lay : Nat → Layer) (len buf : Nat) (data : Nat → Nat → ℚ)

theorem chain_dense {k : Nat} (hk : k ≤ L) : chain L lay len buf data (2 * k + 2) = denseProc (lay (k + 1)) := by
  unfold chain
  rw [if_neg (by omega), if_neg (by omega), if_pos (by omega), if_pos (by omega)]
  congr 2; omega

theorem chain_sd {k : Nat} (hk : k < L) : chain L lay len buf data (2 * k + 3) = sdProc (lay (k + 1)) := by
  unfold chain
  rw [if_neg (by omega), if_neg (by omega), if_pos (by omega), if_neg (by omega)]
  congr 2; omega

theorem chain_sigma : chain L lay len buf data (2 * L + 3) = sigmaProc (lay (L + 1)).rows := by
  unfold chain
  rw [if_neg (by omega), if_neg (by omega), if_neg (by omega), if_pos rfl]

theorem chain_sink : chain L lay len buf data (2 * L + 4) = sinkProc (lay (L + 1)).rows buf := by
  unfold chain
  rw [if_neg (by omega), if_neg (by omega), if_neg (by omega), if_neg (by omega), if_pos rfl]

/-- Sum of everything that layer `k` has sent in the first `t` steps. -/
def total (k t i : Nat) : ℚ := ∑ u ∈ Finset.range t, train (chain L lay len buf data) (2 * k + 1) u i

theorem train_source (t : Nat) : train (chain L lay len buf data) 0 t = data (t % len) := by
  have h : ∀ t, stateAt (sourceProc (lay 0).rows len data : Proc SVars _ _) (fun _ => 0) t = .ring t data := by
    intro t
    induction t with
    | zero => rfl
    | succ t ih =>
      show (sourceProc (lay 0).rows len data : Proc SVars _ _).begin_ (stateAt (sourceProc (lay 0).rows len data : Proc SVars _ _) (fun _ => 0) t) = _
      rw [ih]; rfl
  show (sentAt (sourceProc (lay 0).rows len data : Proc SVars _ _) (fun _ => 0) t).getD 0 = _
  show (sourceProc (lay 0).rows len data : Proc SVars _ _).out ((sourceProc (lay 0).rows len data : Proc SVars _ _).begin_ (stateAt (sourceProc (lay 0).rows len data : Proc SVars _ _) (fun _ => 0) t)) = _
  rw [h]
  show IO.sourceSend data len (t + 1) = _
  unfold IO.sourceSend
  rw [Nat.add_sub_cancel]

theorem dense_total {k : Nat} (hk : k ≤ L) (t i : Nat) : (∑ u ∈ Finset.range (t + 1), train (chain L lay len buf data) (2 * k + 2) u i) =
    ∑ j ∈ Finset.range (lay (k + 1)).cols, (lay (k + 1)).w i j * total L lay len buf data k t j := by
  refine Eq.trans ?_ (dense_sum (lay (k + 1)) (train (chain L lay len buf data) (2 * k + 1)) i t)
  apply Finset.sum_congr rfl
  intro u _
  show (sentAt (chain L lay len buf data (2 * k + 2)) (train (chain L lay len buf data) (2 * k + 1)) u).getD 0 i = _
  rw [chain_dense L lay len buf data hk]

/-- ReLU does not enlarge differences. -/
theorem activation_le (relu : Bool) (b x y : ℚ) : |activation relu b x - activation relu b y| ≤ |x - y| := by
  unfold activation
  cases relu with
  | false => rw [if_neg (by decide), if_neg (by decide)]; apply le_of_eq; congr 1; ring
  | true =>
    rw [if_pos rfl, if_pos rfl]
    have h := abs_max_sub_max_le_abs (x + b) (y + b) 0
    refine h.trans (le_of_eq ?_)
    congr 1; ring

theorem weighted_le (n : Nat) (w x y e : Nat → ℚ) (h : ∀ j, |x j - y j| ≤ e j) : |(∑ j ∈ Finset.range n, w j * x j) - ∑ j ∈ Finset.range n, w j * y j| ≤ ∑ j ∈ Finset.range n, |w j| * e j := by
  rw [← Finset.sum_sub_distrib]
  refine (Finset.abs_sum_le_sum_abs _ _).trans (Finset.sum_le_sum fun j _ => ?_)
  rw [← mul_sub, abs_mul]
  exact mul_le_mul_of_nonneg_left (h j) (abs_nonneg _)

/-- After `k` steps, what layer `k` has sent adds up to the output of the layer for the input of `k` steps ago. -/
theorem layer_total (hv : ∀ k, k ≤ L → ∀ i, 0 ≤ (lay k).vth i) : ∀ k, k ≤ L → ∀ t, k ≤ t → ∀ i,
    |total L lay len buf data k (t + 1) i - forward lay (data ((t - k) % len)) k i| ≤ slack lay k i
  | 0, _, t, _, i => by
    have h := coded ((lay 0).vth i) (lay 0).cum 1 (hv 0 (Nat.zero_le L) i)
      (fun s x => ({ s with d := (deltaStep ⟨(lay 0).vth i, (lay 0).cum⟩ s.d x).1 }, (deltaStep ⟨(lay 0).vth i, (lay 0).cum⟩ s.d x).2)) (fun _ x => x) (fun _ _ => rfl)
      (fun u => train (chain L lay len buf data) 0 u i) (fun _ => mul_one _) t
    rw [mul_one] at h
    have e : total L lay len buf data 0 (t + 1) i = ∑ u ∈ Finset.range (t + 1), _ := Finset.sum_congr rfl fun u _ => by
      show (sentAt (deltaProc (lay 0).rows (lay 0).vth (lay 0).cum) (train (chain L lay len buf data) 0) u).getD 0 i = _
      unfold deltaProc
      rw [sent_graded]
    rw [e]
    refine le_trans (le_of_eq ?_) h
    show _ = |_ - train (chain L lay len buf data) 0 t i|
    rw [train_source]
    rfl
  | k + 1, hk, t, ht, i => by
    obtain ⟨t, rfl⟩ : ∃ u, t = u + 1 := ⟨t - 1, by omega⟩
    have ih := layer_total hv k (by omega) t (by omega)
    have h := coded ((lay (k + 1)).vth i) (lay (k + 1)).cum 1 (hv (k + 1) hk i) (fun s x => sdStep ⟨(lay (k + 1)).vth i, (lay (k + 1)).cum⟩ (lay (k + 1)).relu ((lay (k + 1)).bias i) s x)
      (fun s x => activation (lay (k + 1)).relu ((lay (k + 1)).bias i) (x + s.sigma)) (fun _ _ => rfl)
      (fun u => train (chain L lay len buf data) (2 * k + 2) u i) (fun _ => mul_one _) (t + 1)
    rw [mul_one] at h
    have e : total L lay len buf data (k + 1) (t + 1 + 1) i = ∑ u ∈ Finset.range (t + 1 + 1),
        (sdStep ⟨(lay (k + 1)).vth i, (lay (k + 1)).cum⟩ (lay (k + 1)).relu ((lay (k + 1)).bias i)
          (cell (fun s x => sdStep ⟨(lay (k + 1)).vth i, (lay (k + 1)).cum⟩ (lay (k + 1)).relu ((lay (k + 1)).bias i) s x) (fun u => train (chain L lay len buf data) (2 * k + 2) u i) u)
          (train (chain L lay len buf data) (2 * k + 2) u i)).2 := Finset.sum_congr rfl fun u _ => by
      show (sentAt (chain L lay len buf data (2 * k + 3)) (train (chain L lay len buf data) (2 * k + 2)) u).getD 0 i = _
      rw [chain_sd L lay len buf data (by omega)]
      unfold sdProc
      rw [sent_graded]
      rfl
    rw [e]
    rw [sigma_sum _ (fun _ _ => rfl), add_comm (train (chain L lay len buf data) (2 * k + 2) (t + 1) i), ← Finset.sum_range_succ, dense_total L lay len buf data (by omega)] at h
    have ef : forward lay (data ((t + 1 - (k + 1)) % len)) (k + 1) i =
        activation (lay (k + 1)).relu ((lay (k + 1)).bias i) (∑ j ∈ Finset.range (lay (k + 1)).cols, (lay (k + 1)).w i j * forward lay (data ((t - k) % len)) k j) := by
      rw [Nat.add_sub_add_right]; rfl
    rw [ef]
    have ha := activation_le (lay (k + 1)).relu ((lay (k + 1)).bias i) (∑ j ∈ Finset.range (lay (k + 1)).cols, (lay (k + 1)).w i j * total L lay len buf data k (t + 1) j)
      (∑ j ∈ Finset.range (lay (k + 1)).cols, (lay (k + 1)).w i j * forward lay (data ((t - k) % len)) k j)
    have hw := weighted_le (lay (k + 1)).cols ((lay (k + 1)).w i) _ _ _ ih
    show _ ≤ (∑ j ∈ Finset.range (lay (k + 1)).cols, |(lay (k + 1)).w i j| * slack lay k j) + keeps (lay (k + 1)) i
    refine (abs_sub_le _ (activation (lay (k + 1)).relu ((lay (k + 1)).bias i) (∑ j ∈ Finset.range (lay (k + 1)).cols, (lay (k + 1)).w i j * total L lay len buf data k (t + 1) j)) _).trans ?_
    refine (add_le_add h (ha.trans hw)).trans (le_of_eq ?_)
    exact add_comm _ _

/-- What `Sigma` sends is the read-out of what the last layer has sent. -/
theorem train_sigma (t i : Nat) : train (chain L lay len buf data) (2 * L + 3) t i = ∑ j ∈ Finset.range (lay (L + 1)).cols, (lay (L + 1)).w i j * total L lay len buf data L t j := by
  have e : train (chain L lay len buf data) (2 * L + 3) t i = train (chain L lay len buf data) (2 * L + 2) t i +
      (cell (fun s a => ({ s with sigma := a + s.sigma }, a + s.sigma)) (fun u => train (chain L lay len buf data) (2 * L + 2) u i) t).sigma := by
    show (sentAt (chain L lay len buf data (2 * L + 3)) (train (chain L lay len buf data) (2 * L + 2)) t).getD 0 i = _
    rw [chain_sigma]
    unfold sigmaProc
    rw [sent_graded]
    rfl
  rw [e, sigma_sum _ (fun _ _ => rfl), add_comm, ← Finset.sum_range_succ, dense_total L lay len buf data (Nat.le_refl L)]

/-- What the read-out sends from step `L + 1` on. -/
theorem sigma_close (hv : ∀ k, k ≤ L → ∀ i, 0 ≤ (lay k).vth i) (t : Nat) (ht : L + 1 ≤ t) (i : Nat) :
    |train (chain L lay len buf data) (2 * L + 3) t i - output L lay (data ((t - (L + 1)) % len)) i| ≤ outSlack L lay i := by
  obtain ⟨t, rfl⟩ : ∃ u, t = u + 1 := ⟨t - 1, by omega⟩
  rw [train_sigma, Nat.add_sub_add_right]
  exact weighted_le _ _ _ _ _ (layer_total L lay len buf data hv L (Nat.le_refl L) t (by omega))

end

theorem stateAt_sink (rows buf : Nat) (a : Nat → Nat → ℚ) : ∀ t, stateAt (sinkProc rows buf : Proc SVars _ _) a t = .ring t (IO.sinkAt (fun _ => 0) buf (fun τ => a (τ - 1)) t)
  | 0 => rfl
  | t + 1 => by
    show (sinkProc rows buf : Proc SVars _ _).absorb ((sinkProc rows buf : Proc SVars _ _).begin_ (stateAt (sinkProc rows buf : Proc SVars _ _) a t)) (a t) = _
    rw [stateAt_sink rows buf a t]
    rfl

/-- What the sink shows. -/
theorem recorded_chain (L : Nat) (lay : Nat → Layer) (len buf : Nat) (data : Nat → Nat → ℚ)
    (lim : Nat) (calls : List PortGraph.Op) (k : Nat) (svc : Nat → Nat) (pms : Nat → List Nat) (cap : Nat → Nat) (own : Nat → Nat)
    (name : Nat → String) (outs : Nat → List Nat) (procs : List Nat) (has : Nat → String → Bool) (b : Builders)
    (hd : Deployed lim calls (2 * L + 5) (chain L lay len buf data) k svc pms cap own name outs procs has b)
    (hc : Chain (run lim G.empty calls) (2 * L + 5) own name (chain L lay len buf data)) (T : Nat) (hT : T ≤ buf) :
    Gives (platform (2 * L + 5) (chain L lay len buf data) k svc pms cap) b [.run T, .get (2 * L + 4) 0]
      [.ran, .value (table (lay (L + 1)).rows buf T (train (chain L lay len buf data) (2 * L + 3))), .stopped] := by
  have h := Pipe.C120_chain lim calls (2 * L + 5) (chain L lay len buf data) k svc pms cap own name outs procs has b hd hc [.run T, .get (2 * L + 4) 0] (Snn.proper_get (by omega)) (by simp)
  have e : shown (chain L lay len buf data) (incoming (chain L lay len buf data)) false 0 [.run T, .get (2 * L + 4) 0] =
      [.ran, .value (table (lay (L + 1)).rows buf T (train (chain L lay len buf data) (2 * L + 3))), .stopped] := by
    simp only [shown, Nat.zero_add]
    rw [show incoming (chain L lay len buf data) (2 * L + 4) = train (chain L lay len buf data) (2 * L + 3) from rfl, chain_sink, stateAt_sink]
    congr 3
    unfold table
    apply List.map_congr_left
    intro j hj
    have hb : 0 < buf := by
      rw [List.mem_range] at hj
      rcases Nat.eq_zero_or_pos buf with h0 | h0
      · have hj : j < (lay (L + 1)).rows * buf := hj
        rw [h0, Nat.mul_zero] at hj; omega
      · exact h0
    show IO.sinkAt (fun _ => 0) buf (fun τ => train (chain L lay len buf data) (2 * L + 3) (τ - 1)) T (j % buf) (j / buf) = _
    rw [Snn.sink_column hT (Nat.mod_lt _ hb)]
    by_cases h1 : j % buf < T
    · rw [if_pos h1, if_pos h1]
    · rw [if_neg h1, if_neg h1]
  rw [e] at h
  exact h

/-- **C120.** A chain of source, `Delta`, `L` layers of `Dense` and `SigmaDelta`, a last `Dense`, `Sigma` and sink, deployed on any number of runtime services and run for `T` steps: under every schedule
the sink shows values that, from step `L + 1` on, are the outputs of the artificial neural network for the input of `L + 1` steps before, with an error of at most the thresholds carried through the weights. -/
theorem C120_sdn_is_ann (L : Nat) (lay : Nat → Layer) (len buf : Nat) (data : Nat → Nat → ℚ) (hv : ∀ k, k ≤ L → ∀ i, 0 ≤ (lay k).vth i)
    (lim : Nat) (calls : List PortGraph.Op) (k : Nat) (svc : Nat → Nat) (pms : Nat → List Nat) (cap : Nat → Nat) (own : Nat → Nat)
    (name : Nat → String) (outs : Nat → List Nat) (procs : List Nat) (has : Nat → String → Bool) (b : Builders)
    (hd : Deployed lim calls (2 * L + 5) (chain L lay len buf data) k svc pms cap own name outs procs has b)
    (hc : Chain (run lim G.empty calls) (2 * L + 5) own name (chain L lay len buf data)) :
    ∃ out : Nat → Nat → ℚ,
      (∀ t, L + 1 ≤ t → ∀ i, |out t i - output L lay (data ((t - (L + 1)) % len)) i| ≤ outSlack L lay i) ∧
      ∀ T, T ≤ buf → Gives (platform (2 * L + 5) (chain L lay len buf data) k svc pms cap) b [.run T, .get (2 * L + 4) 0]
        [.ran, .value (table (lay (L + 1)).rows buf T out), .stopped] :=
  ⟨train (chain L lay len buf data) (2 * L + 3), sigma_close L lay len buf data hv, recorded_chain L lay len buf data lim calls k svc pms cap own name outs procs has b hd hc⟩

/-- Nothing is kept back if the thresholds are zero. -/
theorem slack_zero (L : Nat) (lay : Nat → Layer) (h0 : ∀ k, k ≤ L → ∀ i, (lay k).vth i = 0) : ∀ k, k ≤ L → ∀ i, slack lay k i = 0
  | 0, hk, i => by
    unfold slack keeps
    rw [h0 0 hk i]; simp
  | k + 1, hk, i => by
    unfold slack keeps
    rw [h0 (k + 1) hk i, Finset.sum_eq_zero fun j _ => by rw [slack_zero L lay h0 k (by omega) j, mul_zero]]
    simp

/-- **C120.** With thresholds of zero the outputs are exact. -/
theorem C120_sdn_exact (L : Nat) (lay : Nat → Layer) (len buf : Nat) (data : Nat → Nat → ℚ) (h0 : ∀ k, k ≤ L → ∀ i, (lay k).vth i = 0)
    (lim : Nat) (calls : List PortGraph.Op) (k : Nat) (svc : Nat → Nat) (pms : Nat → List Nat) (cap : Nat → Nat) (own : Nat → Nat)
    (name : Nat → String) (outs : Nat → List Nat) (procs : List Nat) (has : Nat → String → Bool) (b : Builders)
    (hd : Deployed lim calls (2 * L + 5) (chain L lay len buf data) k svc pms cap own name outs procs has b)
    (hc : Chain (run lim G.empty calls) (2 * L + 5) own name (chain L lay len buf data)) :
    ∃ out : Nat → Nat → ℚ,
      (∀ t, L + 1 ≤ t → ∀ i, out t i = output L lay (data ((t - (L + 1)) % len)) i) ∧
      ∀ T, T ≤ buf → Gives (platform (2 * L + 5) (chain L lay len buf data) k svc pms cap) b [.run T, .get (2 * L + 4) 0]
        [.ran, .value (table (lay (L + 1)).rows buf T out), .stopped] := by
  obtain ⟨out, h1, h2⟩ := C120_sdn_is_ann L lay len buf data (fun k hk i => le_of_eq (h0 k hk i).symm) lim calls k svc pms cap own name outs procs has b hd hc
  refine ⟨out, fun t ht i => ?_, h2⟩
  have h := h1 t ht i
  unfold outSlack at h
  rw [Finset.sum_eq_zero fun j _ => by rw [slack_zero L lay h0 L (Nat.le_refl L) j, mul_zero]] at h
  exact sub_eq_zero.1 (abs_eq_zero.1 (le_antisymm h (abs_nonneg _)))

end Verif.Sdnn
