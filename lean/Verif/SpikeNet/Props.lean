import Verif.SpikeNet.Model
import Verif.Neurons.FollowLif
import Verif.Dense.Props

/-!
# C111: a fixed-point network produces the spikes of the floating-point network
-/

namespace Verif.SpikeNet

open Verif.Neurons Verif.LIF

/-! ### One neuron with inexact input -/

/-- One step of a LIF neuron whose input differs by at most `A` from that of the floating-point neuron. -/
theorem lif_step_in (p : Par) (vth : Int) (fp : FLPar) (hfp : fp = floatLif p vth) (o : Obj) (f : FLSt) (a : Int) (b : ℚ) (A Eu Ev Eu' Ev' : ℚ)
    (hdu : 0 ≤ p.du ∧ p.du ≤ 4095) (hdv : 0 ≤ p.dv ∧ p.dv ≤ 4096) (hoe : o.eff = none ∨ o.eff = some (vth * 2 ^ 6))
    (ha : |(a : ℚ) - b| ≤ A)
    (hu : |(o.st.u : ℚ) - 64 * f.u| ≤ Eu) (hv : |(o.st.v : ℚ) - 64 * f.v| ≤ Ev)
    (hEu : (1 - ((p.du : ℚ) + 1) / 4096) * Eu + 1 + 64 * A ≤ Eu') (hEv : (1 - (p.dv : ℚ) / 4096) * Ev + 1 + Eu' ≤ Ev')
    (hru : |64 * (flSub fp f b).u| + Eu' ≤ 2 ^ 23 - 1)
    (hrv : |64 * (flSub fp f b).v| + Ev' ≤ 2 ^ 23 - 1)
    (hm : Ev' < 64 * |(flSub fp f b).v - (vth : ℚ)|) :
    (runSpk p vth o a).2 = (flStep fp f b).2 ∧
    (runSpk p vth o a).1.eff = some (vth * 2 ^ 6) ∧
    |((runSpk p vth o a).1.st.u : ℚ) - 64 * (flStep fp f b).1.u| ≤ Eu' ∧
    |((runSpk p vth o a).1.st.v : ℚ) - 64 * (flStep fp f b).1.v| ≤ Ev' := by
  subst hfp
  have heff : o.eff.getD (vth * 2 ^ 6) = vth * 2 ^ 6 := by
    rcases hoe with h | h <;> rw [h] <;> rfl
  have hd := decay_near (x := o.st.u) (c := p.du + 1) (y := 64 * f.u) (E := Eu) (by omega) hu
  have hu1 : |((decay o.st.u (p.du + 1) + a * 2 ^ 6 : Int) : ℚ) - 64 * (flSub (floatLif p vth) f b).u| ≤ Eu' := by
    have e : ((decay o.st.u (p.du + 1) + a * 2 ^ 6 : Int) : ℚ) - 64 * (flSub (floatLif p vth) f b).u =
        ((decay o.st.u (p.du + 1) : ℚ) - (1 - ((p.du + 1 : Int) : ℚ) / 4096) * (64 * f.u)) + 64 * ((a : ℚ) - b) := by
      simp only [flSub, floatLif]; push_cast; ring
    rw [e]
    refine le_trans (abs_add_le _ _) ?_
    rw [abs_mul, show |(64 : ℚ)| = 64 by norm_num]
    push_cast at hd ⊢
    linarith
  have hr1 := int_range hu1 hru
  have hw := wrapCurr_id (x := decay o.st.u (p.du + 1) + a * 2 ^ 6) (by unfold maxUV at *; omega) (by unfold maxUV at *; omega)
  have hd2 := decay_near (x := o.st.v) (c := p.dv) (y := 64 * f.v) (E := Ev) (by omega) hv
  have hv1 : |((decay o.st.v p.dv + (decay o.st.u (p.du + 1) + a * 2 ^ 6) + effBias p.biasMant p.biasExp : Int) : ℚ)
      - 64 * (flSub (floatLif p vth) f b).v| ≤ Ev' := by
    have e : ((decay o.st.v p.dv + (decay o.st.u (p.du + 1) + a * 2 ^ 6) + effBias p.biasMant p.biasExp : Int) : ℚ)
        - 64 * (flSub (floatLif p vth) f b).v =
        ((decay o.st.v p.dv : ℚ) - (1 - (p.dv : ℚ) / 4096) * (64 * f.v)) +
        (((decay o.st.u (p.du + 1) + a * 2 ^ 6 : Int) : ℚ) - 64 * (flSub (floatLif p vth) f b).u) := by
      simp only [flSub, floatLif]; push_cast; ring
    rw [e]
    refine le_trans (abs_add_le _ _) ?_
    exact le_trans (add_le_add hd2 hu1) hEv
  have hr2 := int_range hv1 hrv
  have hc := clip_id hr2.1 hr2.2
  have hsub : subthr p o.st a = ⟨decay o.st.u (p.du + 1) + a * 2 ^ 6,
      decay o.st.v p.dv + (decay o.st.u (p.du + 1) + a * 2 ^ 6) + effBias p.biasMant p.biasExp⟩ := by
    unfold subthr
    dsimp only
    rw [hw, hc]
  have hth : ((vth * 2 ^ 6 : Int) : ℚ) = 64 * (vth : ℚ) := by push_cast; ring
  have hs := gt_same hv1 (th := vth * 2 ^ 6) (by
    rw [hth, ← mul_sub, abs_mul, show |(64 : ℚ)| = 64 by norm_num]; exact hm)
  rw [hth] at hs
  have hs' : (decay o.st.v p.dv + (decay o.st.u (p.du + 1) + a * 2 ^ 6) + effBias p.biasMant p.biasExp > vth * 2 ^ 6) ↔
      (flSub (floatLif p vth) f b).v > (floatLif p vth).vth := by
    rw [hs]
    show _ ↔ _ > (vth : ℚ)
    constructor <;> intro h <;> linarith
  have hEv0 : 0 ≤ Ev' := le_trans (abs_nonneg _) hv1
  unfold runSpk
  rw [heff, hsub]
  unfold spikeReset flStep
  dsimp only
  by_cases hsp : (flSub (floatLif p vth) f b).v > (floatLif p vth).vth
  · have hsp' := hs'.mpr hsp
    simp only [hsp, hsp', decide_true, if_true, true_and]
    refine ⟨hu1, ?_⟩
    simpa using hEv0
  · have hsp' : ¬ (decay o.st.v p.dv + (decay o.st.u (p.du + 1) + a * 2 ^ 6) + effBias p.biasMant p.biasExp > vth * 2 ^ 6) :=
      fun h => hsp (hs'.mp h)
    simp only [hsp, hsp', decide_false, true_and, Bool.false_eq_true, if_false]
    exact ⟨hu1, hv1⟩

/-! ### Connections in a run -/

theorem zip_map_self {α β γ : Type} (l : List α) (f : α → β) (g : α × β → γ) :
    ((l.zip (l.map f)).map g) = l.map fun a => g (a, f a) := by
  induction l with
  | nil => rfl
  | cons a l ih => simp only [List.map_cons, List.zip_cons_cons, ih]

/-- In a run of the network the state of a connection is that of the connection alone on the spikes of its source population. -/
theorem fix_conn (net : Net) (ext : Nat → Nat → Nat → Int) (t : Nat) :
    (fixAt net ext t).conn =
      net.conns.map fun c => Dense.stateAt c.par (Dense.init c.w) (fun τ => spikeVec fun j => fixSpike net ext τ c.src j) t := by
  induction t with
  | zero => rfl
  | succ t ih =>
    show ((net.conns.zip (fixAt net ext t).conn).map _) = _
    rw [ih, zip_map_self]
    rfl

/-- Buffer of a floating-point connection before step `t`. -/
def fltBuf (net : Net) (ext : Nat → Nat → Nat → Int) (c : Conn) : Nat → Nat → ℚ
  | 0 => fun _ => 0
  | t + 1 => fltDense c fun j => fltSpike net ext t c.src j

theorem flt_conn (net : Net) (ext : Nat → Nat → Nat → Int) (t : Nat) :
    (fltAt net ext t).conn = net.conns.map fun c => fltBuf net ext c t := by
  cases t with
  | zero => rfl
  | succ t => rfl

/-- What a fixed-point connection adds in the step after the spikes `s`. -/
def fixOut (c : Conn) (s : Nat → Bool) (i : Nat) : Int :=
  Dense.shiftExp c.par.weightExp (Dense.accum c.par.nIn c.par.graded (Dense.prepared c.par c.w) (spikeVec s) i)

theorem fixOut_congr (c : Conn) (s s' : Nat → Bool) (i : Nat) (h : ∀ j < c.par.nIn, s j = s' j) : fixOut c s i = fixOut c s' i := by
  unfold fixOut
  rw [Dense.accum_matVec, Dense.accum_matVec]
  congr 1
  unfold Dense.matVec
  apply Finset.sum_congr rfl
  intro j hj
  have := h j (Finset.mem_range.1 hj)
  congr 1
  cases c.par.graded <;> simp [Dense.bin, spikeVec, this]

theorem fix_buff (net : Net) (ext : Nat → Nat → Nat → Int) (c : Conn) (t i : Nat) :
    (Dense.stateAt c.par (Dense.init c.w) (fun τ => spikeVec fun j => fixSpike net ext τ c.src j) (t + 1)).aBuff i =
      fixOut c (fun j => fixSpike net ext t c.src j) i := by
  have hw : (if (Dense.stateAt c.par (Dense.init c.w) (fun τ => spikeVec fun j => fixSpike net ext τ c.src j) t).weightsSet then
      (Dense.stateAt c.par (Dense.init c.w) (fun τ => spikeVec fun j => fixSpike net ext τ c.src j) t).weights
      else Dense.prepared c.par (Dense.stateAt c.par (Dense.init c.w) (fun τ => spikeVec fun j => fixSpike net ext τ c.src j) t).weights) =
      Dense.prepared c.par c.w := by
    cases t with
    | zero => rfl
    | succ t =>
      obtain ⟨h1, h2⟩ := Dense.state_weights c.par c.w (fun τ => spikeVec fun j => fixSpike net ext τ c.src j) t
      rw [h2, if_pos rfl, h1]
  show Dense.shiftExp c.par.weightExp (Dense.accum c.par.nIn c.par.graded _ _ i) = _
  rw [hw]
  rfl

/-- Bound on the difference of the inputs of a neuron, from bounds per connection. -/
def inErr (net : Net) (D : Conn → Nat → ℚ) (q i : Nat) : ℚ := (net.conns.map fun c => if c.dst = q then D c i else 0).sum

theorem sum_near {α : Type} (l : List α) (x : α → Int) (y e : α → ℚ) (h : ∀ a ∈ l, |(x a : ℚ) - y a| ≤ e a) :
    |(((l.map x).sum : Int) : ℚ) - (l.map y).sum| ≤ (l.map e).sum := by
  induction l with
  | nil => simp
  | cons a l ih =>
    simp only [List.map_cons, List.sum_cons]
    rw [Int.cast_add]
    have e1 : (x a : ℚ) + (((l.map x).sum : Int) : ℚ) - (y a + (l.map y).sum) =
        ((x a : ℚ) - y a) + ((((l.map x).sum : Int) : ℚ) - (l.map y).sum) := by ring
    rw [e1]
    refine le_trans (abs_add_le _ _) ?_
    exact add_le_add (h a (by simp)) (ih fun b hb => h b (by simp [hb]))

/-- The inputs of a neuron differ by at most the sum of the connections' bounds if the spikes of the previous step agree. -/
theorem in_near (net : Net) (ext : Nat → Nat → Nat → Int) (size : Nat → Nat) (D : Conn → Nat → ℚ) (hs : ∀ c ∈ net.conns, c.par.nIn ≤ size c.src)
    (hD : ∀ c ∈ net.conns, ∀ (s : Nat → Bool) (i : Nat), |(fixOut c s i : ℚ) - fltDense c s i| ≤ D c i) (t : Nat)
    (hspk : ∀ τ < t, ∀ q, ∀ i < size q, fixSpike net ext τ q i = fltSpike net ext τ q i) (q i : Nat) :
    |(fixIn net (fixAt net ext t) (ext t) q i : ℚ) - fltIn net (fltAt net ext t) (ext t) q i| ≤ inErr net D q i := by
  unfold fixIn fltIn inErr
  rw [fix_conn, flt_conn, zip_map_self, zip_map_self, Int.cast_add]
  have key := sum_near net.conns (fun c => if c.dst = q then
      (Dense.stateAt c.par (Dense.init c.w) (fun τ => spikeVec fun j => fixSpike net ext τ c.src j) t).aBuff i else 0)
    (fun c => if c.dst = q then fltBuf net ext c t i else 0)
    (fun c => if c.dst = q then D c i else 0) ?_
  · rw [add_sub_add_left_eq_sub]
    exact key
  · intro c hc
    by_cases hq : c.dst = q
    · simp only [hq, if_true]
      cases t with
      | zero =>
        have := le_trans (abs_nonneg _) (hD c hc (fun _ => false) i)
        simpa [Dense.stateAt, Dense.init, fltBuf] using this
      | succ t =>
        rw [fix_buff, fixOut_congr c (fun j => fixSpike net ext t c.src j) (fun j => fltSpike net ext t c.src j) i
          (fun j hj => hspk t (by omega) c.src j (lt_of_lt_of_le hj (hs c hc)))]
        exact hD c hc _ i
    · simp [hq]

/-! ### The network -/

/-- **C111.** A network of bit-accurate LIF populations and Dense connections spikes exactly like the floating-point network with the
matching neuron parameters and with any floating-point weights, as long as every floating-point neuron stays in the 24-bit range and away
from its threshold by more than its error bound. `D` bounds, per connection and target neuron, the difference of the two products (e.g.
from rounding the weights, see `C111_weight_error`), `Eu`, `Ev` are bounds that satisfy the error recursion. Populations, sizes, recurrence and
external inputs are arbitrary. -/
theorem C111_network_follows (net : Net) (ext : Nat → Nat → Nat → Int) (size : Nat → Nat) (D : Conn → Nat → ℚ)
    (Eu Ev : Nat → Nat → Nat → ℚ) (T : Nat)
    (hs : ∀ c ∈ net.conns, c.par.nIn ≤ size c.src)
    (hD : ∀ c ∈ net.conns, ∀ (s : Nat → Bool) (i : Nat), |(fixOut c s i : ℚ) - fltDense c s i| ≤ D c i)
    (hp : ∀ q, ∀ i < size q, (0 ≤ (net.lif q i).du ∧ (net.lif q i).du ≤ 4095) ∧ (0 ≤ (net.lif q i).dv ∧ (net.lif q i).dv ≤ 4096))
    (h0 : ∀ q, ∀ i < size q, 0 ≤ Eu 0 q i ∧ 0 ≤ Ev 0 q i)
    (hEu : ∀ t q, ∀ i < size q, (1 - (((net.lif q i).du : ℚ) + 1) / 4096) * Eu t q i + 1 + 64 * inErr net D q i ≤ Eu (t + 1) q i)
    (hEv : ∀ t q, ∀ i < size q, (1 - ((net.lif q i).dv : ℚ) / 4096) * Ev t q i + 1 + Eu (t + 1) q i ≤ Ev (t + 1) q i)
    (hr : ∀ t < T, ∀ q, ∀ i < size q, |64 * (fltPre net ext t q i).u| + Eu (t + 1) q i ≤ 2 ^ 23 - 1 ∧
      |64 * (fltPre net ext t q i).v| + Ev (t + 1) q i ≤ 2 ^ 23 - 1)
    (hm : ∀ t < T, ∀ q, ∀ i < size q, Ev (t + 1) q i < 64 * |(fltPre net ext t q i).v - (net.vth q i : ℚ)|) :
    (∀ t < T, ∀ q, ∀ i < size q, fixSpike net ext t q i = fltSpike net ext t q i) ∧
    ∀ t ≤ T, ∀ q, ∀ i < size q,
      |(((fixAt net ext t).pop q i).st.u : ℚ) - 64 * ((fltAt net ext t).pop q i).u| ≤ Eu t q i ∧
      |(((fixAt net ext t).pop q i).st.v : ℚ) - 64 * ((fltAt net ext t).pop q i).v| ≤ Ev t q i := by
  have inv : ∀ t ≤ T, (∀ τ < t, ∀ q, ∀ i < size q, fixSpike net ext τ q i = fltSpike net ext τ q i) ∧
      ∀ q, ∀ i < size q, (((fixAt net ext t).pop q i).eff = none ∨ ((fixAt net ext t).pop q i).eff = some (net.vth q i * 2 ^ 6)) ∧
      |(((fixAt net ext t).pop q i).st.u : ℚ) - 64 * ((fltAt net ext t).pop q i).u| ≤ Eu t q i ∧
      |(((fixAt net ext t).pop q i).st.v : ℚ) - 64 * ((fltAt net ext t).pop q i).v| ≤ Ev t q i := by
    intro t
    induction t with
    | zero =>
      intro _
      refine ⟨fun τ h => absurd h (by omega), fun q i hi => ⟨Or.inl rfl, ?_, ?_⟩⟩
      · simpa [fixAt, fixInit, fltAt, fltInit] using (h0 q i hi).1
      · simpa [fixAt, fixInit, fltAt, fltInit] using (h0 q i hi).2
    | succ t ih =>
      intro ht
      obtain ⟨h1, h2⟩ := ih (by omega)
      have step : ∀ q, ∀ i < size q, _ := fun q i hi =>
        lif_step_in (net.lif q i) (net.vth q i) (fltPar net q i) rfl ((fixAt net ext t).pop q i) ((fltAt net ext t).pop q i)
          (fixIn net (fixAt net ext t) (ext t) q i) (fltIn net (fltAt net ext t) (ext t) q i) (inErr net D q i)
          (Eu t q i) (Ev t q i) (Eu (t + 1) q i) (Ev (t + 1) q i) (hp q i hi).1 (hp q i hi).2 (h2 q i hi).1
          (in_near net ext size D hs hD t h1 q i) (h2 q i hi).2.1 (h2 q i hi).2.2 (hEu t q i hi) (hEv t q i hi)
          (hr t (by omega) q i hi).1 (hr t (by omega) q i hi).2 (hm t (by omega) q i hi)
      refine ⟨?_, fun q i hi => ⟨Or.inr (step q i hi).2.1, (step q i hi).2.2.1, (step q i hi).2.2.2⟩⟩
      intro τ hτ q i hi
      rcases Nat.lt_succ_iff_lt_or_eq.mp hτ with h | h
      · exact h1 τ h q i hi
      · subst h
        exact (step q i hi).1
  exact ⟨(inv T (le_refl T)).1, fun t ht q i hi => (inv t ht).2 q i hi |>.2⟩

/-- **C111 (weights).** The difference of the products of a connection is at most the sum of the differences of the weights, plus one if
the weight exponent is negative (the fixed-point sum is rounded down). -/
theorem C111_weight_error (c : Conn) (s : Nat → Bool) (i : Nat) :
    |(fixOut c s i : ℚ) - fltDense c s i| ≤
      (∑ j ∈ Finset.range c.par.nIn, |(Dense.prepared c.par c.w i j : ℚ) * 2 ^ c.par.weightExp - c.wf i j|) +
      (if c.par.weightExp < 0 then 1 else 0) := by
  -- the fixed-point sum before the shift
  have hsum : Dense.accum c.par.nIn c.par.graded (Dense.prepared c.par c.w) (spikeVec s) i =
      ∑ j ∈ (Finset.range c.par.nIn).filter (fun j => s j = true), Dense.prepared c.par c.w i j := by
    rw [Dense.accum_matVec]
    unfold Dense.matVec
    rw [Finset.sum_filter]
    apply Finset.sum_congr rfl
    intro j _
    cases c.par.graded <;> by_cases h : s j = true <;> simp [Dense.bin, spikeVec, h]
  have hdiff : |((∑ j ∈ (Finset.range c.par.nIn).filter (fun j => s j = true), Dense.prepared c.par c.w i j : Int) : ℚ) *
      2 ^ c.par.weightExp - fltDense c s i| ≤
      ∑ j ∈ Finset.range c.par.nIn, |(Dense.prepared c.par c.w i j : ℚ) * 2 ^ c.par.weightExp - c.wf i j| := by
    unfold fltDense
    push_cast
    rw [Finset.sum_mul, ← Finset.sum_sub_distrib]
    refine le_trans (Finset.abs_sum_le_sum_abs _ _) ?_
    exact Finset.sum_le_sum_of_subset_of_nonneg (Finset.filter_subset _ _) (fun _ _ _ => abs_nonneg _)
  unfold fixOut
  rw [hsum]
  generalize (∑ j ∈ (Finset.range c.par.nIn).filter (fun j => s j = true), Dense.prepared c.par c.w i j : Int) = x at *
  unfold Dense.shiftExp
  rcases lt_trichotomy c.par.weightExp 0 with he | he | he
  · rw [if_neg (by omega), if_pos he]
    obtain ⟨n, hn⟩ : ∃ n : Nat, c.par.weightExp = -(n : Int) := ⟨(-c.par.weightExp).toNat, by omega⟩
    rw [hn] at hdiff ⊢
    rw [show (- -(n : Int)).toNat = n by omega]
    rw [zpow_neg, zpow_natCast] at *
    have hpos : (0 : ℚ) < 2 ^ n := by positivity
    have a1 : x / 2 ^ n * 2 ^ n ≤ x := Int.ediv_mul_le x (by positivity)
    have a2 : x < (x / 2 ^ n + 1) * 2 ^ n := Int.lt_ediv_add_one_mul_self x (by positivity)
    have b1 : ((x / 2 ^ n : Int) : ℚ) * 2 ^ n ≤ x := by exact_mod_cast a1
    have b2 : (x : ℚ) < (((x / 2 ^ n : Int) : ℚ) + 1) * 2 ^ n := by exact_mod_cast a2
    have c1 : ((x / 2 ^ n : Int) : ℚ) ≤ (x : ℚ) * (2 ^ n)⁻¹ := by rw [← div_eq_mul_inv, le_div_iff₀ hpos]; exact b1
    have c2 : (x : ℚ) * (2 ^ n)⁻¹ < ((x / 2 ^ n : Int) : ℚ) + 1 := by rw [← div_eq_mul_inv, div_lt_iff₀ hpos]; exact b2
    have d : |((x / 2 ^ n : Int) : ℚ) - (x : ℚ) * (2 ^ n)⁻¹| ≤ 1 := by rw [abs_le]; constructor <;> linarith
    have e : ((x / 2 ^ n : Int) : ℚ) - fltDense c s i =
        (((x / 2 ^ n : Int) : ℚ) - (x : ℚ) * (2 ^ n)⁻¹) + ((x : ℚ) * (2 ^ n)⁻¹ - fltDense c s i) := by ring
    rw [e]
    refine le_trans (abs_add_le _ _) ?_
    linarith
  · rw [he] at hdiff ⊢
    simp only [lt_irrefl, if_false, gt_iff_lt, neg_zero, Int.toNat_zero, pow_zero, Int.ediv_one, add_zero, zpow_zero, mul_one] at hdiff ⊢
    exact hdiff
  · rw [if_pos he, if_neg (by omega)]
    obtain ⟨n, hn⟩ : ∃ n : Nat, c.par.weightExp = (n : Int) := ⟨c.par.weightExp.toNat, by omega⟩
    rw [hn] at hdiff ⊢
    rw [zpow_natCast] at *
    simp only [Int.toNat_natCast, add_zero]
    push_cast
    exact hdiff

/-- **C111 (same weights, leaky neurons).** If the floating-point weights are the prepared fixed-point weights times the power of two of a
weight exponent that is not negative, and all neurons leak, the margins needed are constants of each neuron. -/
theorem C111_same_weights (net : Net) (ext : Nat → Nat → Nat → Int) (size : Nat → Nat) (T : Nat)
    (hs : ∀ c ∈ net.conns, c.par.nIn ≤ size c.src)
    (hw : ∀ c ∈ net.conns, 0 ≤ c.par.weightExp ∧ ∀ i, ∀ j < c.par.nIn, c.wf i j = (Dense.prepared c.par c.w i j : ℚ) * 2 ^ c.par.weightExp)
    (hp : ∀ q, ∀ i < size q, (0 ≤ (net.lif q i).du ∧ (net.lif q i).du ≤ 4095) ∧ (0 < (net.lif q i).dv ∧ (net.lif q i).dv ≤ 4096))
    (Eu Ev : Nat → Nat → ℚ) (eu : ∀ q i, Eu q i = 4096 / (((net.lif q i).du : ℚ) + 1))
    (ev : ∀ q i, Ev q i = (Eu q i + 1) * 4096 / ((net.lif q i).dv : ℚ))
    (hr : ∀ t < T, ∀ q, ∀ i < size q, |64 * (fltPre net ext t q i).u| + Eu q i ≤ 2 ^ 23 - 1 ∧
      |64 * (fltPre net ext t q i).v| + Ev q i ≤ 2 ^ 23 - 1)
    (hm : ∀ t < T, ∀ q, ∀ i < size q, Ev q i < 64 * |(fltPre net ext t q i).v - (net.vth q i : ℚ)|) :
    ∀ t < T, ∀ q, ∀ i < size q, fixSpike net ext t q i = fltSpike net ext t q i := by
  have hin : ∀ q i, inErr net (fun _ _ => 0) q i = 0 := by
    intro q i; unfold inErr; simp
  refine (C111_network_follows net ext size (fun _ _ => 0) (fun _ => Eu) (fun _ => Ev) T hs ?_
    (fun q i hi => ⟨(hp q i hi).1, le_of_lt (hp q i hi).2.1, (hp q i hi).2.2⟩) ?_ ?_ ?_ hr hm).1
  · intro c hc s i
    refine le_trans (C111_weight_error c s i) ?_
    rw [if_neg (not_lt.mpr (hw c hc).1), add_zero]
    apply le_of_eq
    apply Finset.sum_eq_zero
    intro j hj
    rw [(hw c hc).2 i j (Finset.mem_range.1 hj), sub_self, abs_zero]
  · intro q i hi
    have q1 : (0 : ℚ) < ((net.lif q i).du : ℚ) + 1 := by
      have : (0 : ℚ) ≤ ((net.lif q i).du : ℚ) := by exact_mod_cast (hp q i hi).1.1
      linarith
    have q2 : (0 : ℚ) < ((net.lif q i).dv : ℚ) := by exact_mod_cast (hp q i hi).2.1
    have p1 : 0 ≤ Eu q i := by rw [eu]; positivity
    exact ⟨p1, by rw [ev]; positivity⟩
  · intro _ q i hi
    have q1 : (0 : ℚ) < ((net.lif q i).du : ℚ) + 1 := by
      have : (0 : ℚ) ≤ ((net.lif q i).du : ℚ) := by exact_mod_cast (hp q i hi).1.1
      linarith
    rw [hin, mul_zero, add_zero, eu]
    apply le_of_eq; field_simp; ring
  · intro _ q i hi
    have q2 : (0 : ℚ) < ((net.lif q i).dv : ℚ) := by exact_mod_cast (hp q i hi).2.1
    rw [ev]
    apply le_of_eq; field_simp; ring

/-! ### An oscillator of two neurons -/

/-- Population 0 excites population 1, which inhibits it. -/
def osc : Net :=
  { lif := fun _ _ => ⟨4095, 4096, 0, 0⟩, vth := fun _ _ => 4,
    conns := [⟨0, 1, ⟨1, false, 0, .excitatory, 8⟩, fun _ _ => 20, fun _ _ => 20⟩,
      ⟨1, 0, ⟨1, false, 0, .inhibitory, 8⟩, fun _ _ => -20, fun _ _ => -20⟩] }

/-- Population 0 gets an input of 10 in every step. -/
def oscIn : Nat → Nat → Nat → Int := fun _ q _ => if q = 0 then 10 else 0

def oscSize (q : Nat) : Nat := if q < 2 then 1 else 0

theorem osc_buf (t : Nat) (s : Nat → Bool) (c : Conn) (hc : c ∈ osc.conns) (i : Nat) :
    fltDense c s i = 0 ∨ fltDense c s i = c.wf 0 0 := by
  have e : c.par.nIn = 1 ∧ ∀ i j, c.wf i j = c.wf 0 0 := by
    simp only [osc, List.mem_cons, List.not_mem_nil, or_false] at hc
    rcases hc with rfl | rfl <;> exact ⟨rfl, fun _ _ => rfl⟩
  unfold fltDense
  rw [e.1, Finset.sum_filter, Finset.sum_range_one, e.2 i 0]
  by_cases h : s 0 = true
  · right; rw [if_pos h]
  · left; rw [if_neg h]

/-- The voltage of the two neurons before the threshold is the input: 10 or -10, and 0 or 20. -/
theorem osc_pre (t q : Nat) (hq : q < 2) (i : Nat) : (fltPre osc oscIn t q i).u = (fltPre osc oscIn t q i).v ∧
    ((fltPre osc oscIn t q i).v = 10 ∨ (fltPre osc oscIn t q i).v = -10 ∨ (fltPre osc oscIn t q i).v = 0 ∨ (fltPre osc oscIn t q i).v = 20) := by
  have hv : (fltPre osc oscIn t q i).v = fltIn osc (fltAt osc oscIn t) (oscIn t) q i := by
    norm_num [fltPre, flSub, fltPar, osc, effBias]
  have hu : (fltPre osc oscIn t q i).u = fltIn osc (fltAt osc oscIn t) (oscIn t) q i := by
    norm_num [fltPre, flSub, fltPar, osc, effBias]
  refine ⟨by rw [hu, hv], ?_⟩
  rw [hv]
  unfold fltIn
  rw [flt_conn, zip_map_self]
  have hb : ∀ c ∈ osc.conns, fltBuf osc oscIn c t i = 0 ∨ fltBuf osc oscIn c t i = c.wf 0 0 := by
    intro c hc
    cases t with
    | zero => exact Or.inl rfl
    | succ t => exact osc_buf t _ c hc i
  have h0 := hb _ (List.mem_cons_self ..)
  have h1 := hb _ (List.mem_cons_of_mem _ (List.mem_cons_self ..))
  rcases Nat.lt_succ_iff_lt_or_eq.mp hq with h | h
  · have : q = 0 := by omega
    subst this
    rcases h1 with h1 | h1 <;> simp only [osc, List.map_cons, List.map_nil, List.sum_cons, List.sum_nil, oscIn] at h1 ⊢ <;>
      norm_num [h1]
  · subst h
    rcases h0 with h0 | h0 <;> simp only [osc, List.map_cons, List.map_nil, List.sum_cons, List.sum_nil, oscIn] at h0 ⊢ <;>
      norm_num [h0]

/-- The oscillator spikes alike in both precisions. -/
theorem osc_same (T : Nat) : ∀ t < T, ∀ q < 2, fixSpike osc oscIn t q 0 = fltSpike osc oscIn t q 0 := by
  have := C111_same_weights osc oscIn oscSize T ?_ ?_ ?_ (fun _ _ => 1) (fun _ _ => 2) ?_ ?_ ?_ ?_
  · intro t ht q hq
    exact this t ht q 0 (by simp [oscSize, hq])
  · intro c hc
    simp only [osc, List.mem_cons, List.not_mem_nil, or_false] at hc
    rcases hc with rfl | rfl <;> decide
  · intro c hc
    simp only [osc, List.mem_cons, List.not_mem_nil, or_false] at hc
    rcases hc with rfl | rfl
    · refine ⟨le_refl _, fun i j _ => ?_⟩
      have : Dense.prepared ⟨1, false, 0, .excitatory, 8⟩ (fun _ _ => 20) i j = 20 := by
        show Weights.truncWeight (Weights.clipWeight 20 .excitatory 8 false) .excitatory 8 8 = 20
        decide
      rw [this]; norm_num
    · refine ⟨le_refl _, fun i j _ => ?_⟩
      have : Dense.prepared ⟨1, false, 0, .inhibitory, 8⟩ (fun _ _ => -20) i j = -20 := by
        show Weights.truncWeight (Weights.clipWeight (-20) .inhibitory 8 false) .inhibitory 8 8 = -20
        decide
      rw [this]; norm_num
  · intro q i _; simp [osc]
  · intro q i; norm_num [osc]
  · intro q i; norm_num [osc]
  · intro t _ q i hi
    have hq : q < 2 := by
      by_cases h : q < 2
      · exact h
      · simp [oscSize, h] at hi
    obtain ⟨e, h⟩ := osc_pre t q hq i
    rw [e]
    rcases h with h | h | h | h <;> rw [h] <;> norm_num
  · intro t _ q i hi
    have hq : q < 2 := by
      by_cases h : q < 2
      · exact h
      · simp [oscSize, h] at hi
    obtain ⟨e, h⟩ := osc_pre t q hq i
    rcases h with h | h | h | h <;> rw [h] <;> norm_num [osc]

/-- The oscillator does oscillate. -/
example : (List.range 8).map (fun t => fixSpike osc oscIn t 0 0) = [true, true, false, false, true, true, false, false] := by decide +kernel

end Verif.SpikeNet
