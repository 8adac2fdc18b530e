import Verif.SDN.Model

/-!
# C44, C45: sigma-delta coding
-/

set_option linter.unusedSectionVars false

namespace Verif.SDN

section Generic
variable {α : Type} [CommRing α] [LinearOrder α] [IsStrictOrderedRing α]

/-- Specification: an error of less than `b`, or none at all (thresholds of zero or less send everything). -/
def Within (b err : α) : Prop := err = 0 ∨ |err| < b

theorem gate_cases (vth x d : α) : (vth ≤ |x| ∧ gate vth x d = d) ∨ (|x| < vth ∧ gate vth x d = 0) := by
  unfold gate
  split
  · rename_i h; exact Or.inl ⟨h, rfl⟩
  · rename_i h; exact Or.inr ⟨lt_of_not_ge h, rfl⟩

/-- What is missing at the receiver is the residue. -/
theorem deltaStep_conserve (p : DPar α) (s : DSt α) (a : α) :
    (deltaStep p s a).1.act = a ∧ (deltaStep p s a).1.residue = a - s.act + s.residue - (deltaStep p s a).2 := by
  unfold deltaStep
  split <;> exact ⟨rfl, rfl⟩

theorem deltaStep_residue (p : DPar α) (hc : p.cum = false) (s : DSt α) (a : α) :
    Within p.vth (deltaStep p s a).1.residue := by
  unfold deltaStep
  simp only [hc, Bool.false_eq_true, if_false]
  rcases gate_cases p.vth (a - s.act + s.residue) (a - s.act + s.residue) with ⟨_, h⟩ | ⟨h1, h⟩
  · left; rw [h]; ring
  · right; rw [h]; simpa using h1

theorem deltaRun_append (p : DPar α) (s : DSt α) (as bs : List α) :
    deltaRun p s (as ++ bs) = ((deltaRun p (deltaRun p s as).1 bs).1, (deltaRun p s as).2 ++ (deltaRun p (deltaRun p s as).1 bs).2) := by
  induction as generalizing s with
  | nil => simp [deltaRun]
  | cons a as ih => simp [deltaRun, ih]

theorem deltaRun_conserve (p : DPar α) (as : List α) : ∀ s : DSt α,
    (deltaRun p s as).2.sum + (deltaRun p s as).1.residue - (deltaRun p s as).1.act = s.residue - s.act := by
  induction as with
  | nil => intro s; simp [deltaRun]
  | cons a as ih =>
    intro s
    simp only [deltaRun, List.sum_cons]
    have h1 := ih (deltaStep p s a).1
    have h2 := deltaStep_conserve p s a
    rw [h2.2, h2.1] at h1
    linear_combination h1

/-- Sum of everything sent after the inputs `as ++ [a]`: the last input minus the residue. -/
theorem deltaRun_sum (p : DPar α) (as : List α) (a : α) :
    (deltaRun p initD (as ++ [a])).2.sum = a - (deltaRun p initD (as ++ [a])).1.residue := by
  have h := deltaRun_conserve p (as ++ [a]) (initD : DSt α)
  have hact : (deltaRun p initD (as ++ [a])).1.act = a := by
    rw [deltaRun_append]; simp [deltaRun, (deltaStep_conserve p _ a).1]
  rw [hact] at h
  simp only [initD, sub_zero] at h
  unfold initD
  linear_combination h

/-- **C44.** Delta coding: for every threshold and every sequence of inputs, the sum of everything sent so far differs from
the current input by less than the threshold (or not at all). -/
theorem C44_delta_tracks (vth : α) (as : List α) (a : α) :
    Within vth ((deltaRun ⟨vth, false⟩ initD (as ++ [a])).2.sum - a) := by
  rw [deltaRun_sum]
  have h : Within vth (deltaRun (⟨vth, false⟩ : DPar α) initD (as ++ [a])).1.residue := by
    rw [deltaRun_append]; simpa [deltaRun] using deltaStep_residue ⟨vth, false⟩ rfl (deltaRun ⟨vth, false⟩ initD as).1 a
  rcases h with h | h
  · left; rw [h]; ring
  · right
    have : a - (deltaRun (⟨vth, false⟩ : DPar α) initD (as ++ [a])).1.residue - a =
      -(deltaRun (⟨vth, false⟩ : DPar α) initD (as ++ [a])).1.residue := by ring
    rw [this, abs_neg]; exact h

/-- Sigma decoding yields the running sums. -/
theorem C44_sigma_is_running_sum (sg : α) (as : List α) : (sigmaRun sg as).length = as.length ∧
    ∀ i (h : i < (sigmaRun sg as).length), (sigmaRun sg as)[i] = sg + (as.take (i + 1)).sum := by
  induction as generalizing sg with
  | nil => simp [sigmaRun]
  | cons a as ih =>
    refine ⟨by simp [sigmaRun, (ih (a + sg)).1], ?_⟩
    intro i h
    cases i with
    | zero => simp [sigmaRun]; ring
    | succ i =>
      have h' : i < (sigmaRun (a + sg) as).length := by simpa [sigmaRun] using h
      have := (ih (a + sg)).2 i h'
      simp only [sigmaRun, List.getElem_cons_succ, List.take_succ_cons, List.sum_cons]
      rw [this]; ring

theorem deltaRun_length (p : DPar α) (as : List α) : ∀ s : DSt α, (deltaRun p s as).2.length = as.length := by
  induction as with
  | nil => intro s; rfl
  | cons a as ih => intro s; simp [deltaRun, ih]

theorem deltaRun_take (p : DPar α) (as : List α) (k : Nat) : ∀ s : DSt α,
    (deltaRun p s as).2.take k = (deltaRun p s (as.take k)).2 := by
  induction as generalizing k with
  | nil => intro s; simp [deltaRun]
  | cons a as ih =>
    intro s
    cases k with
    | zero => simp [deltaRun]
    | succ k => simp [deltaRun, ih]

/-- **C44.** A `Delta` process feeding a `Sigma` process: at every time step the output of `Sigma` is within the threshold
of the input of `Delta`. -/
theorem C44_delta_then_sigma (vth : α) (as : List α) (i : Nat) (hi : i < as.length) :
    ∃ h : i < (sigmaRun 0 (deltaRun ⟨vth, false⟩ initD as).2).length,
      Within vth ((sigmaRun 0 (deltaRun ⟨vth, false⟩ initD as).2)[i] - as[i]) := by
  have hl : i < (sigmaRun 0 (deltaRun (⟨vth, false⟩ : DPar α) initD as).2).length := by
    rw [(C44_sigma_is_running_sum _ _).1, deltaRun_length]; exact hi
  refine ⟨hl, ?_⟩
  rw [(C44_sigma_is_running_sum _ _).2 i hl, deltaRun_take, zero_add]
  have : as.take (i + 1) = as.take i ++ [as[i]] := by rw [List.take_append_getElem hi]
  rw [this]
  exact C44_delta_tracks vth (as.take i) as[i]

/-! Cumulative error. -/

theorem cum_step (vth : α) (s : DSt α) (a : α) (hs : s.error = 0 ∨ |s.error| < vth) :
    (let r := (deltaStep ⟨vth, true⟩ s a).1
     (r.error = 0 ∨ |r.error| < vth) ∧ Within (2 * vth) r.residue) := by
  simp only [deltaStep, if_true]
  generalize hd : a - s.act + s.residue = d
  rcases gate_cases vth (s.error + d) d with ⟨h1, h⟩ | ⟨h1, h⟩
  · rw [h]
    refine ⟨?_, Or.inl (by ring)⟩
    unfold resetErr
    by_cases hd0 : |d| > 0
    · rw [if_pos hd0]; exact Or.inl rfl
    · rw [if_neg hd0]
      have hz : d = 0 := by
        rcases (abs_nonneg d).lt_or_eq with hp | hp
        · exact absurd hp hd0
        · exact abs_eq_zero.mp hp.symm
      simpa [hz] using hs
  · rw [h]
    have hz : resetErr (s.error + d) 0 = s.error + d := by simp [resetErr]
    rw [hz]
    refine ⟨Or.inr h1, Or.inr ?_⟩
    rw [sub_zero]
    have hv : 0 < vth := lt_of_le_of_lt (abs_nonneg _) h1
    rcases hs with hs | hs
    · rw [hs, zero_add] at h1; linarith
    · have : d = (s.error + d) - s.error := by ring
      rw [this]
      have := abs_sub (s.error + d) s.error
      linarith

theorem cum_run (vth : α) (as : List α) : ∀ s : DSt α, (s.error = 0 ∨ |s.error| < vth) →
    ((deltaRun ⟨vth, true⟩ s as).1.error = 0 ∨ |(deltaRun ⟨vth, true⟩ s as).1.error| < vth) := by
  induction as with
  | nil => intro s h; exact h
  | cons a as ih => intro s h; exact ih _ (cum_step vth s a h).1

/-- **C44, cumulative error mode.** The reconstruction error is below twice the threshold at all times. -/
theorem C44_cumulative_tracks (vth : α) (as : List α) (a : α) :
    Within (2 * vth) ((deltaRun ⟨vth, true⟩ initD (as ++ [a])).2.sum - a) := by
  rw [deltaRun_sum]
  have h : Within (2 * vth) (deltaRun (⟨vth, true⟩ : DPar α) initD (as ++ [a])).1.residue := by
    rw [deltaRun_append]
    exact (cum_step vth _ a (cum_run vth as initD (Or.inl rfl))).2
  rcases h with h | h
  · left; rw [h]; ring
  · right
    have : a - (deltaRun (⟨vth, true⟩ : DPar α) initD (as ++ [a])).1.residue - a =
      -(deltaRun (⟨vth, true⟩ : DPar α) initD (as ++ [a])).1.residue := by ring
    rw [this, abs_neg]; exact h

/-- The neuron is a delta encoder of its activation sequence. -/
theorem sdRun_eq (p : DPar α) (relu : Bool) (bias : α) (as : List α) : ∀ s : SDSt α,
    (sdRun p relu bias s as).2 = (deltaRun p s.d ((sigmaRun s.sigma as).map (activation relu bias))).2 := by
  induction as with
  | nil => intro s; rfl
  | cons a as ih => intro s; simp [sdRun, sigmaRun, deltaRun, sdStep, ih]

theorem sigmaRun_append (sg : α) (as : List α) (a : α) : sigmaRun sg (as ++ [a]) = sigmaRun sg as ++ [sg + (as ++ [a]).sum] := by
  induction as generalizing sg with
  | nil => simp [sigmaRun]; ring
  | cons b as ih => simp [sigmaRun, ih]; ring

/-- **C44.** Sigma-delta neuron, UNIT or RELU: after every sequence of inputs the sum of all spikes sent is within the
threshold of the activation of the sum of all inputs received. -/
theorem C44_sigma_delta_neuron (vth bias : α) (relu : Bool) (as : List α) (a : α) :
    Within vth ((sdRun ⟨vth, false⟩ relu bias initSD (as ++ [a])).2.sum -
      (if relu then max ((as ++ [a]).sum + bias) 0 else (as ++ [a]).sum + bias)) := by
  rw [sdRun_eq, show (initSD : SDSt α).sigma = 0 from rfl, sigmaRun_append, List.map_append]
  have := C44_delta_tracks vth ((sigmaRun 0 as).map (activation relu bias)) (activation relu bias (0 + (as ++ [a]).sum))
  simpa [activation, initSD] using this

end Generic

example : (deltaRun (⟨3, false⟩ : DPar Int) initD [2, 4, 5, 1]).2 = [0, 4, 0, -3] := by decide
example : sigmaRun (0 : Int) (deltaRun (⟨3, false⟩ : DPar Int) initD [2, 4, 5, 1]).2 = [0, 4, 4, 1] := by decide

/-- **C44, finding.** In cumulative error mode the error can exceed the threshold (here 18 with threshold 10). -/
theorem C44_witness_cumulative_exceeds_threshold :
    (deltaRun (⟨10, true⟩ : DPar Int) initD [-9, 18]).2.sum - 18 = -18 := by decide

/-! ## C45 -/

theorem shr_mul_of_dvd (x : Int) (e : Nat) (h : (2 : Int) ^ e ∣ x) : shr x e * 2 ^ e = x := Int.ediv_mul_cancel h

theorem shr_bounds (x : Int) (e : Nat) : 0 ≤ x - shr x e * 2 ^ e ∧ x - shr x e * 2 ^ e < 2 ^ e := by
  have hp : (0 : Int) < 2 ^ e := by positivity
  have h1 := Int.emod_add_mul_ediv x (2 ^ e)
  have h2 := Int.emod_nonneg x (ne_of_gt hp)
  have h3 := Int.emod_lt_of_pos x hp
  unfold shr
  have h4 : x / 2 ^ e * 2 ^ e = 2 ^ e * (x / 2 ^ e) := by ring
  rw [h4]
  constructor <;> linarith

theorem gate_dvd (k vth x d : Int) (h : k ∣ d) : k ∣ gate vth x d := by
  unfold gate; split
  · exact h
  · exact dvd_zero k

theorem deltaStep_dvd (k : Int) (p : DPar Int) (s : DSt Int) (a : Int) (ha : k ∣ a) (h1 : k ∣ s.act) (h2 : k ∣ s.residue) :
    k ∣ (deltaStep p s a).2 ∧ k ∣ (deltaStep p s a).1.act ∧ k ∣ (deltaStep p s a).1.residue := by
  have hd : k ∣ a - s.act + s.residue := dvd_add (dvd_sub ha h1) h2
  have h0 : k ∣ (deltaStep p s a).2 := by
    unfold deltaStep; split
    · exact gate_dvd k _ _ _ hd
    · exact gate_dvd k _ _ _ hd
  refine ⟨h0, ?_, ?_⟩
  · rw [(deltaStep_conserve p s a).1]; exact ha
  · rw [(deltaStep_conserve p s a).2]; exact dvd_sub hd h0

/-- The shifts of the fixed-point delta encoder lose nothing. -/
theorem deltaFixedRun_exact (p : DPar Int) (k e : Nat) (as : List Int) : ∀ s : DSt Int,
    (2 : Int) ^ e ∣ s.act → (2 : Int) ^ e ∣ s.residue →
    (deltaFixedRun p k e s as).2.map (· * 2 ^ e) = (deltaRun p s (as.map (· * 2 ^ (k + e)))).2 := by
  induction as with
  | nil => intro s _ _; rfl
  | cons a as ih =>
    intro s h1 h2
    have ha : (2 : Int) ^ e ∣ a * 2 ^ (k + e) := by rw [pow_add]; exact ⟨a * 2 ^ k, by ring⟩
    have hd := deltaStep_dvd _ p s _ ha h1 h2
    simp only [deltaFixedRun, deltaRun, List.map_cons]
    rw [shr_mul_of_dvd _ _ hd.1, ih _ hd.2.1 hd.2.2]

theorem sum_map_mul (l : List Int) (c : Int) : (l.map (· * c)).sum = l.sum * c := by
  induction l with
  | nil => simp
  | cons x l ih => simp only [List.map_cons, List.sum_cons, ih]; ring

/-- **C45.** Fixed-point `Delta` with any exponents: the shifted sum of everything sent is within the (scaled) threshold of
the scaled input at all times. -/
theorem C45_delta_fixed_no_drift (vth : Int) (k e : Nat) (as : List Int) (a : Int) :
    Within vth ((deltaFixedRun ⟨vth, false⟩ k e initD (as ++ [a])).2.sum * 2 ^ e - a * 2 ^ (k + e)) := by
  rw [← sum_map_mul, deltaFixedRun_exact _ _ _ _ _ (dvd_zero _) (dvd_zero _), List.map_append]
  exact C44_delta_tracks vth _ _

/-- **C45.** The same in cumulative error mode, with twice the threshold. -/
theorem C45_delta_fixed_cumulative_no_drift (vth : Int) (k e : Nat) (as : List Int) (a : Int) :
    Within (2 * vth) ((deltaFixedRun ⟨vth, true⟩ k e initD (as ++ [a])).2.sum * 2 ^ e - a * 2 ^ (k + e)) := by
  rw [← sum_map_mul, deltaFixedRun_exact _ _ _ _ _ (dvd_zero _) (dvd_zero _), List.map_append]
  exact C44_cumulative_tracks vth _ _

theorem corrRun_append (vth : Int) (relu : Bool) (bias : Int) (e : Nat) (as bs : List Int) : ∀ s,
    corrRun vth relu bias e s (as ++ bs) =
      ((corrRun vth relu bias e (corrRun vth relu bias e s as).1 bs).1,
       (corrRun vth relu bias e s as).2 ++ (corrRun vth relu bias e (corrRun vth relu bias e s as).1 bs).2) := by
  induction as with
  | nil => intro s; simp [corrRun]
  | cons a as ih => intro s; simp [corrRun, ih]

theorem corrRun_state (vth : Int) (relu : Bool) (bias : Int) (e : Nat) (as : List Int) : ∀ s,
    (corrRun vth relu bias e s as).1.sigma = s.sigma + as.sum ∧
    (corrRun vth relu bias e s as).1.act = s.act + (corrRun vth relu bias e s as).2.sum * 2 ^ e := by
  induction as with
  | nil => intro s; simp [corrRun]
  | cons a as ih =>
    intro s
    simp only [corrRun, List.sum_cons]
    refine ⟨?_, ?_⟩
    · rw [(ih _).1]; simp only [corrStep]; ring
    · rw [(ih _).2]; simp only [corrStep]; ring

/-- **C45.** The corrected sigma-delta neuron: after every sequence of inputs the shifted sum of all spikes differs from the
activation of the sum of all inputs by less than `max vth (2^state_exp)`. No condition on the inputs. -/
theorem C45_corrected_no_drift (vth : Int) (relu : Bool) (bias : Int) (e : Nat) (as : List Int) (a : Int) :
    |(corrRun vth relu bias e ⟨0, 0⟩ (as ++ [a])).2.sum * 2 ^ e -
      (if relu then max ((as ++ [a]).sum + bias) 0 else (as ++ [a]).sum + bias)| < max vth (2 ^ e) := by
  have hst := corrRun_state vth relu bias e as ⟨0, 0⟩
  rw [corrRun_append]
  generalize hs : corrRun vth relu bias e ⟨0, 0⟩ as = s at hst
  have hsg : (as ++ [a]).sum = a + s.1.sigma := by rw [hst.1]; simp; ring
  rw [hsg]
  simp only [corrRun, List.sum_append, List.sum_cons, List.sum_nil, add_zero, corrStep]
  change |_ - activation relu bias (a + s.1.sigma)| < _
  generalize hx : activation relu bias (a + s.1.sigma) = x
  have hact : s.2.sum * 2 ^ e = s.1.act := by rw [hst.2]; ring
  rw [add_mul, hact]
  have hp : (0 : Int) < 2 ^ e := by positivity
  rcases gate_cases vth (x - s.1.act) (x - s.1.act) with ⟨_, h⟩ | ⟨h1, h⟩
  · rw [h]
    have hb := shr_bounds (x - s.1.act) e
    refine lt_of_lt_of_le ?_ (le_max_right _ _)
    rw [abs_lt]; constructor <;> linarith
  · rw [h]
    have h0 : shr 0 e = 0 := by simp [shr]
    rw [h0]
    refine lt_of_lt_of_le ?_ (le_max_left _ _)
    have : s.1.act + 0 * 2 ^ e - x = -(x - s.1.act) := by ring
    rw [this, abs_neg]; exact h1

example : (corrRun 4 true 0 1 ⟨0, 0⟩ [3, 4, 5, -20]).2 = [0, 3, 3, -6] := by decide

theorem sdFixedRun_map (p : DPar Int) (relu : Bool) (bias : Int) (e : Nat) (as : List Int) : ∀ s : SDSt Int,
    (sdFixedRun p relu bias e s as).2 = (sdRun p relu bias s as).2.map (fun x => shr x e) := by
  induction as with
  | nil => intro s; rfl
  | cons a as ih => intro s; simp [sdFixedRun, sdRun, ih]

/-- Fixed-point sigma-delta neuron (not corrected): every step loses less than one unit of the shifted scale. -/
theorem sum_shr_bounds (l : List Int) (e : Nat) :
    0 ≤ l.sum - (l.map (fun x => shr x e)).sum * 2 ^ e ∧
    l.sum - (l.map (fun x => shr x e)).sum * 2 ^ e ≤ l.length * (2 ^ e - 1) := by
  induction l with
  | nil => simp
  | cons x l ih =>
    have hb := shr_bounds x e
    simp only [List.map_cons, List.sum_cons, List.length_cons]
    push_cast
    constructor <;> nlinarith [ih.1, ih.2, hb.1, hb.2]

/-- **C45, partial (uncorrected neuron).** The reconstruction error grows at most by `2^state_exp - 1` per step: it is below
`vth + n * (2^state_exp - 1)` after `n` steps. A bound independent of `n` does not hold, see the witness. -/
theorem C45_sigma_delta_fixed_partial (vth : Int) (hv : 0 < vth) (relu : Bool) (bias : Int) (e : Nat) (as : List Int) (a : Int) :
    |(sdFixedRun ⟨vth, false⟩ relu bias e initSD (as ++ [a])).2.sum * 2 ^ e -
      (if relu then max ((as ++ [a]).sum + bias) 0 else (as ++ [a]).sum + bias)|
      < vth + (as.length + 1) * (2 ^ e - 1) := by
  have hlen : ∀ (as : List Int) (s : SDSt Int), (sdRun (⟨vth, false⟩ : DPar Int) relu bias s as).2.length = as.length := by
    intro as
    induction as with
    | nil => intro s; rfl
    | cons a as ih => intro s; simp [sdRun, ih]
  have h := C44_sigma_delta_neuron vth bias relu as a
  have hb := sum_shr_bounds (sdRun ⟨vth, false⟩ relu bias initSD (as ++ [a])).2 e
  rw [hlen] at hb
  rw [sdFixedRun_map]
  generalize (if relu then max ((as ++ [a]).sum + bias) 0 else (as ++ [a]).sum + bias) = x at h
  generalize ((sdRun ⟨vth, false⟩ relu bias initSD (as ++ [a])).2.map (fun x => shr x e)).sum * 2 ^ e = y at hb ⊢
  generalize (sdRun ⟨vth, false⟩ relu bias initSD (as ++ [a])).2.sum = z at h hb
  have hz : |z - x| < vth := by
    rcases h with h | h
    · rw [h]; simpa using hv
    · exact h
  rw [abs_lt] at hz ⊢
  simp only [List.length_append, List.length_cons, List.length_nil] at hb
  push_cast at hb
  constructor <;> nlinarith [hz.1, hz.2, hb.1, hb.2]

/-- **C45.** Without loss if inputs and bias are multiples of `2^state_exp`. -/
theorem C45_sigma_delta_fixed_multiples (vth : Int) (relu : Bool) (bias : Int) (e : Nat) (as : List Int) (a : Int)
    (hb : (2 : Int) ^ e ∣ bias) (ha : ∀ x ∈ as ++ [a], (2 : Int) ^ e ∣ x) :
    Within vth ((sdFixedRun ⟨vth, false⟩ relu bias e initSD (as ++ [a])).2.sum * 2 ^ e -
      (if relu then max ((as ++ [a]).sum + bias) 0 else (as ++ [a]).sum + bias)) := by
  have hact : ∀ sg : Int, (2 : Int) ^ e ∣ sg → (2 : Int) ^ e ∣ activation relu bias sg := by
    intro sg h
    unfold activation
    split
    · rcases max_choice (sg + bias) 0 with h1 | h1 <;> rw [h1]
      · exact dvd_add h hb
      · exact dvd_zero _
    · exact dvd_add h hb
  have key : ∀ (as : List Int) (s : SDSt Int), (∀ x ∈ as, (2 : Int) ^ e ∣ x) → (2 : Int) ^ e ∣ s.sigma →
      (2 : Int) ^ e ∣ s.d.act → (2 : Int) ^ e ∣ s.d.residue →
      ∀ x ∈ (sdRun (⟨vth, false⟩ : DPar Int) relu bias s as).2, (2 : Int) ^ e ∣ x := by
    intro as
    induction as with
    | nil => intro s _ _ _ _ x hx; simp [sdRun] at hx
    | cons a as ih =>
      intro s h0 h1 h2 h3 x hx
      have hsg : (2 : Int) ^ e ∣ a + s.sigma := dvd_add (h0 a (by simp)) h1
      have hd := deltaStep_dvd _ (⟨vth, false⟩ : DPar Int) s.d _ (hact _ hsg) h2 h3
      simp only [sdRun, List.mem_cons] at hx
      rcases hx with hx | hx
      · rw [hx]; exact hd.1
      · exact ih _ (fun y hy => h0 y (by simp [hy])) hsg hd.2.1 hd.2.2 x hx
  have hmul := key (as ++ [a]) initSD ha (dvd_zero _) (dvd_zero _) (dvd_zero _)
  have hsum : ∀ l : List Int, (∀ x ∈ l, (2 : Int) ^ e ∣ x) → (l.map (fun x => shr x e)).sum * 2 ^ e = l.sum := by
    intro l
    induction l with
    | nil => intro _; simp
    | cons x l ih =>
      intro h
      simp only [List.map_cons, List.sum_cons, add_mul]
      rw [ih (fun y hy => h y (by simp [hy])), shr_mul_of_dvd _ _ (h x (by simp))]
  rw [sdFixedRun_map, hsum _ hmul]
  exact C44_sigma_delta_neuron vth bias relu as a

example : (2 : Int) ^ 1 ∣ 4 ∧ ∀ x ∈ [6, -2] ++ [(8 : Int)], (2 : Int) ^ 1 ∣ x := by decide

/-- **C45, finding.** The uncorrected fixed-point neuron drifts without bound: with `vth = 1`, `state_exp = 1` and constant input 3 the
receiver has lost `n` after `n` steps. -/
theorem C45_witness_sigma_delta_fixed_drifts (n : Nat) :
    (sdFixedRun (⟨2, false⟩ : DPar Int) false 0 1 initSD (List.replicate n 3)).2.sum * 2 - (List.replicate n (3 : Int)).sum = -n := by
  have key : ∀ (n : Nat) (s : SDSt Int), s.d.residue = 0 → s.d.act = s.sigma →
      (sdFixedRun (⟨2, false⟩ : DPar Int) false 0 1 s (List.replicate n 3)).2.sum = n := by
    intro n
    induction n with
    | zero => intro s _ _; simp [sdFixedRun]
    | succ n ih =>
      intro s h1 h2
      have hd : activation false 0 (3 + s.sigma) - s.d.act + s.d.residue = 3 := by
        simp only [activation, Bool.false_eq_true, if_false]; rw [h1, h2]; ring
      have hst : sdStep (⟨2, false⟩ : DPar Int) false 0 s 3 =
          ({ sigma := 3 + s.sigma, d := { act := activation false 0 (3 + s.sigma), residue := 0, error := s.d.error } }, 3) := by
        simp only [sdStep, deltaStep, Bool.false_eq_true, if_false, hd]
        rfl
      simp only [List.replicate_succ, sdFixedRun, hst, List.sum_cons]
      rw [ih _ rfl (by simp [activation])]
      simp [shr]; ring
  rw [key n initSD rfl rfl]
  simp; ring

end Verif.SDN
