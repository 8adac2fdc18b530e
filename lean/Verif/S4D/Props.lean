import Verif.S4D.Model
import Verif.SDN.Props

/-!
# C85: the S4D processes are linear filters
-/

set_option linter.unusedSectionVars false

namespace Verif.S4D

open Verif.SDN

/-- Specification: response at step `t` of the linear system with state matrix `a`, input matrix `b`, started in `s0`, that has received `u 0 .. u t`. -/
def response {K : Type} [CommRing K] (a b s0 : K) (u : Nat → K) (t : Nat) : K :=
  a ^ (t + 1) * s0 + ∑ k ∈ Finset.range (t + 1), a ^ (t - k) * b * u k

theorem response_zero {K : Type} [CommRing K] (a b s0 : K) (u : Nat → K) : response a b s0 u 0 = s0 * a + u 0 * b := by
  simp [response]; ring

theorem response_succ {K : Type} [CommRing K] (a b s0 : K) (u : Nat → K) (t : Nat) :
    response a b s0 u (t + 1) = response a b s0 u t * a + u (t + 1) * b := by
  unfold response
  rw [Finset.sum_range_succ _ (t + 1)]
  have : ∑ k ∈ Finset.range (t + 1), a ^ (t + 1 - k) * b * u k = (∑ k ∈ Finset.range (t + 1), a ^ (t - k) * b * u k) * a := by
    rw [Finset.sum_mul]
    apply Finset.sum_congr rfl
    intro k hk
    have hk' := Finset.mem_range.1 hk
    have : t + 1 - k = (t - k) + 1 := by omega
    rw [this, pow_succ]; ring
  rw [this]
  simp only [Nat.sub_self, pow_zero]
  ring

/-- Starting one step later. -/
theorem response_shift {K : Type} [CommRing K] (a b s0 : K) (u : Nat → K) : ∀ t : Nat,
    response a b s0 u (t + 1) = response a b (s0 * a + u 0 * b) (fun k => u (k + 1)) t
  | 0 => by rw [response_succ, response_zero, response_zero]
  | t + 1 => by rw [response_succ, response_shift a b s0 u t, response_succ _ _ _ (fun k => u (k + 1))]

/-- **C85.** `S4d`: for all parameters, initial states and inputs, the output in step `t` is twice the real part of `c` times the response of the linear
system to all inputs up to and including step `t`. -/
theorem C85_s4d_is_linear_filter {K R : Type} [CommRing K] (re : K → R) (a b c : K) : ∀ (us : List K) (s0 : K) (t : Nat) (ht : t < us.length),
    (s4dRun re a b c s0 us)[t]? = some (re (2 * (c * response a b s0 (fun k => us.getD k 0) t)))
  | [], _, _, ht => by simp at ht
  | u :: us, s0, 0, _ => by
    simp only [s4dRun, List.getElem?_cons_zero, response_zero, List.getD_cons_zero]
    congr 2; ring
  | u :: us, s0, t + 1, ht => by
    simp only [s4dRun, List.getElem?_cons_succ]
    rw [C85_s4d_is_linear_filter re a b c us (s0 * a + u * b) t (by simpa using ht), response_shift]
    simp only [List.getD_cons_zero, List.getD_cons_succ]

/-- Nothing is sent for steps that have not happened. -/
theorem s4dRun_length {K R : Type} [CommRing K] (re : K → R) (a b c : K) : ∀ (us : List K) (s0 : K), (s4dRun re a b c s0 us).length = us.length
  | [], _ => rfl
  | u :: us, s0 => by simp [s4dRun, s4dRun_length re a b c us]

/-- **C85, finding.** The documentation says that the output of step `k` is `C` times the state *before* the input of step `k` is added; in the code the
input of a step already contributes to the output of that step, and the output is doubled. -/
theorem C85_witness_input_contributes_at_once :
    s4dRun (fun x : Int => x) 3 1 1 0 [1, 0, 0] = [2, 6, 18] := by decide

section Delta
variable {α : Type} [CommRing α] [LinearOrder α] [IsStrictOrderedRing α]

/-- Running sum of the inputs up to and including step `k`: what sigma decoding yields. -/
def runSum (x : Nat → α) (k : Nat) : α := ∑ j ∈ Finset.range (k + 1), x j

theorem nState_sigma (p : NPar α) (x : Nat → α) : ∀ t, (nState p x t).sigma = ∑ j ∈ Finset.range t, x j
  | 0 => rfl
  | t + 1 => by
    have ih := nState_sigma p x t
    show x t + (nState p x t).sigma = _
    rw [ih, Finset.sum_range_succ]; ring

theorem nState_s4 (p : NPar α) (x : Nat → α) : ∀ t, (nState p x (t + 1)).s4 = response p.a p.b 0 (runSum x) t
  | 0 => by
    show (nState p x 0).s4 * p.a + (x 0 + (nState p x 0).sigma) * p.b = _
    rw [response_zero]
    simp [nState, initN, runSum]
  | t + 1 => by
    have ih := nState_s4 p x t
    show (nState p x (t + 1)).s4 * p.a + (x (t + 1) + (nState p x (t + 1)).sigma) * p.b = _
    rw [ih, response_succ, nState_sigma]
    congr 2
    unfold runSum
    rw [Finset.sum_range_succ _ (t + 1)]; ring

/-- The activation that is delta-encoded in step `t`. -/
theorem nState_act (p : NPar α) (x : Nat → α) (t : Nat) : (nState p x (t + 1)).d.act = p.c * (nState p x (t + 1)).s4 * 2 :=
  (deltaStep_conserve ⟨p.vth, false⟩ (nState p x t).d _).1

theorem nSent_sum (p : NPar α) (x : Nat → α) : ∀ t,
    ∑ k ∈ Finset.range t, nSent p x k = (nState p x t).d.act - (nState p x t).d.residue
  | 0 => by simp [nState, initN, initD]
  | t + 1 => by
    rw [Finset.sum_range_succ, nSent_sum p x t]
    have h := deltaStep_conserve ⟨p.vth, false⟩ (nState p x t).d (p.c * ((nState p x t).s4 * p.a + (x t + (nState p x t).sigma) * p.b) * 2)
    have h1 : (nState p x (t + 1)).d.residue = (nState p x (t + 1)).d.act - (nState p x t).d.act + (nState p x t).d.residue - nSent p x t := by
      show (deltaStep ⟨p.vth, false⟩ (nState p x t).d _).1.residue = (deltaStep ⟨p.vth, false⟩ (nState p x t).d _).1.act - _ + _ - _
      rw [h.2, h.1]; rfl
    rw [h1]; ring

/-- **C85.** `SigmaS4dDelta`: for every threshold, parameters and inputs, the sum of everything sent up to step `t` differs from twice `c` times the response
of the linear system to the decoded (summed) inputs by less than the threshold. -/
theorem C85_sigma_s4d_delta_tracks (p : NPar α) (x : Nat → α) (t : Nat) :
    Within p.vth (∑ k ∈ Finset.range (t + 1), nSent p x k - 2 * (p.c * response p.a p.b 0 (runSum x) t)) := by
  rw [nSent_sum, nState_act, nState_s4]
  have h : Within p.vth (nState p x (t + 1)).d.residue :=
    deltaStep_residue ⟨p.vth, false⟩ rfl (nState p x t).d _
  rcases h with h | h
  · left; rw [h]; ring
  · right
    have : p.c * response p.a p.b 0 (runSum x) t * 2 - (nState p x (t + 1)).d.residue - 2 * (p.c * response p.a p.b 0 (runSum x) t) =
        -(nState p x (t + 1)).d.residue := by ring
    rw [this, abs_neg]; exact h

/-! ### The layer -/

/-- The input stream that neuron `r` sees: the input of its block, one step late. -/
def delayed (x : Nat → Nat → α) (i : Nat) : Nat → α
  | 0 => 0
  | t + 1 => x t i

theorem connW_sum_in (n d r : Nat) (hr : r < n * d) (x : Nat → α) : ∑ i ∈ Finset.range n, connW d i r * x i = x (r / d) := by
  have hlt : r / d < n := Nat.div_lt_of_lt_mul (by rw [Nat.mul_comm]; exact hr)
  rw [Finset.sum_eq_single (r / d)]
  · simp [connW]
  · intro i _ hne
    simp [connW, Ne.symm hne]
  · intro h
    exact absurd (Finset.mem_range.2 hlt) h

theorem connW_sum_out (n d i : Nat) (hi : i < n) (hd : 0 < d) (y : Nat → α) :
    ∑ r ∈ Finset.range (n * d), connW d i r * y r = ∑ m ∈ Finset.range d, y (i * d + m) := by
  have h1 : ∑ r ∈ Finset.range (n * d), connW d i r * y r = ∑ r ∈ (Finset.range (n * d)).filter (fun r => r / d = i), y r := by
    rw [Finset.sum_filter]
    apply Finset.sum_congr rfl
    intro r _
    by_cases h : r / d = i <;> simp [connW, h]
  rw [h1]
  refine Finset.sum_bij' (fun r _ => r - i * d) (fun m _ => i * d + m) ?_ ?_ ?_ ?_ ?_
  · intro r hr
    obtain ⟨_, h⟩ := Finset.mem_filter.1 hr
    have h2 := Nat.div_add_mod r d
    have h3 := Nat.mod_lt r hd
    rw [h, Nat.mul_comm] at h2
    rw [Finset.mem_range]; omega
  · intro m hm
    have hm' := Finset.mem_range.1 hm
    rw [Finset.mem_filter, Finset.mem_range]
    refine ⟨?_, ?_⟩
    · calc i * d + m < i * d + d := by omega
        _ = (i + 1) * d := by ring
        _ ≤ n * d := Nat.mul_le_mul_right d hi
    · rw [Nat.mul_comm, Nat.mul_add_div hd, Nat.div_eq_of_lt hm', Nat.add_zero]
  · intro r hr
    obtain ⟨_, h⟩ := Finset.mem_filter.1 hr
    have h2 := Nat.div_mul_le_self r d
    rw [h] at h2
    omega
  · intro m _; omega
  · intro r hr
    obtain ⟨_, h⟩ := Finset.mem_filter.1 hr
    have h2 := Nat.div_mul_le_self r d
    rw [h] at h2
    congr 1; omega

theorem lState_neu (n d : Nat) (p : Nat → NPar α) (x : Nat → Nat → α) (r : Nat) (hr : r < n * d) : ∀ t,
    (lState n d p x t).buf1 r = delayed x (r / d) t ∧ (lState n d p x t).neu r = nState (p r) (delayed x (r / d)) t
  | 0 => ⟨rfl, rfl⟩
  | t + 1 => by
    obtain ⟨h1, h2⟩ := lState_neu n d p x r hr t
    refine ⟨?_, ?_⟩
    · show ∑ i ∈ Finset.range n, connW d i r * x t i = x t (r / d)
      exact connW_sum_in n d r hr (x t)
    · show (nStep (p r) ((lState n d p x t).neu r) ((lState n d p x t).buf1 r)).1 = _
      rw [h1, h2]; rfl

theorem lSent_succ (n d : Nat) (p : Nat → NPar α) (x : Nat → Nat → α) (i : Nat) (hi : i < n) (hd : 0 < d) (t : Nat) :
    lSent n d p x (t + 1) i = ∑ m ∈ Finset.range d, nSent (p (i * d + m)) (delayed x i) t := by
  show ∑ r ∈ Finset.range (n * d), connW d i r * (nStep (p r) ((lState n d p x t).neu r) ((lState n d p x t).buf1 r)).2 = _
  rw [connW_sum_out n d i hi hd]
  apply Finset.sum_congr rfl
  intro m hm
  have hm' := Finset.mem_range.1 hm
  have hr : i * d + m < n * d := by
    calc i * d + m < i * d + d := by omega
      _ = (i + 1) * d := by ring
      _ ≤ n * d := Nat.mul_le_mul_right d hi
  have hdiv : (i * d + m) / d = i := by
    rw [Nat.mul_comm, Nat.mul_add_div hd, Nat.div_eq_of_lt hm', Nat.add_zero]
  obtain ⟨h1, h2⟩ := lState_neu n d p x (i * d + m) hr t
  rw [h1, h2, hdiv]; rfl

theorem runSum_delayed (x : Nat → Nat → α) (i k : Nat) : runSum (delayed x i) (k + 1) = runSum (fun t => x t i) k ∧ runSum (delayed x i) 0 = 0 := by
  refine ⟨?_, by simp [runSum, delayed]⟩
  unfold runSum
  rw [Finset.sum_range_succ']
  simp [delayed]

theorem response_delayed (a b : α) (x : Nat → Nat → α) (i t : Nat) :
    response a b 0 (runSum (delayed x i)) (t + 1) = response a b 0 (runSum fun t => x t i) t := by
  rw [response_shift, (runSum_delayed x i 0).2]
  congr 1
  · ring
  · funext k; exact (runSum_delayed x i k).1

/-- **C85.** `SigmaS4dDeltaLayer`: output `i` of the layer, summed up to step `t + 2`, differs from the sum over the `d` hidden states of block `i` of the
responses to the summed inputs `i` up to step `t` by at most `d` times the threshold (the largest one): the layer is the state-space model with `d` states
per input, two steps late. -/
theorem C85_layer_tracks (n d : Nat) (p : Nat → NPar α) (x : Nat → Nat → α) (i : Nat) (hi : i < n) (hd : 0 < d) (t : Nat) (v : α) (hv0 : 0 ≤ v)
    (hv : ∀ m < d, (p (i * d + m)).vth ≤ v) :
    |∑ k ∈ Finset.range (t + 3), lSent n d p x k i -
      ∑ m ∈ Finset.range d, 2 * ((p (i * d + m)).c * response (p (i * d + m)).a (p (i * d + m)).b 0 (runSum fun τ => x τ i) t)| ≤ d * v := by
  rw [Finset.sum_range_succ' _ (t + 2)]
  have h0 : lSent n d p x 0 i = 0 := rfl
  rw [h0, add_zero]
  have h1 : ∑ k ∈ Finset.range (t + 2), lSent n d p x (k + 1) i =
      ∑ m ∈ Finset.range d, ∑ k ∈ Finset.range (t + 2), nSent (p (i * d + m)) (delayed x i) k := by
    rw [Finset.sum_comm]
    exact Finset.sum_congr rfl fun k _ => lSent_succ n d p x i hi hd k
  rw [h1, ← Finset.sum_sub_distrib]
  refine le_trans (Finset.abs_sum_le_sum_abs _ _) ?_
  have h2 : ∀ m ∈ Finset.range d, |∑ k ∈ Finset.range (t + 2), nSent (p (i * d + m)) (delayed x i) k -
      2 * ((p (i * d + m)).c * response (p (i * d + m)).a (p (i * d + m)).b 0 (runSum fun τ => x τ i) t)| ≤ v := by
    intro m hm
    have h3 := C85_sigma_s4d_delta_tracks (p (i * d + m)) (delayed x i) (t + 1)
    rw [response_delayed] at h3
    rcases h3 with h3 | h3
    · rw [h3, abs_zero]; exact hv0
    · exact le_trans (le_of_lt h3) (hv m (Finset.mem_range.1 hm))
  refine le_trans (Finset.sum_le_sum h2) ?_
  rw [Finset.sum_const, Finset.card_range, nsmul_eq_mul]

/-- Before that, nothing leaves the layer. -/
theorem C85_layer_latency (n d : Nat) (p : Nat → NPar α) (x : Nat → Nat → α) (i : Nat) (hi : i < n) (hd : 0 < d) :
    lSent n d p x 0 i = 0 ∧ lSent n d p x 1 i = 0 := by
  refine ⟨rfl, ?_⟩
  rw [lSent_succ n d p x i hi hd 0]
  apply Finset.sum_eq_zero
  intro m _
  show (deltaStep ⟨(p (i * d + m)).vth, false⟩ initD _).2 = 0
  simp [delayed, initN, initD, deltaStep, gate, nState]

end Delta

/-- A layer with two inputs and two states each: the hypotheses are met and the output is not trivial. -/
theorem C85_example :
    (List.range 6).map (fun t => lSent 2 2 (fun r => ({ vth := 3, a := 1, b := 1, c := (r : Int) } : NPar Int)) (fun t i => if t = 0 ∧ i = 1 then 1 else 0) t 1) =
      [0, 0, 10, 10, 10, 10] ∧
    (List.range 4).map (nSent ({ vth := 5, a := 1, b := 1, c := 1 } : NPar Int) (fun t => if t = 0 then 1 else 0)) = [0, 0, 6, 0] := by
  decide +kernel

end Verif.S4D
