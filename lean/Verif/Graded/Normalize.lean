import Verif.Graded.ProgramsThm

/-!
# C95: the normalisation network
-/

namespace Verif.Graded

open Verif.Dense (Vec Mat matVec prepared bin)

/-- Specification: the sum of squares. -/
def sumSq (n : Nat) (x : Vec) : Nat := (∑ j ∈ Finset.range n, x j ^ 2).toNat

theorem sumSq_cast (n : Nat) (x : Vec) : (sumSq n x : Int) = ∑ j ∈ Finset.range n, x j ^ 2 :=
  Int.toNat_of_nonneg (Finset.sum_nonneg fun j _ => sq_nonneg (x j))

/-- A `Dense` of ones adds. -/
theorem ones_value (w : Wiring) (H : Nat → Nat → Vec) (p nOut nIn t i : Nat) (h : w.node p = onesDense nOut nIn) (hi : i < nOut) :
    w.value H p 0 t i = if t = 0 then 0 else ∑ j ∈ Finset.range nIn, w.arrives H p true (t - 1) j := by
  unfold Wiring.value
  rw [h]
  simp only [onesDense, if_true]
  split
  · rfl
  · rw [Verif.scaled_nonneg _ _ (le_refl 0)]
    simp only [Int.toNat_zero, pow_zero, mul_one]
    unfold matVec prepared
    apply Finset.sum_congr rfl
    intro j hj
    have hj := Finset.mem_range.1 hj
    have hmem := mem_entries (w := fun _ _ => (1 : Int)) hi hj
    have hs := Verif.Weights.C37_sign_mode (entries nOut nIn fun _ _ => (1 : Int)) (List.ne_nil_of_mem hmem)
    have hall : ∀ x ∈ entries nOut nIn fun _ _ => (1 : Int), 0 ≤ x := by
      intro x hx
      unfold entries at hx
      rw [List.mem_flatMap] at hx
      obtain ⟨a, _, hx⟩ := hx
      rw [List.mem_map] at hx
      obtain ⟨b, _, rfl⟩ := hx
      exact Int.one_nonneg
    simp only [hs.1.2 hall]
    have h1 : Verif.Weights.truncWeight (Verif.Weights.clipWeight 1 .excitatory 8 false) .excitatory 8 8 = 1 := by decide
    simp only [h1, one_mul]

/-- **C95.** The normalisation network computes, for every input and in every step, under every schedule: the input of the step before,
multiplied with the inverse square root of the sum of squares of the input of *two* steps before, magnitudes up to 1 suppressed;
zeros in the first two steps. -/
theorem C95_normalize_net (n : Nat) (data : Nat → Vec) (T : Nat) (cap : Nat → Nat) (hcap : ∀ c, 1 ≤ cap c) :
    ∃ H, (normNet n data).Computes T cap H ∧
      (∀ i, i < n → (0 < T → H 5 0 i = 0) ∧ (1 < T → H 5 1 i = 0) ∧
        ∀ t, t + 2 < T → H 5 (t + 2) i = thr 1 (data (t + 1) i * invSqrtSpk (sumSq n (data t)))) := by
  set w := normNet n data with hw
  have hok : w.Ok := by
    intro e he
    have he : e ∈ [(0, 0, 1, 0), (1, 1, 2, 0), (2, 0, 3, 0), (3, 0, 4, 0), (4, 0, 1, 1), (1, 0, 5, 0)] := he
    show e.1 < 6 ∧ e.2.2.1 < 6
    simp only [List.mem_cons, List.not_mem_nil, or_false] at he
    rcases he with rfl | rfl | rfl | rfl | rfl | rfl <;> simp
  have hloops : (w.diagram T cap).LoopsHaveConnections := by
    refine ⟨fun p => if p = 0 then 0 else if p = 1 then 1 else 2, ?_⟩
    intro c hc h1 h2
    have hc : c < 6 := hc
    have h1 : (w.node (w.edge c).1).isConn = false := h1
    have h2 : (w.node (w.edge c).2.2.1).isConn = false := h2
    show (if (w.edge c).1 = 0 then 0 else if (w.edge c).1 = 1 then 1 else 2) <
      (if (w.edge c).2.2.1 = 0 then 0 else if (w.edge c).2.2.1 = 1 then 1 else 2)
    have : c = 0 ∨ c = 1 ∨ c = 2 ∨ c = 3 ∨ c = 4 ∨ c = 5 := by omega
    rcases this with rfl | rfl | rfl | rfl | rfl | rfl
    · exact Nat.zero_lt_one
    · cases h2
    · cases h1
    · cases h2
    · cases h1
    · exact Nat.one_lt_two
  obtain ⟨H, hcomp, heqn⟩ := C94_network_equations w hok T cap (fun c _ => hcap c) hloops
  refine ⟨H, hcomp, ?_⟩
  have hlen : w.edges.length = 6 := rfl
  have arr : ∀ p first t i, w.arrives H p first t i = ∑ c ∈ Finset.range 6,
      if (w.edge c).2.2.1 = p ∧ ((w.edge c).2.2.2 = 0 ↔ first = true) then H c t i else 0 := fun _ _ _ _ => rfl
  have e0 : w.edge 0 = (0, 0, 1, 0) := rfl
  have e1 : w.edge 1 = (1, 1, 2, 0) := rfl
  have e2 : w.edge 2 = (2, 0, 3, 0) := rfl
  have e3 : w.edge 3 = (3, 0, 4, 0) := rfl
  have e4 : w.edge 4 = (4, 0, 1, 1) := rfl
  have e5 : w.edge 5 = (1, 0, 5, 0) := rfl
  have a1 : ∀ t i, w.arrives H 1 true t i = H 0 t i := by
    intro t i; rw [arr]; simp [Finset.sum_range_succ, e0, e1, e2, e3, e4, e5]
  have a1' : ∀ t i, w.arrives H 1 false t i = H 4 t i := by
    intro t i; rw [arr]; simp [Finset.sum_range_succ, e0, e1, e2, e3, e4, e5]
  have a2 : ∀ t i, w.arrives H 2 true t i = H 1 t i := by
    intro t i; rw [arr]; simp [Finset.sum_range_succ, e0, e1, e2, e3, e4, e5]
  have a3 : ∀ t i, w.arrives H 3 true t i = H 2 t i := by
    intro t i; rw [arr]; simp [Finset.sum_range_succ, e0, e1, e2, e3, e4, e5]
  have a4 : ∀ t i, w.arrives H 4 true t i = H 3 t i := by
    intro t i; rw [arr]; simp [Finset.sum_range_succ, e0, e1, e2, e3, e4, e5]
  have q0 : ∀ t, t < T → ∀ i, H 0 t i = data t i := fun t ht i => congrFun (heqn 0 t (by rw [hlen]; decide) ht) i
  have q1 : ∀ t, t < T → ∀ i, H 1 t i = data t i ^ 2 := by
    intro t ht i
    have : H 1 t i = w.arrives H 1 true t i ^ 2 := congrFun (heqn 1 t (by rw [hlen]; decide) ht) i
    rw [this, a1, q0 t ht]
  have q2 : ∀ t, t < T → H 2 t 0 = if t = 0 then 0 else (sumSq n (data (t - 1)) : Int) := by
    intro t ht
    have : H 2 t = w.value H 2 0 t := heqn 2 t (by rw [hlen]; decide) ht
    rw [this, ones_value w H 2 1 n t 0 rfl (by omega)]
    split
    · rfl
    · rw [sumSq_cast]
      apply Finset.sum_congr rfl
      intro j _
      rw [a2, q1 (t - 1) (by omega)]
  have q3 : ∀ t, t < T → H 3 t 0 = if t = 0 then 0 else invSqrtSpk (sumSq n (data (t - 1))) := by
    intro t ht
    have : H 3 t 0 = invSqrtSpk (w.arrives H 3 true t 0).toNat := congrFun (heqn 3 t (by rw [hlen]; decide) ht) 0
    rw [this, a3, q2 t ht]
    split
    · rfl
    · rw [Int.toNat_natCast]
  have q4 : ∀ t, t < T → ∀ i, i < n → H 4 t i = if t < 2 then 0 else invSqrtSpk (sumSq n (data (t - 2))) := by
    intro t ht i hi
    have : H 4 t = w.value H 4 0 t := heqn 4 t (by rw [hlen]; decide) ht
    rw [this, ones_value w H 4 n 1 t i rfl hi]
    by_cases h0 : t = 0
    · rw [if_pos h0, if_pos (by omega)]
    · rw [if_neg h0, Finset.sum_range_one, a4, q3 (t - 1) (by omega)]
      by_cases h1 : t = 1
      · rw [if_pos (by omega), if_pos (by omega)]
      · rw [if_neg (by omega), if_neg (by omega)]
        rfl
  have q5 : ∀ t, t < T → ∀ i, i < n → H 5 t i = thr 1 ((if t = 0 then 0 else data (t - 1) i) *
      if t < 2 then 0 else invSqrtSpk (sumSq n (data (t - 2)))) := by
    intro t ht i hi
    have : H 5 t i = thr 1 ((if t = 0 then 0 else w.arrives H 1 true (t - 1) i) * w.arrives H 1 false t i) :=
      congrFun (heqn 5 t (by rw [hlen]; decide) ht) i
    rw [this, a1', q4 t ht i hi]
    congr 2
    split
    · rfl
    · rw [a1, q0 (t - 1) (by omega)]
  intro i hi
  refine ⟨fun h => ?_, fun h => ?_, fun t ht => ?_⟩
  · rw [q5 0 h i hi]; simp [thr]
  · rw [q5 1 h i hi]; simp [thr]
  · rw [q5 (t + 2) ht i hi]
    simp

theorem thr_sq_le (vth x : Int) : thr vth x ^ 2 ≤ x ^ 2 := by
  unfold thr
  split
  · exact le_refl _
  · positivity

/-- **C95.** For a constant non-zero input with a sum of squares below 2^24, the output is parallel to the input and normalised: in
units of 2^-18 its length is at most 1.0075, and at least what an inverse square root that is at most 3 too small gives, up to the
suppressed entries. -/
theorem C95_normalized (n : Nat) (x : Vec) (h1 : 1 ≤ sumSq n x) (h2 : sumSq n x < 2 ^ 24) :
    ∃ r : Int, r = invSqrtSpk (sumSq n x) ∧ 0 ≤ r ∧ 2 ^ 36 < (r + 3) ^ 2 * sumSq n x ∧
      1000 * (∑ i ∈ Finset.range n, thr 1 (x i * r) ^ 2) ≤ 1015 * 2 ^ 36 ∧
      (∑ i ∈ Finset.range n, (x i * r) ^ 2) - n ≤ ∑ i ∈ Finset.range n, thr 1 (x i * r) ^ 2 := by
  obtain ⟨a, b, c, _⟩ := C95_inverse_sqrt (sumSq n x) h1 h2
  refine ⟨_, rfl, ?_⟩
  unfold invSqrtSpk
  rw [if_neg (by omega)]
  generalize invSqrt 5 (sumSq n x) = r at a b c
  have hsum : (∑ i ∈ Finset.range n, (x i * r) ^ 2) = r ^ 2 * sumSq n x := by
    rw [sumSq_cast, Finset.mul_sum]
    apply Finset.sum_congr rfl
    intro i _
    ring
  refine ⟨a, c, ?_, ?_⟩
  · have : (∑ i ∈ Finset.range n, thr 1 (x i * r) ^ 2) ≤ r ^ 2 * sumSq n x := by
      rw [← hsum]
      exact Finset.sum_le_sum fun i _ => thr_sq_le 1 (x i * r)
    linarith
  · have hle : ∀ i ∈ Finset.range n, (x i * r) ^ 2 ≤ thr 1 (x i * r) ^ 2 + 1 := by
      intro i _
      unfold thr
      split
      · linarith
      · next h =>
        have h : |x i * r| ≤ 1 := by omega
        have : (x i * r) ^ 2 ≤ 1 := by
          rw [← sq_abs]
          have h0 := abs_nonneg (x i * r)
          nlinarith
        simpa using this
    have := Finset.sum_le_sum hle
    rw [Finset.sum_add_distrib] at this
    simp at this
    linarith

/-- The hypotheses are met by the vector (3, 4): 5 * 52541 = 262705, nearly 2^18 = 262144. -/
example : 1 ≤ sumSq 2 (fun i => if i = 0 then 3 else 4) ∧ sumSq 2 (fun i => if i = 0 then 3 else 4) < 2 ^ 24 ∧
    invSqrtSpk (sumSq 2 fun i => if i = 0 then 3 else 4) = 52541 := by decide +kernel

/-- **C95, finding.** An input that lasts one step is not normalised: the loop takes two steps, the vector is kept for one. With input
1000 in step 0 and 0 afterwards, nothing but zeros comes out. With 1000 in step 0 and 1 in step 1, the 1 is multiplied with the inverse
length of the 1000. -/
theorem C95_witness_misaligned (T : Nat) (hT : 3 < T) (cap : Nat → Nat) (hcap : ∀ c, 1 ≤ cap c) :
    (∃ H, (normNet 1 fun t _ => if t = 0 then 1000 else 0).Computes T cap H ∧ ∀ t, t < T → H 5 t 0 = 0) ∧
    (∃ H, (normNet 1 fun t _ => if t = 0 then 1000 else if t = 1 then 1 else 0).Computes T cap H ∧ H 5 2 0 = 261 ∧ H 5 3 0 = 0) := by
  constructor
  · obtain ⟨H, hc, hv⟩ := C95_normalize_net 1 (fun t _ => if t = 0 then 1000 else 0) T cap hcap
    refine ⟨H, hc, ?_⟩
    obtain ⟨h0, h1, h2⟩ := hv 0 (by omega)
    intro t ht
    match t with
    | 0 => exact h0 ht
    | 1 => exact h1 ht
    | t + 2 => rw [h2 t ht]; simp [thr]
  · obtain ⟨H, hc, hv⟩ := C95_normalize_net 1 (fun t _ => if t = 0 then 1000 else if t = 1 then 1 else 0) T cap hcap
    refine ⟨H, hc, ?_, ?_⟩
    · rw [(hv 0 (by omega)).2.2 0 (by omega)]; decide +kernel
    · rw [(hv 0 (by omega)).2.2 1 (by omega)]; decide +kernel

end Verif.Graded
