import Verif.Weights.Model
import Mathlib.Tactic.Ring
import Mathlib.Tactic.NormNum
import Mathlib.Tactic.Linarith
import Mathlib.Tactic.Positivity

/-!
# C37, C38: weights
-/

namespace Verif.Weights

/-! ## C37 -/

/-- The documented range of weights for `n` bits: excitatory [0, 2^n - 1], inhibitory [-(2^n - 1), 0], mixed
[-2^n, 2^n - 1]. -/
def Legal (m : SignMode) (n : Nat) (w : Int) : Prop :=
  match m with
  | .mixed => -2 ^ n ≤ w ∧ w ≤ 2 ^ n - 1
  | .inhibitory => -(2 ^ n - 1) ≤ w ∧ w ≤ 0
  | _ => 0 ≤ w ∧ w ≤ 2 ^ n - 1

theorem pow_pos' (n : Nat) : (1 : Int) ≤ 2 ^ n := by
  have : (0 : Int) < 2 ^ n := by positivity
  omega

/-- **C37.** Clipped weights are legal, for every weight, sign mode and number of bits. -/
theorem C37_clip_legal (w : Int) (m : SignMode) (n : Nat) (learning : Bool) : Legal m n (clipWeight w m n learning) := by
  have := pow_pos' n
  cases m <;> cases learning <;> simp [clipWeight, Legal, clip, mixedFlag] <;> omega

/-- **C37.** In the learning simulation the largest mixed weight is one lower. -/
theorem C37_clip_learning (w : Int) (n : Nat) : clipWeight w .mixed n true ≤ 2 ^ n - 2 := by
  simp [clipWeight, clip, mixedFlag]; omega

/-- **C37.** Legal weights are not changed by clipping. -/
theorem C37_clip_id (w : Int) (m : SignMode) (n : Nat) (h : Legal m n w) : clipWeight w m n false = w := by
  have := pow_pos' n
  cases m <;> simp [clipWeight, Legal, clip, mixedFlag] at * <;> omega

/-- **C37.** Clipping is idempotent. -/
theorem C37_clip_idempotent (w : Int) (m : SignMode) (n : Nat) (learning : Bool) :
    clipWeight (clipWeight w m n learning) m n learning = clipWeight w m n learning := by
  have := pow_pos' n
  cases m <;> cases learning <;> simp [clipWeight, clip, mixedFlag] <;> omega

/-- **C37.** Clipping is monotone, so it keeps the order of weights. -/
theorem C37_clip_monotone (w w' : Int) (m : SignMode) (n : Nat) (learning : Bool) (h : w ≤ w') :
    clipWeight w m n learning ≤ clipWeight w' m n learning := by
  have := pow_pos' n
  cases m <;> cases learning <;> simp [clipWeight, clip, mixedFlag] <;> omega

theorem floor_mul (x : Int) (k : Nat) : x / 2 ^ k * 2 ^ k ≤ x ∧ x < x / 2 ^ k * 2 ^ k + 2 ^ k := by
  have hp : (0 : Int) < 2 ^ k := by positivity
  have h1 := Int.mul_ediv_add_emod x (2 ^ k)
  have h2 := Int.emod_nonneg x (ne_of_gt hp)
  have h3 := Int.emod_lt_of_pos x hp
  rw [mul_comm] at h1
  constructor <;> omega

/-- Number of low bits that truncation clears. -/
def cleared (m : SignMode) (bits : Nat) : Nat := 8 - bits + mixedFlag m

theorem truncWeight_eq (w : Int) (m : SignMode) (bits : Nat) (hb : bits ≤ 8) :
    truncWeight w m bits 8 =
      if m = .inhibitory then -((-w) / 2 ^ cleared m bits * 2 ^ cleared m bits) else w / 2 ^ cleared m bits * 2 ^ cleared m bits := by
  have hk : (8 : Int) - (bits : Int) + (mixedFlag m : Int) = ((cleared m bits : Nat) : Int) := by
    simp only [cleared]; omega
  simp only [truncWeight, hk, shl, shr, if_neg (show ¬ ((cleared m bits : Nat) : Int) < 0 by omega), Int.toNat_natCast]
  split <;> rfl

/-- **C37.** Truncation to `bits ≤ 8` bits gives a multiple of the last kept bit and moves a weight by less than that: down,
or toward zero for inhibitory weights. -/
theorem C37_truncate_error (w : Int) (m : SignMode) (bits : Nat) (hb : bits ≤ 8) :
    (2 ^ cleared m bits ∣ truncWeight w m bits 8) ∧
      (m ≠ .inhibitory → 0 ≤ w - truncWeight w m bits 8 ∧ w - truncWeight w m bits 8 < 2 ^ cleared m bits) ∧
      (m = .inhibitory → 0 ≤ truncWeight w m bits 8 - w ∧ truncWeight w m bits 8 - w < 2 ^ cleared m bits) := by
  rw [truncWeight_eq w m bits hb]
  have h1 := floor_mul w (cleared m bits)
  have h2 := floor_mul (-w) (cleared m bits)
  refine ⟨?_, ?_, ?_⟩
  · split
    · exact Int.dvd_neg.2 (Int.dvd_mul_left _ _)
    · exact Int.dvd_mul_left _ _
  · intro hm; rw [if_neg hm]; constructor <;> omega
  · intro hm; rw [if_pos hm]; constructor <;> omega

/-- **C37.** Weights clipped to 8 bits and then truncated, as the connection processes do, are still legal. -/
theorem C37_clip_truncate_legal (w : Int) (m : SignMode) (bits : Nat) (hb : bits ≤ 8) (h1 : m = .mixed → 1 ≤ bits) :
    Legal m 8 (truncWeight (clipWeight w m 8 false) m bits 8) := by
  have hc := C37_clip_legal w m 8 false
  generalize clipWeight w m 8 false = v at hc
  rw [truncWeight_eq v m bits hb]
  have a1 := floor_mul v (cleared m bits)
  have a2 := floor_mul (-v) (cleared m bits)
  have hdiv : ∀ x : Int, 0 ≤ x → 0 ≤ x / 2 ^ cleared m bits * 2 ^ cleared m bits := fun x hx =>
    Int.mul_nonneg (Int.ediv_nonneg hx (by positivity)) (by positivity)
  cases m with
  | null => simp only [Legal] at *; have := hdiv v hc.1; simp only [reduceCtorEq, if_false]; omega
  | excitatory => simp only [Legal] at *; have := hdiv v hc.1; simp only [reduceCtorEq, if_false]; omega
  | inhibitory => simp only [Legal] at *; have := hdiv (-v) (by omega); simp only [if_true]; omega
  | mixed =>
    simp only [Legal, reduceCtorEq, if_false] at *
    refine ⟨?_, by omega⟩
    have hk : cleared .mixed bits ≤ 8 := by simp only [cleared, mixedFlag, if_true]; have := h1 trivial; omega
    -- -256 is a multiple of 2^k
    have he : (-2 ^ 8 : Int) = -(2 ^ (8 - cleared .mixed bits)) * 2 ^ cleared .mixed bits := by
      rw [neg_mul, ← pow_add]; congr 2; omega
    rw [he]
    have hp : (0 : Int) < 2 ^ cleared .mixed bits := by positivity
    apply Int.mul_le_mul_of_nonneg_right _ (le_of_lt hp)
    apply (Int.le_ediv_iff_mul_le hp).2
    rw [← he]; exact hc.1

/-- **C37.** Legal weights that are multiples of the last kept bit pass the clipping and truncation of a connection process
unchanged. -/
theorem C37_clip_truncate_id (w : Int) (m : SignMode) (bits : Nat) (hb : bits ≤ 8) (h : Legal m 8 w)
    (hd : 2 ^ cleared m bits ∣ w) : truncWeight (clipWeight w m 8 false) m bits 8 = w := by
  rw [C37_clip_id w m 8 h, truncWeight_eq w m bits hb]
  split
  · rw [Int.ediv_mul_cancel (Int.dvd_neg.2 hd)]; simp
  · rw [Int.ediv_mul_cancel hd]

example : clipWeight 300 .mixed 8 false = 255 ∧ truncWeight 255 .mixed 8 8 = 254 ∧ truncWeight (-255) .inhibitory 4 8 = -240 ∧
    truncWeight (-255) .mixed 4 8 = -256 ∧ Legal .inhibitory 8 (-240) ∧ cleared .mixed 8 = 1 := by
  refine ⟨by decide, by decide, by decide, by decide, by simp [Legal], by decide⟩

/-- **C37, finding.** More weight bits than the maximum do not raise: every excitatory weight is silently set to zero. -/
theorem C37_witness_nine_bits (w : Int) : truncWeight w .excitatory 9 8 = 0 := by
  simp [truncWeight, shl, mixedFlag]

/-! ## Sign mode -/

theorem foldl_max_ge (l : List Int) : ∀ a, a ≤ l.foldl max a ∧ ∀ x ∈ l, x ≤ l.foldl max a := by
  induction l with
  | nil => intro a; simp
  | cons b l ih =>
    intro a
    obtain ⟨h1, h2⟩ := ih (max a b)
    simp only [List.foldl_cons]
    refine ⟨by omega, ?_⟩
    intro x hx
    rcases List.mem_cons.1 hx with rfl | hx
    · omega
    · exact h2 x hx

theorem foldl_min_le (l : List Int) : ∀ a, l.foldl min a ≤ a ∧ ∀ x ∈ l, l.foldl min a ≤ x := by
  induction l with
  | nil => intro a; simp
  | cons b l ih =>
    intro a
    obtain ⟨h1, h2⟩ := ih (min a b)
    simp only [List.foldl_cons]
    refine ⟨by omega, ?_⟩
    intro x hx
    rcases List.mem_cons.1 hx with rfl | hx
    · omega
    · exact h2 x hx

theorem le_maxL {ws : List Int} {w : Int} (h : w ∈ ws) : w ≤ maxL ws := by
  cases ws with
  | nil => cases h
  | cons a l =>
    rcases List.mem_cons.1 h with rfl | h
    · exact (foldl_max_ge l _).1
    · exact (foldl_max_ge l a).2 w h

theorem minL_le {ws : List Int} {w : Int} (h : w ∈ ws) : minL ws ≤ w := by
  cases ws with
  | nil => cases h
  | cons a l =>
    rcases List.mem_cons.1 h with rfl | h
    · exact (foldl_min_le l _).1
    · exact (foldl_min_le l a).2 w h

theorem foldl_max_mem (l : List Int) : ∀ a, l.foldl max a = a ∨ l.foldl max a ∈ l := by
  induction l with
  | nil => intro a; simp
  | cons b l ih =>
    intro a
    simp only [List.foldl_cons, List.mem_cons]
    rcases ih (max a b) with h | h
    · rw [h]; omega
    · exact Or.inr (Or.inr h)

theorem foldl_min_mem (l : List Int) : ∀ a, l.foldl min a = a ∨ l.foldl min a ∈ l := by
  induction l with
  | nil => intro a; simp
  | cons b l ih =>
    intro a
    simp only [List.foldl_cons, List.mem_cons]
    rcases ih (min a b) with h | h
    · rw [h]; omega
    · exact Or.inr (Or.inr h)

theorem maxL_mem {ws : List Int} (h : ws ≠ []) : maxL ws ∈ ws := by
  cases ws with
  | nil => exact absurd rfl h
  | cons a l =>
    rcases foldl_max_mem l a with h | h
    · simp only [maxL, h]; simp
    · exact List.mem_cons_of_mem _ h

theorem minL_mem {ws : List Int} (h : ws ≠ []) : minL ws ∈ ws := by
  cases ws with
  | nil => exact absurd rfl h
  | cons a l =>
    rcases foldl_min_mem l a with h | h
    · simp only [minL, h]; simp
    · exact List.mem_cons_of_mem _ h

/-- **C37.** The derived sign mode describes the weights: excitatory iff none is negative, inhibitory iff none is positive
and one is negative, mixed iff both signs occur. -/
theorem C37_sign_mode (ws : List Int) (h : ws ≠ []) :
    (determineSignMode ws = .excitatory ↔ ∀ w ∈ ws, 0 ≤ w) ∧
    (determineSignMode ws = .inhibitory ↔ (∀ w ∈ ws, w ≤ 0) ∧ ∃ w ∈ ws, w < 0) ∧
    (determineSignMode ws = .mixed ↔ (∃ w ∈ ws, 0 < w) ∧ ∃ w ∈ ws, w < 0) := by
  have hmin := minL_mem h
  have hmax := maxL_mem h
  simp only [determineSignMode]
  by_cases h1 : minL ws ≥ 0
  · have hall : ∀ w ∈ ws, 0 ≤ w := fun w hw => le_trans h1 (minL_le hw)
    rw [if_pos h1]
    refine ⟨by simpa using hall, ?_, ?_⟩
    · simp only [reduceCtorEq, false_iff, not_and, not_exists]
      intro _ w hw; have := hall w hw; omega
    · simp only [reduceCtorEq, false_iff, not_and, not_exists]
      intro _ w hw; have := hall w hw; omega
  · have hneg : ∃ w ∈ ws, w < 0 := ⟨_, hmin, by omega⟩
    rw [if_neg h1]
    by_cases h2 : maxL ws ≤ 0
    · have hall : ∀ w ∈ ws, w ≤ 0 := fun w hw => le_trans (le_maxL hw) h2
      rw [if_pos h2]
      refine ⟨?_, ?_, ?_⟩
      · simp only [reduceCtorEq, false_iff]
        intro hh; obtain ⟨w, hw, hw2⟩ := hneg; have := hh w hw; omega
      · simp only [true_iff]; exact ⟨hall, hneg⟩
      · simp only [reduceCtorEq, false_iff, not_and, not_exists]
        rintro ⟨w, hw, hw2⟩; have := hall w hw; omega
    · rw [if_neg h2]
      refine ⟨?_, ?_, ?_⟩
      · simp only [reduceCtorEq, false_iff]
        intro hh; obtain ⟨w, hw, hw2⟩ := hneg; have := hh w hw; omega
      · simp only [reduceCtorEq, false_iff, not_and]
        intro hh; have := hh _ hmax; omega
      · simp only [true_iff]; exact ⟨⟨_, hmax, by omega⟩, hneg⟩

/-! ## C38 -/

/-- **C38.** Validation accepts exactly the weights that are legal for the sign mode (zero only, for the null mode). -/
theorem C38_validation (ws : List Int) (h : ws ≠ []) (m : SignMode) :
    validate ws m = true ↔ ∀ w ∈ ws, (if m = .null then w = 0 else Legal m 8 w) := by
  have hmin := minL_mem h
  have hmax := maxL_mem h
  simp only [validate, Bool.not_eq_true', Bool.or_eq_false_iff, decide_eq_false_iff_not, not_lt]
  constructor
  · rintro ⟨h1, h2⟩ w hw
    have a1 := le_maxL hw
    have a2 := minL_le hw
    cases m <;> simp [Legal, mixedFlag, excFlag, inhFlag] at * <;> omega
  · intro hh
    have a1 := hh _ hmax
    have a2 := hh _ hmin
    cases m <;> simp [Legal, mixedFlag, excFlag, inhFlag] at * <;> omega

theorem floorLog2_spec {a b : Nat} (hb : 0 < b) (hab : b ≤ a) :
    0 ≤ floorLog2 a b ∧ 2 ^ (floorLog2 a b).toNat * b ≤ a ∧ a < 2 ^ ((floorLog2 a b).toNat + 1) * b := by
  have hq : a / b ≠ 0 := by
    have := (Nat.div_pos_iff (a := a) (b := b)).2 ⟨hb, hab⟩; omega
  simp only [floorLog2, if_pos hab]
  refine ⟨by omega, ?_, ?_⟩
  · rw [Int.toNat_natCast]
    have := Nat.log2_self_le hq
    calc 2 ^ (a / b).log2 * b ≤ a / b * b := Nat.mul_le_mul_right _ this
      _ ≤ a := Nat.div_mul_le_self _ _
  · rw [Int.toNat_natCast]
    have h1 : a / b < 2 ^ ((a / b).log2 + 1) := Nat.lt_log2_self
    exact (Nat.div_lt_iff_lt_mul hb).1 h1

theorem searchN_div (ws : List Int) : ∀ k, ∀ w ∈ ws, (2 : Int) ^ searchN ws k ∣ w
  | 0, w, _ => by simp [searchN]
  | k + 1, w, hw => by
    simp only [searchN]
    split
    · rename_i h
      simp only [allDiv, List.all_eq_true, beq_iff_eq] at h
      exact Int.dvd_of_emod_eq_zero (h w hw)
    · exact searchN_div ws k w hw

theorem searchN_max (ws : List Int) : ∀ k n, n ≤ k → (∀ w ∈ ws, (2 : Int) ^ n ∣ w) → n ≤ searchN ws k
  | 0, n, h, _ => by omega
  | k + 1, n, h, hd => by
    simp only [searchN]
    split
    · exact h
    · rename_i hh
      rcases Nat.lt_or_ge k n with h1 | h1
      · exfalso
        have : n = k + 1 := by omega
        subst this
        apply hh
        simp only [allDiv, List.all_eq_true, beq_iff_eq]
        exact fun w hw => Int.emod_eq_zero_of_dvd (hd w hw)
      · exact searchN_max ws k n h1 hd

/-- Scaled weights are in range (and the exponent is not positive), except for a mixed matrix with the weight 255. -/
theorem scaleBits_spec {ws : List Int} {m : SignMode} (hne : ws ≠ []) (hv : validate ws m = true)
    (h255 : ¬ (m = .mixed ∧ maxL ws = 255)) :
    0 ≤ scaleBits ws m ∧ ∀ w ∈ ws, Legal m 8 (w * 2 ^ (scaleBits ws m).toNat) := by
  have hval := (C38_validation ws hne m).1 hv
  have hmx := hval _ (maxL_mem hne)
  have hmn := hval _ (minL_mem hne)
  have hle : minL ws ≤ maxL ws := minL_le (maxL_mem hne)
  have key : ∀ (k : Nat), Legal m 8 (maxL ws * 2 ^ k) → Legal m 8 (minL ws * 2 ^ k) → ∀ w ∈ ws, Legal m 8 (w * 2 ^ k) := by
    intro k h1 h2 w hw
    have hp : (0 : Int) ≤ 2 ^ k := by positivity
    have a1 := Int.mul_le_mul_of_nonneg_right (le_maxL hw) hp
    have a2 := Int.mul_le_mul_of_nonneg_right (minL_le hw) hp
    cases m <;> simp only [Legal] at * <;> omega
  -- from the spec of the logarithm, in the integers
  have lg : ∀ (a : Nat) (x : Int), 0 < x → x ≤ a →
      0 ≤ floorLog2 a x.toNat ∧ 2 ^ (floorLog2 a x.toNat).toNat * x ≤ a := by
    intro a x h0 h1
    obtain ⟨s1, s2, _⟩ := floorLog2_spec (a := a) (b := x.toNat) (by omega) (by omega)
    refine ⟨s1, ?_⟩
    have : ((2 ^ (floorLog2 a x.toNat).toNat * x.toNat : Nat) : Int) ≤ (a : Int) := by exact_mod_cast s2
    push_cast at this
    rwa [Int.toNat_of_nonneg (le_of_lt h0)] at this
  by_cases hz : maxL ws = 0 ∧ minL ws = 0
  · have : scaleBits ws m = 0 := by simp [scaleBits, hz]
    rw [this]
    refine ⟨by omega, key _ ?_ ?_⟩
    · rw [hz.1]; cases m <;> simp [Legal]
    · rw [hz.2]; cases m <;> simp [Legal]
  · cases m with
    | null => simp only [if_true] at hmx hmn; exact absurd ⟨hmx, hmn⟩ hz
    | excitatory =>
      simp only [reduceCtorEq, if_false, Legal] at hmx hmn
      have hs : scaleBits ws .excitatory = floorLog2 255 (maxL ws).toNat := by simp [scaleBits, hz]
      obtain ⟨l1, l2⟩ := lg 255 (maxL ws) (by omega) (by omega)
      rw [hs]
      refine ⟨l1, key _ ?_ ?_⟩
      · simp only [Legal]
        refine ⟨Int.mul_nonneg (by omega) (by positivity), ?_⟩
        rw [mul_comm]; push_cast at l2; omega
      · simp only [Legal]
        refine ⟨Int.mul_nonneg (by omega) (by positivity), ?_⟩
        have := Int.mul_le_mul_of_nonneg_right hle (show (0 : Int) ≤ 2 ^ (floorLog2 255 (maxL ws).toNat).toNat by positivity)
        rw [mul_comm] at l2; push_cast at l2; omega
    | inhibitory =>
      simp only [reduceCtorEq, if_false, Legal] at hmx hmn
      have hs : scaleBits ws .inhibitory = floorLog2 255 (-minL ws).toNat := by simp [scaleBits, hz]
      obtain ⟨l1, l2⟩ := lg 255 (-minL ws) (by omega) (by omega)
      rw [hs]
      have hp : (0 : Int) ≤ 2 ^ (floorLog2 255 (-minL ws).toNat).toNat := by positivity
      have n1 := Int.mul_nonneg (show 0 ≤ -maxL ws by omega) hp
      have n2 := Int.mul_nonneg (show 0 ≤ -minL ws by omega) hp
      have n3 := Int.mul_le_mul_of_nonneg_right hle hp
      rw [neg_mul] at n1 n2
      rw [mul_comm, neg_mul] at l2
      push_cast at l2
      refine ⟨l1, key _ ?_ ?_⟩
      · simp only [Legal]; omega
      · simp only [Legal]; omega
    | mixed =>
      simp only [reduceCtorEq, if_false, Legal] at hmx hmn
      have hmx254 : maxL ws ≤ 254 := by
        have : maxL ws ≠ 255 := fun h => h255 ⟨rfl, h⟩
        omega
      -- one side: logarithm ≥ -1 and the scaled value is in range for any smaller exponent
      have side : ∀ (a : Nat) (x : Int), 0 < x → x ≤ 2 * a →
          -1 ≤ floorLog2 a x.toNat ∧ ∀ k : Nat, (k : Int) ≤ floorLog2 a x.toNat + 1 → x * 2 ^ k ≤ 2 * a := by
        intro a x h0 h1
        by_cases hxa : x ≤ a
        · obtain ⟨l1, l2⟩ := lg a x h0 hxa
          refine ⟨by omega, ?_⟩
          intro k hk
          have hk' : k ≤ (floorLog2 a x.toNat).toNat + 1 := by omega
          have : (2 : Int) ^ k ≤ 2 ^ ((floorLog2 a x.toNat).toNat + 1) := pow_le_pow_right₀ (by norm_num) hk'
          calc x * 2 ^ k ≤ x * 2 ^ ((floorLog2 a x.toNat).toNat + 1) := Int.mul_le_mul_of_nonneg_left this (by omega)
            _ = 2 * (2 ^ (floorLog2 a x.toNat).toNat * x) := by ring
            _ ≤ 2 * a := by omega
        · have hf : floorLog2 a x.toNat = -1 := by
            simp only [floorLog2]; rw [if_neg (by omega), if_pos (by omega)]
          rw [hf]
          refine ⟨by omega, ?_⟩
          intro k hk
          have : k = 0 := by omega
          subst this
          simpa using h1
      -- value of the exponent
      have hs : scaleBits ws .mixed =
          (if maxL ws > 0 then (if minL ws < 0 then min (floorLog2 127 (maxL ws).toNat) (floorLog2 128 (-minL ws).toNat)
            else floorLog2 127 (maxL ws).toNat) else floorLog2 128 (-minL ws).toNat) + 1 := by
        simp only [scaleBits, if_neg hz]
      have fin : ∀ s : Int, 0 ≤ s → (0 < maxL ws → s ≤ floorLog2 127 (maxL ws).toNat + 1) →
          (minL ws < 0 → s ≤ floorLog2 128 (-minL ws).toNat + 1) → ∀ w ∈ ws, Legal .mixed 8 (w * 2 ^ s.toNat) := by
        intro s s0 s1 s2
        have hp : (0 : Int) ≤ 2 ^ s.toNat := by positivity
        have n3 := Int.mul_le_mul_of_nonneg_right hle hp
        have up : maxL ws * 2 ^ s.toNat ≤ 254 := by
          by_cases h : 0 < maxL ws
          · have := (side 127 (maxL ws) h (by omega)).2 s.toNat (by have := s1 h; omega)
            push_cast at this; omega
          · have := Int.mul_nonneg (show 0 ≤ -maxL ws by omega) hp
            rw [neg_mul] at this; omega
        have lo : -256 ≤ minL ws * 2 ^ s.toNat := by
          by_cases h : minL ws < 0
          · have := (side 128 (-minL ws) (by omega) (by omega)).2 s.toNat (by have := s2 h; omega)
            rw [neg_mul] at this
            push_cast at this; omega
          · have := Int.mul_nonneg (show 0 ≤ minL ws by omega) hp
            omega
        refine key _ ?_ ?_
        · simp only [Legal]; omega
        · simp only [Legal]; omega
      rw [hs]
      by_cases hp : maxL ws > 0
      · have p1 := (side 127 (maxL ws) hp (by omega)).1
        rw [if_pos hp]
        by_cases hn : minL ws < 0
        · have q1 := (side 128 (-minL ws) (by omega) (by omega)).1
          rw [if_pos hn]
          exact ⟨by omega, fin _ (by omega) (fun _ => by omega) (fun _ => by omega)⟩
        · rw [if_neg hn]
          exact ⟨by omega, fin _ (by omega) (fun _ => by omega) (fun h => absurd h hn)⟩
      · rw [if_neg hp]
        have hn : minL ws < 0 := by omega
        have q1 := (side 128 (-minL ws) (by omega) (by omega)).1
        exact ⟨by omega, fin _ (by omega) (fun h => absurd h hp) (fun _ => by omega)⟩

theorem shl_eq (x k : Int) (h : 0 ≤ k) : shl x k = x * 2 ^ k.toNat := by simp [shl, if_neg (not_lt.2 h)]

/-- **C38.** Whenever the optimisation returns, the scaled weights are legal, are exactly the original weights times
`2 ^ -weight_exp`, and truncation to the chosen number of bits does not change them: nothing is lost. The exception is a
mixed matrix containing the weight 255, see the witness. -/
theorem C38_lossless_partial (ws : List Int) (m : SignMode) (o : Optimized) (hne : ws ≠ [])
    (h255 : ¬ (m = .mixed ∧ maxL ws = 255)) (h : optimize ws m false = some o) :
    o.weightExp ≤ 0 ∧ o.weights = ws.map (fun w => w * 2 ^ (-o.weightExp).toNat) ∧
      (∀ w ∈ o.weights, Legal m 8 w) ∧ ∀ w ∈ o.weights, truncWeight w m o.numWeightBits 8 = w := by
  simp only [optimize] at h
  split at h
  · rename_i hv
    obtain ⟨s1, s2⟩ := scaleBits_spec hne hv h255
    simp only [Bool.false_eq_true, false_and, if_false, Option.some.injEq] at h
    subst h
    have hmap : (ws.map fun w => shl w (scaleBits ws m)) = ws.map fun w => w * 2 ^ (scaleBits ws m).toNat := by
      apply List.map_congr_left; intro w _; exact shl_eq _ _ s1
    simp only [hmap, neg_neg]
    refine ⟨by omega, trivial, ?_, ?_⟩
    · intro w hw
      obtain ⟨v, hv1, rfl⟩ := List.mem_map.1 hw
      exact s2 v hv1
    · intro w hw
      obtain ⟨v, hv1, rfl⟩ := List.mem_map.1 hw
      have hd : (2 : Int) ^ (searchN ws 8 + (scaleBits ws m).toNat) ∣ v * 2 ^ (scaleBits ws m).toNat := by
        rw [pow_add]; exact Int.mul_dvd_mul (searchN_div ws 8 v hv1) (dvd_refl _)
      have hk : (8 : Int) - numWeightBits ws (-scaleBits ws m) m + (mixedFlag m : Int) =
          ((searchN ws 8 + (scaleBits ws m).toNat : Nat) : Int) := by
        simp only [numWeightBits]; push_cast; omega
      simp only [truncWeight, hk, shl, shr,
        if_neg (show ¬ ((searchN ws 8 + (scaleBits ws m).toNat : Nat) : Int) < 0 by omega), Int.toNat_natCast]
      split
      · rw [Int.ediv_mul_cancel (Int.dvd_neg.2 hd)]; simp
      · rw [Int.ediv_mul_cancel hd]
  · cases h

/-- **C38.** For Loihi 2 the integers returned, scaled back by the dropped bits and the exponent, are exactly the original
weights. -/
theorem C38_loihi2_lossless_partial (ws : List Int) (m : SignMode) (o : Optimized) (hne : ws ≠ [])
    (h255 : ¬ (m = .mixed ∧ maxL ws = 255)) (h : optimize ws m true = some o) :
    o.numWeightBits ≤ 8 ∧ o.weightExp ≤ 0 ∧
      o.weights.map (fun x => x * 2 ^ ((8 - o.numWeightBits).toNat + mixedFlag m)) =
        ws.map (fun w => w * 2 ^ (-o.weightExp).toNat) := by
  simp only [optimize] at h
  split at h
  · rename_i hv
    obtain ⟨s1, s2⟩ := scaleBits_spec hne hv h255
    split at h
    · cases h
    · rename_i hnb
      simp only [true_and, not_lt] at hnb
      simp only [if_true, Option.some.injEq] at h
      subst h
      simp only [neg_neg]
      refine ⟨by omega, by omega, ?_⟩
      rw [List.map_map, List.map_map]
      apply List.map_congr_left
      intro v hv1
      simp only [Function.comp]
      rw [shl_eq _ _ s1]
      have hd : (2 : Int) ^ (searchN ws 8 + (scaleBits ws m).toNat) ∣ v * 2 ^ (scaleBits ws m).toNat := by
        rw [pow_add]; exact Int.mul_dvd_mul (searchN_div ws 8 v hv1) (dvd_refl _)
      have hk : (8 - numWeightBits ws (-scaleBits ws m) m).toNat + mixedFlag m = searchN ws 8 + (scaleBits ws m).toNat := by
        have : (8 : Int) - numWeightBits ws (-scaleBits ws m) m + (mixedFlag m : Int) =
          ((searchN ws 8 + (scaleBits ws m).toNat : Nat) : Int) := by
          simp only [numWeightBits]; push_cast; omega
        omega
      rw [hk]
      rw [← hk] at hd
      simp only [tdiv]
      by_cases hm : m = .mixed
      · subst hm
        simp only [if_true]
        have h1 : mixedFlag .mixed = 1 := rfl
        rw [h1] at hk hd
        obtain ⟨c, hc⟩ := hd
        rw [← hk, hc, pow_succ, mul_assoc, Int.mul_tdiv_cancel_left _ (by positivity), Int.mul_tdiv_cancel_left _ (by norm_num)]
        ring
      · simp only [if_neg hm]
        have h0 : mixedFlag m = 0 := by simp [mixedFlag, hm]
        rw [h0, Nat.add_zero] at hk hd
        rw [hk] at hd ⊢
        exact Int.tdiv_mul_cancel hd
  · cases h

example : optimize [3, 0, -5] .mixed false = some ⟨[96, 0, -160], 4, -5⟩ ∧
    optimize [3, 0, -5] .mixed true = some ⟨[3, 0, -5], 4, -5⟩ ∧ optimize [12, 4] .excitatory true = some ⟨[3, 1], 2, -4⟩ ∧
    optimize [300] .excitatory false = none := by
  decide +kernel

/-- **C38, finding.** A mixed matrix whose largest weight is 255 passes validation and is turned into all zeros. -/
theorem C38_witness_255_lost : optimize [255, -7, 12] .mixed false = some ⟨[0, 0, 0], 10, 1⟩ := by decide +kernel

/-- **C38, finding.** A mixed matrix with odd weights above 127 needs 9 bits: for Loihi 2 this raises a shift error. -/
theorem C38_witness_nine_bits :
    optimize [129, -1] .mixed false = some ⟨[129, -1], 9, 0⟩ ∧ optimize [129, -1] .mixed true = none := by decide +kernel

end Verif.Weights
