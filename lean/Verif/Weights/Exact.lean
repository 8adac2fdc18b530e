import Verif.Weights.Props

/-!
# C38: exactly when the weight-bit optimisation is lossless and when it refuses
-/

namespace Verif.Weights

/-- The exponent of a mixed matrix with the weight 255 is positive. -/
theorem scaleBits_255 {ws : List Int} (hne : ws ≠ []) (hv : validate ws .mixed = true) (h : maxL ws = 255) :
    scaleBits ws .mixed = -1 := by
  have hmn := (C38_validation ws hne .mixed).1 hv _ (minL_mem hne)
  simp only [reduceCtorEq, if_false, Legal] at hmn
  have h1 : floorLog2 127 (255 : Int).toNat = -2 := by decide
  simp only [scaleBits, h, h1]
  rw [if_neg (by omega), if_pos (by omega)]
  split
  · have : -1 ≤ floorLog2 128 (-minL ws).toNat := by
      simp only [floorLog2]
      split
      · omega
      · rw [if_pos (by omega)]
    omega
  · rfl

/-- For valid weights the exponent of a mixed matrix is 0 exactly if some weight is outside -128..127 and none is 255. -/
theorem scaleBits_zero_iff {ws : List Int} (hne : ws ≠ []) (hv : validate ws .mixed = true) (h255 : maxL ws ≠ 255) :
    scaleBits ws .mixed = 0 ↔ (maxL ws = 0 ∧ minL ws = 0) ∨ 127 < maxL ws ∨ minL ws < -128 := by
  have hval := (C38_validation ws hne .mixed).1 hv
  have hmx := hval _ (maxL_mem hne)
  have hmn := hval _ (minL_mem hne)
  simp only [reduceCtorEq, if_false, Legal] at hmx hmn
  have fl : ∀ (a : Nat) (x : Int), 0 < x → x ≤ 2 * a → -1 ≤ floorLog2 a x.toNat ∧ (floorLog2 a x.toNat = -1 ↔ (a : Int) < x) := by
    intro a x h0 h1
    simp only [floorLog2]
    by_cases h : x.toNat ≤ a
    · rw [if_pos h]; constructor
      · omega
      · constructor
        · intro h'; omega
        · intro h'; omega
    · rw [if_neg h, if_pos (by omega)]
      constructor
      · omega
      · constructor
        · intro _; omega
        · intro _; rfl
  by_cases hz : maxL ws = 0 ∧ minL ws = 0
  · simp [scaleBits, hz]
  · simp only [scaleBits, if_neg hz]
    simp only [hz, false_or]
    by_cases hp : maxL ws > 0
    · obtain ⟨f1, f2⟩ := fl 127 (maxL ws) hp (by omega)
      rw [if_pos hp]
      by_cases hn : minL ws < 0
      · obtain ⟨g1, g2⟩ := fl 128 (-minL ws) (by omega) (by omega)
        rw [if_pos hn]
        push_cast at f2 g2
        omega
      · rw [if_neg hn]
        push_cast at f2
        omega
    · rw [if_neg hp]
      have hle : minL ws ≤ maxL ws := minL_le (maxL_mem hne)
      obtain ⟨g1, g2⟩ := fl 128 (-minL ws) (by omega) (by omega)
      push_cast at g2
      omega

/-- **C38, exact.** Without the Loihi 2 conversion the optimisation returns a result if and only if all weights are legal for the sign mode
(zero only, for the null mode). -/
theorem C38_returns_exact (ws : List Int) (m : SignMode) (hne : ws ≠ []) :
    (∃ o, optimize ws m false = some o) ↔ ∀ w ∈ ws, (if m = .null then w = 0 else Legal m 8 w) := by
  rw [← C38_validation ws hne m]
  simp only [optimize]
  split
  · rename_i h; simp [h]
  · rename_i h; simp [h]

/-- **C38, exact.** If it returns, the result is the weights times a power of two that its exponent undoes, if and only if the matrix is not a mixed
one with the weight 255; in that case everything becomes zero. -/
theorem C38_lossless_exact (ws : List Int) (m : SignMode) (o : Optimized) (hne : ws ≠ []) (h : optimize ws m false = some o) :
    ((∃ k : Nat, o.weightExp = -(k : Int) ∧ o.weights = ws.map (fun w => w * 2 ^ k)) ↔ ¬ (m = .mixed ∧ (255 : Int) ∈ ws)) ∧
    (m = .mixed ∧ (255 : Int) ∈ ws → o.weights = ws.map fun _ => 0) := by
  have hv : validate ws m = true := by
    simp only [optimize] at h
    split at h
    · assumption
    · cases h
  have hmem : ∀ hm : m = .mixed, ((255 : Int) ∈ ws ↔ maxL ws = 255) := by
    rintro rfl
    constructor
    · intro h5
      have h1 := le_maxL h5
      have h2 := (C38_validation ws hne .mixed).1 hv _ (maxL_mem hne)
      simp only [reduceCtorEq, if_false, Legal] at h2
      omega
    · intro h5; rw [← h5]; exact maxL_mem hne
  by_cases h5 : m = .mixed ∧ (255 : Int) ∈ ws
  · obtain ⟨rfl, h5⟩ := h5
    have hmx := (hmem rfl).1 h5
    have hs := scaleBits_255 hne hv hmx
    have ho : o.weights = (ws.map fun _ => (0 : Int)) ∧ o.weightExp = 1 := by
      simp only [optimize, if_pos hv, hs, Bool.false_eq_true, false_and, if_false, Option.some.injEq] at h
      subst h
      exact ⟨by simp [shl], by simp⟩
    refine ⟨⟨?_, fun h' => absurd ⟨rfl, h5⟩ h'⟩, fun _ => ho.1⟩
    rintro ⟨k, hk, _⟩
    rw [ho.2] at hk
    omega
  · have h5' : ¬ (m = .mixed ∧ maxL ws = 255) := fun hh => h5 ⟨hh.1, (hmem hh.1).2 hh.2⟩
    obtain ⟨h1, h2, _⟩ := C38_lossless_partial ws m o hne h5' h
    refine ⟨⟨fun _ => h5, fun _ => ⟨(-o.weightExp).toNat, by omega, h2⟩⟩, fun hh => absurd hh h5⟩

theorem searchN_zero_iff {ws : List Int} : ∀ k, searchN ws (k + 1) = 0 ↔ ∃ w ∈ ws, w % 2 = 1
  | 0 => by
    rw [searchN]
    split
    · rename_i h
      simp only [allDiv, List.all_eq_true, beq_iff_eq] at h
      constructor
      · intro h'; simp at h'
      · rintro ⟨w, hw, h1⟩
        have := h w hw
        simp at this; omega
    · rename_i h
      simp only [allDiv, List.all_eq_true, beq_iff_eq, not_forall] at h
      rw [searchN]
      obtain ⟨w, hw, h1⟩ := h
      simp only [true_iff]
      refine ⟨w, hw, ?_⟩
      simp at h1; omega
  | k + 1 => by
    rw [searchN]
    split
    · rename_i h
      simp only [allDiv, List.all_eq_true, beq_iff_eq] at h
      constructor
      · intro h'; simp at h'
      · rintro ⟨w, hw, h1⟩
        have h2 := Int.dvd_of_emod_eq_zero (h w hw)
        have h3 : (2 : Int) ∣ w := dvd_trans (dvd_pow_self 2 (by omega)) h2
        omega
    · exact searchN_zero_iff k

/-- **C38, exact.** With the Loihi 2 conversion the optimisation fails for legal weights if and only if the matrix is mixed, contains an odd weight and
a weight outside -128..127: such a matrix needs nine bits. -/
theorem C38_loihi2_refuses_exact (ws : List Int) (m : SignMode) (hne : ws ≠ [])
    (hv : ∀ w ∈ ws, (if m = .null then w = 0 else Legal m 8 w)) :
    optimize ws m true = none ↔ m = .mixed ∧ (∃ w ∈ ws, w % 2 = 1) ∧ ∃ w ∈ ws, 127 < w ∨ w < -128 := by
  have hv' := (C38_validation ws hne m).2 hv
  have hex : (∃ w ∈ ws, 127 < w ∨ w < -128) ↔ 127 < maxL ws ∨ minL ws < -128 := by
    constructor
    · rintro ⟨w, hw, h | h⟩
      · left; have := le_maxL hw; omega
      · right; have := minL_le hw; omega
    · rintro (h | h)
      · exact ⟨_, maxL_mem hne, Or.inl h⟩
      · exact ⟨_, minL_mem hne, Or.inr h⟩
  have hopt : optimize ws m true = none ↔ 8 - numWeightBits ws (-scaleBits ws m) m < 0 := by
    simp only [optimize, if_pos hv', true_and, if_true]
    split
    · rename_i h; simp [h]
    · rename_i h; simp [h]
  have hodd := searchN_zero_iff (ws := ws) 7
  rw [hopt, hex, ← hodd]
  simp only [numWeightBits]
  by_cases h5 : m = .mixed ∧ maxL ws = 255
  · obtain ⟨rfl, h5⟩ := h5
    have hs := scaleBits_255 hne hv' h5
    have ho : searchN ws 8 = 0 := hodd.2 ⟨255, by rw [← h5]; exact maxL_mem hne, by decide⟩
    simp [hs, ho, mixedFlag, h5]
  · have hs := (scaleBits_spec hne hv' h5).1
    by_cases hm : m = .mixed
    · subst hm
      have hz := scaleBits_zero_iff hne hv' (fun h => h5 ⟨rfl, h⟩)
      simp only [mixedFlag, if_true, true_and]
      constructor
      · intro h
        have h0 : scaleBits ws .mixed = 0 := by omega
        have hn : searchN ws 8 = 0 := by omega
        refine ⟨hn, ?_⟩
        rcases hz.1 h0 with h | h
        · obtain ⟨w, hw, ho⟩ := hodd.1 hn
          have h1 := le_maxL hw
          have h2 := minL_le hw
          omega
        · exact h
      · rintro ⟨h1, h2⟩
        have := hz.2 (Or.inr h2)
        rw [this, h1]; decide
    · simp only [hm, false_and, iff_false]
      have : mixedFlag m = 0 := by simp [mixedFlag, hm]
      rw [this]
      push_cast
      omega

/-- **C38.** With the Loihi 2 conversion, whatever is returned is exact: scaled back by the dropped bits and the exponent, the integers are the
original weights. No exception: a mixed matrix with 255 is refused. -/
theorem C38_loihi2_lossless (ws : List Int) (m : SignMode) (o : Optimized) (hne : ws ≠ []) (h : optimize ws m true = some o) :
    o.numWeightBits ≤ 8 ∧ o.weightExp ≤ 0 ∧
      o.weights.map (fun x => x * 2 ^ ((8 - o.numWeightBits).toNat + mixedFlag m)) =
        ws.map (fun w => w * 2 ^ (-o.weightExp).toNat) := by
  refine C38_loihi2_lossless_partial ws m o hne ?_ h
  rintro ⟨rfl, h5⟩
  have hv : validate ws .mixed = true := by
    simp only [optimize] at h
    split at h
    · assumption
    · cases h
  have hs := scaleBits_255 hne hv h5
  have ho : searchN ws 8 = 0 := (searchN_zero_iff 7).2 ⟨255, by rw [← h5]; exact maxL_mem hne, by decide⟩
  simp [optimize, hv, hs, numWeightBits, ho, mixedFlag] at h

/-- Nontrivial cases of each kind. -/
theorem C38_example_exact :
    optimize [255, -7, 12] .mixed true = none ∧ optimize [254, -7, 12] .mixed true = none ∧
    optimize [254, -8, 12] .mixed true = some ⟨[127, -4, 6], 8, 0⟩ ∧ optimize [127, -7] .mixed true = some ⟨[127, -7], 8, -1⟩ := by
  decide +kernel

end Verif.Weights
