import Verif.Sparse.Model
import Verif.Dense.Props
import Verif.VarAccess.Props

/-!
# Sparse connections: stored entries and matrices
-/

namespace Verif.Sparse

open Verif.Weights
open Verif.VarAccess (Csr)
open Verif.Dense (Vec shiftExp)

/-- A legal csr matrix of shape (n, nIn): positions are stored once and lie within the shape. -/
structure Wf (n nIn : Nat) (c : Csr) : Prop where
  nodup : c.pattern.Nodup
  row : ∀ e ∈ c.entries, e.1.1 < n
  col : ∀ e ∈ c.entries, e.1.2 < nIn

theorem valAt_nil (i j : Nat) : valAt ⟨[]⟩ i j = 0 := rfl

theorem valAt_cons (e : (Nat × Nat) × Int) (l : List ((Nat × Nat) × Int)) (i j : Nat) :
    valAt ⟨e :: l⟩ i j = (if e.1 = (i, j) then e.2 else 0) + valAt ⟨l⟩ i j := by
  unfold valAt
  by_cases h : e.1 = (i, j)
  · rw [if_pos h, List.filter_cons_of_pos (by simpa using h)]
    rfl
  · rw [if_neg h, List.filter_cons_of_neg (by simpa using h)]
    simp

theorem dot_cons (e : (Nat × Nat) × Int) (l : List ((Nat × Nat) × Int)) (s : Vec) (i : Nat) :
    dot ⟨e :: l⟩ s i = (if e.1.1 = i then e.2 * s e.1.2 else 0) + dot ⟨l⟩ s i := by
  unfold dot
  by_cases h : e.1.1 = i
  · rw [if_pos h, List.filter_cons_of_pos (by simpa using h)]
    rfl
  · rw [if_neg h, List.filter_cons_of_neg (by simpa using h)]
    simp

theorem dot_append (l l' : List ((Nat × Nat) × Int)) (s : Vec) (i : Nat) :
    dot ⟨l ++ l'⟩ s i = dot ⟨l⟩ s i + dot ⟨l'⟩ s i := by
  unfold dot
  simp only [List.filter_append, List.map_append, List.sum_append]

theorem single_sum (nIn : Nat) (e : (Nat × Nat) × Int) (s : Vec) (i : Nat) (hc : e.1.2 < nIn) :
    ∑ j ∈ Finset.range nIn, (if e.1 = (i, j) then e.2 else 0) * s j = if e.1.1 = i then e.2 * s e.1.2 else 0 := by
  by_cases h : e.1.1 = i
  · rw [if_pos h, Finset.sum_eq_single e.1.2]
    · rw [if_pos (by rw [← h])]
    · intro j _ hj
      rw [if_neg (by intro h'; exact hj (by rw [h']))]
      simp
    · intro hn
      exact absurd (Finset.mem_range.2 hc) hn
  · rw [if_neg h]
    apply Finset.sum_eq_zero
    intro j _
    rw [if_neg (by intro h'; exact h (by rw [h']))]
    simp

/-- The product over stored entries is the product with the matrix of values. -/
theorem dot_eq (nIn : Nat) (s : Vec) (i : Nat) : ∀ (l : List ((Nat × Nat) × Int)), (∀ e ∈ l, e.1.2 < nIn) →
    dot ⟨l⟩ s i = ∑ j ∈ Finset.range nIn, valAt ⟨l⟩ i j * s j
  | [], _ => by simp [dot, valAt]
  | e :: l, h => by
    rw [dot_cons, dot_eq nIn s i l (fun x hx => h x (List.mem_cons_of_mem _ hx))]
    simp only [valAt_cons, Int.add_mul, Finset.sum_add_distrib]
    rw [single_sum nIn e s i (h e (List.mem_cons_self))]

/-- Selecting the columns of the inputs that spiked is the product with the binary view. -/
theorem colSum_eq_dot (c : Csr) (s : Vec) (i : Nat) : colSum c s i = dot c (Verif.Dense.bin s) i := by
  obtain ⟨l⟩ := c
  induction l with
  | nil => rfl
  | cons e l ih =>
    rw [dot_cons, ← ih]
    unfold colSum
    by_cases h : s e.1.2 = 0
    · rw [List.filter_cons_of_neg (by simpa using h)]
      simp [Verif.Dense.bin, h]
    · rw [List.filter_cons_of_pos (by simpa using h)]
      by_cases hi : e.1.1 = i
      · rw [List.filter_cons_of_pos (by simpa using hi), if_pos hi]
        simp [Verif.Dense.bin, h]
      · rw [List.filter_cons_of_neg (by simpa using hi), if_neg hi]
        simp

/-- The accumulation of the sparse connection is the one of the dense connection. -/
theorem accum_eq (nIn : Nat) (graded : Bool) (c : Csr) (hc : ∀ e ∈ c.entries, e.1.2 < nIn) (s : Vec) (i : Nat) :
    accum graded c s i = Verif.Dense.accum nIn graded (valAt c) s i := by
  rw [Verif.Dense.accum_matVec]
  obtain ⟨l⟩ := c
  cases graded with
  | true => exact dot_eq nIn s i l hc
  | false =>
    show colSum ⟨l⟩ s i = _
    rw [colSum_eq_dot]
    exact dot_eq nIn _ i l hc

theorem valAt_not_mem (l : List ((Nat × Nat) × Int)) (i j : Nat) (h : (i, j) ∉ l.map (·.1)) : valAt ⟨l⟩ i j = 0 := by
  induction l with
  | nil => rfl
  | cons e l ih =>
    simp only [List.map_cons, List.mem_cons, not_or] at h
    rw [valAt_cons, if_neg (fun hh => h.1 hh.symm), ih h.2]
    rfl

theorem valAt_mem (l : List ((Nat × Nat) × Int)) (e : (Nat × Nat) × Int) (hn : (l.map (·.1)).Nodup) (he : e ∈ l) :
    valAt ⟨l⟩ e.1.1 e.1.2 = e.2 := by
  induction l with
  | nil => cases he
  | cons a l ih =>
    simp only [List.map_cons, List.nodup_cons] at hn
    rw [valAt_cons]
    rcases List.mem_cons.1 he with rfl | h
    · rw [if_pos rfl, valAt_not_mem l _ _ hn.1]
      simp
    · rw [ih hn.2 h, if_neg]
      · simp
      · intro hh
        apply hn.1
        rw [hh]
        exact List.mem_map.2 ⟨e, h, rfl⟩

theorem valAt_mapEntries (g : Nat × Nat → Int → Int) (l : List ((Nat × Nat) × Int)) (hn : (l.map (·.1)).Nodup) (i j : Nat) :
    valAt ⟨l.map fun e => (e.1, g e.1 e.2)⟩ i j = if (i, j) ∈ l.map (·.1) then g (i, j) (valAt ⟨l⟩ i j) else 0 := by
  have hpat : (l.map fun e => (e.1, g e.1 e.2)).map (·.1) = l.map (·.1) := by simp
  by_cases h : (i, j) ∈ l.map (·.1)
  · rw [if_pos h]
    obtain ⟨e, he, hij⟩ := List.mem_map.1 h
    have h1 := valAt_mem l e hn he
    have h2 := valAt_mem (l.map fun e => (e.1, g e.1 e.2)) (e.1, g e.1 e.2) (by rw [hpat]; exact hn)
      (List.mem_map.2 ⟨e, he, rfl⟩)
    rw [hij] at h1 h2
    simp only at h1 h2
    rw [h1, h2]
  · rw [if_neg h]
    apply valAt_not_mem
    rw [hpat]
    exact h

theorem valAt_mapData (f : Int → Int) (h0 : f 0 = 0) (c : Csr) (hn : c.pattern.Nodup) (i j : Nat) :
    valAt (mapData f c) i j = f (valAt c i j) := by
  obtain ⟨l⟩ := c
  unfold mapData
  rw [valAt_mapEntries (fun _ x => f x) l hn i j]
  split
  · rfl
  · rename_i h
    rw [valAt_not_mem l i j h, h0]

theorem valAt_elimZeros (c : Csr) (i j : Nat) : valAt (elimZeros c) i j = valAt c i j := by
  obtain ⟨l⟩ := c
  induction l with
  | nil => rfl
  | cons e l ih =>
    rw [valAt_cons, ← ih]
    unfold elimZeros
    by_cases h : e.2 = 0
    · simp only
      rw [List.filter_cons_of_neg (by simpa using h), h]
      simp
    · simp only
      rw [List.filter_cons_of_pos (by simpa using h), valAt_cons]

/-! ## Preparation of the weights -/

theorem mapData_mapData (f g : Int → Int) (c : Csr) : mapData f (mapData g c) = mapData (fun x => f (g x)) c := by
  simp [mapData]

theorem clipCsr_eq (m : SignMode) (c : Csr) : clipCsr m c = mapData (fun w => clipWeight w m 8 false) c := by
  unfold clipCsr
  cases m <;> simp only [mapData_mapData, reduceCtorEq, if_true, if_false] <;> congr 1 <;> funext x <;>
    simp only [clipWeight, clip, mixedFlag, reduceCtorEq, if_true, if_false, Bool.false_eq_true] <;> omega

theorem elimZeros_neg (c : Csr) : mapData (fun x => -x) (elimZeros c) = elimZeros (mapData (fun x => -x) c) := by
  obtain ⟨l⟩ := c
  unfold mapData elimZeros
  simp only [List.filter_map]
  congr 2
  apply List.filter_congr
  intro e _
  simp

theorem truncCsr_eq (m : SignMode) (b : Int) (c : Csr) :
    truncCsr m b c = elimZeros (mapData (fun w => truncWeight w m b 8) c) := by
  unfold truncCsr
  cases m <;> simp only [mapData_mapData, elimZeros_neg, reduceCtorEq, if_true, if_false] <;> rfl

/-- The effect of the preparation: every stored weight is clipped and truncated, those that become 0 are removed. -/
theorem prepared_eq (p : Par) (c : Csr) :
    prepared p c = elimZeros (mapData (fun w => truncWeight (clipWeight w (p.mode c) 8 false) (p.mode c) p.numWeightBits 8) c) := by
  unfold prepared
  rw [truncCsr_eq, clipCsr_eq, mapData_mapData]

theorem quant_zero (m : SignMode) (b : Int) : truncWeight (clipWeight 0 m 8 false) m b 8 = 0 := by
  have hc : clipWeight 0 m 8 false = 0 := by cases m <;> decide
  rw [hc]
  have : ∀ k, shl (shr 0 k) k = 0 := by intro k; simp only [shl, shr]; split <;> simp_all
  simp only [truncWeight]
  split <;> simp [this]

theorem prepared_cols (p : Par) (c : Csr) (nIn : Nat) (h : ∀ e ∈ c.entries, e.1.2 < nIn) :
    ∀ e ∈ (prepared p c).entries, e.1.2 < nIn := by
  rw [prepared_eq]
  intro e he
  simp only [elimZeros, mapData, List.mem_filter, List.mem_map] at he
  obtain ⟨⟨a, ha, rfl⟩, _⟩ := he
  exact h a ha

/-! ## Minimum and maximum -/

theorem foldl_min_ge (l : List Int) (a z : Int) : z ≤ l.foldl min a ↔ z ≤ a ∧ ∀ x ∈ l, z ≤ x := by
  induction l generalizing a with
  | nil => simp
  | cons b l ih =>
    rw [List.foldl_cons, ih]
    simp only [List.mem_cons, forall_eq_or_imp]
    constructor
    · rintro ⟨h1, h2⟩
      exact ⟨by omega, by omega, h2⟩
    · rintro ⟨h1, h2, h3⟩
      exact ⟨by omega, h3⟩

theorem foldl_max_le (l : List Int) (a z : Int) : l.foldl max a ≤ z ↔ a ≤ z ∧ ∀ x ∈ l, x ≤ z := by
  induction l generalizing a with
  | nil => simp
  | cons b l ih =>
    rw [List.foldl_cons, ih]
    simp only [List.mem_cons, forall_eq_or_imp]
    constructor
    · rintro ⟨h1, h2⟩
      exact ⟨by omega, by omega, h2⟩
    · rintro ⟨h1, h2, h3⟩
      exact ⟨by omega, h3⟩

theorem minL_ge (l : List Int) (hl : l ≠ []) (z : Int) : z ≤ minL l ↔ ∀ x ∈ l, z ≤ x := by
  cases l with
  | nil => exact absurd rfl hl
  | cons a l =>
    show z ≤ l.foldl min a ↔ _
    rw [foldl_min_ge]
    simp

theorem maxL_le (l : List Int) (hl : l ≠ []) (z : Int) : maxL l ≤ z ↔ ∀ x ∈ l, x ≤ z := by
  cases l with
  | nil => exact absurd rfl hl
  | cons a l =>
    show l.foldl max a ≤ z ↔ _
    rw [foldl_max_le]
    simp

theorem csrMin_nonneg (n nIn : Nat) (c : Csr) : 0 ≤ csrMin n nIn c ↔ ∀ e ∈ c.entries, 0 ≤ e.2 := by
  obtain ⟨l⟩ := c
  unfold csrMin
  cases l with
  | nil => simp
  | cons a l =>
    have := minL_ge ((a :: l).map (·.2)) (by simp) 0
    rw [if_neg (by simp)]
    have h2 : (∀ x ∈ (a :: l).map (·.2), (0 : Int) ≤ x) ↔ ∀ e ∈ a :: l, 0 ≤ e.2 := List.forall_mem_map
    dsimp only
    rw [← h2, ← this]
    split <;> omega

theorem csrMax_nonpos (n nIn : Nat) (c : Csr) : csrMax n nIn c ≤ 0 ↔ ∀ e ∈ c.entries, e.2 ≤ 0 := by
  obtain ⟨l⟩ := c
  unfold csrMax
  cases l with
  | nil => simp
  | cons a l =>
    have := maxL_le ((a :: l).map (·.2)) (by simp) 0
    rw [if_neg (by simp)]
    have h2 : (∀ x ∈ (a :: l).map (·.2), x ≤ (0 : Int)) ↔ ∀ e ∈ a :: l, e.2 ≤ 0 := List.forall_mem_map
    dsimp only
    rw [← h2, ← this]
    split <;> omega

/-- The elements of a matrix in C order. -/
def flat (n nIn : Nat) (w : Verif.Dense.Mat) : List Int := (List.range n).flatMap fun i => (List.range nIn).map fun j => w i j

theorem flat_all (n nIn : Nat) (c : Csr) (h : Wf n nIn c) (P : Int → Prop) (hz : P 0) :
    (∀ x ∈ flat n nIn (valAt c), P x) ↔ ∀ e ∈ c.entries, P e.2 := by
  constructor
  · intro ha e he
    rw [← valAt_mem c.entries e h.nodup he]
    apply ha
    simp only [flat, List.mem_flatMap, List.mem_range, List.mem_map]
    exact ⟨e.1.1, h.row e he, e.1.2, h.col e he, rfl⟩
  · intro ha x hx
    simp only [flat, List.mem_flatMap, List.mem_range, List.mem_map] at hx
    obtain ⟨i, _, j, _, rfl⟩ := hx
    by_cases hm : (i, j) ∈ c.entries.map (·.1)
    · obtain ⟨e, he, hij⟩ := List.mem_map.1 hm
      have := valAt_mem c.entries e h.nodup he
      rw [hij] at this
      simp only at this
      rw [this]
      exact ha e he
    · have := valAt_not_mem c.entries i j hm
      rw [this]
      exact hz

theorem flat_ne_nil (n nIn : Nat) (hn : 0 < n) (hm : 0 < nIn) (w : Verif.Dense.Mat) : flat n nIn w ≠ [] := by
  intro h
  have : w 0 0 ∈ flat n nIn w := by
    simp only [flat, List.mem_flatMap, List.mem_range, List.mem_map]
    exact ⟨0, hn, 0, hm, rfl⟩
  rw [h] at this
  cases this

/-- The sign mode derived from a csr matrix is the one derived from the array of its values. -/
theorem signMode_eq (n nIn : Nat) (c : Csr) (h : Wf n nIn c) (hn : 0 < n) (hm : 0 < nIn) :
    signModeOf n nIn c = determineSignMode (flat n nIn (valAt c)) := by
  have h1 : csrMin n nIn c ≥ 0 ↔ minL (flat n nIn (valAt c)) ≥ 0 := by
    show 0 ≤ csrMin n nIn c ↔ 0 ≤ minL (flat n nIn (valAt c))
    rw [csrMin_nonneg, minL_ge _ (flat_ne_nil n nIn hn hm _), flat_all n nIn c h (fun x => 0 ≤ x) (by omega)]
  have h2 : csrMax n nIn c ≤ 0 ↔ maxL (flat n nIn (valAt c)) ≤ 0 := by
    rw [csrMax_nonpos, maxL_le _ (flat_ne_nil n nIn hn hm _), flat_all n nIn c h (fun x => x ≤ 0) (by omega)]
  unfold signModeOf determineSignMode
  simp only [h1, h2]

end Verif.Sparse
