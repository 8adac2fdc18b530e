import Mathlib.Data.List.Nodup
import Mathlib.Data.List.Perm.Subperm
import Verif.VirtualPorts.Model

namespace Verif.VirtualPorts

/-- A multi-index within a shape. -/
def Valid : List Nat → List Nat → Prop
  | [], [] => True
  | n :: s, i :: is => i < n ∧ Valid s is
  | _, _ => False

theorem Valid.length_eq {s idx : List Nat} (h : Valid s idx) : idx.length = s.length := by
  induction s generalizing idx with
  | nil => cases idx <;> simp_all [Valid]
  | cons n s ih => cases idx with
    | nil => simp [Valid] at h
    | cons i is => simp [ih h.2]

theorem valid_iff {s idx : List Nat} :
    Valid s idx ↔ idx.length = s.length ∧ ∀ j < s.length, idx.getD j 0 < s.getD j 0 := by
  induction s generalizing idx with
  | nil => cases idx <;> simp [Valid]
  | cons n s ih => cases idx with
    | nil => simp [Valid]
    | cons i is =>
      simp only [Valid, ih, List.length_cons, Nat.add_right_cancel_iff]
      constructor
      · rintro ⟨h1, h2, h3⟩
        refine ⟨h2, fun j hj => ?_⟩
        cases j with
        | zero => simpa using h1
        | succ j => simpa using h3 j (by omega)
      · rintro ⟨h2, h3⟩
        refine ⟨by simpa using h3 0 (by omega), h2, fun j hj => by simpa using h3 (j+1) (by omega)⟩

theorem ravel_lt {s idx : List Nat} (h : Valid s idx) : ravel s idx < size s := by
  induction s generalizing idx with
  | nil => cases idx <;> simp_all [Valid, ravel, size]
  | cons n s ih => cases idx with
    | nil => simp [Valid] at h
    | cons i is =>
      have := ih h.2
      have h1 : i + 1 ≤ n := h.1
      have h2 : (i + 1) * size s ≤ n * size s := Nat.mul_le_mul_right _ h1
      simp only [ravel, size]
      rw [Nat.add_mul] at h2
      omega

theorem unravel_ravel {s idx : List Nat} (h : Valid s idx) : unravel s (ravel s idx) = idx := by
  induction s generalizing idx with
  | nil => cases idx <;> simp_all [Valid, unravel]
  | cons n s ih => cases idx with
    | nil => simp [Valid] at h
    | cons i is =>
      have hlt := ravel_lt h.2
      have hpos : 0 < size s := by omega
      simp only [ravel, unravel]
      rw [show i * size s + ravel s is = ravel s is + i * size s by omega,
        Nat.add_mul_div_right _ _ hpos, Nat.div_eq_of_lt hlt, Nat.add_mul_mod_self_right,
        Nat.mod_eq_of_lt hlt, ih h.2]
      simp

theorem unravel_valid {s : List Nat} {k : Nat} (h : k < size s) : Valid s (unravel s k) := by
  induction s generalizing k with
  | nil => simp [Valid, unravel]
  | cons n s ih =>
    simp only [size] at h
    have hpos : 0 < size s := by
      rcases Nat.eq_zero_or_pos (size s) with h0 | h0
      · simp [h0] at h
      · exact h0
    refine ⟨?_, ih (Nat.mod_lt _ hpos)⟩
    exact Nat.div_lt_of_lt_mul (by rw [Nat.mul_comm]; exact h)

theorem ravel_unravel {s : List Nat} {k : Nat} (h : k < size s) : ravel s (unravel s k) = k := by
  induction s generalizing k with
  | nil => simp [size] at h; simp [ravel, unravel, h]
  | cons n s ih =>
    simp only [size] at h
    have hpos : 0 < size s := by
      rcases Nat.eq_zero_or_pos (size s) with h0 | h0
      · simp [h0] at h
      · exact h0
    simp only [ravel, unravel]
    rw [ih (Nat.mod_lt _ hpos)]
    have := Nat.div_add_mod k (size s)
    rw [Nat.mul_comm] at this; exact this

/-- `axes` lists every axis of an `n`-dimensional array exactly once. -/
def IsPerm (n : Nat) (axes : List Nat) : Prop :=
  axes.length = n ∧ axes.Nodup ∧ ∀ i ∈ axes, i < n

theorem IsPerm.perm_range {n axes} (h : IsPerm n axes) : List.Perm axes (List.range n) := by
  have hsub : List.Subperm axes (List.range n) := by
    apply List.subperm_of_subset h.2.1
    intro i hi; exact List.mem_range.2 (h.2.2 i hi)
  exact hsub.perm_of_length_le (by simp [h.1])

theorem IsPerm.mem {n axes} (h : IsPerm n axes) {j : Nat} (hj : j < n) : j ∈ axes :=
  h.perm_range.mem_iff.2 (List.mem_range.2 hj)

theorem getD_eq {α} {l : List α} {i : Nat} {d : α} (h : i < l.length) : l.getD i d = l[i] := by
  simp [List.getD, h]

theorem IsPerm.getD_idxOf {n axes} (h : IsPerm n axes) {j : Nat} (hj : j < n) :
    axes.getD (axes.idxOf j) 0 = j := by
  have := List.idxOf_lt_length_iff.2 (h.mem hj)
  rw [getD_eq this, List.getElem_idxOf]

theorem IsPerm.idxOf_lt {n axes} (h : IsPerm n axes) {j : Nat} (hj : j < n) : axes.idxOf j < n := by
  have := List.idxOf_lt_length_iff.2 (h.mem hj)
  rw [h.1] at this; exact this

theorem nodup_idxOf_getD {axes : List Nat} (h : axes.Nodup) {k : Nat} (hk : k < axes.length) :
    axes.idxOf (axes.getD k 0) = k := by
  rw [getD_eq hk]; exact h.idxOf_getElem k hk

/-- Reading an index through a permutation and back. -/
theorem invPerm_map {n axes idx} (h : IsPerm n axes) (hl : idx.length = n) :
    invPerm axes (axes.map fun i => idx.getD i 0) = idx := by
  apply List.ext_getElem (by simp [invPerm, h.1, hl])
  intro j h1 h2
  have hj : j < n := by omega
  have hlt := List.idxOf_lt_length_iff.2 (h.mem hj)
  simp only [invPerm, List.getElem_map, List.getElem_range]
  rw [getD_eq (by simpa using hlt), List.getElem_map, List.getElem_idxOf, getD_eq h2]

theorem valid_map {n axes shape idx} (h : IsPerm n axes) (hs : shape.length = n) (hv : Valid shape idx) :
    Valid (axes.map fun i => shape.getD i 0) (axes.map fun i => idx.getD i 0) := by
  rw [valid_iff] at hv ⊢
  refine ⟨by simp, fun j hj => ?_⟩
  have hj' : j < axes.length := by simpa using hj
  rw [getD_eq (by simpa using hj'), getD_eq (by simpa using hj')]
  simp only [List.getElem_map]
  exact hv.2 _ (by rw [hs]; exact h.2.2 _ (List.getElem_mem hj'))

theorem valid_invPerm {n axes shape idx} (h : IsPerm n axes) (hs : shape.length = n)
    (hv : Valid (axes.map fun i => shape.getD i 0) idx) : Valid shape (invPerm axes idx) := by
  rw [valid_iff] at hv ⊢
  refine ⟨by simp [invPerm, h.1, hs], fun j hj => ?_⟩
  have hjn : j < n := by omega
  have hlt := List.idxOf_lt_length_iff.2 (h.mem hjn)
  have := hv.2 (axes.idxOf j) (by simpa using hlt)
  rw [getD_eq (l := axes.map _) (by simpa using hlt), List.getElem_map, List.getElem_idxOf] at this
  rw [getD_eq (by simp [invPerm, h.1]; omega)]
  simpa [invPerm] using this

theorem size_map_perm {n axes shape} (h : IsPerm n axes) (hs : shape.length = n) :
    size (axes.map fun i => shape.getD i 0) = size shape := by
  have size_perm : ∀ {a b : List Nat}, List.Perm a b → size a = size b := by
    intro a b hp
    induction hp with
    | nil => rfl
    | cons x _ ih => simp [size, ih]
    | swap x y l => simp [size, Nat.mul_left_comm]
    | trans _ _ h1 h2 => exact h1.trans h2
  have hp := h.perm_range.map (fun i => shape.getD i 0)
  rw [size_perm hp]
  congr 1
  apply List.ext_getElem (by simp [hs])
  intro j h1 h2
  simp [h2]

theorem npTransposeN_wf {V} [Inhabited V] (axes : List Nat) (a : Arr V) : (npTransposeN axes a).WF := by
  simp [Arr.WF, npTransposeN]

/-- Element `idx` of the array is element `idx ∘ axes` of the transposed array. -/
theorem get_transposeN {V} [Inhabited V] {axes : List Nat} {a : Arr V} {idx : List Nat}
    (h : IsPerm a.shape.length axes) (hv : Valid a.shape idx) :
    (npTransposeN axes a).get (axes.map fun i => idx.getD i 0) = a.get idx := by
  have hv' := valid_map h rfl hv
  have hlt := ravel_lt hv'
  unfold Arr.get npTransposeN
  simp only
  rw [getD_eq (by simpa using hlt)]
  simp only [List.getElem_map, List.getElem_range]
  rw [unravel_ravel hv', invPerm_map h hv.length_eq]
  rfl

theorem arr_ext {V} [Inhabited V] {a b : Arr V} (ha : a.WF) (hb : b.WF) (hs : a.shape = b.shape)
    (h : ∀ idx, Valid a.shape idx → a.get idx = b.get idx) : a = b := by
  cases a with | mk sa da =>
  cases b with | mk sb db =>
  simp only [Arr.WF] at *
  subst hs
  congr
  apply List.ext_getElem (by omega)
  intro k h1 h2
  have hk : k < size sa := by omega
  have := h _ (unravel_valid hk)
  simpa [Arr.get, ravel_unravel hk, h1, h2] using this

/-- Positions of the axes: the inverse permutation. -/
def inverse (axes : List Nat) : List Nat := (List.range axes.length).map axes.idxOf

theorem inverse_isPerm {n axes} (h : IsPerm n axes) : IsPerm n (inverse axes) := by
  refine ⟨by simp [inverse, h.1], ?_, ?_⟩
  · unfold inverse
    rw [h.1]
    refine List.pairwise_map.2 (List.Pairwise.imp_of_mem ?_ List.nodup_range)
    intro a b ha hb hab heq
    apply hab
    have := congrArg (axes.getD · 0) heq
    rwa [h.getD_idxOf (List.mem_range.1 ha), h.getD_idxOf (List.mem_range.1 hb)] at this
  · intro i hi
    simp only [inverse, List.mem_map, List.mem_range] at hi
    obtain ⟨j, hj, rfl⟩ := hi
    exact h.idxOf_lt (by rw [← h.1]; exact hj)

theorem inverse_getD {n axes} (h : IsPerm n axes) {k : Nat} (hk : k < n) :
    (inverse axes).getD (axes.getD k 0) 0 = k := by
  have hk' : k < axes.length := by rw [h.1]; exact hk
  have hlt : axes.getD k 0 < n := by rw [getD_eq hk']; exact h.2.2 _ (List.getElem_mem hk')
  rw [getD_eq (by simp [inverse, h.1]; simpa using hlt)]
  simp only [inverse, List.getElem_map, List.getElem_range]
  exact nodup_idxOf_getD h.2.1 hk'

theorem transposeN_inverse {V} [Inhabited V] {axes : List Nat} {a : Arr V} (ha : a.WF)
    (h : IsPerm a.shape.length axes) : npTransposeN (inverse axes) (npTransposeN axes a) = a := by
  have hi := inverse_isPerm h
  have hshape : (npTransposeN (inverse axes) (npTransposeN axes a)).shape = a.shape := by
    show (inverse axes).map (fun i => (axes.map fun i => a.shape.getD i 0).getD i 0) = a.shape
    apply List.ext_getElem (by simp [inverse, h.1])
    intro j h1 h2
    have hlt := List.idxOf_lt_length_iff.2 (h.mem h2)
    simp only [inverse, List.getElem_map, List.getElem_range]
    rw [getD_eq (by simpa using hlt), List.getElem_map, List.getElem_idxOf, getD_eq h2]
  refine arr_ext (npTransposeN_wf _ _) ha hshape ?_
  intro idx hv
  rw [hshape] at hv
  have hv1 := valid_map h rfl hv
  have hsl : (npTransposeN axes a).shape.length = a.shape.length := by simp [npTransposeN, h.1]
  have h2 := get_transposeN (axes := inverse axes) (a := npTransposeN axes a) (by rw [hsl]; exact hi) hv1
  rw [get_transposeN h hv] at h2
  rw [← h2]
  congr 1
  apply List.ext_getElem (by simp [inverse, h.1, hv.length_eq])
  intro j h1 h3
  have hj : j < a.shape.length := by rw [← hv.length_eq]; exact h1
  have hlt := List.idxOf_lt_length_iff.2 (h.mem hj)
  simp only [inverse, List.getElem_map, List.getElem_range]
  rw [getD_eq (by simpa using hlt), List.getElem_map, List.getElem_idxOf, getD_eq h1]

/-! ### argsort -/

theorem argsort_spec (axes : List Int) (τ : List Nat) (hperm : List.Perm τ (List.range axes.length))
    (hnodup : axes.Nodup)
    (hsorted : τ.Pairwise fun i j => axes.getD i 0 ≤ axes.getD j 0) :
    argsort axes = τ.map Int.ofNat := by
  unfold argsort
  congr 1
  have hp := List.mergeSort_perm (List.range axes.length) (fun i j => decide (axes.getD i 0 ≤ axes.getD j 0))
  refine List.Perm.eq_of_pairwise (le := fun i j => axes.getD i 0 ≤ axes.getD j 0) ?_ ?_ hsorted
    (hp.trans hperm.symm)
  · intro i j hi hj h1 h2
    have hi' := List.mem_range.1 (hp.mem_iff.1 hi)
    have hj' := List.mem_range.1 (hperm.mem_iff.1 hj)
    have heq : axes.getD i 0 = axes.getD j 0 := by omega
    rw [getD_eq hi', getD_eq hj'] at heq
    exact (List.Nodup.getElem_inj_iff hnodup).1 heq
  · have := List.pairwise_mergeSort (le := fun i j => decide (axes.getD i 0 ≤ axes.getD j 0))
      (by intro a b c; simp only [decide_eq_true_eq]; omega)
      (by intro a b; simp only [Bool.or_eq_true, decide_eq_true_eq]; omega) (List.range axes.length)
    simpa using this

/-- `argsort` of axes in a given sign-uniform numbering is the inverse permutation. -/
theorem argsort_eq_inverse {n : Nat} {axes : List Nat} (h : IsPerm n axes) (c : Int) :
    argsort (axes.map fun (i : Nat) => (i : Int) + c) = (inverse axes).map Int.ofNat := by
  apply argsort_spec
  · rw [List.length_map, h.1]; exact (inverse_isPerm h).perm_range
  · refine List.pairwise_map.2 (h.2.1.imp ?_)
    intro a b hab; omega
  · unfold inverse
    refine List.pairwise_map.2 ?_
    rw [h.1]
    refine List.Pairwise.imp_of_mem ?_ List.pairwise_lt_range
    intro a b ha hb hab
    have ha' := List.mem_range.1 ha
    have hb' := List.mem_range.1 hb
    have h1 := List.idxOf_lt_length_iff.2 (h.mem ha')
    have h2 := List.idxOf_lt_length_iff.2 (h.mem hb')
    rw [getD_eq (by simpa using h1), getD_eq (by simpa using h2)]
    simp only [List.getElem_map, List.getElem_idxOf]
    omega

end Verif.VirtualPorts
