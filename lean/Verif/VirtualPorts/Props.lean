import Verif.VirtualPorts.Lemmas

/-!
# Virtual ports: C19, C20, C21

Specification: the only NumPy facts used are about `reshape` (same elements in C order) and `transpose`
(element `idx` moves to the index whose component `k` is `idx[axes[k]]`).
-/

namespace Verif.VirtualPorts

variable {V : Type} [Inhabited V]

/-! ## C20: transpose -/

/-- Specification: `axes`, negative ones counted from the end, name every axis exactly once. -/
def NamesEachAxisOnce (n : Nat) (axes : List Int) : Prop :=
  axes.length = n ∧ ∀ j < n, (axes.filter fun i => i = (j : Int) ∨ i = (j : Int) - n).length = 1

/-- All axes are given from the front, or all from the end. -/
def UniformSign (axes : List Int) : Prop := (∀ i ∈ axes, 0 ≤ i) ∨ (∀ i ∈ axes, i < 0)

theorem mem_transpose_some {shape : List Nat} {axes : List Int} {vp : VP}
    (h : transpose shape (some axes) = some vp) :
    axes.length = shape.length ∧
    (∀ i ∈ axes, 0 ≤ normAxis shape.length i ∧ normAxis shape.length i < shape.length) ∧
    vp = .transpose (axes.map (pyIndex shape)) axes := by
  unfold transpose at h
  simp only at h
  split at h
  · cases h
  · split at h
    · cases h
    · rename_i h1 h2
      cases h
      refine ⟨by omega, fun i hi => ?_, rfl⟩
      have : ¬ (normAxis shape.length i < 0 ∨ normAxis shape.length i ≥ shape.length) :=
        fun hc => h2 ⟨i, hi, hc⟩
      omega

/-- **C20 (acceptance, what the code does).** `transpose(axes)` is accepted exactly when there are as many
axes as dimensions and each lies in `[-n, n)`: repeated axes are accepted too. -/
theorem C20_accepts_iff_partial (shape : List Nat) (axes : List Int) :
    (transpose shape (some axes)).isSome ↔
      axes.length = shape.length ∧ ∀ i ∈ axes, -(shape.length : Int) ≤ i ∧ i < shape.length := by
  constructor
  · intro h
    obtain ⟨vp, hvp⟩ := Option.isSome_iff_exists.1 h
    have := mem_transpose_some hvp
    refine ⟨this.1, fun i hi => ?_⟩
    have := this.2.1 i hi
    unfold normAxis at this
    split at this <;> omega
  · rintro ⟨h1, h2⟩
    unfold transpose
    simp only
    rw [if_neg (by omega), if_neg]
    · rfl
    · rintro ⟨i, hi, hc⟩
      have := h2 i hi
      unfold normAxis at hc
      split at hc <;> omega

/-- **C20 (one direction of the acceptance claim).** Every list that names each axis exactly once is
accepted. -/
theorem C20_accepts_permutations_partial (shape : List Nat) (axes : List Int)
    (h : NamesEachAxisOnce shape.length axes) : (transpose shape (some axes)).isSome := by
  rw [C20_accepts_iff_partial]
  refine ⟨h.1, fun i hi => ?_⟩
  -- count: the n filters are disjoint and of length one, so they exhaust the list
  by_cases hb : -(shape.length : Int) ≤ i ∧ i < shape.length
  · exact hb
  · exfalso
    have key : ∀ (m : Nat), m ≤ shape.length → ∀ (l : List Int),
        (∀ j < m, (l.filter fun i => i = (j : Int) ∨ i = (j : Int) - shape.length).length = 1) →
        (∃ i ∈ l, ¬ (-(shape.length : Int) ≤ i ∧ i < shape.length)) → m + 1 ≤ l.length := by
      intro m
      induction m with
      | zero =>
        intro _ l _ ⟨i, hi, _⟩
        exact List.length_pos_of_mem hi
      | succ m ih =>
        intro hm l hl ⟨i, hi, hib⟩
        let l' := l.filter fun i => ¬ (i = (m : Int) ∨ i = (m : Int) - shape.length)
        have hlen : l.length = (l.filter fun i => i = (m : Int) ∨ i = (m : Int) - shape.length).length
            + l'.length := by
          have : ∀ (p : Int → Bool) (l : List Int),
              l.length = (l.filter p).length + (l.filter fun x => !p x).length := by
            intro p l
            induction l with
            | nil => rfl
            | cons a l ih => by_cases hp : p a <;> simp [hp] <;> omega
          have h3 := this (fun i => decide (i = (m : Int) ∨ i = (m : Int) - shape.length)) l
          simpa [l'] using h3
        have h1 := hl m (by omega)
        have h2 := ih (by omega) l' (by
          intro j hj
          have := hl j (by omega)
          rw [← this]
          congr 1
          simp only [l', List.filter_filter]
          apply List.filter_congr
          intro x _
          simp only [← Bool.decide_and, decide_eq_decide]
          omega) ⟨i, by
            simp only [l', List.mem_filter, decide_eq_true_eq]
            exact ⟨hi, by omega⟩, hib⟩
        omega
    have := key shape.length (Nat.le_refl _) axes h.2 ⟨i, hi, hb⟩
    have := h.1
    omega

/-- **C20 (finding).** `transpose((0, 0))` of a (2, 3) port is accepted, although it does not name axis 1 and
NumPy refuses to apply it to any 2-d array. -/
theorem C20_duplicate_accepted :
    (transpose [2, 3] (some [0, 0])).isSome ∧ ¬ NamesEachAxisOnce 2 [0, 0] ∧
    npTranspose [0, 0] ({ shape := [2, 3], data := [1, 2, 3, 4, 5, 6] } : Arr Int) = none := by
  refine ⟨by decide, ?_, by decide⟩
  intro h
  have := h.2 1 (by omega)
  revert this
  decide

/-- Normalised axes that are in range and distinct form a permutation. -/
theorem isPerm_norm {n : Nat} {axes : List Int} (hl : axes.length = n)
    (hb : ∀ i ∈ axes, 0 ≤ normAxis n i ∧ normAxis n i < n) (hd : (axes.map (normAxis n)).Nodup) :
    IsPerm n ((axes.map (normAxis n)).map Int.toNat) := by
  refine ⟨by simp [hl], ?_, ?_⟩
  · refine List.pairwise_map.2 (List.Pairwise.imp_of_mem ?_ hd)
    intro a b ha hb' hab
    obtain ⟨x, hx, rfl⟩ := List.mem_map.1 ha
    obtain ⟨y, hy, rfl⟩ := List.mem_map.1 hb'
    have := hb x hx; have := hb y hy
    omega
  · intro i hi
    simp only [List.map_map, List.mem_map, Function.comp] at hi
    obtain ⟨x, hx, rfl⟩ := hi
    have := hb x hx
    omega

/-- **C20 (forward transform).** For distinct axes the forward function of an accepted transpose port is
defined on every array of the source's shape, gives the port's shape, and moves element `idx` to the index
whose component `k` is `idx[axes[k]]`. -/
theorem C20_forward (a : Arr V) (axes : List Int) (vp : VP)
    (hvp : transpose a.shape (some axes) = some vp)
    (hd : (axes.map (normAxis a.shape.length)).Nodup) :
    ∃ b, vp.fwd a = some b ∧ b.WF ∧ b.shape = vp.shape ∧
      ∀ idx, Valid a.shape idx →
        b.get (axes.map fun i => idx.getD (normAxis a.shape.length i).toNat 0) = a.get idx := by
  obtain ⟨hl, hb, rfl⟩ := mem_transpose_some hvp
  have hp := isPerm_norm hl hb hd
  refine ⟨npTransposeN ((axes.map (normAxis a.shape.length)).map Int.toNat) a, ?_, npTransposeN_wf _ _, ?_, ?_⟩
  · simp only [VP.fwd, npTranspose]
    rw [if_pos]
    refine ⟨hl, ?_, hd⟩
    intro i hi
    obtain ⟨x, hx, rfl⟩ := List.mem_map.1 hi
    exact hb x hx
  · simp [npTransposeN, VP.shape, pyIndex, List.map_map, Function.comp_def]
  · intro idx hv
    have := get_transposeN hp hv
    simpa [List.map_map, Function.comp_def] using this

/-- Main lemma: the backward function of a transpose port undoes the forward one. -/
theorem transpose_inv {a : Arr V} {axes : List Int} (ha : a.WF)
    (hl : axes.length = a.shape.length)
    (hb : ∀ i ∈ axes, 0 ≤ normAxis a.shape.length i ∧ normAxis a.shape.length i < a.shape.length)
    (hd : (axes.map (normAxis a.shape.length)).Nodup) (hu : UniformSign axes) :
    npTranspose (argsort axes) (npTransposeN ((axes.map (normAxis a.shape.length)).map Int.toNat) a) = some a := by
  have hp := isPerm_norm hl hb hd
  let ax := (axes.map (normAxis a.shape.length)).map Int.toNat
  have hax : ∃ c : Int, axes = ax.map fun (i : Nat) => (i : Int) + c := by
    rcases hu with hu | hu
    · refine ⟨0, ?_⟩
      simp only [ax, List.map_map]
      conv => lhs; rw [← List.map_id axes]
      apply List.map_congr_left
      intro i hi
      have := hb i hi
      have := hu i hi
      simp only [Function.comp, id, normAxis] at *
      split <;> omega
    · refine ⟨-(a.shape.length : Int), ?_⟩
      simp only [ax, List.map_map]
      conv => lhs; rw [← List.map_id axes]
      apply List.map_congr_left
      intro i hi
      have := hb i hi
      have := hu i hi
      simp only [Function.comp, id, normAxis] at *
      split <;> rename_i hc <;> simp [hc] at * <;> omega
  obtain ⟨c, hc⟩ := hax
  have hs : argsort axes = (inverse ax).map Int.ofNat := by
    rw [hc]; exact argsort_eq_inverse hp c
  have hi := inverse_isPerm hp
  unfold npTranspose
  have hsl : (npTransposeN ax a).shape.length = a.shape.length := by simp [npTransposeN, ax, hl]
  have hnorm : (argsort axes).map (normAxis a.shape.length) = (inverse ax).map Int.ofNat := by
    rw [hs, List.map_map]
    apply List.map_congr_left
    intro i _
    simp [normAxis]
    omega
  show (if _ then _ else _) = _
  rw [hsl, if_pos]
  · rw [hnorm, List.map_map]
    have : (inverse ax).map (Int.toNat ∘ Int.ofNat) = inverse ax := by
      conv => rhs; rw [← List.map_id (inverse ax)]
      apply List.map_congr_left; intro i _; rfl
    rw [this]
    exact congrArg some (transposeN_inverse ha hp)
  · refine ⟨by rw [hs, List.length_map]; exact hi.1, ?_, ?_⟩
    · rw [hnorm]
      intro i h
      obtain ⟨x, hx, rfl⟩ := List.mem_map.1 h
      have := hi.2.2 x hx
      simp; exact this
    · rw [hnorm]
      refine List.pairwise_map.2 (hi.2.1.imp ?_)
      intro x y hxy h; exact hxy (Int.ofNat.inj h)

/-- **C20 (backward transform).** If the axes are distinct and all given from the front (or all from the
end), the backward function of the port undoes the forward function exactly, for every array. -/
theorem C20_backward_inverts_partial (a b : Arr V) (axes : List Int) (vp : VP) (ha : a.WF)
    (hvp : transpose a.shape (some axes) = some vp)
    (hd : (axes.map (normAxis a.shape.length)).Nodup) (hu : UniformSign axes)
    (hb : vp.fwd a = some b) : vp.bwd b = some a := by
  obtain ⟨hl, hbnd, rfl⟩ := mem_transpose_some hvp
  simp only [VP.fwd, npTranspose] at hb
  split at hb
  · cases hb
    exact transpose_inv ha hl hbnd hd hu
  · cases hb

/-- `transpose()` without axes reverses the axes and is inverted by its backward function. -/
theorem C20_default_inverts (a : Arr V) (ha : a.WF) :
    ∃ vp b, transpose a.shape none = some vp ∧ vp.fwd a = some b ∧ b.shape = a.shape.reverse ∧
      vp.bwd b = some a := by
  let ax : List Int := (List.range a.shape.length).reverse.map Int.ofNat
  have hnorm : ax.map (normAxis a.shape.length) = ax := by
    simp only [ax, List.map_map]
    apply List.map_congr_left
    intro i _; simp [normAxis]; omega
  have hl : ax.length = a.shape.length := by simp [ax]
  have hb : ∀ i ∈ ax, 0 ≤ normAxis a.shape.length i ∧ normAxis a.shape.length i < a.shape.length := by
    intro i hi
    simp only [ax, List.mem_map, List.mem_reverse, List.mem_range] at hi
    obtain ⟨x, hx, rfl⟩ := hi
    simp [normAxis]; omega
  have hd : (ax.map (normAxis a.shape.length)).Nodup := by
    rw [hnorm]
    refine List.pairwise_map.2 ?_
    refine List.Pairwise.imp ?_ (List.pairwise_reverse.2 (List.nodup_range.imp fun h => Ne.symm h))
    intro x y h h2; exact h (Int.ofNat.inj h2)
  have hu : UniformSign ax := by
    left; intro i hi
    simp only [ax, List.mem_map] at hi
    obtain ⟨x, _, rfl⟩ := hi
    simp
  refine ⟨_, npTransposeN ((ax.map (normAxis a.shape.length)).map Int.toNat) a, rfl, ?_, ?_, ?_⟩
  · show npTranspose ax a = _
    unfold npTranspose
    simp only
    rw [if_pos]
    refine ⟨hl, ?_, hd⟩
    intro i hi
    obtain ⟨x, hx, rfl⟩ := List.mem_map.1 hi
    exact hb x hx
  · rw [hnorm]
    simp only [npTransposeN, ax, List.map_map]
    apply List.ext_getElem (by simp)
    intro j h1 h2
    simp at h1
    simp
    rw [List.getElem?_eq_getElem (by omega)]
    rfl
  · exact transpose_inv ha hl hb hd hu

/-- **C20 (finding).** Mixing axes from the front and from the end breaks the inverse:
`transpose((-1, 0, 1))` of a (2, 3, 4) port accepts, but data sent back has shape (3, 4, 2). -/
theorem C20_mixed_sign_not_inverted (d : List Int) (h : d.length = 24) :
    ∃ vp b c, transpose [2, 3, 4] (some [-1, 0, 1]) = some vp ∧ NamesEachAxisOnce 3 [-1, 0, 1] ∧
      vp.fwd ({ shape := [2, 3, 4], data := d } : Arr Int) = some b ∧ vp.bwd b = some c ∧
      c.shape ≠ [2, 3, 4] := by
  have hs : argsort [-1, 0, 1] = [0, 1, 2] := by
    have := argsort_spec [-1, 0, 1] [0, 1, 2] (List.isPerm_iff.mp (by decide)) (by decide) (by decide)
    simpa using this
  have h1 : npTranspose [-1, 0, 1] ({ shape := [2, 3, 4], data := d } : Arr Int)
      = some (npTransposeN [2, 0, 1] { shape := [2, 3, 4], data := d }) := by
    unfold npTranspose
    simp only
    rw [if_pos (by decide)]
    rfl
  have h2 : npTranspose [0, 1, 2] (npTransposeN [2, 0, 1] ({ shape := [2, 3, 4], data := d } : Arr Int))
      = some (npTransposeN [0, 1, 2] (npTransposeN [2, 0, 1] { shape := [2, 3, 4], data := d })) := by
    unfold npTranspose
    have : (npTransposeN [2, 0, 1] ({ shape := [2, 3, 4], data := d } : Arr Int)).shape.length = 3 := rfl
    simp only [this]
    rw [if_pos (by decide)]
    rfl
  refine ⟨.transpose [4, 2, 3] [-1, 0, 1], npTransposeN [2, 0, 1] { shape := [2, 3, 4], data := d },
    npTransposeN [0, 1, 2] (npTransposeN [2, 0, 1] { shape := [2, 3, 4], data := d }),
    by decide, ⟨by decide, by decide⟩, by unfold VP.fwd; exact h1, ?_, by simp [npTransposeN]⟩
  · show npTranspose (argsort [-1, 0, 1]) _ = _
    rw [hs]; exact h2

/-- The hypotheses of the C20 theorems are met by a 3-d port and `(2, 0, 1)`, and by `(-1, -3, -2)`. -/
example : (transpose [2, 3, 4] (some [2, 0, 1])).isSome ∧ UniformSign [2, 0, 1] ∧
    ([2, 0, 1].map (normAxis 3)).Nodup ∧ NamesEachAxisOnce 3 [2, 0, 1] ∧
    UniformSign [-1, -3, -2] ∧ NamesEachAxisOnce 3 [-1, -3, -2] :=
  ⟨by decide, .inl (by decide), by decide, ⟨by decide, by decide⟩, .inr (by decide), ⟨by decide, by decide⟩⟩

/-! ## C19: chains of virtual ports -/

/-- Specification of one call applied to data: what array `b` the data `a` becomes. -/
def CallSpec (a : Arr V) (c : Call) (b : Arr V) : Prop :=
  match c with
  | .reshape s => b.shape = s ∧ b.data = a.data
  | .flatten => b.shape = [a.data.length] ∧ b.data = a.data
  | .transpose none => b.shape = a.shape.reverse ∧ b.WF ∧
      ∀ idx, Valid a.shape idx → b.get idx.reverse = a.get idx
  | .transpose (some ax) => b.shape = ax.map (pyIndex a.shape) ∧ b.WF ∧
      ∀ idx, Valid a.shape idx →
        b.get (ax.map fun i => idx.getD (normAxis a.shape.length i).toNat 0) = a.get idx

/-- Specification of a chain: every call is applied, first call first. -/
inductive Through : Arr V → List Call → Arr V → Prop where
  | nil (a) : Through a [] a
  | cons {a b c call calls} : CallSpec a call b → Through b calls c → Through a (call :: calls) c

/-- A call covered by the theorem: a transpose has distinct axes of one sign. -/
def GoodCall (shape : List Nat) : Call → Prop
  | .transpose (some ax) => (ax.map (normAxis shape.length)).Nodup ∧ UniformSign ax
  | _ => True

/-- Calls covered by the theorem: transposes have distinct axes of one sign. -/
def GoodCalls : List Nat → List Call → Prop
  | _, [] => True
  | shape, c :: cs =>
    GoodCall shape c ∧
    ∀ vp, c.derive shape = some vp → GoodCalls vp.shape cs

omit [Inhabited V] in
theorem runFuncs_nil (a : Arr V) : runFuncs [] a = some a := rfl

omit [Inhabited V] in
theorem runFuncs_foldl (fs : List (Arr V → Option (Arr V))) (f : Arr V → Option (Arr V)) (a : Arr V) :
    fs.foldl (fun f g => fun data => (f data).bind g) f a = (f a).bind fun b => runFuncs fs b := by
  induction fs generalizing f a with
  | nil => simp [runFuncs]
  | cons g gs ih =>
    simp only [List.foldl_cons, runFuncs]
    rw [ih]
    cases h : f a with
    | none => simp
    | some b => simp only [Option.bind_some]; rw [ih]

omit [Inhabited V] in
theorem runFuncs_cons (f : Arr V → Option (Arr V)) (fs) (a : Arr V) :
    runFuncs (f :: fs) a = (f a).bind fun b => runFuncs fs b := by
  conv => lhs; unfold runFuncs
  simp only [List.foldl_cons]
  rw [runFuncs_foldl]
  rfl

omit [Inhabited V] in
theorem runFuncs_append (fs gs : List (Arr V → Option (Arr V))) (a : Arr V) :
    runFuncs (fs ++ gs) a = (runFuncs fs a).bind fun b => runFuncs gs b := by
  induction fs generalizing a with
  | nil => simp [runFuncs_nil]
  | cons f fs ih =>
    simp only [List.cons_append, runFuncs_cons]
    cases f a <;> simp [ih]

/-- One derived port: forward meets the specification of the call, backward undoes it. -/
theorem derive_ok {a : Arr V} (ha : a.WF) {c : Call} {vp : VP} (h : c.derive a.shape = some vp)
    (hg : GoodCall a.shape c) :
    ∃ b, vp.fwd a = some b ∧ b.WF ∧ b.shape = vp.shape ∧ CallSpec a c b ∧ vp.bwd b = some a := by
  have hreshape : ∀ s, VirtualPorts.reshape a.shape s = some vp →
      ∃ b, vp.fwd a = some b ∧ b.WF ∧ b.shape = vp.shape ∧ (b.shape = s ∧ b.data = a.data) ∧
        vp.bwd b = some a := by
    intro s h
    unfold VirtualPorts.reshape at h
    split at h
    · cases h
    · cases h
      rename_i hs
      have hs' : size a.shape = size s := by omega
      refine ⟨{ shape := s, data := a.data }, ?_, ?_, rfl, ⟨rfl, rfl⟩, ?_⟩
      · simp only [VP.fwd, npReshape]
        rw [if_pos]
        rw [ha, hs']
      · simpa [Arr.WF, hs'] using (show a.data.length = _ from ha)
      · simp only [VP.bwd, npReshape]
        rw [if_pos]
        exact ha
  cases c with
  | reshape s => exact hreshape s h
  | flatten =>
    obtain ⟨b, h1, h2, h3, h4, h5⟩ := hreshape [size a.shape] h
    refine ⟨b, h1, h2, h3, ⟨?_, h4.2⟩, h5⟩
    rw [h4.1, ha]
  | transpose ax =>
    cases ax with
    | none =>
      obtain ⟨vp', b, h1, h2, h3, h4⟩ := C20_default_inverts a ha
      have : vp' = vp := by
        have h' : VirtualPorts.transpose a.shape none = some vp := h
        rw [h1] at h'; exact Option.some.inj h'
      subst this
      have hvp : vp' = .transpose (((List.range a.shape.length).reverse.map Int.ofNat).map (pyIndex a.shape))
          ((List.range a.shape.length).reverse.map Int.ofNat) := by
        unfold VirtualPorts.transpose at h1
        simp only at h1
        exact (Option.some.inj h1).symm
      -- read the element-wise statement off the explicit-axes theorem
      let ax : List Int := (List.range a.shape.length).reverse.map Int.ofNat
      have hdist : (ax.map (normAxis a.shape.length)).Nodup := by
        have : ax.map (normAxis a.shape.length) = ax := by
          simp only [ax, List.map_map]
          apply List.map_congr_left
          intro i _; simp [normAxis]; omega
        rw [this]
        refine List.pairwise_map.2 ?_
        refine List.Pairwise.imp ?_ (List.pairwise_reverse.2 (List.nodup_range.imp fun h => Ne.symm h))
        intro x y h h2; exact h (Int.ofNat.inj h2)
      have hacc : VirtualPorts.transpose a.shape (some ax) = some vp' := by
        unfold VirtualPorts.transpose
        simp only
        rw [if_neg (by simp [ax]), if_neg, hvp]
        rintro ⟨i, hi, hc⟩
        simp only [ax, List.mem_map, List.mem_reverse, List.mem_range] at hi
        obtain ⟨x, hx, rfl⟩ := hi
        simp [normAxis] at hc; omega
      obtain ⟨b', hb1, hb2, hb3, hb4⟩ := C20_forward a ax vp' hacc hdist
      rw [h2] at hb1
      cases hb1
      refine ⟨b, h2, hb2, hb3, ⟨h3, hb2, ?_⟩, h4⟩
      intro idx hv
      have := hb4 idx hv
      rw [← this]
      congr 1
      simp only [ax, List.map_map]
      have hlen := hv.length_eq
      apply List.ext_getElem (by simp [hlen])
      intro j h1' h2'
      simp at h1' h2'
      simp [normAxis]
      split
      · omega
      · rw [List.getElem?_eq_getElem (by omega)]
        simp [hlen]
    | some ax =>
      have hd := hg
      obtain ⟨b, h1, h2, h3, h4⟩ := C20_forward a ax vp h hd.1
      obtain ⟨_, _, hvp⟩ := mem_transpose_some h
      refine ⟨b, h1, h2, h3, ⟨?_, h2, h4⟩, C20_backward_inverts_partial a b ax vp ha h hd.1 hd.2 h1⟩
      rw [h3, hvp]; rfl

/-- Chain of derived ports: the forward functions in order, and the backward functions in reverse order. -/
theorem chain_ok {a : Arr V} (ha : a.WF) {calls : List Call} {vps : List VP}
    (h : deriveChain a.shape calls = some vps) (hg : GoodCalls a.shape calls) :
    ∃ b, runFuncs (vps.map VP.fwd) a = some b ∧ b.WF ∧ Through a calls b ∧
      runFuncs (vps.reverse.map VP.bwd) b = some a := by
  induction calls generalizing a vps with
  | nil =>
    simp only [deriveChain, Option.some.injEq] at h
    subst h
    exact ⟨a, rfl, ha, .nil a, rfl⟩
  | cons c cs ih =>
    simp only [deriveChain] at h
    cases hd : c.derive a.shape with
    | none => simp [hd] at h
    | some vp =>
      rw [hd] at h
      simp only [Option.map_eq_some_iff] at h
      obtain ⟨ws, hws, rfl⟩ := h
      obtain ⟨b, h1, h2, h3, h4, h5⟩ := derive_ok ha hd hg.1
      obtain ⟨e, e1, e2, e3, e4⟩ := ih h2 (by rw [h3]; exact hws) (by rw [h3]; exact hg.2 vp hd)
      refine ⟨e, ?_, e2, .cons h4 e3, ?_⟩
      · rw [List.map_cons, runFuncs_cons, h1]; exact e1
      · rw [List.reverse_cons, List.map_append, runFuncs_append, e4]
        simp [runFuncs_cons, h5, runFuncs_nil]

/-- Collecting along one connection: the id of the leaf and the virtual ports from the leaf onwards. -/
theorem collect_chain (id : String) (steps : List (Option VP)) :
    collect (chainTree id steps) = some (some id, steps.filterMap fun x => x) := by
  have : ∀ (steps : List (Option VP)) (t : Tree) (vs : List VP), collect t = some (some id, vs) →
      collect (steps.foldl chainStep t)
        = some (some id, vs ++ steps.filterMap fun x => x) := by
    intro steps
    induction steps with
    | nil => intro t vs h; simpa using h
    | cons s ss ih =>
      intro t vs h
      cases s with
      | none =>
        simp only [List.foldl_cons]
        rw [ih (chainStep t none) vs (by simp [chainStep, collect, collectAll, h])]
        simp
      | some vp =>
        simp only [List.foldl_cons]
        rw [ih (chainStep t (some vp)) (vs ++ [vp]) (by simp [chainStep, collect, collectAll, h])]
        simp
  simpa [chainTree, collect] using this steps (.leaf id) [] (by simp [collect])

/-- **C19.** A source port, a chain of reshape/flatten/transpose calls and any number of hierarchical ports in
between (`steps`, listed from source to destination): the destination transforms what it receives by all
calls in order, and the source transforms what it reads back by the exact inverse, so the data come back
unchanged. `ins` is the destination's only incoming connection, `outs` the source's only outgoing one. -/
theorem C19_read_after_write_partial (a : Arr V) (ha : a.WF) (calls : List Call) (vps : List VP)
    (steps : List (Option VP)) (srcId dstId : String)
    (hderive : deriveChain a.shape calls = some vps) (hsteps : steps.filterMap (fun x => x) = vps)
    (hgood : GoodCalls a.shape calls) :
    ∃ mi mo b, incomingFuncs [chainTree srcId steps] = some mi ∧
      outgoingFuncs [chainTree dstId steps.reverse] = some mo ∧
      transformOf mi srcId VP.fwd a = some b ∧ Through a calls b ∧
      transformOf mo dstId VP.bwd b = some a := by
  obtain ⟨b, h1, h2, h3, h4⟩ := chain_ok ha hderive hgood
  have hrev : steps.reverse.filterMap (fun x => x) = vps.reverse := by
    rw [← hsteps, List.filterMap_reverse]
  have hmi : incomingFuncs [chainTree srcId steps]
      = some (if vps.isEmpty then [] else [(some srcId, vps)]) := by
    simp [incomingFuncs, collect_chain, hsteps]
    split <;> simp_all
  have hmo : outgoingFuncs [chainTree dstId steps.reverse] = some [(some dstId, vps.reverse)] := by
    simp [outgoingFuncs, collect_chain, hrev]
  refine ⟨_, _, b, hmi, hmo, ?_, h3, ?_⟩
  · cases vps with
    | nil => simpa [transformOf, runFuncs] using h1
    | cons v vs => simpa [transformOf] using h1
  · simpa [transformOf] using h4

/-- The hypotheses are met by `port(2,3,4).transpose((2,0,1)).reshape((4,6)).flatten()` with a hierarchical
port in the middle. -/
example : ∃ vps, deriveChain [2, 3, 4] [.transpose (some [2, 0, 1]), .reshape [4, 6], .flatten] = some vps ∧
    vps.length = 3 ∧ GoodCalls [2, 3, 4] [.transpose (some [2, 0, 1]), .reshape [4, 6], .flatten] := by
  refine ⟨_, rfl, rfl, ⟨by decide, .inl (by decide)⟩, ?_⟩
  intro vp _
  refine ⟨trivial, ?_⟩
  intro vp _
  exact ⟨trivial, fun _ _ => trivial⟩

/-- **C19 (finding).** Two sources that meet at a hierarchical port, the first through a reshape: their
virtual ports are attributed to the last source only, so the first source's data are not reshaped and the
second one's are. -/
theorem C19_fan_in_mixes :
    incomingFuncs [.real [.virt (.reshape [6] [2, 3]) [.leaf "a"], .leaf "b"]]
      = some [(some "b", [.reshape [6] [2, 3]])] := by
  simp [incomingFuncs, collect, collectAll]

/-- **C19 (finding).** One source connected to one destination twice, through different virtual ports: the
entry of the first connection is lost. -/
theorem C19_double_connection_overwrites :
    incomingFuncs [.virt (.transpose [3, 3] [1, 0]) [.leaf "a"], .virt (.reshape [3, 3] [3, 3]) [.leaf "a"]]
      = some [(some "a", [.reshape [3, 3] [3, 3]])] := by
  simp [incomingFuncs, collect, collectAll]

/-- **C19.** A connection through a ConcatPort is always refused (NotImplementedError), never silently
mis-transformed. -/
theorem C19_concat_refused (next : List Tree) (steps : List (Option VP)) (t : Tree)
    (ht : t = steps.foldl chainStep (.concat next)) :
    incomingFuncs [t] = none := by
  have : ∀ (steps : List (Option VP)) (t : Tree), collect t = none →
      collect (steps.foldl chainStep t) = none := by
    intro steps
    induction steps with
    | nil => intro t h; exact h
    | cons s ss ih =>
      intro t h
      cases s with
      | none => exact ih _ (by simp [chainStep, collect, collectAll, h])
      | some vp => exact ih _ (by simp [chainStep, collect, collectAll, h])
  have h0 : collect (.concat next) = none := by
    rw [collect]
    cases collectAll next <;> rfl
  have := this steps _ h0
  rw [← ht] at this
  simp [incomingFuncs, this]

/-! ## C21: concatenation -/

/-- Specification: shape without its `k`-th axis. -/
def dropAxis (shape : List Nat) (k : Nat) : List Nat := shape.eraseIdx k

/-- **C21.** Two ports and a non-negative axis: `concat_with` succeeds exactly if both have that axis and agree
on all others; the new shape has the sum along the axis. -/
theorem C21_two_ports_partial (s t : List Nat) (k : Nat) (r : List Nat) :
    concatShape [s, t] (k : Int) = .ok r ↔
      k < s.length ∧ k < t.length ∧ dropAxis s k = dropAxis t k ∧
      r = (dropAxis s k).take k ++ [s.getD k 0 + t.getD k 0] ++ (dropAxis s k).drop k := by
  have hslice : ∀ l : List Nat, sliceTo l k ++ sliceFrom l ((k : Int) + 1) = dropAxis l k := by
    intro l
    unfold sliceTo sliceFrom dropAxis
    rw [if_neg (by omega), if_neg (by omega), List.eraseIdx_eq_take_drop_succ]
    congr
  have hpy : ∀ l : List Nat, pyIndex l (k : Int) = l.getD k 0 := by
    intro l; simp [pyIndex, normAxis]; rw [if_neg (by omega)]; simp
  unfold concatShape
  by_cases h1 : k < s.length
  · by_cases h2 : k < t.length
    · simp only [concatLoop, hslice, hpy]
      rw [if_neg (by omega), if_neg (by omega)]
      simp only [concatFlag, List.getLast?_nil, List.nil_append, List.getLast?_singleton, Nat.zero_add]
      by_cases h3 : dropAxis s k = dropAxis t k
      · simp only [h3, ne_eq, not_true_eq_false, decide_false, Bool.false_eq_true, if_false,
          ConcatRes.ok.injEq, h1, h2, true_and]
        simp only [sliceTo, sliceFrom]
        rw [if_neg (by omega)]
        simp [h3]
        exact eq_comm
      · simp [h3]
    · have : concatLoop (k : Int) 0 [] false [s, t] = none := by
        simp only [concatLoop]
        rw [if_neg (by omega), if_pos (by omega)]
      rw [this]
      simp [h2]
  · have : concatLoop (k : Int) 0 [] false [s, t] = none := by
      simp only [concatLoop]
      rw [if_pos (by omega)]
    rw [this]
    simp [h1]

/-- **C21.** Any number of ports, non-negative axis: compatible shapes are always accepted and the new shape is
the common one with the sum along the axis. -/
theorem C21_compatible_accepted (s : List Nat) (rest : List (List Nat)) (k : Nat)
    (hk : ∀ t ∈ s :: rest, k < t.length) (hd : ∀ t ∈ rest, dropAxis t k = dropAxis s k) :
    concatShape (s :: rest) (k : Int) = .ok ((dropAxis s k).take k ++
      [((s :: rest).map fun t => t.getD k 0).sum] ++ (dropAxis s k).drop k) := by
  have hslice : ∀ l : List Nat, sliceTo l k ++ sliceFrom l ((k : Int) + 1) = dropAxis l k := by
    intro l
    unfold sliceTo sliceFrom dropAxis
    rw [if_neg (by omega), if_neg (by omega), List.eraseIdx_eq_take_drop_succ]
    congr
  have hpy : ∀ l : List Nat, pyIndex l (k : Int) = l.getD k 0 := by
    intro l; simp [pyIndex, normAxis]; rw [if_neg (by omega)]; simp
  have hloop : ∀ (l : List (List Nat)) (total : Nat) (ex : List (List Nat)),
      (∀ t ∈ l, k < t.length) → (∀ t ∈ l, dropAxis t k = dropAxis s k) → (∀ e ∈ ex, e = dropAxis s k) →
      concatLoop (k : Int) total ex false l =
        some (total + (l.map fun t => t.getD k 0).sum, ex ++ l.map (fun _ => dropAxis s k), false) := by
    intro l
    induction l with
    | nil => intro total ex _ _ _; simp [concatLoop]
    | cons t ts ih =>
      intro total ex h1 h2 h3
      have ht := h1 t (by simp)
      have hdt := h2 t (by simp)
      simp only [concatLoop]
      rw [if_neg (by omega)]
      have hbad : concatFlag ex (sliceTo t ↑k ++ sliceFrom t (↑k + 1)) false = false := by
        unfold concatFlag
        cases hx : ex.getLast? with
        | none => rfl
        | some p =>
          have := h3 p (List.mem_of_getLast? hx)
          simp [hslice, this, hdt]
      rw [hbad, ih _ _ (fun t' h' => h1 t' (by simp [h'])) (fun t' h' => h2 t' (by simp [h']))]
      · simp [hslice, hdt, hpy]; omega
      · intro e he
        simp only [List.mem_append, List.mem_singleton] at he
        rcases he with he | he
        · exact h3 e he
        · rw [he, hslice, hdt]
  unfold concatShape
  rw [hloop (s :: rest) 0 [] hk (by
    intro t ht
    simp only [List.mem_cons] at ht
    rcases ht with rfl | ht
    · rfl
    · exact hd t ht) (by simp)]
  simp only [Bool.false_eq_true, if_false, List.nil_append, List.map_cons, List.headD_cons,
    Nat.zero_add, sliceTo, sliceFrom]
  rw [if_neg (by omega), if_neg (by omega)]
  simp

/-- **C21.** A missing axis is always refused. -/
theorem C21_missing_axis_refused (shapes : List (List Nat)) (k : Nat) (t : List Nat) (ht : t ∈ shapes)
    (hk : t.length ≤ k) : concatShape shapes (k : Int) = .indexError := by
  have : ∀ (l : List (List Nat)) total ex bad, t ∈ l → concatLoop (k : Int) total ex bad l = none := by
    intro l
    induction l with
    | nil => intro _ _ _ h; simp at h
    | cons s ss ih =>
      intro total ex bad h
      simp only [concatLoop]
      by_cases hs : s.length ≤ k
      · rw [if_pos (by omega)]
      · rw [if_neg (by omega)]
        apply ih
        simp only [List.mem_cons] at h
        rcases h with rfl | h
        · omega
        · exact h
  unfold concatShape
  rw [this _ _ _ _ ht]

/-- **C21 (finding).** Only the last two shapes are compared: (2,3), (2,4), (2,4) are "concatenated" along axis
0 to (6,3), although they disagree on axis 1. -/
theorem C21_only_last_pair_checked :
    concatShape [[2, 3], [2, 4], [2, 4]] 0 = .ok [6, 3] ∧ dropAxis [2, 3] 0 ≠ dropAxis [2, 4] 0 := by
  decide

/-- **C21 (finding).** A negative axis is not refused but gives a shape of the wrong rank, or refuses
compatible shapes. -/
theorem C21_negative_axis_wrong : concatShape [[2, 3], [2, 3]] (-1) = .ok [2, 2, 6, 3] ∧
    concatShape [[2, 3], [2, 5]] (-1) = .shapeError := by decide

/-- Non-vacuity of the C21 theorems. -/
example : concatShape [[2, 3, 5], [2, 4, 5], [2, 1, 5]] 1 = .ok [2, 8, 5] := by decide

end Verif.VirtualPorts
