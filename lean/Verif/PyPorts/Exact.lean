import Verif.PyPorts.Props

/-!
# C17: exactly when a sparse message arrives unchanged
-/

namespace Verif.PyPorts

/-- What the `j`-th port is sent: the length word and every element. -/
theorem sparse_port_get : ∀ (sizes : List Nat) (len data idx : List Int) (j k : Nat) (msg : List (List Int)),
    (∀ m ∈ sizes, 1 ≤ m) → sizes[j]? = some k → (sparseSend len data idx sizes)[j]? = some msg → len ≠ [] →
    ∃ l d i, msg = [l, d, i] ∧ l.head? = len.head? ∧ d.length = k ∧ i.length = k ∧
      ∀ p, p < k → d[p]? = some (if ∀ m ∈ sizes.take j, p < m then data[p]?.getD 0 else 0) ∧
        i[p]? = some (if ∀ m ∈ sizes.take j, p < m then idx[p]?.getD 0 else 0)
  | [], _, _, _, _, _, _, _, h, _, _ => by simp at h
  | m :: sizes, len, data, idx, j, k, msg, hs, hk, hmsg, hne => by
    have hm := hs m (by simp)
    have hlen' : (resize m len).head? = len.head? ∧ resize m len ≠ [] := by
      obtain ⟨m', rfl⟩ : ∃ q, m = q + 1 := ⟨m - 1, by omega⟩
      cases len with
      | nil => exact absurd rfl hne
      | cons a l => simp [resize]
    cases j with
    | zero =>
      simp only [List.getElem?_cons_zero, Option.some.injEq] at hk
      subst hk
      simp only [sparseSend, List.getElem?_cons_zero, Option.some.injEq] at hmsg
      refine ⟨_, _, _, hmsg.symm, hlen'.1, resize_length _ _, resize_length _ _, ?_⟩
      intro p hp
      rw [resize_get _ _ _ hp, resize_get _ _ _ hp]
      simp
    | succ j =>
      simp only [List.getElem?_cons_succ] at hk
      simp only [sparseSend, List.getElem?_cons_succ] at hmsg
      obtain ⟨l, d, i, h1, h2, h3, h4, h5⟩ := sparse_port_get sizes _ _ _ j k msg (fun q hq => hs q (by simp [hq])) hk hmsg hlen'.2
      refine ⟨l, d, i, h1, h2.trans hlen'.1, h3, h4, ?_⟩
      intro p hp
      obtain ⟨h6, h7⟩ := h5 p hp
      have hr : ∀ x : List Int, (resize m x)[p]?.getD 0 = if p < m then x[p]?.getD 0 else 0 := by
        intro x
        by_cases hpm : p < m
        · rw [resize_get _ _ _ hpm, if_pos hpm]; rfl
        · rw [if_neg hpm, List.getElem?_eq_none (by rw [resize_length]; omega)]; rfl
      rw [h6, h7, hr, hr]
      simp only [List.take_succ_cons, List.mem_cons, forall_eq_or_imp]
      by_cases ha : ∀ q ∈ sizes.take j, p < q
      · by_cases hpm : p < m
        · simp [ha, hpm]
        · simp [ha, hpm]
      · simp [ha]

/-- **C17, exact.** With non-empty ports, a sparse message arrives unchanged on the `j`-th connected in-port if and only if it fits in the
shape of that port and, for every port connected before it, everything beyond that port's size is zero (values and indices). -/
theorem C17_roundtrip_exact (data idx : List Int) (hl : idx.length = data.length) (sizes : List Nat) (hs : ∀ m ∈ sizes, 1 ≤ m) (j k : Nat)
    (msg rest : List (List Int)) (hk : sizes[j]? = some k) (hmsg : (sparseSendAll data idx sizes)[j]? = some msg) :
    sparseRecv (msg ++ rest) = some ((data, idx), rest) ↔
      data.length ≤ k ∧ ∀ m ∈ sizes.take j, ∀ p, m ≤ p → data[p]?.getD 0 = 0 ∧ idx[p]?.getD 0 = 0 := by
  obtain ⟨l, d, i, h1, h2, h3, h4, h5⟩ := sparse_port_get sizes _ data idx j k msg hs hk hmsg (by simp)
  subst h1
  cases l with
  | nil => simp at h2
  | cons a l =>
    simp only [List.head?_cons, Option.some.injEq] at h2
    subst h2
    simp only [sparseRecv, List.cons_append, List.nil_append, Int.toNat_natCast, Option.some.injEq, Prod.mk.injEq, and_true]
    constructor
    · rintro ⟨e1, e2⟩
      have hle : data.length ≤ k := by
        have := congrArg List.length e1
        rw [List.length_take, h3] at this
        omega
      refine ⟨hle, ?_⟩
      intro m hm p hp
      by_cases hpn : p < data.length
      · obtain ⟨h6, h7⟩ := h5 p (by omega)
        have hc : ¬ ∀ q ∈ sizes.take j, p < q := fun h => absurd (h m hm) (by omega)
        rw [if_neg hc] at h6 h7
        have e1' := congrArg (·[p]?) e1
        have e2' := congrArg (·[p]?) e2
        simp only [List.getElem?_take_of_lt hpn] at e1' e2'
        rw [← e1', ← e2', h6, h7]
        simp
      · rw [List.getElem?_eq_none (by omega), List.getElem?_eq_none (by omega)]
        simp
    · rintro ⟨hle, hz⟩
      have key : ∀ (x y : List Int), x.length = k → y.length = data.length → 
          (∀ p, p < k → x[p]? = some (if ∀ m ∈ sizes.take j, p < m then y[p]?.getD 0 else 0)) →
          (∀ m ∈ sizes.take j, ∀ p, m ≤ p → y[p]?.getD 0 = 0) → x.take data.length = y := by
        intro x y hx hy h6 h7
        apply List.ext_getElem?
        intro p
        by_cases hp : p < data.length
        · rw [List.getElem?_take_of_lt hp, h6 p (by omega)]
          have hy' : y[p]? = some (y[p]?.getD 0) := by
            rw [List.getElem?_eq_getElem (by omega)]; rfl
          split
          · exact hy'.symm
          · rename_i hc
            have : ∃ m ∈ sizes.take j, m ≤ p := by
              apply Classical.byContradiction
              intro hn
              exact hc fun m hm => Nat.lt_of_not_le fun hle => hn ⟨m, hm, hle⟩
            obtain ⟨m, hm, hmp⟩ := this
            rw [hy', h7 m hm p hmp]
        · rw [List.getElem?_eq_none (by rw [List.length_take]; omega), List.getElem?_eq_none (by omega)]
      exact ⟨key d data h3 rfl (fun p hp => (h5 p hp).1) (fun m hm p hp => (hz m hm p hp).1),
        key i idx h4 hl (fun p hp => (h5 p hp).2) (fun m hm p hp => (hz m hm p hp).2)⟩

/-- The condition met and not met: ports of sizes 2 and 4. -/
example : (∃ msg, (sparseSendAll [5, 6] [1, 3] [2, 4])[1]? = some msg ∧ sparseRecv msg = some (([5, 6], [1, 3]), [])) ∧
    (∃ msg, (sparseSendAll [5, 6, 7] [1, 3, 0] [2, 4])[1]? = some msg ∧ sparseRecv msg = some (([5, 6, 0], [1, 3, 0]), [])) :=
  ⟨⟨_, rfl, by decide⟩, ⟨_, rfl, by decide⟩⟩

end Verif.PyPorts
