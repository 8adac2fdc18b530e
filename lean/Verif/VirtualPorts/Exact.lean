import Verif.VirtualPorts.Props

/-!
# C21: exactly which concatenations are accepted
-/

namespace Verif.VirtualPorts

/-- The last two elements differ (false with fewer than two elements). -/
def lastTwoDiffer (l : List (List Nat)) : Bool :=
  match l.reverse with
  | b :: a :: _ => decide (a ≠ b)
  | _ => false

theorem concatLoop_eq (k : Nat) : ∀ (l : List (List Nat)) (total : Nat) (ex : List (List Nat)), (∀ t ∈ l, k < t.length) →
    concatLoop (k : Int) total ex (lastTwoDiffer ex) l =
      some (total + (l.map fun t => t.getD k 0).sum, ex ++ l.map (fun t => dropAxis t k), lastTwoDiffer (ex ++ l.map (fun t => dropAxis t k)))
  | [], total, ex, _ => by simp [concatLoop]
  | t :: l, total, ex, h => by
    have hslice : sliceTo t k ++ sliceFrom t ((k : Int) + 1) = dropAxis t k := by
      unfold sliceTo sliceFrom dropAxis
      rw [if_neg (by omega), if_neg (by omega), List.eraseIdx_eq_take_drop_succ]
      congr
    have hpy : pyIndex t (k : Int) = t.getD k 0 := by
      simp [pyIndex, normAxis]; rw [if_neg (by omega)]; simp
    have ht := h t (by simp)
    have hflag : concatFlag ex (dropAxis t k) (lastTwoDiffer ex) = lastTwoDiffer (ex ++ [dropAxis t k]) := by
      unfold concatFlag
      rcases List.eq_nil_or_concat ex with rfl | ⟨ex', p, rfl⟩
      · simp [lastTwoDiffer]
      · simp [lastTwoDiffer]
    simp only [concatLoop]
    rw [if_neg (by omega), hslice, hpy, hflag, concatLoop_eq k l _ _ (fun t' h' => h t' (by simp [h']))]
    simp [Nat.add_assoc]

/-- **C21, exact.** Any number of ports and a non-negative axis: `concat_with` succeeds if and only if every port has the axis and the *last two* ports
agree on all other axes (with one port, always); the new shape takes the other axes from the first port, and the sum along the axis. -/
theorem C21_accepted_exact (s : List Nat) (rest : List (List Nat)) (k : Nat) (r : List Nat) :
    concatShape (s :: rest) (k : Int) = .ok r ↔
      (∀ t ∈ s :: rest, k < t.length) ∧
      (∀ pre a b, s :: rest = pre ++ [a, b] → dropAxis a k = dropAxis b k) ∧
      r = (dropAxis s k).take k ++ [((s :: rest).map fun t => t.getD k 0).sum] ++ (dropAxis s k).drop k := by
  by_cases hk : ∀ t ∈ s :: rest, k < t.length
  · have h := concatLoop_eq k (s :: rest) 0 [] hk
    have h0 : lastTwoDiffer [] = false := rfl
    rw [h0] at h
    have hb : lastTwoDiffer ([] ++ (s :: rest).map (fun t => dropAxis t k)) = false ↔
        ∀ pre a b, s :: rest = pre ++ [a, b] → dropAxis a k = dropAxis b k := by
      generalize s :: rest = l
      rw [List.nil_append]
      constructor
      · rintro h1 pre a b rfl
        simpa [lastTwoDiffer] using h1
      · intro h1
        rcases List.eq_nil_or_concat l with rfl | ⟨l', b, rfl⟩
        · rfl
        · rcases List.eq_nil_or_concat l' with rfl | ⟨l'', a, rfl⟩
          · rfl
          · have := h1 l'' a b (by simp)
            simp [lastTwoDiffer, this]
    unfold concatShape
    rw [h]
    simp only [and_iff_right hk, ← hb]
    cases hc : lastTwoDiffer ([] ++ (s :: rest).map (fun t => dropAxis t k)) with
    | true => simp
    | false =>
      simp only [Bool.false_eq_true, if_false, List.nil_append, List.map_cons, List.headD_cons, Nat.zero_add, sliceTo, sliceFrom,
        true_and, ConcatRes.ok.injEq]
      rw [if_neg (by omega), if_neg (by omega)]
      simp only [Int.toNat_natCast]
      exact eq_comm
  · constructor
    · intro h
      exfalso
      apply hk
      intro t ht
      by_contra hlt
      have := C21_missing_axis_refused (s :: rest) k t ht (by omega)
      rw [this] at h
      cases h
    · rintro ⟨h, _⟩; exact absurd h hk

example : concatShape [[2, 9, 5], [2, 3, 5], [2, 4, 5]] 1 = .ok [2, 16, 5] ∧ concatShape [[7, 3], [2, 4], [1, 4]] 0 = .ok [10, 3] := by decide

end Verif.VirtualPorts
