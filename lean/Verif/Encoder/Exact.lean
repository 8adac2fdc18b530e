import Verif.Encoder.Props

/-!
# C36: exactly when the delta-sparse-8 round trip works
-/

namespace Verif.Encoder

/-- One entry after the first, with the product in place of the repetition: the decoder ends at or before the right index, and before it if
the gap is too large. -/
theorem emit_lag (e : Nat × Int) (s : Dec) (hc : 0 < s.count) (hd : lowByte e.2 ≠ 0) :
    ∃ pre, decSteps s (seen (emit true e)) = pre ++ [((decFinal s (seen (emit true e))).idx, lowByte e.2)] ∧
      0 < (decFinal s (seen (emit true e))).count ∧
      (decFinal s (seen (emit true e))).idx ≤ s.idx + e.1 + 1 ∧
      (65025 ≤ e.1 → (decFinal s (seen (emit true e))).idx < s.idx + e.1 + 1) := by
  by_cases hs : e.1 < 65025
  · obtain ⟨h1, h2, h3⟩ := dec_emit true e s hc hd (fun _ => hs)
    refine ⟨[], ?_, h3, by rw [h2], fun h => by omega⟩
    rw [h1, h2]; rfl
  · have h255 : ¬ e.1 < 255 := by omega
    generalize hq : e.1 / 255 = q
    generalize hr : e.1 % 255 = r
    have hqr : e.1 = 255 * q + r := by omega
    have hrlt : r < 255 := by omega
    have hqge : 255 ≤ q := by omega
    generalize hn : q / 255 = n
    have hnge : 1 ≤ n := by omega
    have hlr : lowByte (r : Int) = r := by simp only [lowByte]; omega
    have hem : emit true e = [(255 * ((n : Int) + 1), 255 * (n : Int) + ((q % 255 : Nat) : Int)), ((r : Int), e.2)] := by
      simp only [emit, if_neg h255, if_true, hq, hr, hn, List.cons_append, List.nil_append]
    rw [hem]
    simp only [seen, List.map_cons, List.map_nil, hlr]
    by_cases h1 : lowByte (255 * ((n : Int) + 1)) = 255
    · -- taken for a skip entry, by too little
      have hstep : decStep s (lowByte (255 * (n : Int) + ((q % 255 : Nat) : Int))) (lowByte (255 * ((n : Int) + 1))) =
          ({ count := s.count + 1, idx := s.idx + lowByte (255 * (n : Int) + ((q % 255 : Nat) : Int)) * 255 }, none) := by
        rw [decStep, if_pos h1]
      have hlt := lowByte_isByte (255 * (n : Int) + ((q % 255 : Nat) : Int))
      have hnn : (n : Int) % 256 = 0 := by simp only [lowByte] at h1; omega
      generalize lowByte (255 * (n : Int) + ((q % 255 : Nat) : Int)) = y at hstep hlt
      generalize lowByte (255 * ((n : Int) + 1)) = x at h1 hstep
      have h2 : decStep { count := s.count + 1, idx := s.idx + y * 255 } (lowByte e.2) r =
          ({ count := s.count + 1 + 1, idx := s.idx + y * 255 + ((r : Int) + 1) }, some (s.idx + y * 255 + ((r : Int) + 1), lowByte e.2)) := by
        rw [decStep, if_neg (show ¬ (r : Int) = 255 by omega)]; simp [hd]
      have hfin : decFinal s [(y, x), (lowByte e.2, (r : Int))] = { count := s.count + 1 + 1, idx := s.idx + y * 255 + ((r : Int) + 1) } := by
        rw [decFinal, hstep, decFinal, h2, decFinal]
      have := hlt.2
      rw [hfin]
      refine ⟨[], ?_, by simp, by simp only; omega, fun _ => by simp only; omega⟩
      rw [decSteps, hstep]
      simp only [decSteps, h2, List.nil_append]
    · have hb := lowByte_isByte (255 * ((n : Int) + 1))
      generalize lowByte (255 * ((n : Int) + 1)) = x at h1 hb
      generalize lowByte (255 * (n : Int) + ((q % 255 : Nat) : Int)) = y
      have hstep : decStep s y x = ({ count := s.count + 1, idx := s.idx + (x + 1) }, if y ≠ 0 then some (s.idx + (x + 1), y) else none) := by
        rw [decStep, if_neg h1]; simp [hc]
      have hx := hb.2
      have h2 : decStep { count := s.count + 1, idx := s.idx + (x + 1) } (lowByte e.2) r =
          ({ count := s.count + 1 + 1, idx := s.idx + (x + 1) + ((r : Int) + 1) }, some (s.idx + (x + 1) + ((r : Int) + 1), lowByte e.2)) := by
        rw [decStep, if_neg (show ¬ (r : Int) = 255 by omega)]; simp [hd]
      have hfin : decFinal s [(y, x), (lowByte e.2, (r : Int))] = { count := s.count + 1 + 1, idx := s.idx + (x + 1) + ((r : Int) + 1) } := by
        rw [decFinal, hstep, decFinal, h2, decFinal]
      rw [hfin]
      refine ⟨if y ≠ 0 then [(s.idx + (x + 1), y)] else [], ?_, by simp, by simp only; omega, fun _ => by simp only; omega⟩
      rw [decSteps, hstep]
      simp only [decSteps, h2]
      by_cases hy : y = 0 <;> simp [hy]

/-- Some step of the positions `prev, l` is larger than 65025. -/
def BigGap : Nat → List (Nat × Int) → Prop
  | _, [] => False
  | prev, (i, _) :: l => 65025 < i - prev ∨ BigGap i l

theorem deltas_lag : ∀ (l : List (Nat × Int)) (prev : Nat) (s : Dec), l ≠ [] → 0 < s.count → s.idx ≤ prev →
    ((prev, (0 : Int)) :: l).Pairwise (fun p q => p.1 < q.1) → (∀ p ∈ l, lowByte p.2 ≠ 0) → (s.idx < prev ∨ BigGap prev l) →
    ∃ pre y d, decSteps s (seen ((deltas prev l).flatMap (emit true))) = pre ++ [(y, d)] ∧ ∀ p ∈ l.getLast?, y < (p.1 : Int)
  | [], _, _, h, _, _, _, _, _ => absurd rfl h
  | (i, d) :: l, prev, s, _, hc, hle, hp, hb, hbig => by
    obtain ⟨h1, h2⟩ := List.pairwise_cons.1 hp
    have hpi : prev < i := h1 (i, d) (by simp)
    have hp' : ((i, (0 : Int)) :: l).Pairwise (fun p q => p.1 < q.1) := by
      obtain ⟨h3, h4⟩ := List.pairwise_cons.1 h2
      exact List.pairwise_cons.2 ⟨h3, h4⟩
    obtain ⟨pre, e1, e2, e3, e4⟩ := emit_lag (i - prev - 1, d) s hc (hb (i, d) (by simp))
    simp only [deltas, List.flatMap_cons, seen_append, decSteps_append]
    simp only at e3 e4
    have hle' : (decFinal s (seen (emit true (i - prev - 1, d)))).idx ≤ i := by omega
    cases l with
    | nil =>
      refine ⟨pre, (decFinal s (seen (emit true (i - prev - 1, d)))).idx, lowByte d, ?_, ?_⟩
      · simp only [deltas, List.flatMap_nil, seen, List.map_nil, decSteps, List.append_nil]
        exact e1
      · intro p hpm
        simp only [List.getLast?_singleton, Option.mem_def, Option.some.injEq] at hpm
        subst hpm
        show _ < (i : Int)
        rcases hbig with hbig | hbig
        · omega
        · simp only [BigGap, or_false] at hbig
          have := e4 (by omega)
          omega
    | cons e l =>
      have hbig' : (decFinal s (seen (emit true (i - prev - 1, d)))).idx < i ∨ BigGap i (e :: l) := by
        rcases hbig with hbig | hbig
        · left; omega
        · rw [BigGap] at hbig
          rcases hbig with hbig | hbig
          · left
            have := e4 (by omega)
            omega
          · exact Or.inr hbig
      obtain ⟨pre', y, d', q1, q2⟩ := deltas_lag (e :: l) i _ (by simp) e2 hle' hp' (fun p hp => hb p (by simp [hp])) hbig'
      refine ⟨decSteps s (seen (emit true (i - prev - 1, d))) ++ pre', y, d', ?_, ?_⟩
      · rw [q1, List.append_assoc]
      · rw [List.getLast?_cons_cons]
        exact q2

theorem bigGap_of_not : ∀ (l : List (Nat × Int)) (p0 : Nat × Int),
    (¬ ∀ k p q, (p0 :: l)[k]? = some p → (p0 :: l)[k + 1]? = some q → q.1 - p.1 ≤ 65025) → BigGap p0.1 l
  | [], p0, h => by
    refine absurd ?_ h
    intro k p q _ hq
    simp at hq
  | e :: l, p0, h => by
    rw [BigGap]
    by_contra hc
    rw [not_or] at hc
    refine h ?_
    intro k p q hp hq
    cases k with
    | zero =>
      simp only [List.getElem?_cons_zero, Option.some.injEq, Nat.zero_add, List.getElem?_cons_succ] at hp hq
      subst hp; subst hq
      omega
    | succ k =>
      have : ∀ k p q, (e :: l)[k]? = some p → (e :: l)[k + 1]? = some q → q.1 - p.1 ≤ 65025 := by
        by_contra hcc
        exact hc.2 (bigGap_of_not l e hcc)
      exact this k p q (by simpa using hp) (by simpa using hq)

/-- Whatever is decoded has a nonzero value. -/
theorem decSteps_nonzero : ∀ (l : List (Int × Int)) (s : Dec), ∀ p ∈ decSteps s l, p.2 ≠ 0
  | [], _, _, h => by simp [decSteps] at h
  | (d, i) :: l, s, p, h => by
    simp only [decSteps] at h
    have hd : ∀ e, (decStep s d i).2 = some e → e.2 ≠ 0 := by
      intro e he
      rw [decStep] at he
      by_cases h1 : i = 255
      · rw [if_pos h1] at he; simp at he
      · rw [if_neg h1] at he
        by_cases h2 : d = 0
        · simp [h2] at he
        · simp only [ne_eq, h2, not_false_eq_true, if_true, Option.some.injEq] at he
          subst he; exact h2
    cases hx : (decStep s d i).2 with
    | none => rw [hx] at h; exact decSteps_nonzero l _ p h
    | some e =>
      rw [hx] at h
      rcases List.mem_cons.1 h with h | h
      · rw [h]; exact hd e hx
      · exact decSteps_nonzero l _ p h

/-- **C36, exact.** For every vector the receiver decodes exactly the positions and low bytes of the nonzero elements if and only if: every
nonzero element has a nonzero low byte, the first nonzero element is not at position 255, and no two consecutive nonzero elements are more than
65025 positions apart unless the first one is beyond position 255. -/
theorem C36_roundtrip_exact (s : List Int) :
    decodeDeltaSparse8 (encodeDeltaSparse8 s) = (support s).map (fun p => (p.1, p.2 % 256)) ↔
      ByteSafe s ∧ firstNz s ≠ some 255 ∧ (SmallGaps s ∨ ∃ i, firstNz s = some i ∧ 255 < i) := by
  constructor
  · intro h
    have hs : ByteSafe s := by
      intro x hx h0 hb
      obtain ⟨k, hk⟩ := List.mem_iff_getElem?.1 hx
      have hm : ((k : Int), x) ∈ support s := by
        rw [← nonzeroFrom_support]
        exact List.mem_map.2 ⟨(k, x), (nonzeroFrom_spec s 0 k x).2 ⟨Nat.zero_le _, by simpa using hk, h0⟩, rfl⟩
      have hm' : ((k : Int), x % 256) ∈ decodeDeltaSparse8 (encodeDeltaSparse8 s) := by
        rw [h]; exact List.mem_map.2 ⟨_, hm, rfl⟩
      rw [decodeDeltaSparse8] at hm'
      exact decSteps_nonzero _ _ _ hm' hb
    refine ⟨hs, ?_, ?_⟩
    · intro hf
      rw [decode_encode, ← nonzeroFrom_support, List.map_map] at h
      have hby := mem_nonzero_byteSafe hs
      unfold firstNz at hf
      cases hl : nonzeroFrom 0 s with
      | nil => rw [hl] at hf; simp at hf
      | cons e l =>
        obtain ⟨i, d⟩ := e
        rw [hl] at hf h hby
        simp only [List.head?_cons, Option.map_some, Option.some.injEq] at hf
        subst hf
        have hd : lowByte d ≠ 0 := hby (255, d) (by simp)
        have he : seen (deltaPairs ((255, d) :: l)) = (1, 255) :: (lowByte d, 0) :: seen ((deltas 255 l).flatMap (emit true)) := by
          simp only [deltaPairs, gt_iff_lt, Nat.lt_irrefl, if_false]
          rw [seen_append]
          simp [emit, seen, lowByte]
        rw [he] at h
        have h1 : decStep { count := 0, idx := 0 } 1 255 = ({ count := 1, idx := 255 }, none) := by simp [decStep]
        have h2 : decStep { count := 1, idx := 255 } (lowByte d) 0 = ({ count := 2, idx := 256 }, some (256, lowByte d)) := by
          simp [decStep, hd]
        simp only [decSteps, h1, h2, List.map_cons, List.cons.injEq, Function.comp, Prod.mk.injEq] at h
        exact absurd h.1.1 (by decide)
    · by_contra hc
      rw [not_or] at hc
      obtain ⟨hc1, hc2⟩ := hc
      rw [decode_encode, ← nonzeroFrom_support, List.map_map] at h
      have hby := mem_nonzero_byteSafe hs
      have hsort := nonzeroFrom_sorted s 0
      unfold firstNz at hc2
      unfold SmallGaps at hc1
      cases hl : nonzeroFrom 0 s with
      | nil => rw [hl] at hc1; exact hc1 (by intro k p q hp; simp at hp)
      | cons e l =>
        obtain ⟨i, d⟩ := e
        rw [hl] at hc1 hc2 h hby hsort
        simp only [List.head?_cons, Option.map_some, Option.some.injEq] at hc2
        have hi : ¬ i > 255 := fun hi => hc2 ⟨i, rfl, hi⟩
        have hbig := bigGap_of_not l (i, d) hc1
        have hlne : l ≠ [] := by rintro rfl; exact hbig
        have hd := hby (i, d) (by simp)
        have hi255 : i ≠ 255 := by
          rintro rfl
          have he : seen (deltaPairs ((255, d) :: l)) = (1, 255) :: (lowByte d, 0) :: seen ((deltas 255 l).flatMap (emit true)) := by
            simp only [deltaPairs, gt_iff_lt, Nat.lt_irrefl, if_false]
            rw [seen_append]
            simp [emit, seen, lowByte]
          rw [he] at h
          have h1 : decStep { count := 0, idx := 0 } 1 255 = ({ count := 1, idx := 255 }, none) := by simp [decStep]
          have h2 : decStep { count := 1, idx := 255 } (lowByte d) 0 = ({ count := 2, idx := 256 }, some (256, lowByte d)) := by
            have hd' : lowByte d ≠ 0 := hd
            simp [decStep, hd']
          simp only [decSteps, h1, h2, List.map_cons, List.cons.injEq, Function.comp, Prod.mk.injEq] at h
          exact absurd h.1.1 (by decide)
        have hlb : lowByte (i : Int) = i := by simp only [lowByte]; omega
        simp only [deltaPairs, if_neg hi] at h
        rw [seen_append, decSteps_append] at h
        have he : seen (emit true (i, d)) = [(lowByte d, (i : Int))] := by
          simp only [emit, if_pos (show i < 255 by omega), seen, List.map_cons, List.map_nil, hlb]
        have h2 : decFinal { count := 0, idx := 0 } [(lowByte d, (i : Int))] = { count := 1, idx := i } := by
          simp only [decFinal, decStep]
          rw [if_neg (by omega)]
          simp
        rw [he, h2] at h
        obtain ⟨h3, h4⟩ := List.pairwise_cons.1 hsort
        obtain ⟨pre, y, d', q1, q2⟩ := deltas_lag l i { count := 1, idx := i } hlne (by simp) (by simp)
          (List.pairwise_cons.2 ⟨h3, h4⟩) (fun p hp => hby p (by simp [hp])) (Or.inr hbig)
        rw [q1, ← List.append_assoc] at h
        have := congrArg List.getLast? h
        rw [List.getLast?_concat, List.getLast?_map] at this
        obtain ⟨p, hp⟩ : ∃ p, l.getLast? = some p := ⟨_, List.getLast?_eq_some_getLast hlne⟩
        have hp' : ((i, d) :: l).getLast? = some p := by
          cases l with
          | nil => exact absurd rfl hlne
          | cons a l => rw [List.getLast?_cons_cons]; exact hp
        rw [hp'] at this
        simp only [Option.map_some, Function.comp, Option.some.injEq, Prod.mk.injEq] at this
        have := q2 p hp
        omega
  · rintro ⟨h1, h2, h3⟩
    exact C36_roundtrip_partial s h1 h2 h3

/-- Both sides occur: a vector that satisfies the condition, and one with its first nonzero element at 255 that does not. -/
theorem C36_example_exact :
    (ByteSafe [0, 5, -1] ∧ firstNz [0, 5, -1] ≠ some 255 ∧ SmallGaps [0, 5, -1]) ∧
    decodeDeltaSparse8 (encodeDeltaSparse8 [0, 5, -1]) = [(1, 5), (2, 255)] ∧
    firstNz (List.replicate 255 0 ++ [9]) = some 255 := by
  refine ⟨⟨by unfold ByteSafe; decide, by decide, ?_⟩, by decide, by decide +kernel⟩
  intro k p q hp hq
  have h : nonzeroFrom 0 [0, 5, -1] = [(1, 5), (2, -1)] := by decide
  rw [h] at hp hq
  rcases k with _ | _ | k
  · simp at hp hq; subst hp; subst hq; decide
  · simp at hq
  · simp at hq

end Verif.Encoder
