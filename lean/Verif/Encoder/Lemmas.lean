import Verif.Encoder.Model
import Mathlib.Tactic.Ring
import Mathlib.Tactic.NormNum
import Mathlib.Tactic.Linarith

namespace Verif.Encoder

def IsByte (b : Int) : Prop := 0 ≤ b ∧ b < 256

theorem lowByte_isByte (x : Int) : IsByte (lowByte x) := ⟨Int.emod_nonneg _ (by decide), Int.emod_lt_of_pos _ (by decide)⟩

theorem bytes4_packWord {b0 b1 b2 b3 : Int} (h0 : IsByte b0) (h1 : IsByte b1) (h2 : IsByte b2) (h3 : IsByte b3) :
    bytes4 (packWord b0 b1 b2 b3) = [b0, b1, b2, b3] := by
  obtain ⟨a0, c0⟩ := h0
  obtain ⟨a1, c1⟩ := h1
  obtain ⟨a2, c2⟩ := h2
  obtain ⟨a3, c3⟩ := h3
  simp only [bytes4, packWord, wrap32]
  norm_num
  refine ⟨?_, ?_, ?_, ?_⟩ <;> omega

theorem packWords_bytes : ∀ {l : List Int}, l.length % 4 = 0 → (∀ b ∈ l, IsByte b) → (packWords l).flatMap bytes4 = l
  | [], _, _ => rfl
  | [_], h, _ => by simp at h
  | [_, _], h, _ => by simp at h
  | [_, _, _], h, _ => by simp at h
  | b0 :: b1 :: b2 :: b3 :: l, h, hb => by
    have ih := packWords_bytes (l := l) (by simp at h; omega) (fun b hb' => hb b (by simp [hb']))
    simp only [packWords, List.flatMap_cons, ih]
    rw [bytes4_packWord (hb _ (by simp)) (hb _ (by simp)) (hb _ (by simp)) (hb _ (by simp))]
    rfl

theorem packWords_length : ∀ {l : List Int}, l.length % 4 = 0 → 4 * (packWords l).length = l.length
  | [], _ => rfl
  | [_], h => by simp at h
  | [_, _], h => by simp at h
  | [_, _, _], h => by simp at h
  | b0 :: b1 :: b2 :: b3 :: l, h => by
    have ih := packWords_length (l := l) (by simp at h; omega)
    simp only [packWords, List.length_cons]; omega

theorem padTo_length {k : Nat} (hk : 0 < k) (l : List Int) :
    (padTo k l).length % k = 0 ∧ l.length ≤ (padTo k l).length ∧ (padTo k l).length < l.length + k := by
  have h1 : (l.length + k - 1) / k * k ≥ l.length := by
    have h2 := Nat.div_add_mod (l.length + k - 1) k
    have h3 := Nat.mod_lt (l.length + k - 1) hk
    rw [Nat.mul_comm] at h2
    omega
  have h4 : (l.length + k - 1) / k * k ≤ l.length + k - 1 := Nat.div_mul_le_self _ _
  have : (padTo k l).length = (l.length + k - 1) / k * k := by
    simp only [padTo, List.length_append, List.length_replicate]; omega
  rw [this]
  exact ⟨Nat.mul_mod_left _ _, h1, by omega⟩

theorem padTo_isByte {k : Nat} {l : List Int} (h : ∀ b ∈ l, IsByte b) : ∀ b ∈ padTo k l, IsByte b := by
  intro b hb
  rcases List.mem_append.1 hb with hb | hb
  · exact h b hb
  · rw [(List.mem_replicate.1 hb).2]; exact ⟨by decide, by decide⟩

/-- Interleave two lists: the inverse of taking even and odd positions. -/
def interleave : List Int → List Int → List Int
  | a :: as, b :: bs => a :: b :: interleave as bs
  | as, [] => as
  | [], bs => bs

theorem interleave_evens_odds : ∀ (l : List Int), interleave (evens l) (odds l) = l
  | [] => rfl
  | [_] => rfl
  | a :: b :: l => by simp [evens, odds, interleave, interleave_evens_odds l]

/-! ### Delta-sparse decoding -/

def decFinal : Dec → List (Int × Int) → Dec
  | s, [] => s
  | s, (d, i) :: l => decFinal (decStep s d i).1 l

theorem decSteps_append : ∀ (s : Dec) (l l' : List (Int × Int)),
    decSteps s (l ++ l') = decSteps s l ++ decSteps (decFinal s l) l'
  | _, [], _ => rfl
  | s, (d, i) :: l, l' => by
    simp only [List.cons_append, decSteps, decFinal]
    cases (decStep s d i).2 <;> simp [decSteps_append _ l l']

theorem decFinal_append : ∀ (s : Dec) (l l' : List (Int × Int)), decFinal s (l ++ l') = decFinal (decFinal s l) l'
  | _, [], _ => rfl
  | s, (d, i) :: l, l' => by simp only [List.cons_append, decFinal, decFinal_append _ l l']

theorem decSteps_zeros : ∀ (n : Nat) (s : Dec), decSteps s (List.replicate n (0, 0)) = []
  | 0, _ => rfl
  | n + 1, s => by simp [List.replicate_succ, decSteps, decStep, decSteps_zeros n]

/-- What the decoder sees of emitted pairs: (data, index) bytes. -/
def seen (l : List (Int × Int)) : List (Int × Int) := l.map fun p => (lowByte p.2, lowByte p.1)

theorem seen_append (l l' : List (Int × Int)) : seen (l ++ l') = seen l ++ seen l' := List.map_append

theorem dec_repeat : ∀ (n : Nat) (s : Dec), 0 < s.count →
    decSteps s (seen (List.replicate n (255, 255))) = [] ∧
      (decFinal s (seen (List.replicate n (255, 255)))).idx = s.idx + 255 * 255 * n ∧
      0 < (decFinal s (seen (List.replicate n (255, 255)))).count
  | 0, s, h => ⟨rfl, by simp [seen, decFinal], h⟩
  | n + 1, s, h => by
    have ih := dec_repeat n { count := s.count + 1, idx := s.idx + 255 * 255 } (by simp)
    have hb : lowByte 255 = 255 := by decide
    simp only [List.replicate_succ, seen, List.map_cons, hb, decSteps, decFinal, decStep, if_true]
    simp only [seen, hb] at ih
    refine ⟨ih.1, ?_, ih.2.2⟩
    rw [ih.2.1]; push_cast; ring

/-- The decoder on the emission of one entry, not at the start. -/
theorem dec_emit (vec : Bool) (e : Nat × Int) (s : Dec) (hc : 0 < s.count) (hd : lowByte e.2 ≠ 0)
    (hv : vec = true → e.1 < 65025) :
    decSteps s (seen (emit vec e)) = [(s.idx + e.1 + 1, lowByte e.2)] ∧
      (decFinal s (seen (emit vec e))).idx = s.idx + e.1 + 1 ∧ 0 < (decFinal s (seen (emit vec e))).count := by
  have hb : ∀ x : Nat, x < 256 → lowByte (x : Int) = x := by
    intro x hx; simp only [lowByte]; omega
  by_cases h1 : e.1 < 255
  · have hl := hb e.1 (by omega)
    simp only [emit, h1, if_true, seen, List.map_cons, List.map_nil, decSteps, decFinal, decStep, hl]
    rw [if_neg (by omega)]
    rw [if_pos hc, if_pos hd]
    refine ⟨?_, ?_, ?_⟩
    · simp; omega
    · simp; omega
    · simp
  · have hr : e.1 % 255 < 255 := Nat.mod_lt _ (by decide)
    have hlr := hb (e.1 % 255) (by omega)
    -- last pair
    have hlast : ∀ (t : Dec), 0 < t.count →
        decSteps t (seen [(((e.1 % 255 : Nat) : Int), e.2)]) = [(t.idx + (e.1 % 255 : Nat) + 1, lowByte e.2)] ∧
        (decFinal t (seen [(((e.1 % 255 : Nat) : Int), e.2)])).idx = t.idx + (e.1 % 255 : Nat) + 1 ∧
        0 < (decFinal t (seen [(((e.1 % 255 : Nat) : Int), e.2)])).count := by
      intro t ht
      simp only [seen, List.map_cons, List.map_nil, decSteps, decFinal, decStep, hlr]
      rw [if_neg (by omega)]
      rw [if_pos ht, if_pos hd]
      refine ⟨?_, ?_, ?_⟩
      · simp; omega
      · simp; omega
      · simp
    -- a repeat pair
    have hrep : ∀ (t : Dec) (x : Nat), x < 256 →
        decSteps t (seen [(255, (x : Int))]) = [] ∧ (decFinal t (seen [(255, (x : Int))])).idx = t.idx + x * 255 ∧
        0 < (decFinal t (seen [(255, (x : Int))])).count := by
      intro t x hx
      have h255 : lowByte 255 = 255 := by decide
      simp only [seen, List.map_cons, List.map_nil, decSteps, decFinal, decStep, hb x hx, h255, if_true]
      exact ⟨trivial, trivial, Nat.succ_pos _⟩
    have hdm := Nat.div_add_mod e.1 255
    have hqr : e.1 / 255 % 255 < 256 := by have := Nat.mod_lt (e.1 / 255) (by decide : 0 < 255); omega
    cases hvec : vec with
    | true =>
      have h2 := hv hvec
      have hnr : e.1 / 255 / 255 = 0 := by omega
      have hq : e.1 / 255 % 255 = e.1 / 255 := by omega
      simp only [emit, h1, if_false, if_true, hnr, hq, Nat.cast_zero, mul_zero, zero_add, mul_one, seen_append,
        decSteps_append, decFinal_append]
      obtain ⟨r1, r2, r3⟩ := hrep s (e.1 / 255) (by omega)
      obtain ⟨l1, l2, l3⟩ := hlast _ r3
      rw [r1, l1, l2, r2]
      refine ⟨?_, ?_, l3⟩
      · simp only [List.nil_append, List.cons.injEq, Prod.mk.injEq, and_true]; omega
      · omega
    | false =>
      simp only [emit, h1, if_false, Bool.false_eq_true, seen_append, decSteps_append, decFinal_append]
      obtain ⟨q1, q2, q3⟩ := dec_repeat (e.1 / 255 / 255) s hc
      obtain ⟨r1, r2, r3⟩ := hrep (decFinal s (seen (List.replicate (e.1 / 255 / 255) (255, 255)))) (e.1 / 255 % 255) hqr
      obtain ⟨l1, l2, l3⟩ := hlast _ r3
      rw [q1, r1, l1, l2, r2, q2]
      refine ⟨?_, ?_, l3⟩
      · simp only [List.nil_append, List.cons.injEq, Prod.mk.injEq, and_true]; omega
      · omega

/-- Gaps between consecutive indices, starting after `prev`. -/
def Gaps (bound : Option Nat) : Nat → List (Nat × Int) → Prop
  | _, [] => True
  | prev, (i, d) :: l => prev < i ∧ lowByte d ≠ 0 ∧ (∀ b ∈ bound, i - prev - 1 < b) ∧ Gaps bound i l

theorem dec_deltas (vec : Bool) : ∀ (l : List (Nat × Int)) (prev : Nat) (s : Dec), 0 < s.count → s.idx = prev →
    Gaps (if vec then some 65025 else none) prev l →
    decSteps s (seen ((deltas prev l).flatMap (emit vec))) = l.map fun p => ((p.1 : Int), lowByte p.2)
  | [], _, _, _, _, _ => rfl
  | (i, d) :: l, prev, s, hc, hs, hg => by
    obtain ⟨g1, g2, g3, g4⟩ := hg
    obtain ⟨e1, e2, e3⟩ := dec_emit vec (i - prev - 1, d) s hc g2 (by
      intro hv; exact g3 65025 (by rw [hv]; simp))
    simp only [deltas, List.flatMap_cons, seen_append, decSteps_append, List.map_cons]
    have hi : s.idx + ((i - prev - 1 : Nat) : Int) + 1 = i := by rw [hs]; omega
    rw [hi] at e1 e2
    rw [e1, dec_deltas vec l i _ e3 e2 g4]
    rfl

theorem zip_padded (ps : List (Int × Int)) (f g : Int × Int → Int) :
    ∃ n, (padTo 4 (ps.map f)).zip (padTo 4 (ps.map g)) = (ps.map fun p => (f p, g p)) ++ List.replicate n (0, 0) := by
  refine ⟨(ps.length + 4 - 1) / 4 * 4 - ps.length, ?_⟩
  simp only [padTo, List.length_map]
  rw [List.zip_append (by simp), List.zip_map', List.zip_replicate]
  simp

theorem decode_encode (s : List Int) :
    decodeDeltaSparse8 (encodeDeltaSparse8 s) = decSteps { count := 0, idx := 0 } (seen (deltaPairs (nonzeroFrom 0 s))) := by
  simp only [decodeDeltaSparse8, encodeDeltaSparse8]
  have hb : ∀ (f : Int × Int → Int) (ps : List (Int × Int)),
      (packWords (padTo 4 (ps.map fun p => lowByte (f p)))).flatMap bytes4 = padTo 4 (ps.map fun p => lowByte (f p)) := by
    intro f ps
    apply packWords_bytes (padTo_length (by decide) _).1
    apply padTo_isByte
    intro b hb
    obtain ⟨p, _, rfl⟩ := List.mem_map.1 hb
    exact lowByte_isByte _
  rw [hb (fun p => p.2), hb (fun p => p.1)]
  obtain ⟨n, hn⟩ := zip_padded (deltaPairs (nonzeroFrom 0 s)) (fun p => lowByte p.2) (fun p => lowByte p.1)
  rw [hn, decSteps_append, decSteps_zeros]
  simp [seen]

theorem nonzeroFrom_spec : ∀ (l : List Int) (k i : Nat) (d : Int),
    (i, d) ∈ nonzeroFrom k l ↔ k ≤ i ∧ l[i - k]? = some d ∧ d ≠ 0
  | [], k, i, d => by simp [nonzeroFrom]
  | a :: l, k, i, d => by
    have ih := nonzeroFrom_spec l (k + 1) i d
    have hh : (i, d) ∈ nonzeroFrom k (a :: l) ↔ (a ≠ 0 ∧ (i, d) = (k, a)) ∨ (i, d) ∈ nonzeroFrom (k + 1) l := by
      simp only [nonzeroFrom]
      split <;> rename_i h <;> simp [h]
    rw [hh, ih]
    constructor
    · rintro (⟨h1, h2⟩ | ⟨h1, h2, h3⟩)
      · cases h2; exact ⟨Nat.le_refl _, by simp, h1⟩
      · refine ⟨by omega, ?_, h3⟩
        obtain ⟨m, hm⟩ : ∃ m, i - k = m + 1 := ⟨i - k - 1, by omega⟩
        rw [hm, List.getElem?_cons_succ]
        rw [show i - (k + 1) = m by omega] at h2
        exact h2
    · rintro ⟨h1, h2, h3⟩
      by_cases hik : i = k
      · subst hik
        simp only [Nat.sub_self, List.getElem?_cons_zero, Option.some.injEq] at h2
        subst h2
        exact Or.inl ⟨h3, rfl⟩
      · obtain ⟨m, hm⟩ : ∃ m, i - k = m + 1 := ⟨i - k - 1, by omega⟩
        rw [hm, List.getElem?_cons_succ] at h2
        refine Or.inr ⟨by omega, ?_, h3⟩
        rw [show i - (k + 1) = m by omega]
        exact h2

theorem nonzeroFrom_ge : ∀ (l : List Int) (k : Nat), ∀ p ∈ nonzeroFrom k l, k ≤ p.1 := by
  rintro l k ⟨i, d⟩ h
  exact ((nonzeroFrom_spec l k i d).1 h).1

theorem nonzeroFrom_sorted : ∀ (l : List Int) (k : Nat), (nonzeroFrom k l).Pairwise fun p q => p.1 < q.1
  | [], _ => List.Pairwise.nil
  | a :: l, k => by
    simp only [nonzeroFrom]
    split
    · refine List.Pairwise.cons ?_ (nonzeroFrom_sorted l (k + 1))
      intro p hp
      exact nonzeroFrom_ge l (k + 1) p hp
    · exact nonzeroFrom_sorted l (k + 1)

end Verif.Encoder
