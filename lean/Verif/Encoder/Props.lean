import Verif.Encoder.Lemmas

/-!
# C34, C35, C36, C69: the delta encoder
-/

namespace Verif.Encoder

/-! ## C34 -/

theorem runAll_append (p : Par) : ∀ (e : Enc) (as bs : List Int),
    runAll p e (as ++ bs) = ((runAll p (runAll p e as).1 bs).1, (runAll p e as).2 ++ (runAll p (runAll p e as).1 bs).2)
  | _, [], _ => rfl
  | e, a :: as, bs => by simp only [List.cons_append, runAll, runAll_append p _ as bs]

/-- Everything sent so far plus the value about to be sent. -/
theorem runAll_sum (p : Par) : ∀ (as : List Int) (e : Enc),
    ((runAll p e as).2.sum + (runAll p e as).1.buf) - (runAll p e as).1.st.act + (runAll p e as).1.st.residue =
      e.buf - e.st.act + e.st.residue
  | [], e => by simp [runAll]
  | a :: as, e => by
    have ih := runAll_sum p as (runSpk p e a).1
    simp only [runAll, List.sum_cons]
    have : (runSpk p e a).1.buf - (runSpk p e a).1.st.act + (runSpk p e a).1.st.residue =
        e.buf - (runSpk p e a).2 - e.st.act + e.st.residue := by
      simp only [runSpk, encodeDelta]; ring
    linarith

theorem runAll_act (p : Par) (as : List Int) (a : Int) (e : Enc) :
    (runAll p e (as ++ [a])).1.st.act = a * 2 ^ p.spikeExp := by
  rw [runAll_append]; rfl

/-- The residue after the inputs `as`. -/
def residueAfter (p : Par) (as : List Int) : Int := (runAll p initEnc as).1.st.residue

/-- What the receiver has accumulated when the value encoded from `as` has arrived, i.e. one step later. The next input `b`
plays no role. -/
def received (p : Par) (as : List Int) (b : Int) : Int := (runAll p initEnc (as ++ [b])).2.sum

/-- **C34.** For every threshold, bit width and input sequence: the sum of everything sent is the last input (in units of
the shifted scale) minus the residue. -/
theorem C34_conservation (p : Par) (as : List Int) (b : Int) :
    received p as b = as.getLastD 0 * 2 ^ p.spikeExp - residueAfter p as := by
  have h1 := runAll_sum p as initEnc
  have h2 : (runAll p initEnc as).1.st.act = as.getLastD 0 * 2 ^ p.spikeExp := by
    rcases List.eq_nil_or_concat as with rfl | ⟨l, a, rfl⟩
    · simp [runAll, initEnc]
    · rw [List.concat_eq_append, runAll_act]; simp
  have h3 : received p as b = (runAll p initEnc as).2.sum + (runAll p initEnc as).1.buf := by
    rw [received, runAll_append]; simp [runAll, runSpk]
  rw [h3, residueAfter]
  simp only [initEnc] at h1 h2 ⊢
  linarith

theorem residue_step (p : Par) (s : St) (a : Int) (hv : 0 < p.vth) (hc : p.aMax ≤ 0) :
    ((encodeDelta p s a).1.residue.natAbs : Int) < p.vth := by
  simp only [encodeDelta, if_neg (show ¬ p.aMax > 0 by omega)]
  split
  · simp; exact hv
  · simp only [sub_zero]; omega

/-- **C34.** Without clipping the residue stays below the threshold in magnitude. -/
theorem C34_residue_below_threshold (p : Par) (hv : 0 < p.vth) (hc : p.aMax ≤ 0) (as : List Int) :
    |residueAfter p as| < p.vth := by
  rw [Int.abs_eq_natAbs]
  rcases List.eq_nil_or_concat as with rfl | ⟨l, a, rfl⟩
  · simpa [residueAfter, runAll, initEnc] using hv
  · rw [List.concat_eq_append, residueAfter, runAll_append]
    exact residue_step p _ _ hv hc

/-- **C34.** Hence the receiver follows the input with an error below the threshold. -/
theorem C34_receiver_error (p : Par) (hv : 0 < p.vth) (hc : p.aMax ≤ 0) (as : List Int) (b : Int) :
    |as.getLastD 0 * 2 ^ p.spikeExp - received p as b| < p.vth := by
  rw [C34_conservation]
  have := C34_residue_below_threshold p hv hc as
  rw [show as.getLastD 0 * 2 ^ p.spikeExp - (as.getLastD 0 * 2 ^ p.spikeExp - residueAfter p as) = residueAfter p as by ring]
  exact this

/-- With threshold 0 (or less) everything is sent at once. -/
theorem C34_zero_threshold (p : Par) (hv : p.vth ≤ 0) (hc : p.aMax ≤ 0) (as : List Int) : residueAfter p as = 0 := by
  rcases List.eq_nil_or_concat as with rfl | ⟨l, a, rfl⟩
  · rfl
  · rw [List.concat_eq_append, residueAfter, runAll_append]
    simp only [runAll, runSpk, encodeDelta, if_neg (show ¬ p.aMax > 0 by omega)]
    rw [if_pos (by omega)]; simp

/-- **C34.** With a bit width of at least 2, every value sent fits: it is a value of that many signed bits, shifted. -/
theorem C34_clipped_range (vth : Int) (k n : Nat) (hn : 2 ≤ n) (as : List Int) :
    ∀ x ∈ (runAll (mkPar vth k (some n)) initEnc as).2, -(2 ^ (n - 1)) * 2 ^ k ≤ x ∧ x ≤ (2 ^ (n - 1) - 1) * 2 ^ k := by
  have h2 : (2 : Int) ≤ 2 ^ (n - 1) := by
    calc (2 : Int) = 2 ^ 1 := rfl
      _ ≤ 2 ^ (n - 1) := pow_le_pow_right₀ (by norm_num) (by omega)
  have hk : (0 : Int) < 2 ^ k := by positivity
  have hmax : 0 < (mkPar vth k (some n)).aMax := by
    show (0 : Int) < (2 ^ (n - 1) - 1) * 2 ^ k
    exact Int.mul_pos (by omega) hk
  have hmin : (mkPar vth k (some n)).aMin ≤ 0 := by
    show -(2 ^ (n - 1)) * 2 ^ k ≤ (0 : Int)
    nlinarith
  have key : ∀ (as : List Int) (e : Enc), (mkPar vth k (some n)).aMin ≤ e.buf → e.buf ≤ (mkPar vth k (some n)).aMax →
      ∀ x ∈ (runAll (mkPar vth k (some n)) e as).2, (mkPar vth k (some n)).aMin ≤ x ∧ x ≤ (mkPar vth k (some n)).aMax := by
    intro as
    induction as with
    | nil => intro e _ _ x hx; simp [runAll] at hx
    | cons a as ih =>
      intro e h1 h3 x hx
      simp only [runAll, List.mem_cons] at hx
      rcases hx with rfl | hx
      · exact ⟨h1, h3⟩
      · refine ih _ ?_ ?_ x hx
        · simp only [runSpk, encodeDelta]
          rw [if_pos hmax]; simp only [clip]; omega
        · simp only [runSpk, encodeDelta]
          rw [if_pos hmax]; simp only [clip]; omega
  intro x hx
  exact key as initEnc hmin (le_of_lt hmax) x hx

/-- One step with unchanged input under clipping: the residue is below the threshold, or gets closer to zero. -/
theorem clip_step (p : Par) (hv : 0 < p.vth) (h1 : 1 ≤ p.aMax) (h2 : p.aMin ≤ -1) (s : St) :
    ((encodeDelta p s s.act).1.residue.natAbs : Int) < p.vth ∨
      (encodeDelta p s s.act).1.residue.natAbs < s.residue.natAbs := by
  simp only [encodeDelta, if_pos (show p.aMax > 0 by omega), sub_self, zero_add, clip]
  split
  · right; omega
  · left; omega

theorem clip_step_keep (p : Par) (hv : 0 < p.vth) (h1 : 1 ≤ p.aMax) (h2 : p.aMin ≤ -1) (s : St)
    (hs : (s.residue.natAbs : Int) < p.vth) : ((encodeDelta p s s.act).1.residue.natAbs : Int) < p.vth := by
  simp only [encodeDelta, if_pos (show p.aMax > 0 by omega), sub_self, zero_add, clip]
  rw [if_neg (by omega)]; omega

/-- **C34.** With clipping nothing is lost either: if the input stays the same for long enough, the residue gets below the
threshold, so the receiver catches up. -/
theorem C34_clipped_catches_up (p : Par) (hv : 0 < p.vth) (h1 : 1 ≤ p.aMax) (h2 : p.aMin ≤ -1) (as : List Int) (a : Int)
    (n : Nat) (hn : (residueAfter p (as ++ [a])).natAbs ≤ n) :
    |residueAfter p (as ++ [a] ++ List.replicate n a)| < p.vth := by
  rw [Int.abs_eq_natAbs]
  have key : ∀ (n : Nat) (e : Enc), e.st.act = a * 2 ^ p.spikeExp →
      (e.st.residue.natAbs ≤ n ∨ (e.st.residue.natAbs : Int) < p.vth) →
      ((runAll p e (List.replicate n a)).1.st.residue.natAbs : Int) < p.vth := by
    intro n
    induction n with
    | zero =>
      intro e _ h
      rcases h with h | h
      · simp only [List.replicate_zero, runAll]; omega
      · exact h
    | succ n ih =>
      intro e he h
      simp only [List.replicate_succ, runAll]
      refine ih (runSpk p e a).1 rfl ?_
      have hst : (runSpk p e a).1.st = (encodeDelta p e.st e.st.act).1 := by simp only [runSpk, he]
      rw [hst]
      rcases h with h | h
      · rcases clip_step p hv h1 h2 e.st with h' | h'
        · exact Or.inr h'
        · left; omega
      · exact Or.inr (clip_step_keep p hv h1 h2 e.st h)
  rw [residueAfter, runAll_append]
  exact key n _ (runAll_act p as a initEnc) (Or.inl hn)

/-- Non-vacuous: threshold 3, clipped to 3 bits, a jump to 20 and back to 5. -/
example : (runAll (mkPar 3 0 (some 3)) initEnc [20, 20, 20, 5, 5, 5, 5, 5, 5]).2 = [0, 3, 3, 3, -4, 0, 0, 0, 0] ∧
    residueAfter (mkPar 3 0 (some 3)) [20, 20, 20, 5, 5, 5, 5, 5, 5] = 0 ∧
    (runAll (mkPar 3 1 none) initEnc [2, 3, 4, 20]).2 = [0, 0, 6, 0] := by decide

/-- **C34, finding.** A bit width of 1 switches clipping off altogether: values of any size are sent. -/
theorem C34_witness_one_bit_unlimited : (runAll (mkPar 1 0 (some 1)) initEnc [1000, 0]).2 = [0, 1000] := by decide

/-! ## C35 -/

/-- The receiver's view of the packed format: words in order (first port data, then index, alternating), four bytes each. -/
def unpack4 (r : List Int × List Int) : List Int := (interleave r.1 r.2).flatMap bytes4

/-- **C35.** Unpacking the packed words gives the low byte of every element, in order, followed only by zero padding to a
multiple of 8 bytes. -/
theorem C35_packed_roundtrip (s : List Int) :
    ∃ n, n < 8 ∧ (s.length + n) % 8 = 0 ∧ unpack4 (encodePacked4 s) = s.map (· % 256) ++ List.replicate n 0 := by
  obtain ⟨h1, h2, h3⟩ := padTo_length (k := 8) (by decide) (s.map lowByte)
  have hp : unpack4 (encodePacked4 s) = padTo 8 (s.map lowByte) := by
    simp only [unpack4, encodePacked4, interleave_evens_odds]
    apply packWords_bytes (by omega)
    apply padTo_isByte
    intro b hb
    obtain ⟨x, _, rfl⟩ := List.mem_map.1 hb
    exact lowByte_isByte _
  refine ⟨(s.map lowByte).length.add (8 - 1) / 8 * 8 - s.length, ?_, ?_, ?_⟩
  · simp only [padTo, List.length_append, List.length_map, List.length_replicate] at h3
    simp only [List.length_map, Nat.add_eq]
    have : s.length + (8 - 1) = s.length + 8 - 1 := rfl
    rw [this]; omega
  · simp only [padTo, List.length_append, List.length_map, List.length_replicate] at h1 h2
    simp only [List.length_map, Nat.add_eq]
    have : s.length + (8 - 1) = s.length + 8 - 1 := rfl
    rw [this]; exact h1
  · rw [hp]
    simp only [padTo, List.length_map, Nat.add_eq]
    rfl

/-- **C35.** The element at position `i` is recovered modulo 256. -/
theorem C35_packed_element (s : List Int) (i : Nat) (x : Int) (h : s[i]? = some x) :
    (unpack4 (encodePacked4 s))[i]? = some (x % 256) := by
  obtain ⟨n, _, _, hr⟩ := C35_packed_roundtrip s
  have hi : i < s.length := (List.getElem?_eq_some_iff.1 h).1
  rw [hr, List.getElem?_append_left (by simpa using hi), List.getElem?_map, h]; rfl

/-- Every transmitted word is a 32-bit signed integer. -/
theorem C35_words_are_int32 (l : List Int) : ∀ w ∈ packWords l, -2 ^ 31 ≤ w ∧ w < 2 ^ 31 := by
  intro w hw
  have : ∀ x, -2 ^ 31 ≤ wrap32 x ∧ wrap32 x < 2 ^ 31 := by
    intro x; simp only [wrap32]; norm_num; omega
  induction l using packWords.induct with
  | case1 b0 b1 b2 b3 l ih =>
    simp only [packWords, List.mem_cons] at hw
    rcases hw with rfl | hw
    · exact this _
    · exact ih hw
  | case2 l h =>
    rw [packWords.eq_2 l (by exact h)] at hw
    simp at hw

example : encodePacked4 [1, -1, 3, 200, 5] = ([-939262207], [5]) ∧
    unpack4 (encodePacked4 [1, -1, 3, 200, 5]) = [1, 255, 3, 200, 5, 0, 0, 0] := by decide

/-! ## C36 -/

/-- The nonzero elements of a vector with their positions, in order: what a receiver should learn. -/
def support (s : List Int) : List (Int × Int) :=
  ((List.range s.length).filter fun i => s.getD i 0 ≠ 0).map fun i : Nat => ((i : Int), s.getD i 0)

theorem nonzeroFrom_map (l : List Int) : ∀ (k : Nat),
    nonzeroFrom k l = ((List.range l.length).filter fun i => l.getD i 0 ≠ 0).map fun i => (i + k, l.getD i 0) := by
  induction l with
  | nil => intro k; rfl
  | cons a l ih =>
    intro k
    simp only [nonzeroFrom, ih, List.length_cons, List.range_succ_eq_map, List.filter_cons, List.filter_map,
      List.getD_cons_zero]
    have hc : ((fun i => decide ((a :: l).getD i 0 ≠ 0)) ∘ Nat.succ) = fun i => decide (l.getD i 0 ≠ 0) := by
      funext i; simp
    rw [hc]
    split <;> rename_i h
    · simp only [h, ne_eq, not_false_eq_true, decide_true, if_true, List.map_cons, List.map_map, List.getD_cons_zero,
        Nat.zero_add]
      congr 1
      apply List.map_congr_left
      intro i _
      simp; omega
    · simp only [h, decide_false, Bool.false_eq_true, if_false, List.map_map]
      apply List.map_congr_left
      intro i _
      simp; omega

theorem nonzeroFrom_support (s : List Int) : (nonzeroFrom 0 s).map (fun p => ((p.1 : Int), p.2)) = support s := by
  rw [nonzeroFrom_map s 0]
  simp [support]

/-- Gaps condition from sortedness. -/
theorem gaps_of_sorted (bound : Option Nat) : ∀ (l : List (Nat × Int)) (prev : Nat),
    ((prev, (0 : Int)) :: l).Pairwise (fun p q => p.1 < q.1) → (∀ p ∈ l, lowByte p.2 ≠ 0) →
    (∀ b ∈ bound, ∀ (i : Nat) (p q : Nat × Int), ((prev, (0 : Int)) :: l)[i]? = some p → l[i]? = some q → q.1 - p.1 - 1 < b) → Gaps bound prev l
  | [], _, _, _, _ => trivial
  | (i, d) :: l, prev, h, hd, hb => by
    obtain ⟨h1, h2⟩ := List.pairwise_cons.1 h
    refine ⟨h1 (i, d) (by simp), hd (i, d) (by simp), ?_, ?_⟩
    · intro b hbb
      exact hb b hbb 0 (prev, 0) (i, d) rfl rfl
    · refine gaps_of_sorted bound l i ?_ (fun p hp => hd p (by simp [hp])) ?_
      · obtain ⟨h3, h4⟩ := List.pairwise_cons.1 h2
        exact List.pairwise_cons.2 ⟨h3, h4⟩
      · intro b hbb j p q hp hq
        cases j with
        | zero =>
          simp only [List.getElem?_cons_zero, Option.some.injEq] at hp
          subst hp
          exact hb b hbb 1 (i, d) q rfl (by simpa using hq)
        | succ j =>
          exact hb b hbb (j + 2) p q (by simpa using hp) (by simpa using hq)

/-- A vector of values whose nonzero elements keep a nonzero low byte, e.g. any 8-bit values. -/
def ByteSafe (s : List Int) : Prop := ∀ x ∈ s, x ≠ 0 → x % 256 ≠ 0

/-- Position of the first nonzero element. -/
def firstNz (s : List Int) : Option Nat := (nonzeroFrom 0 s).head?.map (·.1)

/-- No two consecutive nonzero elements are 65026 or more apart. -/
def SmallGaps (s : List Int) : Prop :=
  ∀ k p q, (nonzeroFrom 0 s)[k]? = some p → (nonzeroFrom 0 s)[k + 1]? = some q → q.1 - p.1 ≤ 65025

theorem mem_nonzero_byteSafe {s : List Int} (hs : ByteSafe s) : ∀ p ∈ nonzeroFrom 0 s, lowByte p.2 ≠ 0 := by
  rintro ⟨i, d⟩ h
  obtain ⟨_, h2, h3⟩ := (nonzeroFrom_spec s 0 i d).1 h
  exact hs d (List.mem_of_getElem? h2) h3

/-- **C36, what holds.** For a vector of 8-bit values the decoder returns exactly the positions and (unsigned) values of the
nonzero elements, provided the first nonzero element is not at position 255 and, if it is at a smaller position, no gap
is larger than 65025. Missing: the excluded cases, where the round trip fails, see the witnesses. -/
theorem C36_roundtrip_partial (s : List Int) (hs : ByteSafe s) (h255 : firstNz s ≠ some 255)
    (hg : SmallGaps s ∨ ∃ i, firstNz s = some i ∧ 255 < i) :
    decodeDeltaSparse8 (encodeDeltaSparse8 s) = (support s).map fun p => (p.1, p.2 % 256) := by
  rw [decode_encode, ← nonzeroFrom_support, List.map_map]
  have hsort := nonzeroFrom_sorted s 0
  have hby := mem_nonzero_byteSafe hs
  unfold firstNz at h255 hg
  unfold SmallGaps at hg
  cases hl : nonzeroFrom 0 s with
  | nil => simp [deltaPairs, seen, decSteps, decStep, lowByte]
  | cons e l =>
    obtain ⟨i, d⟩ := e
    rw [hl] at hsort hby h255 hg
    simp only [List.head?_cons, Option.map_some, ne_eq, Option.some.injEq] at h255 hg
    have hfun : ((fun p : Int × Int => (p.1, p.2 % 256)) ∘ fun p : Nat × Int => ((p.1 : Int), p.2)) =
        fun p : Nat × Int => ((p.1 : Int), lowByte p.2) := rfl
    rw [hfun]
    by_cases hi : i > 255
    · simp only [deltaPairs, if_pos hi]
      rw [seen_append, decSteps_append]
      have h1 : decSteps { count := 0, idx := 0 } (seen (emit false (0, 0))) = [] := by decide
      have h2 : decFinal { count := 0, idx := 0 } (seen (emit false (0, 0))) = { count := 1, idx := 0 } := by
        simp [emit, seen, decFinal, decStep, lowByte]
      rw [h1, h2, dec_deltas false _ 0 { count := 1, idx := 0 } (by simp) rfl]
      · rfl
      · apply gaps_of_sorted
        · refine List.pairwise_cons.2 ⟨?_, hsort⟩
          intro q hq
          rcases List.mem_cons.1 hq with rfl | hq
          · show 0 < i; omega
          · have := (List.pairwise_cons.1 hsort).1 q hq
            show 0 < q.1; omega
        · exact hby
        · simp
    · simp only [deltaPairs, if_neg hi]
      rw [seen_append, decSteps_append]
      have hd := hby (i, d) (by simp)
      have hlb : lowByte (i : Int) = i := by simp only [lowByte]; omega
      have he : seen (emit true (i, d)) = [(lowByte d, (i : Int))] := by
        simp only [emit, if_pos (show i < 255 by omega), seen, List.map_cons, List.map_nil, hlb]
      have h1 : decSteps { count := 0, idx := 0 } [(lowByte d, (i : Int))] = [((i : Int), lowByte d)] := by
        simp only [decSteps, decStep]
        rw [if_neg (by omega)]
        simp [show lowByte d ≠ 0 from hd]
      have h2 : decFinal { count := 0, idx := 0 } [(lowByte d, (i : Int))] = { count := 1, idx := i } := by
        simp only [decFinal, decStep]
        rw [if_neg (by omega)]
        simp
      have hg' : ∀ k p q, ((i, d) :: l)[k]? = some p → ((i, d) :: l)[k + 1]? = some q → q.1 - p.1 ≤ 65025 := by
        rcases hg with hg | ⟨j, hj, hj2⟩
        · exact hg
        · omega
      rw [he, h1, h2, dec_deltas true _ i { count := 1, idx := i } (by simp) rfl]
      · rfl
      · apply gaps_of_sorted
        · obtain ⟨h3, h4⟩ := List.pairwise_cons.1 hsort
          exact List.pairwise_cons.2 ⟨h3, h4⟩
        · exact fun p hp => hby p (by simp [hp])
        · intro b hb k p q hp hq
          simp only [if_true, Option.mem_def, Option.some.injEq] at hb
          subst hb
          have : q.1 - p.1 ≤ 65025 := by
            cases k with
            | zero =>
              simp only [List.getElem?_cons_zero, Option.some.injEq] at hp
              subst hp
              exact hg' 0 (i, d) q rfl (by simpa using hq)
            | succ k => exact hg' (k + 1) p q (by simpa using hp) (by simpa using hq)
          have hpos : p.1 < q.1 := by
            have hpw : ((i, (0 : Int)) :: l).Pairwise fun p q => p.1 < q.1 := by
              obtain ⟨h3, h4⟩ := List.pairwise_cons.1 hsort
              exact List.pairwise_cons.2 ⟨h3, h4⟩
            obtain ⟨hk1, hk2⟩ := List.getElem?_eq_some_iff.1 hp
            have hq' : ((i, (0 : Int)) :: l)[k + 1]? = some q := by simpa using hq
            obtain ⟨hk3, hk4⟩ := List.getElem?_eq_some_iff.1 hq'
            have := List.pairwise_iff_getElem.1 hpw k (k + 1) hk1 hk3 (by omega)
            rw [hk2, hk4] at this
            exact this
          omega

/-- **C36.** In particular all vectors of up to 65026 elements with 8-bit values and a nonzero element somewhere before
position 255, or none at position 255 first. -/
theorem C36_roundtrip_short_partial (s : List Int) (hlen : s.length ≤ 65026) (hs : ∀ x ∈ s, -128 ≤ x ∧ x < 256)
    (h255 : firstNz s ≠ some 255) :
    decodeDeltaSparse8 (encodeDeltaSparse8 s) = (support s).map fun p => (p.1, p.2 % 256) := by
  refine C36_roundtrip_partial s ?_ h255 (Or.inl ?_)
  · intro x hx h0
    have := hs x hx
    omega
  · intro k p q hp hq
    obtain ⟨i, d⟩ := q
    have := ((nonzeroFrom_spec s 0 i d).1 (List.mem_of_getElem? hq)).2.1
    have hlt : i - 0 < s.length := (List.getElem?_eq_some_iff.1 this).1
    show i - p.1 ≤ 65025
    omega

theorem deltaPairs_ne_nil (l : List (Nat × Int)) : deltaPairs l ≠ [] := by
  cases l with
  | nil => simp [deltaPairs]
  | cons e l =>
    obtain ⟨i, d⟩ := e
    simp only [deltaPairs]
    split <;> simp [emit] <;> split <;> simp

/-- **C36.** A message is never empty, also for a vector of zeros: at least one word of data and as many words of indices,
which is what makes the receiver's blocking `recv` return in every step. -/
theorem C36_never_empty (s : List Int) :
    (encodeDeltaSparse8 s).1 ≠ [] ∧ (encodeDeltaSparse8 s).1.length = (encodeDeltaSparse8 s).2.length := by
  unfold encodeDeltaSparse8
  have hne := deltaPairs_ne_nil (nonzeroFrom 0 s)
  refine ⟨?_, ?_⟩
  · have h1 := padTo_length (k := 4) (by decide) ((deltaPairs (nonzeroFrom 0 s)).map fun p => lowByte p.2)
    have h2 := packWords_length h1.1
    have h3 : 0 < (deltaPairs (nonzeroFrom 0 s)).length := List.length_pos_iff.2 hne
    rw [List.length_map] at h1
    intro h
    simp only at h
    rw [h] at h2
    simp at h2
    omega
  · have h1 := padTo_length (k := 4) (by decide) ((deltaPairs (nonzeroFrom 0 s)).map fun p => lowByte p.2)
    have h2 := packWords_length h1.1
    have h3 := padTo_length (k := 4) (by decide) ((deltaPairs (nonzeroFrom 0 s)).map fun p => lowByte p.1)
    have h4 := packWords_length h3.1
    rw [List.length_map] at h1 h3
    simp only
    omega

example : encodeDeltaSparse8 [0, 0, 0] = ([0], [0]) := by decide

example : decodeDeltaSparse8 (encodeDeltaSparse8 [0, 5, 0, 0, -1, 7]) = [(1, 5), (4, 255), (5, 7)] := by decide
example : decodeDeltaSparse8 (encodeDeltaSparse8 (List.replicate 300 0 ++ [9])) = [(300, 9)] := by decide +kernel

/-- **C36, finding.** The first nonzero element at position 255 is decoded at 256. -/
theorem C36_witness_first_at_255 :
    decodeDeltaSparse8 (encodeDeltaSparse8 (List.replicate 255 0 ++ [9])) = [(256, 9)] ∧
      support (List.replicate 255 0 ++ [9]) = [(255, 9)] := by decide +kernel

/-- **C36, finding.** A gap of 65026: the repeat count is multiplied instead of repeated, and the decoder is 65025 off or
worse, here for elements at positions 0 and 65026. -/
theorem C36_witness_large_gap :
    decSteps { count := 0, idx := 0 } (seen (deltaPairs [(0, 1), (65026, 2)])) ≠ [(0, 1), (65026, 2)] := by decide +kernel

/-! ## C69 -/

/-- Scatter (index, value) pairs into a zero vector of length `n`, later pairs win. -/
def scatter (n : Nat) (ps : List (Nat × Int)) : List Int := ps.foldl (fun v p => v.set p.1 p.2) (List.replicate n 0)

theorem scatter_get (ps : List (Nat × Int)) : ∀ (v : List Int), ps.Pairwise (fun p q => p.1 < q.1) → ∀ (i : Nat), i < v.length →
    (ps.foldl (fun v p => v.set p.1 p.2) v)[i]? =
      some (((ps.find? fun p => p.1 == i).map (·.2)).getD (v.getD i 0)) := by
  induction ps with
  | nil => intro v _ i hi; simp [List.getElem?_eq_getElem hi, List.getD_eq_getElem?_getD]
  | cons e ps ih =>
    intro v hp i hi
    obtain ⟨h1, h2⟩ := List.pairwise_cons.1 hp
    rw [List.foldl_cons, ih _ h2 i (by simpa using hi), List.find?_cons]
    by_cases he : e.1 = i
    · have hnone : ps.find? (fun p => p.1 == i) = none := by
        rw [List.find?_eq_none]
        intro x hx
        have := h1 x hx
        simp; omega
      subst he
      simp only [hnone, Option.map_none, Option.getD_none, BEq.rfl, Option.map_some, Option.getD_some]
      rw [List.getD_eq_getElem?_getD, List.getElem?_set_self hi]; rfl
    · have hb : (e.1 == i) = false := by simpa using he
      simp only [hb]
      congr 2
      rw [List.getD_eq_getElem?_getD, List.getD_eq_getElem?_getD, List.getElem?_set_ne he]

/-- **C69.** Sparse encoding: writing the transmitted values to the transmitted positions of a zero vector restores the
vector, for every vector. -/
theorem C69_sparse_roundtrip (s : List Int) (hne : s ≠ []) : scatter s.length (encodeSparse s) = s := by
  have hlen : ∀ (ps : List (Nat × Int)) (v : List Int), (ps.foldl (fun v p => v.set p.1 p.2) v).length = v.length := by
    intro ps
    induction ps with
    | nil => intro v; rfl
    | cons e ps ih => intro v; rw [List.foldl_cons, ih]; simp
  have key : scatter s.length (nonzeroFrom 0 s) = s := by
    apply List.ext_getElem?
    intro i
    by_cases hi : i < s.length
    · rw [scatter, scatter_get _ _ (nonzeroFrom_sorted s 0) i (by simpa using hi)]
      have hd : (List.replicate s.length (0 : Int)).getD i 0 = 0 := by simp [List.getD_eq_getElem?_getD, hi]
      rw [hd, List.getElem?_eq_getElem hi]
      congr 1
      cases hf : (nonzeroFrom 0 s).find? (fun p => p.1 == i) with
      | some e =>
        obtain ⟨j, d⟩ := e
        have h1 := List.mem_of_find?_eq_some hf
        have h2 : j = i := by simpa using List.find?_some hf
        subst h2
        have h3 := ((nonzeroFrom_spec s 0 j d).1 h1).2.1
        rw [Nat.sub_zero, List.getElem?_eq_getElem hi] at h3
        simpa using (Option.some.inj h3).symm
      | none =>
        by_contra hz
        have hz' : s[i] ≠ 0 := fun h => hz (by simp [h])
        have : (i, s[i]) ∈ nonzeroFrom 0 s := (nonzeroFrom_spec s 0 i _).2 ⟨Nat.zero_le _, by simp [hi], hz'⟩
        have := List.find?_eq_none.1 hf _ this
        simp at this
    · have hl' : (scatter s.length (nonzeroFrom 0 s)).length = s.length := by rw [scatter, hlen]; simp
      rw [List.getElem?_eq_none (by omega), List.getElem?_eq_none (by omega)]
  unfold encodeSparse
  cases hl : nonzeroFrom 0 s with
  | nil =>
    rw [hl] at key
    cases s with
    | nil => exact absurd rfl hne
    | cons a s =>
      have ha : a = 0 := by
        have := congrArg (·[0]?) key
        simpa [scatter, List.replicate_succ] using this.symm
      simp only [scatter, List.foldl_nil] at key
      simp only [scatter, List.foldl_cons, List.foldl_nil]
      rw [key, ha]; rfl
  | cons e l => rw [hl] at key; exact key

/-- **C69.** The transmitted positions are distinct and within the vector. -/
theorem C69_sparse_positions (s : List Int) (hne : s ≠ []) :
    (encodeSparse s).Pairwise (fun p q => p.1 < q.1) ∧ ∀ p ∈ encodeSparse s, p.1 < s.length := by
  unfold encodeSparse
  cases hl : nonzeroFrom 0 s with
  | nil => simp; exact List.length_pos_iff.2 hne
  | cons e l =>
    have h1 := nonzeroFrom_sorted s 0
    rw [hl] at h1
    refine ⟨h1, ?_⟩
    rintro ⟨i, d⟩ hp
    have h2 : (i, d) ∈ nonzeroFrom 0 s := by rw [hl]; exact hp
    have h3 := ((nonzeroFrom_spec s 0 i d).1 h2).2.1
    exact (List.getElem?_eq_some_iff.1 h3).1

example : encodeSparse [0, 3, 0, -2] = [(1, 3), (3, -2)] ∧ scatter 4 [(1, 3), (3, -2)] = [0, 3, 0, -2] := by decide

end Verif.Encoder
