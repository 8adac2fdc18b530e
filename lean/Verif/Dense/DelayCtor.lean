import Verif.Dense.Props

/-!
# C124: the constructors of DelayDense and DelaySparse

`src/lava/proc/dense/process.py`, `src/lava/proc/sparse/process.py`. The weights are a matrix with two dimensions.
-/

namespace Verif.Dense

/-- The argument `delays`: an `int` or an array with shape, type (`dtype == int` or not) and values; the values of arrays of other types are rounded down here, which only matters for the sign. -/
inductive Delays where
  | num (d : Int)
  | mat (rows cols : Nat) (isInt : Bool) (v : Nat → Nat → Int)

/-- The delay of a synapse: an `int` is used for all of them. -/
def Delays.at : Delays → Nat → Nat → Int
  | .num d, _, _ => d
  | .mat _ _ _ v, i, j => v i j

/-- All values of an array. -/
def entries (rows cols : Nat) (v : Nat → Nat → Int) : List Int := (List.range rows).flatMap fun i => (List.range cols).map (v i)

/-- `int(np.max(delays))`; the maximum of an empty array raises. -/
def Delays.max : Delays → Option Int
  | .num d => some d
  | .mat r c _ v => match entries r c v with
    | [] => none
    | x :: xs => some (xs.foldl Max.max x)

/-- `_validate_delays` (dense/process.py:265-276, sparse/process.py:282-293): true if nothing is raised. -/
def validDelays (rows cols : Nat) : Delays → Bool
  | .num d => decide (0 ≤ d)
  | .mat r c isInt v => decide (entries r c v ≠ []) && (entries r c v).all (fun x => decide (0 ≤ x)) && decide (r = rows ∧ c = cols) && isInt

/-- `DelayDense.__init__` (dense/process.py:247-263) and `DelaySparse.__init__` (sparse/process.py:264-280) with weights of shape `(rows, cols)`: `none` if it raises, else the process with its buffer of `max_delay + 1` columns. -/
def delayCtor (rows cols : Nat) (w : Mat) (exp : Int) (dl : Delays) (maxDelay : Int) : Option DelayPar :=
  (if maxDelay = 0 then dl.max else some maxDelay).bind fun m =>
    if validDelays rows cols dl then some { nIn := cols, n := rows, d := (m + 1).toNat, w := w, dl := fun i j => (dl.at i j).toNat, exp := exp } else none

/-! ### Proofs -/

theorem mem_entries {rows cols : Nat} {v : Nat → Nat → Int} {x : Int} : x ∈ entries rows cols v ↔ ∃ i j, i < rows ∧ j < cols ∧ v i j = x := by
  simp only [entries, List.mem_flatMap, List.mem_map, List.mem_range]
  constructor
  · rintro ⟨i, hi, j, hj, rfl⟩; exact ⟨i, j, hi, hj, rfl⟩
  · rintro ⟨i, j, hi, hj, rfl⟩; exact ⟨i, hi, j, hj, rfl⟩

theorem entries_nil {rows cols : Nat} {v : Nat → Nat → Int} : entries rows cols v = [] ↔ rows = 0 ∨ cols = 0 := by
  constructor
  · intro h
    by_contra hc
    have : v 0 0 ∈ entries rows cols v := mem_entries.2 ⟨0, 0, by omega, by omega, rfl⟩
    rw [h] at this
    exact absurd this (by simp)
  · intro h
    apply List.eq_nil_iff_forall_not_mem.2
    intro x hx
    obtain ⟨i, j, hi, hj, _⟩ := mem_entries.1 hx
    omega

theorem le_foldl_max : ∀ (l : List Int) (x : Int), x ≤ l.foldl Max.max x ∧ ∀ y ∈ l, y ≤ l.foldl Max.max x
  | [], x => ⟨le_refl x, fun _ h => absurd h (by simp)⟩
  | z :: l, x => by
    obtain ⟨h1, h2⟩ := le_foldl_max l (Max.max x z)
    refine ⟨le_trans (le_max_left _ _) h1, fun y hy => ?_⟩
    rcases List.mem_cons.1 hy with rfl | hy
    · exact le_trans (le_max_right _ _) h1
    · exact h2 y hy

theorem foldl_max_mem : ∀ (l : List Int) (x : Int), l.foldl Max.max x = x ∨ l.foldl Max.max x ∈ l
  | [], x => .inl rfl
  | z :: l, x => by
    rcases foldl_max_mem l (Max.max x z) with h | h
    · rcases max_choice x z with e | e
      · left; rw [List.foldl_cons, h, e]
      · right; rw [List.foldl_cons, h, e]; exact List.mem_cons_self
    · right; exact List.mem_cons_of_mem _ h

/-- **C124.** The constructors of the delay connections accept exactly: a delay that is not negative for all synapses, or an array of integers that are not negative, with the shape of the weights and not empty. `max_delay` is not looked at. -/
theorem C124_delays_accepted_iff (rows cols : Nat) (w : Mat) (exp : Int) (dl : Delays) (maxDelay : Int) :
    (∃ p, delayCtor rows cols w exp dl maxDelay = some p) ↔
      match dl with
      | .num d => 0 ≤ d
      | .mat r c isInt v => isInt = true ∧ r = rows ∧ c = cols ∧ 0 < rows ∧ 0 < cols ∧ ∀ i < rows, ∀ j < cols, 0 ≤ v i j := by
  have hv : validDelays rows cols dl = true ↔ match dl with
      | .num d => 0 ≤ d
      | .mat r c isInt v => isInt = true ∧ r = rows ∧ c = cols ∧ 0 < rows ∧ 0 < cols ∧ ∀ i < rows, ∀ j < cols, 0 ≤ v i j := by
    cases dl with
    | num d => simp [validDelays]
    | mat r c isInt v =>
      simp only [validDelays, Bool.and_eq_true, decide_eq_true_eq, List.all_eq_true, ne_eq, entries_nil]
      constructor
      · rintro ⟨⟨⟨h1, h2⟩, h3, h4⟩, h5⟩
        subst h3 h4
        exact ⟨h5, rfl, rfl, by omega, by omega, fun i hi j hj => h2 _ (mem_entries.2 ⟨i, j, hi, hj, rfl⟩)⟩
      · rintro ⟨h5, rfl, rfl, h1, h1', h2⟩
        refine ⟨⟨⟨by omega, fun x hx => ?_⟩, rfl, rfl⟩, h5⟩
        obtain ⟨i, j, hi, hj, rfl⟩ := mem_entries.1 hx
        exact h2 i hi j hj
  rw [← hv]
  unfold delayCtor
  constructor
  · rintro ⟨p, h⟩
    cases hm : (if maxDelay = 0 then dl.max else some maxDelay) with
    | none => rw [hm] at h; exact absurd h (by simp)
    | some m =>
      rw [hm] at h
      by_cases hc : validDelays rows cols dl = true
      · exact hc
      · simp [hc] at h
  · intro h
    have hm : ∃ m, (if maxDelay = 0 then dl.max else some maxDelay) = some m := by
      by_cases h0 : maxDelay = 0
      · rw [if_pos h0]
        cases dl with
        | num d => exact ⟨d, rfl⟩
        | mat r c isInt v =>
          simp only [validDelays, Bool.and_eq_true, decide_eq_true_eq] at h
          unfold Delays.max
          dsimp only
          cases he : entries r c v with
          | nil => exact absurd he h.1.1.1
          | cons x xs => exact ⟨_, rfl⟩
      · exact ⟨maxDelay, if_neg h0⟩
    obtain ⟨m, hm⟩ := hm
    rw [hm]
    exact ⟨_, if_pos h⟩

theorem delayCtor_some {rows cols : Nat} {w : Mat} {exp : Int} {dl : Delays} {maxDelay : Int} {p : DelayPar} (h : delayCtor rows cols w exp dl maxDelay = some p) :
    validDelays rows cols dl = true ∧ ∃ m, (if maxDelay = 0 then dl.max else some maxDelay) = some m ∧ p = { nIn := cols, n := rows, d := (m + 1).toNat, w := w, dl := fun i j => (dl.at i j).toNat, exp := exp } := by
  unfold delayCtor at h
  cases hm : (if maxDelay = 0 then dl.max else some maxDelay) with
  | none => rw [hm] at h; exact absurd h (by simp)
  | some m =>
    rw [hm] at h
    by_cases hc : validDelays rows cols dl = true
    · simp only [Option.bind_some, hc, if_true, Option.some.injEq] at h
      exact ⟨hc, m, rfl, h.symm⟩
    · simp [hc] at h

/-- The delays of an accepted process are not negative, and at most the maximum. -/
theorem at_nonneg {rows cols : Nat} {dl : Delays} (h : validDelays rows cols dl = true) {i j : Nat} (hi : i < rows) (hj : j < cols) : 0 ≤ dl.at i j ∧ ∀ m, dl.max = some m → dl.at i j ≤ m := by
  cases dl with
  | num d =>
    refine ⟨by simpa [validDelays, Delays.at] using h, fun m hm => ?_⟩
    exact le_of_eq (Option.some.inj hm)
  | mat r c isInt v =>
    simp only [validDelays, Bool.and_eq_true, decide_eq_true_eq, List.all_eq_true] at h
    obtain ⟨⟨⟨_, h2⟩, rfl, rfl⟩, _⟩ := h
    have hm : v i j ∈ entries r c v := mem_entries.2 ⟨i, j, hi, hj, rfl⟩
    refine ⟨h2 _ hm, fun m hmax => ?_⟩
    unfold Delays.max at hmax
    dsimp only at hmax
    show v i j ≤ m
    cases he : entries r c v with
    | nil => rw [he] at hmax; exact absurd hmax (by simp)
    | cons x xs =>
      rw [he] at hmax hm
      rw [← Option.some.inj hmax]
      rcases List.mem_cons.1 hm with e | e
      · rw [e]; exact (le_foldl_max xs x).1
      · exact (le_foldl_max xs x).2 _ e

/-- **C124.** The law of an accepted delay connection (exponent 0, `max_delay` not negative): the output in step `t` is the sum over the synapses of the weight times the input of `1 + delay` steps before, without the synapses whose delay
exceeds a `max_delay` that was given. -/
theorem C124_delay_law (rows cols : Nat) (w : Mat) (dl : Delays) (maxDelay : Int) (hm : 0 ≤ maxDelay) (p : DelayPar) (h : delayCtor rows cols w 0 dl maxDelay = some p) (s : Nat → Vec) (t i : Nat) (hi : i < rows) :
    delaySent p s t i = ∑ j ∈ Finset.range cols, if (maxDelay = 0 ∨ dl.at i j ≤ maxDelay) ∧ dl.at i j + 1 ≤ t then w i j * s (t - 1 - (dl.at i j).toNat) j else 0 := by
  obtain ⟨hv, m, hmx, rfl⟩ := delayCtor_some h
  have hpos : ∀ j < cols, 0 ≤ m := by
    intro j hj
    by_cases h0 : maxDelay = 0
    · rw [if_pos h0] at hmx
      obtain ⟨h1, h2⟩ := at_nonneg hv hi hj
      exact le_trans h1 (h2 m hmx)
    · rw [if_neg h0] at hmx
      have := Option.some.inj hmx
      omega
  by_cases hd : 0 < (m + 1).toNat
  · rw [C40_delay_buckets _ s t i hi hd]
    have hb : ∀ (s : Vec) (k : Nat), bucket { nIn := cols, n := rows, d := (m + 1).toNat, w := w, dl := fun i j => (dl.at i j).toNat, exp := 0 } s i k =
        ∑ j ∈ Finset.range cols, if (dl.at i j).toNat = k then w i j * s j else 0 := by
      intro s k
      simp only [bucket, shiftExp]
      rw [if_neg (by omega)]
      simp
    have h1 : ∀ r ∈ Finset.range t, (if r < (m + 1).toNat then bucket { nIn := cols, n := rows, d := (m + 1).toNat, w := w, dl := fun i j => (dl.at i j).toNat, exp := 0 } (s (t - 1 - r)) i r else 0) =
        ∑ j ∈ Finset.range cols, if (dl.at i j).toNat = r ∧ r < (m + 1).toNat then w i j * s (t - 1 - r) j else 0 := by
      intro r _
      by_cases hr : r < (m + 1).toNat
      · rw [if_pos hr, hb]
        refine Finset.sum_congr rfl fun j _ => ?_
        simp only [hr, and_true]
      · rw [if_neg hr]
        symm
        apply Finset.sum_eq_zero
        intro j _
        rw [if_neg (fun h => hr h.2)]
    dsimp only
    rw [Finset.sum_congr rfl h1, Finset.sum_comm]
    refine Finset.sum_congr rfl fun j hj => ?_
    have hj := Finset.mem_range.1 hj
    obtain ⟨g1, g2⟩ := at_nonneg hv hi hj
    have hle : (maxDelay = 0 ∨ dl.at i j ≤ maxDelay) ↔ (dl.at i j).toNat < (m + 1).toNat := by
      by_cases h0 : maxDelay = 0
      · rw [if_pos h0] at hmx
        have := g2 m hmx
        constructor
        · intro _; omega
        · intro _; exact .inl h0
      · rw [if_neg h0] at hmx
        have := Option.some.inj hmx
        constructor
        · intro h; omega
        · intro h; right; omega
    by_cases hr : (dl.at i j).toNat < t
    · rw [Finset.sum_eq_single (dl.at i j).toNat]
      · simp only [true_and, hle]
        by_cases hc : (dl.at i j).toNat < (m + 1).toNat
        · rw [if_pos hc, if_pos ⟨hc, by omega⟩]
        · rw [if_neg hc, if_neg (fun h => hc h.1)]
      · intro r _ hne
        rw [if_neg (fun h => hne h.1.symm)]
      · intro hn; exact absurd (Finset.mem_range.2 hr) hn
    · rw [if_neg (by omega)]
      apply Finset.sum_eq_zero
      intro r hr'
      rw [if_neg]
      intro h
      have := Finset.mem_range.1 hr'
      omega
  · have hc : cols = 0 := by
      rcases Nat.eq_zero_or_pos cols with h | h
      · exact h
      · have := hpos 0 h; omega
    subst hc
    rw [Finset.range_zero, Finset.sum_empty]
    have hd0 : (m + 1).toNat = 0 := by omega
    unfold delaySent
    dsimp only
    rw [hd0, Nat.mul_zero]
    cases t with
    | zero => rfl
    | succ t =>
      have hz : ∀ t f, delayBuf { nIn := 0, n := rows, d := 0, w := w, dl := fun i j => (dl.at i j).toNat, exp := 0 } s t f = 0 := by
        intro t
        induction t with
        | zero => intro f; rfl
        | succ t ih => intro f; simp [delayBuf, delayStep, rollFlat, zeroCol, ih, calcAct, stackedAct, shiftExp]
      exact hz _ _

/-- **C124.** With the default `max_delay`, every accepted delay connection delivers every spike after its delay. -/
theorem C124_delays_delivered (rows cols : Nat) (w : Mat) (dl : Delays) (p : DelayPar) (h : delayCtor rows cols w 0 dl 0 = some p) (s : Nat → Vec) (t i : Nat) (hi : i < rows) :
    delaySent p s t i = ∑ j ∈ Finset.range cols, if dl.at i j + 1 ≤ t then w i j * s (t - 1 - (dl.at i j).toNat) j else 0 := by
  rw [C124_delay_law rows cols w dl 0 (le_refl 0) p h s t i hi]
  simp

/-- **C124, finding.** A `max_delay` below the delays is accepted: those spikes are never delivered. A single synapse with delay 3 and `max_delay = 2` sends nothing, whatever it receives; with the default it delivers. -/
theorem C124_short_max_delay_loses_spikes :
    (∃ p, delayCtor 1 1 (fun _ _ => 5) 0 (.num 3) 2 = some p ∧ ∀ s t, delaySent p s t 0 = 0) ∧
    (∃ p, delayCtor 1 1 (fun _ _ => 5) 0 (.num 3) 0 = some p ∧ delaySent p (fun t _ => if t = 0 then 1 else 0) 4 0 = 5) := by
  refine ⟨⟨_, rfl, fun s t => ?_⟩, ⟨_, rfl, by decide +kernel⟩⟩
  rw [C124_delay_law 1 1 _ (.num 3) 2 (by decide) _ rfl s t 0 Nat.one_pos]
  simp [Delays.at]

/-- **C124, example.** Accepted and rejected arrays of delays. -/
theorem C124_delays_example :
    (delayCtor 2 1 (fun i _ => i + 1) 0 (.mat 2 1 true fun i _ => 2 * i) 0).map (fun p => (p.d, (List.range 5).map fun t => (List.range 2).map (delaySent p (fun t _ => if t = 0 then 1 else 0) t))) =
      some (3, [[0, 0], [1, 0], [0, 0], [0, 2], [0, 0]]) ∧
    (delayCtor 2 1 (fun i _ => i + 1) 0 (.mat 2 1 true fun i _ => i - 1) 0).isNone = true ∧ (delayCtor 2 1 (fun i _ => i + 1) 0 (.mat 1 2 true fun i _ => i) 0).isNone = true ∧
    (delayCtor 2 1 (fun i _ => i + 1) 0 (.mat 2 1 false fun i _ => i) 0).isNone = true ∧ (delayCtor 2 1 (fun i _ => i + 1) 0 (.num (-1)) 3).isNone = true := by
  refine ⟨?_, ?_, ?_, ?_, ?_⟩ <;> decide +kernel

end Verif.Dense
