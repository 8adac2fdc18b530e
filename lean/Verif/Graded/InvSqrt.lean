import Mathlib.Data.Nat.Log
import Mathlib.Tactic.Ring
import Mathlib.Tactic.Linarith
import Mathlib.Tactic.NormNum
import Mathlib.Tactic.Positivity
import Mathlib.Analysis.Real.Sqrt

/-!
# The fixed-point inverse square root

`src/lava/proc/graded/models.py:152-229`. Integers are unbounded: for the 24-bit inputs of the theorems no intermediate result
needs more than 44 bits and numpy computes with 64.
-/

namespace Verif.Graded

/-- `make_fpinv_table(12)` (graded/models.py:152-175): the numbers the code computes in floating point; `C95_table` below says that
they are what the formula means. -/
def table : List Int :=
  [146, 206, 292, 412, 584, 826, 1168, 1652, 2336, 3304, 4674, 6610, 9350, 13222, 18700, 26446, 37402, 52894, 74804, 105788, 149608,
    211578, 299218, 423158]

/-- `clz` (graded/models.py:178-193): `24 - (int(np.log2(val)) + 1)`; the logarithm is exact enough for 24-bit integers. -/
def clz (s : Nat) : Nat := 24 - (Nat.log2 s + 1)

/-- The loop of `inv_sqrt` (graded/models.py:222-227). -/
def isqLoop : Nat → Int → Int → Int → Int
  | 0, _, _, y => y
  | k + 1, b, Y, y =>
    isqLoop k ((((b * Y) >>> 13) * Y) >>> 13) ((12288 : Int) - ((((b * Y) >>> 13) * Y) >>> 13))
      ((y * ((12288 : Int) - ((((b * Y) >>> 13) * Y) >>> 13))) >>> 13)

/-- `inv_sqrt` with the default 12 fractional bits (graded/models.py:196-229). -/
def invSqrt (n : Nat) (s : Nat) : Int := isqLoop n s (table.getD (clz s) 0) (table.getD (clz s) 0 / 2)

/-- `InvSqrtModelFP.run_spk` (graded/models.py:242-254): five iterations; 0 for 0. -/
def invSqrtSpk (s : Nat) : Int := if s = 0 then 0 else invSqrt 5 s

/-! ### Evaluation in the kernel

The claims about all 24-bit inputs are reduced to finitely many numbers: from the first iterate on the computation depends on the input
only through that iterate, of which there are about 2700 in each octave. These are evaluated by the kernel, with natural
numbers. -/

/-- Evaluate the argument first. -/
def force {α : Type} (n : Nat) (k : Nat → α) : α := Nat.rec (k 0) (fun m _ => k (Nat.succ m)) n

theorem force_eq {α : Type} (n : Nat) (k : Nat → α) : force n k = k n := by cases n <;> rfl

/-- `n` iterations, the last `b` and the current `y`, on natural numbers. -/
def natTail : Nat → Nat → Nat → Nat
  | 0, _, y => y
  | k + 1, b, y =>
    force (Nat.sub 12288 b) fun Y => force (Nat.shiftRight (Nat.mul (Nat.shiftRight (Nat.mul b Y) 13) Y) 13) fun b' =>
      force (Nat.shiftRight (Nat.mul y (Nat.sub 12288 b')) 13) fun y' => natTail k b' y'

/-- All five iterations, from the first `b`. -/
def natIsq (Y0 b : Nat) : Nat := force (Nat.shiftRight (Nat.mul (Nat.div Y0 2) (Nat.sub 12288 b)) 13) fun y => natTail 4 b y

/-- The first iterate. -/
def firstB (Y0 s : Nat) : Nat := Nat.shiftRight (Nat.mul (Nat.shiftRight (Nat.mul s Y0) 13) Y0) 13

def allFrom (p : Nat → Bool) : Nat → Nat → Bool
  | 0, _ => true
  | k + 1, b => force b fun b => p b && allFrom p k (Nat.succ b)

/-- What has to be checked for one value `b` of the first iterate in the octave of table entry `Y0` that begins with `lo`. -/
def checkB (Y0 lo b : Nat) : Bool :=
  force (natIsq Y0 b) fun r =>
    Nat.ble (Nat.mul 10000 (Nat.mul (Nat.mul r r) (Nat.add (Nat.mul (Nat.succ b) 67108864) (Nat.mul Y0 8192))))
      (Nat.mul 688225559511040 (Nat.mul Y0 Y0)) &&
    (Nat.ble (Nat.succ (Nat.mul 68719476736 (Nat.mul Y0 Y0))) (Nat.mul (Nat.mul (Nat.add r 3) (Nat.add r 3)) (Nat.mul b 67108864)) ||
      Nat.ble (Nat.succ 68719476736) (Nat.mul (Nat.mul (Nat.add r 3) (Nat.add r 3)) lo))

/-- The check of an octave: of all values between the first iterates of its least and its greatest number. -/
def checkOctave (Y0 lo : Nat) : Bool :=
  Nat.ble (firstB Y0 (2 * lo - 1)) 12288 &&
    force (firstB Y0 lo) fun b => force (firstB Y0 (2 * lo - 1) + 1 - b) fun k => allFrom (checkB Y0 lo) k b

/-- The check of a small input, directly. -/
def checkSmall (s : Nat) : Bool :=
  force (table.getD (clz s) 0).toNat fun Y0 => force (firstB Y0 s) fun b => Nat.ble b 12288 && force (natIsq Y0 b) fun r =>
    Nat.ble (Nat.mul 1000 (Nat.mul (Nat.mul r r) s)) (Nat.mul 1015 68719476736) &&
    Nat.ble (Nat.succ 68719476736) (Nat.mul (Nat.mul (Nat.add r 3) (Nat.add r 3)) s)

theorem small_ok : allFrom checkSmall 4095 1 = true := by decide +kernel

theorem octaves_ok : ∀ m, m < 12 → checkOctave (table.getD m 0).toNat (2 ^ (23 - m)) = true := by
  decide +kernel

/-! ### From the model to the evaluation -/

theorem shr_nat (n : Nat) : ((n : Int) >>> 13) = ((Nat.shiftRight n 13 : Nat) : Int) := rfl

theorem natTail_succ (k b y : Nat) : natTail (k + 1) b y =
    natTail k (Nat.shiftRight (Nat.shiftRight (b * (12288 - b)) 13 * (12288 - b)) 13)
      (Nat.shiftRight (y * (12288 - Nat.shiftRight (Nat.shiftRight (b * (12288 - b)) 13 * (12288 - b)) 13)) 13) := by
  simp only [natTail, force_eq]
  rfl

/-- The iterates stay in range, so that the subtraction of natural numbers is exact. -/
theorem iterate_le (b : Nat) (h : b ≤ 12288) :
    Nat.shiftRight (Nat.shiftRight (b * (12288 - b)) 13 * (12288 - b)) 13 ≤ 12288 := by
  have e : ∀ x : Nat, Nat.shiftRight x 13 = x / 8192 := fun x => by
    have := Nat.shiftRight_eq_div_pow x 13
    norm_num at this
    exact this
  rw [e, e]
  have h1 : b * (12288 - b) ≤ 8192 * 4608 := by
    obtain ⟨c, hc⟩ : ∃ c, 12288 - b = c := ⟨_, rfl⟩
    rw [hc]
    have hb : (b : Int) + c = 12288 := by omega
    have : (b : Int) * c ≤ 8192 * 4608 := by nlinarith [sq_nonneg ((b : Int) - c)]
    exact_mod_cast this
  have h2 : b * (12288 - b) / 8192 ≤ 4608 := by omega
  have h3 : b * (12288 - b) / 8192 * (12288 - b) ≤ 4608 * 12288 := Nat.mul_le_mul h2 (by omega)
  omega

theorem isqLoop_succ (k : Nat) (b Y y : Int) : isqLoop (k + 1) b Y y =
    isqLoop k ((((b * Y) >>> 13) * Y) >>> 13) ((12288 : Int) - ((((b * Y) >>> 13) * Y) >>> 13))
      ((y * ((12288 : Int) - ((((b * Y) >>> 13) * Y) >>> 13))) >>> 13) := rfl

theorem isqLoop_nat : ∀ (k b y : Nat), b ≤ 12288 → isqLoop k b (12288 - b) y = natTail k b y
  | 0, _, _, _ => rfl
  | k + 1, b, y, h => by
    rw [natTail_succ, isqLoop_succ]
    have hsub : (12288 : Int) - (b : Int) = ((12288 - b : Nat) : Int) := by omega
    have hle := iterate_le b h
    rw [hsub, ← Nat.cast_mul, shr_nat, ← Nat.cast_mul, shr_nat]
    generalize Nat.shiftRight (Nat.shiftRight (b * (12288 - b)) 13 * (12288 - b)) 13 = b' at hle ⊢
    have hsub' : (12288 : Int) - (b' : Int) = ((12288 - b' : Nat) : Int) := by omega
    rw [hsub', ← Nat.cast_mul, shr_nat, ← hsub']
    exact isqLoop_nat k b' _ hle

theorem table_nonneg (m : Nat) : ((table.getD m 0).toNat : Int) = table.getD m 0 := by
  have h : ∀ x ∈ table, (0 : Int) ≤ x := by decide
  rcases Nat.lt_or_ge m table.length with hm | hm
  · rw [List.getD_eq_getElem?_getD, List.getElem?_eq_getElem hm, Option.getD_some]
    exact Int.toNat_of_nonneg (h _ (List.getElem_mem hm))
  · rw [List.getD_eq_getElem?_getD, List.getElem?_eq_none hm]; rfl

/-- Five iterations of the code are the first one and `natIsq`. -/
theorem invSqrt_nat (s : Nat) (h : firstB (table.getD (clz s) 0).toNat s ≤ 12288) :
    invSqrt 5 s = natIsq (table.getD (clz s) 0).toNat (firstB (table.getD (clz s) 0).toNat s) := by
  unfold invSqrt
  have ht := table_nonneg (clz s)
  generalize (table.getD (clz s) 0).toNat = Y0 at h ht ⊢
  rw [← ht]
  have hdiv : ((Y0 : Int) / 2) = ((Y0 / 2 : Nat) : Int) := by omega
  have hf : Nat.shiftRight (Nat.shiftRight (s * Y0) 13 * Y0) 13 = firstB Y0 s := rfl
  show isqLoop (4 + 1) _ _ _ = _
  rw [hdiv, isqLoop_succ, ← Nat.cast_mul, shr_nat, ← Nat.cast_mul, shr_nat, hf]
  have hsub : (12288 : Int) - (firstB Y0 s : Int) = ((12288 - firstB Y0 s : Nat) : Int) := by omega
  have hn : natIsq Y0 (firstB Y0 s) = natTail 4 (firstB Y0 s) (Nat.shiftRight (Y0 / 2 * (12288 - firstB Y0 s)) 13) := by
    simp only [natIsq, force_eq]; rfl
  rw [hn, ← isqLoop_nat 4 _ _ h, hsub, ← Nat.cast_mul, shr_nat]

theorem allFrom_spec (p : Nat → Bool) : ∀ (k b : Nat), allFrom p k b = true → ∀ x, b ≤ x → x < b + k → p x = true
  | 0, b, _, x, h1, h2 => by omega
  | k + 1, b, h, x, h1, h2 => by
    simp only [allFrom, force_eq, Bool.and_eq_true] at h
    rcases eq_or_lt_of_le h1 with rfl | h3
    · exact h.1
    · exact allFrom_spec p k (b + 1) h.2 x (by omega) (by omega)

theorem shr13 (x : Nat) : Nat.shiftRight x 13 = x / 8192 := by
  have := Nat.shiftRight_eq_div_pow x 13
  norm_num at this
  exact this

theorem firstB_mono (Y0 s s' : Nat) (h : s ≤ s') : firstB Y0 s ≤ firstB Y0 s' := by
  unfold firstB
  simp only [shr13]
  exact Nat.div_le_div_right (Nat.mul_le_mul_right _ (Nat.div_le_div_right (Nat.mul_le_mul_right _ h)))

/-- The rounding of the first iterate. -/
theorem firstB_bounds (Y0 s : Nat) :
    firstB Y0 s * 67108864 ≤ s * (Y0 * Y0) ∧ s * (Y0 * Y0) ≤ (firstB Y0 s + 1) * 67108864 + Y0 * 8192 := by
  have hf : firstB Y0 s = (s * Y0 / 8192) * Y0 / 8192 := by
    unfold firstB; rw [shr13, shr13]; rfl
  rw [hf]
  have e1 := Nat.div_add_mod (s * Y0) 8192
  have u1 := Nat.mod_lt (s * Y0) (show 0 < 8192 by norm_num)
  generalize s * Y0 % 8192 = r1 at *
  generalize s * Y0 / 8192 = u at *
  have e2 := Nat.div_add_mod (u * Y0) 8192
  have u2 := Nat.mod_lt (u * Y0) (show 0 < 8192 by norm_num)
  generalize u * Y0 % 8192 = r2 at *
  generalize u * Y0 / 8192 = b at *
  have h2 : s * (Y0 * Y0) = 8192 * (u * Y0) + r1 * Y0 := by
    calc s * (Y0 * Y0) = (s * Y0) * Y0 := by ring
      _ = (8192 * u + r1) * Y0 := by rw [e1]
      _ = _ := by ring
  have h4 : r1 * Y0 ≤ 8192 * Y0 := Nat.mul_le_mul_right _ (le_of_lt u1)
  rw [h2]
  constructor <;> omega

theorem clz_octave (s m : Nat) (hm : m ≤ 23) (h1 : 2 ^ (23 - m) ≤ s) (h2 : s < 2 ^ (24 - m)) : clz s = m := by
  unfold clz
  have hs : s ≠ 0 := by
    have : 0 < 2 ^ (23 - m) := by positivity
    omega
  have a := (Nat.le_log2 hs).2 h1
  have b := (Nat.log2_lt hs).2 h2
  omega

/-- Large inputs. -/
theorem large (s : Nat) (h1 : 4096 ≤ s) (h2 : s < 2 ^ 24) : ∃ r : Nat, invSqrt 5 s = r ∧
    10000 * (r * r * s) ≤ 10015 * 2 ^ 36 ∧ 2 ^ 36 < (r + 3) * (r + 3) * s := by
  have hs : s ≠ 0 := by omega
  have hlog1 : 12 ≤ Nat.log2 s := (Nat.le_log2 hs).2 h1
  have hlog2 : Nat.log2 s < 24 := (Nat.log2_lt hs).2 h2
  have ha : 2 ^ Nat.log2 s ≤ s := Nat.log2_self_le hs
  have hb : s < 2 ^ (Nat.log2 s + 1) := Nat.lt_log2_self
  obtain ⟨m, hm⟩ : ∃ m, 23 - Nat.log2 s = m := ⟨_, rfl⟩
  have hm12 : m < 12 := by omega
  have hlm : Nat.log2 s = 23 - m := by omega
  rw [hlm] at ha hb
  have hc : clz s = m := clz_octave s m (by omega) ha (by rw [show 24 - m = 23 - m + 1 by omega]; exact hb)
  have hok := octaves_ok m hm12
  have hpos : 0 < (table.getD m 0).toNat := by
    have : ∀ m < 12, 0 < (table.getD m 0).toNat := by decide
    exact this m hm12
  have hn := invSqrt_nat s
  rw [hc] at hn
  generalize (table.getD m 0).toNat = Y0 at hok hpos hn
  have hlo1 : 1 ≤ 2 ^ (23 - m) := Nat.one_le_two_pow
  have hb : s < 2 * 2 ^ (23 - m) := by rw [pow_succ] at hb; omega
  generalize 2 ^ (23 - m) = lo at ha hb hok hlo1
  unfold checkOctave at hok
  simp only [force_eq, Bool.and_eq_true, Nat.ble_eq] at hok
  have hle1 := firstB_mono Y0 lo s ha
  have hle2 := firstB_mono Y0 s (2 * lo - 1) (by omega)
  have hcheck := allFrom_spec _ _ _ hok.2 (firstB Y0 s) hle1 (by omega)
  have hn := hn (le_trans hle2 hok.1)
  refine ⟨_, hn, ?_⟩
  have hbd := firstB_bounds Y0 s
  unfold checkB at hcheck
  simp only [force_eq, Bool.and_eq_true, Bool.or_eq_true, Nat.ble_eq] at hcheck
  generalize natIsq Y0 (firstB Y0 s) = r at hcheck ⊢
  generalize firstB Y0 s = b at hcheck hbd
  have hYY : 0 < Y0 * Y0 := Nat.mul_pos hpos hpos
  obtain ⟨c1, c2⟩ := hcheck
  have c1 : 10000 * (r * r * ((b + 1) * 67108864 + Y0 * 8192)) ≤ 688225559511040 * (Y0 * Y0) := c1
  constructor
  · have h5 : r * r * (s * (Y0 * Y0)) ≤ r * r * ((b + 1) * 67108864 + Y0 * 8192) := Nat.mul_le_mul_left _ hbd.2
    have h6 : 10000 * (r * r * s) * (Y0 * Y0) ≤ 10015 * 2 ^ 36 * (Y0 * Y0) := by
      calc 10000 * (r * r * s) * (Y0 * Y0) = 10000 * (r * r * (s * (Y0 * Y0))) := by ring
        _ ≤ 10000 * (r * r * ((b + 1) * 67108864 + Y0 * 8192)) := Nat.mul_le_mul_left _ h5
        _ ≤ 688225559511040 * (Y0 * Y0) := c1
        _ = _ := by norm_num
    exact Nat.le_of_mul_le_mul_right h6 hYY
  · rcases c2 with c2 | c2
    · have c2 : 68719476736 * (Y0 * Y0) < (r + 3) * (r + 3) * (b * 67108864) := c2
      have h6 : 2 ^ 36 * (Y0 * Y0) < (r + 3) * (r + 3) * s * (Y0 * Y0) := by
        calc 2 ^ 36 * (Y0 * Y0) = 68719476736 * (Y0 * Y0) := by norm_num
          _ < (r + 3) * (r + 3) * (b * 67108864) := c2
          _ ≤ (r + 3) * (r + 3) * (s * (Y0 * Y0)) := Nat.mul_le_mul_left _ hbd.1
          _ = _ := by ring
      exact Nat.lt_of_mul_lt_mul_right h6
    · have c2 : 68719476736 < (r + 3) * (r + 3) * lo := c2
      calc 2 ^ 36 = 68719476736 := by norm_num
        _ < (r + 3) * (r + 3) * lo := c2
        _ ≤ _ := Nat.mul_le_mul_left _ ha

theorem small (s : Nat) (h1 : 1 ≤ s) (h2 : s < 4096) : ∃ r : Nat, invSqrt 5 s = r ∧
    1000 * (r * r * s) ≤ 1015 * 2 ^ 36 ∧ 2 ^ 36 < (r + 3) * (r + 3) * s := by
  have h := allFrom_spec _ _ _ small_ok s h1 (by omega)
  unfold checkSmall at h
  simp only [force_eq, Bool.and_eq_true, Nat.ble_eq] at h
  refine ⟨_, invSqrt_nat s h.1, ?_, ?_⟩
  · have := h.2.1
    norm_num at this ⊢
    exact this
  · have := h.2.2
    norm_num at this ⊢
    exact this

/-! ### C95 -/

/-- **C95.** The integer form: for every 24-bit input `s ≥ 1` the result `r` is nonnegative, `r² s` exceeds `2³⁶` by at most 1.5 %
(0.15 % from 4096 on), and `(r + 3)² s` is more than `2³⁶`. -/
theorem C95_inverse_sqrt (s : Nat) (h1 : 1 ≤ s) (h2 : s < 2 ^ 24) :
    0 ≤ invSqrt 5 s ∧ 1000 * (invSqrt 5 s ^ 2 * s) ≤ 1015 * 2 ^ 36 ∧ 2 ^ 36 < (invSqrt 5 s + 3) ^ 2 * s ∧
    (4096 ≤ s → 10000 * (invSqrt 5 s ^ 2 * s) ≤ 10015 * 2 ^ 36) := by
  rcases Nat.lt_or_ge s 4096 with h | h
  · obtain ⟨r, hr, a, b⟩ := small s h1 h
    rw [hr]
    refine ⟨Int.natCast_nonneg r, ?_, ?_, fun hh => by omega⟩
    · have : ((1000 * (r * r * s) : Nat) : Int) ≤ ((1015 * 2 ^ 36 : Nat) : Int) := by exact_mod_cast a
      push_cast at this
      rw [pow_two]; exact this
    · have : ((2 ^ 36 : Nat) : Int) < (((r + 3) * (r + 3) * s : Nat) : Int) := by exact_mod_cast b
      push_cast at this
      rw [pow_two]; exact this
  · obtain ⟨r, hr, a, b⟩ := large s h h2
    rw [hr]
    have a' : ((10000 * (r * r * s) : Nat) : Int) ≤ ((10015 * 2 ^ 36 : Nat) : Int) := by exact_mod_cast a
    push_cast at a'
    refine ⟨Int.natCast_nonneg r, ?_, ?_, fun _ => ?_⟩
    · rw [pow_two]
      norm_num at a' ⊢
      omega
    · have : ((2 ^ 36 : Nat) : Int) < (((r + 3) * (r + 3) * s : Nat) : Int) := by exact_mod_cast b
      push_cast at this
      rw [pow_two]; exact this
    · rw [pow_two]; exact a'

/-- **C95.** The result approximates `2¹⁸ / √s` for *every* 24-bit input `s ≥ 1`: it is less than 3 below and at most 0.75 % above
(0.075 % from 4096 on). -/
theorem C95_inverse_sqrt_real (s : Nat) (h1 : 1 ≤ s) (h2 : s < 2 ^ 24) :
    (2 : ℝ) ^ 18 / Real.sqrt s - 3 < invSqrt 5 s ∧ (invSqrt 5 s : ℝ) ≤ 1.0075 * (2 ^ 18 / Real.sqrt s) ∧
    (4096 ≤ s → (invSqrt 5 s : ℝ) ≤ 1.00075 * (2 ^ 18 / Real.sqrt s)) := by
  obtain ⟨a, b, c, e⟩ := C95_inverse_sqrt s h1 h2
  have hs : (0 : ℝ) < s := by exact_mod_cast h1
  have hq : 0 < Real.sqrt s := Real.sqrt_pos.2 hs
  have hsq : Real.sqrt s ^ 2 = s := Real.sq_sqrt (le_of_lt hs)
  have a' : (0 : ℝ) ≤ (invSqrt 5 s : ℝ) := by exact_mod_cast a
  have b' : 1000 * ((invSqrt 5 s : ℝ) ^ 2 * s) ≤ 1015 * 2 ^ 36 := by exact_mod_cast b
  have c' : (2 : ℝ) ^ 36 < ((invSqrt 5 s : ℝ) + 3) ^ 2 * s := by exact_mod_cast c
  have e' : 4096 ≤ s → 10000 * ((invSqrt 5 s : ℝ) ^ 2 * s) ≤ 10015 * 2 ^ 36 := fun h => by exact_mod_cast e h
  generalize (invSqrt 5 s : ℝ) = r at a' b' c' e' ⊢
  rw [← hsq] at b' c' e'
  generalize Real.sqrt s = q at hq b' c' e' ⊢
  refine ⟨?_, ?_, ?_⟩
  · rw [sub_lt_iff_lt_add, div_lt_iff₀ hq]
    have : (2 : ℝ) ^ 36 = (2 ^ 18) ^ 2 := by norm_num
    rw [this, ← mul_pow] at c'
    exact lt_of_pow_lt_pow_left₀ 2 (by positivity) c'
  · rw [← mul_div_assoc, le_div_iff₀ hq]
    refine le_of_sq_le_sq ?_ (by positivity)
    rw [mul_pow]
    norm_num at b' ⊢
    nlinarith
  · intro h
    have e' := e' h
    rw [← mul_div_assoc, le_div_iff₀ hq]
    refine le_of_sq_le_sq ?_ (by positivity)
    rw [mul_pow]
    norm_num at e' ⊢
    nlinarith

/-- **C95.** The table holds what `2 * int(2^12 / (2^((m - 12) / 2) * 1.238982962))` means: with `y` half the entry for inputs of bit
length `m + 1`, `y` is the largest integer with `y² * 2^m * 1.238982962² ≤ 2^36`. -/
theorem C95_table : ∀ m, m < 24 → ∃ y : Nat, table.getD (23 - m) 0 = 2 * y ∧
    y ^ 2 * 2 ^ m * 1238982962 ^ 2 ≤ 2 ^ 36 * 10 ^ 18 ∧ 2 ^ 36 * 10 ^ 18 < (y + 1) ^ 2 * 2 ^ m * 1238982962 ^ 2 := by
  intro m hm
  refine ⟨(table.getD (23 - m) 0 / 2).toNat, ?_⟩
  revert m
  decide +kernel

/-- Some values: exact would be 262144, 4096 and 64.0...; the first iteration alone is off by 5 % for 1. -/
theorem C95_example : invSqrtSpk 0 = 0 ∧ invSqrtSpk 1 = 264045 ∧ invSqrtSpk 4096 = 4095 ∧ invSqrtSpk (2 ^ 24 - 1) = 63 ∧
    invSqrt 1 1 = 249338 := by decide +kernel

end Verif.Graded
