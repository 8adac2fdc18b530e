import Verif.IO.Model
import Verif.Channel.Model

/-!
# C50 - C54: input/output processes, spiker, bit check
-/

namespace Verif.IO

/-! ## C50 -/

/-- **C50.** The source ring buffer sends item `(t-1) mod n` in step `t`, so its `k`-th cycle through the data starts at step
`k * n + 1`. -/
theorem C50_source {α : Type} (data : Nat → α) (n k j : Nat) (hj : j < n) :
    sourceSend data n (k * n + 1 + j) = data j := by
  unfold sourceSend
  rw [show k * n + 1 + j - 1 = j + k * n by omega, Nat.add_mul_mod_self_right, Nat.mod_eq_of_lt hj]

theorem sinkAt_slot {α : Type} (z : α) (n : Nat) (x : Nat → α) (i : Nat) (hi : 1 ≤ i) :
    ∀ d, d < n → sinkAt z n x (i + d) ((i - 1) % n) = x i
  | 0, _ => by
    obtain ⟨i, rfl⟩ : ∃ m, i = m + 1 := ⟨i - 1, by omega⟩
    simp [sinkAt, upd]
  | d + 1, hd => by
    have hne : (i - 1) % n ≠ (i + d) % n := by
      intro h
      have h1 : (i - 1) % n = (i - 1 + (d + 1)) % n := by rw [h]; congr 1; omega
      have h2 : 0 ≡ d + 1 [MOD n] := by
        have : i - 1 + 0 ≡ i - 1 + (d + 1) [MOD n] := h1
        exact Nat.ModEq.add_left_cancel' _ this
      have h3 : n ∣ d + 1 := (Nat.modEq_zero_iff_dvd).mp h2.symm
      exact absurd (Nat.le_of_dvd (by omega) h3) (by omega)
    have := sinkAt_slot z n x i hi d (by omega)
    rw [show i + (d + 1) = (i + d) + 1 by omega, sinkAt]
    simp only [upd, Nat.add_sub_cancel, hne, if_false]
    exact this

/-- **C50.** After `T` steps the sink ring buffer holds each of the last `n` inputs at its slot. -/
theorem C50_sink_recent {α : Type} (z : α) (n : Nat) (x : Nat → α) (T i : Nat) (h1 : 1 ≤ i) (h2 : i ≤ T) (h3 : T < i + n) :
    sinkAt z n x T ((i - 1) % n) = x i := by
  have := sinkAt_slot z n x i h1 (T - i) (by omega)
  rwa [show i + (T - i) = T by omega] at this

/-- **C50.** Slots that were not reached yet still hold the initial value. -/
theorem C50_sink_untouched {α : Type} (z : α) (n : Nat) (x : Nat → α) (j : Nat) (hj : j < n) :
    ∀ T, T ≤ j → sinkAt z n x T j = z
  | 0, _ => rfl
  | T + 1, h => by
    have := C50_sink_untouched z n x j hj T (by omega)
    simp only [sinkAt, upd, Nat.add_sub_cancel]
    rw [if_neg (by rw [Nat.mod_eq_of_lt (by omega)]; omega)]
    exact this

/-- **C50.** A source connected to a sink of the same size: after `n` or more steps the sink holds the source's data. -/
theorem C50_source_to_sink {α : Type} (z : α) (data : Nat → α) (n T j : Nat) (hT : n ≤ T) (hj : j < n) :
    sinkAt z n (sourceSend data n) T j = data j := by
  -- the last step that wrote slot j
  have hlast : ∃ i, 1 ≤ i ∧ i ≤ T ∧ T < i + n ∧ (i - 1) % n = j := by
    have hm := Nat.mod_add_div (T - 1 - j) n
    have hlt := Nat.mod_lt (T - 1 - j) (show 0 < n by omega)
    refine ⟨j + n * ((T - 1 - j) / n) + 1, by omega, by omega, by omega, ?_⟩
    rw [Nat.add_sub_cancel, Nat.add_mul_mod_self_left, Nat.mod_eq_of_lt hj]
  obtain ⟨i, h1, h2, h3, h4⟩ := hlast
  have := C50_sink_recent z n (sourceSend data n) T i h1 h2 h3
  rw [h4] at this
  rw [this, sourceSend, h4]

example : (List.range 3).map (sinkAt 0 3 (fun t => 10 * t) 5) = [40, 50, 30] := by decide

/-! Periodic guards. -/

theorem guard_iff (I off t : Nat) (hI : 0 < I) (ht : 1 ≤ t) :
    guard I off t = true ↔ ∃ k, t = off % I + 1 + k * I := by
  have hoff := Nat.mod_lt off hI
  simp only [guard, decide_eq_true_eq]
  constructor
  · intro h
    refine ⟨(t - 1) / I, ?_⟩
    have := Nat.mod_add_div (t - 1) I
    rw [Nat.mul_comm] at this; omega
  · rintro ⟨k, rfl⟩
    rw [show off % I + 1 + k * I - 1 = off % I + k * I by omega, Nat.add_mul_mod_self_right, Nat.mod_mod]

/-- Number of guarded steps among `1..T`. -/
def loads (I off : Nat) : Nat → Nat
  | 0 => 0
  | T + 1 => loads I off T + (if guard I off (T + 1) then 1 else 0)

/-- Between the `k`-th guarded step (counted from 0) and the next there are `k + 1` of them. -/
theorem loads_eq (I off k j : Nat) (hI : 0 < I) (hj : j < I) : loads I off (off % I + 1 + k * I + j) = k + 1 := by
  have hoff := Nat.mod_lt off hI
  have hz : ∀ T, T ≤ off % I → loads I off T = 0 := by
    intro T
    induction T with
    | zero => intro _; rfl
    | succ T ih =>
      intro h
      have hg : guard I off (T + 1) = false := by
        rw [Bool.eq_false_iff]; intro hg
        obtain ⟨k, hk⟩ := (guard_iff I off (T + 1) hI (by omega)).mp hg
        omega
      simp [loads, ih (by omega), hg]
  have hstep : ∀ k, (∀ j, j < I → loads I off (off % I + 1 + k * I + j) = k + 1) ↔
      loads I off (off % I + 1 + k * I) = k + 1 := by
    intro k
    constructor
    · intro h; exact h 0 hI
    · intro h j
      induction j with
      | zero => intro _; exact h
      | succ j ih =>
        intro hj
        have hg : guard I off (off % I + 1 + k * I + j + 1) = false := by
          rw [Bool.eq_false_iff]; intro hg
          obtain ⟨k', hk'⟩ := (guard_iff I off _ hI (by omega)).mp hg
          have e : k' * I = k * I + (j + 1) := by omega
          have : k < k' := by
            by_contra hle
            have := Nat.mul_le_mul_right I (show k' ≤ k by omega)
            omega
          have := Nat.mul_le_mul_right I (show k + 1 ≤ k' from this)
          rw [Nat.add_mul] at this; omega
        rw [show off % I + 1 + k * I + (j + 1) = (off % I + 1 + k * I + j) + 1 by omega, loads, ih (by omega), hg]
        simp
  have hbase : ∀ k, loads I off (off % I + 1 + k * I) = k + 1 := by
    intro k
    induction k with
    | zero =>
      have hg : guard I off (off % I + 1) = true := (guard_iff I off _ hI (by omega)).mpr ⟨0, by omega⟩
      rw [show off % I + 1 + 0 * I = off % I + 1 by omega, loads, hz _ (Nat.le_refl _), hg]; simp
    | succ k ih =>
      have h1 := (hstep k).mpr ih (I - 1) (by omega)
      have e : off % I + 1 + (k + 1) * I = (off % I + 1 + k * I + (I - 1)) + 1 := by rw [Nat.add_mul]; omega
      have hg : guard I off ((off % I + 1 + k * I + (I - 1)) + 1) = true :=
        (guard_iff I off _ hI (by omega)).mpr ⟨k + 1, by rw [← e]⟩
      rw [e, loads, h1, hg]; simp
  exact (hstep k).mpr (hbase k) j hj

theorem loads_before (I off T : Nat) (hI : 0 < I) (hT : T ≤ off % I) : loads I off T = 0 := by
  have hoff := Nat.mod_lt off hI
  induction T with
  | zero => rfl
  | succ T ih =>
    have hg : guard I off (T + 1) = false := by
      rw [Bool.eq_false_iff]; intro hg
      obtain ⟨k, hk⟩ := (guard_iff I off (T + 1) hI (by omega)).mp hg
      omega
    simp [loads, ih (by omega), hg]

theorem readAt_counter {α : Type} (z : α) (n I off : Nat) (v : Nat → α) (T : Nat) :
    (readAt z n I off v T).counter = loads I off T := by
  induction T with
  | zero => rfl
  | succ T ih =>
    simp only [readAt, loads]
    split <;> simp [ih]

/-- Any time from a guarded step on lies in the period of exactly one guarded step. -/
theorem period_of (I off T : Nat) (hI : 0 < I) (hT : off % I + 1 ≤ T) : ∃ k j, j < I ∧ T = off % I + 1 + k * I + j := by
  refine ⟨(T - off % I - 1) / I, (T - off % I - 1) % I, Nat.mod_lt _ hI, ?_⟩
  have := Nat.mod_add_div (T - off % I - 1) I
  rw [Nat.mul_comm] at this; omega

/-- **C50.** `Read`: the `k`-th value it reads is that of step `offset + 1 + k * interval`; it stays in slot `k mod n` until `n` further
values were read. -/
theorem C50_read {α : Type} (z : α) (n I off : Nat) (v : Nat → α) (hI : 0 < I) (_hn : 0 < n) (k T : Nat)
    (h1 : off % I + 1 + k * I ≤ T) (h2 : T < off % I + 1 + (k + n) * I) :
    (readAt z n I off v T).data (k % n) = v (off % I + 1 + k * I) := by
  obtain ⟨d, rfl⟩ : ∃ d, T = off % I + 1 + k * I + d := ⟨T - (off % I + 1 + k * I), by omega⟩
  clear h1
  induction d with
  | zero =>
    have hg : guard I off (off % I + 1 + k * I) = true := (guard_iff I off _ hI (by omega)).mpr ⟨k, rfl⟩
    have hc : loads I off (off % I + k * I) = k := by
      have h := loads_eq I off k 0 hI hI
      rw [show off % I + 1 + k * I + 0 = (off % I + k * I) + 1 by omega, loads,
        show off % I + k * I + 1 = off % I + 1 + k * I by omega, hg] at h
      simpa using h
    have e : off % I + 1 + k * I + 0 = (off % I + k * I) + 1 := by omega
    have hg' : guard I off ((off % I + k * I) + 1) = true := by
      rw [show off % I + k * I + 1 = off % I + 1 + k * I by omega]; exact hg
    rw [e, readAt]
    simp only [hg', if_true, readAt_counter, hc, upd]
    congr 1; omega
  | succ d ih =>
    have ih' := ih (by omega)
    rw [show off % I + 1 + k * I + (d + 1) = (off % I + 1 + k * I + d) + 1 by omega, readAt]
    simp only [readAt_counter]
    by_cases hg : guard I off (off % I + 1 + k * I + d + 1) = true
    · simp only [hg, if_true, upd]
      obtain ⟨k', hk'⟩ := (guard_iff I off _ hI (by omega)).mp hg
      have hlt : k < k' := by
        by_contra hle
        have := Nat.mul_le_mul_right I (show k' ≤ k by omega)
        omega
      have hlt2 : k' < k + n := by
        by_contra hle
        have := Nat.mul_le_mul_right I (show k + n ≤ k' by omega)
        omega
      have hc : loads I off (off % I + 1 + k * I + d) = k' := by
        have hpos : 1 ≤ k' := by omega
        obtain ⟨m, rfl⟩ : ∃ m, k' = m + 1 := ⟨k' - 1, by omega⟩
        have h := loads_eq I off m (I - 1) hI (by omega)
        have e : off % I + 1 + m * I + (I - 1) = off % I + 1 + k * I + d := by
          rw [Nat.add_mul] at hk'; omega
        rw [e] at h; exact h
      rw [hc, if_neg, ih']
      intro h
      have h2 : k ≡ k' [MOD n] := h
      have := (Nat.modEq_iff_dvd' (by omega)).mp h2
      exact absurd (Nat.le_of_dvd (by omega) this) (by omega)
    · have hg0 : guard I off (off % I + 1 + k * I + d + 1) = false := by simpa using hg
      rw [hg0]; simpa using ih'

example : (readAt 0 2 3 1 (fun t => t) 9).data 0 = 8 ∧ (readAt 0 2 3 1 (fun t => t) 9).data 1 = 5 := by decide

/-- **C50.** `Reset`: the Var has the reset value after exactly the guarded steps; between them its owner's dynamics act undisturbed. -/
theorem C50_reset {α : Type} (r v0 : α) (I off : Nat) (hI : 0 < I) (f : Nat → α → α) (T : Nat) (hT : 1 ≤ T) :
    ((∃ k, T = off % I + 1 + k * I) → resetAt r I off f v0 T = r) ∧
    ((¬ ∃ k, T = off % I + 1 + k * I) → resetAt r I off f v0 T = f T (resetAt r I off f v0 (T - 1))) := by
  obtain ⟨T, rfl⟩ : ∃ m, T = m + 1 := ⟨T - 1, by omega⟩
  rw [← guard_iff I off (T + 1) hI (by omega)]
  constructor
  · intro h; simp [resetAt, h]
  · intro h; simp [resetAt, h]

/-! ## C51 -/

theorem loadAt_id {α β : Type} (ds : Nat → α × β) (len I off : Nat) (gt0 : β) (hl : 0 < len) (T : Nat) :
    (loadAt ds len I off gt0 T).sampleId = loads I off T % len := by
  induction T with
  | zero => simp [loadAt, loads]
  | succ T ih =>
    simp only [loadAt, loads]
    by_cases hg : guard I off (T + 1) = true
    · simp only [hg, if_true, load, ih]
      by_cases h : loads I off T % len + 1 = len
      · rw [if_pos h]
        have := Nat.mod_add_div (loads I off T) len
        rw [show loads I off T + 1 = len * (loads I off T / len + 1) by rw [Nat.mul_add]; omega]
        simp
      · rw [if_neg h]
        have hlt := Nat.mod_lt (loads I off T) hl
        rw [Nat.add_mod, Nat.mod_eq_of_lt (a := loads I off T % len + 1 % len)]
        · rw [Nat.mod_eq_of_lt (a := 1)]; omega
        · have : 1 % len ≤ 1 := Nat.mod_le _ _
          omega
    · have hg0 : guard I off (T + 1) = false := by simpa using hg
      simp [hg0, ih]

theorem loadAt_after {α β : Type} (ds : Nat → α × β) (len I off : Nat) (gt0 : β) (hl : 0 < len) (hI : 0 < I) (k j : Nat) (hj : j < I) :
    (loadAt ds len I off gt0 (off % I + 1 + k * I + j)).gt = (ds (k % len)).2 ∧
    (loadAt ds len I off gt0 (off % I + 1 + k * I + j)).var = some (ds (k % len)).1 := by
  induction j with
  | zero =>
    have hg : guard I off (off % I + 1 + k * I) = true := (guard_iff I off _ hI (by omega)).mpr ⟨k, rfl⟩
    have hc : loads I off (off % I + k * I) = k := by
      have h := loads_eq I off k 0 hI hI
      rw [show off % I + 1 + k * I + 0 = (off % I + k * I) + 1 by omega, loads,
        show off % I + k * I + 1 = off % I + 1 + k * I by omega, hg] at h
      simpa using h
    have hg' : guard I off ((off % I + k * I) + 1) = true := by
      rw [show off % I + k * I + 1 = off % I + 1 + k * I by omega]; exact hg
    rw [show off % I + 1 + k * I + 0 = (off % I + k * I) + 1 by omega, loadAt]
    simp only [hg', if_true, load, loadAt_id ds len I off gt0 hl, hc, and_self]
  | succ j ih =>
    have hg : guard I off (off % I + 1 + k * I + j + 1) = false := by
      have h1 := loads_eq I off k (j + 1) hI hj
      have h2 := loads_eq I off k j hI (by omega)
      rw [show off % I + 1 + k * I + (j + 1) = (off % I + 1 + k * I + j) + 1 by omega, loads, h2] at h1
      by_contra hne
      simp [hne] at h1
    rw [show off % I + 1 + k * I + (j + 1) = (off % I + 1 + k * I + j) + 1 by omega, loadAt]
    simp only [hg, Bool.false_eq_true, if_false]
    exact ih (by omega)

/-- **C51.** State data loader: the samples are loaded at exactly the steps `offset + 1 + k * interval`, in dataset order and
cyclically: from the `k`-th load on, until the next, the connected Var holds sample `k mod len` and its label is sent from the next step on. -/
theorem C51_state_loader {α β : Type} (ds : Nat → α × β) (len I off : Nat) (gt0 : β) (hl : 0 < len) (hI : 0 < I) (k j : Nat) (hj : j < I) :
    (loadAt ds len I off gt0 (off % I + 1 + k * I + j)).var = some (ds (k % len)).1 ∧
    gtSent ds len I off gt0 (off % I + 1 + k * I + j + 1) = (ds (k % len)).2 := by
  have h := loadAt_after ds len I off gt0 hl hI k j hj
  refine ⟨h.2, ?_⟩
  unfold gtSent
  rw [Nat.add_sub_cancel]
  exact h.1

/-- **C51.** Before the first load nothing is written and the initial label is sent. -/
theorem C51_before_first_load {α β : Type} (ds : Nat → α × β) (len I off : Nat) (gt0 : β) (hI : 0 < I) (T : Nat) (hT : T ≤ off % I) :
    (loadAt ds len I off gt0 T).var = none ∧ gtSent ds len I off gt0 (T + 1) = gt0 := by
  have key : ∀ T, T ≤ off % I → loadAt ds len I off gt0 T = { sampleId := 0, gt := gt0, var := none } := by
    intro T
    induction T with
    | zero => intro _; rfl
    | succ T ih =>
      intro h
      have hg : guard I off (T + 1) = false := by
        rw [Bool.eq_false_iff]; intro hg
        obtain ⟨k, hk⟩ := (guard_iff I off (T + 1) hI (by omega)).mp hg
        omega
      simp [loadAt, ih (by omega), hg]
  unfold gtSent
  rw [Nat.add_sub_cancel, key T hT]
  exact ⟨rfl, rfl⟩

example : (List.range 7).map (fun t => gtSent (fun i => (i, 100 + i)) 2 2 1 0 (t + 1)) = [0, 0, 100, 100, 101, 101, 100] := by decide

theorem spkData_eq (I : Nat) (sample : List Int) (j : Nat) (hj : j < I) :
    spkData I sample j = sample.getD j 0 := by
  unfold spkData
  split
  · simp [List.getD_eq_getElem?_getD, hj]
  · dsimp only
    split
    · rfl
    · rename_i h; simp [List.getD_eq_getElem?_getD, List.getElem?_eq_none (by omega : sample.length ≤ j)]

theorem spkAt_id (ds : Nat → List Int) (len I off : Nat) (hl : 0 < len) (T : Nat) :
    (spkAt ds len I off T).sampleId = loads I off T % len := by
  induction T with
  | zero => simp [spkAt, loads]
  | succ T ih =>
    simp only [spkAt, spkStep, loads]
    by_cases hg : guard I off (T + 1) = true
    · simp only [hg, if_true, ih]
      by_cases h : loads I off T % len + 1 = len
      · rw [if_pos h]
        have := Nat.mod_add_div (loads I off T) len
        rw [show loads I off T + 1 = len * (loads I off T / len + 1) by rw [Nat.mul_add]; omega]
        simp
      · rw [if_neg h]
        have hlt := Nat.mod_lt (loads I off T) hl
        rw [Nat.add_mod, Nat.mod_eq_of_lt (a := loads I off T % len + 1 % len)]
        · rw [Nat.mod_eq_of_lt (a := 1)]; omega
        · have : 1 % len ≤ 1 := Nat.mod_le _ _
          omega
    · have hg0 : guard I off (T + 1) = false := by simpa using hg
      simp [hg0, ih]

theorem spkAt_after (ds : Nat → List Int) (len I off : Nat) (hl : 0 < len) (hI : 0 < I) (k j : Nat) (hj : j < I) :
    (spkAt ds len I off (off % I + 1 + k * I + j)).sampleTime = j ∧
    (spkAt ds len I off (off % I + 1 + k * I + j)).data = spkData I (ds (k % len)) := by
  induction j with
  | zero =>
    have hg : guard I off (off % I + 1 + k * I) = true := (guard_iff I off _ hI (by omega)).mpr ⟨k, rfl⟩
    have hc : loads I off (off % I + k * I) = k := by
      have h := loads_eq I off k 0 hI hI
      rw [show off % I + 1 + k * I + 0 = (off % I + k * I) + 1 by omega, loads,
        show off % I + k * I + 1 = off % I + 1 + k * I by omega, hg] at h
      simpa using h
    have hg' : guard I off ((off % I + k * I) + 1) = true := by
      rw [show off % I + k * I + 1 = off % I + 1 + k * I by omega]; exact hg
    rw [show off % I + 1 + k * I + 0 = (off % I + k * I) + 1 by omega, spkAt]
    simp only [spkStep, hg', if_true, spkAt_id ds len I off hl, hc, and_self]
  | succ j ih =>
    have hg : guard I off (off % I + 1 + k * I + j + 1) = false := by
      have h1 := loads_eq I off k (j + 1) hI hj
      have h2 := loads_eq I off k j hI (by omega)
      rw [show off % I + 1 + k * I + (j + 1) = (off % I + 1 + k * I + j) + 1 by omega, loads, h2] at h1
      by_contra hne
      simp [hne] at h1
    have ih' := ih (by omega)
    rw [show off % I + 1 + k * I + (j + 1) = (off % I + 1 + k * I + j) + 1 by omega, spkAt]
    simp only [spkStep, hg, Bool.false_eq_true, if_false]
    exact ⟨by rw [ih'.1], ih'.2⟩

/-- **C51.** Spike data loader: the `k`-th sample (dataset order, cyclic) is loaded in step `offset + 1 + k * interval` and its values are
sent in the following `interval` steps, one per step, with zeros after its end. -/
theorem C51_spike_loader (ds : Nat → List Int) (len I off : Nat) (hl : 0 < len) (hI : 0 < I) (k j : Nat) (hj : j < I) :
    spkSent ds len I off (off % I + 1 + k * I + 1 + j) = (ds (k % len)).getD j 0 := by
  unfold spkSent
  have e : off % I + 1 + k * I + 1 + j - 1 = off % I + 1 + k * I + j := by omega
  have h := spkAt_after ds len I off hl hI k j hj
  have hout : ∀ s t, (spkStep ds len I off s t).2 = s.data (s.sampleTime % I) := by
    intro s t; unfold spkStep; dsimp only; split <;> rfl
  rw [hout, e, h.1, h.2, Nat.mod_eq_of_lt hj, spkData_eq I _ j hj]

/-- **C51.** Up to and including the first load step the spike data loader sends zeros. -/
theorem C51_spike_loader_before (ds : Nat → List Int) (len I off : Nat) (hI : 0 < I) (t : Nat) (h1 : 1 ≤ t) (h2 : t ≤ off % I + 1) :
    spkSent ds len I off t = 0 := by
  have key : ∀ T, T ≤ off % I → (spkAt ds len I off T).data = fun _ => 0 := by
    intro T
    induction T with
    | zero => intro _; rfl
    | succ T ih =>
      intro h
      have hg : guard I off (T + 1) = false := by
        rw [Bool.eq_false_iff]; intro hg
        obtain ⟨k, hk⟩ := (guard_iff I off (T + 1) hI (by omega)).mp hg
        omega
      simp [spkAt, spkStep, hg, ih (by omega)]
  have hout : ∀ s t, (spkStep ds len I off s t).2 = s.data (s.sampleTime % I) := by
    intro s t; unfold spkStep; dsimp only; split <;> rfl
  unfold spkSent
  rw [hout, key _ (by omega)]

example : (List.range 8).map (fun t => spkSent (fun i => if i = 0 then [1, 2, 3, 4] else [7]) 2 3 1 (t + 1)) = [0, 0, 1, 2, 3, 7, 0, 0] := by decide

/-! ## C53 -/

theorem spikerAt_eq (p k j : Nat) (_hp : 1 ≤ p) (hj : j < p) : spikerAt p (k * p + j + 1) = j + 1 := by
  have h0 : ∀ j, j < p → spikerAt p (j + 1) = j + 1 := by
    intro j
    induction j with
    | zero => intro h; rw [spikerAt, spikerAt, spikerStep, if_neg (by omega)]
    | succ j ih => intro h; rw [spikerAt, ih (by omega), spikerStep, if_neg (by omega)]
  induction k generalizing j with
  | zero => simpa using h0 j hj
  | succ k ih =>
    have hlast := ih (p - 1) (by omega)
    have hwrap : spikerAt p ((k + 1) * p + 0 + 1) = 1 := by
      rw [show (k + 1) * p + 0 + 1 = (k * p + (p - 1) + 1) + 1 by rw [Nat.add_mul]; omega, spikerAt, hlast, spikerStep,
        if_pos (by omega)]
    clear hlast
    induction j with
    | zero => exact hwrap
    | succ j ih2 =>
      rw [show (k + 1) * p + (j + 1) + 1 = ((k + 1) * p + j + 1) + 1 by omega, spikerAt, ih2 (by omega), spikerStep,
        if_neg (by omega)]

/-- **C53.** A spiker with period `p ≥ 1` sends its payload exactly in the steps `p + 1, 2p + 1, 3p + 1, ...` (as documented:
the first at `period + 1`). -/
theorem C53_spiker (p t : Nat) (hp : 1 ≤ p) (ht : 1 ≤ t) : spikerSends p t = true ↔ ∃ k, 1 ≤ k ∧ t = k * p + 1 := by
  unfold spikerSends
  have hs : ∀ c, (spikerStep p c).2 = true ↔ c = p := by
    intro c; unfold spikerStep; split <;> simp_all
  rw [hs]
  rcases Nat.eq_or_lt_of_le ht with h1 | h1
  · subst h1
    constructor
    · intro h; simp [spikerAt] at h; omega
    · rintro ⟨k, hk, h⟩
      have : 1 ≤ k * p := Nat.mul_pos hk hp
      omega
  · -- t - 1 = k*p + j + 1
    have hm := Nat.mod_add_div (t - 2) p
    have hlt := Nat.mod_lt (t - 2) hp
    have e : t - 1 = (t - 2) / p * p + (t - 2) % p + 1 := by rw [Nat.mul_comm]; omega
    rw [e, spikerAt_eq p _ _ hp hlt]
    constructor
    · intro h
      refine ⟨(t - 2) / p + 1, Nat.le_add_left 1 _, ?_⟩
      rw [Nat.add_mul]; omega
    · rintro ⟨k, hk, rfl⟩
      obtain ⟨m, rfl⟩ : ∃ m, k = m + 1 := ⟨k - 1, by omega⟩
      rw [show (m + 1) * p + 1 - 2 = (p - 1) + m * p by rw [Nat.add_mul]; omega, Nat.add_mul_mod_self_right,
        Nat.mod_eq_of_lt (by omega)]
      omega

/-- **C53, finding.** With period 0 the spiker fires in the first step and never again. -/
theorem C53_witness_period_zero (t : Nat) (ht : 1 ≤ t) : spikerSends 0 t = true ↔ t = 1 := by
  have key : ∀ n, spikerAt 0 (n + 1) = n + 1 := by
    intro n
    induction n with
    | zero => simp [spikerAt, spikerStep]
    | succ n ih => rw [spikerAt, ih, spikerStep, if_neg (by omega)]
  unfold spikerSends
  rcases Nat.eq_or_lt_of_le ht with h1 | h1
  · subst h1; simp [spikerAt, spikerStep]
  · rw [show t - 1 = (t - 2) + 1 by omega, key, spikerStep, if_neg (by omega)]
    simp; omega

example : (List.range 8).map (fun t => spikerSends 3 (t + 1)) = [false, false, false, true, false, false, true, false] := by decide

/-! ## C54 -/

theorem int32_id (x : Int) (h1 : -2 ^ 31 ≤ x) (h2 : x < 2 ^ 31) : int32 x = x := by
  unfold int32; rw [Int.emod_eq_of_lt (by omega) (by omega)]; omega

theorem int32_range (x : Int) : -2 ^ 31 ≤ int32 x ∧ int32 x < 2 ^ 31 := by
  unfold int32
  have h1 := Int.emod_nonneg (x + 2 ^ 31) (show (2 : Int) ^ 32 ≠ 0 by omega)
  have h2 := Int.emod_lt_of_pos (x + 2 ^ 31) (show (0 : Int) < 2 ^ 32 by omega)
  constructor <;> omega

/-- Specification: `x` is representable as a signed integer of `bits` bits. -/
def Fits (bits : Nat) (x : Int) : Prop := -2 ^ (bits - 1) ≤ x ∧ x < 2 ^ (bits - 1)

theorem bitOk_iff (bits : Nat) (h1 : 1 ≤ bits) (h2 : bits ≤ 32) (x : Int) (hx : -2 ^ 31 ≤ x ∧ x < 2 ^ 31) :
    bitOk bits x = true ↔ Fits bits x := by
  have hv := int32_id x hx.1 hx.2
  simp only [bitOk, hv, decide_eq_true_eq, Fits]
  have e : (2 : Int) ^ 31 = 2 ^ (bits - 1) * 2 ^ (32 - bits) := by rw [← pow_add]; congr 1; omega
  have hs : (0 : Int) < 2 ^ (32 - bits) := by positivity
  generalize hA : (2 : Int) ^ (bits - 1) = A at *
  generalize hS : (2 : Int) ^ (32 - bits) = S at *
  constructor
  · intro h
    have hr := int32_range (x * S)
    rw [e] at hr
    constructor
    · rw [← h, Int.le_ediv_iff_mul_le hs]; linarith [hr.1]
    · rw [← h]; exact Int.ediv_lt_of_lt_mul hs hr.2
  · rintro ⟨ha, hb⟩
    have h3 : -2 ^ 31 ≤ x * S := by rw [e]; nlinarith
    have h4 : x * S < 2 ^ 31 := by rw [e]; exact mul_lt_mul_of_pos_right hb hs
    rw [int32_id _ h3 h4, Int.mul_ediv_cancel _ (ne_of_gt hs)]

/-- **C54.** For values in the int32 range and 1 to 32 bits: the check reports an overflow exactly if some value does not fit. -/
theorem C54_overflow_iff (bits : Nat) (h1 : 1 ≤ bits) (h2 : bits ≤ 32) (vs : List Int) (hv : ∀ x ∈ vs, -2 ^ 31 ≤ x ∧ x < 2 ^ 31) :
    overflows bits vs = true ↔ ∃ x ∈ vs, ¬ Fits bits x := by
  unfold overflows
  rw [Bool.not_eq_true', Bool.eq_false_iff, ne_eq, List.all_eq_true]
  constructor
  · intro h
    by_contra hne
    apply h
    intro x hx
    rw [bitOk_iff bits h1 h2 x (hv x hx)]
    by_contra hf
    exact hne ⟨x, hx, hf⟩
  · rintro ⟨x, hx, hf⟩ h
    exact hf ((bitOk_iff bits h1 h2 x (hv x hx)).mp (h x hx))

/-- **C54.** The `overflowed` flag after any number of steps says whether any value of any step did not fit. -/
theorem C54_flag (bits : Nat) (h1 : 1 ≤ bits) (h2 : bits ≤ 32) (hist : List (List Int))
    (hv : ∀ vs ∈ hist, ∀ x ∈ vs, -2 ^ 31 ≤ x ∧ x < 2 ^ 31) :
    overflowFlag bits hist false = true ↔ ∃ vs ∈ hist, ∃ x ∈ vs, ¬ Fits bits x := by
  have key : ∀ (hist : List (List Int)) (f : Bool), (∀ vs ∈ hist, ∀ x ∈ vs, -2 ^ 31 ≤ x ∧ x < 2 ^ 31) →
      (overflowFlag bits hist f = true ↔ f = true ∨ ∃ vs ∈ hist, ∃ x ∈ vs, ¬ Fits bits x) := by
    intro hist
    induction hist with
    | nil => intro f _; simp [overflowFlag]
    | cons v hist ih =>
      intro f hv
      rw [overflowFlag, ih _ (fun vs h => hv vs (by simp [h]))]
      have ho := C54_overflow_iff bits h1 h2 v (hv v (by simp))
      by_cases h : overflows bits v = true
      · simp only [h, if_true, true_or, true_iff]
        exact Or.inr ⟨v, by simp, ho.mp h⟩
      · rw [if_neg h]
        have hno : ¬ ∃ x ∈ v, ¬ Fits bits x := fun hx => h (ho.mpr hx)
        constructor
        · rintro (hf | ⟨vs, h3, h4⟩)
          · exact Or.inl hf
          · exact Or.inr ⟨vs, by simp [h3], h4⟩
        · rintro (hf | ⟨vs, h3, h4⟩)
          · exact Or.inl hf
          · rcases List.mem_cons.mp h3 with rfl | h3
            · exact absurd h4 hno
            · exact Or.inr ⟨vs, h3, h4⟩
  have := key hist false hv
  simpa using this

example : overflows 8 [127, -128] = false ∧ overflows 8 [128] = true ∧ overflows 8 [3, -129] = true := by decide

/-- **C54, finding.** Wider values are first cut to 32 bits: 2^32 is reported to fit into 8 bits. -/
theorem C54_witness_64_bit : overflows 8 [2 ^ 32] = false ∧ ¬ Fits 8 (2 ^ 32) := by
  refine ⟨by decide, ?_⟩
  unfold Fits; omega

/-! ## C52 -/

/-- Everything accepted is either returned, or announced, or in flight - in this order. For FIFO receivers. -/
structure InvCh (cap : Nat) (c : Ch) : Prop where
  cap : c.vis.length + c.flight.length + c.acks ≤ cap

theorem act_cap (p : Policy) (cap : Nat) (c : Ch) (a : Act) (h : InvCh cap c) : InvCh cap (act p cap c a) := by
  have hc := h.cap
  cases a with
  | send x =>
    simp only [act, Ch.free, decide_eq_true_eq]
    split
    · constructor; simp; omega
    · split <;> constructor <;> exact hc
  | deliver =>
    simp only [act]
    split
    · exact h
    · rename_i x r heq
      constructor; rw [heq] at hc; simp at *; omega
  | ackBack => simp only [act]; constructor; simp; omega
  | recv =>
    simp only [act]
    split
    · split <;> constructor <;> simpa using hc
    · rename_i x r heq
      rw [heq] at hc
      split <;> constructor <;> simp at * <;> omega

/-- **C52, capacity.** However the policies are set and the threads interleave, the channel never holds more than `buffer_size` items. -/
theorem C52_bounded (p : Policy) (cap : Nat) (l : List Act) :
    (acts p cap initCh l).vis.length + (acts p cap initCh l).flight.length ≤ cap := by
  have key : ∀ (l : List Act) (c : Ch), InvCh cap c → InvCh cap (acts p cap c l) := by
    intro l
    induction l with
    | nil => intro c h; exact h
    | cons a l ih => intro c h; exact ih _ (act_cap p cap c a h)
  have := (key l initCh ⟨by simp [initCh]⟩).cap
  omega

/-- **C52, slots.** Taking items out of the buffer, one or all of them, hands back exactly their slots: the number of slots
in use does not change by the receiving call itself, and becomes free as they are handed back one by one. Once the buffer is
drained and every slot handed back, the full `buffer_size` can be sent again without blocking or dropping. -/
theorem C52_slots_returned (p : Policy) (cap : Nat) (c : Ch) :
    ((act p cap c .recv).vis.length + (act p cap c .recv).flight.length + (act p cap c .recv).acks =
      c.vis.length + c.flight.length + c.acks) ∧
    (c.vis = [] → c.flight = [] → ∀ xs : List Int, xs.length ≤ cap →
      (acts p cap c (List.replicate c.acks .ackBack ++ xs.map .send)).accepted = c.accepted ++ xs ∧
      (acts p cap c (List.replicate c.acks .ackBack ++ xs.map .send)).dropped = c.dropped) := by
  refine ⟨?_, ?_⟩
  · simp only [act]
    split
    · split <;> rfl
    · rename_i x r heq
      rw [heq]
      split <;> simp <;> omega
  · intro hv hf xs hx
    have hack : ∀ (k : Nat) (c : Ch), acts p cap c (List.replicate k .ackBack) = { c with acks := c.acks - k } := by
      intro k
      induction k with
      | zero => intro c; rfl
      | succ k ih =>
        intro c
        show acts p cap (act p cap c .ackBack) (List.replicate k .ackBack) = _
        rw [ih]
        simp [act, Nat.sub_sub, Nat.add_comm]
    have hsend : ∀ (xs : List Int) (c : Ch), c.vis.length + c.flight.length + c.acks + xs.length ≤ cap →
        (acts p cap c (xs.map .send)).accepted = c.accepted ++ xs ∧
        (acts p cap c (xs.map .send)).dropped = c.dropped := by
      intro xs
      induction xs with
      | nil => intro c _; simp [acts]
      | cons x xs ih =>
        intro c h
        rw [List.length_cons] at h
        have hfree : c.free cap = true := by simp only [Ch.free, decide_eq_true_eq]; omega
        have he : act p cap c (.send x) =
            { c with flight := c.flight ++ [x], accepted := c.accepted ++ [x], sends := c.sends + 1 } := by
          simp only [act, hfree, if_true]
        have := ih (act p cap c (.send x)) (by rw [he]; simp; omega)
        rw [he] at this
        have hcons : acts p cap c ((x :: xs).map .send) = acts p cap (act p cap c (.send x)) (xs.map .send) := rfl
        rw [hcons, he]
        refine ⟨by rw [this.1]; simp, this.2⟩
    have happ : acts p cap c (List.replicate c.acks .ackBack ++ xs.map .send) =
        acts p cap (acts p cap c (List.replicate c.acks .ackBack)) (xs.map .send) := by simp [acts]
    rw [happ, hack]
    exact hsend xs _ (by simp [hv, hf]; omega)

example : (acts ⟨true, false, true⟩ 2 initCh [.send 1, .send 2, .send 3, .deliver, .deliver, .recv, .ackBack, .ackBack,
    .send 4, .send 5]).accepted = [1, 2, 4, 5] := by decide

/-- **C52, DROP.** A send call never blocks: it always completes, and either the data is accepted, or it is dropped and then no
slot was free. -/
theorem C52_drop_never_blocks (p : Policy) (hp : p.drop = true) (cap : Nat) (c : Ch) (x : Int) :
    (act p cap c (.send x)).sends = c.sends + 1 ∧
    ((act p cap c (.send x)).accepted = c.accepted ++ [x] ∧ (act p cap c (.send x)).dropped = c.dropped ∨
     (act p cap c (.send x)).accepted = c.accepted ∧ (act p cap c (.send x)).dropped = c.dropped ++ [x] ∧
       cap ≤ c.vis.length + c.flight.length + c.acks) := by
  simp only [act]
  by_cases h : c.free cap = true
  · simp [h]
  · have h0 : c.free cap = false := by simpa using h
    simp only [h0, hp, Bool.false_eq_true, if_false, if_true, true_and]
    right
    simpa [Ch.free] using h0

/-- **C52, BLOCKING.** Nothing is ever dropped. -/
theorem C52_blocking_drops_nothing (p : Policy) (hp : p.drop = false) (cap : Nat) (l : List Act) :
    (acts p cap initCh l).dropped = [] ∧ (acts p cap initCh l).sends = (acts p cap initCh l).accepted.length := by
  have key : ∀ (l : List Act) (c : Ch), c.dropped = [] → c.sends = c.accepted.length →
      (acts p cap c l).dropped = [] ∧ (acts p cap c l).sends = (acts p cap c l).accepted.length := by
    intro l
    induction l with
    | nil => intro c h1 h2; exact ⟨h1, h2⟩
    | cons a l ih =>
      intro c h1 h2
      refine ih _ ?_ ?_
      · cases a with
        | send x => simp only [act, hp]; split <;> simpa using h1
        | deliver => simp only [act]; split <;> exact h1
        | ackBack => exact h1
        | recv => simp only [act]; split <;> split <;> exact h1
      · cases a with
        | send x => simp only [act, hp]; split <;> simp [h2]
        | deliver => simp only [act]; split <;> exact h2
        | ackBack => exact h2
        | recv => simp only [act]; split <;> split <;> exact h2
  exact key l initCh rfl rfl

/-- **C52, FIFO with blocking receive.** The values returned are exactly the accepted ones, in order; what is missing is still in the channel. -/
theorem C52_fifo (p : Policy) (h1 : p.accumulate = false) (h2 : p.zeros = false) (cap : Nat) (l : List Act) :
    (acts p cap initCh l).accepted = (acts p cap initCh l).outs ++ (acts p cap initCh l).vis ++ (acts p cap initCh l).flight := by
  have key : ∀ (l : List Act) (c : Ch), c.accepted = c.outs ++ c.vis ++ c.flight →
      (acts p cap c l).accepted = (acts p cap c l).outs ++ (acts p cap c l).vis ++ (acts p cap c l).flight := by
    intro l
    induction l with
    | nil => intro c h; exact h
    | cons a l ih =>
      intro c h
      refine ih _ ?_
      cases a with
      | send x => simp only [act]; split
                  · simp [h]
                  · split <;> exact h
      | deliver => simp only [act]; split
                   · exact h
                   · rename_i x r heq; rw [heq] at h; simp [h]
      | ackBack => exact h
      | recv => simp only [act, h1, h2]; split
                · simpa using h
                · rename_i x r heq; rw [heq] at h; simp [h]
  exact key l initCh rfl

theorem foldl_add (l : List Int) (a : Int) : l.foldl (· + ·) a = a + l.sum := by
  induction l generalizing a with
  | nil => simp
  | cons x l ih => simp [ih]; ring

/-- **C52, conservation.** Under every combination of policies and every interleaving, the sum of all results plus what is still in
the channel is the sum of everything accepted: zeros-when-empty and accumulation lose and duplicate nothing. -/
theorem C52_sum_conserved (p : Policy) (cap : Nat) (l : List Act) :
    (acts p cap initCh l).outs.sum + (acts p cap initCh l).vis.sum + (acts p cap initCh l).flight.sum =
      (acts p cap initCh l).accepted.sum := by
  have key : ∀ (l : List Act) (c : Ch), c.outs.sum + c.vis.sum + c.flight.sum = c.accepted.sum →
      (acts p cap c l).outs.sum + (acts p cap c l).vis.sum + (acts p cap c l).flight.sum = (acts p cap c l).accepted.sum := by
    intro l
    induction l with
    | nil => intro c h; exact h
    | cons a l ih =>
      intro c h
      refine ih _ ?_
      cases a with
      | send x => simp only [act]; split
                  · simp [← h]; ring
                  · split <;> exact h
      | deliver => simp only [act]; split
                   · exact h
                   · rename_i x r heq; rw [heq] at h; simp at h ⊢; rw [← h]; ring
      | ackBack => exact h
      | recv => simp only [act]; split
                · split
                  · simpa using h
                  · exact h
                · rename_i x r heq
                  rw [heq] at h
                  split
                  · simp only [foldl_add, List.sum_append, List.sum_cons, List.sum_nil] at h ⊢
                    rw [← h]; ring
                  · simp at h ⊢; rw [← h]; ring
  exact key l initCh rfl

/-- **C52, ACCUMULATE.** One receiving call that finds the buffer non-empty returns the sum of everything announced and empties the buffer. -/
theorem C52_accumulate_takes_all (p : Policy) (hp : p.accumulate = true) (cap : Nat) (c : Ch) (hw : c.waiting = false) (h : c.vis ≠ []) :
    (act p cap c .recv).outs = c.outs ++ [c.vis.sum] ∧ (act p cap c .recv).vis = [] := by
  simp only [act]
  split
  · rename_i heq; exact absurd heq h
  · rename_i x r heq
    simp only [hp, hw, Bool.not_false, Bool.and_true, if_true, foldl_add, heq, and_true]
    simp

/-- **C52, ZEROS.** A receiving call on an empty buffer returns zero at once and changes nothing else. -/
theorem C52_zeros (p : Policy) (hp : p.zeros = true) (cap : Nat) (c : Ch) (h : c.vis = []) :
    act p cap c .recv = { c with outs := c.outs ++ [0] } := by
  simp [act, h, hp]

example : (acts ⟨true, true, true⟩ 2 initCh [.send 1, .recv, .send 2, .send 3, .deliver, .deliver, .recv]).outs = [0, 3] ∧
    (acts ⟨true, true, true⟩ 2 initCh [.send 1, .recv, .send 2, .send 3, .deliver, .deliver, .recv]).dropped = [3] := by decide

/-- **C52, finding.** "Full" includes slots whose item was received already but whose acknowledgement is still on its way: here an item is
dropped although the channel holds no item at all. -/
theorem C52_witness_drop_on_empty_channel :
    let c := acts ⟨true, true, false⟩ 1 initCh [.send 1, .deliver, .recv, .send 2]
    c.dropped = [2] ∧ c.vis = [] ∧ c.flight = [] := by decide

/-- The same in the thread-level channel model: after one item was sent and received completely, `probe` still answers False to the
sender until its callback thread has run, so the DROP policy drops although the channel is empty. -/
theorem C52_witness_channel_probe :
    let s := Channel.run 1 1 [.sendStart [1], .sendWrite, .sendDone, .reqTake, .reqPut, .recvStart, .recvCopy, .recvDone, .sProbe]
    s.sProbes = [false] ∧ s.recvd = s.sent := by decide

end Verif.IO
