import Verif.Learning.FloatModel
import Verif.Learning.FloatSpec
import Verif.Learning.PlastProps
import Verif.Learning.EqProps
import Mathlib.Tactic.Ring
import Mathlib.Tactic.Linarith

/-!
# C86: floating-point learning is trace-based; STDPLoihi is pair-based STDP
-/

set_option linter.unusedSectionVars false

namespace Verif.Learning

open Spec
open Verif.Weights (SignMode)

section Sums
variable {K : Type} [Field K] [LinearOrder K]

theorem sum_Icc_one (N : Nat) (f : Nat → K) : ∑ s ∈ Finset.Icc 1 N, f s = ∑ k ∈ Finset.range N, f (k + 1) := by
  induction N with
  | zero => simp
  | succ n ih => rw [Finset.sum_Icc_succ_top (by omega), ih, Finset.sum_range_succ]

theorem sum_range_mul_succ (m T : Nat) (f : Nat → K) :
    ∑ k ∈ Finset.range ((m + 1) * T), f k = ∑ k ∈ Finset.range (m * T), f k + ∑ j ∈ Finset.range T, f (m * T + j) := by
  rw [show (m + 1) * T = m * T + T by ring, Finset.sum_range_add]

theorem sum_Icc_epoch (m T : Nat) (f : Nat → K) :
    ∑ s ∈ Finset.Icc 1 ((m + 1) * T), f s = ∑ s ∈ Finset.Icc 1 (m * T), f s + ∑ j ∈ Finset.range T, f (m * T + j + 1) := by
  rw [sum_Icc_one, sum_range_mul_succ, sum_Icc_one]

/-- Spikes `p 0 .. p (i-1)`; all but the last one contribute `a`, the last one `f`. -/
def lastSum (p : Nat → Bool) (i : Nat) (a : K) (f : Nat → K) : K :=
  ∑ j ∈ Finset.range i, if p j = true then (if ∃ k, k < i ∧ j < k ∧ p k = true then a else f j) else 0

theorem lastSum_not {p : Nat → Bool} {i : Nat} (h : p i = false) (a : K) (f : Nat → K) : lastSum p (i + 1) a f = lastSum p i a f := by
  unfold lastSum
  rw [Finset.sum_range_succ, h]
  simp only [Bool.false_eq_true, if_false, add_zero]
  apply Finset.sum_congr rfl
  intro j _
  have : (∃ k, k < i + 1 ∧ j < k ∧ p k = true) ↔ (∃ k, k < i ∧ j < k ∧ p k = true) := by
    constructor
    · rintro ⟨k, h1, h2, h3⟩
      refine ⟨k, ?_, h2, h3⟩
      rcases Nat.lt_succ_iff_lt_or_eq.1 h1 with h4 | h4
      · exact h4
      · subst h4; rw [h] at h3; exact absurd h3 (by simp)
    · rintro ⟨k, h1, h2, h3⟩
      exact ⟨k, by omega, h2, h3⟩
  simp only [this]

theorem lastSum_spike {p : Nat → Bool} {i : Nat} (h : p i = true) (a : K) (f : Nat → K) :
    lastSum p (i + 1) a f = lastSum p i a (fun _ => a) + f i := by
  unfold lastSum
  rw [Finset.sum_range_succ]
  congr 1
  · apply Finset.sum_congr rfl
    intro j hj
    have hj' := Finset.mem_range.1 hj
    have : (∃ k, k < i + 1 ∧ j < k ∧ p k = true) := ⟨i, by omega, hj', h⟩
    simp only [this, if_true, ite_self]
  · rw [if_pos h, if_neg]
    rintro ⟨k, h1, h2, _⟩
    omega

end Sums

section Trace
variable {K : Type} [Field K] [LinearOrder K]

/-- What happens to one trace in an epoch before learning: last spike and stored value after `i` steps. -/
def epochTr (c : FTr K) (p : Nat → Bool) (e : Option K) : Nat → Nat × Option K
  | 0 => (0, e)
  | i + 1 => (if p i = true then i + 1 else (epochTr c p e i).1, bump c (epochTr c p e i).1 (p i) (epochTr c p e i).2)

/-- The recorded spike time and the number of spikes counted at the start of the epoch. -/
theorem epochTr_closed (c : FTr K) (p : Nat → Bool) (e : K) : ∀ i, ∃ n : Nat, (epochTr c p (some e) i).2 = some (e + n * c.imp) ∧
    (epochTr c p (some e) i).1 ≤ i ∧
    ∀ (a : K) (f : Nat → K), lastSum p i a f = n * a + (if (epochTr c p (some e) i).1 = 0 then 0 else f ((epochTr c p (some e) i).1 - 1))
  | 0 => ⟨0, by simp [epochTr], by simp [epochTr], by intro a f; simp [lastSum, epochTr]⟩
  | i + 1 => by
    obtain ⟨n, h1, h2, h3⟩ := epochTr_closed c p e i
    rcases hp : p i with _ | _
    · refine ⟨n, ?_, ?_, ?_⟩
      · simp only [epochTr, hp, bump, multi, Bool.and_false, Bool.false_eq_true, if_false, h1]
      · simp only [epochTr, hp, Bool.false_eq_true, if_false]; omega
      · intro a f
        rw [lastSum_not hp, h3]
        simp only [epochTr, hp, Bool.false_eq_true, if_false]
    · by_cases h0 : (epochTr c p (some e) i).1 = 0
      · refine ⟨n, ?_, ?_, ?_⟩
        · simp [epochTr, hp, bump, multi, h0, h1]
        · simp [epochTr, hp]
        · intro a f
          rw [lastSum_spike hp, h3, if_pos h0]
          simp [epochTr, hp]
      · refine ⟨n + 1, ?_, ?_, ?_⟩
        · have : 0 < (epochTr c p (some e) i).1 := by omega
          simp only [epochTr, hp, bump, multi, this, decide_true, Bool.and_true, if_true, h1, Option.map_some, Option.some.injEq]
          push_cast; ring
        · simp [epochTr, hp]
        · intro a f
          rw [lastSum_spike hp, h3, if_neg h0]
          simp only [epochTr, hp, if_true]
          push_cast; simp; ring

/-- Value inside the epoch. -/
theorem fhist_closed (imp d : K) (ts : Nat) (v : K) : ∀ i, fhist ⟨imp, some d⟩ ts (some v) i =
    some (v * d ^ i + if 1 ≤ ts ∧ ts ≤ i then imp * d ^ (i - ts) else 0)
  | 0 => by
    have : ¬ (1 ≤ ts ∧ ts ≤ 0) := by omega
    rw [if_neg this]
    simp [fhist]
  | i + 1 => by
    simp only [fhist, fhist_closed imp d ts v i, Option.bind_some, Option.map_some]
    by_cases h1 : ts = i + 1
    · have h2 : ¬ (1 ≤ ts ∧ ts ≤ i) := by omega
      have h3 : 1 ≤ ts ∧ ts ≤ i + 1 := by omega
      rw [if_pos h1, if_neg h2, if_pos h3, h1]
      simp only [Option.map_some, Nat.sub_self, pow_zero]
      congr 1; ring
    · rw [if_neg h1]
      by_cases h2 : 1 ≤ ts ∧ ts ≤ i
      · have h3 : 1 ≤ ts ∧ ts ≤ i + 1 := by omega
        rw [if_pos h2, if_pos h3]
        have : i + 1 - ts = (i - ts) + 1 := by omega
        rw [this]
        congr 1; ring
      · have h3 : ¬ (1 ≤ ts ∧ ts ≤ i + 1) := by omega
        rw [if_neg h2, if_neg h3]
        congr 1; ring

/-- Spec side: spikes of epoch `m`. -/
theorem later_epoch {T m j : Nat} (hj : j < T) (spk : Nat → Bool) :
    Later T spk (m * T + j + 1) ↔ ∃ k, k < T ∧ j < k ∧ spk (m * T + k + 1) = true := by
  have hE : epochOf T (m * T + j + 1) = m := by
    unfold epochOf
    rw [Nat.add_sub_cancel, Nat.mul_comm, Nat.mul_add_div (by omega), Nat.div_eq_of_lt hj, Nat.add_zero]
  unfold Later
  rw [hE]
  constructor
  · rintro ⟨s', h1, h2, h3⟩
    have : (m + 1) * T = m * T + T := by ring
    refine ⟨s' - (m * T + 1), by omega, by omega, ?_⟩
    rw [show m * T + (s' - (m * T + 1)) + 1 = s' by omega]; exact h3
  · rintro ⟨k, h1, h2, h3⟩
    have : (m + 1) * T = m * T + T := by ring
    exact ⟨m * T + k + 1, by omega, by omega, h3⟩

theorem epochOf_eq {T m j : Nat} (hj : j < T) : epochOf T (m * T + j + 1) = m := by
  unfold epochOf
  rw [Nat.add_sub_cancel, Nat.mul_comm, Nat.mul_add_div (by omega), Nat.div_eq_of_lt hj, Nat.add_zero]

theorem credit_le {T : Nat} (hT : 0 < T) (spk : Nat → Bool) {s : Nat} : credit T spk s ≤ s := by
  unfold credit
  split
  · unfold epochOf
    have := Nat.div_mul_le_self (s - 1) T
    omega
  · exact Nat.le_refl s

/-- The sum over all spikes of the epochs before `m`, at the start of epoch `m`. -/
def startTrace (imp d : K) (T : Nat) (spk : Nat → Bool) (m : Nat) : K :=
  ∑ k ∈ Finset.range (m * T), if spk (k + 1) = true then imp * d ^ (m * T - credit T spk (k + 1)) else 0

/-- The trace of the specification, split at the start of the epoch. -/
theorem trace_split (imp d : K) {T m i : Nat} (hi : i < T) (spk : Nat → Bool) :
    trace imp d T spk (m * T + i + 1) = startTrace imp d T spk m * d ^ (i + 1) +
      lastSum (fun j => spk (m * T + j + 1)) T (imp * d ^ (i + 1)) (fun j => if j ≤ i then imp * d ^ (i - j) else 0) := by
  have hT : 0 < T := by omega
  unfold trace
  rw [epochOf_eq hi, sum_Icc_one, sum_range_mul_succ]
  congr 1
  · unfold startTrace
    rw [Finset.sum_mul]
    apply Finset.sum_congr rfl
    intro k hk
    have hk' := Finset.mem_range.1 hk
    have hc := credit_le hT spk (s := k + 1)
    have h1 : credit T spk (k + 1) ≤ m * T + i + 1 := by omega
    by_cases hs : spk (k + 1) = true
    · rw [if_pos ⟨hs, h1⟩, if_pos hs]
      have : m * T + i + 1 - credit T spk (k + 1) = (m * T - credit T spk (k + 1)) + (i + 1) := by omega
      rw [this, pow_add]; ring
    · rw [if_neg (fun h => hs h.1), if_neg hs, zero_mul]
  · unfold lastSum
    apply Finset.sum_congr rfl
    intro j hj
    have hj' := Finset.mem_range.1 hj
    by_cases hs : spk (m * T + j + 1) = true
    · by_cases hl : Later T spk (m * T + j + 1)
      · have hl' := (later_epoch hj' spk).1 hl
        have hc : credit T spk (m * T + j + 1) = m * T := by
          unfold credit; rw [if_pos hl, epochOf_eq hj']
        rw [hc, if_pos ⟨hs, by omega⟩, if_pos hs, if_pos hl']
        congr 2; omega
      · have hl' : ¬ ∃ k, k < T ∧ j < k ∧ spk (m * T + k + 1) = true := fun h => hl ((later_epoch hj' spk).2 h)
        have hc : credit T spk (m * T + j + 1) = m * T + j + 1 := by
          unfold credit; rw [if_neg hl]
        rw [hc, if_pos hs, if_neg hl']
        show _ = if j ≤ i then imp * d ^ (i - j) else 0
        by_cases hji : j ≤ i
        · rw [if_pos ⟨hs, by omega⟩, if_pos hji]
          congr 2; omega
        · rw [if_neg (fun h => hji (by omega)), if_neg hji]
    · rw [if_neg (fun h => hs h.1), if_neg hs]

/-- At the end of an epoch the trace of the specification is what the next epoch starts with. -/
theorem startTrace_succ (imp d : K) {T : Nat} (hT : 0 < T) (m : Nat) (spk : Nat → Bool) :
    startTrace imp d T spk (m + 1) = trace imp d T spk ((m + 1) * T) := by
  have h := trace_split imp d (m := m) (i := T - 1) (by omega : T - 1 < T) spk
  have he : m * T + (T - 1) + 1 = (m + 1) * T := by
    have : (m + 1) * T = m * T + T := by ring
    omega
  unfold startTrace trace
  have h1 : epochOf T ((m + 1) * T) = m := by rw [← he]; exact epochOf_eq (by omega)
  rw [h1, sum_Icc_one]
  apply Finset.sum_congr rfl
  intro k hk
  have hk' := Finset.mem_range.1 hk
  have hc := credit_le hT spk (s := k + 1)
  by_cases hs : spk (k + 1) = true
  · rw [if_pos hs, if_pos ⟨hs, by omega⟩]
  · rw [if_neg hs, if_neg (fun h => hs h.1)]

/-- One epoch of one trace: what is read at step `i + 1` of the epoch, if it starts with the specified value. -/
theorem epoch_read (imp d : K) {T m i : Nat} (hi : i < T) (spk : Nat → Bool) :
    let r := epochTr ⟨imp, some d⟩ (fun j => spk (m * T + j + 1)) (some (startTrace imp d T spk m)) T
    fhist ⟨imp, some d⟩ r.1 r.2 (i + 1) = some (trace imp d T spk (m * T + i + 1)) := by
  intro r
  obtain ⟨n, h1, h2, h3⟩ := epochTr_closed ⟨imp, some d⟩ (fun j => spk (m * T + j + 1)) (startTrace imp d T spk m) T
  rw [show r = epochTr ⟨imp, some d⟩ (fun j => spk (m * T + j + 1)) (some (startTrace imp d T spk m)) T from rfl, h1, fhist_closed, trace_split imp d hi, h3]
  congr 1
  rw [add_mul, add_assoc]
  congr 1
  generalize (epochTr ⟨imp, some d⟩ (fun j => spk (m * T + j + 1)) (some (startTrace imp d T spk m)) T).1 = ts
  by_cases h0 : ts = 0
  · subst h0
    simp; ring
  · rw [if_neg h0]
    by_cases hle : ts ≤ i + 1
    · rw [if_pos ⟨by omega, hle⟩, if_pos (by omega), show i + 1 - ts = i - (ts - 1) by omega]; ring
    · rw [if_neg (fun h => hle h.2), if_neg (by omega)]; ring

end Trace

/-! ## From one trace to the connection -/

section Run
variable {K : Type} [Field K] [LinearOrder K]

/-- The traces. -/
def V.isTrace : V → Bool
  | .x1 | .x2 | .y1 | .y2 | .y3 => true
  | _ => false

/-- Parameters, recorded spike time, stored value and spikes of a trace. -/
def cOf (c : FCfg K) : V → FTr K
  | .x1 => c.cx1
  | .x2 => c.cx2
  | .y1 => c.cy1
  | .y2 => c.cy2
  | _ => c.cy3

def tsOf (s : FSt K) : V → Nat
  | .x1 | .x2 => s.tx
  | _ => s.ty

def trOf (s : FSt K) : V → Option K
  | .x1 => s.x1
  | .x2 => s.x2
  | .y1 => s.y1
  | .y2 => s.y2
  | _ => s.y3

/-- The spikes of the neuron a trace belongs to. -/
def spikesOf (inp : Nat → FInp K) : V → Nat → Bool
  | .x1, n | .x2, n => decide ((inp n).pre ≠ 0)
  | _, n => (inp n).post

/-- The spikes a dependency refers to. -/
def preSpk (inp : Nat → FInp K) (n : Nat) : Bool := decide ((inp n).pre ≠ 0)

def postSpk (inp : Nat → FInp K) (n : Nat) : Bool := (inp n).post

theorem fTraceAt_eq (c : FCfg K) (s : FSt K) (t : Nat) {v : V} (hv : v.isTrace = true) :
    fTraceAt c s t v = fhist (cOf c v) (tsOf s v) (trOf s v) t := by
  cases v <;> first | rfl | simp [V.isTrace] at hv

/-- `i` steps of an epoch without learning. -/
def recvN (c : FCfg K) (m : Nat) (inp : Nat → FInp K) (s : FSt K) : Nat → FSt K
  | 0 => s
  | i + 1 => fRecv c (m * c.tEpoch + i + 1) (recvN c m inp s i) (inp (m * c.tEpoch + i + 1))

theorem guard_inside {T m i : Nat} (hi : i + 1 < T) : lrnGuard T (m * T + i + 1) = false := by
  unfold lrnGuard
  have : (m * T + i + 1) % T = i + 1 := by
    rw [show m * T + i + 1 = (i + 1) + T * m by ring, Nat.add_mul_mod_self_left, Nat.mod_eq_of_lt hi]
  rw [this]; rfl

theorem within_inside {T m i : Nat} (hi : i < T) : withinEpoch T (m * T + i + 1) = i + 1 := by
  have := C58_within_epoch T m (i + 1) (by omega) (by omega)
  rwa [← Nat.add_assoc] at this

theorem fRun_inside (c : FCfg K) (s0 : FSt K) (inp : Nat → FInp K) (m : Nat) : ∀ i, i < c.tEpoch →
    fRun c s0 inp (m * c.tEpoch + i) = recvN c m inp (fRun c s0 inp (m * c.tEpoch)) i
  | 0, _ => rfl
  | i + 1, h => by
    show fStep c (m * c.tEpoch + i + 1) (fRun c s0 inp (m * c.tEpoch + i)) _ = _
    rw [fRun_inside c s0 inp m i (by omega)]
    unfold fStep
    rw [guard_inside h]
    rfl

theorem fRun_epoch (c : FCfg K) (s0 : FSt K) (inp : Nat → FInp K) (hT : 0 < c.tEpoch) (m : Nat) :
    fRun c s0 inp ((m + 1) * c.tEpoch) = fLrn c ((m + 1) * c.tEpoch) (recvN c m inp (fRun c s0 inp (m * c.tEpoch)) c.tEpoch) := by
  obtain ⟨k, hk⟩ : ∃ k, c.tEpoch = k + 1 := ⟨c.tEpoch - 1, by omega⟩
  have he : (m + 1) * c.tEpoch = m * c.tEpoch + k + 1 := by rw [Nat.add_mul, hk]; ring
  rw [he]
  show fStep c (m * c.tEpoch + k + 1) (fRun c s0 inp (m * c.tEpoch + k)) _ = _
  rw [fRun_inside c s0 inp m k (by omega)]
  unfold fStep
  have hg : lrnGuard c.tEpoch (m * c.tEpoch + k + 1) = true := by
    unfold lrnGuard
    rw [← he, Nat.mul_mod_left]; rfl
  rw [hg, if_pos rfl]
  conv_rhs => rw [hk]
  simp only [recvN, hk]

/-- Traces the connection keeps itself: all for a two-factor rule, the pre-synaptic ones for a three-factor rule. -/
def own (c : FCfg K) (v : V) : Bool := v.isTrace && (c.two || v == .x1 || v == .x2)

theorem own_two {c : FCfg K} (h2 : c.two = true) {v : V} (hv : v.isTrace = true) : own c v = true := by simp [own, h2, hv]

theorem own_trace {c : FCfg K} {v : V} (h : own c v = true) : v.isTrace = true := by
  simp only [own, Bool.and_eq_true] at h
  exact h.1

/-- Inside an epoch every trace does what `epochTr` says, and nothing else changes. -/
theorem recvN_traces (c : FCfg K) (hg : c.graded = .regular) (m : Nat) (inp : Nat → FInp K) (s : FSt K) (hx : s.tx = 0) (hy : s.ty = 0) :
    ∀ i, i ≤ c.tEpoch →
      (∀ v : V, v.isTrace = true → tsOf (recvN c m inp s i) v =
        (epochTr (cOf c v) (fun j => spikesOf inp v (m * c.tEpoch + j + 1)) (trOf s v) i).1) ∧
      (∀ v : V, own c v = true → trOf (recvN c m inp s i) v =
        (epochTr (cOf c v) (fun j => spikesOf inp v (m * c.tEpoch + j + 1)) (trOf s v) i).2) ∧
      (recvN c m inp s i).w = s.w ∧ (recvN c m inp s i).d = s.d ∧ (recvN c m inp s i).t = s.t
  | 0, _ => by
    refine ⟨?_, fun v hv => rfl, rfl, rfl, rfl⟩
    intro v hv
    cases v <;> first | (simp only [recvN, tsOf, epochTr, hx, hy]; done) | simp [V.isTrace] at hv
  | i + 1, hi => by
    obtain ⟨h3, h3', h4, h5, h6⟩ := recvN_traces c hg m inp s hx hy i (by omega)
    have hw := within_inside (T := c.tEpoch) (m := m) (i := i) (by omega)
    refine ⟨?_, ?_, ?_, ?_, ?_⟩
    · intro v hv
      have ha := h3 v hv
      simp only [recvN, epochTr]
      rw [← ha]
      rcases h2 : c.two with _ | _
      all_goals
        cases v <;> first
          | (simp [V.isTrace] at hv; done)
          | (simp only [fRecv, h2, if_true, Bool.false_eq_true, if_false, fPost, fPre, tsOf, spikesOf, hw, decide_eq_true_eq]; done)
          | (simp only [fRecv, h2, if_true, Bool.false_eq_true, if_false, fPost, fPre, tsOf, spikesOf, hw]; rfl)
    · intro v hv
      have ha := h3 v (own_trace hv)
      have hb := h3' v hv
      simp only [recvN, epochTr]
      rw [← ha, ← hb]
      rcases h2 : c.two with _ | _
      · cases v <;> first
          | (simp [own, V.isTrace, h2] at hv; done)
          | (simp only [fRecv, h2, Bool.false_eq_true, if_false, fPost, fPre, hg, tsOf, trOf, cOf, spikesOf]; done)
          | (simp only [fRecv, h2, Bool.false_eq_true, if_false, fPost, fPre, hg, tsOf, trOf, cOf, spikesOf]; rfl)
      · cases v <;> first
          | (simp [own, V.isTrace] at hv; done)
          | (simp only [fRecv, h2, if_true, fPost, fPre, hg, tsOf, trOf, cOf, spikesOf]; done)
          | (simp only [fRecv, h2, if_true, fPost, fPre, hg, tsOf, trOf, cOf, spikesOf]; rfl)
    · rw [← h4]; simp only [recvN, fRecv, fPost, fPre]; split <;> rfl
    · rw [← h5]; simp only [recvN, fRecv, fPost, fPre]; split <;> rfl
    · rw [← h6]; simp only [recvN, fRecv, fPost, fPre]; split <;> rfl

/-- Traces start at zero, no spike is pending. -/
structure Fresh (s : FSt K) : Prop where
  x1 : s.x1 = some 0
  x2 : s.x2 = some 0
  y1 : s.y1 = some 0
  y2 : s.y2 = some 0
  y3 : s.y3 = some 0
  tx : s.tx = 0
  ty : s.ty = 0

/-- All time constants are nonzero. -/
def decOf (c : FCfg K) (v : V) : K := ((cOf c v).decay).getD 0

theorem cOf_eta (c : FCfg K) {v : V} (h : (cOf c v).decay ≠ none) : cOf c v = ⟨(cOf c v).imp, some (decOf c v)⟩ := by
  unfold decOf
  cases hc : cOf c v with
  | mk imp decay =>
    rw [hc] at h
    cases decay with
    | none => exact absurd rfl h
    | some d => rfl

/-- At the start of an epoch: no pending spikes, traces as specified. -/
theorem run_start (c : FCfg K) (hT : 0 < c.tEpoch) (hg : c.graded = .regular) (s0 : FSt K) (h0 : Fresh s0) (inp : Nat → FInp K) : ∀ m,
    (fRun c s0 inp (m * c.tEpoch)).tx = 0 ∧ (fRun c s0 inp (m * c.tEpoch)).ty = 0 ∧
    ∀ v : V, own c v = true → (cOf c v).decay ≠ none →
      trOf (fRun c s0 inp (m * c.tEpoch)) v = some (startTrace (cOf c v).imp (decOf c v) c.tEpoch (spikesOf inp v) m)
  | 0 => by
    rw [Nat.zero_mul]
    refine ⟨h0.tx, h0.ty, ?_⟩
    intro v hv _
    have : startTrace (cOf c v).imp (decOf c v) c.tEpoch (spikesOf inp v) 0 = 0 := by simp [startTrace]
    rw [this]
    cases v <;> first | exact h0.x1 | exact h0.x2 | exact h0.y1 | exact h0.y2 | exact h0.y3
  | m + 1 => by
    obtain ⟨h3, h4, h5⟩ := run_start c hT hg s0 h0 inp m
    rw [fRun_epoch c s0 inp hT m]
    refine ⟨rfl, rfl, ?_⟩
    intro v hv hd
    obtain ⟨h6, h6', _⟩ := recvN_traces c hg m inp _ h3 h4 c.tEpoch (Nat.le_refl _)
    have ht := own_trace hv
    have h8 : trOf (fLrn c ((m + 1) * c.tEpoch) (recvN c m inp (fRun c s0 inp (m * c.tEpoch)) c.tEpoch)) v =
        fhist (cOf c v) (tsOf (recvN c m inp (fRun c s0 inp (m * c.tEpoch)) c.tEpoch) v)
          (trOf (recvN c m inp (fRun c s0 inp (m * c.tEpoch)) c.tEpoch) v) c.tEpoch := by
      rw [← fTraceAt_eq c _ _ ht]
      rcases h2 : c.two with _ | _
      · cases v <;> first | (simp [own, V.isTrace, h2] at hv; done) | (simp only [trOf, fLrn])
      · cases v <;> first | (simp [own, V.isTrace] at hv; done) | (simp only [trOf, fLrn, h2, if_true])
    have ha := h6 v ht
    have hb := h6' v hv
    rw [h8, ha, hb, h5 v hv hd, startTrace_succ _ _ hT]
    have h9 := epoch_read (cOf c v).imp (decOf c v) (T := c.tEpoch) (m := m) (i := c.tEpoch - 1) (by omega) (spikesOf inp v)
    rw [← cOf_eta c hd] at h9
    have he : m * c.tEpoch + (c.tEpoch - 1) + 1 = (m + 1) * c.tEpoch := by
      have : (m + 1) * c.tEpoch = m * c.tEpoch + c.tEpoch := by ring
      omega
    rw [he, show c.tEpoch - 1 + 1 = c.tEpoch by omega] at h9
    exact h9

/-- The state right before the learning phase at the end of epoch `m`. -/
def beforeLrn (c : FCfg K) (s0 : FSt K) (inp : Nat → FInp K) (m : Nat) : FSt K := recvN c m inp (fRun c s0 inp (m * c.tEpoch)) c.tEpoch

/-- What a rule reads of a trace at step `i + 1` of epoch `m`. -/
theorem read_at (c : FCfg K) (hT : 0 < c.tEpoch) (hg : c.graded = .regular) (s0 : FSt K) (h0 : Fresh s0) (inp : Nat → FInp K) (m : Nat)
    {v : V} (hv : own c v = true) (hd : (cOf c v).decay ≠ none) {i : Nat} (hi : i < c.tEpoch) :
    fTraceAt c (beforeLrn c s0 inp m) (i + 1) v = some (trace (cOf c v).imp (decOf c v) c.tEpoch (spikesOf inp v) (m * c.tEpoch + i + 1)) := by
  obtain ⟨h3, h4, h5⟩ := run_start c hT hg s0 h0 inp m
  obtain ⟨h6, h6', _⟩ := recvN_traces c hg m inp _ h3 h4 c.tEpoch (Nat.le_refl _)
  have ha := h6 v (own_trace hv)
  have hb := h6' v hv
  rw [fTraceAt_eq c _ _ (own_trace hv)]
  unfold beforeLrn
  rw [ha, hb, h5 v hv hd]
  have h9 := epoch_read (cOf c v).imp (decOf c v) (T := c.tEpoch) (m := m) hi (spikesOf inp v)
  rw [← cOf_eta c hd] at h9
  exact h9

/-- The recorded spike time: any function summed over the last spikes of the epoch is its value at the recorded time. -/
theorem last_sum (c : FCfg K) (hT : 0 < c.tEpoch) (hg : c.graded = .regular) (s0 : FSt K) (h0 : Fresh s0) (inp : Nat → FInp K) (m : Nat)
    {v : V} (hv : v.isTrace = true) (f : Nat → K) :
    tsOf (beforeLrn c s0 inp m) v ≤ c.tEpoch ∧
    lastSum (fun j => spikesOf inp v (m * c.tEpoch + j + 1)) c.tEpoch 0 f =
      (if tsOf (beforeLrn c s0 inp m) v = 0 then 0 else f (tsOf (beforeLrn c s0 inp m) v - 1)) := by
  obtain ⟨h3, h4, _⟩ := run_start c hT hg s0 h0 inp m
  obtain ⟨h6, _⟩ := recvN_traces c hg m inp _ h3 h4 c.tEpoch (Nat.le_refl _)
  have ha := h6 v hv
  have hind : ∀ (e e' : Option K) (p : Nat → Bool) (i : Nat) (c : FTr K), (epochTr c p e i).1 = (epochTr c p e' i).1 := by
    intro e e' p i c
    induction i with
    | zero => rfl
    | succ n ih => simp only [epochTr, ih]
  obtain ⟨n, _, h8, h9⟩ := epochTr_closed (cOf c v) (fun j => spikesOf inp v (m * c.tEpoch + j + 1)) 0 c.tEpoch
  unfold beforeLrn
  rw [ha, hind _ (some 0)]
  refine ⟨h8, ?_⟩
  rw [h9, mul_zero, zero_add]

end Run


/-! ## C86 -/

section Props
variable {K : Type} [Field K] [LinearOrder K]

theorem epochTr_last (c : FTr K) (p : Nat → Bool) (e : Option K) {j : Nat} (hj : p j = true) : ∀ i, j < i → (∀ k, k < i → j < k → p k ≠ true) →
    (epochTr c p e i).1 = j + 1
  | 0, h, _ => by omega
  | i + 1, h, hl => by
    by_cases hji : j = i
    · subst hji
      simp only [epochTr, hj, if_true]
    · have h1 : p i ≠ true := hl i (by omega) (by omega)
      simp only [epochTr, h1, if_false]
      exact epochTr_last c p e hj i (by omega) (fun k hk hk' => hl k (by omega) hk')

theorem epoch_offset {T t m : Nat} (hT : 0 < T) (h : epochOf T t = m) (h1 : 1 ≤ t) : ∃ i, i < T ∧ t = m * T + i + 1 := by
  unfold epochOf at h
  have h2 := Nat.div_add_mod (t - 1) T
  have h3 := Nat.mod_lt (t - 1) hT
  refine ⟨(t - 1) % T, h3, ?_⟩
  rw [h, Nat.mul_comm] at h2
  omega

/-- The recorded spike time is the last spike of the epoch. -/
theorem recorded_last (c : FCfg K) (hT : 0 < c.tEpoch) (hg : c.graded = .regular) (s0 : FSt K) (h0 : Fresh s0) (inp : Nat → FInp K) (m : Nat)
    {v : V} (hv : v.isTrace = true) {i : Nat} (hi : i < c.tEpoch) (hs : spikesOf inp v (m * c.tEpoch + i + 1) = true)
    (hl : ¬ Later c.tEpoch (spikesOf inp v) (m * c.tEpoch + i + 1)) : tsOf (beforeLrn c s0 inp m) v = i + 1 := by
  obtain ⟨h3, h4, _⟩ := run_start c hT hg s0 h0 inp m
  obtain ⟨h6, _⟩ := recvN_traces c hg m inp _ h3 h4 c.tEpoch (Nat.le_refl _)
  have ha := h6 v hv
  unfold beforeLrn
  rw [ha]
  refine epochTr_last _ _ _ (j := i) hs _ hi ?_
  intro k hk hik hp
  exact hl ((later_epoch hi _).2 ⟨k, hk, hik, hp⟩)

/-- **C86.** What a learning rule reads. For every spike train, epoch length and epoch `m`, for every trace the connection keeps itself that has a nonzero time constant: read
at the end of the epoch, or at the last pre- or post-synaptic spike of the epoch, its value is the one of the specification: every spike adds the impulse, which
decays exponentially; spikes followed by another one in the same epoch count from the start of the epoch. -/
theorem C86_rule_reads_traces (c : FCfg K) (hT : 0 < c.tEpoch) (hg : c.graded = .regular) (s0 : FSt K) (h0 : Fresh s0) (inp : Nat → FInp K)
    (m : Nat) (v : V) (hv : own c v = true) (hd : (cOf c v).decay ≠ none) :
    fTraceAt c (beforeLrn c s0 inp m) (fReadTime c (beforeLrn c s0 inp m) .u) v =
      some (trace (cOf c v).imp (decOf c v) c.tEpoch (spikesOf inp v) ((m + 1) * c.tEpoch)) ∧
    (∀ t, epochOf c.tEpoch t = m → 1 ≤ t → preSpk inp t = true → ¬ Later c.tEpoch (preSpk inp) t →
      fTraceAt c (beforeLrn c s0 inp m) (fReadTime c (beforeLrn c s0 inp m) .x0) v = some (trace (cOf c v).imp (decOf c v) c.tEpoch (spikesOf inp v) t)) ∧
    (∀ t, epochOf c.tEpoch t = m → 1 ≤ t → postSpk inp t = true → ¬ Later c.tEpoch (postSpk inp) t →
      fTraceAt c (beforeLrn c s0 inp m) (fReadTime c (beforeLrn c s0 inp m) .y0) v = some (trace (cOf c v).imp (decOf c v) c.tEpoch (spikesOf inp v) t)) := by
  refine ⟨?_, ?_, ?_⟩
  · have h := read_at c hT hg s0 h0 inp m hv hd (i := c.tEpoch - 1) (by omega)
    have he : m * c.tEpoch + (c.tEpoch - 1) + 1 = (m + 1) * c.tEpoch := by
      have : (m + 1) * c.tEpoch = m * c.tEpoch + c.tEpoch := by ring
      omega
    rw [he, show c.tEpoch - 1 + 1 = c.tEpoch by omega] at h
    exact h
  · intro t ht h1 hs hl
    obtain ⟨i, hi, rfl⟩ := epoch_offset hT ht h1
    have h3 := recorded_last c hT hg s0 h0 inp m (v := .x1) rfl hi hs hl
    show fTraceAt c (beforeLrn c s0 inp m) (tsOf (beforeLrn c s0 inp m) .x1) v = _
    rw [h3]
    exact read_at c hT hg s0 h0 inp m hv hd hi
  · intro t ht h1 hs hl
    obtain ⟨i, hi, rfl⟩ := epoch_offset hT ht h1
    have h3 := recorded_last c hT hg s0 h0 inp m (v := .y1) rfl hi hs hl
    show fTraceAt c (beforeLrn c s0 inp m) (tsOf (beforeLrn c s0 inp m) .y1) v = _
    rw [h3]
    exact read_at c hT hg s0 h0 inp m hv hd hi

/-- The two products of an STDP rule `aMinus * x0 * y1 + aPlus * y0 * x1` (proc/learning_rules/stdp_learning_rule.py:48-49). -/
def stdpProducts (m1 e1 m2 e2 : Int) : List Product :=
  [⟨.x0, m1, e1, [⟨.v .y1, none, false⟩], none⟩, ⟨.y0, m2, e2, [⟨.v .x1, none, false⟩], none⟩]

/-- The factor a product stands for. -/
def coef (m e : Int) : K := (m : K) * 2 ^ (e - 7)

/-- One epoch: sums over the last spikes. -/
theorem last_term (c : FCfg K) (hT : 0 < c.tEpoch) (hg : c.graded = .regular) (s0 : FSt K) (h0 : Fresh s0) (inp : Nat → FInp K) (m : Nat)
    {v v' : V} (hv : v.isTrace = true) (hv' : own c v' = true) (hd : (cOf c v').decay ≠ none) (a : K) :
    ∃ r, fTraceAt c (beforeLrn c s0 inp m) (tsOf (beforeLrn c s0 inp m) v) v' = some r ∧
      a * (if 0 < tsOf (beforeLrn c s0 inp m) v then 1 else 0) * r =
      ∑ j ∈ Finset.range c.tEpoch, if spikesOf inp v (m * c.tEpoch + j + 1) = true ∧ ¬ Later c.tEpoch (spikesOf inp v) (m * c.tEpoch + j + 1) then
        a * trace (cOf c v').imp (decOf c v') c.tEpoch (spikesOf inp v') (m * c.tEpoch + j + 1) else 0 := by
  have hl := last_sum c hT hg s0 h0 inp m hv
    (fun j => a * trace (cOf c v').imp (decOf c v') c.tEpoch (spikesOf inp v') (m * c.tEpoch + j + 1))
  have hsum : ∑ j ∈ Finset.range c.tEpoch, (if spikesOf inp v (m * c.tEpoch + j + 1) = true ∧ ¬ Later c.tEpoch (spikesOf inp v) (m * c.tEpoch + j + 1) then
        a * trace (cOf c v').imp (decOf c v') c.tEpoch (spikesOf inp v') (m * c.tEpoch + j + 1) else 0) =
      lastSum (fun j => spikesOf inp v (m * c.tEpoch + j + 1)) c.tEpoch 0
        (fun j => a * trace (cOf c v').imp (decOf c v') c.tEpoch (spikesOf inp v') (m * c.tEpoch + j + 1)) := by
    unfold lastSum
    apply Finset.sum_congr rfl
    intro j hj
    have hj' := Finset.mem_range.1 hj
    have he := later_epoch (m := m) hj' (spikesOf inp v)
    by_cases hs : spikesOf inp v (m * c.tEpoch + j + 1) = true
    · by_cases hL : Later c.tEpoch (spikesOf inp v) (m * c.tEpoch + j + 1)
      · rw [if_neg (fun h => h.2 hL), if_pos hs, if_pos (he.1 hL)]
      · rw [if_pos ⟨hs, hL⟩, if_pos hs, if_neg (fun h => hL (he.2 h))]
    · rw [if_neg (fun h => hs h.1), if_neg hs]
  rw [hsum, hl.2]
  by_cases h0' : tsOf (beforeLrn c s0 inp m) v = 0
  · obtain ⟨h3, h4, h5⟩ := run_start c hT hg s0 h0 inp m
    obtain ⟨_, h6, _⟩ := recvN_traces c hg m inp _ h3 h4 c.tEpoch (Nat.le_refl _)
    have hb := h6 v' hv'
    rw [h5 v' hv' hd] at hb
    obtain ⟨n, h7, _⟩ := epochTr_closed (cOf c v') (fun j => spikesOf inp v' (m * c.tEpoch + j + 1)) (startTrace (cOf c v').imp (decOf c v') c.tEpoch (spikesOf inp v') m) c.tEpoch
    rw [h7] at hb
    refine ⟨startTrace (cOf c v').imp (decOf c v') c.tEpoch (spikesOf inp v') m + n * (cOf c v').imp, ?_, ?_⟩
    · rw [h0', fTraceAt_eq c _ _ (own_trace hv')]
      exact hb
    · simp [h0']
  · obtain ⟨i, hi⟩ : ∃ i, tsOf (beforeLrn c s0 inp m) v = i + 1 := ⟨tsOf (beforeLrn c s0 inp m) v - 1, by omega⟩
    have hle := hl.1
    rw [hi] at hle ⊢
    refine ⟨_, read_at c hT hg s0 h0 inp m hv' hd (by omega), ?_⟩
    simp

/-- **C86.** The weight under an STDP rule, for every spike train and epoch length: at the last pre-synaptic spike of every epoch `aMinus` times the post-synaptic
trace is added, at the last post-synaptic spike `aPlus` times the pre-synaptic trace, and nothing else. -/
theorem C86_stdp_weight_law (c : FCfg K) (hT : 0 < c.tEpoch) (hg : c.graded = .regular) (h2 : c.two = true) (hm : c.mode = .mixed)
    (m1 e1 m2 e2 : Int) (hdw : c.dw = some (stdpProducts m1 e1 m2 e2)) (dx dy : K) (hx : c.cx1.decay = some dx) (hy : c.cy1.decay = some dy)
    (s0 : FSt K) (h0 : Fresh s0) (w0 : K) (hw : s0.w = some w0) (inp : Nat → FInp K) (n : Nat) :
    (fRun c s0 inp (n * c.tEpoch)).w = some (w0 + ∑ t ∈ Finset.Icc 1 (n * c.tEpoch),
      ((if preSpk inp t = true ∧ ¬ Later c.tEpoch (preSpk inp) t then coef m1 e1 * trace c.cy1.imp dy c.tEpoch (postSpk inp) t else 0) +
       (if postSpk inp t = true ∧ ¬ Later c.tEpoch (postSpk inp) t then coef m2 e2 * trace c.cx1.imp dx c.tEpoch (preSpk inp) t else 0))) := by
  induction n with
  | zero => simp [fRun, hw]
  | succ n ih =>
    rw [fRun_epoch c s0 inp hT n]
    obtain ⟨h3, h4, h5⟩ := run_start c hT hg s0 h0 inp n
    obtain ⟨_, _, h6, _⟩ := recvN_traces c hg n inp _ h3 h4 c.tEpoch (Nat.le_refl _)
    obtain ⟨r1, hr1, hs1⟩ := last_term c hT hg s0 h0 inp n (v := .x1) (v' := .y1) rfl (own_two h2 rfl) (by show c.cy1.decay ≠ none; rw [hy]; simp) (coef m1 e1)
    obtain ⟨r2, hr2, hs2⟩ := last_term c hT hg s0 h0 inp n (v := .y1) (v' := .x1) rfl (own_two h2 rfl) (by show c.cx1.decay ≠ none; rw [hx]; simp) (coef m2 e2)
    have e1' : decOf c .y1 = dy := by unfold decOf; show (c.cy1.decay).getD 0 = dy; rw [hy]; rfl
    have e2' : decOf c .x1 = dx := by unfold decOf; show (c.cx1.decay).getD 0 = dx; rw [hx]; rfl
    rw [e1'] at hs1
    rw [e2'] at hs2
    rw [sum_Icc_epoch]
    have hw' : (recvN c n inp (fRun c s0 inp (n * c.tEpoch)) c.tEpoch).w = _ := h6.trans ih
    show (match c.dw with
      | none => (recvN c n inp (fRun c s0 inp (n * c.tEpoch)) c.tEpoch).w
      | some ps => fSatW c.mode (fApply c ((n + 1) * c.tEpoch) (recvN c n inp (fRun c s0 inp (n * c.tEpoch)) c.tEpoch) ps
          (recvN c n inp (fRun c s0 inp (n * c.tEpoch)) c.tEpoch).w)) = _
    rw [hdw, hm, hw']
    change fApply c ((n + 1) * c.tEpoch) (beforeLrn c s0 inp n) (stdpProducts m1 e1 m2 e2) _ = _
    change fTraceAt c (beforeLrn c s0 inp n) (fReadTime c (beforeLrn c s0 inp n) .x0) .y1 = some r1 at hr1
    change fTraceAt c (beforeLrn c s0 inp n) (fReadTime c (beforeLrn c s0 inp n) .y0) .x1 = some r2 at hr2
    simp only [fApply, stdpProducts, List.map_cons, List.map_nil, List.foldl_cons, List.foldl_nil, fProduct, fFactor, hr1, hr2, nanMul, nanAdd, Option.map_some,
      Option.bind_some, Option.getD_none, Rat.cast_zero, add_zero, zero_add, Bool.false_eq_true, if_false]
    congr 1
    rw [add_assoc]
    congr 1
    congr 1
    refine (congrArg₂ (· + ·) hs1 hs2).trans ?_
    rw [← Finset.sum_add_distrib]
    rfl

/-- Without a second spike in any epoch the trace is the textbook one. -/
theorem trace_ideal (imp d : K) {T : Nat} (hT : 0 < T) (spk : Nat → Bool) (h1 : OnePerEpoch T spk) {t : Nat} (ht : 1 ≤ t) :
    trace imp d T spk t = Spec.idealTrace imp d spk t := by
  unfold trace Spec.idealTrace
  have hle : t ≤ (epochOf T t + 1) * T := by
    obtain ⟨i, hi, he⟩ := epoch_offset hT rfl ht
    have : (epochOf T t + 1) * T = epochOf T t * T + T := by ring
    omega
  have hsub : Finset.Icc 1 t ⊆ Finset.Icc 1 ((epochOf T t + 1) * T) := by
    intro s hs
    rw [Finset.mem_Icc] at *
    omega
  rw [← Finset.sum_subset hsub]
  · apply Finset.sum_congr rfl
    intro s hs
    rw [Finset.mem_Icc] at hs
    by_cases hp : spk s = true
    · have hc : credit T spk s = s := by unfold credit; rw [if_neg (h1 s hs.1 hp)]
      rw [hc, if_pos ⟨hp, hs.2⟩, if_pos hp]
    · rw [if_neg (fun h => hp h.1), if_neg hp]
  · intro s hs hn
    rw [Finset.mem_Icc] at hs hn
    apply if_neg
    rintro ⟨hp, hle'⟩
    have hc : credit T spk s = s := by unfold credit; rw [if_neg (h1 s hs.1 hp)]
    rw [hc] at hle'
    exact hn ⟨hs.1, hle'⟩

/-- **C86.** `STDPLoihi` is all-to-all pair-based STDP, for every pair of spike trains with at most one spike per neuron and epoch (in particular whenever
`t_epoch` is 1). -/
theorem C86_stdp_is_pair_based (c : FCfg K) (hT : 0 < c.tEpoch) (hg : c.graded = .regular) (h2 : c.two = true) (hm : c.mode = .mixed)
    (m1 e1 m2 e2 : Int) (hdw : c.dw = some (stdpProducts m1 e1 m2 e2)) (dx dy : K) (hx : c.cx1.decay = some dx) (hy : c.cy1.decay = some dy)
    (s0 : FSt K) (h0 : Fresh s0) (w0 : K) (hw : s0.w = some w0) (inp : Nat → FInp K) (h1 : OnePerEpoch c.tEpoch (preSpk inp))
    (h1' : OnePerEpoch c.tEpoch (postSpk inp)) (n : Nat) :
    (fRun c s0 inp (n * c.tEpoch)).w =
      some (w0 + pairStdp (coef m1 e1) (coef m2 e2) c.cx1.imp dx c.cy1.imp dy (preSpk inp) (postSpk inp) (n * c.tEpoch)) := by
  rw [C86_stdp_weight_law c hT hg h2 hm m1 e1 m2 e2 hdw dx dy hx hy s0 h0 w0 hw inp n]
  congr 2
  unfold pairStdp
  apply Finset.sum_congr rfl
  intro t ht
  have ht' := (Finset.mem_Icc.1 ht).1
  congr 1
  · by_cases hp : preSpk inp t = true
    · rw [if_pos ⟨hp, h1 t ht' hp⟩, if_pos hp, trace_ideal _ _ hT _ h1' ht']; rfl
    · rw [if_neg (fun h => hp h.1), if_neg hp]
  · by_cases hp : postSpk inp t = true
    · rw [if_pos ⟨hp, h1' t ht' hp⟩, if_pos hp, trace_ideal _ _ hT _ h1 ht']; rfl
    · rw [if_neg (fun h => hp h.1), if_neg hp]

/-- With epochs of one step there is never a second spike. -/
theorem C86_one_step_epochs (spk : Nat → Bool) : OnePerEpoch 1 spk := by
  rintro s hs _ ⟨s', h1, h2, _⟩
  unfold epochOf at h1
  rw [Nat.div_one] at h1
  omega

theorem recvN_w (c : FCfg K) (m : Nat) (inp : Nat → FInp K) (s : FSt K) : ∀ i, (recvN c m inp s i).w = s.w
  | 0 => rfl
  | i + 1 => by
    rw [← recvN_w c m inp s i]
    simp only [recvN, fRecv, fPost, fPre]
    split <;> rfl

/-- Between the ends of epochs the weight does not change. -/
theorem C86_weight_between_epochs (c : FCfg K) (hT : 0 < c.tEpoch) (s0 : FSt K) (inp : Nat → FInp K) (n : Nat) :
    (fRun c s0 inp n).w = (fRun c s0 inp (n / c.tEpoch * c.tEpoch)).w := by
  have h := Nat.div_add_mod n c.tEpoch
  have hlt := Nat.mod_lt n hT
  have h2 := fRun_inside c s0 inp (n / c.tEpoch) (n % c.tEpoch) hlt
  rw [Nat.mul_comm, h] at h2
  rw [h2, recvN_w, Nat.mul_comm]

end Props

end Verif.Learning
