import Verif.Sparse.Lemmas
import Verif.VarAccess.Exact

/-!
# C99: Sparse connections compute what Dense connections compute
-/

namespace Verif.Sparse

open Verif.Weights
open Verif.VarAccess (Csr Domain Vars sparseGet sparseSet)
open Verif.Dense (Vec shiftExp matVec bin)

/-- The parameters of the Dense process with the same constructor arguments: without a given sign mode, it derives it from
the array of its weights. -/
def Par.dense (p : Par) (w : Verif.Dense.Mat) : Verif.Dense.Par :=
  { nIn := p.nIn, graded := p.graded, weightExp := p.weightExp, numWeightBits := p.numWeightBits,
    signMode := match p.signMode with
      | some m => m
      | none => determineSignMode (flat p.n p.nIn w) }

theorem mode_eq (p : Par) (c : Csr) (h : Wf p.n p.nIn c) (hn : 0 < p.n) (hm : 0 < p.nIn) :
    p.mode c = (p.dense (valAt c)).signMode := by
  unfold Par.mode Par.dense
  cases p.signMode with
  | some m => rfl
  | none => exact signMode_eq p.n p.nIn c h hn hm

theorem prepared_val (p : Par) (c : Csr) (h : Wf p.n p.nIn c) (hn : 0 < p.n) (hm : 0 < p.nIn) (i j : Nat) :
    valAt (prepared p c) i j = Verif.Dense.prepared (p.dense (valAt c)) (valAt c) i j := by
  rw [prepared_eq, valAt_elimZeros, valAt_mapData _ (quant_zero _ _) c h.nodup, mode_eq p c h hn hm]
  rfl

theorem state_weights (p : Par) (c : Csr) (s : Nat → Vec) : ∀ t, (stateAt p c s (t + 1)).weights = prepared p c ∧
    (stateAt p c s (t + 1)).weightsSet = true
  | 0 => ⟨rfl, rfl⟩
  | t + 1 => by
    have ih := state_weights p c s t
    refine ⟨?_, rfl⟩
    show (if (stateAt p c s (t + 1)).weightsSet then (stateAt p c s (t + 1)).weights
      else prepared p (stateAt p c s (t + 1)).weights) = _
    rw [ih.2, if_pos rfl, ih.1]

theorem sent_succ (p : Par) (c : Csr) (s : Nat → Vec) (t i : Nat) :
    sentAt p c s (t + 1) i = shiftExp p.weightExp (accum p.graded (prepared p c) (s t) i) := by
  have hw : (if (stateAt p c s t).weightsSet then (stateAt p c s t).weights
      else prepared p (stateAt p c s t).weights) = prepared p c := by
    cases t with
    | zero => rfl
    | succ t =>
      obtain ⟨h1, h2⟩ := state_weights p c s t
      rw [h2, if_pos rfl, h1]
  show shiftExp p.weightExp (accum p.graded (if (stateAt p c s t).weightsSet then (stateAt p c s t).weights
      else prepared p (stateAt p c s t).weights) (s t) i) = _
  rw [hw]

/-- **C99.** The bit-accurate Sparse connection sends in every step exactly what the Dense connection with the same arguments
and the array of the same weights sends: for every stored pattern, also with stored zeros, every weights, sign mode (given or
derived), precision, exponent and spike train. -/
theorem C99_sparse_is_dense (p : Par) (c : Csr) (h : Wf p.n p.nIn c) (hn : 0 < p.n) (hm : 0 < p.nIn) (s : Nat → Vec)
    (t i : Nat) :
    sentAt p c s t i = Verif.Dense.sentAt (p.dense (valAt c)) (Verif.Dense.init (valAt c)) s t i := by
  cases t with
  | zero => rfl
  | succ t =>
    rw [sent_succ, (Verif.Dense.C39_dense_product (p.dense (valAt c)) (valAt c) s i).2 t, ← Verif.Dense.shiftExp_scaled]
    rw [accum_eq p.nIn p.graded (prepared p c) (prepared_cols p c p.nIn h.col), Verif.Dense.accum_matVec]
    congr 1
    unfold matVec
    apply Finset.sum_congr rfl
    intro j _
    rw [prepared_val p c h hn hm]
    rfl

/-- **C99.** The floating-point Sparse connection (exact numbers) is the matrix product one step late. -/
theorem C99_sparse_float (graded : Bool) (n nIn : Nat) (c : Csr) (h : Wf n nIn c) (s : Nat → Vec) (t i : Nat) :
    sentFloat graded c s 0 i = 0 ∧
      sentFloat graded c s (t + 1) i = ∑ j ∈ Finset.range nIn, valAt c i j * (if graded then s t else bin (s t)) j := by
  refine ⟨rfl, ?_⟩
  show accum graded c (s t) i = _
  rw [accum_eq nIn graded c h.col, Verif.Dense.accum_matVec]
  rfl

/-- **C99.** What is computed does not depend on how the matrix is stored: not on the order of the entries, nor on stored
zeros. -/
theorem C99_storage_irrelevant (p : Par) (c c' : Csr) (h : Wf p.n p.nIn c) (h' : Wf p.n p.nIn c') (hn : 0 < p.n)
    (hm : 0 < p.nIn) (he : ∀ i j, valAt c i j = valAt c' i j) (s : Nat → Vec) (t i : Nat) :
    sentAt p c s t i = sentAt p c' s t i := by
  rw [C99_sparse_is_dense p c h hn hm, C99_sparse_is_dense p c' h' hn hm]
  have : valAt c = valAt c' := by funext i j; exact he i j
  rw [this]

/-! ## Reading and writing the weights -/

theorem prepared_pattern (p : Par) (c : Csr)
    (hq : ∀ e ∈ c.entries, truncWeight (clipWeight e.2 (p.mode c) 8 false) (p.mode c) p.numWeightBits 8 ≠ 0) :
    (prepared p c).pattern = c.pattern := by
  rw [prepared_eq]
  obtain ⟨l⟩ := c
  simp only [Csr.pattern, elimZeros, mapData]
  rw [List.filter_eq_self.2]
  · simp
  · intro e he
    obtain ⟨a, ha, rfl⟩ := List.mem_map.1 he
    simpa using hq a ha

theorem prepared_shorter (p : Par) (c : Csr)
    (hq : ∃ e ∈ c.entries, truncWeight (clipWeight e.2 (p.mode c) 8 false) (p.mode c) p.numWeightBits 8 = 0) :
    (prepared p c).entries.length < c.entries.length := by
  obtain ⟨e, he, h0⟩ := hq
  rw [prepared_eq]
  simp only [elimZeros, mapData]
  have := Verif.VarAccess.filter_length_lt (fun e : (Nat × Nat) × Int => decide (e.2 ≠ 0))
    (c.entries.map fun e => (e.1, truncWeight (clipWeight e.2 (p.mode c) 8 false) (p.mode c) p.numWeightBits 8))
    _ (List.mem_map.2 ⟨e, he, rfl⟩) (by simp [h0])
  rw [List.length_map] at this
  exact this

/-- The process model of the connection as seen by the host: variable `vid` of model `mid` is its weight matrix. -/
def Holds (dom : Domain) (mid vid : Nat) (c : Csr) : Prop :=
  ∃ vs : Vars, dom mid = some vs ∧ vs vid = some (.csr c)

/-- **C99.** `weights.get()` after one or more steps, with initial weights without stored zeros: if no weight was quantised to
zero, the quantised weights are returned, the ones a Dense connection would show. -/
theorem C99_get_weights (p : Par) (c : Csr) (h : Wf p.n p.nIn c) (hn : 0 < p.n) (hm : 0 < p.nIn) (hz : c.NoZeros)
    (s : Nat → Vec) (t mid vid : Nat) (dom : Domain) (hd : Holds dom mid vid (stateAt p c s (t + 1)).weights)
    (hq : ∀ e ∈ c.entries, valAt (stateAt p c s (t + 1)).weights e.1.1 e.1.2 ≠ 0) :
    ∃ r, sparseGet dom mid vid c = .ok r ∧
      ∀ i j, valAt r i j = (Verif.Dense.stateAt (p.dense (valAt c)) (Verif.Dense.init (valAt c)) s (t + 1)).weights i j := by
  rw [(state_weights p c s t).1] at hd hq
  obtain ⟨vs, h1, h2⟩ := hd
  refine ⟨prepared p c, Verif.VarAccess.sparseGet_ok dom mid vid vs c (prepared p c) h1 h2 hz (prepared_pattern p c ?_), ?_⟩
  · intro e he h0
    apply hq e he
    rw [prepared_eq, valAt_elimZeros, valAt_mapData _ (quant_zero _ _) c h.nodup]
    rw [show valAt c e.1.1 e.1.2 = e.2 from valAt_mem c.entries e h.nodup he]
    exact h0
  · intro i j
    rw [(Verif.Dense.state_weights (p.dense (valAt c)) (valAt c) s t).1]
    exact prepared_val p c h hn hm i j

/-- **C99, finding.** If a stored weight is quantised to zero, it is no longer stored after the first step; then
`weights.get()` raises an exception, and so does every `weights.set()`, whatever is set - although the connection works. -/
theorem C99_witness_weights_inaccessible (p : Par) (c : Csr) (h : Wf p.n p.nIn c) (hz : c.NoZeros) (s : Nat → Vec)
    (t mid vid : Nat) (dom : Domain) (hd : Holds dom mid vid (stateAt p c s (t + 1)).weights)
    (hq : ∃ e ∈ c.entries, valAt (stateAt p c s (t + 1)).weights e.1.1 e.1.2 = 0) :
    sparseGet dom mid vid c = .failed ∧ ∀ value, sparseSet dom mid vid c value = .failed := by
  rw [(state_weights p c s t).1] at hd hq
  obtain ⟨vs, h1, h2⟩ := hd
  have hl : (prepared p c).entries.length < c.entries.length := by
    apply prepared_shorter
    obtain ⟨e, he, h0⟩ := hq
    refine ⟨e, he, ?_⟩
    rw [prepared_eq, valAt_elimZeros, valAt_mapData _ (quant_zero _ _) c h.nodup] at h0
    rw [show valAt c e.1.1 e.1.2 = e.2 from valAt_mem c.entries e h.nodup he] at h0
    exact h0
  constructor
  · have hb : Verif.VarAccess.relayBack (Verif.VarAccess.getVar (.csr (prepared p c))) =
        .ok (((prepared p c).entries.length : Int) :: (prepared p c).entries.map (·.2), []) := by
      have := Verif.VarAccess.back_cons ((prepared p c).entries.map (·.2))
      simpa [Verif.VarAccess.getVar, Csr.findAll] using this
    have hm : Verif.VarAccess.mkCsr (c.findNz.map (·.1)) ((prepared p c).entries.map (·.2)) = none := by
      rw [Verif.VarAccess.findNz_noZeros hz]
      unfold Verif.VarAccess.mkCsr
      rw [if_neg (by simp only [List.length_map]; omega)]
    simp only [sparseGet, Verif.VarAccess.rtGet, Verif.VarAccess.relayGet, Int.toNat_natCast, h1,
      Verif.VarAccess.pmServe, h2, if_true, hb, List.tail_cons, hm]
  · intro value
    by_cases hp : value.pattern = c.pattern
    · have hs : Verif.VarAccess.sparseSetCheck c value = some (value.entries.map (·.2)) := by
        unfold Verif.VarAccess.sparseSetCheck
        rw [if_pos]
        · rfl
        · exact hp.symm
      simp only [sparseSet, hs]
      rw [Verif.VarAccess.varSet_eq h1 h2]
      simp only [Verif.VarAccess.setVar, Int.toNat_natCast, Verif.VarAccess.takeN_self]
      have hlen : ((prepared p c).findNz.map (·.1)).length ≠ (value.entries.map (·.2)).length := by
        have e1 : value.entries.length = c.entries.length := by
          have := congrArg List.length hp; simpa [Csr.pattern] using this
        have : (prepared p c).findNz.length ≤ (prepared p c).entries.length := List.length_filter_le _ _
        simp only [List.length_map]
        omega
      simp only [Verif.VarAccess.mkCsr, hlen, if_false]
    · exact Verif.VarAccess.C12_pattern_rejected _ _ _ _ _ hp

/-- A mixed-sign matrix with the weight 1, which is below the resolution of mixed weights. -/
def exC : Csr := { entries := [((0, 0), 1), ((0, 2), -6), ((1, 1), 300)] }
def exP : Par := { n := 2, nIn := 3, graded := true, weightExp := 0, signMode := none, numWeightBits := 8 }

theorem exC_wf : Wf 2 3 exC := by
  refine ⟨by decide, ?_, ?_⟩ <;> intro e he <;> simp only [exC, List.mem_cons, List.not_mem_nil, or_false] at he <;>
    rcases he with rfl | rfl | rfl <;> decide

/-- The hypotheses are met by a matrix with an inaccessible weight and a clipped one; its output. -/
theorem C99_example :
    Wf exP.n exP.nIn exC ∧ exC.NoZeros ∧ (prepared exP exC).entries = [((0, 2), -6), ((1, 1), 254)] ∧
      (∃ e ∈ exC.entries, valAt (prepared exP exC) e.1.1 e.1.2 = 0) ∧
      sentAt exP exC (fun _ _ => 1) 1 0 = -6 ∧ sentAt exP exC (fun _ _ => 1) 1 1 = 254 := by
  refine ⟨exC_wf, ?_, by decide, ⟨_, List.mem_cons_self, by decide⟩, by decide, by decide⟩
  intro e he
  simp only [exC, List.mem_cons, List.not_mem_nil, or_false] at he
  rcases he with rfl | rfl | rfl <;> decide

/-! ## Delays -/

/-- Row `k * n + i` of the stack is row `i` of its block `k`. -/
theorem dot_vstack (n : Nat) (s : Vec) : ∀ (bs : List Csr) (r k i : Nat), (∀ b ∈ bs, ∀ e ∈ b.entries, e.1.1 < n) → i < n →
    dot ⟨vstack n r bs⟩ s (r + k * n + i) = match bs[k]? with | some b => dot b s i | none => 0
  | [], r, k, i, _, _ => by simp [vstack, dot]
  | b :: bs, r, k, i, hb, hi => by
    have hblock : dot ⟨b.entries.map fun e => ((r + e.1.1, e.1.2), e.2)⟩ s (r + k * n + i) = if k = 0 then dot b s i else 0 := by
      have hrows : ∀ e ∈ b.entries, e.1.1 < n := hb b List.mem_cons_self
      obtain ⟨l⟩ := b
      clear hb
      induction l with
      | nil => simp [dot]
      | cons e l ih =>
        have he := hrows e List.mem_cons_self
        rw [List.map_cons, dot_cons, ih (fun x hx => hrows x (List.mem_cons_of_mem _ hx)), dot_cons]
        by_cases hk : k = 0
        · subst hk
          simp only [Nat.zero_mul, Nat.add_zero, if_true]
          by_cases hh : e.1.1 = i
          · rw [if_pos hh, if_pos (by omega)]
          · rw [if_neg hh, if_neg (by omega)]
        · rw [if_neg hk, if_neg hk, if_neg]
          · rfl
          · have : n ≤ k * n := Nat.le_mul_of_pos_left n (by omega)
            dsimp only
            omega
    have hnot : ∀ (bs : List Csr) (r' : Nat) (x : Nat), x < r' → dot ⟨vstack n r' bs⟩ s x = 0 := by
      intro bs
      induction bs with
      | nil => intro r' x _; simp [vstack, dot]
      | cons b bs ih =>
        intro r' x hx
        rw [vstack, dot_append, ih (r' + n) x (by omega)]
        obtain ⟨l⟩ := b
        induction l with
        | nil => simp [dot]
        | cons e l ih2 =>
          rw [List.map_cons, dot_cons, if_neg (by dsimp only; omega)]
          simpa using ih2
    rw [vstack, dot_append, hblock]
    cases k with
    | zero =>
      simp only [if_true, List.getElem?_cons_zero]
      rw [hnot bs (r + n) _ (by omega)]
      simp
    | succ k =>
      rw [if_neg (by omega)]
      have e1 : r + (k + 1) * n + i = r + n + k * n + i := by rw [Nat.add_mul, Nat.one_mul]; omega
      rw [e1, dot_vstack n s bs (r + n) k i (fun b hb' => hb b (List.mem_cons_of_mem _ hb')) hi]
      simp

theorem valAt_multEq (w d : Csr) (k i j : Nat) (hn : w.pattern.Nodup) :
    valAt (multEq w d k) i j = if valAt d i j = (k : Int) then valAt w i j else 0 := by
  unfold multEq
  rw [valAt_mapEntries (fun q x => if valAt d q.1 q.2 = (k : Int) then x else 0) w.entries hn i j]
  split
  · rfl
  · rename_i h
    have := valAt_not_mem w.entries i j h
    rw [this]
    simp

theorem valAt_zeroPart (w d : Csr) (i j : Nat) (hn : w.pattern.Nodup) (hd : d.pattern.Nodup) :
    valAt (zeroPart w d) i j = if valAt d i j = 0 then valAt w i j else 0 := by
  have hmem : (i, j) ∈ d.findNz.map (·.1) ↔ valAt d i j ≠ 0 := by
    constructor
    · intro h
      obtain ⟨e, he, hij⟩ := List.mem_map.1 h
      simp only [Csr.findNz, List.mem_filter, decide_eq_true_eq] at he
      have := valAt_mem d.entries e hd he.1
      rw [hij] at this
      simp only at this
      rw [this]
      exact he.2
    · intro h
      by_cases hm : (i, j) ∈ d.entries.map (·.1)
      · obtain ⟨e, he, hij⟩ := List.mem_map.1 hm
        have := valAt_mem d.entries e hd he
        rw [hij] at this
        simp only at this
        rw [this] at h
        refine List.mem_map.2 ⟨e, ?_, hij⟩
        simp only [Csr.findNz, List.mem_filter, decide_eq_true_eq]
        exact ⟨he, h⟩
      · exact absurd (valAt_not_mem d.entries i j hm) h
  unfold zeroPart
  rw [valAt_elimZeros, valAt_mapEntries (fun q x => if q ∈ d.findNz.map (·.1) then 0 else x) w.entries hn i j]
  by_cases h0 : valAt d i j = 0
  · rw [if_pos h0]
    split
    · rw [if_neg (by rw [hmem]; exact fun h => h h0)]
    · rename_i h
      have := valAt_not_mem w.entries i j h
      rw [this]
  · rw [if_neg h0]
    split
    · rw [if_pos (hmem.2 h0)]
    · rfl

/-- A delay connection: legal weights and delays of the same shape, no negative delay. -/
structure DelayPar.Wf (p : DelayPar) : Prop where
  w : Sparse.Wf p.n p.nIn p.w
  d : Sparse.Wf p.n p.nIn p.d
  nonneg : ∀ e ∈ p.d.entries, 0 ≤ e.2

/-- The DelayDense process with the same arguments. -/
def DelayPar.dense (p : DelayPar) : Verif.Dense.DelayPar :=
  { nIn := p.nIn, n := p.n, d := p.maxDelay + 1, w := valAt p.w, dl := fun i j => (valAt p.d i j).toNat, exp := p.exp }

theorem valAt_nonneg (c : Csr) (hn : c.pattern.Nodup) (h : ∀ e ∈ c.entries, 0 ≤ e.2) (i j : Nat) : 0 ≤ valAt c i j := by
  by_cases hm : (i, j) ∈ c.entries.map (·.1)
  · obtain ⟨e, he, hij⟩ := List.mem_map.1 hm
    have := valAt_mem c.entries e hn he
    rw [hij] at this
    simp only at this
    rw [this]
    exact h e he
  · have := valAt_not_mem c.entries i j hm
    rw [this]

theorem dot_valAt (nIn : Nat) (c : Csr) (hc : ∀ e ∈ c.entries, e.1.2 < nIn) (s : Vec) (i : Nat) :
    dot c s i = ∑ j ∈ Finset.range nIn, valAt c i j * s j := dot_eq nIn s i c.entries hc

theorem zeroPart_sub (w d : Csr) : ∀ e ∈ (zeroPart w d).entries, ∃ a ∈ w.entries, e.1 = a.1 := by
  intro e he
  simp only [zeroPart, elimZeros, List.mem_filter, List.mem_map] at he
  obtain ⟨⟨a, ha, rfl⟩, _⟩ := he
  exact ⟨a, ha, rfl⟩

theorem multEq_sub (w d : Csr) (k : Nat) : ∀ e ∈ (multEq w d k).entries, ∃ a ∈ w.entries, e.1 = a.1 := by
  intro e he
  simp only [multEq, List.mem_map] at he
  obtain ⟨a, ha, rfl⟩ := he
  exact ⟨a, ha, rfl⟩

theorem calcAct_eq (p : DelayPar) (h : p.Wf) (hm : 0 < p.maxDelay) (s : Vec) (i k : Nat) (hi : i < p.n) (hk : k ≤ p.maxDelay) :
    calcAct p.n p.w p.d p.maxDelay s i k = Verif.Dense.calcAct p.nIn p.n (valAt p.w) (p.dense.dl) s i k := by
  have hdiv : (k * p.n + i) / p.n = k := by
    rw [Nat.mul_comm, Nat.mul_add_div (by omega), Nat.div_eq_of_lt hi]; rfl
  have hmod : (k * p.n + i) % p.n = i := by
    rw [Nat.mul_comm, Nat.mul_add_mod, Nat.mod_eq_of_lt hi]
  unfold calcAct delayMat Verif.Dense.calcAct Verif.Dense.stackedAct
  rw [if_neg (by omega), hdiv, hmod]
  have hst := dot_vstack p.n s (zeroPart p.w p.d :: (List.range p.maxDelay).map fun k => multEq p.w p.d (k + 1)) 0 k i
    (by
      intro b hb e he
      rcases List.mem_cons.1 hb with rfl | hb
      · obtain ⟨a, ha, e1⟩ := zeroPart_sub _ _ e he
        rw [e1]; exact h.w.row a ha
      · obtain ⟨k', _, rfl⟩ := List.mem_map.1 hb
        obtain ⟨a, ha, e1⟩ := multEq_sub _ _ _ e he
        rw [e1]; exact h.w.row a ha) hi
  rw [Nat.zero_add] at hst
  rw [hst]
  cases k with
  | zero =>
    simp only [List.getElem?_cons_zero]
    rw [dot_valAt p.nIn _ (by
      intro e he
      obtain ⟨a, ha, e1⟩ := zeroPart_sub _ _ e he
      rw [e1]; exact h.w.col a ha)]
    apply Finset.sum_congr rfl
    intro j _
    rw [valAt_zeroPart _ _ _ _ h.w.nodup h.d.nodup]
    have := valAt_nonneg p.d h.d.nodup h.nonneg i j
    show _ = (if (valAt p.d i j).toNat = 0 then valAt p.w i j else 0) * s j
    by_cases h0 : valAt p.d i j = 0
    · rw [if_pos h0, if_pos (by omega)]
    · rw [if_neg h0, if_neg (by omega)]
  | succ k =>
    have hk' : k < p.maxDelay := by omega
    simp only [List.getElem?_cons_succ, List.getElem?_map, List.getElem?_range hk', Option.map_some]
    rw [dot_valAt p.nIn _ (by
      intro e he
      obtain ⟨a, ha, e1⟩ := multEq_sub _ _ _ e he
      rw [e1]; exact h.w.col a ha)]
    apply Finset.sum_congr rfl
    intro j _
    rw [valAt_multEq _ _ _ _ _ h.w.nodup]
    have := valAt_nonneg p.d h.d.nodup h.nonneg i j
    show _ = (if (valAt p.d i j).toNat = k + 1 then valAt p.w i j else 0) * s j
    by_cases h0 : valAt p.d i j = ((k + 1 : Nat) : Int)
    · rw [if_pos h0, if_pos (by omega)]
    · rw [if_neg h0, if_neg (by omega)]

/-- With `max_delay = 0` the delays are not looked at. -/
theorem calcAct_zero (p : DelayPar) (h : p.Wf) (hm : p.maxDelay = 0) (s : Vec) (i : Nat) :
    calcAct p.n p.w p.d p.maxDelay s i 0 = ∑ j ∈ Finset.range p.nIn, valAt p.w i j * s j := by
  unfold calcAct delayMat
  rw [if_pos hm, Nat.zero_mul, Nat.zero_add]
  exact dot_valAt p.nIn _ h.w.col s i

theorem delayBuf_eq (p : DelayPar) (h : p.Wf) (hm : 0 < p.maxDelay ∨ ∀ e ∈ p.d.entries, e.2 = 0) (s : Nat → Vec) :
    ∀ t f, f < p.n * (p.maxDelay + 1) → delayBuf p s t f = Verif.Dense.delayBuf p.dense s t f
  | 0, _, _ => rfl
  | t + 1, f, hf => by
    have hfi : f / (p.maxDelay + 1) < p.n := Nat.div_lt_of_lt_mul (by rw [Nat.mul_comm]; exact hf)
    have hfk : f % (p.maxDelay + 1) < p.maxDelay + 1 := Nat.mod_lt _ (by omega)
    show Verif.Dense.rollFlat p.n (p.maxDelay + 1) (Verif.Dense.zeroCol (p.maxDelay + 1) (delayBuf p s t)) f +
      shiftExp p.exp (calcAct p.n p.w p.d p.maxDelay (s t) (f / (p.maxDelay + 1)) (f % (p.maxDelay + 1))) =
      Verif.Dense.rollFlat p.n (p.maxDelay + 1) (Verif.Dense.zeroCol (p.maxDelay + 1) (Verif.Dense.delayBuf p.dense s t)) f +
      shiftExp p.exp (Verif.Dense.calcAct p.nIn p.n (valAt p.w) p.dense.dl (s t) (f / (p.maxDelay + 1)) (f % (p.maxDelay + 1)))
    congr 1
    · unfold Verif.Dense.rollFlat Verif.Dense.zeroCol
      rw [delayBuf_eq p h hm s t _ (Nat.mod_lt _ (by omega))]
    · congr 1
      rcases Nat.eq_zero_or_pos p.maxDelay with h0 | h0
      · have hall : ∀ e ∈ p.d.entries, e.2 = 0 := by
          rcases hm with hm | hm
          · omega
          · exact hm
        have hk0 : f % (p.maxDelay + 1) = 0 := by rw [h0]; exact Nat.mod_one f
        rw [hk0, calcAct_zero p h h0]
        unfold Verif.Dense.calcAct Verif.Dense.stackedAct
        rw [Nat.zero_mul, Nat.zero_add, Nat.mod_eq_of_lt hfi, Nat.div_eq_of_lt hfi]
        apply Finset.sum_congr rfl
        intro j _
        have : valAt p.d (f / (p.maxDelay + 1)) j = 0 := by
          have := valAt_nonneg p.d h.d.nodup (fun e he => by rw [hall e he]) (f / (p.maxDelay + 1)) j
          by_cases hmm : (f / (p.maxDelay + 1), j) ∈ p.d.entries.map (·.1)
          · obtain ⟨e, he, hij⟩ := List.mem_map.1 hmm
            have := valAt_mem p.d.entries e h.d.nodup he
            rw [hij] at this
            simp only at this
            rw [this, hall e he]
          · exact valAt_not_mem p.d.entries _ j hmm
        simp only [DelayPar.dense, this, Int.toNat_zero, if_true]
      · exact calcAct_eq p h h0 (s t) _ _ hfi (by omega)

/-- **C99.** The delay connection on stored entries sends in every step exactly what DelayDense with the same arguments sends,
provided `max_delay` is at least 1 or all delays are 0: every stored pattern of weights and of delays, also delays beyond
`max_delay`. -/
theorem C99_delay_sparse_is_dense (p : DelayPar) (h : p.Wf) (hm : 0 < p.maxDelay ∨ ∀ e ∈ p.d.entries, e.2 = 0)
    (s : Nat → Vec) (t i : Nat) (hi : i < p.n) : delaySent p s t i = Verif.Dense.delaySent p.dense s t i := by
  apply delayBuf_eq p h hm s t
  have : i * (p.maxDelay + 1) < p.n * (p.maxDelay + 1) := Nat.mul_lt_mul_of_pos_right hi (by omega)
  exact this

/-- **C99, witness.** With `max_delay = 0` and a delay that became nonzero later, the sparse connection ignores the delay and
the dense one drops the synapse. -/
theorem C99_witness_late_delay :
    ∃ p : DelayPar, p.Wf ∧ delaySent p (fun _ _ => 1) 1 0 = 5 ∧ ∀ t, Verif.Dense.delaySent p.dense (fun _ _ => 1) t 0 = 0 := by
  refine ⟨⟨1, 1, 0, 0, ⟨[((0, 0), 5)]⟩, ⟨[((0, 0), 1)]⟩⟩, ⟨⟨by decide, ?_, ?_⟩, ⟨by decide, ?_, ?_⟩, ?_⟩, by decide, ?_⟩
  · simp
  · simp
  · simp
  · simp
  · simp
  · have hb : ∀ t, Verif.Dense.delayBuf (DelayPar.dense ⟨1, 1, 0, 0, ⟨[((0, 0), 5)]⟩, ⟨[((0, 0), 1)]⟩⟩) (fun _ _ => 1) t 0 = 0 := by
      intro t
      cases t with
      | zero => rfl
      | succ t =>
        simp only [Verif.Dense.delayBuf, Verif.Dense.delayStep, DelayPar.dense, Verif.Dense.rollFlat, Verif.Dense.zeroCol]
        rw [if_pos (by decide), Int.zero_add]
        decide
    intro t
    exact hb t

/-! ## Learning -/

theorem learned_pattern (upd : Nat → Nat × Nat → Int → Int) (c : Csr) : ∀ t, (learnedCsr upd c t).pattern = c.pattern
  | 0 => rfl
  | t + 1 => by
    rw [← learned_pattern upd c t]
    simp [learnedCsr, learnCsr, Csr.pattern]

/-- **C99.** Plastic connections: a stored synapse of LearningSparse has after any number of applications of a learning rule
exactly the value that LearningDense gives it; a synapse that is not stored stays absent for ever. -/
theorem C99_learning (upd : Nat → Nat × Nat → Int → Int) (n nIn : Nat) (c : Csr) (h : Wf n nIn c) (t i j : Nat) :
    valAt (learnedCsr upd c t) i j = if (i, j) ∈ c.pattern then learnedArr upd (valAt c) t i j else 0 := by
  induction t with
  | zero =>
    show valAt c i j = if (i, j) ∈ c.pattern then valAt c i j else 0
    split
    · rfl
    · rename_i hm
      exact valAt_not_mem c.entries i j hm
  | succ t ih =>
    show valAt (learnCsr (upd t) (learnedCsr upd c t)) i j = _
    unfold learnCsr
    have hp := learned_pattern upd c t
    have hn : ((learnedCsr upd c t).entries.map (·.1)).Nodup := by
      have := h.nodup
      rw [← hp] at this
      exact this
    rw [valAt_mapEntries (upd t) _ hn i j]
    have hp' : (learnedCsr upd c t).entries.map (·.1) = c.pattern := hp
    rw [hp']
    by_cases hm : (i, j) ∈ c.pattern
    · rw [if_pos hm] at ih ⊢
      rw [if_pos hm]
      show upd t (i, j) (valAt (learnedCsr upd c t) i j) = upd t (i, j) (learnedArr upd (valAt c) t i j)
      rw [ih]
    · rw [if_neg hm, if_neg hm]

/-- **C99, finding.** The weights of the bit-approximate LearningSparse are truncated in the first step; a weight truncated to
zero never learns, for every learning rule, while in LearningDense it does. -/
theorem C99_witness_truncated_never_learns (p : Par) (c : Csr) (h : Wf p.n p.nIn c) (m : SignMode)
    (upd : Nat → Nat × Nat → Int → Int) (i j : Nat) (hz : truncWeight (valAt c i j) m p.numWeightBits 8 = 0) (t : Nat) :
    valAt (learnedCsr upd (truncCsr m p.numWeightBits c) t) i j = 0 := by
  have ht0 : truncWeight 0 m p.numWeightBits 8 = 0 := by
    have : ∀ k, shl (shr 0 k) k = 0 := by intro k; simp only [shl, shr]; split <;> simp_all
    simp only [truncWeight]
    split <;> simp [this]
  have hsub : (truncCsr m p.numWeightBits c).pattern.Nodup := by
    rw [truncCsr_eq]
    have hs : ((elimZeros (mapData (fun w => truncWeight w m p.numWeightBits 8) c)).entries.map (·.1)).Sublist c.pattern := by
      have h1 : ((mapData (fun w => truncWeight w m p.numWeightBits 8) c).entries.map (·.1)) = c.pattern := by
        simp [mapData, Csr.pattern]
      rw [← h1]
      exact List.Sublist.map _ List.filter_sublist
    exact hs.nodup h.nodup
  have hmem : (i, j) ∉ (truncCsr m p.numWeightBits c).pattern := by
    intro hm
    obtain ⟨e, he, hij⟩ := List.mem_map.1 hm
    have hv := valAt_mem _ e hsub he
    rw [hij] at hv
    simp only at hv
    have hne : e.2 ≠ 0 := by
      rw [truncCsr_eq] at he
      simp only [elimZeros, List.mem_filter, decide_eq_true_eq] at he
      exact he.2
    apply hne
    rw [← hv]
    show valAt (truncCsr m p.numWeightBits c) i j = 0
    rw [truncCsr_eq, valAt_elimZeros, valAt_mapData _ ht0 c h.nodup]
    exact hz
  have hw : Wf p.n p.nIn (truncCsr m p.numWeightBits c) := by
    have hin : ∀ e ∈ (truncCsr m p.numWeightBits c).entries, ∃ a ∈ c.entries, e.1 = a.1 := by
      intro e he
      rw [truncCsr_eq] at he
      simp only [elimZeros, mapData, List.mem_filter, List.mem_map] at he
      obtain ⟨⟨a, ha, rfl⟩, _⟩ := he
      exact ⟨a, ha, rfl⟩
    refine ⟨hsub, ?_, ?_⟩
    · intro e he
      obtain ⟨a, ha, e1⟩ := hin e he
      rw [e1]; exact h.row a ha
    · intro e he
      obtain ⟨a, ha, e1⟩ := hin e he
      rw [e1]; exact h.col a ha
  rw [C99_learning upd p.n p.nIn _ hw t i j, if_neg hmem]

/-- Weight 1 of `exC` is such a weight; a rule that adds 4 per epoch brings its dense counterpart to 12 in three epochs. -/
theorem C99_learning_example :
    truncWeight (valAt exC 0 0) .mixed 8 8 = 0 ∧
      valAt (learnedCsr (fun _ _ x => x + 4) (truncCsr .mixed 8 exC) 3) 0 0 = 0 ∧
      learnedArr (fun _ _ x => x + 4) (valAt (truncCsr .mixed 8 exC)) 3 0 0 = 12 ∧
      valAt (learnedCsr (fun _ _ x => x + 4) (truncCsr .mixed 8 exC) 3) 0 2 = 6 := by decide

end Verif.Sparse
