import Verif.Learning.Matrix
import Verif.Learning.OneShot
import Mathlib.Tactic.SplitIfs

/-!
# C108: synapses of a learning connection learn independently

The array code of `Matrix.lean`, for every size, is the single-synapse model for each synapse.
-/

namespace Verif.Learning

open Verif.Weights (SignMode clipWeight)

/-! ## Specification: what one synapse sees of arrays -/

/-- Configuration of a trace. -/
def TrPar.cfg (e : ℚ → ℚ) (p : TrPar) : TrCfg := ⟨p.imp, p.frac, if p.tau = 0 then 0 else e p.tau⟩

/-- Configuration of each synapse. -/
def MCfg.syn (c : MCfg) : Cfg :=
  { tEpoch := c.tEpoch
    graded := c.graded
    cx1 := c.x1.cfg c.e
    cx2 := c.x2.cfg c.e
    cy1 := c.y1.cfg c.e
    cy2 := c.y2.cfg c.e
    cy3 := c.y3.cfg c.e
    mode := c.mode
    dw := c.dw
    dd := c.dd
    dt := c.dt
    dec := c.dec }

/-- The synapse from pre-synaptic neuron `j` to post-synaptic neuron `i`. -/
def MSt.syn (s : MSt) (i j : Nat) : St :=
  { x1 := s.x1.getD j 0
    x2 := s.x2.getD j 0
    y1 := s.y1.getD i 0
    y2 := s.y2.getD i 0
    y3 := s.y3.getD i 0
    tx := s.tx.getD j 0
    ty := s.ty.getD i 0
    w := s.w.at_ i j
    d := s.d.at_ i j
    t := s.t.at_ i j }

/-- Its input: the spike of `j`, the back-propagating spike of `i`, the random numbers. -/
def MInp.syn (m : MInp) (i j : Nat) : Inp :=
  ⟨m.pre.getD j 0, m.post.getD i false, m.rndPost, m.xDecay, m.xImp, m.yDecay, m.yImp, m.rndW⟩

/-- The third factors it receives. -/
def MRcv.syn (r : MRcv) (i : Nat) : Rcv := ⟨r.y1.getD i 0, r.y2.getD i 0, r.y3.getD i 0⟩

/-- An array with the shape of the weights. -/
def Arr.isFull (c : MCfg) (a : Arr) : Prop := a.r = c.post ∧ a.c = c.pre

/-- The arrays of the state have their shapes. -/
structure MSt.shaped (c : MCfg) (s : MSt) : Prop where
  x1 : s.x1.length = c.pre
  x2 : s.x2.length = c.pre
  tx : s.tx.length = c.pre
  y1 : s.y1.length = c.post
  y2 : s.y2.length = c.post
  y3 : s.y3.length = c.post
  ty : s.ty.length = c.post
  w : s.w.isFull c
  d : s.d.isFull c
  t : s.t.isFull c

/-- The messages have their shapes, and the random numbers their ranges. -/
structure MInp.shaped (c : MCfg) (m : MInp) : Prop where
  pre : m.pre.length = c.pre
  post : m.post.length = c.post
  xDecay : 0 ≤ m.xDecay
  yDecay : 0 ≤ m.yDecay

structure MRcv.shaped (c : MCfg) (r : MRcv) : Prop where
  y1 : r.y1.length = c.post
  y2 : r.y2.length = c.post
  y3 : r.y3.length = c.post

/-- One step of the single-synapse models, two or three factors. -/
def synStep (c : Cfg) (time : Nat) (s : St) (i : Inp) : Option Rcv → St
  | none => step c time s i
  | some r => step3 c time s i r

/-- The first `n` steps of one synapse. -/
def synRun (c : Cfg) (s : St) (inp : Nat → Inp) (rcv : Nat → Option Rcv) : Nat → St
  | 0 => s
  | n + 1 => synStep c (n + 1) (synRun c s inp rcv n) (inp (n + 1)) (rcv (n + 1))

/-! ## Lists -/

theorem getD_lt {α : Type} {l : List α} {k : Nat} (h : k < l.length) (z : α) : l.getD k z = l[k] := by
  rw [List.getD_eq_getElem?_getD, List.getElem?_eq_getElem h, Option.getD_some]

theorem getD_map {α β : Type} (f : α → β) (l : List α) (k : Nat) (h : k < l.length) (z : α) (z' : β) :
    (l.map f).getD k z' = f (l.getD k z) := by
  rw [getD_lt (by rw [List.length_map]; exact h), getD_lt h, List.getElem_map]

theorem getD_zipWith {α β γ : Type} (f : α → β → γ) (a : List α) (b : List β) (k : Nat) (ha : k < a.length) (hb : k < b.length)
    (za : α) (zb : β) (z : γ) : (List.zipWith f a b).getD k z = f (a.getD k za) (b.getD k zb) := by
  rw [getD_lt (by rw [List.length_zipWith]; omega), getD_lt ha, getD_lt hb, List.getElem_zipWith]

theorem putIdx_length {α : Type} : ∀ (ids : List Nat) (vals v : List α), (putIdx ids vals v).length = v.length := by
  intro ids
  induction ids with
  | nil => intro vals v; rfl
  | cons k ids ih =>
    intro vals v
    cases vals with
    | nil => rfl
    | cons x vals =>
      show (putIdx ids vals (v.set k x)).length = v.length
      rw [ih, List.length_set]

theorem putIdx_get {α : Type} (f : Nat → α) (z : α) : ∀ (ids : List Nat) (v : List α) (j : Nat), j < v.length →
    (putIdx ids (ids.map f) v).getD j z = if j ∈ ids then f j else v.getD j z := by
  intro ids
  induction ids with
  | nil => intro v j _; simp [putIdx]
  | cons k ids ih =>
    intro v j hj
    show (putIdx ids (ids.map f) (v.set k (f k))).getD j z = _
    rw [ih (v.set k (f k)) j (by rw [List.length_set]; exact hj)]
    by_cases h1 : j ∈ ids
    · rw [if_pos h1, if_pos (List.mem_cons_of_mem _ h1)]
    · rw [if_neg h1]
      by_cases h2 : j = k
      · subst h2
        rw [if_pos (List.mem_cons_self), getD_lt (by rw [List.length_set]; exact hj), List.getElem_set_self]
      · rw [if_neg (by simp [h1, h2]), getD_lt (by rw [List.length_set]; exact hj), getD_lt hj, List.getElem_set_ne (by omega)]

theorem mem_whereIdx (mask : List Bool) (k : Nat) (h : k < mask.length) : (k ∈ whereIdx mask ↔ mask.getD k false = true) := by
  unfold whereIdx
  rw [List.mem_filter, List.mem_range]
  exact ⟨fun x => x.2, fun x => ⟨h, x⟩⟩

theorem impulseAt_length (p : TrPar) (rnd : Int) (ids : List Nat) (v : List Int) : (impulseAt p rnd ids v).length = v.length :=
  putIdx_length _ _ _

theorem impulseAt_get (e : ℚ → ℚ) (p : TrPar) (rnd : Int) (ids : List Nat) (v : List Int) (j : Nat) (h : j < v.length) :
    (impulseAt p rnd ids v).getD j 0 = if j ∈ ids then addImpulse (p.cfg e) rnd (v.getD j 0) else v.getD j 0 := by
  unfold impulseAt addImpulseV takeIdx
  rw [List.map_map, putIdx_get _ 0 ids v j h]
  rfl

/-! ## Spikes -/

theorem multi_length {t : List Nat} {b : List Bool} {n : Nat} (ht : t.length = n) (hb : b.length = n) : (multiV t b).length = n := by
  unfold multiV; rw [List.length_zipWith]; omega

theorem multi_get {t : List Nat} {b : List Bool} {n : Nat} (ht : t.length = n) (hb : b.length = n) (k : Nat) (hk : k < n) :
    (multiV t b).getD k false = multi (t.getD k 0) (b.getD k false) := by
  unfold multiV
  rw [getD_zipWith _ t b k (by omega) (by omega) 0 false]
  rfl

theorem pre_shape (c : MCfg) (time : Nat) (s : MSt) (sIn : List Nat) (hs : s.shaped c) (hp : sIn.length = c.pre) :
    (preSpikeM c time s sIn).x1.length = c.pre ∧ (preSpikeM c time s sIn).x2.length = c.pre ∧ (preSpikeM c time s sIn).tx.length = c.pre := by
  refine ⟨?_, ?_, ?_⟩
  · show (match c.graded with
      | .regular => _
      | .overwrite => _
      | .addSat => _
      | .addNoSat => _ : List Int).length = c.pre
    have hsum : (sumsV s.x1 sIn).length = c.pre := by unfold sumsV; rw [List.length_zipWith, hs.x1, hp, Nat.min_self]
    cases c.graded with
    | regular => exact (impulseAt_length _ _ _ _).trans hs.x1
    | overwrite => exact (putIdx_length _ _ _).trans hs.x1
    | addSat => simpa using hsum
    | addNoSat => exact (putIdx_length _ _ _).trans hsum
  · exact (impulseAt_length _ _ _ _).trans hs.x2
  · exact (putIdx_length _ _ _).trans hs.tx

theorem pre_syn (c : MCfg) (time : Nat) (s : MSt) (sIn : List Nat) (hs : s.shaped c) (hp : sIn.length = c.pre) (i j : Nat) (hj : j < c.pre) :
    (preSpikeM c time s sIn).syn i j = preSpike c.syn time (s.syn i j) (sIn.getD j 0) := by
  have hl := hs.x1
  have hl2 := hs.x2
  have ht := hs.tx
  have hspk : ∀ k, k < c.pre → (sIn.map fun a => decide (0 < a)).getD k false = decide (0 < sIn.getD k 0) :=
    fun k hk => getD_map _ sIn k (by omega) 0 false
  have hspl : (sIn.map fun a => decide (0 < a)).length = c.pre := by rw [List.length_map]; exact hp
  have hsl : (sumsV s.x1 sIn).length = c.pre := by unfold sumsV; rw [List.length_zipWith, hl, hp, Nat.min_self]
  have hsum : (sumsV s.x1 sIn).getD j 0 = (s.x1.getD j 0 + scaledAct (sIn.getD j 0)) % 256 := by
    unfold sumsV
    rw [getD_zipWith _ s.x1 sIn j (by omega) (by omega) 0 0]
  have hov : ((sumsV s.x1 sIn).map fun x => decide (127 < x)).getD j false = overflow (s.x1.getD j 0) (sIn.getD j 0) := by
    rw [getD_map _ _ j (by omega) 0 false, hsum]
    rfl
  have hovl : ((sumsV s.x1 sIn).map fun x => decide (127 < x)).length = c.pre := by rw [List.length_map]; exact hsl
  have hml : (multiV s.tx (sIn.map fun a => decide (0 < a))).length = c.pre := multi_length ht hspl
  have hm : (multiV s.tx (sIn.map fun a => decide (0 < a))).getD j false = multi (s.tx.getD j 0) (decide (0 < sIn.getD j 0)) := by
    rw [multi_get ht hspl j hj, hspk j hj]
  have e1 : ∀ a b : List Bool, a.length = c.pre → b.length = c.pre →
      (j ∈ whereIdx (List.zipWith (· && ·) a b) ↔ (a.getD j false && b.getD j false) = true) := by
    intro a b ha hb
    rw [mem_whereIdx _ j (by rw [List.length_zipWith]; omega), getD_zipWith _ a b j (by omega) (by omega) false false]
  have hx1 : (preSpikeM c time s sIn).x1.getD j 0 = preX1 c.syn (s.syn i j) (sIn.getD j 0) := by
    show (match c.graded with
      | .regular => _
      | .overwrite => _
      | .addSat => _
      | .addNoSat => _ : List Int).getD j 0 = match c.graded with
        | .regular => _
        | .overwrite => _
        | .addSat => _
        | .addNoSat => _
    cases c.graded with
    | regular =>
      show (impulseAt c.x1 0 _ s.x1).getD j 0 = if multi (s.tx.getD j 0) _ = true then addImpulse (c.x1.cfg c.e) 0 (s.x1.getD j 0) else s.x1.getD j 0
      rw [impulseAt_get c.e _ _ _ _ j (by omega)]
      refine if_congr ?_ rfl rfl
      rw [mem_whereIdx _ j (by omega), hm]
    | overwrite =>
      show (putIdx _ _ s.x1).getD j 0 = if 0 < sIn.getD j 0 then scaledAct (sIn.getD j 0) else s.x1.getD j 0
      unfold takeIdx
      rw [putIdx_get _ 0 _ _ j (by omega)]
      rw [getD_map scaledAct sIn j (by omega) 0 0]
      refine if_congr ?_ rfl rfl
      rw [mem_whereIdx _ j (by omega), hspk j hj, decide_eq_true_eq]
    | addSat =>
      show ((sumsV s.x1 sIn).map (clipI 0 127)).getD j 0 = clipI 0 127 _
      rw [getD_map _ _ j (by omega) 0 0, hsum]
      rfl
    | addNoSat =>
      show (putIdx _ ((takeIdx 0 _ (sumsV s.x1 sIn)).map (· - 127)) (sumsV s.x1 sIn)).getD j 0 =
        if overflow (s.x1.getD j 0) (sIn.getD j 0) = true then (s.x1.getD j 0 + scaledAct (sIn.getD j 0)) % 256 - 127
        else (s.x1.getD j 0 + scaledAct (sIn.getD j 0)) % 256
      unfold takeIdx
      rw [List.map_map, putIdx_get _ 0 _ _ j (by omega), hsum]
      refine if_congr ?_ ?_ rfl
      · rw [mem_whereIdx _ j (by omega), hov]
      · show (sumsV s.x1 sIn).getD j 0 - 127 = _
        rw [hsum]
  have hx2 : (preSpikeM c time s sIn).x2.getD j 0 =
      if multi (s.tx.getD j 0) (counted c.syn (s.syn i j) (sIn.getD j 0)) = true then addImpulse (c.x2.cfg c.e) 0 (s.x2.getD j 0)
      else s.x2.getD j 0 := by
    show (impulseAt c.x2 0 (whereIdx _) s.x2).getD j 0 = _
    rw [impulseAt_get c.e _ _ _ _ j (by omega)]
    refine if_congr ?_ rfl rfl
    unfold counted
    show (j ∈ whereIdx (match c.graded with
      | .addNoSat => _
      | _ => _) ↔ multi _ (match c.graded with
        | .addNoSat => _
        | _ => _) = true)
    cases c.graded with
    | addNoSat =>
      show (j ∈ whereIdx (List.zipWith (· && ·) _ _) ↔ multi (s.tx.getD j 0) (decide (0 < sIn.getD j 0) && overflow (s.x1.getD j 0) (sIn.getD j 0)) = true)
      rw [e1 _ _ hml hovl, hm, hov]
      unfold multi
      rw [Bool.and_assoc]
    | regular | overwrite | addSat =>
      show (j ∈ whereIdx (multiV s.tx _) ↔ multi (s.tx.getD j 0) (decide (0 < sIn.getD j 0)) = true)
      rw [mem_whereIdx _ j (by omega), hm]
  have htx : (preSpikeM c time s sIn).tx.getD j 0 =
      if counted c.syn (s.syn i j) (sIn.getD j 0) = true then withinEpoch c.tEpoch time else s.tx.getD j 0 := by
    show (putIdx (whereIdx _) _ s.tx).getD j 0 = _
    rw [putIdx_get (fun _ => withinEpoch c.tEpoch time) 0 _ _ j (by omega)]
    refine if_congr ?_ rfl rfl
    unfold counted
    show (j ∈ whereIdx (match c.graded with
      | .addNoSat => _
      | _ => _) ↔ (match c.graded with
        | .addNoSat => _
        | _ => _) = true)
    cases c.graded with
    | addNoSat =>
      show (j ∈ whereIdx (List.zipWith (· && ·) _ _) ↔ (decide (0 < sIn.getD j 0) && overflow (s.x1.getD j 0) (sIn.getD j 0)) = true)
      rw [e1 _ _ hspl hovl, hspk j hj, hov]
    | regular | overwrite | addSat =>
      show (j ∈ whereIdx (sIn.map fun a => decide (0 < a)) ↔ decide (0 < sIn.getD j 0) = true)
      rw [mem_whereIdx _ j (by omega), hspk j hj]
  unfold MSt.syn
  rw [hx1, hx2, htx]
  rfl

theorem post_syn (c : MCfg) (time : Nat) (s : MSt) (m : MInp) (hs : s.shaped c) (hp : m.post.length = c.post) (i j : Nat) (hi : i < c.post) :
    (postSpikeM c time s m).syn i j = postSpike c.syn time (s.syn i j) (m.syn i j) := by
  have hy1 := hs.y1
  have hy2 := hs.y2
  have hy3 := hs.y3
  have ht := hs.ty
  have hml := multi_length ht hp
  have hm := multi_get ht hp i hi
  have hmem : (i ∈ whereIdx (multiV s.ty m.post) ↔ multi (s.ty.getD i 0) (m.post.getD i false) = true) := by
    rw [mem_whereIdx _ i (by omega), hm]
  have f1 : ∀ (p : TrPar) (v : List Int), v.length = c.post → (impulseAt p m.rndPost (whereIdx (multiV s.ty m.post)) v).getD i 0 =
      if multi (s.ty.getD i 0) (m.post.getD i false) = true then addImpulse (p.cfg c.e) m.rndPost (v.getD i 0) else v.getD i 0 := by
    intro p v hv
    rw [impulseAt_get c.e _ _ _ _ i (by omega)]
    exact if_congr hmem rfl rfl
  have f2 : (putIdx (whereIdx m.post) ((whereIdx m.post).map fun _ => withinEpoch c.tEpoch time) s.ty).getD i 0 =
      if m.post.getD i false = true then withinEpoch c.tEpoch time else s.ty.getD i 0 := by
    rw [putIdx_get (fun _ => withinEpoch c.tEpoch time) 0 _ _ i (by omega)]
    exact if_congr (mem_whereIdx _ i (by omega)) rfl rfl
  unfold MSt.syn postSpikeM
  dsimp only
  rw [f1 _ _ hy1, f1 _ _ hy2, f1 _ _ hy3, f2]
  rfl

theorem recv_shaped (c : MCfg) (time : Nat) (s : MSt) (m : MInp) (r : Option MRcv) (hs : s.shaped c) (hm : m.shaped c)
    (hr : ∀ x, r = some x → x.shaped c) : (recvTracesM c time s m r).shaped c := by
  have hp := pre_shape c time s m.pre hs hm.pre
  cases r with
  | none =>
    exact ⟨hp.1, hp.2.1, hp.2.2, (impulseAt_length _ _ _ _).trans hs.y1, (impulseAt_length _ _ _ _).trans hs.y2,
      (impulseAt_length _ _ _ _).trans hs.y3, (putIdx_length _ _ _).trans hs.ty, hs.w, hs.d, hs.t⟩
  | some x =>
    have hx := hr x rfl
    exact ⟨hp.1, hp.2.1, hp.2.2, hx.y1, hx.y2, hx.y3, (putIdx_length _ _ _).trans hs.ty, hs.w, hs.d, hs.t⟩

theorem recv_syn (c : MCfg) (time : Nat) (s : MSt) (m : MInp) (r : Option MRcv) (hs : s.shaped c) (hm : m.shaped c) (i j : Nat)
    (hi : i < c.post) (hj : j < c.pre) : (recvTracesM c time s m r).syn i j =
      match r with
      | none => recvTraces c.syn time (s.syn i j) (m.syn i j)
      | some x => recvTraces3 c.syn time (s.syn i j) (m.syn i j) (x.syn i) := by
  have hps := pre_shape c time s m.pre hs hm.pre
  have hsh : (preSpikeM c time s m.pre).shaped c := ⟨hps.1, hps.2.1, hps.2.2, hs.y1, hs.y2, hs.y3, hs.ty, hs.w, hs.d, hs.t⟩
  have e := post_syn c time (preSpikeM c time s m.pre) m hsh hm.post i j hi
  rw [pre_syn c time s m.pre hs hm.pre i j hj] at e
  cases r with
  | none => exact e
  | some x =>
    show ({ (postSpikeM c time (preSpikeM c time s m.pre) m).syn i j with y1 := x.y1.getD i 0, y2 := x.y2.getD i 0, y3 := x.y3.getD i 0 } : St) = _
    rw [e]
    rfl

/-! ## Histories -/

/-- All rows have length `n`, one row per trace. -/
def Rows (k n : Nat) (m : List (List Int)) : Prop := m.length = k ∧ ∀ i, i < k → (m.getD i []).length = n

/-- The decayed row `k`. -/
def decRow (e : ℚ → ℚ) (ps : List TrPar) (rndD : ℚ) (rows : List (List Int)) (k : Nat) : List Int :=
  (rows.getD k []).map fun (tr : Int) =>
    stochRound ⌊e ((ps.map (·.tau)).getD k 0) * tr⌋ rndD (e ((ps.map (·.tau)).getD k 0) * tr - ⌊e ((ps.map (·.tau)).getD k 0) * tr⌋)

theorem histRow_spec (e : ℚ → ℚ) (ps : List TrPar) (rndD : ℚ) (hr : 0 ≤ rndD) (rndI : Int) (ids : List Nat) (rows : List (List Int)) (n : Nat)
    (hrows : Rows ps.length n rows) :
    Rows ps.length n (histRow e ps rndD rndI ids rows) ∧ ∀ k, k < ps.length → ∀ j, j < n → ∀ p, ps[k]? = some p →
      ((histRow e ps rndD rndI ids rows).getD k []).getD j 0 =
        histStep (p.cfg e) rndD rndI (decide (j ∈ ids)) ((rows.getD k []).getD j 0) := by
  obtain ⟨hl, hrow⟩ := hrows
  let live := whereIdx (ps.map fun p => decide (p.tau ≠ 0))
  let zeros := rows.map fun v => v.map fun _ => (0 : Int)
  let dec : Nat → List Int := decRow e ps rndD rows
  have hdec : List.zipWith (fun (v : List Int) tau => v.map fun (tr : Int) => stochRound ⌊e tau * tr⌋ rndD (e tau * tr - ⌊e tau * tr⌋)) (takeIdx [] live rows)
      (takeIdx 0 live (ps.map (·.tau))) = live.map dec := by
    unfold takeIdx
    rw [List.zipWith_map, List.zipWith_self]
    rfl
  have hput : ∀ k, k < ps.length → (putIdx live (live.map dec) zeros).getD k [] = if k ∈ live then dec k else zeros.getD k [] := by
    intro k hk
    exact putIdx_get dec [] live zeros k (by show k < (rows.map _).length; rw [List.length_map]; omega)
  have hputl : (putIdx live (live.map dec) zeros).length = ps.length := by
    rw [putIdx_length]; show (rows.map _).length = _; rw [List.length_map, hl]
  have hz : ∀ k, k < ps.length → zeros.getD k [] = (rows.getD k []).map fun _ => (0 : Int) := fun k hk => getD_map _ rows k (by omega) [] []
  have hlen : ∀ k, k < ps.length → ((putIdx live (live.map dec) zeros).getD k []).length = n := by
    intro k hk
    rw [hput k hk]
    split
    · show (decRow e ps rndD rows k).length = n
      unfold decRow
      rw [List.length_map, hrow k hk]
    · rw [hz k hk, List.length_map, hrow k hk]
  have heq : histRow e ps rndD rndI ids rows = List.zipWith (fun v p => impulseAt p rndI ids v) (putIdx live (live.map dec) zeros) ps := by
    rw [← hdec]
    rfl
  have hget : ∀ k (hk : k < ps.length), (histRow e ps rndD rndI ids rows).getD k [] =
      impulseAt ps[k] rndI ids ((putIdx live (live.map dec) zeros).getD k []) := by
    intro k hk
    rw [heq, getD_zipWith _ _ ps k (by omega) hk [] ps[k], getD_lt hk]
  refine ⟨⟨?_, ?_⟩, ?_⟩
  · rw [heq, List.length_zipWith, hputl, Nat.min_self]
  · intro k hk
    rw [hget k hk, impulseAt_length, hlen k hk]
  · intro k hk j hj p hp
    have hp' : ps[k] = p := by
      rw [List.getElem?_eq_getElem hk] at hp; exact Option.some.inj hp
    rw [hget k hk, hp', impulseAt_get e p _ _ _ j (by rw [hlen k hk]; exact hj)]
    have hv : ((putIdx live (live.map dec) zeros).getD k []).getD j 0 = decayTrace (p.cfg e) rndD ((rows.getD k []).getD j 0) := by
      rw [hput k hk]
      have htau : (ps.map (·.tau)).getD k 0 = p.tau := by
        rw [getD_lt (by rw [List.length_map]; exact hk), List.getElem_map, hp']
      have hmem : (k ∈ live ↔ p.tau ≠ 0) := by
        show (k ∈ whereIdx _ ↔ _)
        rw [mem_whereIdx _ k (by rw [List.length_map]; exact hk), getD_lt (by rw [List.length_map]; exact hk), List.getElem_map, hp',
          decide_eq_true_eq]
      by_cases ht : p.tau = 0
      · rw [if_neg (fun h => hmem.1 h ht), hz k hk, getD_map _ _ j (by rw [hrow k hk]; exact hj) 0 0]
        unfold decayTrace TrPar.cfg
        dsimp only
        rw [if_pos ht]
        unfold stochRound
        simp only [zero_mul, Int.floor_zero, Int.cast_zero, sub_zero]
        rw [if_neg (not_lt.2 hr)]
      · rw [if_pos (hmem.2 ht)]
        show (decRow e ps rndD rows k).getD j 0 = _
        unfold decRow
        rw [getD_map _ _ j (by rw [hrow k hk]; exact hj) 0 0, htau]
        unfold decayTrace TrPar.cfg
        dsimp only
        rw [if_neg ht]
    rw [hv]
    unfold histStep
    by_cases h : j ∈ ids
    · rw [if_pos h, if_pos (decide_eq_true h)]
    · rw [if_neg h, if_neg (by rw [decide_eq_true_eq]; exact h)]

theorem histM_spec (e : ℚ → ℚ) (ps : List TrPar) (rndD : ℚ) (hr : 0 ≤ rndD) (rndI : Int) (tSpike : List Nat) (rows : List (List Int)) (n : Nat)
    (hrows : Rows ps.length n rows) (htl : tSpike.length = n) (t : Nat) :
    Rows ps.length n (histM e ps rndD rndI tSpike rows t) ∧ ∀ k, k < ps.length → ∀ j, j < n → ∀ p, ps[k]? = some p →
      ((histM e ps rndD rndI tSpike rows t).getD k []).getD j 0 =
        hist (p.cfg e) rndD rndI (tSpike.getD j 0) ((rows.getD k []).getD j 0) t := by
  induction t with
  | zero => exact ⟨hrows, fun _ _ _ _ _ _ => rfl⟩
  | succ t ih =>
    obtain ⟨i1, i2⟩ := ih
    obtain ⟨h1, h2⟩ := histRow_spec e ps rndD hr rndI (whereIdx (tSpike.map fun k => k == t + 1)) (histM e ps rndD rndI tSpike rows t) n i1
    refine ⟨h1, fun k hk j hj p hp => ?_⟩
    have hd : decide (j ∈ whereIdx (tSpike.map fun k => k == t + 1)) = (tSpike.getD j 0 == t + 1) := by
      rw [Bool.eq_iff_iff, decide_eq_true_eq, mem_whereIdx _ j (by rw [List.length_map]; omega), getD_map _ tSpike j (by omega) 0 false]
    show ((histRow _ _ _ _ _ _).getD k []).getD j 0 = histStep _ _ _ _ _
    rw [h2 k hk j hj p hp, i2 k hk j hj p hp, hd]

/-! ## Broadcasting -/

/-- A shape that broadcasts to the shape of the weights. -/
def Arr.fits (c : MCfg) (a : Arr) : Prop := (a.r = 1 ∨ a.r = c.post) ∧ (a.c = 1 ∨ a.c = c.pre)

/-- The entry used at `(i, j)`. -/
def Arr.val (a : Arr) (i j : Nat) : Int := a.at_ (bcIdx a.r i) (bcIdx a.c j)

theorem bcDim_full (n k : Nat) (h : k = 1 ∨ k = n) : bcDim n k = some n := by
  unfold bcDim
  rcases h with rfl | rfl
  · split_ifs <;> simp_all
  · rw [if_pos rfl]

theorem bcIdx_lt {n i : Nat} (h : i < n) : bcIdx n i = i := by
  unfold bcIdx
  split
  · omega
  · rfl

theorem full_val {c : MCfg} {a : Arr} (h : a.isFull c) {i j : Nat} (hi : i < c.post) (hj : j < c.pre) : a.val i j = a.at_ i j := by
  unfold Arr.val
  rw [h.1, h.2, bcIdx_lt hi, bcIdx_lt hj]

theorem bc_spec (c : MCfg) (f : Int → Int → Int) (a b : Arr) (ha : a.isFull c) (hb : b.fits c) :
    ∃ x, a.bc f b = some x ∧ x.isFull c ∧ ∀ i j, i < c.post → j < c.pre → x.at_ i j = f (a.at_ i j) (b.val i j) := by
  refine ⟨⟨c.post, c.pre, fun i j => f (a.at_ (bcIdx a.r i) (bcIdx a.c j)) (b.at_ (bcIdx b.r i) (bcIdx b.c j))⟩, ?_, ⟨rfl, rfl⟩, ?_⟩
  · unfold Arr.bc
    rw [ha.1, ha.2, bcDim_full c.post b.r hb.1, bcDim_full c.pre b.c hb.2]
    rfl
  · intro i j hi hj
    show f (a.at_ (bcIdx a.r i) (bcIdx a.c j)) _ = _
    rw [ha.1, ha.2, bcIdx_lt hi, bcIdx_lt hj]
    rfl

theorem imul_spec (c : MCfg) (a b : Arr) (ha : a.isFull c) (hb : b.fits c) :
    ∃ x, imul a b = some x ∧ x.isFull c ∧ ∀ i j, i < c.post → j < c.pre → x.at_ i j = wrap32 (a.at_ i j * b.val i j) := by
  obtain ⟨x, h1, h2, h3⟩ := bc_spec c (fun x y => wrap32 (x * y)) a b ha hb
  refine ⟨x, ?_, h2, h3⟩
  unfold imul Arr.inplace
  rw [h1, Option.bind_some, if_pos ⟨h2.1.trans ha.1.symm, h2.2.trans ha.2.symm⟩]

/-- The environment of the array code is, at every synapse, the environment of the single-synapse code. -/
structure EnvOk (c : MCfg) (env : MEnv) (i j : Nat) (senv : IEnv) : Prop where
  dep : ∀ d, (env.dep d).fits c ∧ (env.dep d).val i j = senv.dep d
  val : ∀ d v, (env.val d v).fits c ∧ (env.val d v).val i j = senv.val d v

theorem fvar_ok {c : MCfg} {env : MEnv} {i j : Nat} {senv : IEnv} (h : EnvOk c env i j senv) (d : Dep) (f : FVar) :
    (env.fvar d f).fits c ∧ (env.fvar d f).val i j = senv.fvar d f := by
  cases f with
  | x0 => exact h.dep .x0
  | y0 => exact h.dep .y0
  | v v => exact h.val d v

theorem facFn_eq (senv : IEnv) (d : Dep) (f : Factor) : facFn f (senv.fvar d f.var) = factorVal senv d f := rfl

theorem fold_spec (c : MCfg) (env : MEnv) (d : Dep) (S : Nat → Nat → IEnv) (h : ∀ i j, i < c.post → j < c.pre → EnvOk c env i j (S i j))
    (hne : ∀ f : FVar, (env.fvar d f).fits c) : ∀ (fs : List Factor) (a : Arr), a.isFull c →
    ∃ x, fs.foldlM (fun acc f => imul acc ((env.fvar d f.var).map (facFn f))) a = some x ∧ x.isFull c ∧
      ∀ i j, i < c.post → j < c.pre → x.at_ i j = fs.foldl (fun acc f => wrap32 (acc * factorVal (S i j) d f)) (a.at_ i j) := by
  intro fs
  induction fs with
  | nil => intro a ha; exact ⟨a, rfl, ha, fun _ _ _ _ => rfl⟩
  | cons f fs ih =>
    intro a ha
    have hf : ((env.fvar d f.var).map (facFn f)).fits c := hne f.var
    obtain ⟨x, h1, h2, h3⟩ := imul_spec c a _ ha hf
    obtain ⟨y, g1, g2, g3⟩ := ih x h2
    refine ⟨y, ?_, g2, ?_⟩
    · rw [List.foldlM_cons, h1]; exact g1
    · intro i j hi hj
      rw [g3 i j hi hj, h3 i j hi hj, List.foldl_cons]
      have hv : ((env.fvar d f.var).map (facFn f)).val i j = factorVal (S i j) d f := by
        show facFn f ((env.fvar d f.var).val i j) = _
        rw [(fvar_ok (h i j hi hj) d f.var).2, facFn_eq]
      rw [hv]

theorem mac_spec (c : MCfg) (env : MEnv) (p : Product) (S : Nat → Nat → IEnv) (h : ∀ i j, i < c.post → j < c.pre → EnvOk c env i j (S i j))
    (hd : ∀ d, (env.dep d).fits c) (hne : ∀ d v, (env.val d v).fits c) :
    ∃ x, macM c env p = some x ∧ x.isFull c ∧ ∀ i j, i < c.post → j < c.pre → x.at_ i j = mac (S i j) p := by
  have hfv : ∀ f : FVar, (env.fvar p.dep f).fits c := by
    intro f
    cases f with
    | x0 => exact hd .x0
    | y0 => exact hd .y0
    | v v => exact hne p.dep v
  obtain ⟨x, h1, h2, h3⟩ := imul_spec c (.full c.post c.pre 1) (env.dep p.dep) ⟨rfl, rfl⟩ (hd p.dep)
  obtain ⟨y, g1, g2, g3⟩ := fold_spec c env p.dep S h hfv p.factors x h2
  refine ⟨y.map fun z => wrap32 (z * p.m), ?_, g2, ?_⟩
  · unfold macM
    rw [h1, Option.bind_some, g1]
    rfl
  · intro i j hi hj
    show wrap32 (y.at_ i j * p.m) = _
    rw [g3 i j hi hj, h3 i j hi hj, ((h i j hi hj).dep p.dep).2]
    show wrap32 (List.foldl _ (wrap32 (1 * _)) p.factors * p.m) = _
    rw [Int.one_mul]
    rfl

theorem applyRule_spec (c : MCfg) (env : MEnv) (S : Nat → Nat → IEnv) (h : ∀ i j, i < c.post → j < c.pre → EnvOk c env i j (S i j))
    (hd : ∀ d, (env.dep d).fits c) (hne : ∀ d v, (env.val d v).fits c) : ∀ (ps : List Product) (a : Arr), a.isFull c →
    ∃ x, applyRuleM c env a ps = some x ∧ x.isFull c ∧ ∀ i j, i < c.post → j < c.pre → x.at_ i j = applyRule (S i j) (a.at_ i j) ps := by
  intro ps
  induction ps with
  | nil => intro a ha; exact ⟨a, rfl, ha, fun _ _ _ _ => rfl⟩
  | cons p ps ih =>
    intro a ha
    obtain ⟨m, m1, m2, m3⟩ := mac_spec c env p S h hd hne
    have hmf : (m.map fun x => clipI accLo accHi (x / 2 ^ (widthSum p - 15) * 2 ^ p.sexp.toNat)).isFull c := m2
    obtain ⟨x, h1, h2, h3⟩ := bc_spec c (· + ·) a _ ha ⟨Or.inr hmf.1, Or.inr hmf.2⟩
    obtain ⟨y, g1, g2, g3⟩ := ih (x.map (clipI accLo accHi)) h2
    refine ⟨y, ?_, g2, ?_⟩
    · unfold applyRuleM
      rw [List.foldlM_cons]
      have : applyProductM c env a p = some (x.map (clipI accLo accHi)) := by
        unfold applyProductM
        rw [m1, Option.bind_some, h1]
        rfl
      rw [this]
      exact g1
    · intro i j hi hj
      rw [g3 i j hi hj]
      show applyRule (S i j) (clipI accLo accHi (x.at_ i j)) ps = applyRule (S i j) (applyProduct (S i j) (a.at_ i j) p) ps
      rw [h3 i j hi hj, full_val hmf hi hj]
      show applyRule (S i j) (clipI accLo accHi (a.at_ i j + clipI accLo accHi (m.at_ i j / _ * _))) ps = _
      rw [m3 i j hi hj]
      rfl

theorem learn_spec (c : MCfg) (env : MEnv) (S : Nat → Nat → IEnv) (h : ∀ i j, i < c.post → j < c.pre → EnvOk c env i j (S i j))
    (hd : ∀ d, (env.dep d).fits c) (hne : ∀ d v, (env.val d v).fits c) (rnd : ℚ) (sat clip : Int → Int) (rule : Option (List Product)) (v : Arr)
    (hv : v.isFull c) :
    ∃ x, learnM c env rnd sat clip rule v = some x ∧ x.isFull c ∧ ∀ i j, i < c.post → j < c.pre → x.at_ i j =
      match rule with
      | none => v.at_ i j
      | some ps => clip (roundAcc rnd (sat (applyRule (S i j) (v.at_ i j * 128) ps))) := by
  cases rule with
  | none => exact ⟨v, rfl, hv, fun _ _ _ _ => rfl⟩
  | some ps =>
    obtain ⟨x, h1, h2, h3⟩ := applyRule_spec c env S h hd hne ps (v.map (· * 128)) hv
    refine ⟨((x.map sat).map (roundAcc rnd)).map clip, ?_, h2, ?_⟩
    · unfold learnM
      dsimp only
      rw [h1]; rfl
    · intro i j hi hj
      show clip (roundAcc rnd (sat (x.at_ i j))) = _
      rw [h3 i j hi hj]
      rfl

/-! ## The learning phase -/

theorem hist_x (c : MCfg) (s : MSt) (m : MInp) (hs : s.shaped c) (hm : m.shaped c) (t : Nat) :
    Rows 2 c.pre ((histories c s m).x t) ∧ ∀ i j, j < c.pre →
      (((histories c s m).x t).getD 0 []).getD j 0 = traceAt c.syn (s.syn i j) (m.syn i j) t .x1 ∧
      (((histories c s m).x t).getD 1 []).getD j 0 = traceAt c.syn (s.syn i j) (m.syn i j) t .x2 := by
  have hrows : Rows 2 c.pre [s.x1, s.x2] := by
    refine ⟨rfl, fun k hk => ?_⟩
    have : k = 0 ∨ k = 1 := by omega
    rcases this with rfl | rfl
    · exact hs.x1
    · exact hs.x2
  obtain ⟨h1, h2⟩ := histM_spec c.e [c.x1, c.x2] m.xDecay hm.xDecay m.xImp s.tx [s.x1, s.x2] c.pre hrows hs.tx t
  exact ⟨h1, fun i j hj => ⟨h2 0 (by simp) j hj c.x1 rfl, h2 1 (by simp) j hj c.x2 rfl⟩⟩

theorem hist_y (c : MCfg) (s : MSt) (m : MInp) (hs : s.shaped c) (hm : m.shaped c) (t : Nat) :
    Rows 3 c.post ((histories c s m).y t) ∧ ∀ i j, i < c.post →
      (((histories c s m).y t).getD 0 []).getD i 0 = traceAt c.syn (s.syn i j) (m.syn i j) t .y1 ∧
      (((histories c s m).y t).getD 1 []).getD i 0 = traceAt c.syn (s.syn i j) (m.syn i j) t .y2 ∧
      (((histories c s m).y t).getD 2 []).getD i 0 = traceAt c.syn (s.syn i j) (m.syn i j) t .y3 := by
  have hrows : Rows 3 c.post [s.y1, s.y2, s.y3] := by
    refine ⟨rfl, fun k hk => ?_⟩
    have : k = 0 ∨ k = 1 ∨ k = 2 := by omega
    rcases this with rfl | rfl | rfl
    · exact hs.y1
    · exact hs.y2
    · exact hs.y3
  obtain ⟨h1, h2⟩ := histM_spec c.e [c.y1, c.y2, c.y3] m.yDecay hm.yDecay m.yImp s.ty [s.y1, s.y2, s.y3] c.post hrows hs.ty t
  exact ⟨h1, fun i j hi => ⟨h2 0 (by simp) i hi c.y1 rfl, h2 1 (by simp) i hi c.y2 rfl, h2 2 (by simp) i hi c.y3 rfl⟩⟩

theorem row_ok {c : MCfg} {v : List Int} (h : v.length = c.pre) : (Arr.row v).fits c ∧ ∀ i j, j < c.pre → (Arr.row v).val i j = v.getD j 0 := by
  refine ⟨⟨Or.inl rfl, Or.inr h⟩, fun i j hj => ?_⟩
  show v.getD (bcIdx v.length j) 0 = _
  rw [h, bcIdx_lt hj]

theorem col_ok {c : MCfg} {v : List Int} (h : v.length = c.post) : (Arr.col v).fits c ∧ ∀ i j, i < c.post → (Arr.col v).val i j = v.getD i 0 := by
  refine ⟨⟨Or.inr h, Or.inl rfl⟩, fun i j hi => ?_⟩
  show v.getD (bcIdx v.length i) 0 = _
  rw [h, bcIdx_lt hi]

theorem pick_get (h : Nat → List (List Int)) (times : List Nat) (k n : Nat) (hn : n < times.length) :
    (pick h times k).getD n [] = (h (times.getD n 0)).getD k [] := getD_map _ times n hn 0 []

theorem diagonal_get (m : List (List Int)) (k : Nat) (hk : k < m.length) : (diagonal m).getD k 0 = (m.getD k []).getD k 0 := by
  unfold diagonal
  have hr : (List.range m.length).getD k 0 = k := by
    rw [getD_lt (by rw [List.length_range]; exact hk), List.getElem_range]
  rw [getD_map _ (List.range m.length) k (by rw [List.length_range]; exact hk) 0 0, hr]

theorem evaluated_ok (c : MCfg) (s : MSt) (m : MInp) (hs : s.shaped c) (hm : m.shaped c) (d : Dep) (v : V)
    (hv : v = .x1 ∨ v = .x2 ∨ v = .y1 ∨ v = .y2 ∨ v = .y3) :
    (evaluated c s (histories c s m) d v).fits c ∧ ∀ i j, i < c.post → j < c.pre →
      (evaluated c s (histories c s m) d v).val i j = traceAt c.syn (s.syn i j) (m.syn i j) (readTime c.syn (s.syn i j) d) v := by
  have hX : ∀ t i j, j < c.pre → isX v = true →
      (((histories c s m).x t).getD (rowOf v) []).getD j 0 = traceAt c.syn (s.syn i j) (m.syn i j) t v := by
    intro t i j hj hx
    have h := (hist_x c s m hs hm t).2 i j hj
    rcases hv with rfl | rfl | rfl | rfl | rfl
    · exact h.1
    · exact h.2
    · exact absurd hx (by decide)
    · exact absurd hx (by decide)
    · exact absurd hx (by decide)
  have hY : ∀ t i j, i < c.post → isX v = false →
      (((histories c s m).y t).getD (rowOf v) []).getD i 0 = traceAt c.syn (s.syn i j) (m.syn i j) t v := by
    intro t i j hi hx
    have h := (hist_y c s m hs hm t).2 i j hi
    rcases hv with rfl | rfl | rfl | rfl | rfl
    · exact absurd hx (by decide)
    · exact absurd hx (by decide)
    · exact h.1
    · exact h.2.1
    · exact h.2.2
  have hXl : ∀ t, isX v = true → (((histories c s m).x t).getD (rowOf v) []).length = c.pre := by
    intro t hx
    refine (hist_x c s m hs hm t).1.2 (rowOf v) ?_
    rcases hv with rfl | rfl | rfl | rfl | rfl <;> first | decide | exact absurd hx (by decide)
  have hYl : ∀ t, isX v = false → (((histories c s m).y t).getD (rowOf v) []).length = c.post := by
    intro t hx
    refine (hist_y c s m hs hm t).1.2 (rowOf v) ?_
    rcases hv with rfl | rfl | rfl | rfl | rfl <;> first | decide | exact absurd hx (by decide)
  have htx := hs.tx
  have hty := hs.ty
  cases hx : isX v with
  | true =>
    cases d with
    | x0 =>
      unfold evaluated
      simp only [hx, if_true]
      have hpl : (pick (histories c s m).x s.tx (rowOf v)).length = c.pre := by unfold pick; rw [List.length_map, htx]
      have hdl : (diagonal (pick (histories c s m).x s.tx (rowOf v))).length = c.pre := by
        unfold diagonal; rw [List.length_map, List.length_range, hpl]
      refine ⟨(row_ok hdl).1, fun i j hi hj => ?_⟩
      rw [(row_ok hdl).2 i j hj, diagonal_get _ j (by omega), pick_get _ _ _ _ (by omega)]
      exact hX _ i j hj hx
    | y0 =>
      unfold evaluated
      simp only [hx, if_true]
      have hpl : (pick (histories c s m).x s.ty (rowOf v)).length = c.post := by unfold pick; rw [List.length_map, hty]
      refine ⟨⟨Or.inr hpl, Or.inr rfl⟩, fun i j hi hj => ?_⟩
      rw [full_val (c := c) ⟨hpl, rfl⟩ hi hj]
      show ((pick (histories c s m).x s.ty (rowOf v)).getD i []).getD j 0 = _
      rw [pick_get _ _ _ _ (by omega)]
      exact hX _ i j hj hx
    | u =>
      unfold evaluated
      simp only [hx, if_true]
      refine ⟨(row_ok (hXl _ hx)).1, fun i j hi hj => ?_⟩
      rw [(row_ok (hXl _ hx)).2 i j hj]
      exact hX _ i j hj hx
  | false =>
    cases d with
    | x0 =>
      unfold evaluated
      simp only [hx, Bool.false_eq_true, if_false]
      have hpl : (pick (histories c s m).y s.tx (rowOf v)).length = c.pre := by unfold pick; rw [List.length_map, htx]
      refine ⟨⟨Or.inr rfl, Or.inr hpl⟩, fun i j hi hj => ?_⟩
      rw [full_val (c := c) ⟨rfl, hpl⟩ hi hj]
      show ((pick (histories c s m).y s.tx (rowOf v)).getD j []).getD i 0 = _
      rw [pick_get _ _ _ _ (by omega)]
      exact hY _ i j hi hx
    | y0 =>
      unfold evaluated
      simp only [hx, Bool.false_eq_true, if_false]
      have hpl : (pick (histories c s m).y s.ty (rowOf v)).length = c.post := by unfold pick; rw [List.length_map, hty]
      have hdl : (diagonal (pick (histories c s m).y s.ty (rowOf v))).length = c.post := by
        unfold diagonal; rw [List.length_map, List.length_range, hpl]
      refine ⟨(col_ok hdl).1, fun i j hi hj => ?_⟩
      rw [(col_ok hdl).2 i j hi, diagonal_get _ i (by omega), pick_get _ _ _ _ (by omega)]
      exact hY _ i j hi hx
    | u =>
      unfold evaluated
      simp only [hx, Bool.false_eq_true, if_false]
      refine ⟨(col_ok (hYl _ hx)).1, fun i j hi hj => ?_⟩
      rw [(col_ok (hYl _ hx)).2 i j hi]
      exact hY _ i j hi hx

theorem args_ok (c : MCfg) (time : Nat) (s : MSt) (m : MInp) (hs : s.shaped c) (hm : m.shaped c) :
    (∀ d, ((applierArgsM c time s (histories c s m)).dep d).fits c) ∧ (∀ d v, ((applierArgsM c time s (histories c s m)).val d v).fits c) ∧
    ∀ i j, i < c.post → j < c.pre →
      EnvOk c (applierArgsM c time s (histories c s m)) i j (applierArgs c.syn time (s.syn i j) (m.syn i j)) := by
  have htx := hs.tx
  have hty := hs.ty
  have hxl : (s.tx.map fun t => if 0 < t then (1 : Int) else 0).length = c.pre := by rw [List.length_map, htx]
  have hyl : (s.ty.map fun t => if 0 < t then (1 : Int) else 0).length = c.post := by rw [List.length_map, hty]
  have hdep : ∀ d, ((applierArgsM c time s (histories c s m)).dep d).fits c := by
    intro d
    cases d with
    | x0 => exact (row_ok hxl).1
    | y0 => exact (col_ok hyl).1
    | u => exact ⟨Or.inl rfl, Or.inl rfl⟩
  have hfull : ∀ a : Arr, a.isFull c → a.fits c := fun a h => ⟨Or.inr h.1, Or.inr h.2⟩
  have hval : ∀ d v, ((applierArgsM c time s (histories c s m)).val d v).fits c := by
    intro d v
    cases v with
    | w => exact hfull _ hs.w
    | d => exact hfull _ hs.d
    | t => exact hfull _ hs.t
    | x1 => exact (evaluated_ok c s m hs hm d .x1 (by simp)).1
    | x2 => exact (evaluated_ok c s m hs hm d .x2 (by simp)).1
    | y1 => exact (evaluated_ok c s m hs hm d .y1 (by simp)).1
    | y2 => exact (evaluated_ok c s m hs hm d .y2 (by simp)).1
    | y3 => exact (evaluated_ok c s m hs hm d .y3 (by simp)).1
  refine ⟨hdep, hval, fun i j hi hj => ⟨fun d => ⟨hdep d, ?_⟩, fun d v => ⟨hval d v, ?_⟩⟩⟩
  · cases d with
    | x0 =>
      show (Arr.row _).val i j = if 0 < s.tx.getD j 0 then (1 : Int) else 0
      rw [(row_ok hxl).2 i j hj, getD_map _ s.tx j (by omega) 0 0]
    | y0 =>
      show (Arr.col _).val i j = if 0 < s.ty.getD i 0 then (1 : Int) else 0
      rw [(col_ok hyl).2 i j hi, getD_map _ s.ty i (by omega) 0 0]
    | u => rfl
  · cases v with
    | w => exact full_val hs.w hi hj
    | d => exact full_val hs.d hi hj
    | t => exact full_val hs.t hi hj
    | x1 => exact (evaluated_ok c s m hs hm d .x1 (by simp)).2 i j hi hj
    | x2 => exact (evaluated_ok c s m hs hm d .x2 (by simp)).2 i j hi hj
    | y1 => exact (evaluated_ok c s m hs hm d .y1 (by simp)).2 i j hi hj
    | y2 => exact (evaluated_ok c s m hs hm d .y2 (by simp)).2 i j hi hj
    | y3 => exact (evaluated_ok c s m hs hm d .y3 (by simp)).2 i j hi hj

theorem runLrn_spec (c : MCfg) (time : Nat) (s : MSt) (m : MInp) (three : Bool) (hs : s.shaped c) (hm : m.shaped c) :
    ∃ s', runLrnM c time s m three = some s' ∧ s'.shaped c ∧ ∀ i j, i < c.post → j < c.pre → s'.syn i j =
      if three then runLrn3 c.syn time (s.syn i j) (m.syn i j) else runLrn c.syn time (s.syn i j) (m.syn i j) := by
  obtain ⟨hd, hv, henv⟩ := args_ok c time s m hs hm
  have L := learn_spec c (applierArgsM c time s (histories c s m)) (fun i j => applierArgs c.syn time (s.syn i j) (m.syn i j)) henv hd hv m.rndW
  obtain ⟨w, w1, w2, w3⟩ := L (satAccW c.mode) (fun x => clipWeight x c.mode 8 false) c.dw s.w hs.w
  obtain ⟨dd, d1, d2, d3⟩ := L (max 0) (clipI 0 (2 ^ 8 - 1)) c.dd s.d hs.d
  obtain ⟨tt, t1, t2, t3⟩ := L id (clipI (-(2 ^ 8) - 1) (2 ^ 8 - 1)) c.dt s.t hs.t
  have hx := hist_x c s m hs hm c.tEpoch
  have hy := hist_y c s m hs hm c.tEpoch
  refine ⟨{ x1 := ((histories c s m).x c.tEpoch).getD 0 []
            x2 := ((histories c s m).x c.tEpoch).getD 1 []
            y1 := if three then s.y1 else ((histories c s m).y c.tEpoch).getD 0 []
            y2 := if three then s.y2 else ((histories c s m).y c.tEpoch).getD 1 []
            y3 := if three then s.y3 else ((histories c s m).y c.tEpoch).getD 2 []
            tx := s.tx.map fun _ => 0
            ty := s.ty.map fun _ => 0
            w := w
            d := dd
            t := tt }, ?_, ?_, ?_⟩
  · unfold runLrnM
    dsimp only
    rw [w1, Option.bind_some, d1, Option.bind_some, t1, Option.map_some]
  · refine ⟨hx.1.2 0 (by decide), hx.1.2 1 (by decide), ?_, ?_, ?_, ?_, ?_, w2, d2, t2⟩
    · show (s.tx.map _).length = _
      rw [List.length_map, hs.tx]
    · show (if three then s.y1 else _).length = _
      split
      · exact hs.y1
      · exact hy.1.2 0 (by decide)
    · show (if three then s.y2 else _).length = _
      split
      · exact hs.y2
      · exact hy.1.2 1 (by decide)
    · show (if three then s.y3 else _).length = _
      split
      · exact hs.y3
      · exact hy.1.2 2 (by decide)
    · show (s.ty.map _).length = _
      rw [List.length_map, hs.ty]
  · intro i j hi hj
    have ex := hx.2 i j hj
    have ey := hy.2 i j hi
    have etx : (s.tx.map fun _ => 0).getD j 0 = 0 := getD_map (fun _ => 0) s.tx j (by have := hs.tx; omega) 0 0
    have ety : (s.ty.map fun _ => 0).getD i 0 = 0 := getD_map (fun _ => 0) s.ty i (by have := hs.ty; omega) 0 0
    have ew : w.at_ i j = learnW c.syn (applierArgs c.syn time (s.syn i j) (m.syn i j)) m.rndW (s.w.at_ i j) := by
      rw [w3 i j hi hj]
      unfold learnW
      show _ = match c.dw with
        | none => _
        | some ps => _
      cases c.dw <;> rfl
    have ed : dd.at_ i j = learnD c.syn (applierArgs c.syn time (s.syn i j) (m.syn i j)) m.rndW (s.d.at_ i j) := by
      rw [d3 i j hi hj]
      unfold learnD
      show _ = match c.dd with
        | none => _
        | some ps => _
      cases c.dd <;> rfl
    have et : tt.at_ i j = learnT c.syn (applierArgs c.syn time (s.syn i j) (m.syn i j)) m.rndW (s.t.at_ i j) := by
      rw [t3 i j hi hj]
      unfold learnT
      show _ = match c.dt with
        | none => _
        | some ps => _
      cases c.dt <;> rfl
    cases three with
    | true =>
      simp only [if_true]
      unfold MSt.syn
      dsimp only
      rw [ex.1, ex.2, etx, ety, ew, ed, et]
      rfl
    | false =>
      simp only [Bool.false_eq_true, if_false]
      unfold MSt.syn
      dsimp only
      rw [ex.1, ex.2, ey.1, ey.2.1, ey.2.2, etx, ety, ew, ed, et]
      rfl

/-! ## C108 -/

theorem step_spec (c : MCfg) (time : Nat) (s : MSt) (m : MInp) (r : Option MRcv) (hs : s.shaped c) (hm : m.shaped c)
    (hr : ∀ x, r = some x → x.shaped c) :
    ∃ s', stepM c time s m r = some s' ∧ s'.shaped c ∧ ∀ i j, i < c.post → j < c.pre →
      s'.syn i j = synStep c.syn time (s.syn i j) (m.syn i j) (r.map fun x => x.syn i) := by
  have hsh := recv_shaped c time s m r hs hm hr
  have hsy := fun i j hi hj => recv_syn c time s m r hs hm i j hi hj
  cases hg : (time % c.tEpoch == 0) with
  | false =>
    refine ⟨recvTracesM c time s m r, ?_, hsh, ?_⟩
    · unfold stepM; simp only [hg, Bool.false_eq_true, if_false]
    · intro i j hi hj
      rw [hsy i j hi hj]
      have hg' : lrnGuard c.syn.tEpoch time = false := hg
      cases r with
      | none => show _ = step _ _ _ _; unfold step; rw [hg']; rfl
      | some x => show _ = step3 _ _ _ _ _; unfold step3; rw [hg']; rfl
  | true =>
    obtain ⟨s', h1, h2, h3⟩ := runLrn_spec c time (recvTracesM c time s m r) m r.isSome hsh hm
    refine ⟨s', ?_, h2, ?_⟩
    · unfold stepM; simp only [hg, if_true]; exact h1
    · intro i j hi hj
      rw [h3 i j hi hj, hsy i j hi hj]
      have hg' : lrnGuard c.syn.tEpoch time = true := hg
      cases r with
      | none => show _ = step _ _ _ _; unfold step; rw [if_pos hg']; rfl
      | some x => show _ = step3 _ _ _ _ _; unfold step3; rw [if_pos hg']; rfl

/-- **C108.** A learning connection of any size, after any number of steps with messages of the right shapes: the array code raises nothing, the
arrays keep their shapes, and every synapse is in the state it would have if it were alone. -/
theorem C108_each_synapse_alone (c : MCfg) (s : MSt) (inp : Nat → MInp) (rcv : Nat → Option MRcv) (hs : s.shaped c)
    (hi : ∀ n, (inp n).shaped c) (hr : ∀ n x, rcv n = some x → x.shaped c) (n : Nat) :
    ∃ s', runM c s inp rcv n = some s' ∧ s'.shaped c ∧ ∀ i j, i < c.post → j < c.pre →
      s'.syn i j = synRun c.syn (s.syn i j) (fun n => (inp n).syn i j) (fun n => (rcv n).map fun x => x.syn i) n := by
  induction n with
  | zero => exact ⟨s, rfl, hs, fun _ _ _ _ => rfl⟩
  | succ n ih =>
    obtain ⟨s1, h1, h2, h3⟩ := ih
    obtain ⟨s', g1, g2, g3⟩ := step_spec c (n + 1) s1 (inp (n + 1)) (rcv (n + 1)) h2 (hi (n + 1)) (hr (n + 1))
    refine ⟨s', ?_, g2, ?_⟩
    · show (runM c s inp rcv n).bind _ = _
      rw [h1, Option.bind_some, g1]
    · intro i j a b
      rw [g3 i j a b, h3 i j a b]
      rfl

/-- **C108 (independence).** The weight from neuron `j` to neuron `i` does not depend on any other neuron or synapse: two connections with the
same parameters and random numbers, whose state, spikes and third factors agree at `i` and `j`, agree there at all times. -/
theorem C108_other_synapses_do_not_matter (c : MCfg) (s s' : MSt) (inp inp' : Nat → MInp) (rcv rcv' : Nat → Option MRcv) (hs : s.shaped c)
    (hs' : s'.shaped c) (hi : ∀ n, (inp n).shaped c) (hi' : ∀ n, (inp' n).shaped c) (hr : ∀ n x, rcv n = some x → x.shaped c)
    (hr' : ∀ n x, rcv' n = some x → x.shaped c) (i j : Nat) (ha : i < c.post) (hb : j < c.pre) (h0 : s.syn i j = s'.syn i j)
    (h1 : ∀ n, (inp n).syn i j = (inp' n).syn i j) (h2 : ∀ n, (rcv n).map (fun x => x.syn i) = (rcv' n).map (fun x => x.syn i)) (n : Nat)
    (a b : MSt) (hA : runM c s inp rcv n = some a) (hB : runM c s' inp' rcv' n = some b) : a.w.at_ i j = b.w.at_ i j := by
  obtain ⟨x, e1, _, e2⟩ := C108_each_synapse_alone c s inp rcv hs hi hr n
  obtain ⟨y, f1, _, f2⟩ := C108_each_synapse_alone c s' inp' rcv' hs' hi' hr' n
  rw [hA] at e1
  rw [hB] at f1
  have hx := Option.some.inj e1
  have hy := Option.some.inj f1
  subst hx
  subst hy
  have : a.syn i j = b.syn i j := by
    rw [e2 i j ha hb, f2 i j ha hb, h0]
    have e : (fun n => (inp n).syn i j) = fun n => (inp' n).syn i j := funext h1
    have e' : (fun n => (rcv n).map fun x => x.syn i) = fun n => (rcv' n).map fun x => x.syn i := funext h2
    rw [e, e']
  exact congrArg St.w this

theorem synRun_two (c : Cfg) (s : St) (inp : Nat → Inp) (n : Nat) : synRun c s inp (fun _ => none) n = run c s inp n := by
  induction n with
  | zero => rfl
  | succ n ih =>
    show step c (n + 1) (synRun c s inp (fun _ => none) n) (inp (n + 1)) = step c (n + 1) (run c s inp n) (inp (n + 1))
    rw [ih]

theorem synRun_three (c : Cfg) (s : St) (inp : Nat → Inp) (rcv : Nat → Rcv) (n : Nat) :
    synRun c s inp (fun n => some (rcv n)) n = run3 c s inp rcv n := by
  induction n with
  | zero => rfl
  | succ n ih =>
    show step3 c (n + 1) (synRun c s inp (fun n => some (rcv n)) n) (inp (n + 1)) (rcv (n + 1)) = step3 c (n + 1) (run3 c s inp rcv n) _ _
    rw [ih]

/-- **C108 (two-factor rules).** What is proved of one synapse (C56-C58) holds of every synapse of a connection of any size; here the range of
the weights. -/
theorem C108_weights_always_legal (c : MCfg) (s : MSt) (inp : Nat → MInp) (hs : s.shaped c) (hi : ∀ n, (inp n).shaped c)
    (hw : ∀ i j, i < c.post → j < c.pre → Verif.Weights.Legal c.mode 8 (s.w.at_ i j)) (n : Nat) :
    ∃ s', runM c s inp (fun _ => none) n = some s' ∧
      ∀ i j, i < c.post → j < c.pre → Verif.Weights.Legal c.mode 8 (s'.w.at_ i j) := by
  obtain ⟨s', h1, _, h3⟩ := C108_each_synapse_alone c s inp (fun _ => none) hs hi (fun _ _ h => by cases h) n
  refine ⟨s', h1, fun i j a b => ?_⟩
  have h := h3 i j a b
  have e : (fun n : Nat => (none : Option MRcv).map fun x => x.syn i) = fun _ => none := rfl
  rw [e, synRun_two] at h
  have hw' := C57_weights_always_legal c.syn (s.syn i j) (fun n => (inp n).syn i j) (hw i j a b) n
  rw [← h] at hw'
  exact hw'

/-- **C108 (three-factor rules).** The same for `Loihi3FLearningRule`; received third factors are those of the synapse's own neuron. -/
theorem C108_three_factor (c : MCfg) (s : MSt) (inp : Nat → MInp) (rcv : Nat → MRcv) (hs : s.shaped c) (hi : ∀ n, (inp n).shaped c)
    (hr : ∀ n, (rcv n).shaped c) (n : Nat) :
    ∃ s', runM c s inp (fun n => some (rcv n)) n = some s' ∧ s'.shaped c ∧ ∀ i j, i < c.post → j < c.pre →
      s'.syn i j = run3 c.syn (s.syn i j) (fun n => (inp n).syn i j) (fun n => (rcv n).syn i) n := by
  obtain ⟨s', h1, h2, h3⟩ := C108_each_synapse_alone c s inp (fun n => some (rcv n)) hs hi (fun k x h => by cases h; exact hr k) n
  refine ⟨s', h1, h2, fun i j a b => ?_⟩
  rw [← synRun_three]
  exact h3 i j a b

/-- **C108 (one-shot learning of whole patterns).** The connection of the prototype learner, any number of prototypes and features. Prototype `i`
sends its only back-propagating action potential in step `K i` (or never, if `K i > N`), with `y1 = 127`. After `N` steps row `i` is still 0 if
`N < K i`; otherwise every feature `j` of it is within `p - 4 ≤ w ≤ p + 1` of the payload `p` of `j` seen last at step `K i`. -/
theorem C108_patterns_stored (c : MCfg) (d : ℚ) (hc : OneShotCfg c.syn d) (h0 : 0 ≤ d) (h1 : d ≤ 1) (hd : (1 - d) * 127 ≤ 1) (s : MSt)
    (inp : Nat → MInp) (rcv : Nat → MRcv) (hs : s.shaped c) (hi : ∀ n, (inp n).shaped c) (hr : ∀ n, (rcv n).shaped c)
    (hz : ∀ i j, i < c.post → j < c.pre → FreshSyn (s.syn i j)) (hok : ∀ n i j, ((inp n).syn i j).ok)
    (hrnd : ∀ n, (inp n).xDecay < 1 - (1 - d) * 127 ∧ (inp n).yDecay < 1 - (1 - d) * 127)
    (hp : ∀ n j, (inp n).pre.getD j 0 ≤ 254) (K : Nat → Nat) (N : Nat)
    (hK : ∀ i, i < c.post → 1 ≤ K i ∧ (rcv (K i)).y1.getD i 0 = 127 ∧ ∀ n, 1 ≤ n → n ≤ N → ((inp n).post.getD i false = true ↔ n = K i)) :
    ∃ s', runM c s inp (fun n => some (rcv n)) N = some s' ∧ ∀ i j, i < c.post → j < c.pre →
      (N < K i → s'.w.at_ i j = 0) ∧
      (K i ≤ N → (lastPat (fun n => (inp n).syn i j) (K i) : Int) - 4 ≤ s'.w.at_ i j ∧
        s'.w.at_ i j ≤ lastPat (fun n => (inp n).syn i j) (K i) + 1) := by
  obtain ⟨s', e1, _, e3⟩ := C108_three_factor c s inp rcv hs hi hr N
  refine ⟨s', e1, fun i j a b => ?_⟩
  obtain ⟨k1, k2, k3⟩ := hK i a
  have hw : s'.w.at_ i j = (run3 c.syn (s.syn i j) (fun n => (inp n).syn i j) (fun n => (rcv n).syn i) N).w := by
    rw [← e3 i j a b]; rfl
  obtain ⟨p1, p2⟩ := C107_stores_pattern c.syn d hc h0 h1 hd (s.syn i j) (hz i j a b) (fun n => (inp n).syn i j) (fun n => (rcv n).syn i)
    (fun n => hok n i j) (fun n => hp n j) (K i) N k3 k2
  rw [hw]
  refine ⟨fun h => p1 N h (le_refl _), fun h => ?_⟩
  obtain ⟨w, q1, _, _, q4, q5⟩ := p2 k1 h
  rw [q1 N h (le_refl _)]
  exact ⟨q5 (fun m => (hrnd m).1) (hrnd (K i)).2, q4⟩

/-! ## A concrete connection -/

/-- Two post-, three pre-synaptic neurons, pair-based rule, `t_epoch = 2`. -/
def exM : MCfg :=
  { post := 2
    pre := 3
    tEpoch := 2
    graded := .regular
    e := fun _ => 1 / 2
    x1 := ⟨16, 0, 3⟩
    x2 := ⟨0, 0, 0⟩
    y1 := ⟨32, 0, 3⟩
    y2 := ⟨0, 0, 0⟩
    y3 := ⟨0, 0, 0⟩
    mode := .mixed
    dw := compileRule "2^-1*x0*y1 - 2^-2*y0*x1 + 2^-1*x1*y0".toList
    dd := none
    dt := none
    dec := none }

def exMSt : MSt :=
  ⟨[0, 0, 0], [0, 0, 0], [0, 0], [0, 0], [0, 0], [0, 0, 0], [0, 0], .full 2 3 10, .full 2 3 0, .full 2 3 0⟩

/-- Pre-synaptic neuron 1 spikes in the first step, post-synaptic neuron 0 in the second. -/
def exMInp (n : Nat) : MInp := ⟨[0, if n == 1 then 1 else 0, 0], [n == 2, false], 0, 1 / 2, 0, 1 / 2, 0, 1 / 2⟩

example : exMSt.shaped exM ∧ ∀ n, (exMInp n).shaped exM := by
  refine ⟨⟨rfl, rfl, rfl, rfl, rfl, rfl, rfl, ⟨rfl, rfl⟩, ⟨rfl, rfl⟩, ⟨rfl, rfl⟩⟩, fun n => ⟨rfl, rfl, ?_, ?_⟩⟩ <;> norm_num [exMInp]

/-- Only the synapse between the two changes. -/
example : ((runM exM exMSt exMInp (fun _ => none) 2).map fun s => (List.range 2).map fun i => (List.range 3).map fun j => s.w.at_ i j) =
    some [[10, 12, 10], [10, 10, 10]] := by decide +kernel

end Verif.Learning
