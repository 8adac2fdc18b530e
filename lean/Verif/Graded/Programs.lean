import Verif.Graded.Algebra

/-!
# C94: products, and programs in the algebraic syntax
-/

namespace Verif.Graded

open Verif.Dense (Vec Mat matVec prepared bin)
open Verif.Networks (Kind Conn Ex St assign link)

/-! ### What arrives, in terms of the processes -/

/-- All messages of step `t` follow the equations. -/
def Wiring.Holds (w : Wiring) (H : Nat → Nat → Vec) (t : Nat) : Prop := ∀ c, c < w.edges.length → w.Eqn H c t

theorem sum_range_getD {α : Type} (l : List α) (d : α) (f : α → Int) :
    ∑ c ∈ Finset.range l.length, f (l.getD c d) = (l.map f).sum := by
  induction l with
  | nil => rfl
  | cons a l ih =>
    rw [List.length_cons, Finset.sum_range_succ', List.map_cons, List.sum_cons, ← ih, add_comm]
    rfl

theorem arrives_list (w : Wiring) (H : Nat → Nat → Vec) (t : Nat) (h : w.Holds H t) (p : Nat) (first : Bool) (i : Nat) :
    w.arrives H p first t i =
      (w.edges.map fun e => if e.2.2.1 = p ∧ (e.2.2.2 = 0 ↔ first = true) then w.value H e.1 e.2.1 t i else 0).sum := by
  unfold Wiring.arrives
  rw [← sum_range_getD w.edges (0, 0, 0, 0)]
  apply Finset.sum_congr rfl
  intro c hc
  rw [show H c t = _ from h c (Finset.mem_range.1 hc)]
  rfl

/-- Channels outside the part under consideration contribute nothing. -/
theorem sum_other (w : Wiring) (H : Nat → Nat → Vec) (t p i : Nat) (first : Bool) (l : List (Nat × Nat × Nat × Nat))
    (h : ∀ e ∈ l, e.2.2.1 ≠ p) :
    (l.map fun e => if e.2.2.1 = p ∧ (e.2.2.2 = 0 ↔ first = true) then w.value H e.1 e.2.1 t i else 0).sum = 0 := by
  induction l with
  | nil => rfl
  | cons e l ih =>
    rw [List.map_cons, List.sum_cons, ih (fun e he => h e (List.mem_cons_of_mem _ he))]
    simp [h e List.mem_cons_self]

theorem value_identity (w : Wiring) (H : Nat → Nat → Vec) (p n outPort : Nat) (hm : w.node p = identity n) :
    (∀ i, w.value H p outPort 0 i = 0) ∧ ∀ t i, i < n → w.value H p outPort (t + 1) i = w.arrives H p true t i := by
  -- a channel leaving `p`, on an auxiliary function
  have key : ∀ t, (t = 0 → ∀ i, w.value H p outPort t i = 0) ∧
      ∀ t', t = t' + 1 → ∀ i, i < n → w.value H p outPort t i = w.arrives H p true t' i := by
    intro t
    obtain ⟨m, hn, hf, hmix⟩ := isMatrix_conn (nd := w.node p) (nOut := n) (nIn := n) (exp := 7)
      (W := fun i j => if i = j then 1 else 0) (Or.inr hm)
    constructor
    · rintro rfl i
      unfold Wiring.value
      rw [hn]; rfl
    · rintro t' rfl i hi
      unfold Wiring.value
      rw [hn]
      simp only [Nat.add_eq_zero_iff, one_ne_zero, and_false, if_false, Nat.add_sub_cancel, if_true]
      rw [scaled_shift]
      have hmm : m ≠ .mixed := by
        intro h
        obtain ⟨_, x, hx, hx0⟩ := hmix h
        unfold entries at hx
        rw [List.mem_flatMap] at hx
        obtain ⟨a, _, hx⟩ := hx
        rw [List.mem_map] at hx
        obtain ⟨b, _, rfl⟩ := hx
        dsimp only at hx0
        split at hx0 <;> norm_num at hx0
      have hfix : ∀ j, fixedWeights 7 (fun i j => if i = j then (1 : ℚ) else 0) i j = if i = j then 128 else 0 := by
        intro j
        unfold fixedWeights
        dsimp only
        split
        · rw [show (1 : ℚ) * 2 ^ 7 = ((128 : Int) : ℚ) by norm_num, toZero_int]
        · rw [show (0 : ℚ) * 2 ^ 7 = ((0 : Int) : ℚ) by norm_num, toZero_int]
      have hmv : matVec n (prepared { nIn := n, graded := true, weightExp := -((7 : Nat) : Int), signMode := m, numWeightBits := 8 }
          (fixedWeights 7 (fun i j => if i = j then (1 : ℚ) else 0))) (w.arrives H p true t') i = 128 * w.arrives H p true t' i := by
        unfold matVec prepared
        have : ∀ j ∈ Finset.range n, Verif.Weights.truncWeight (Verif.Weights.clipWeight
            (fixedWeights 7 (fun i j => if i = j then (1 : ℚ) else 0) i j) m 8 false) m 8 8 * w.arrives H p true t' j =
            if i = j then 128 * w.arrives H p true t' j else 0 := by
          intro j hj
          have hff := hf i j hi (Finset.mem_range.1 hj)
          rw [hfix j] at hff ⊢
          rw [weight_exact hff (by split <;> norm_num) (by split <;> norm_num) (fun h => absurd h hmm)]
          split <;> simp
        rw [Finset.sum_congr rfl this, Finset.sum_ite_eq (Finset.range n) i, if_pos (Finset.mem_range.2 hi)]
      rw [hmv]
      have : (((128 * w.arrives H p true t' i : Int) : ℚ) / 2 ^ 7) = ((w.arrives H p true t' i : Int) : ℚ) := by
        push_cast; norm_num
      rw [this, Int.floor_intCast]
  exact ⟨(key 0).1 rfl, fun t i hi => (key (t + 1)).2 t rfl i hi⟩

/-! ### Products -/

/-- **C94.** `a * b`, as part of any network: what the result network sends two steps later is the elementwise product, shifted by the
fixed-point base, with magnitudes up to 1 suppressed. In the first two steps it sends zeros. -/
theorem C94_product (w : Wiring) (H : Nat → Nat → Vec) (N n exp a b : Nat) (pre post : List (Nat × Nat × Nat × Nat))
    (hedges : w.edges = pre ++ mulEdges N a b ++ post)
    (hnode : ∀ p, N ≤ p → p ≤ N + 3 → w.node p = mulNodes N n exp p)
    (hother : ∀ e ∈ pre ++ post, e.2.2.1 < N ∨ N + 3 < e.2.2.1) :
    (∀ i, w.value H (N + 3) 0 0 i = 0) ∧
    (w.Holds H 0 → ∀ i, i < n → w.value H (N + 3) 0 1 i = 0) ∧
    ∀ t, w.Holds H t → w.Holds H (t + 1) → ∀ i, i < n →
      w.value H (N + 3) 0 (t + 2) i = thr 1 (w.value H a 0 t i * w.value H b 0 t i / 2 ^ exp) := by
  have hid : ∀ k, 1 ≤ k → k ≤ 3 → w.node (N + k) = identity n := by
    intro k h1 h2
    rw [hnode (N + k) (by omega) (by omega)]
    unfold mulNodes
    rw [if_neg (by omega)]
  have hN : w.node N = .prod 1 exp := by
    rw [hnode N (by omega) (by omega)]; unfold mulNodes; rw [if_pos rfl]
  have hpre : ∀ q, N ≤ q → q ≤ N + 3 → ∀ e ∈ pre, e.2.2.1 ≠ q := by
    intro q h1 h2 e he
    have := hother e (by simp [he])
    omega
  have hpost : ∀ q, N ≤ q → q ≤ N + 3 → ∀ e ∈ post, e.2.2.1 ≠ q := by
    intro q h1 h2 e he
    have := hother e (by simp [he])
    omega
  have arr : ∀ t, w.Holds H t → ∀ q first, N ≤ q → q ≤ N + 3 → ∀ i, w.arrives H q first t i =
      ((mulEdges N a b).map fun e => if e.2.2.1 = q ∧ (e.2.2.2 = 0 ↔ first = true) then w.value H e.1 e.2.1 t i else 0).sum := by
    intro t h q first h1 h2 i
    rw [arrives_list w H t h, hedges, List.map_append, List.map_append, List.sum_append, List.sum_append,
      sum_other w H t q i first pre (hpre q h1 h2), sum_other w H t q i first post (hpost q h1 h2)]
    simp
  have arr1 : ∀ t, w.Holds H t → ∀ i, w.arrives H (N + 1) true t i = w.value H a 0 t i := by
    intro t h i; rw [arr t h _ _ (by omega) (by omega)]; simp [mulEdges]
  have arr2 : ∀ t, w.Holds H t → ∀ i, w.arrives H (N + 2) true t i = w.value H b 0 t i := by
    intro t h i; rw [arr t h _ _ (by omega) (by omega)]; simp [mulEdges]
  have arrN1 : ∀ t, w.Holds H t → ∀ i, w.arrives H N true t i = w.value H (N + 1) 0 t i := by
    intro t h i; rw [arr t h _ _ (by omega) (by omega)]; simp [mulEdges]
  have arrN2 : ∀ t, w.Holds H t → ∀ i, w.arrives H N false t i = w.value H (N + 2) 0 t i := by
    intro t h i; rw [arr t h _ _ (by omega) (by omega)]; simp [mulEdges]
  have arr3 : ∀ t, w.Holds H t → ∀ i, w.arrives H (N + 3) true t i = w.value H N 0 t i := by
    intro t h i; rw [arr t h _ _ (by omega) (by omega)]; simp [mulEdges]
  have hprod : ∀ t i, w.value H N 0 t i = thr 1 (w.arrives H N true t i * w.arrives H N false t i / 2 ^ exp) := by
    intro t i; unfold Wiring.value; rw [hN]
  refine ⟨(value_identity w H _ n 0 (hid 3 (by omega) (by omega))).1, ?_, ?_⟩
  · intro h0 i hi
    rw [(value_identity w H _ n 0 (hid 3 (by omega) (by omega))).2 0 i hi, arr3 0 h0, hprod, arrN1 0 h0,
      (value_identity w H _ n 0 (hid 1 (by omega) (by omega))).1]
    simp [thr]
  · intro t h0 h1 i hi
    rw [(value_identity w H _ n 0 (hid 3 (by omega) (by omega))).2 (t + 1) i hi, arr3 _ h1, hprod, arrN1 _ h1, arrN2 _ h1,
      (value_identity w H _ n 0 (hid 1 (by omega) (by omega))).2 t i hi,
      (value_identity w H _ n 0 (hid 2 (by omega) (by omega))).2 t i hi, arr1 _ h0, arr2 _ h0]

/-! ### Programs -/

/-- A sequence of statements `v << e`. -/
def runProg (k : Nat → Kind) : List (Nat × Ex) → St → Option St
  | [], h => some h
  | s :: l, h => (assign k s.1 s.2 h).bind (runProg k l)

/-- The network objects of an expression. -/
def objects : Ex → List Nat
  | .net n => [n]
  | .mv a x => [a, x]
  | .add l r => objects l ++ objects r

/-- Specification: what a summand contributes to the vector on the left of `<<` in step `t`: a vector through an identity connection its
value of the step before, a matrix what it sends. -/
def contribution (k : Nat → Kind) (V : Nat → Nat → Vec) (t i o : Nat) : Int :=
  match k o with
  | .vec _ => if t = 0 then 0 else V o (t - 1) i
  | .mat => V o t i

/-- Specification: the sum of all summands of all statements for vector `v`. -/
def rhs (k : Nat → Kind) (V : Nat → Nat → Vec) (stmts : List (Nat × Ex)) (v t i : Nat) : Int :=
  ((stmts.filter fun s => s.1 = v).map fun s => (s.2.summands.map (contribution k V t i)).sum).sum

/-- Specification: what is fed to matrix `a`: all vectors `x` with `a @ x` in some statement. -/
def fed (V : Nat → Nat → Vec) (stmts : List (Nat × Ex)) (a t i : Nat) : Int :=
  (stmts.map fun s => ((s.2.feeds.filter fun c => c.dst = a).map fun c => V c.src t i).sum).sum

/-- The connections of a program: per statement the feeds and, in some order, the links of the summands. -/
theorem runProg_conns (k : Nat → Kind) (stmts : List (Nat × Ex))
    (hs : ∀ s ∈ stmts, k s.1 = .vec true ∧ s.2.simple = true ∧ s.2.typed k = true) : ∀ h : St,
    ∃ (h' : St) (oss : List (List Nat)), runProg k stmts h = some h' ∧ List.Forall₂ (fun s os => List.Perm os s.2.summands) stmts oss ∧
      h'.conns = h.conns ++ (List.zipWith (fun s os => s.2.feeds ++ os.map (link k s.1)) stmts oss).flatten := by
  induction stmts with
  | nil => intro h; exact ⟨h, [], rfl, .nil, by simp⟩
  | cons s l ih =>
    intro h
    obtain ⟨hv, hsim, hty⟩ := hs s List.mem_cons_self
    obtain ⟨h1, os, ha, hperm, hc⟩ := Verif.Networks.C75_each_summand_once k s.1 (Or.inl hv) s.2 hsim hty h
    obtain ⟨h2, oss, hr, hf, hc2⟩ := ih (fun s hs' => hs s (List.mem_cons_of_mem _ hs')) h1
    refine ⟨h2, os :: oss, ?_, .cons hperm hf, ?_⟩
    · unfold runProg; rw [ha]; exact hr
    · rw [hc2, hc]; simp

/-- A sum over all connections, statement by statement. -/
theorem sum_conns (k : Nat → Kind) (G : Conn → Int) (stmts : List (Nat × Ex)) (oss : List (List Nat))
    (hf : List.Forall₂ (fun s os => List.Perm os s.2.summands) stmts oss) :
    (((List.zipWith (fun s os => s.2.feeds ++ os.map (link k s.1)) stmts oss).flatten).map G).sum =
      (stmts.map fun s => (s.2.feeds.map G).sum + (s.2.summands.map fun o => G (link k s.1 o)).sum).sum := by
  induction hf with
  | nil => rfl
  | cons hp _ ih =>
    rw [List.zipWith_cons_cons, List.flatten_cons, List.map_append, List.sum_append, ih, List.map_cons, List.sum_cons,
      List.map_append, List.sum_append, List.map_map]
    congr 2
    exact (hp.map (fun o => G (link k _ o))).sum_eq

theorem mem_zipIdx_lt {α : Type} (l : List α) (x : α × Nat) (h : x ∈ l.zipIdx) : x.2 < l.length ∧ x.1 ∈ l := by
  obtain ⟨a, k⟩ := x
  have := List.mem_zipIdx h
  simp at this
  exact ⟨this.1, by rw [this.2]; exact List.getElem_mem _⟩

/-- What arrives at a network object: connection by connection. -/
theorem arrives_object (N : Nat) (node : Nat → Node) (dim : Nat → Nat) (conns : List Conn)
    (hc : ∀ c ∈ conns, c.src < N ∧ c.dst < N) (H : Nat → Nat → Vec) (p t i : Nat) (hp : p < N)
    (hH : (wiringOf N node dim conns).Holds H t) (hH' : ∀ t', t = t' + 1 → (wiringOf N node dim conns).Holds H t')
    (hdim : ∀ c ∈ conns, c.dst = p → c.viaIdentity = true → i < dim p) :
    (wiringOf N node dim conns).arrives H p true t i = (conns.map fun c => if c.dst = p then
      (if c.viaIdentity then (if t = 0 then 0 else (wiringOf N node dim conns).value H c.src 0 (t - 1) i)
        else (wiringOf N node dim conns).value H c.src 0 t i) else 0).sum := by
  set w := wiringOf N node dim conns with hw
  -- what arrives at an identity synapse
  have hsyn : ∀ t', w.Holds H t' → ∀ (c : Conn) (k : Nat), (c, k) ∈ conns.zipIdx → c.viaIdentity = true → ∀ i,
      w.arrives H (N + k) true t' i = w.value H c.src 0 t' i := by
    intro t' h c k hck hvia i
    rw [arrives_list w H t' h]
    have hedges : w.edges = conns.zipIdx.flatMap (connEdges N) := rfl
    rw [hedges, List.map_flatMap, List.flatMap_def, List.sum_flatten, List.map_map]
    have hterm : ∀ x ∈ conns.zipIdx, (List.sum ∘ fun x => (connEdges N x).map fun e =>
        if e.2.2.1 = N + k ∧ (e.2.2.2 = 0 ↔ true = true) then w.value H e.1 e.2.1 t' i else 0) x =
        if x = (c, k) then w.value H c.src 0 t' i else 0 := by
      intro x hx
      have hxm := mem_zipIdx_lt conns x hx
      have hdst := (hc x.1 hxm.2).2
      have hsame : x.2 = k → x = (c, k) := by
        intro hk
        have h1 := List.mem_zipIdx hx
        have h2 := List.mem_zipIdx hck
        obtain ⟨xa, xk⟩ := x
        simp only at hk
        subst hk
        simp at h1 h2
        rw [h1.2, h2.2]
      by_cases hxk : x = (c, k)
      · rw [if_pos hxk, hxk]
        simp only [Function.comp, connEdges, hvia, if_true, List.map_cons, List.map_nil, List.sum_cons, List.sum_nil]
        rw [hxk] at hdst
        simp only at hdst
        have : ¬ c.dst = N + k := by omega
        simp [this]
      · rw [if_neg hxk]
        have hk : x.2 ≠ k := fun h => hxk (hsame h)
        have h1 : ¬ x.1.dst = N + k := by omega
        simp only [Function.comp, connEdges]
        split
        · simp [h1, hk]
        · simp [h1]
    rw [List.map_congr_left hterm]
    -- exactly one entry is `(c, k)`
    have hnd : conns.zipIdx.Nodup := by
      refine List.Nodup.of_map Prod.snd ?_
      rw [List.zipIdx_map_snd]
      exact List.nodup_range' 1
    have hcount : ∀ (l : List (Conn × Nat)), l.Nodup → (c, k) ∈ l →
        (l.map fun x => if x = (c, k) then w.value H c.src 0 t' i else 0).sum = w.value H c.src 0 t' i := by
      intro l
      induction l with
      | nil => intro _ h; cases h
      | cons y l ih =>
        intro hnd hm
        rw [List.map_cons, List.sum_cons]
        rw [List.nodup_cons] at hnd
        by_cases hy : y = (c, k)
        · rw [if_pos hy]
          have : (l.map fun x => if x = (c, k) then w.value H c.src 0 t' i else 0) = l.map fun _ => (0 : Int) := by
            apply List.map_congr_left
            intro x hx
            rw [if_neg]
            rintro rfl
            exact hnd.1 (hy ▸ hx)
          rw [this]; simp
        · rw [if_neg hy, zero_add]
          rcases List.mem_cons.1 hm with h | h
          · exact absurd h.symm hy
          · exact ih hnd.2 h
    exact hcount _ hnd hck
  rw [arrives_list w H t hH]
  have hedges : w.edges = conns.zipIdx.flatMap (connEdges N) := rfl
  rw [hedges, List.map_flatMap, List.flatMap_def, List.sum_flatten, List.map_map]
  have hterm : ∀ x ∈ conns.zipIdx, (List.sum ∘ fun x => (connEdges N x).map fun e =>
      if e.2.2.1 = p ∧ (e.2.2.2 = 0 ↔ true = true) then w.value H e.1 e.2.1 t i else 0) x =
      ((fun c : Conn => if c.dst = p then (if c.viaIdentity then (if t = 0 then 0 else w.value H c.src 0 (t - 1) i)
        else w.value H c.src 0 t i) else 0) ∘ Prod.fst) x := by
    rintro ⟨c, k⟩ hx
    have hxm := mem_zipIdx_lt conns (c, k) hx
    have hdst := hc c hxm.2
    simp only [Function.comp, connEdges]
    have hne : ¬ N + k = p := by omega
    by_cases hvia : c.viaIdentity = true
    · simp only [hvia, if_true, List.map_cons, List.map_nil, List.sum_cons, List.sum_nil, hne, false_and, if_false, zero_add,
        add_zero, true_iff, and_true]
      by_cases hd : c.dst = p
      · rw [if_pos hd, if_pos hd]
        have hnode : w.node (N + k) = identity (dim p) := by
          show (if N + k < N then node (N + k) else identity (dim ((conns.map (·.dst)).getD (N + k - N) 0))) = _
          rw [if_neg (by omega)]
          have hk := List.mem_zipIdx hx
          simp at hk
          rw [Nat.add_sub_cancel_left, List.getD_eq_getElem?_getD, List.getElem?_map, List.getElem?_eq_getElem hk.1,
            Option.map_some, Option.getD_some, ← hk.2, hd]
        have hv := value_identity w H (N + k) (dim p) 0 hnode
        cases t with
        | zero => rw [if_pos rfl]; exact hv.1 i
        | succ t' =>
          rw [if_neg (by omega), hv.2 t' i (hdim c hxm.2 hd hvia), hsyn t' (hH' t' rfl) c k hx hvia]
          rfl
      · rw [if_neg hd, if_neg hd]
    · rw [Bool.not_eq_true] at hvia
      simp [hvia]
  rw [List.map_congr_left hterm, ← List.map_map, List.zipIdx_map_fst]

end Verif.Graded
