import Verif.Graded.Programs

/-!
# C94: programs in the algebraic syntax compute what they say
-/

namespace Verif.Graded

open Verif.Dense (Vec Mat matVec prepared bin)
open Verif.Networks (Kind Conn Ex St assign link)

/-- Specification: a program in the algebraic syntax over the objects `0 .. N - 1`: every statement is `v << e` for a vector `v` with a
shape and a sum `e` of vectors and products `A @ x`; inputs and graded vectors are vectors, matrices are connections. -/
structure Program (N : Nat) (k : Nat → Kind) (node : Nat → Node) (stmts : List (Nat × Ex)) : Prop where
  target : ∀ s ∈ stmts, k s.1 = .vec true ∧ s.2.simple = true ∧ s.2.typed k = true
  inside : ∀ s ∈ stmts, s.1 < N ∧ ∀ o ∈ objects s.2, o < N
  vec : ∀ p b, p < N → k p = .vec b → (∃ data, node p = .input data) ∨ ∃ vth, node p = .graded vth
  mat : ∀ p, p < N → k p = .mat → ∃ par wt, node p = .conn par wt

theorem summands_objects (e : Ex) : ∀ o ∈ e.summands, o ∈ objects e := by
  induction e with
  | net n => intro o h; exact h
  | mv a x => intro o h; simp [Ex.summands] at h; simp [objects, h]
  | add l r ihl ihr =>
    intro o h
    simp only [Ex.summands, List.mem_append] at h
    simp only [objects, List.mem_append]
    exact h.imp (ihl o) (ihr o)

theorem feeds_objects (k : Nat → Kind) (e : Ex) (ht : e.typed k = true) : ∀ c ∈ e.feeds, c.src ∈ objects e ∧ c.dst ∈ objects e ∧
    k c.dst = .mat ∧ (∃ b, k c.src = .vec b) ∧ c.viaIdentity = false := by
  induction e with
  | net n => intro c h; cases h
  | mv a x =>
    intro c h
    simp only [Ex.feeds, List.mem_singleton] at h
    subst h
    simp only [Ex.typed] at ht
    refine ⟨by simp [objects], by simp [objects], ?_, ?_, rfl⟩
    · show k a = .mat
      cases hk : k a with
      | mat => rfl
      | vec b => rw [hk] at ht; cases ht
    · show ∃ b, k x = .vec b
      cases hx : k x with
      | mat => rw [hx] at ht; cases hk : k a <;> rw [hk] at ht <;> cases ht
      | vec b => exact ⟨b, rfl⟩
  | add l r ihl ihr =>
    intro c h
    simp only [Ex.typed, Bool.and_eq_true] at ht
    simp only [Ex.feeds, List.mem_append] at h
    simp only [objects, List.mem_append]
    rcases h with h | h
    · obtain ⟨a, b, c⟩ := ihl ht.1 c h; exact ⟨Or.inl a, Or.inl b, c⟩
    · obtain ⟨a, b, c⟩ := ihr ht.2 c h; exact ⟨Or.inr a, Or.inr b, c⟩

/-- Every connection of a program is a feed or a link. -/
theorem mem_conns (k : Nat → Kind) (stmts : List (Nat × Ex)) (oss : List (List Nat))
    (hf : List.Forall₂ (fun s os => List.Perm os s.2.summands) stmts oss) (c : Conn)
    (hc : c ∈ (List.zipWith (fun s os => s.2.feeds ++ os.map (link k s.1)) stmts oss).flatten) :
    ∃ s ∈ stmts, c ∈ s.2.feeds ∨ ∃ o ∈ s.2.summands, c = link k s.1 o := by
  induction hf with
  | nil => cases hc
  | cons hp _ ih =>
    rw [List.zipWith_cons_cons, List.flatten_cons, List.mem_append, List.mem_append] at hc
    rcases hc with (h | h) | h
    · exact ⟨_, List.mem_cons_self, Or.inl h⟩
    · obtain ⟨o, ho, rfl⟩ := List.mem_map.1 h
      exact ⟨_, List.mem_cons_self, Or.inr ⟨o, hp.mem_iff.1 ho, rfl⟩⟩
    · obtain ⟨s, hs, h⟩ := ih h
      exact ⟨s, List.mem_cons_of_mem _ hs, h⟩

theorem sum_ite_filter {α : Type} (l : List α) (q : α → Prop) [DecidablePred q] (f : α → Int) :
    (l.map fun x => if q x then f x else 0).sum = ((l.filter fun x => q x).map f).sum := by
  induction l with
  | nil => rfl
  | cons a l ih =>
    rw [List.map_cons, List.sum_cons, ih, List.filter_cons]
    by_cases h : q a <;> simp [h]

theorem sum_zero {α : Type} (l : List α) (f : α → Int) (h : ∀ x ∈ l, f x = 0) : (l.map f).sum = 0 := by
  rw [List.map_congr_left h]; simp

/-- **C94.** A program in the algebraic syntax builds a network that computes what is written: there are values `V p t` of all objects,
sent on all their channels in step `t` under every schedule, such that an input has the data given to it, a graded vector the sum of the
right-hand sides of all statements for it (vectors of the step before, matrices as they are), thresholded, and a matrix, one step
later, its product with the sum of all vectors that are multiplied with it. Nothing deadlocks. -/
theorem C94_program (N : Nat) (k : Nat → Kind) (node : Nat → Node) (dim : Nat → Nat) (stmts : List (Nat × Ex))
    (hP : Program N k node stmts) (T : Nat) (cap : Nat → Nat) (hcap : ∀ c, 1 ≤ cap c) :
    ∃ h : St, runProg k stmts ⟨[], []⟩ = some h ∧ ∃ (H : Nat → Nat → Vec) (V : Nat → Nat → Vec),
      (wiringOf N node dim h.conns).Computes T cap H ∧
      (∀ c t, c < (wiringOf N node dim h.conns).edges.length → t < T → ((wiringOf N node dim h.conns).edge c).1 < N →
        H c t = V ((wiringOf N node dim h.conns).edge c).1 t) ∧
      (∀ p data, p < N → node p = .input data → ∀ t, t < T → V p t = data t) ∧
      (∀ p vth b, p < N → node p = .graded vth → k p = .vec b → ∀ t i, t < T → i < dim p →
        V p t i = thr vth (rhs k V stmts p t i)) ∧
      (∀ p par wt, p < N → node p = .conn par wt → k p = .mat → par.graded = true →
        (∀ i, V p 0 i = 0) ∧ ∀ t i, t + 1 < T →
          V p (t + 1) i = Verif.scaled par.weightExp (matVec par.nIn (prepared par wt) (fed V stmts p t) i)) := by
  obtain ⟨h, oss, hrun, hf, hconns⟩ := runProg_conns k stmts hP.target ⟨[], []⟩
  simp only [List.nil_append] at hconns
  refine ⟨h, hrun, ?_⟩
  have hsum : ∀ G : Conn → Int, (h.conns.map G).sum =
      (stmts.map fun s => (s.2.feeds.map G).sum + (s.2.summands.map fun o => G (link k s.1 o)).sum).sum := by
    intro G
    rw [hconns]
    exact sum_conns k G stmts oss hf
  have hmem : ∀ c ∈ h.conns, ∃ s ∈ stmts, c ∈ s.2.feeds ∨ ∃ o ∈ s.2.summands, c = link k s.1 o := by
    intro c hc
    rw [hconns] at hc
    exact mem_conns k stmts oss hf c hc
  have hends : ∀ c ∈ h.conns, c.src < N ∧ c.dst < N := by
    intro c hc
    obtain ⟨s, hs, hc | ⟨o, ho, rfl⟩⟩ := hmem c hc
    · obtain ⟨h1, h2, _⟩ := feeds_objects k s.2 (hP.target s hs).2.2 c hc
      exact ⟨(hP.inside s hs).2 _ h1, (hP.inside s hs).2 _ h2⟩
    · exact ⟨(hP.inside s hs).2 _ (summands_objects _ _ ho), (hP.inside s hs).1⟩
  set w := wiringOf N node dim h.conns with hw
  have hedge : ∀ e ∈ w.edges, e.2.1 = 0 ∧ e.1 < w.n ∧ e.2.2.1 < w.n ∧ ((w.node e.1).isConn = true ∨ (w.node e.2.2.1).isConn = true) := by
    intro e he
    have he : e ∈ h.conns.zipIdx.flatMap (connEdges N) := he
    obtain ⟨⟨c, j⟩, hx, he⟩ := List.mem_flatMap.1 he
    have hj := mem_zipIdx_lt _ _ hx
    simp only at hj
    have hce := hends c hj.2
    have hn : w.n = N + h.conns.length := rfl
    have hid : (w.node (N + j)).isConn = true := by
      show (if N + j < N then node (N + j) else identity _).isConn = true
      rw [if_neg (by omega)]; rfl
    have hobj : ∀ p, p < N → w.node p = node p := fun p hp => if_pos hp
    unfold connEdges at he
    by_cases hv : c.viaIdentity = true
    · simp only [hv, if_true, List.mem_cons, List.not_mem_nil, or_false] at he
      rcases he with rfl | rfl
      · exact ⟨rfl, by simp only; omega, by simp only; omega, Or.inr hid⟩
      · exact ⟨rfl, by simp only; omega, by simp only; omega, Or.inl hid⟩
    · simp only [hv, if_false, List.mem_cons, List.not_mem_nil, or_false, Bool.false_eq_true] at he
      subst he
      refine ⟨rfl, by simp only; omega, by simp only; omega, ?_⟩
      simp only
      rw [hobj _ hce.1, hobj _ hce.2]
      obtain ⟨s, hs, hc | ⟨o, ho, rfl⟩⟩ := hmem c hj.2
      · obtain ⟨_, _, h3, _⟩ := feeds_objects k s.2 (hP.target s hs).2.2 c hc
        obtain ⟨par, wt, hn⟩ := hP.mat _ hce.2 h3
        rw [hn]; exact Or.inr rfl
      · left
        simp only [link] at hv hce ⊢
        rw [(hP.target s hs).1] at hv
        cases hk : k o with
        | mat =>
          obtain ⟨par, wt, hn⟩ := hP.mat _ hce.1 hk
          rw [hn]; rfl
        | vec b => rw [hk] at hv; exact absurd rfl hv
  have hok : w.Ok := fun e he => ⟨(hedge e he).2.1, (hedge e he).2.2.1⟩
  have halt : w.Alternates := fun e he => (hedge e he).2.2.2
  obtain ⟨H, hcomp, heqn⟩ := C94_network_equations w hok T cap (fun c _ => hcap c) (alternates_loops w halt T cap)
  have hholds : ∀ t, t < T → w.Holds H t := fun t ht c hc => heqn c t hc ht
  refine ⟨H, fun p t => w.value H p 0 t, hcomp, ?_, ?_, ?_, ?_⟩
  · intro c t hc ht _
    rw [show H c t = _ from heqn c t hc ht, (hedge _ (edge_mem w c hc)).1]
  · intro p data hp hn t _
    simp only
    unfold Wiring.value
    rw [show w.node p = node p from if_pos hp, hn]
  · intro p vth b hp hn hk t i ht hi
    have : w.value H p 0 t i = thr vth (w.arrives H p true t i) := by
      unfold Wiring.value
      rw [show w.node p = node p from if_pos hp, hn]
    show w.value H p 0 t i = _
    rw [this, arrives_object N node dim h.conns hends H p t i hp (hholds t ht) (fun t' ht' => hholds t' (by omega)) (fun _ _ _ _ => hi)]
    congr 1
    rw [hsum]
    unfold rhs
    rw [← sum_ite_filter]
    congr 1
    apply List.map_congr_left
    intro s hs
    rw [sum_zero s.2.feeds, zero_add]
    · by_cases hsp : s.1 = p
      · rw [if_pos hsp]
        congr 1
        apply List.map_congr_left
        intro o ho
        simp only [link, hsp, if_true, hk]
        unfold contribution
        cases hko : k o with
        | vec b' => simp [hw]
        | mat => simp [hw]
      · rw [if_neg hsp]
        apply sum_zero
        intro o ho
        exact if_neg hsp
    · intro c hc
      obtain ⟨_, _, h3, _⟩ := feeds_objects k s.2 (hP.target s hs).2.2 c hc
      rw [if_neg]
      rintro rfl
      rw [hk] at h3; cases h3
  · intro p par wt hp hn hk hg
    constructor
    · intro i
      simp only
      unfold Wiring.value
      rw [show w.node p = node p from if_pos hp, hn]
      rfl
    · intro t i ht
      have hv : w.value H p 0 (t + 1) i = Verif.scaled par.weightExp (matVec par.nIn (prepared par wt) (w.arrives H p true t) i) := by
        unfold Wiring.value
        rw [show w.node p = node p from if_pos hp, hn]
        simp [hg]
      simp only
      rw [hv]
      congr 2
      funext j
      have hnovia : ∀ c ∈ h.conns, c.dst = p → c.viaIdentity = true → j < dim p := by
        intro c hc hcp hvia
        exfalso
        obtain ⟨s, hs, hc | ⟨o, ho, rfl⟩⟩ := hmem c hc
        · obtain ⟨_, _, _, _, h5⟩ := feeds_objects k s.2 (hP.target s hs).2.2 c hc
          rw [h5] at hvia; cases hvia
        · simp only [link] at hcp
          subst hcp
          rw [(hP.target s hs).1] at hk; cases hk
      rw [arrives_object N node dim h.conns hends H p t j hp (hholds t (by omega)) (fun t' ht' => hholds t' (by omega)) hnovia]
      rw [hsum]
      unfold fed
      congr 1
      apply List.map_congr_left
      intro s hs
      rw [sum_zero s.2.summands, add_zero, ← sum_ite_filter]
      · congr 1
        apply List.map_congr_left
        intro c hc
        obtain ⟨_, _, _, _, h5⟩ := feeds_objects k s.2 (hP.target s hs).2.2 c hc
        simp [h5, hw]
      · intro o ho
        rw [if_neg]
        rintro hcp
        simp only [link] at hcp
        subst hcp
        rw [(hP.target s hs).1] at hk; cases hk

/-! ### Expressions -/

/-- Specification: the value of an expression, from the values of vectors in one step. -/
def meaning (nIn : Nat → Nat) (W : Nat → Nat → Nat → ℚ) (x : Nat → Vec) (i : Nat) : Ex → Int
  | .net v => x v i
  | .mv a v => ⌊∑ j ∈ Finset.range (nIn a), W a i j * x v j⌋
  | .add l r => meaning nIn W x i l + meaning nIn W x i r

/-- All the summands that stand alone are vectors. -/
def vectorsAlone (k : Nat → Kind) : Ex → Bool
  | .net v => match k v with
    | .vec _ => true
    | .mat => false
  | .mv _ _ => true
  | .add l r => vectorsAlone k l && vectorsAlone k r

theorem sum_contribution (k : Nat → Kind) (nIn : Nat → Nat) (W : Nat → Nat → Nat → ℚ) (V : Nat → Nat → Vec) (t i : Nat) (e : Ex)
    (ht : e.typed k = true) (ha : vectorsAlone k e = true)
    (hm : ∀ c ∈ e.feeds, V c.dst (t + 1) i = ⌊∑ j ∈ Finset.range (nIn c.dst), W c.dst i j * V c.src t j⌋) :
    (e.summands.map (contribution k V (t + 1) i)).sum = meaning nIn W (fun p => V p t) i e := by
  induction e with
  | net v =>
    simp only [vectorsAlone] at ha
    cases hk : k v with
    | mat => rw [hk] at ha; cases ha
    | vec b => simp [Ex.summands, contribution, hk, meaning]
  | mv a x =>
    have hf := feeds_objects k (.mv a x) ht ⟨x, a, false⟩ (by simp [Ex.feeds])
    have hk : k a = .mat := hf.2.2.1
    have := hm ⟨x, a, false⟩ (by simp [Ex.feeds])
    simp only at this
    simp [Ex.summands, contribution, hk, meaning, this]
  | add l r ihl ihr =>
    simp only [Ex.typed, Bool.and_eq_true] at ht
    simp only [vectorsAlone, Bool.and_eq_true] at ha
    simp only [Ex.feeds, List.mem_append] at hm
    simp only [Ex.summands, List.map_append, List.sum_append, meaning]
    rw [ihl ht.1 ha.1 (fun c hc => hm c (Or.inl hc)), ihr ht.2 ha.2 (fun c hc => hm c (Or.inr hc))]

/-- A matrix that occurs once is fed with one vector. -/
theorem fed_once (V : Nat → Nat → Vec) (stmts : List (Nat × Ex)) (t j : Nat)
    (hnd : (stmts.flatMap fun s => s.2.feeds.map (·.dst)).Nodup) (s : Nat × Ex) (hs : s ∈ stmts) (c : Conn) (hc : c ∈ s.2.feeds) :
    fed V stmts c.dst t j = V c.src t j := by
  have flat : ∀ l : List (Nat × Ex), fed V l c.dst t j = ((l.flatMap fun s => s.2.feeds).map fun c' =>
      if c'.dst = c.dst then V c'.src t j else 0).sum := by
    intro l
    unfold fed
    induction l with
    | nil => rfl
    | cons s l ih =>
      rw [List.map_cons, List.sum_cons, ih, List.flatMap_cons, List.map_append, List.sum_append, sum_ite_filter s.2.feeds]
  rw [flat]
  have hmem : c ∈ stmts.flatMap fun s => s.2.feeds := List.mem_flatMap.2 ⟨s, hs, hc⟩
  have hnd' : ((stmts.flatMap fun s => s.2.feeds).map (·.dst)).Nodup := by rw [List.map_flatMap]; exact hnd
  generalize (stmts.flatMap fun s => s.2.feeds) = l at hmem hnd'
  induction l with
  | nil => cases hmem
  | cons a l ih =>
    rw [List.map_cons, List.nodup_cons] at hnd'
    rw [List.map_cons, List.sum_cons]
    rcases List.mem_cons.1 hmem with rfl | h
    · rw [if_pos rfl, sum_zero, add_zero]
      intro x hx
      rw [if_neg]
      intro hxd
      exact hnd'.1 (hxd ▸ List.mem_map_of_mem hx)
    · rw [ih h hnd'.2, if_neg, zero_add]
      intro had
      exact hnd'.1 (had ▸ List.mem_map_of_mem h)

/-- **C94.** If every matrix is used in one product and the weights are exact, every graded vector has in each step the value of the
right-hand sides of the statements for it, evaluated on the vectors of the step before, thresholded; in the first step it is zero. -/
theorem C94_expressions (N : Nat) (k : Nat → Kind) (node : Nat → Node) (dim : Nat → Nat) (stmts : List (Nat × Ex))
    (hP : Program N k node stmts) (halone : ∀ s ∈ stmts, vectorsAlone k s.2 = true)
    (honce : (stmts.flatMap fun s => s.2.feeds.map (·.dst)).Nodup)
    (nIn exp : Nat → Nat) (W : Nat → Nat → Nat → ℚ) (u : Nat → Nat → Nat → Int)
    (hW : ∀ s ∈ stmts, ∀ c ∈ s.2.feeds, IsMatrix (node c.dst) (dim s.1) (nIn c.dst) (exp c.dst) (W c.dst) ∧
      Exact (dim s.1) (nIn c.dst) (exp c.dst) (W c.dst) (u c.dst))
    (T : Nat) (cap : Nat → Nat) (hcap : ∀ c, 1 ≤ cap c) :
    ∃ h : St, runProg k stmts ⟨[], []⟩ = some h ∧ ∃ (H : Nat → Nat → Vec) (V : Nat → Nat → Vec),
      (wiringOf N node dim h.conns).Computes T cap H ∧
      (∀ c t, c < (wiringOf N node dim h.conns).edges.length → t < T → ((wiringOf N node dim h.conns).edge c).1 < N →
        H c t = V ((wiringOf N node dim h.conns).edge c).1 t) ∧
      (∀ p data, p < N → node p = .input data → ∀ t, t < T → V p t = data t) ∧
      (∀ p vth b, p < N → node p = .graded vth → k p = .vec b → ∀ i, i < dim p →
        (0 < T → V p 0 i = 0) ∧
        ∀ t, t + 1 < T → V p (t + 1) i =
          thr vth (((stmts.filter fun s => s.1 = p).map fun s => meaning nIn W (fun q => V q t) i s.2).sum)) := by
  obtain ⟨h, hrun, H, V, hcomp, hmsg, hin, hgr, hmat⟩ := C94_program N k node dim stmts hP T cap hcap
  refine ⟨h, hrun, H, V, hcomp, hmsg, hin, ?_⟩
  have hmatV : ∀ s ∈ stmts, ∀ c ∈ s.2.feeds, (∀ i, V c.dst 0 i = 0) ∧ ∀ t i, t + 1 < T → i < dim s.1 →
      V c.dst (t + 1) i = ⌊∑ j ∈ Finset.range (nIn c.dst), W c.dst i j * V c.src t j⌋ := by
    intro s hs c hc
    obtain ⟨hM, hE⟩ := hW s hs c hc
    obtain ⟨par, hn, hg, hni, hx⟩ := matrix_exact hM hE
    obtain ⟨_, h2, h3, _⟩ := feeds_objects k s.2 (hP.target s hs).2.2 c hc
    obtain ⟨hz, hv⟩ := hmat c.dst par _ ((hP.inside s hs).2 _ h2) hn h3 hg
    refine ⟨hz, ?_⟩
    intro t i ht hi
    rw [hv t i ht, hx _ i hi]
    congr 1
    apply Finset.sum_congr rfl
    intro j _
    rw [fed_once V stmts t j honce s hs c hc]
  intro p vth b hp hn hk i hi
  constructor
  · intro hT
    rw [hgr p vth b hp hn hk 0 i hT hi]
    have : rhs k V stmts p 0 i = 0 := by
      unfold rhs
      apply sum_zero
      intro s hs
      apply sum_zero
      intro o ho
      have hs := (List.mem_filter.1 hs).1
      unfold contribution
      cases hko : k o with
      | vec b => simp
      | mat =>
        simp only
        -- a matrix among the summands is fed
        have : ∀ e : Ex, vectorsAlone k e = true → o ∈ e.summands → ∃ c ∈ e.feeds, c.dst = o := by
          intro e
          induction e with
          | net v =>
            intro ha ho
            simp [Ex.summands] at ho
            subst ho
            simp only [vectorsAlone, hko] at ha
            cases ha
          | mv a x =>
            intro _ ho
            simp [Ex.summands] at ho
            exact ⟨⟨x, a, false⟩, by simp [Ex.feeds], ho.symm⟩
          | add l r ihl ihr =>
            intro ha ho
            simp only [vectorsAlone, Bool.and_eq_true] at ha
            simp only [Ex.summands, List.mem_append] at ho
            simp only [Ex.feeds, List.mem_append]
            rcases ho with ho | ho
            · obtain ⟨c, hc, h⟩ := ihl ha.1 ho; exact ⟨c, Or.inl hc, h⟩
            · obtain ⟨c, hc, h⟩ := ihr ha.2 ho; exact ⟨c, Or.inr hc, h⟩
        obtain ⟨c, hc, rfl⟩ := this s.2 (halone s hs) ho
        exact (hmatV s hs c hc).1 i
    rw [this]; simp [thr]
  · intro t ht
    rw [hgr p vth b hp hn hk (t + 1) i ht hi]
    congr 1
    unfold rhs
    congr 1
    apply List.map_congr_left
    intro s hs
    obtain ⟨hs, hsp⟩ := List.mem_filter.1 hs
    have hsp : s.1 = p := of_decide_eq_true hsp
    exact sum_contribution k nIn W V t i s.2 (hP.target s hs).2.2 (halone s hs)
      (fun c hc => (hmatV s hs c hc).2 t i ht (hsp ▸ hi))

/-- A matrix of one entry, 1. -/
def one11 : Nat → Nat → ℚ := fun _ _ => 1

theorem one11_exact : Exact 1 1 7 one11 fun _ _ => 128 :=
  ⟨fun _ _ _ _ => ⟨by norm_num [one11], by norm_num, by norm_num⟩, Or.inl fun _ _ _ _ => by norm_num⟩

/-- Objects: inputs 0 and 1, graded vectors 2 and 3, the matrix 4, the matrix 5. -/
def demoKind : Nat → Kind := fun p => if p < 4 then .vec true else .mat

def demoNode : Nat → Node := fun p =>
  if p = 0 then .input fun _ _ => 10 else if p = 1 then .input fun _ _ => 100 else if p < 4 then .graded 1 else gradedDense 1 1 7 one11

theorem demo_program (stmts : List (Nat × Ex)) (h1 : ∀ s ∈ stmts, demoKind s.1 = .vec true ∧ s.2.simple = true ∧ s.2.typed demoKind = true)
    (h2 : ∀ s ∈ stmts, s.1 < 6 ∧ ∀ o ∈ objects s.2, o < 6) : Program 6 demoKind demoNode stmts where
  target := h1
  inside := h2
  vec := by
    intro p b hp hk
    unfold demoKind at hk
    split at hk
    · unfold demoNode
      split
      · exact Or.inl ⟨_, rfl⟩
      · split
        · exact Or.inl ⟨_, rfl⟩
        · exact Or.inr ⟨_, rfl⟩
    · cases hk
  mat := by
    intro p hp hk
    unfold demoKind at hk
    split at hk
    · cases hk
    · unfold demoNode
      rw [if_neg (by omega), if_neg (by omega), if_neg (by omega)]
      exact ⟨_, _, rfl⟩

/-- The hypotheses of `C94_expressions` are met by `v << A @ x + y; w << B @ v`. -/
example : Program 6 demoKind demoNode [(2, .add (.mv 4 0) (.net 1)), (3, .mv 5 2)] ∧
    (∀ s ∈ [(2, Ex.add (.mv 4 0) (.net 1)), (3, .mv 5 2)], vectorsAlone demoKind s.2 = true) ∧
    (([(2, Ex.add (.mv 4 0) (.net 1)), (3, .mv 5 2)].flatMap fun s : Nat × Ex => s.2.feeds.map (·.dst)).Nodup) ∧
    (∀ s ∈ [(2, Ex.add (.mv 4 0) (.net 1)), (3, .mv 5 2)], ∀ c ∈ s.2.feeds, IsMatrix (demoNode c.dst) 1 1 7 one11 ∧
      Exact 1 1 7 one11 fun _ _ => 128) := by
  refine ⟨demo_program _ (by decide) (by decide), by decide, by decide, ?_⟩
  intro s hs c hc
  refine ⟨?_, one11_exact⟩
  simp only [List.mem_cons, List.not_mem_nil, or_false] at hs
  rcases hs with rfl | rfl
  · simp [Ex.feeds] at hc; subst hc; exact Or.inl rfl
  · simp [Ex.feeds] at hc; subst hc; exact Or.inl rfl

/-- **C94, finding.** A matrix used in two products mixes them: with `v << A @ x` and `w << A @ y`, both `v` and `w` receive
`A (x + y)`. Here A = (1), x = 10, y = 100, and both are 110. -/
theorem C94_witness_matrix_reuse (T : Nat) (hT : 3 ≤ T) (cap : Nat → Nat) (hcap : ∀ c, 1 ≤ cap c) :
    ∃ h : St, runProg demoKind [(2, .mv 4 0), (3, .mv 4 1)] ⟨[], []⟩ = some h ∧ ∃ (H : Nat → Nat → Vec) (V : Nat → Nat → Vec),
      (wiringOf 6 demoNode (fun _ => 1) h.conns).Computes T cap H ∧
      (∀ c t, c < (wiringOf 6 demoNode (fun _ => 1) h.conns).edges.length → t < T →
        ((wiringOf 6 demoNode (fun _ => 1) h.conns).edge c).1 < 6 →
        H c t = V ((wiringOf 6 demoNode (fun _ => 1) h.conns).edge c).1 t) ∧
      V 0 0 0 = 10 ∧ V 1 0 0 = 100 ∧ V 2 1 0 = 110 ∧ V 3 1 0 = 110 := by
  obtain ⟨h, hrun, H, V, hcomp, hmsg, hin, hgr, hmat⟩ := C94_program 6 demoKind demoNode (fun _ => 1) [(2, .mv 4 0), (3, .mv 4 1)]
    (demo_program _ (by decide) (by decide)) T cap hcap
  have h0 := hin 0 _ (by decide) rfl 0 (by omega)
  have h1 := hin 1 _ (by decide) rfl 0 (by omega)
  obtain ⟨par, hn, hg, _, hx⟩ := matrix_exact (nd := demoNode 4) (Or.inl rfl) one11_exact
  have h4 : V 4 1 0 = 110 := by
    rw [(hmat 4 par _ (by decide) hn rfl hg).2 0 0 (by omega), hx _ 0 (by decide)]
    simp [fed, Ex.feeds, one11, h0, h1]
  refine ⟨h, hrun, H, V, hcomp, hmsg, by rw [h0], by rw [h1], ?_, ?_⟩
  · rw [hgr 2 1 true (by decide) rfl rfl 1 0 (by omega) (by decide)]
    simp [rhs, Ex.summands, contribution, demoKind, h4, thr]
  · rw [hgr 3 1 true (by decide) rfl rfl 1 0 (by omega) (by decide)]
    simp [rhs, Ex.summands, contribution, demoKind, h4, thr]

end Verif.Graded
