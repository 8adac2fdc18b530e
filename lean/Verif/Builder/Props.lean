import Verif.Builder.Model

/-!
# C102: building process models
-/

namespace Verif.Builder

/-! ## Names -/

theorem checkPorts_ok (c : Cls) : ∀ l, checkPorts c l = .ok () ↔ ∀ n ∈ l, c.get n = some .lava
  | [] => by simp [checkPorts]
  | n :: l => by
    have ih := checkPorts_ok c l
    unfold checkPorts portDtype
    cases h : c.get n with
    | none => simp [h]
    | some a => cases a <;> simp [h, ih]

theorem checkMembers_ok (c : Cls) : ∀ l, checkMembers c l = .ok () ↔ ∀ n ∈ l, (c.get n).isSome = true
  | [] => by simp [checkMembers]
  | n :: l => by
    have ih := checkMembers_ok c l
    unfold checkMembers
    by_cases h : (c.get n).isSome = true
    · rw [if_pos h, ih]; simp [h]
    · rw [if_neg h]; simp [h]

theorem checkAll_ok (p : Proc) : ∀ c : Cls, checkAll p c = .ok () ↔
    ∀ n, (n, Attr.lava) ∈ c → n ∈ p.vars ∨ n ∈ p.inPorts ∨ n ∈ p.outPorts ∨ n ∈ p.refPorts ∨ n ∈ p.varPorts
  | [] => by simp [checkAll]
  | (m, a) :: c => by
    have ih := checkAll_ok p c
    unfold checkAll
    split
    · rename_i h
      constructor
      · intro h'; cases h'
      · intro h'
        obtain ⟨h1, h2, h3, h4, h5⟩ := h
        subst h1
        rw [List.mem_append, not_or] at h3
        rcases h' m (by simp) with h | h | h | h | h
        · exact absurd h h2
        · exact absurd h h3.1
        · exact absurd h h3.2
        · exact absurd h h4
        · exact absurd h h5
    · rename_i h
      rw [ih]
      constructor
      · intro h' n hn
        rcases List.mem_cons.1 hn with hn | hn
        · cases hn
          apply Classical.byContradiction
          intro hno
          simp only [not_or] at hno
          exact h ⟨rfl, hno.1, by rw [List.mem_append, not_or]; exact ⟨hno.2.1, hno.2.2.1⟩, hno.2.2.2.1, hno.2.2.2.2⟩
        · exact h' n hn
      · exact fun h' n hn => h' n (List.mem_cons_of_mem _ hn)

/-- **C102.** The compiler accepts a process with a process model exactly if every port of the process (for VarPorts, their Var) is a
`LavaPyType` of the model, every Var is some attribute of the model, and the model declares no `LavaPyType` beyond the members of the
process. -/
theorem C102_accepted_iff (c : Cls) (p : Proc) (varOf : String → String) :
    createBuilder c p varOf = .ok () ↔
      (∀ n, n ∈ p.inPorts ∨ n ∈ p.outPorts ∨ n ∈ p.refPorts → c.get n = some .lava) ∧
      (∀ n ∈ p.varPorts, c.get (varOf n) = some .lava) ∧
      (∀ n ∈ p.vars, (c.get n).isSome = true) ∧
      (∀ n, (n, Attr.lava) ∈ c → n ∈ p.vars ∨ n ∈ p.inPorts ∨ n ∈ p.outPorts ∨ n ∈ p.refPorts ∨ n ∈ p.varPorts) := by
  have hp := checkPorts_ok c (p.inPorts ++ p.outPorts ++ p.refPorts ++ p.varPorts.map varOf)
  have hm := checkMembers_ok c p.vars
  have ha := checkAll_ok p c
  have hports : (∀ n ∈ p.inPorts ++ p.outPorts ++ p.refPorts ++ p.varPorts.map varOf, c.get n = some Attr.lava) ↔
      (∀ n, n ∈ p.inPorts ∨ n ∈ p.outPorts ∨ n ∈ p.refPorts → c.get n = some .lava) ∧
      (∀ n ∈ p.varPorts, c.get (varOf n) = some .lava) := by
    simp only [List.mem_append, List.mem_map]
    constructor
    · intro h
      refine ⟨fun n hn => h n ?_, fun n hn => h _ (Or.inr ⟨n, hn, rfl⟩)⟩
      rcases hn with h | h | h
      · exact Or.inl (Or.inl (Or.inl h))
      · exact Or.inl (Or.inl (Or.inr h))
      · exact Or.inl (Or.inr h)
    · rintro ⟨h1, h2⟩ n hn
      rcases hn with ((h | h) | h) | ⟨m, h, rfl⟩
      · exact h1 n (Or.inl h)
      · exact h1 n (Or.inr (Or.inl h))
      · exact h1 n (Or.inr (Or.inr h))
      · exact h2 m h
  rw [hports] at hp
  unfold createBuilder
  cases h1 : checkPorts c (p.inPorts ++ p.outPorts ++ p.refPorts ++ p.varPorts.map varOf) with
  | error e =>
    rw [h1] at hp
    constructor
    · intro h; cases h
    · intro h; have := hp.2 ⟨h.1, h.2.1⟩; cases this
  | ok u =>
    have hq := hp.1 h1
    cases h2 : checkMembers c p.vars with
    | error e =>
      rw [h2] at hm
      constructor
      · intro h; cases h
      · intro h; have := hm.2 h.2.2.1; cases this
    | ok u2 =>
      have hv := hm.1 h2
      simp only
      rw [ha]
      exact ⟨fun h => ⟨hq.1, hq.2, hv, h⟩, fun h => h.2.2.2⟩

/-- A process with a port and a Var, and its model. -/
example : createBuilder [("run_spk", .other), ("s_in", .lava), ("v", .lava)] ⟨["v"], ["s_in"], [], [], []⟩ id = .ok () ∧
    createBuilder [("run_spk", .other), ("s_in", .lava)] ⟨["v"], ["s_in"], [], [], []⟩ id = .error .assertion ∧
    createBuilder [("s_in", .lava), ("v", .lava), ("w", .lava)] ⟨["v"], ["s_in"], [], [], []⟩ id = .error .assertion := ⟨rfl, rfl, rfl⟩

/-- **C102, finding.** A Var is accepted if the model has any attribute of its name: a Var named like a method of the model passes all
checks of the compiler and fails only when the model is built. -/
theorem C102_witness_var_named_like_method :
    createBuilder [("run_spk", .other)] ⟨["run_spk"], [], [], [], []⟩ id = .ok () := rfl

/-! ## Connection configurations -/

/-- **C102.** The configuration used for OutPort number `k` is that of its connection number `k`; compilation fails exactly if the port has
configured connections, but not more than `k` of them; a port without configured connections gets the default. -/
theorem C102_out_config {γ : Type} (dflt : γ) (cs : List γ) (k : Nat) :
    (outConfig dflt cs k = .error .index ↔ cs ≠ [] ∧ cs.length ≤ k) ∧
    (∀ x, cs[k]? = some x → outConfig dflt cs k = .ok x) ∧ (cs = [] → outConfig dflt cs k = .ok dflt) := by
  cases cs with
  | nil => simp [outConfig]
  | cons c cs =>
    unfold outConfig
    refine ⟨?_, ?_, fun h => by cases h⟩
    · cases h : (c :: cs)[k]? with
      | none =>
        have := List.getElem?_eq_none_iff.1 h
        simp only [h]
        exact ⟨fun _ => ⟨by simp, this⟩, fun _ => trivial⟩
      | some x =>
        have := (List.getElem?_eq_some_iff.1 h).1
        simp only [h]
        exact ⟨fun h' => by (cases h'), fun h' => absurd h'.2 (Nat.not_le.2 this)⟩
    · intro x h
      simp only [h]

/-- **C102, finding.** The second OutPort of a process with one configured connection cannot be compiled. -/
theorem C102_witness_second_out_port {γ : Type} (dflt x : γ) : outConfig dflt [x] 0 = .ok x ∧ outConfig dflt [x] 1 = .error .index :=
  ⟨rfl, rfl⟩

/-! ## Initial values -/

/-- Dimension number `j` counted from the right; missing dimensions are 1. -/
def rdim (s : List Nat) (j : Nat) : Nat := s.reverse.getD j 1

/-- The broadcasting rule: counted from the right, every dimension of the value is 1 or that of the Var. -/
def Broadcastable (v t : List Nat) : Prop := ∀ j, rdim v j = 1 ∨ (j < t.length ∧ rdim v j = rdim t j)

/-- The index of the entry of the value that is broadcast to index `idx`: counted from the right, 0 where the value has size 1. -/
def sourceIndex (v : List Nat) (idx : List Nat) : List Nat :=
  ((List.range v.length).map fun j => if rdim v j = 1 then 0 else idx.reverse.getD j 0).reverse

theorem rdim_cons (d : Nat) (ds : List Nat) (j : Nat) :
    rdim (d :: ds) j = if j < ds.length then rdim ds j else if j = ds.length then d else 1 := by
  unfold rdim
  rw [List.reverse_cons]
  simp only [List.getD_eq_getElem?_getD]
  by_cases h : j < ds.length
  · rw [if_pos h, List.getElem?_append_left (by simpa using h)]
  · rw [if_neg h, List.getElem?_append_right (by simpa using h)]
    by_cases h2 : j = ds.length
    · rw [if_pos h2, h2]; simp
    · rw [if_neg h2, List.getElem?_eq_none (by simp; omega)]; rfl

theorem rdim_ge (s : List Nat) (j : Nat) (h : s.length ≤ j) : rdim s j = 1 := by
  unfold rdim
  rw [List.getD_eq_getElem?_getD, List.getElem?_eq_none (by simpa using h)]; rfl

theorem rdim_drop (t : List Nat) (k j : Nat) (h : j < t.length - k) : rdim (t.drop k) j = rdim t j := by
  unfold rdim
  rw [List.reverse_drop]
  simp only [List.getD_eq_getElem?_getD]
  rw [List.getElem?_take, if_pos h]

theorem stripOnes_spec (n : Nat) : ∀ v : List Nat,
    (∃ k, v = List.replicate k 1 ++ stripOnes n v) ∧
    ((stripOnes n v).length ≤ n ∨ ∃ d ds, stripOnes n v = d :: ds ∧ d ≠ 1) ∧ (v.length ≤ n → stripOnes n v = v)
  | [] => ⟨⟨0, rfl⟩, Or.inl (Nat.zero_le _), fun _ => rfl⟩
  | d :: ds => by
    obtain ⟨⟨k, hk⟩, h2, h3⟩ := stripOnes_spec n ds
    unfold stripOnes
    split
    · rename_i h
      refine ⟨⟨k + 1, ?_⟩, h2, fun hl => by omega⟩
      rw [h.2, List.replicate_succ, List.cons_append, ← hk]
    · rename_i h
      refine ⟨⟨0, rfl⟩, ?_, fun _ => rfl⟩
      by_cases hl : n < (d :: ds).length
      · right
        exact ⟨d, ds, rfl, fun hd => h ⟨hl, hd⟩⟩
      · left; omega

theorem rdim_replicate (k : Nat) (v : List Nat) (j : Nat) : rdim (List.replicate k 1 ++ v) j = rdim v j := by
  induction k with
  | zero => rfl
  | succ k ih =>
    rw [List.replicate_succ, List.cons_append, rdim_cons, ih]
    split
    · rfl
    · rename_i h
      rw [rdim_ge v j (by simp at h; omega)]
      split <;> rfl

theorem compat_iff : ∀ (v t : List Nat), v.length = t.length →
    (compat v t = true ↔ ∀ j, j < v.length → rdim v j = 1 ∨ rdim v j = rdim t j)
  | [], [], _ => by simp [compat]
  | [], _ :: _, h => by cases h
  | _ :: _, [], h => by cases h
  | v :: vs, t :: ts, h => by
    simp only [List.length_cons, Nat.add_right_cancel_iff] at h
    have ih := compat_iff vs ts h
    unfold compat
    simp only [Bool.and_eq_true, Bool.or_eq_true, decide_eq_true_eq, ih, List.length_cons]
    constructor
    · rintro ⟨h1, h2⟩ j hj
      rw [rdim_cons, rdim_cons, ← h]
      by_cases hlt : j < vs.length
      · simp only [if_pos hlt]; exact h2 j hlt
      · have : j = vs.length := by omega
        simp only [if_neg hlt, if_pos this]; exact h1.symm
    · intro hall
      constructor
      · have := hall vs.length (by omega)
        rw [rdim_cons, rdim_cons, ← h] at this
        simp only [Nat.lt_irrefl, if_false, if_true] at this
        exact this.symm
      · intro j hj
        have := hall j (by omega)
        rw [rdim_cons, rdim_cons, ← h] at this
        simpa only [if_pos hj] using this

theorem broadcastable_iff (v t : List Nat) :
    ((stripOnes t.length v).length ≤ t.length ∧
      compat (stripOnes t.length v) (t.drop (t.length - (stripOnes t.length v).length)) = true) ↔ Broadcastable v t := by
  obtain ⟨⟨k, hk⟩, h2, _⟩ := stripOnes_spec t.length v
  have hr : ∀ j, rdim v j = rdim (stripOnes t.length v) j := by
    intro j; conv => lhs; rw [hk]
    exact rdim_replicate _ _ _
  generalize stripOnes t.length v = w at *
  unfold Broadcastable
  constructor
  · rintro ⟨hl, hc⟩ j
    rw [compat_iff w _ (by rw [List.length_drop]; omega)] at hc
    rw [hr]
    by_cases hj : j < w.length
    · have := hc j hj
      rw [rdim_drop t _ j (by omega)] at this
      rcases this with h | h
      · exact Or.inl h
      · exact Or.inr ⟨by omega, h⟩
    · exact Or.inl (rdim_ge w j (by omega))
  · intro hb
    have hl : w.length ≤ t.length := by
      rcases h2 with h | ⟨d, ds, hw, hd⟩
      · exact h
      · have := hb ds.length
        rw [hr, hw, rdim_cons] at this
        simp only [Nat.lt_irrefl, if_false, if_true] at this
        rcases this with h | h
        · exact absurd h hd
        · rw [hw, List.length_cons]; omega
    refine ⟨hl, ?_⟩
    rw [compat_iff w _ (by rw [List.length_drop]; omega)]
    intro j hj
    rw [rdim_drop t _ j (by omega), ← hr]
    rcases hb j with h | h
    · exact Or.inl h
    · exact Or.inr h.2

/-- **C102.** An array Var (other than one without dimensions) can be initialised exactly with the values that can be broadcast to its
shape. -/
theorem C102_init_iff {α β : Type} (cast : α → β) (shape : List Nat) (v : Arr α) :
    (initArray cast shape v).isSome = true ↔ shape ≠ [] ∧ Broadcastable v.shape shape := by
  unfold initArray
  by_cases hs : shape = []
  · simp [hs]
  · rw [if_neg hs]
    have hb := broadcastable_iff v.shape shape
    by_cases h : (stripOnes shape.length v.shape).length ≤ shape.length ∧
        compat (stripOnes shape.length v.shape) (shape.drop (shape.length - (stripOnes shape.length v.shape).length)) = true
    · rw [if_pos h]; simp [hs, hb.1 h]
    · rw [if_neg h]
      simp only [Option.isSome_none, Bool.false_eq_true, false_iff, not_and]
      exact fun _ hb' => h (hb.2 hb')

theorem reverse_zipWith' (f : Nat → Nat → Nat) : ∀ (a b : List Nat), a.length = b.length →
    (List.zipWith f a b).reverse = List.zipWith f a.reverse b.reverse := by
  intro a b h
  exact List.reverse_zipWith h

/-- **C102.** The initial value of an array Var has the shape of the Var, and its entry at an index is the entry of the given value that
broadcasting assigns to it, converted to the type of the Var. -/
theorem C102_init_values {α β : Type} (cast : α → β) (shape : List Nat) (v : Arr α) (r : Arr β)
    (h : initArray cast shape v = some r) (idx : List Nat) (hi : idx.length = shape.length) :
    r.shape = shape ∧ r.entry idx = cast (v.entry (sourceIndex v.shape idx)) := by
  unfold initArray at h
  split at h
  · cases h
  · split at h
    · rename_i hs hc
      cases h
      refine ⟨rfl, ?_⟩
      show cast _ = cast _
      congr 2
      obtain ⟨⟨k, hk⟩, _, _⟩ := stripOnes_spec shape.length v.shape
      have hr : ∀ j, rdim v.shape j = rdim (stripOnes shape.length v.shape) j := by
        intro j; conv => lhs; rw [hk]
        exact rdim_replicate _ _ _
      have hlen : v.shape.length = k + (stripOnes shape.length v.shape).length := by
        conv => lhs; rw [hk]
        simp
      have hl := hc.1
      unfold sourceIndex
      rw [hlen]
      have hrr : (fun j => if rdim v.shape j = 1 then 0 else idx.reverse.getD j 0) =
          (fun j => if rdim (stripOnes shape.length v.shape) j = 1 then 0 else idx.reverse.getD j 0) := by
        funext j; rw [hr]
      rw [hrr]
      generalize stripOnes shape.length v.shape = w at *
      rw [Nat.add_sub_cancel]
      apply List.reverse_inj.1
      rw [List.reverse_reverse, List.reverse_append, List.reverse_replicate,
        reverse_zipWith' _ _ _ (by rw [List.length_drop]; omega), List.reverse_drop]
      apply List.ext_getElem?
      intro j
      have hw : (List.zipWith (fun d i => if d = 1 then 0 else i) w.reverse (idx.reverse.take (idx.length - (shape.length - w.length)))).length
          = w.length := by
        rw [List.length_zipWith, List.length_take, List.length_reverse, List.length_reverse]; omega
      by_cases hj : j < w.length
      · rw [List.getElem?_append_left (by rw [hw]; exact hj), List.getElem?_zipWith, List.getElem?_take,
          if_pos (by omega), List.getElem?_map, List.getElem?_range (by omega)]
        have e1 : w.reverse[j]? = some (rdim w j) := by
          unfold rdim
          rw [List.getD_eq_getElem?_getD]
          rw [List.getElem?_eq_getElem (by simpa using hj)]; rfl
        have e2 : idx.reverse[j]? = some (idx.reverse.getD j 0) := by
          rw [List.getD_eq_getElem?_getD]
          rw [List.getElem?_eq_getElem (by rw [List.length_reverse]; omega)]; rfl
        rw [e1, e2]
        rfl
      · rw [List.getElem?_append_right (by rw [hw]; omega), hw]
        by_cases hk2 : j < k + w.length
        · rw [List.getElem?_replicate, if_pos (by omega), List.getElem?_map, List.getElem?_range hk2]
          simp only [Option.map_some, rdim_ge w j (by omega), if_true]
        · rw [List.getElem?_eq_none (by rw [List.length_replicate]; omega), List.getElem?_eq_none]
          simp only [List.length_map, List.length_range]; omega
    · cases h

/-- **C102.** A number as initial value fills the Var. -/
theorem C102_init_number {α β : Type} (cast : α → β) (shape : List Nat) (x : α) (hs : shape ≠ []) :
    ∃ r, initArray cast shape ⟨[], fun _ => x⟩ = some r ∧ r.shape = shape ∧
      ∀ idx, idx.length = shape.length → r.entry idx = cast x := by
  have h : (initArray cast shape ⟨[], fun _ => x⟩).isSome = true := by
    rw [C102_init_iff]
    exact ⟨hs, fun j => Or.inl (rdim_ge [] j (Nat.zero_le _))⟩
  obtain ⟨r, hr⟩ := Option.isSome_iff_exists.1 h
  refine ⟨r, hr, ?_, fun idx hi => (C102_init_values cast shape _ r hr idx hi).2⟩
  unfold initArray at hr
  split at hr
  · cases hr
  · split at hr
    · cases hr; rfl
    · cases hr

/-- **C102.** A value of the shape of the Var is taken entry by entry. -/
theorem C102_init_same_shape {α β : Type} (cast : α → β) (v : Arr α) (hs : v.shape ≠ []) :
    ∃ r, initArray cast v.shape v = some r ∧
      ∀ idx : List Nat, idx.length = v.shape.length → (∀ j, j < v.shape.length → idx.reverse.getD j 0 < rdim v.shape j) →
        r.entry idx = cast (v.entry idx) := by
  have h : (initArray cast v.shape v).isSome = true := by
    rw [C102_init_iff]
    refine ⟨hs, fun j => ?_⟩
    by_cases hj : j < v.shape.length
    · exact Or.inr ⟨hj, rfl⟩
    · exact Or.inl (rdim_ge _ j (by omega))
  obtain ⟨r, hr⟩ := Option.isSome_iff_exists.1 h
  refine ⟨r, hr, fun idx hi hb => ?_⟩
  rw [(C102_init_values cast _ v r hr idx hi).2]
  congr 2
  unfold sourceIndex
  apply List.reverse_inj.1
  rw [List.reverse_reverse]
  apply List.ext_getElem?
  intro j
  by_cases hj : j < v.shape.length
  · rw [List.getElem?_map, List.getElem?_range hj]
    have e2 : idx.reverse[j]? = some (idx.reverse.getD j 0) := by
      rw [List.getD_eq_getElem?_getD]
      rw [List.getElem?_eq_getElem (by rw [List.length_reverse]; omega)]; rfl
    rw [e2]
    simp only [Option.map_some, Option.some.injEq]
    split
    · rename_i h1
      have := hb j hj
      omega
    · rfl
  · rw [List.getElem?_eq_none (by simp; omega), List.getElem?_eq_none (by simp; omega)]

/-- A row broadcast to a matrix: entry (1, 2) is entry 2 of the row. -/
example : (initArray (fun x : Nat => x + 0) [2, 3] ⟨[1, 3], fun i => i.foldl (fun a b => 10 * a + b) 0⟩).map (fun r => r.entry [1, 2]) =
    some 2 := by decide

/-- **C102, finding.** A Var without dimensions cannot be an array: whatever its initial value, building the model raises. -/
theorem C102_witness_no_dimensions {α β : Type} (cast : α → β) (v : Arr α) : (initArray cast [] v).isNone = true := rfl

/-! ## Errors while building -/

theorem step_none {ε : Type} (n : Nat) (outcome : Nat → Option ε) (s : Boot ε) :
    Boot.step n outcome s none = s ∨
    (s.raised = none ∧ s.pos < n ∧ outcome s.pos = none ∧ Boot.step n outcome s none = ⟨s.answered, s.pos + 1, s.raised⟩) ∨
    (s.raised = none ∧ s.pos < n ∧ ∃ e, outcome s.pos = some e ∧ Boot.step n outcome s none = ⟨s.answered, s.pos, some e⟩) := by
  by_cases hc : s.raised.isNone ∧ s.pos < n ∧ s.answered s.pos
  · have hr := Option.isNone_iff_eq_none.1 hc.1
    cases ho : outcome s.pos with
    | none => right; left; exact ⟨hr, hc.2.1, rfl, by simp only [Boot.step, if_pos hc, ho]⟩
    | some e => right; right; exact ⟨hr, hc.2.1, e, rfl, by simp only [Boot.step, if_pos hc, ho]⟩
  · left; simp only [Boot.step, if_neg hc]

/-- **C102.** `initialize` returns only after every model was built without error; if it raises, the exception is that of the first
model, in the order of the executable, that failed – whatever the order in which the models answer. -/
theorem C102_build_errors {ε : Type} (n : Nat) (outcome : Nat → Option ε) (l : List (Option Nat)) :
    ((Boot.exec n outcome (Boot.start ε) l).pos = n → ∀ i, i < n → outcome i = none) ∧
    (∀ e, (Boot.exec n outcome (Boot.start ε) l).raised = some e →
      ∃ i, i < n ∧ outcome i = some e ∧ ∀ j, j < i → outcome j = none) := by
  have key : ∀ (l : List (Option Nat)) (s : Boot ε), s.pos ≤ n → (∀ i, i < s.pos → outcome i = none) →
      (∀ e, s.raised = some e → s.pos < n ∧ outcome s.pos = some e) →
      (∀ i, i < (Boot.exec n outcome s l).pos → outcome i = none) ∧
      (∀ e, (Boot.exec n outcome s l).raised = some e →
        (Boot.exec n outcome s l).pos < n ∧ outcome (Boot.exec n outcome s l).pos = some e) := by
    intro l
    induction l with
    | nil => intro s _ h1 h2; exact ⟨h1, h2⟩
    | cons a l ih =>
      intro s h0 h1 h2
      cases a with
      | some i => exact ih _ h0 h1 h2
      | none =>
        show _ ∧ _
        have e0 : Boot.exec n outcome s (none :: l) = Boot.exec n outcome (Boot.step n outcome s none) l := rfl
        rw [e0]
        rcases step_none n outcome s with h | ⟨hr, hp, ho, h⟩ | ⟨hr, hp, e, ho, h⟩
        · rw [h]; exact ih s h0 h1 h2
        · rw [h]
          refine ih _ hp (fun i hi => ?_) (fun e he => ?_)
          · rcases Nat.lt_succ_iff_lt_or_eq.1 hi with h | h
            · exact h1 i h
            · rw [h]; exact ho
          · rw [hr] at he; cases he
        · rw [h]
          refine ih _ h0 h1 (fun e' he => ?_)
          cases he
          exact ⟨hp, ho⟩
  obtain ⟨k1, k2⟩ := key l (Boot.start ε) (Nat.zero_le _) (fun i h => absurd h (Nat.not_lt_zero _)) (fun e h => by cases h)
  refine ⟨fun hp i hi => k1 i (by rw [hp]; exact hi), fun e he => ?_⟩
  obtain ⟨h1, h2⟩ := k2 e he
  exact ⟨_, h1, h2, k1⟩

/-- **C102.** And it does not hang: once all models have answered, at most `n` reads decide. -/
theorem C102_build_decides {ε : Type} (n : Nat) (outcome : Nat → Option ε) (l : List (Option Nat))
    (hl : ∀ i, i < n → some i ∈ l) :
    (Boot.exec n outcome (Boot.start ε) (l ++ List.replicate n none)).pos = n ∨
    (Boot.exec n outcome (Boot.start ε) (l ++ List.replicate n none)).raised.isSome = true := by
  have happ : ∀ (a b : List (Option Nat)) (s : Boot ε), Boot.exec n outcome s (a ++ b) = Boot.exec n outcome (Boot.exec n outcome s a) b := by
    intro a b s; exact List.foldl_append ..
  have hans : ∀ (l : List (Option Nat)) (s : Boot ε) (i : Nat), s.answered i = true ∨ some i ∈ l →
      (Boot.exec n outcome s l).answered i = true := by
    intro l
    induction l with
    | nil => intro s i h; rcases h with h | h; exact h; cases h
    | cons a l ih =>
      intro s i h
      apply ih
      have hkeep : ∀ a, s.answered i = true → (Boot.step n outcome s a).answered i = true := by
        intro a hs
        cases a with
        | some j => simp only [Boot.step]; split <;> first | rfl | exact hs
        | none =>
          rcases step_none n outcome s with h | ⟨_, _, _, h⟩ | ⟨_, _, _, _, h⟩ <;> rw [h] <;> exact hs
      rcases h with h | h
      · exact Or.inl (hkeep a h)
      · rcases List.mem_cons.1 h with h | h
        · left; rw [← h]; simp [Boot.step]
        · exact Or.inr h
  have hpos : ∀ (l : List (Option Nat)) (s : Boot ε), s.pos ≤ n → (Boot.exec n outcome s l).pos ≤ n := by
    intro l
    induction l with
    | nil => intro s h; exact h
    | cons a l ih =>
      intro s h
      apply ih
      cases a with
      | some i => exact h
      | none =>
        rcases step_none n outcome s with h' | ⟨_, hp, _, h'⟩ | ⟨_, _, _, _, h'⟩ <;> rw [h']
        · exact h
        · exact hp
        · exact h
  have hread : ∀ (m : Nat) (s : Boot ε), (∀ i, i < n → s.answered i = true) → s.pos ≤ n → n ≤ s.pos + m →
      (Boot.exec n outcome s (List.replicate m none)).pos = n ∨ (Boot.exec n outcome s (List.replicate m none)).raised.isSome = true := by
    intro m
    induction m with
    | zero => intro s _ h1 h2; left; show s.pos = n; omega
    | succ m ih =>
      intro s h0 h1 h2
      have e : Boot.exec n outcome s (List.replicate (m + 1) none) =
          Boot.exec n outcome (Boot.step n outcome s none) (List.replicate m none) := rfl
      rw [e]
      by_cases hc : s.raised.isNone ∧ s.pos < n ∧ s.answered s.pos
      · cases ho : outcome s.pos with
        | none =>
          have es : Boot.step n outcome s none = { s with pos := s.pos + 1 } := by
            simp only [Boot.step, if_pos hc, ho]
          rw [es]
          exact ih _ h0 hc.2.1 (by show n ≤ s.pos + 1 + m; omega)
        | some e' =>
          have es : Boot.step n outcome s none = { s with raised := some e' } := by
            simp only [Boot.step, if_pos hc, ho]
          rw [es]
          right
          have hfix : ∀ (m : Nat) (s : Boot ε), s.raised.isSome = true →
              (Boot.exec n outcome s (List.replicate m none)).raised.isSome = true := by
            intro m
            induction m with
            | zero => intro s h; exact h
            | succ m ih2 =>
              intro s h
              apply ih2
              rcases step_none n outcome s with h' | ⟨hr, _, _, h'⟩ | ⟨hr, _, _, _, h'⟩
              · rw [h']; exact h
              · rw [hr] at h; cases h
              · rw [hr] at h; cases h
          exact hfix m _ rfl
      · have es : Boot.step n outcome s none = s := by
          simp only [Boot.step, if_neg hc]
        rw [es]
        by_cases hr : s.raised.isSome = true
        · right
          have hfix : ∀ m : Nat, Boot.exec n outcome s (List.replicate m none) = s := by
            intro m
            induction m with
            | zero => rfl
            | succ m ih2 =>
              show Boot.exec n outcome (Boot.step n outcome s none) (List.replicate m none) = s
              rw [es]; exact ih2
          rw [hfix]; exact hr
        · left
          have hp : s.pos = n := by
            apply Classical.byContradiction
            intro hne
            apply hc
            refine ⟨by simpa using hr, by omega, h0 _ (by omega)⟩
          have hfix : ∀ m : Nat, Boot.exec n outcome s (List.replicate m none) = s := by
            intro m
            induction m with
            | zero => rfl
            | succ m ih2 =>
              show Boot.exec n outcome (Boot.step n outcome s none) (List.replicate m none) = s
              rw [es]; exact ih2
          rw [hfix]; exact hp
  rw [happ]
  exact hread n _ (fun i hi => hans l _ i (Or.inr (hl i hi))) (hpos l _ (Nat.zero_le _)) (by omega)

example : (Boot.exec 3 (fun i => if i = 0 then none else some i) (Boot.start Nat) [some 2, none, some 0, none, some 1, none, none]).raised =
    some 1 := by decide

end Verif.Builder
