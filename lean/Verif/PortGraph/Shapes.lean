import Verif.PortGraph.Lemmas

/-!
# C22, last part: connected ports have equal shapes and compatible classes

No assumption on the program of calls: lists with repeated ports and short lists of configurations are allowed.
-/

namespace Verif.PortGraph

/-- `q` is listed as a destination of `p`, or `p` as a source of `q`. -/
def Edge (g : G) (p q : Nat) : Prop := q ∈ (g.port p).outs ∨ p ∈ (g.port q).ins

/-- Specification: which port classes may be connected, and in which direction. Messages go from OutPorts to
InPorts, possibly through OutPorts and InPorts of enclosing processes; memory accesses from RefPorts to
VarPorts. Reshape, transpose and concat ports are created from any port and may feed any. -/
def mayFeed : Kind → Kind → Bool
  | .out, .out | .out, .inp | .inp, .inp => true
  | .ref, .ref | .ref, .var | .ref, .ivar => true
  | .var, .var | .var, .ivar | .ivar, .var | .ivar, .ivar => true
  | .reshape, _ | .transpose, _ | .concat, _ => true
  | _, .reshape | _, .transpose | _, .concat => true
  | _, _ => false

/-- What holds of every connection. -/
def EdgeOk (g : G) (p q : Nat) : Prop :=
  mayFeed (g.port p).kind (g.port q).kind = true ∧
  ((g.port q).kind.isVirtual = false → (g.port p).shape = (g.port q).shape)

/-- The change made by a call: kinds and shapes stay, the new connections are among `new`. -/
structure Adds (g g' : G) (new : Nat → Nat → Prop) : Prop where
  next : g'.next = g.next
  kind : ∀ p, (g'.port p).kind = (g.port p).kind
  shape : ∀ p, (g'.port p).shape = (g.port p).shape
  edge : ∀ p q, Edge g' p q → Edge g p q ∨ new p q

theorem Adds.refl (g : G) (new) : Adds g g new := ⟨rfl, fun _ => rfl, fun _ => rfl, fun _ _ h => .inl h⟩

theorem Adds.trans {a b c : G} {new} (h : Adds a b new) (h' : Adds b c new) : Adds a c new :=
  ⟨h'.next.trans h.next, fun p => (h'.kind p).trans (h.kind p), fun p => (h'.shape p).trans (h.shape p),
    fun p q e => (h'.edge p q e).elim (h.edge p q) .inr⟩

theorem adds_inputs (g : G) (p : Nat) (inputs : List Nat) (new : Nat → Nat → Prop) (hn : ∀ x ∈ inputs, new x p) :
    Adds g (addInputs g p inputs).1 new := by
  unfold addInputs
  split
  · refine ⟨rfl, ?_, ?_, ?_⟩
    · intro q; simp only [G.setIns]; split <;> rfl
    · intro q; simp only [G.setIns]; split <;> rfl
    · intro a b e
      simp only [Edge, G.setIns] at e ⊢
      rcases e with e | e
      · split at e <;> exact .inl (.inl e)
      · split at e
        · rename_i hb
          subst hb
          rcases List.mem_append.1 e with e | e
          · exact .inl (.inr e)
          · exact .inr (hn _ e)
        · exact .inl (.inr e)
  · exact Adds.refl _ _

theorem adds_outputs (g : G) (p : Nat) (outputs : List Nat) (new : Nat → Nat → Prop) (hn : ∀ x ∈ outputs, new p x) :
    Adds g (addOutputs g p outputs).1 new := by
  unfold addOutputs
  split
  · refine ⟨rfl, ?_, ?_, ?_⟩
    · intro q; simp only [G.setOuts]; split <;> rfl
    · intro q; simp only [G.setOuts]; split <;> rfl
    · intro a b e
      simp only [Edge, G.setOuts] at e ⊢
      rcases e with e | e
      · split at e
        · rename_i hb
          subst hb
          rcases List.mem_append.1 e with e | e
          · exact .inl (.inl e)
          · exact .inr (hn _ e)
        · exact .inl (.inl e)
      · split at e <;> exact .inl (.inr e)
  · exact Adds.refl _ _

theorem adds_loopInputs (self : Nat) (ps : List Nat) (g : G) (new : Nat → Nat → Prop) (hn : ∀ p ∈ ps, new self p) :
    Adds g (loopInputs g self ps).1 new := by
  induction ps generalizing g with
  | nil => exact Adds.refl _ _
  | cons p ps ih =>
    have h1 := adds_inputs g p [self] new (by simpa using hn p (by simp))
    rw [loopInputs]
    split
    · rename_i g' hg; rw [hg] at h1; exact h1
    · rename_i g' hg
      rw [hg] at h1
      exact h1.trans (ih g' fun q hq => hn q (by simp [hq]))

theorem adds_loopOutputs (self : Nat) (ps : List Nat) (g : G) (new : Nat → Nat → Prop) (hn : ∀ p ∈ ps, new p self) :
    Adds g (loopOutputs g self ps).1 new := by
  induction ps generalizing g with
  | nil => exact Adds.refl _ _
  | cons p ps ih =>
    have h1 := adds_outputs g p [self] new (by simpa using hn p (by simp))
    rw [loopOutputs]
    split
    · rename_i g' hg; rw [hg] at h1; exact h1
    · rename_i g' hg
      rw [hg] at h1
      exact h1.trans (ih g' fun q hq => hn q (by simp [hq]))

theorem zipPorts_sub {ports : List Nat} {n p : Nat} (h : p ∈ zipPorts ports n) : p ∈ ports := by
  unfold zipPorts at h
  split at h
  · exact h
  · exact List.mem_of_mem_take h

/-- New connections of a forward call were validated. -/
theorem adds_forward (g : G) (self : Nat) (ports : List Nat) (ty : Kind → Bool) (n : Nat) (ss st : Bool) :
    Adds g (connectForward g self ports ty n ss st).1 fun p q =>
      p = self ∧ q ∈ ports ∧ ty (g.port q).kind = true ∧ (ss = true → (g.port self).shape = (g.port q).shape) := by
  unfold connectForward
  split
  · rename_i hv
    have hall : ∀ q ∈ ports, ty (g.port q).kind = true ∧ (ss = true → (g.port self).shape = (g.port q).shape) := by
      unfold validate at hv
      split at hv
      · cases hv
      · intro q hq
        have := (List.all_eq_true.1 hv) q hq
        simp only [Bool.and_eq_true, Bool.or_eq_true, Bool.not_eq_true', beq_iff_eq] at this
        refine ⟨this.1.1, fun h => ?_⟩
        rcases this.2 with h' | h'
        · rw [h] at h'; cases h'
        · exact h'
    have h1 := adds_outputs g self ports (fun p q => p = self ∧ q ∈ ports ∧ ty (g.port q).kind = true ∧
      (ss = true → (g.port self).shape = (g.port q).shape)) fun q hq => ⟨rfl, hq, hall q hq⟩
    split
    · rename_i g' hg; rw [hg] at h1; exact h1
    · rename_i g' hg
      rw [hg] at h1
      exact h1.trans (adds_loopInputs self _ g' _ fun q hq => ⟨rfl, zipPorts_sub hq, hall q (zipPorts_sub hq)⟩)
  · exact Adds.refl _ _

/-- New connections of a backward call were validated. -/
theorem adds_backward (g : G) (self : Nat) (ports : List Nat) (ty : Kind → Bool) (n : Nat) (ss st : Bool) :
    Adds g (connectBackward g self ports ty n ss st).1 fun p q =>
      q = self ∧ p ∈ ports ∧ ty (g.port p).kind = true ∧ (ss = true → (g.port self).shape = (g.port p).shape) := by
  unfold connectBackward
  split
  · rename_i hv
    have hall : ∀ q ∈ ports, ty (g.port q).kind = true ∧ (ss = true → (g.port self).shape = (g.port q).shape) := by
      unfold validate at hv
      split at hv
      · cases hv
      · intro q hq
        have := (List.all_eq_true.1 hv) q hq
        simp only [Bool.and_eq_true, Bool.or_eq_true, Bool.not_eq_true', beq_iff_eq] at this
        refine ⟨this.1.1, fun h => ?_⟩
        rcases this.2 with h' | h'
        · rw [h] at h'; cases h'
        · exact h'
    have h1 := adds_inputs g self ports (fun p q => q = self ∧ p ∈ ports ∧ ty (g.port p).kind = true ∧
      (ss = true → (g.port self).shape = (g.port p).shape)) fun q hq => ⟨rfl, hq, hall q hq⟩
    split
    · rename_i g' hg; rw [hg] at h1; exact h1
    · rename_i g' hg
      rw [hg] at h1
      exact h1.trans (adds_loopOutputs self _ g' _ fun q hq => ⟨rfl, zipPorts_sub hq, hall q (zipPorts_sub hq)⟩)
  · exact Adds.refl _ _

/-- Every connection is between existing ports and is allowed. -/
def AllOk (g : G) : Prop := ∀ p q, Edge g p q → p < g.next ∧ q < g.next ∧ EdgeOk g p q

theorem allOk_adds {g g' : G} {new} (h : AllOk g) (ha : Adds g g' new)
    (hn : ∀ p q, new p q → p < g.next ∧ q < g.next ∧ EdgeOk g p q) : AllOk g' := by
  intro p q e
  have : p < g.next ∧ q < g.next ∧ EdgeOk g p q := (ha.edge p q e).elim (h p q) (hn p q)
  refine ⟨ha.next ▸ this.1, ha.next ▸ this.2.1, ?_⟩
  simpa only [EdgeOk, ha.kind, ha.shape] using this.2.2

theorem allOk_new {g : G} (h : AllOk g) (k : Kind) (s : List Nat) : AllOk (g.new k s) := by
  intro p q e
  have hpq : Edge g p q ∧ p ≠ g.next ∧ q ≠ g.next := by
    simp only [Edge, G.new] at e
    rcases e with e | e
    · split at e
      · simp at e
      · rename_i hp
        have := h p q (.inl e)
        exact ⟨.inl e, hp, by omega⟩
    · split at e
      · simp at e
      · rename_i hp
        have := h p q (.inr e)
        exact ⟨.inr e, by omega, hp⟩
  have := h p q hpq.1
  refine ⟨by simp only [G.new]; omega, by simp only [G.new]; omega, ?_⟩
  simpa only [EdgeOk, G.new, if_neg hpq.2.1, if_neg hpq.2.2] using this.2.2

theorem allOk_forward {g : G} (h : AllOk g) (self : Nat) (ports : List Nat) (ty : Kind → Bool) (n : Nat) (st : Bool)
    (hs : self < g.next) (hp : ∀ p ∈ ports, p < g.next)
    (hty : ∀ k, ty k = true → mayFeed (g.port self).kind k = true) :
    AllOk (connectForward g self ports ty n true st).1 :=
  allOk_adds h (adds_forward g self ports ty n true st) fun p q hq => by
    obtain ⟨rfl, h1, h2, h3⟩ := hq
    exact ⟨hs, hp _ h1, hty _ h2, fun _ => h3 rfl⟩

theorem allOk_backward {g : G} (h : AllOk g) (self : Nat) (ports : List Nat) (ty : Kind → Bool) (n : Nat) (st : Bool)
    (hs : self < g.next) (hp : ∀ p ∈ ports, p < g.next)
    (hty : ∀ k, ty k = true → mayFeed k (g.port self).kind = true) :
    AllOk (connectBackward g self ports ty n true st).1 :=
  allOk_adds h (adds_backward g self ports ty n true st) fun p q hq => by
    obtain ⟨rfl, h1, h2, h3⟩ := hq
    exact ⟨hp _ h1, hs, hty _ h2, fun _ => (h3 rfl).symm⟩

theorem allOk_connect {g : G} (h : AllOk g) (lim self : Nat) (arg : Arg) (n : Nat)
    (hs : self < g.next) (hp : ∀ p ∈ arg.toList, p < g.next) : AllOk (connect g lim self arg n).1 := by
  unfold connect
  split
  · rename_i hk
    exact allOk_forward h _ _ _ _ _ hs hp (by intro k; rw [hk]; cases k <;> decide)
  · rename_i hk
    exact allOk_forward h _ _ _ _ _ hs hp (by intro k; rw [hk]; cases k <;> decide)
  · rename_i hk
    split
    · exact h
    · split
      · exact allOk_forward h _ _ _ _ _ hs hp (by intro k; rw [hk]; cases k <;> decide)
      · exact h
  · rename_i hk
    split
    · exact h
    · split
      · exact allOk_forward h _ _ _ _ _ hs hp (by intro k; rw [hk]; cases k <;> decide)
      · exact h
  · rename_i hk
    split
    · exact h
    · split
      · exact allOk_forward h _ _ _ _ _ hs hp (by intro k; rw [hk]; cases k <;> decide)
      · exact h
  · rename_i h1 h2 h3 h4 h5
    refine allOk_forward h _ _ _ _ _ hs hp ?_
    intro k _
    revert h1 h2 h3 h4 h5
    cases (g.port self).kind <;> cases k <;> simp [mayFeed]

theorem allOk_connectFrom {g : G} (h : AllOk g) (lim self : Nat) (arg : Arg) (n : Nat)
    (hs : self < g.next) (hp : ∀ p ∈ arg.toList, p < g.next) : AllOk (connectFrom g lim self arg n).1 := by
  unfold connectFrom
  split
  · rename_i hk
    exact allOk_backward h _ _ _ _ _ hs hp (by intro k; rw [hk]; cases k <;> decide)
  · rename_i hk
    exact allOk_backward h _ _ _ _ _ hs hp (by intro k; rw [hk]; cases k <;> decide)
  · rename_i hk
    split
    · exact h
    · split
      · exact allOk_backward h _ _ _ _ _ hs hp (by intro k; rw [hk]; cases k <;> decide)
      · exact h
  · rename_i hk
    split
    · exact h
    · split
      · exact allOk_backward h _ _ _ _ _ hs hp (by intro k; rw [hk]; cases k <;> decide)
      · exact h
  · rename_i hk
    split
    · exact h
    · split
      · exact allOk_backward h _ _ _ _ _ hs hp (by intro k; rw [hk]; cases k <;> decide)
      · exact h
  · exact h

/-- A new virtual port fed by `ports`. -/
theorem mayFeed_virtual {a b : Kind} (h : b.isVirtual = true) : mayFeed a b = true := by
  cases a <;> cases b <;> simp_all [mayFeed, Kind.isVirtual]

theorem new_kind (g : G) (k : Kind) (s : List Nat) : ((g.new k s).port g.next).kind = k := by simp [G.new]

theorem allOk_step {g : G} (h : AllOk g) (lim : Nat) (op : Op) : AllOk (step lim g op).1 := by
  unfold step
  split
  · rename_i hm
    have hlt : ∀ p ∈ op.mentions, p < g.next := by simpa using hm
    cases op with
    | new k s =>
      simp only
      split
      · exact h
      · exact allOk_new h k s
    | connect s a n =>
      exact allOk_connect h lim s a n (hlt _ (by simp [Op.mentions])) fun p hp => hlt _ (by simp [Op.mentions, hp])
    | connectFrom s a n =>
      exact allOk_connectFrom h lim s a n (hlt _ (by simp [Op.mentions])) fun p hp => hlt _ (by simp [Op.mentions, hp])
    | connectVar s v n =>
      have hs := hlt s (by simp [Op.mentions])
      simp only [connectVar]
      split
      · exact h
      · split
        · exact h
        · refine allOk_connect (allOk_new h _ _) lim s _ n (by simp only [G.new]; omega) ?_
          intro p hp
          simp only [Arg.toList, List.mem_singleton] at hp
          subst hp
          simp [G.new]
    | reshape s x =>
      have hs := hlt s (by simp [Op.mentions])
      simp only [reshape]
      split
      · exact h
      · rename_i vp _
        refine allOk_adds (allOk_new h .reshape vp.shape) (adds_forward _ s [g.next] (fun _ => true) 1 false true) ?_
        rintro p q ⟨rfl, hq, _, _⟩
        simp only [List.mem_singleton] at hq
        subst hq
        refine ⟨by simp only [G.new]; omega, by simp [G.new], mayFeed_virtual (by rw [new_kind]; rfl), ?_⟩
        rw [new_kind]; simp [Kind.isVirtual]
    | transpose s x =>
      have hs := hlt s (by simp [Op.mentions])
      simp only [transpose]
      split
      · exact h
      · rename_i vp _
        refine allOk_adds (allOk_new h .transpose vp.shape) (adds_forward _ s [g.next] (fun _ => true) 1 false true) ?_
        rintro p q ⟨rfl, hq, _, _⟩
        simp only [List.mem_singleton] at hq
        subst hq
        refine ⟨by simp only [G.new]; omega, by simp [G.new], mayFeed_virtual (by rw [new_kind]; rfl), ?_⟩
        rw [new_kind]; simp [Kind.isVirtual]
    | concatWith s a x =>
      simp only [concatWith]
      split
      · exact h
      · split
        · rename_i shape _
          refine allOk_adds (allOk_new h .concat shape) (adds_backward _ g.next _ (fun _ => true) 1 false true) ?_
          rintro p q ⟨rfl, hp, _, _⟩
          have : p < g.next := hlt p (by simpa [Op.mentions] using hp)
          refine ⟨by simp only [G.new]; omega, by simp [G.new], mayFeed_virtual (by rw [new_kind]; rfl), ?_⟩
          rw [new_kind]; simp [Kind.isVirtual]
        · exact h
  · exact h

/-- **C22.** After any program of calls whatever — calls that raise, repeated ports and short lists of
configurations included — every connection listed at either end is between existing ports, respects the direction
of the port classes, and, unless the receiving port is a reshape, transpose or concat port, joins ports of
equal shape. -/
theorem C22_connected_ports_compatible (lim : Nat) (ops : List Op) (p q : Nat)
    (he : Edge (run lim G.empty ops) p q) :
    let g := run lim G.empty ops
    p < g.next ∧ q < g.next ∧ mayFeed (g.port p).kind (g.port q).kind = true ∧
    ((g.port q).kind.isVirtual = false → (g.port p).shape = (g.port q).shape) := by
  have hrun : ∀ (ops : List Op) (g : G), AllOk g → AllOk (run lim g ops) := by
    intro ops
    induction ops with
    | nil => intro g h; exact h
    | cons op ops ih => intro g h; exact ih _ (allOk_step h lim op)
  have h0 : AllOk G.empty := by
    intro p q e
    simp [Edge, G.empty] at e
  exact hrun ops G.empty h0 p q he

/-- An OutPort reshaped and connected to an InPort of the new shape; a VarPort argument and a wrong shape are refused. -/
example : let g := run 50 G.empty [.new .out [2, 3], .new .inp [6], .new .inp [5], .new .var [6], .reshape 0 [6],
      .connect 4 (.one 1) 1, .connect 4 (.one 2) 1, .connect 4 (.one 3) 1]
    Edge g 0 4 ∧ Edge g 4 1 ∧ ¬ Edge g 4 2 ∧ ¬ Edge g 4 3 := by
  simp only [Edge]; decide

end Verif.PortGraph
