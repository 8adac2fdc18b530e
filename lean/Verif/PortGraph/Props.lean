import Verif.PortGraph.Lemmas

/-!
# Port graph: C22, C23, C24
-/

namespace Verif.PortGraph

/-! ## C22 -/

/-- **C22.** After any program of calls — including calls that raise — in which no single call lists a port
twice and no list of configurations is too short, the connection lists are symmetric and duplicate free. -/
theorem C22_symmetric_nodup_partial (lim : Nat) (ops : List Op) (hg : ∀ op ∈ ops, op.Good) :
    let g := run lim G.empty ops
    (∀ p q, q ∈ (g.port p).outs ↔ p ∈ (g.port q).ins) ∧
    (∀ p, (g.port p).outs.Nodup ∧ (g.port p).ins.Nodup) := by
  have h := inv_run inv_empty lim ops hg
  exact ⟨h.sym, fun p => ⟨h.nodupOut p, h.nodupIn p⟩⟩

/-- **C22.** After any such program a further (good) call that raises has changed no connection at all. -/
theorem C22_failing_call_changes_nothing (lim : Nat) (ops : List Op) (op : Op) (hg : ∀ o ∈ op :: ops, o.Good)
    (hfail : (step lim (run lim G.empty ops) op).2 = true) :
    SameConn (run lim G.empty ops) (step lim (run lim G.empty ops) op).1 :=
  (outcome_step (inv_run inv_empty lim ops fun o ho => hg o (by simp [ho])) lim op (hg op (by simp))).atomic hfail

/-- **C22.** A successful `connect` of an OutPort to distinct ports adds exactly those connections. -/
theorem C22_connect_adds_exactly (lim : Nat) (ops : List Op) (hg : ∀ o ∈ ops, o.Good) (self : Nat) (arg : Arg)
    (n : Nat) (hd : arg.toList.Nodup) (hc : CfgOk arg.toList n)
    (hk : ((run lim G.empty ops).port self).kind = .out)
    (hok : (connect (run lim G.empty ops) lim self arg n).2 = false) :
    let g := run lim G.empty ops
    let g' := (connect g lim self arg n).1
    ∀ p q, q ∈ (g'.port p).outs ↔ q ∈ (g.port p).outs ∨ (p = self ∧ q ∈ arg.toList) := by
  intro g g' p q
  have h := inv_run inv_empty lim ops hg
  have hconn : connect g lim self arg n = connectForward g self arg.toList Kind.isIO n := by
    show connect (run lim G.empty ops) lim self arg n = _
    unfold connect; rw [hk]
  have hok' : (connectForward g self arg.toList Kind.isIO n).2 = false := by rw [← hconn]; exact hok
  rcases connectForward_spec (ty := Kind.isIO) (ss := true) (st := true) (self := self) h hd hc
    with hr | ⟨g2, hr, _, _, _, _, ho, _⟩
  · rw [hr] at hok'; cases hok'
  · have : g' = g2 := by
      show (connect g lim self arg n).1 = g2
      rw [hconn, hr]
    rw [this, ho]
    split
    · rename_i hp
      simp [hp, g]
    · rename_i hp
      simp [hp, g]

/-- The hypotheses hold for a small network with a failing call in the middle (shape mismatch, then a
duplicate connection). -/
example : ∃ ops : List Op, (∀ op ∈ ops, op.Good) ∧
    ((run 50 G.empty ops).port 0).outs = [1, 2] ∧ ((run 50 G.empty ops).port 1).ins = [0] := by
  refine ⟨[.new .out [2], .new .inp [2], .new .inp [2], .new .inp [3],
    .connect 0 (.many [1, 2]) 1, .connect 0 (.one 3) 1, .connect 0 (.one 1) 1], ?_, by decide, by decide⟩
  intro op hop
  simp only [List.mem_cons, List.mem_nil_iff, or_false] at hop
  rcases hop with rfl | rfl | rfl | rfl | rfl | rfl | rfl
  · trivial
  · trivial
  · trivial
  · trivial
  · exact ⟨by decide, .inl rfl⟩
  · exact ⟨by decide, .inl rfl⟩
  · exact ⟨by decide, .inl rfl⟩

/-- **C22 (finding).** Two configurations for three ports: `zip` stops early, the third port is listed as a
destination but does not list the source. No exception is raised. -/
theorem C22_short_configs_half_connect :
    let ops : List Op := [.new .out [2], .new .inp [2], .new .inp [2], .new .inp [2],
      .connect 0 (.many [1, 2, 3]) 2]
    let g := run 50 G.empty ops
    3 ∈ (g.port 0).outs ∧ 0 ∉ (g.port 3).ins ∧
      (step 50 (run 50 G.empty (ops.take 4)) (.connect 0 (.many [1, 2, 3]) 2)).2 = false := by decide

/-- **C22 (finding).** `out.connect([q, q])` raises DuplicateConnectionError, but leaves `q` listed twice. -/
theorem C22_duplicate_argument_left_behind :
    let g := run 50 G.empty [.new .out [2], .new .inp [2], .connect 0 (.many [1, 1]) 1]
    (g.port 0).outs = [1, 1] ∧ (g.port 1).ins = [0] := by decide

/-! ## C23 -/

/-- Specification: data of `q` reaches `p` through one or more connections (as listed by the receivers). -/
inductive Feeds (g : G) : Nat → Nat → Prop where
  | direct {q p} : q ∈ (g.port p).ins → Feeds g q p
  | step {q m p} : Feeds g q m → m ∈ (g.port p).ins → Feeds g q p

/-- Specification: the same along the lists of the senders. -/
inductive Reaches (g : G) : Nat → Nat → Prop where
  | direct {q p} : q ∈ (g.port p).outs → Reaches g p q
  | step {p m q} : m ∈ (g.port p).outs → Reaches g m q → Reaches g p q

theorem feeds_cases {g q p} : Feeds g q p ↔ q ∈ (g.port p).ins ∨ ∃ m ∈ (g.port p).ins, Feeds g q m := by
  constructor
  · intro h
    cases h with
    | direct h => exact .inl h
    | step h1 h2 => exact .inr ⟨_, h2, h1⟩
  · rintro (h | ⟨m, h1, h2⟩)
    · exact .direct h
    · exact .step h2 h1

theorem reaches_cases {g p q} : Reaches g p q ↔ q ∈ (g.port p).outs ∨ ∃ m ∈ (g.port p).outs, Reaches g m q := by
  constructor
  · intro h
    cases h with
    | direct h => exact .inl h
    | step h1 h2 => exact .inr ⟨_, h1, h2⟩
  · rintro (h | ⟨m, h1, h2⟩)
    · exact .direct h
    · exact .step h1 h2

/-- Main lemma about the search. -/
theorem srcPorts_mem (g : G) (lim : Nat) (incl : Bool) (p : Nat) (l : List Nat)
    (h : srcPorts g incl lim p = some l) :
    ∀ q, q ∈ l ↔ (g.port q).ins = [] ∧ (Feeds g q p ∨ (incl = true ∧ q = p)) := by
  induction lim generalizing incl p l with
  | zero => simp [srcPorts] at h
  | succ lim ih =>
    rw [srcPorts] at h
    split at h
    · rename_i hi
      cases h
      intro q
      have hno : ¬ Feeds g q p := by
        rw [feeds_cases]; simp [hi]
      cases incl <;> simp [hno]
      rintro rfl; exact hi
    · rename_i ins hne
      intro q
      rw [foldlM_append _ _ _ h q]
      have hself : (g.port q).ins = [] → q ≠ p := by rintro h1 rfl; exact hne h1
      constructor
      · rintro (h1 | ⟨m, hm, s, hs, hq⟩)
        · simp at h1
        · have := (ih true m s hs q).1 hq
          refine ⟨this.1, .inl ?_⟩
          rcases this.2 with h2 | ⟨_, rfl⟩
          · exact .step h2 hm
          · exact .direct hm
      · rintro ⟨h1, h2 | ⟨_, h2⟩⟩
        · right
          have : ∃ m ∈ (g.port p).ins, Feeds g q m ∨ q = m := by
            rcases feeds_cases.1 h2 with h3 | ⟨m, h3, h4⟩
            · exact ⟨q, h3, .inr rfl⟩
            · exact ⟨m, h3, .inl h4⟩
          obtain ⟨m, hm, hm2⟩ := this
          obtain ⟨s, hs⟩ := foldlM_each _ _ _ h m hm
          refine ⟨m, hm, s, hs, (ih true m s hs q).2 ⟨h1, ?_⟩⟩
          rcases hm2 with h3 | h3
          · exact .inl h3
          · exact .inr ⟨rfl, h3⟩
        · exact absurd h2 (hself h1)

theorem dstPorts_mem (g : G) (lim : Nat) (incl : Bool) (p : Nat) (l : List Nat)
    (h : dstPorts g incl lim p = some l) :
    ∀ q, q ∈ l ↔ (g.port q).outs = [] ∧ (Reaches g p q ∨ (incl = true ∧ q = p)) := by
  induction lim generalizing incl p l with
  | zero => simp [dstPorts] at h
  | succ lim ih =>
    rw [dstPorts] at h
    split at h
    · rename_i hi
      cases h
      intro q
      have hno : ¬ Reaches g p q := by
        rw [reaches_cases]; simp [hi]
      cases incl <;> simp [hno]
      rintro rfl; exact hi
    · rename_i ins hne
      intro q
      rw [foldlM_append _ _ _ h q]
      have hself : (g.port q).outs = [] → q ≠ p := by rintro h1 rfl; exact hne h1
      constructor
      · rintro (h1 | ⟨m, hm, s, hs, hq⟩)
        · simp at h1
        · have := (ih true m s hs q).1 hq
          refine ⟨this.1, .inl ?_⟩
          rcases this.2 with h2 | ⟨_, rfl⟩
          · exact .step hm h2
          · exact .direct hm
      · rintro ⟨h1, h2 | ⟨_, h2⟩⟩
        · right
          have : ∃ m ∈ (g.port p).outs, Reaches g m q ∨ q = m := by
            rcases reaches_cases.1 h2 with h3 | ⟨m, h3, h4⟩
            · exact ⟨q, h3, .inr rfl⟩
            · exact ⟨m, h3, .inl h4⟩
          obtain ⟨m, hm, hm2⟩ := this
          obtain ⟨s, hs⟩ := foldlM_each _ _ _ h m hm
          refine ⟨m, hm, s, hs, (ih true m s hs q).2 ⟨h1, ?_⟩⟩
          rcases hm2 with h3 | h3
          · exact .inl h3
          · exact .inr ⟨rfl, h3⟩
        · exact absurd h2 (hself h1)

/-- **C23.** Whenever `get_src_ports` returns, it returns exactly the ports without incoming connections whose
data reach the port. -/
theorem C23_src_ports (g : G) (lim p : Nat) (l : List Nat) (h : srcPorts g false lim p = some l) (q : Nat) :
    q ∈ l ↔ (g.port q).ins = [] ∧ Feeds g q p := by
  simpa using srcPorts_mem g lim false p l h q

/-- **C23.** Whenever `get_dst_ports` returns, it returns exactly the ports without outgoing connections that the
port's data reach. -/
theorem C23_dst_ports (g : G) (lim p : Nat) (l : List Nat) (h : dstPorts g false lim p = some l) (q : Nat) :
    q ∈ l ↔ (g.port q).outs = [] ∧ Reaches g p q := by
  simpa using dstPorts_mem g lim false p l h q

/-- **C23.** On an acyclic graph (`depth` counts at least the connections in front of a port) below the recursion
limit, `get_src_ports` returns. -/
theorem C23_src_ports_returns (g : G) (depth : Nat → Nat) (hacyc : ∀ p, ∀ q ∈ (g.port p).ins, depth q < depth p)
    (lim p : Nat) (incl : Bool) (hlim : depth p < lim) : ∃ l, srcPorts g incl lim p = some l := by
  induction lim generalizing p incl with
  | zero => omega
  | succ lim ih =>
    rw [srcPorts]
    split
    · exact ⟨_, rfl⟩
    · apply foldlM_some
      intro q hq
      have := hacyc p q hq
      exact ih q true (by omega)

/-- **C23.** The same for `get_dst_ports`. -/
theorem C23_dst_ports_returns (g : G) (height : Nat → Nat) (hacyc : ∀ p, ∀ q ∈ (g.port p).outs, height q < height p)
    (lim p : Nat) (incl : Bool) (hlim : height p < lim) : ∃ l, dstPorts g incl lim p = some l := by
  induction lim generalizing p incl with
  | zero => omega
  | succ lim ih =>
    rw [dstPorts]
    split
    · exact ⟨_, rfl⟩
    · apply foldlM_some
      intro q hq
      have := hacyc p q hq
      exact ih q true (by omega)

theorem feeds_iff_reaches {g} (hsym : ∀ p q, q ∈ (g.port p).outs ↔ p ∈ (g.port q).ins) (p q : Nat) :
    Feeds g q p ↔ Reaches g q p := by
  constructor
  · intro h
    induction h with
    | direct h => exact .direct ((hsym _ _).2 h)
    | step h1 h2 ih =>
      clear h1
      induction ih with
      | direct h3 => exact .step h3 (.direct ((hsym _ _).2 h2))
      | step h3 _ ih2 => exact .step h3 (ih2 h2)
  · intro h
    induction h with
    | direct h => exact .direct ((hsym _ _).1 h)
    | step h1 h2 ih =>
      clear h2
      induction ih with
      | direct h3 => exact .step (.direct ((hsym _ _).1 h1)) h3
      | step _ h4 ih2 => exact .step ih2 h4

/-- **C23.** In every graph built by good calls the two searches agree: for ports at the two ends, `q` is among the
sources of `p` iff `p` is among the destinations of `q`. -/
theorem C23_src_dst_consistent (lim : Nat) (ops : List Op) (hg : ∀ op ∈ ops, op.Good) (p q : Nat) (lp lq : List Nat)
    (hp : srcPorts (run lim G.empty ops) false lim p = some lp)
    (hq : dstPorts (run lim G.empty ops) false lim q = some lq)
    (hpe : ((run lim G.empty ops).port p).outs = []) (hqe : ((run lim G.empty ops).port q).ins = []) :
    q ∈ lp ↔ p ∈ lq := by
  have h := inv_run inv_empty lim ops hg
  rw [C23_src_ports _ _ _ _ hp, C23_dst_ports _ _ _ _ hq, feeds_iff_reaches h.sym]
  simp [hpe, hqe]

/-- Non-vacuity: out → hierarchical out → virtual → in. -/
example :
    let g := run 50 G.empty [.new .out [2], .new .out [2], .new .inp [2, 1], .connect 0 (.one 1) 1,
      .reshape 1 [2, 1], .connect 3 (.one 2) 1]
    srcPorts g false 50 2 = some [0] ∧ dstPorts g false 50 0 = some [2] ∧ (g.port 3).kind = .reshape := by
  decide

/-- **C23 (remark).** A port reachable along two paths is listed twice. -/
theorem C23_duplicates :
    let g := run 50 G.empty [.new .out [2], .new .out [2], .new .out [2], .new .inp [2],
      .connect 0 (.many [1, 2]) 1, .connect 1 (.one 3) 1, .connect 2 (.one 3) 1]
    srcPorts g false 50 3 = some [0, 0] := by decide

/-- **C23 (finding).** Connecting in a circle is accepted; afterwards the search never returns (RecursionError)
whatever the recursion limit. -/
theorem C23_cycle_accepted :
    let g := run 50 G.empty [.new .out [2], .new .out [2], .connect 0 (.one 1) 1, .connect 1 (.one 0) 1]
    ∀ lim, srcPorts g false lim 0 = none ∧ srcPorts g true lim 1 = none ∧ srcPorts g true lim 0 = none := by
  intro g lim
  have h0 : (g.port 0).ins = [1] := by decide
  have h1 : (g.port 1).ins = [0] := by decide
  induction lim with
  | zero => simp [srcPorts]
  | succ lim ih => simp [srcPorts, h0, h1, ih]

/-! ## C24 -/

/-- VarPorts to which a RefPort is connected directly. -/
def directVars (g : G) (r : Nat) : List Nat := (g.port r).outs.filter fun q => (g.port q).kind.isVar

/-- RefPorts by which a VarPort is connected directly. -/
def directRefs (g : G) (v : Nat) : List Nat := (g.port v).ins.filter fun q => (g.port q).kind == .ref

theorem foldlM_ne_nil {f : Nat → Option (List Nat)} (l : List Nat) (acc r : List Nat)
    (h : l.foldlM (fun acc q => (f q).map (acc ++ ·)) acc = some r) (hne : acc ≠ []) : r ≠ [] := by
  induction l generalizing acc with
  | nil => simp at h; subst h; exact hne
  | cons q l ih =>
    simp only [List.foldlM_cons] at h
    cases hq : f q with
    | none => simp [hq] at h
    | some s =>
      simp only [hq, Option.map_some, Option.bind_eq_bind, Option.bind_some] at h
      exact ih _ h (by simp [hne])

theorem dst_nonempty (g : G) (lim p : Nat) (l : List Nat) : dstPorts g true lim p = some l → l ≠ [] := by
  induction lim generalizing p l with
  | zero => simp [dstPorts]
  | succ lim ih =>
    intro h
    rw [dstPorts] at h
    split at h
    · cases h; simp
    · rename_i hne
      cases ho : (g.port p).outs with
      | nil => exact absurd ho hne
      | cons q qs =>
        rw [ho] at h
        simp only [List.foldlM_cons] at h
        cases hq : dstPorts g true lim q with
        | none => simp [hq] at h
        | some s =>
          simp only [hq, Option.map_some, Option.bind_eq_bind, Option.bind_some, List.nil_append] at h
          exact foldlM_ne_nil _ _ _ h (ih q s hq)

theorem src_nonempty (g : G) (lim p : Nat) (l : List Nat) : srcPorts g true lim p = some l → l ≠ [] := by
  induction lim generalizing p l with
  | zero => simp [srcPorts]
  | succ lim ih =>
    intro h
    rw [srcPorts] at h
    split at h
    · cases h; simp
    · rename_i hne
      cases ho : (g.port p).ins with
      | nil => exact absurd ho hne
      | cons q qs =>
        rw [ho] at h
        simp only [List.foldlM_cons] at h
        cases hq : srcPorts g true lim q with
        | none => simp [hq] at h
        | some s =>
          simp only [hq, Option.map_some, Option.bind_eq_bind, Option.bind_some, List.nil_append] at h
          exact foldlM_ne_nil _ _ _ h (ih q s hq)

/-- A call that passes the 1:1 test connects a fresh port, or continues a chain in the same direction. -/
theorem not_refuses {g lim self arg} (h : refuses g lim self arg = false) :
    arg.toList.length ≤ 1 ∧ ((g.port self).outs = [] ∨ arg.isSrc g = true) ∧
    ((g.port self).ins = [] ∨ arg.isDst g = true) := by
  unfold refuses at h
  simp only [Bool.or_eq_false_iff, decide_eq_false_iff_not, Nat.not_lt] at h
  refine ⟨by have := h.1; omega, ?_⟩
  have h2 := h.2
  cases hd : dstPorts g false lim self with
  | none => simp [hd] at h2
  | some d =>
    rw [hd] at h2
    simp only [Bool.or_eq_false_iff, Bool.and_eq_false_iff, decide_eq_false_iff_not,
      Bool.not_eq_false'] at h2
    obtain ⟨h3, h4⟩ := h2
    constructor
    · rcases h3 with h3 | h3
      · left
        apply Classical.byContradiction
        intro hne
        cases lim with
        | zero => simp [dstPorts] at hd
        | succ lim =>
          have hd' : dstPorts g true (lim + 1) self = some d := by
            rw [dstPorts] at hd ⊢
            split at hd
            · rename_i hx; exact absurd hx hne
            · exact hd
          have hne2 := dst_nonempty g _ _ _ hd'
          have : 0 < d.length := List.length_pos_iff.2 hne2
          omega
      · exact .inr (by simpa using h3)
    · cases hs : srcPorts g false lim self with
      | none => simp [hs] at h4
      | some s =>
        rw [hs] at h4
        simp only [Bool.and_eq_false_iff, decide_eq_false_iff_not, Bool.not_eq_false'] at h4
        rcases h4 with h4 | h4
        · left
          apply Classical.byContradiction
          intro hne
          cases lim with
          | zero => simp [srcPorts] at hs
          | succ lim =>
            have hs' : srcPorts g true (lim + 1) self = some s := by
              rw [srcPorts] at hs ⊢
              split at hs
              · rename_i hx; exact absurd hx hne
              · exact hs
            have hne2 := src_nonempty g _ _ _ hs'
            have : 0 < s.length := List.length_pos_iff.2 hne2
            omega
        · exact .inr (by simpa using h4)

/-- Programs that never use `connect_from`. -/
def Op.isConnectFrom : Op → Bool | .connectFrom .. => true | _ => false

/-- Well-formedness that every program keeps, whatever the calls: kinds of existing ports never change,
connections mention existing ports. -/
structure Wf (g : G) : Prop where
  outLt : ∀ p, ∀ q ∈ (g.port p).outs, q < g.next
  oneVar : ∀ r < g.next, (g.port r).kind = .ref → (directVars g r).length ≤ 1

theorem setIns_same (g : G) (p : Nat) (l : List Nat) :
    (g.setIns p l).next = g.next ∧ ∀ q, ((g.setIns p l).port q).outs = (g.port q).outs ∧
      ((g.setIns p l).port q).kind = (g.port q).kind := by
  refine ⟨rfl, fun q => ?_⟩
  simp only [G.setIns]; split <;> exact ⟨rfl, rfl⟩

theorem loopInputs_same (self : Nat) (ps : List Nat) (g : G) :
    (loopInputs g self ps).1.next = g.next ∧
    ∀ q, ((loopInputs g self ps).1.port q).outs = (g.port q).outs ∧
      ((loopInputs g self ps).1.port q).kind = (g.port q).kind := by
  induction ps generalizing g with
  | nil => exact ⟨rfl, fun q => ⟨rfl, rfl⟩⟩
  | cons p ps ih =>
    simp only [loopInputs, addInputs]
    by_cases hd : disjoint (g.port p).ins [self] = true
    · simp only [hd, if_true]
      have h1 := ih (g.setIns p ((g.port p).ins ++ [self]))
      have h2 := setIns_same g p ((g.port p).ins ++ [self])
      exact ⟨h1.1.trans h2.1, fun q => ⟨(h1.2 q).1.trans (h2.2 q).1, (h1.2 q).2.trans (h2.2 q).2⟩⟩
    · simp [hd]

/-- `_connect_forward`, whatever its arguments: kinds stay, and only `self` may get new destinations. -/
theorem connectForward_effect (g : G) (self : Nat) (ports : List Nat) (ty : Kind → Bool) (n : Nat) (ss st : Bool) :
    let g' := (connectForward g self ports ty n ss st).1
    g'.next = g.next ∧ (∀ q, (g'.port q).kind = (g.port q).kind) ∧
    ((∀ q, (g'.port q).outs = (g.port q).outs) ∨
     (∀ q, (g'.port q).outs = if q = self then (g.port q).outs ++ ports else (g.port q).outs)) := by
  simp only
  unfold connectForward
  split
  · unfold addOutputs
    by_cases hd : disjoint (g.port self).outs ports = true
    · simp only [hd, if_true]
      have h1 := loopInputs_same self (zipPorts ports n) (g.setOuts self ((g.port self).outs ++ ports))
      refine ⟨by rw [h1.1]; rfl, ?_, .inr ?_⟩
      · intro q; rw [(h1.2 q).2]; simp only [G.setOuts]; split <;> rfl
      · intro q; rw [(h1.2 q).1]; simp only [G.setOuts]
        split
        · rename_i hq; subst hq; rfl
        · rfl
    · simp [hd]
  · exact ⟨rfl, fun _ => rfl, .inl fun _ => rfl⟩

theorem directVars_congr {g g' : G} {r : Nat} (ho : (g'.port r).outs = (g.port r).outs)
    (hk : ∀ q ∈ (g.port r).outs, (g'.port q).kind = (g.port q).kind) : directVars g' r = directVars g r := by
  unfold directVars
  rw [ho]
  apply List.filter_congr
  intro q hq
  rw [hk q hq]

theorem wf_new {g} (h : Wf g) (k s) : Wf (g.new k s) ∧
    (∀ q < g.next, (g.new k s).port q = g.port q) ∧
    (∀ q ∈ ((g.new k s).port g.next).outs, False) := by
  refine ⟨⟨?_, ?_⟩, ?_, ?_⟩
  · intro p q hq
    simp only [G.new] at hq ⊢
    split at hq
    · simp at hq
    · have := h.outLt p q hq; omega
  · intro r hr hk
    simp only [G.new] at hr
    by_cases hrn : r = g.next
    · subst hrn; simp [directVars, G.new]
    · have hr' : r < g.next := by omega
      have hp : (g.new k s).port r = g.port r := by simp [G.new, hrn]
      rw [directVars_congr (g := g) (by rw [hp])]
      · exact h.oneVar r hr' (by rw [← hp]; exact hk)
      · intro q hq
        have := h.outLt r q hq
        have hne : q ≠ g.next := by omega
        simp [G.new, hne]
  · intro q hq
    have hne : q ≠ g.next := by omega
    simp [G.new, hne]
  · intro q hq; simp [G.new] at hq

theorem wf_forward {g} (h : Wf g) {self ports ty n ss st} (hports : ∀ p ∈ ports, p < g.next)
    (hone : (g.port self).kind = .ref →
      (((g.port self).outs ++ ports).filter (fun q => (g.port q).kind.isVar)).length ≤ 1) :
    Wf (connectForward g self ports ty n ss st).1 := by
  obtain ⟨h1, h2, h3⟩ := connectForward_effect g self ports ty n ss st
  constructor
  · intro p q hq
    rw [h1]
    rcases h3 with h3 | h3
    · rw [h3] at hq; exact h.outLt p q hq
    · rw [h3] at hq
      split at hq
      · simp only [List.mem_append] at hq
        rcases hq with hq | hq
        · exact h.outLt _ q hq
        · exact hports q hq
      · exact h.outLt p q hq
  · intro r hr hk
    rw [h1] at hr
    rw [h2] at hk
    have same : (∀ q, ((connectForward g self ports ty n ss st).1.port q).outs = (g.port q).outs ∨ q = self) := by
      intro q
      rcases h3 with h3 | h3
      · exact .inl (h3 q)
      · by_cases hq : q = self
        · exact .inr hq
        · left; rw [h3, if_neg hq]
    rcases same r with hs | rfl
    · rw [directVars_congr hs (fun q _ => h2 q)]
      exact h.oneVar r hr hk
    · rcases h3 with h3 | h3
      · rw [directVars_congr (h3 r) (fun q _ => h2 q)]
        exact h.oneVar r hr hk
      · have : directVars (connectForward g r ports ty n ss st).1 r
            = ((g.port r).outs ++ ports).filter (fun q => (g.port q).kind.isVar) := by
          unfold directVars
          rw [h3, if_pos rfl]
          apply List.filter_congr
          intro q _
          rw [h2]
        rw [this]
        exact hone hk

theorem wf_connect {g} (h : Wf g) {lim self arg n} (hself : self < g.next)
    (hports : ∀ p ∈ arg.toList, p < g.next) : Wf (connect g lim self arg n).1 := by
  unfold connect
  split
  · exact wf_forward h hports (by intro hc; simp_all)
  · exact wf_forward h hports (by intro hc; simp_all)
  · rename_i hk
    split
    · exact h
    · rename_i hr
      split
      · apply wf_forward h hports
        intro _
        have hr' : refuses g lim self arg = false := by simpa using hr
        obtain ⟨hlen, hout, _⟩ := not_refuses hr'
        rcases hout with hout | hsrc
        · rw [hout, List.nil_append]
          exact Nat.le_trans (List.length_filter_le _ _) hlen
        · cases arg with
          | many ps => simp [Arg.isSrc] at hsrc
          | one p =>
            have hnv : (g.port p).kind.isVar = false := by
              simp only [Arg.isSrc] at hsrc
              cases hkp : (g.port p).kind <;> simp_all [Kind.isSrc, Kind.isVar]
            have := h.oneVar self hself hk
            simpa [Arg.toList, List.filter_append, hnv, directVars] using this
      · exact h
  · split
    · exact h
    · split
      · exact wf_forward h hports (by intro hc; simp_all)
      · exact h
  · split
    · exact h
    · split
      · exact wf_forward h hports (by intro hc; simp_all)
      · exact h
  · exact wf_forward h hports (by intro hc; simp_all)

theorem loopOutputs_concat {g} (h : Wf g) (self : Nat) (ps : List Nat) (hself : self < g.next)
    (hk : (g.port self).kind = .concat) : Wf (loopOutputs g self ps).1 := by
  induction ps generalizing g with
  | nil => exact h
  | cons p ps ih =>
    simp only [loopOutputs, addOutputs]
    by_cases hd : disjoint (g.port p).outs [self] = true
    · simp only [hd, if_true]
      have hkind : ∀ q, ((g.setOuts p ((g.port p).outs ++ [self])).port q).kind = (g.port q).kind := by
        intro q; simp only [G.setOuts]; split <;> rfl
      apply ih
      · constructor
        · intro r q hq
          simp only [G.setOuts] at hq ⊢
          split at hq
          · simp only [List.mem_append, List.mem_singleton] at hq
            rcases hq with hq | rfl
            · exact h.outLt _ _ hq
            · exact hself
          · exact h.outLt _ _ hq
        · intro r hr hkr
          rw [hkind] at hkr
          by_cases hrp : r = p
          · subst hrp
            have : directVars (g.setOuts r ((g.port r).outs ++ [self])) r
                = directVars g r := by
              unfold directVars
              have ho : ((g.setOuts r ((g.port r).outs ++ [self])).port r).outs = (g.port r).outs ++ [self] := by
                simp [G.setOuts]
              rw [ho, List.filter_append]
              have hs : List.filter (fun q => ((g.setOuts r ((g.port r).outs ++ [self])).port q).kind.isVar) [self]
                  = [] := by
                simp [hkind, hk, Kind.isVar]
              rw [hs, List.append_nil]
              apply List.filter_congr
              intro q _; rw [hkind]
            rw [this]; exact h.oneVar r hr hkr
          · rw [directVars_congr (g := g) (by simp [G.setOuts, hrp]) (fun q _ => hkind q)]
            exact h.oneVar r hr hkr
      · exact hself
      · rw [hkind]; exact hk
    · simp [hd]; exact h

theorem wf_concatBackward {g} (h : Wf g) {self ports ty n ss st} (hself : self < g.next)
    (hk : (g.port self).kind = .concat) : Wf (connectBackward g self ports ty n ss st).1 := by
  unfold connectBackward
  split
  · unfold addInputs
    by_cases hd : disjoint (g.port self).ins ports = true
    · simp only [hd, if_true]
      have hs := setIns_same g self ((g.port self).ins ++ ports)
      apply loopOutputs_concat
      · constructor
        · intro p q hq
          rw [(hs.2 p).1] at hq
          exact h.outLt p q hq
        · intro r hr hkr
          rw [(hs.2 r).2] at hkr
          rw [directVars_congr (g := g) (hs.2 r).1 (fun q _ => (hs.2 q).2)]
          exact h.oneVar r hr hkr
      · exact hself
      · rw [(hs.2 self).2]; exact hk
    · simp [hd]; exact h
  · exact h

theorem wf_step {g} (h : Wf g) (lim : Nat) (op : Op) (hop : op.isConnectFrom = false) : Wf (step lim g op).1 := by
  unfold step
  split
  · rename_i hm
    simp only [List.all_eq_true, decide_eq_true_eq] at hm
    cases op with
    | new k s =>
      simp only
      split
      · exact h
      · exact (wf_new h k s).1
    | connect s a n =>
      exact wf_connect h (hm s (by simp [Op.mentions])) (fun p hp => hm p (by simp [Op.mentions, hp]))
    | connectFrom s a n => simp [Op.isConnectFrom] at hop
    | connectVar s v n =>
      simp only [connectVar]
      have hs := hm s (by simp [Op.mentions])
      split
      · exact h
      · split
        · exact h
        · apply wf_connect (wf_new h _ _).1
          · simp only [G.new]; omega
          · intro p hp; simp [Arg.toList] at hp; subst hp; simp [G.new]
    | reshape s x =>
      simp only [reshape]
      have hs := hm s (by simp [Op.mentions])
      split
      · exact h
      · rename_i vp _
        obtain ⟨hw, hsame, _⟩ := wf_new h .reshape vp.shape
        apply wf_forward hw
        · intro p hp; simp at hp; subst hp; simp [G.new]
        · intro hk
          rw [hsame s hs] at hk ⊢
          rw [List.filter_append]
          have : List.filter (fun q => ((g.new .reshape vp.shape).port q).kind.isVar) [g.next] = [] := by
            simp [G.new, Kind.isVar]
          rw [this, List.append_nil]
          have h2 := h.oneVar s hs hk
          rw [← directVars_congr (g := g) (g' := g.new .reshape vp.shape) (by rw [hsame s hs])
            (fun q hq => by rw [hsame q (h.outLt s q hq)])] at h2
          unfold directVars at h2
          rwa [hsame s hs] at h2
    | transpose s x =>
      simp only [transpose]
      have hs := hm s (by simp [Op.mentions])
      split
      · exact h
      · rename_i vp _
        obtain ⟨hw, hsame, _⟩ := wf_new h .transpose vp.shape
        apply wf_forward hw
        · intro p hp; simp at hp; subst hp; simp [G.new]
        · intro hk
          rw [hsame s hs] at hk ⊢
          rw [List.filter_append]
          have : List.filter (fun q => ((g.new .transpose vp.shape).port q).kind.isVar) [g.next] = [] := by
            simp [G.new, Kind.isVar]
          rw [this, List.append_nil]
          have h2 := h.oneVar s hs hk
          rw [← directVars_congr (g := g) (g' := g.new .transpose vp.shape) (by rw [hsame s hs])
            (fun q hq => by rw [hsame q (h.outLt s q hq)])] at h2
          unfold directVars at h2
          rwa [hsame s hs] at h2
    | concatWith s a x =>
      simp only [concatWith]
      split
      · exact h
      · split
        · rename_i shape _
          apply wf_concatBackward (wf_new h .concat shape).1
          · simp [G.new]
          · simp [G.new]
        · exact h
  · exact h

/-- **C24 (what holds).** In a program that does not use `connect_from` (any other calls, also failing ones and
calls with repeated ports), every RefPort is directly connected to at most one VarPort. -/
theorem C24_ref_at_most_one_var_partial (lim : Nat) (ops : List Op) (hops : ∀ op ∈ ops, op.isConnectFrom = false)
    (r : Nat) (hr : r < (run lim G.empty ops).next) (hk : ((run lim G.empty ops).port r).kind = .ref) :
    (directVars (run lim G.empty ops) r).length ≤ 1 := by
  have key : ∀ (ops : List Op) (g : G), (∀ op ∈ ops, op.isConnectFrom = false) → Wf g → Wf (run lim g ops) := by
    intro ops
    induction ops with
    | nil => intro g _ h; exact h
    | cons op ops ih =>
      intro g ho h
      exact ih _ (fun o hmem => ho o (by simp [hmem])) (wf_step h lim op (ho op (by simp)))
  have h0 : Wf G.empty := ⟨by simp [G.empty], by simp [G.empty]⟩
  exact (key ops _ hops h0).oneVar r hr hk

/-- **C24 (what holds for VarPorts).** In any state, if `VarPort.connect_from(ref)` is accepted then the VarPort had
no incoming connection before. -/
theorem C24_var_connect_from_fresh_partial (g : G) (lim v : Nat) (arg : Arg) (n : Nat)
    (hv : (g.port v).kind.isVar = true) (hok : (connectFrom g lim v arg n).2 = false)
    (href : ∀ q ∈ arg.toList, (g.port q).kind = .ref) : (g.port v).ins = [] ∧ ∃ q, arg.toList = [q] := by
  have hnr : refuses g lim v arg = false ∧ arg.toList ≠ [] := by
    unfold connectFrom at hok
    have hne : ∀ ty, (connectBackward g v arg.toList ty n).2 = false → arg.toList ≠ [] := by
      intro ty h hnil
      rw [hnil] at h
      simp [connectBackward, validate] at h
    cases hk : (g.port v).kind <;> simp [hk, Kind.isVar] at hv <;> simp only [hk] at hok
    · cases hr : refuses g lim v arg
      · refine ⟨rfl, ?_⟩
        simp only [hr] at hok
        split at hok
        · rename_i h1; simp at h1
        · split at hok
          · exact hne _ hok
          · simp at hok
      · simp [hr] at hok
    · cases hr : refuses g lim v arg
      · refine ⟨rfl, ?_⟩
        simp only [hr] at hok
        split at hok
        · rename_i h1; simp at h1
        · split at hok
          · exact hne _ hok
          · simp at hok
      · simp [hr] at hok
  obtain ⟨hlen, _, hin⟩ := not_refuses hnr.1
  constructor
  · rcases hin with hin | hin
    · exact hin
    · cases arg with
      | many ps => simp [Arg.isDst] at hin
      | one p =>
        have := href p (by simp [Arg.toList])
        simp [Arg.isDst, this, Kind.isDst] at hin
  · match hl : arg.toList, hnr.2, hlen with
    | [q], _, _ => exact ⟨q, rfl⟩
    | [], h, _ => exact absurd rfl h
    | _ :: _ :: _, _, h => simp at h

/-- Non-vacuity of the two theorems, with a refused second connection. -/
example :
    let g := run 50 G.empty [.new .ref [2], .new .var [2], .new .var [2], .connect 0 (.one 1) 1,
      .connect 0 (.one 2) 1]
    directVars g 0 = [1] ∧ (g.port 2).ins = [] ∧ (connectFrom g 50 2 (.one 0) 1).2 = false := by decide

/-- **C24 (finding).** Two RefPorts connected to the same VarPort: only the caller's side is tested. -/
theorem C24_two_refs_one_var :
    let g := run 50 G.empty [.new .ref [2], .new .ref [2], .new .var [2], .connect 0 (.one 2) 1,
      .connect 1 (.one 2) 1]
    directRefs g 2 = [0, 1] := by decide

/-- **C24 (finding).** One RefPort connected to two VarPorts by their `connect_from`. -/
theorem C24_two_vars_one_ref :
    let g := run 50 G.empty [.new .ref [2], .new .var [2], .new .var [2], .connectFrom 1 (.one 0) 1,
      .connectFrom 2 (.one 0) 1]
    directVars g 0 = [1, 2] := by decide

/-- **C24 (finding).** Without `connect_from`, through the RefPort of a parent process: `ref` reads the first of
two VarPorts. -/
theorem C24_two_vars_through_parent :
    let g := run 50 G.empty [.new .ref [2], .new .ref [2], .new .var [2], .new .var [2], .connect 0 (.one 2) 1,
      .connect 0 (.one 1) 1, .connect 1 (.one 3) 1]
    dstPorts g false 50 0 = some [2, 3] := by decide

end Verif.PortGraph
