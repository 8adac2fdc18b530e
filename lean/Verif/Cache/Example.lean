import Verif.Cache.Props

/-!
# Concrete networks for C97
-/

namespace Verif.Cache

/-- A source connected to a neuron over a transposed connection (transformation 5). -/
def netA : NetD where
  procs := [⟨0, "source", 1, 0, [⟨"data", 0, 3⟩], [⟨"out", 8, []⟩]⟩,
    ⟨1, "lif", 2, 0, [⟨"u", 1, 10⟩, ⟨"v", 2, 20⟩], [⟨"a_in", 8, [((0, "out"), 5)]⟩]⟩]
  chans := [((0, "out"), (1, "a_in"))]

theorem netA_ids : Ids netA where
  procs := by decide
  vars := by decide
  ports := by decide
  chans := by decide

theorem netA_named : Named netA := ⟨by decide, by decide⟩

/-- Other parameters only. -/
def netParams : NetD where
  procs := [⟨0, "source", 1, 7, [⟨"data", 0, 3⟩], [⟨"out", 8, []⟩]⟩,
    ⟨1, "lif", 2, 9, [⟨"u", 1, 10⟩, ⟨"v", 2, 20⟩], [⟨"a_in", 8, [((0, "out"), 5)]⟩]⟩]
  chans := [((0, "out"), (1, "a_in"))]

/-- The hypotheses of `C97_same_network` are met. -/
example (crash : Bool) : ∃ e e', (compile (compile .absent false netA).1 crash netParams).2 = .ok e ∧ fresh netParams = .ok e' ∧ SameExe e e' :=
  C97_same_network netA netParams netA_ids netA_named ⟨by decide, by decide, by decide, by decide⟩ ⟨by decide, by decide⟩
    (.cons (by unfold Again; decide) (.cons (by unfold Again; decide) .nil)) crash

/-- … and of `C97_same_session`: the same network again, ids 2, 3 and 3, 4, 5. -/
example : ∃ e, (compile (.full (stored netA)) false (again 2 3 netA)).2 = .ok e ∧
    (∀ p ∈ (again 2 3 netA).procs, ∀ v ∈ p.vars, reaches (again 2 3 netA) e v.id = .error .notAssociated) ∧
    ∀ c ∈ (again 2 3 netA).chans, applied e c = none :=
  C97_same_session netA netA_ids netA_named 2 3 ⟨by decide, by decide, by decide, by decide⟩ false (by decide) (by decide)

/-- The script changed: another process model for `lif` (a run configuration with another tag), another initial value of `u`. -/
def netEdited : NetD where
  procs := [⟨0, "source", 1, 0, [⟨"data", 0, 3⟩], [⟨"out", 8, []⟩]⟩,
    ⟨1, "lif", 33, 0, [⟨"u", 1, 11⟩, ⟨"v", 2, 20⟩], [⟨"a_in", 8, [((0, "out"), 5)]⟩]⟩]
  chans := [((0, "out"), (1, "a_in"))]

/-- Process model and initial values that a compilation uses for a process. -/
def uses (r : Except Err Exe) (k : Nat) : Option (Nat × List (String × Int)) :=
  match r with
  | .error _ => none
  | .ok e => (look e.builders k).map fun b => (b.cls, b.vars.map fun v => (v.name, v.init))

/-- **C97.** The cache does not notice changes: with it, the old process model and the old initial value are used, without a warning. -/
theorem C97_witness_stale : uses (fresh netEdited) 1 = some (33, [("u", 11), ("v", 20)]) ∧
    uses (compile (compile .absent false netA).1 false netEdited).2 1 = some (2, [("u", 10), ("v", 20)]) := by
  decide +kernel

/-- The class of `lif` was edited: it creates `v` before `u`. -/
def netSwapped : NetD where
  procs := [⟨0, "source", 1, 0, [⟨"data", 0, 3⟩], [⟨"out", 8, []⟩]⟩,
    ⟨1, "lif", 2, 0, [⟨"v", 1, 20⟩, ⟨"u", 2, 10⟩], [⟨"a_in", 8, [((0, "out"), 5)]⟩]⟩]
  chans := [((0, "out"), (1, "a_in"))]

/-- What `get` of the Var with id `v` reaches. -/
def got (n : NetD) (r : Except Err Exe) (v : Nat) : Option (Nat × String) :=
  match r with
  | .error _ => none
  | .ok e => match reaches n e v with
    | .error _ => none
    | .ok x => some x

/-- **C97.** `get` of `v` (id 1 now) gives the value of `u`. -/
theorem C97_witness_wrong_var : got netSwapped (fresh netSwapped) 1 = some (1, "v") ∧
    got netSwapped (compile (compile .absent false netA).1 false netSwapped).2 1 = some (1, "u") := by
  decide +kernel

/-- The transposition of the example is applied in a fresh compilation and not after a hit in the same session. -/
def transposed (r : Except Err Exe) (c : (Nat × String) × (Nat × String)) : Option (Option Nat) :=
  match r with
  | .error _ => none
  | .ok e => some (applied e c)

/-- **C97.** A connection through a virtual port, built twice in one session: the second time the transformation is silently left out. -/
theorem C97_witness_transformation_lost :
    transposed (fresh (again 2 3 netA)) ((2, "out"), (3, "a_in")) = some (some 5) ∧
      transposed (compile (compile .absent false netA).1 false (again 2 3 netA)).2 ((2, "out"), (3, "a_in")) = some none := by
  decide +kernel

/-- A network with default names works without a cache and raises with one. -/
example : ¬ Named { netA with procs := [⟨0, "Process_0", 1, 0, [], []⟩] } := by
  intro h
  exact absurd (h.2 _ (List.mem_singleton.2 rfl)) (by decide)

end Verif.Cache
