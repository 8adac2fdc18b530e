import Verif.ProcApi.Misc
import Verif.ProcApi.CollProps

/-
C62 save and load, C63 monitor, C65 decorators, C66 SLURM environment.
-/

namespace Verif.ProcApi

/-! ### C62 -/

/-- What a history of saves should leave: the last successful save whose file name is `f`; a failed
one leaves an unusable file. -/
structure SaveOp where
  processes : Nat
  name : String
  executable : Option Nat
  dumpOk : Bool := true
deriving DecidableEq, Repr

def runSaves (fs : FS) (ops : List SaveOp) : FS :=
  ops.foldl (fun fs o => save fs o.processes o.name o.executable o.dumpOk) fs

/-- Loading the name that was written returns what was saved, for every name and every history
before it, until a later save uses the same file. -/
theorem C62_load_written_name (fs : FS) (before after : List SaveOp) (o : SaveOp) (ho : o.dumpOk = true)
    (h : ∀ a ∈ after, saveName a.name ≠ saveName o.name) :
    load (runSaves fs (before ++ o :: after)) (saveName o.name) = .ok o.processes o.executable := by
  unfold runSaves
  rw [List.foldl_append, List.foldl_cons]
  have key : ∀ (l : List SaveOp) (fs' : FS), (∀ a ∈ l, saveName a.name ≠ saveName o.name) →
      (l.foldl (fun fs o => save fs o.processes o.name o.executable o.dumpOk) fs') (saveName o.name)
        = fs' (saveName o.name) := by
    intro l
    induction l with
    | nil => intros; rfl
    | cons a l ih =>
      intro fs' hl
      rw [List.foldl_cons, ih _ (fun b hb => hl b (by simp [hb]))]
      unfold save FS.write
      rw [if_neg (fun e => hl a (by simp) e.symm)]
  unfold load
  rw [key after _ h]
  simp [save, FS.write, ho]

/-- **C62 for names that contain a dot**: `load(name)` returns what `save(name)` wrote.  Missing:
names without a dot, for which it is false (`C62_no_dot_not_found`). -/
theorem C62_load_finds_save_partial (fs : FS) (p : Nat) (n : String) (e : Option Nat)
    (h : '.' ∈ n.toList) : load (save fs p n e true) n = .ok p e := by
  have h1 : saveName n = n := by unfold saveName; rw [if_pos h]
  have := C62_load_written_name fs [] [] ⟨p, n, e, true⟩ rfl (by simp)
  rw [h1] at this
  exact this

/-- Saving touches no other file. -/
theorem C62_other_files_untouched (fs : FS) (p : Nat) (n m : String) (e : Option Nat) (ok : Bool)
    (h : m ≠ saveName n) : (save fs p n e ok) m = fs m := by
  unfold save FS.write
  rw [if_neg h]

/-- **Finding.** For every name without a dot, `load(name)` does not see what `save(name)` wrote: it
fails, or returns whatever an older file of that very name holds.  The documentation of `load`
promises the extension is added. -/
theorem C62_no_dot_not_found (fs : FS) (p : Nat) (n : String) (e : Option Nat) (ok : Bool)
    (h : '.' ∉ n.toList) :
    load (save fs p n e ok) n = load fs n ∧ (fs n = none → load (save fs p n e ok) n = .osError) := by
  have hne : n ≠ saveName n := by
    unfold saveName
    rw [if_neg h]
    intro e
    have := congrArg (fun s => s.toList.length) e
    simp [String.toList_append] at this
  have hs := C62_other_files_untouched fs p n n e ok hne
  unfold load
  rw [hs]
  exact ⟨rfl, fun h => by rw [h]⟩

/-- **Finding.** A save that fails while pickling destroys the earlier file of that name. -/
theorem C62_failed_save_destroys (fs : FS) (p : Nat) (n : String) (e : Option Nat) :
    load (save fs p n e false) (saveName n) = .badFile := by
  simp [load, save, FS.write]

example : load (save (fun _ => none) 3 "net.pickle" (some 5) true) "net.pickle" = .ok 3 (some 5) ∧
    load (save (fun _ => none) 3 "net" (some 5) true) "net" = .osError ∧
    load (save (fun _ => none) 3 "net" (some 5) true) "net.pickle" = .ok 3 (some 5) := by
  decide +kernel

/-! ### C63 -/

/-- A single probe compiles; a second one, of whatever kind, is rejected by the compiler. -/
theorem C63_at_most_one_probe (probes : List (Target × Nat)) :
    (probes.foldl (fun m p => m.probe p.1 p.2) Mon.init).compiles ↔ probes.length ≤ 1 := by
  constructor
  · intro h
    by_contra hlen
    obtain ⟨p, q, rest, rfl⟩ : ∃ p q rest, probes = p :: q :: rest := by
      match probes, hlen with
      | p :: q :: rest, _ => exact ⟨p, q, rest, rfl⟩
      | [], h => simp at h
      | [_], h => simp at h
    -- index 1 exists after the second probe and is never removed
    have mono : ∀ (l : List (Target × Nat)) (m : Mon),
        ((m.rows1 1).isSome = true ∨ (m.rows2 1).isSome = true) →
        (((l.foldl (fun m p => m.probe p.1 p.2) m).rows1 1).isSome = true ∨
          ((l.foldl (fun m p => m.probe p.1 p.2) m).rows2 1).isSome = true) := by
      intro l
      induction l with
      | nil => intro m h; exact h
      | cons a l ih =>
        intro m h
        rw [List.foldl_cons]
        apply ih
        rcases h with h | h
        · left
          simp only [Mon.probe, upd]
          split <;> simp [h]
        · right
          simp only [Mon.probe, upd]
          split <;> simp [h]
    have h2 := mono rest ((Mon.init.probe p.1 p.2).probe q.1 q.2) (by
      cases hv : p.1.isVar
      · right; simp [Mon.probe, upd, Mon.init, hv]
      · left; simp [Mon.probe, upd, Mon.init, hv])
    have h3 := h 1 (by omega)
    simp only [List.foldl_cons] at h3
    rw [h3.1, h3.2] at h2
    simp at h2
  · intro hlen i hi
    match probes, hlen with
    | [], _ => simp [Mon.init, Nat.ne_of_gt hi]
    | [p], _ => simp [Mon.probe, upd, Mon.init, Nat.ne_of_gt hi]

theorem setRow_replicate (f : Nat → Int) (T steps : Nat) (h : T < steps) :
    setRow ((List.range T).map (fun k => f (k + 1)) ++ List.replicate (steps - T) 0) (T + 1) (f (T + 1))
      = some ((List.range (T + 1)).map (fun k => f (k + 1)) ++ List.replicate (steps - (T + 1)) 0) := by
  unfold setRow
  rw [if_pos (by simp; omega)]
  congr 1
  rw [Nat.add_sub_cancel, List.set_append]
  simp only [List.length_map, List.length_range, Nat.lt_irrefl, if_false, Nat.sub_self]
  have : steps - T = (steps - (T + 1)) + 1 := by omega
  rw [this, List.replicate_succ, List.set_cons_zero, List.range_succ, List.map_append, List.append_assoc]
  rfl

theorem single_run (t : Target) (steps : Nat) (val : Target → Nat → Int) (T : Nat) (h : T ≤ steps) :
    (Mon.init.probe t steps).run val T = some
      (if t.isVar then ⟨(List.range T).map (fun k => val t (k + 1)) ++ List.replicate (steps - T) 0,
          List.replicate steps 0⟩
       else ⟨List.replicate steps 0,
          (List.range T).map (fun k => val t (k + 1)) ++ List.replicate (steps - T) 0⟩) := by
  induction T with
  | zero =>
    simp only [Mon.run, Mon.start, Mon.probe, upd, Mon.init, if_true, Option.getD_some,
      List.range_zero, List.map_nil, List.nil_append, Nat.sub_zero]
    split <;> rfl
  | succ T ih =>
    simp only [Mon.run]
    rw [ih (by omega), Option.bind_some]
    cases hv : t.isVar
    · simp only [Mon.step, Mon.probe, Mon.init, hv, Bool.false_eq_true, if_false, List.nil_append,
        List.take_zero, List.foldl_nil, upd, if_true, Nat.zero_add, List.take_succ_cons,
        List.foldl_cons, Option.bind_some]
      rw [setRow_replicate (val t) T steps (by omega)]
      rfl
    · simp only [Mon.step, Mon.probe, Mon.init, hv, if_true, List.nil_append,
        List.take_zero, List.foldl_nil, upd, Nat.zero_add, List.take_succ_cons,
        List.foldl_cons, Option.bind_some]
      rw [setRow_replicate (val t) T steps (by omega)]
      rfl

/-- **C63 for one probe**: after `T ≤ num_steps` steps, row `k` of the recorded data is the value of
the probed Var or OutPort in step `k + 1`, and the rows of steps not yet run are 0.  Missing: several
probes, which the compiler rejects (`C63_at_most_one_probe`). -/
theorem C63_single_probe_partial (t : Target) (steps T : Nat) (h : T ≤ steps)
    (val : Target → Nat → Int) :
    ∃ r arr, (Mon.init.probe t steps).run val T = some r ∧
      lookupData ((Mon.init.probe t steps).getData r) t.proc t.name = some (some arr) ∧
      arr.length = steps ∧ (∀ k, k < T → arr[k]? = some (val t (k + 1))) ∧
      (∀ k, T ≤ k → k < steps → arr[k]? = some 0) := by
  refine ⟨_, (List.range T).map (fun k => val t (k + 1)) ++ List.replicate (steps - T) 0,
    single_run t steps val T h, ?_, by simp; omega, ?_, ?_⟩
  · cases hv : t.isVar
    · simp [Mon.getData, Mon.probe, Mon.init, hv, upd, putData, lookupData, dictGet_set_self]
    · simp [Mon.getData, Mon.probe, Mon.init, hv, upd, putData, lookupData, dictGet_set_self]
  · intro k hk
    rw [List.getElem?_append_left (by simpa using hk)]
    simp [hk]
  · intro k h1 h2
    rw [List.getElem?_append_right (by simpa using h1)]
    simp only [List.length_map, List.length_range, List.getElem?_replicate]
    rw [if_pos (by omega)]

example : (Mon.init.probe ⟨"lif", "v", true⟩ 3).run (fun _ t => 10 * t) 2 = some ⟨[10, 20, 0], [0, 0, 0]⟩ := by
  decide

/-- **Finding.** Running for longer than `num_steps` raises (`IndexError`) in the first extra step;
recording does not just stop. -/
theorem C63_too_many_steps (t : Target) (steps : Nat) (val : Target → Nat → Int) :
    (Mon.init.probe t steps).run val (steps + 1) = none := by
  simp only [Mon.run]
  rw [single_run t steps val steps (Nat.le_refl _), Option.bind_some]
  cases hv : t.isVar
  · simp [Mon.step, Mon.probe, Mon.init, hv, upd, setRow]
  · simp [Mon.step, Mon.probe, Mon.init, hv, upd, setRow]

/-- **Finding.** A second probe of the same process removes the first entry from `monitor.data`. -/
theorem C63_second_probe_wipes_data :
    lookupData ((Mon.init.probe ⟨"p", "v", true⟩ 3).probe ⟨"p", "s_out", false⟩ 3).data "p" "v" = none := by
  decide +kernel

end Verif.ProcApi
