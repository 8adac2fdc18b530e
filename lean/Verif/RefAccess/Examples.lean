import Verif.RefAccess.Theorems

/-!
# C113: concrete systems, and what goes wrong without the discipline
-/

namespace Verif.RefAccess

open Verif.EndToEnd (Phase Flags noFlags nextPhase)

/-- A system in which nothing is done. -/
def idleSys (n ne : Nat) (src dst : Nat → Nat) : Sys (Nat × Nat) Nat where
  n := n
  ne := ne
  src := src
  dst := dst
  rd _ s := s.1
  wr _ v s := (v, s.2)
  cap _ := 1
  init i := (i, 0)
  spk _ s := .ret (s.1, s.2 + s.1)
  pre _ s := .ret s
  lrn _ s := .ret s
  post _ s := .ret s
  preGuard _ _ := false
  lrnGuard _ _ := false
  postGuard _ _ := false

/-- Model 0 reads the Var of model 1 and writes twice of it into the Var of model 2, in POST_MGMT. Model 2 counts in SPK. -/
def demo : Sys (Nat × Nat) Nat :=
  { idleSys 3 2 (fun _ => 0) (fun e => e + 1) with
    spk := fun i s => if i = 1 then .ret (s.1 + 1, s.2) else .ret (s.1, s.2 + s.1)
    post := fun i s => if i = 0 then .read 0 fun v => .write 1 (2 * v) (.wait 1 (.ret (v, s.2))) else .ret s
    postGuard := fun i _ => i == 0 }

/-- It keeps to the discipline. -/
theorem demo_tidy : Tidy demo id id (fun e => e = 1) where
  some_model := by decide
  src_lt := by decide
  dst_lt e he := by show e + 1 < 3; have : e < 2 := he; omega
  room _ := Nat.le_refl 1
  own i ph s := by
    cases ph with
    | spk => by_cases h : i = 1 <;> simp [duty, demo, h, Prog.Own]
    | pre => simp [duty, demo, idleSys, Prog.Own]
    | lrn => simp [duty, demo, idleSys, Prog.Own]
    | post => by_cases h : i = 0 <;> simp [duty, demo, idleSys, h, Prog.Own, Prog.wait]
    | host => trivial
  noRef_spk i s := by by_cases h : i = 1 <;> simp [demo, h, Prog.NoRef]
  noRef_lrn i s := trivial
  waits i ph s := by
    cases ph with
    | spk => by_cases h : i = 1 <;> simp [duty, demo, h, Prog.Waits]
    | pre => simp [duty, demo, idleSys, Prog.Waits]
    | lrn => simp [duty, demo, idleSys, Prog.Waits]
    | post => by_cases h : i = 0 <;> simp [duty, demo, h, Prog.Waits, Prog.wait]
    | host => simp [duty, Prog.Waits]
  alone_read e e' v s he he' hw hne hd := by
    simp only [demo, idleSys] at hd; omega
  alone_write e e' v v' s he he' hw hw' hne hd := by omega

/-- The reference gets to the end of two runs (two steps and one step). -/
theorem demo_runs : (runAll demo (fun _ _ => [2, 1, 0]) [2, 1]).map (fun r => (r.1 0, r.1 1, r.1 2)) = some ((4, 5), (4, 0), (8, 12)) := by
  decide +kernel

/-- So every schedule of the system that cannot be continued ends with these values. -/
theorem demo_outcome (ls : List (Nat × Nat)) (h : Stuck (net demo) (exec (net demo) (initial demo [2, 1]) ls)) :
    Finished (exec (net demo) (initial demo [2, 1]) ls) ∧ varsOf (exec (net demo) (initial demo [2, 1]) ls) 2 = some (8, 12) := by
  have hr := demo_runs
  rw [Option.map_eq_some_iff] at hr
  obtain ⟨r, h1, h2⟩ := hr
  simp only [Prod.mk.injEq] at h2
  obtain ⟨a, b, _⟩ := (C113_outcome demo_tidy _ _ h1).2.2 ls h
  exact ⟨a, by rw [b]; exact congrArg some h2.2.2⟩

/-- Accesses of `demo` have no circles. -/
theorem demo_finishes (runs : List Nat) :
    (∃ N, ∀ ls, effective (net demo) (initial demo runs) ls ≤ N) ∧
    ∀ ls, (∃ more, Stuck (net demo) (exec (net demo) (initial demo runs) (ls ++ more))) ∧
      (Stuck (net demo) (exec (net demo) (initial demo runs) ls) → Finished (exec (net demo) (initial demo runs) ls)) := by
  refine C113_no_circle_finishes demo_tidy (rank := fun i => if i = 0 then 1 else 0) (fun e he => by simp [demo, idleSys]) (fun i s => ?_) (fun i s => ?_)
    (fun _ _ => [0, 1, 2]) (fun σ => ?_) (fun σ => ?_) runs
  · exact trivial
  · by_cases h : i = 0 <;> simp [demo, h, Prog.NoData, Prog.wait]
  · refine ⟨_, if_pos ?_⟩
    intro i hi
    have hi : i < 3 := hi
    match i, hi with
    | 0, _ => rfl
    | 1, _ => rfl
    | 2, _ => rfl
  · refine ⟨_, if_pos ?_⟩
    intro i hi
    have hi : i < 3 := hi
    match i, hi with
    | 0, _ => rfl
    | 1, _ => rfl
    | 2, _ => rfl

/-! ### Two models that read each other's Var -/

def mutual2 : Sys (Nat × Nat) Nat :=
  { idleSys 2 2 (fun e => e) (fun e => 1 - e) with
    post := fun i s => if i < 2 then .read i fun v => .ret (v, s.2) else .ret s
    postGuard := fun _ _ => true }

theorem mutual2_tidy : Tidy mutual2 id id (fun _ => False) where
  some_model := by decide
  src_lt e he := he
  dst_lt e he := by show 1 - e < 2; omega
  room _ := Nat.le_refl 1
  own i ph s := by
    cases ph with
    | post => by_cases h : i < 2 <;> simp [duty, mutual2, idleSys, h, Prog.Own]
    | _ => simp [duty, mutual2, idleSys, Prog.Own]
  noRef_spk i s := trivial
  noRef_lrn i s := trivial
  waits i ph s := by
    cases ph with
    | post => by_cases h : i < 2 <;> simp [duty, mutual2, idleSys, h, Prog.Waits]
    | _ => simp [duty, mutual2, idleSys, Prog.Waits]
  alone_read e e' v s he he' hw hne hd := hw.elim
  alone_write e e' v v' s he he' hw hw' hne hd := hw.elim

/-- They never get past the first time step. -/
theorem C113_mutual_reads_hang (t : Nat) (ls : List (Nat × Nat)) : ¬ Finished (exec (net mutual2) (initial mutual2 [t + 1]) ls) := by
  have h : ∃ ρ, atPost mutual2 (fun _ _ => [0, 1]) (mutual2.init, fun _ => []) = some ρ := by
    rw [← Option.isSome_iff_exists]; decide +kernel
  obtain ⟨ρ, hρ⟩ := h
  refine C113_circle_never_finishes mutual2_tidy (fun _ _ => [0, 1]) [t + 1] (k := 0) (by simp) rfl (ph := .post) (.inr ⟨rfl, hρ⟩) [] (C := fun i => i < 2)
    (i0 := 0) (by decide) ?_ ls
  intro i hi
  refine ⟨i, by show 1 - i < 2; omega, .inl ⟨fun v => .ret (v, (ρ.1 i).2), ?_⟩⟩
  show (if i < 2 then some (duty mutual2 .post i (ρ.1 i)) else none) = _
  rw [if_pos hi]
  show some (if i < 2 then Prog.read i _ else _) = _
  rw [if_pos hi]

/-- `Finished`, for evaluation. -/
def isFinished (s : St Ch (Proc (Nat × Nat) Nat) (Msg Nat)) : Bool :=
  match s.q 0 with
  | .svc ⟨.idle, _, []⟩ => true
  | _ => false

theorem isFinished_iff (s : St Ch (Proc (Nat × Nat) Nat) (Msg Nat)) : isFinished s = true ↔ Finished s := by
  unfold isFinished Finished
  constructor
  · intro h
    split at h
    · rename_i f hq; exact ⟨f, hq⟩
    · cases h
  · rintro ⟨f, hf⟩
    rw [hf]

/-! ### Without the discipline -/

/-- Model 0 writes into the Var of model 1 in POST_MGMT and does not wait. -/
def noWait : Sys (Nat × Nat) Nat :=
  { idleSys 2 1 (fun _ => 0) (fun _ => 1) with
    init := fun _ => (0, 0)
    post := fun i s => if i = 0 then .write 0 7 (.ret s) else .ret s
    postGuard := fun i _ => i == 0 }

/-- The schedule in which everybody does what it can, in a fixed order of preference. -/
def rounds (l : List (Nat × Nat)) (k : Nat) : List (Nat × Nat) := (List.replicate k l).flatten

/-- **C113 (why `wait`).** Whether model 1 sees the new value in the next time step depends on timing. -/
theorem C113_write_without_wait_races : ∃ ls ls', Stuck (net noWait) (exec (net noWait) (initial noWait [2]) ls) ∧
    Stuck (net noWait) (exec (net noWait) (initial noWait [2]) ls') ∧
    varsOf (exec (net noWait) (initial noWait [2]) ls) 1 = some (7, 7) ∧ varsOf (exec (net noWait) (initial noWait [2]) ls') 1 = some (7, 0) := by
  refine ⟨rounds [(2, 1), (1, 0), (2, 1), (2, 0), (0, 0)] 40, rounds [(0, 0), (2, 0), (1, 0)] 40 ++ rounds [(2, 1), (1, 0), (2, 1), (2, 0), (0, 0)] 20, stuck_of ?_, stuck_of ?_, ?_, ?_⟩ <;>
    decide +kernel

/-- Model 0 reads the Var of model 1 in SPK, from the second time step on; model 1 asks for POST_MGMT. -/
def spkRead : Sys (Nat × Nat) Nat :=
  { idleSys 2 1 (fun _ => 0) (fun _ => 1) with
    init := fun i => (i, 0)
    spk := fun i s => if i = 0 ∧ s.2 = 1 then .read 0 fun v => .ret (v, 2) else .ret (s.1, s.2 + 1)
    postGuard := fun i _ => i == 1 }

/-- **C113 (why management phases).** Whether the second time step ends depends on timing. -/
theorem C113_spiking_phase_read_may_hang : ∃ ls ls', Stuck (net spkRead) (exec (net spkRead) (initial spkRead [2]) ls) ∧
    Stuck (net spkRead) (exec (net spkRead) (initial spkRead [2]) ls') ∧
    Finished (exec (net spkRead) (initial spkRead [2]) ls) ∧ ¬ Finished (exec (net spkRead) (initial spkRead [2]) ls') := by
  refine ⟨rounds [(1, 0), (2, 1), (1, 0), (2, 1), (1, 0), (2, 1), (0, 0), (1, 0), (2, 1), (1, 0), (2, 1), (2, 0)] 40, rounds [(0, 0), (2, 0), (1, 0)] 40, stuck_of ?_, stuck_of ?_,
    (isFinished_iff _).1 ?_, fun h => ?_⟩
  · decide +kernel
  · decide +kernel
  · decide +kernel
  · revert h
    rw [← isFinished_iff]
    decide +kernel

/-- Models 0 and 1 both write into the Var of model 2, and wait. -/
def twoWriters : Sys (Nat × Nat) Nat :=
  { idleSys 3 2 (fun e => e) (fun _ => 2) with
    post := fun i s => if i < 2 then .write i (10 + i) (.wait i (.ret s)) else .ret s
    postGuard := fun _ _ => true }

/-- **C113 (why one RefPort).** The last one wins, and who that is depends on timing. -/
theorem C113_two_writers_race : ∃ ls ls', Stuck (net twoWriters) (exec (net twoWriters) (initial twoWriters [1]) ls) ∧
    Stuck (net twoWriters) (exec (net twoWriters) (initial twoWriters [1]) ls') ∧
    varsOf (exec (net twoWriters) (initial twoWriters [1]) ls) 2 = some (10, 2) ∧ varsOf (exec (net twoWriters) (initial twoWriters [1]) ls') 2 = some (11, 2) := by
  refine ⟨rounds [(0, 0), (3, 0), (2, 0), (3, 2), (1, 0), (3, 1)] 40, rounds [(0, 0), (3, 0), (1, 0), (3, 1), (2, 0), (3, 2)] 40, stuck_of ?_, stuck_of ?_, ?_, ?_⟩ <;>
    decide +kernel

end Verif.RefAccess
