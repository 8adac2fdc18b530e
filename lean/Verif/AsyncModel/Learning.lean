import Verif.AsyncModel.Props

/-!
# C127: what changes when a process model is made asynchronous

`PyLoihiModelToPyAsyncModel` (core/model/py/model.py:687-777) turns a process model for the Loihi protocol into an asynchronous one. Here:
which of its methods are called in which order, on the Loihi protocol by a runtime service with any number of process models
(model.py:381-460; runtime_services/runtime_service.py:193-262, 330-388) and after the conversion (`Verif.AsyncModel.Model`). Guards are arbitrary
functions of the time step, as for learning connections (connection.py:428) and the models in proc/.
No pauses, stops or errors.
-/

namespace Verif.AsyncModel

/-- The guards `pre_guard`, `lrn_guard`, `post_guard` of a process model. -/
structure Guards where
  pre : Nat → Bool
  lrn : Nat → Bool
  post : Nat → Bool

/-- A call of `run_spk`, `run_pre_mgmt`, `run_lrn` or `run_post_mgmt`, with the time step. -/
inductive Run where
  | spk (t : Nat)
  | pre (t : Nat)
  | lrn (t : Nat)
  | post (t : Nat)
deriving DecidableEq, Repr

def Run.time : Run → Nat
  | .spk t => t
  | .pre t => t
  | .lrn t => t
  | .post t => t

/-- Answers of a process model (model.py:311-335). -/
inductive Answer where
  | done
  | reqPre
  | reqLrn
  | reqPost
deriving DecidableEq

/-- Phases after the spiking phase. -/
inductive Ph where
  | pre
  | lrn
  | post
deriving DecidableEq, Repr

/-- `_spike`: the answer to the command SPK (model.py:389-408) -/
def spikeAnswer (g : Guards) (t : Nat) : Answer :=
  if g.lrn t && g.pre t then .reqPre
  else if g.lrn t then .reqLrn
  else if g.post t then .reqPost
  else .done

/-- `_pre_mgmt`, `_lrn`, `_post_mgmt`: the answer (model.py:411-451) -/
def phaseAnswer (g : Guards) (t : Nat) : Ph → Answer
  | .pre => .reqLrn
  | .lrn => if g.post t then .reqPost else .done
  | .post => .done

/-- ... and what is called. -/
def phaseRuns (g : Guards) (t : Nat) : Ph → List Run
  | .pre => if g.pre t then [.pre t] else []
  | .lrn => if g.lrn t then [.lrn t] else []
  | .post => if g.post t then [.post t] else []

/-- `req_pre_lrn_mgmt`, `req_lrn`, `req_post_lrn_mgmt` of the service. -/
structure Flags where
  pre : Bool
  lrn : Bool
  post : Bool
deriving DecidableEq

/-- `_get_pm_resp` (runtime_service.py:225-252): flags are raised by the answers. -/
def raise (f : Flags) (l : List Answer) : Flags :=
  { pre := f.pre || l.contains .reqPre, lrn := f.lrn || l.contains .reqLrn, post := f.post || l.contains .reqPost }

/-- `_next_phase` (runtime_service.py:193-206): `none`: the time step is over. -/
def nextPhase (f : Flags) : Option (Ph × Flags) :=
  if f.pre then some (.pre, { f with pre := false })
  else if f.lrn then some (.lrn, { f with lrn := false })
  else if f.post then some (.post, { f with post := false })
  else none

/-- The phases of a time step after SPK (runtime_service.py:330-388), at most `fuel`, with the flags left at the end. -/
def phases (models : List Guards) (t : Nat) : Nat → Flags → List Ph × Flags
  | 0, f => ([], f)
  | fuel + 1, f =>
    match nextPhase f with
    | none => ([], f)
    | some (ph, f) =>
      let r := phases models t fuel (raise f (models.map fun g => phaseAnswer g t ph))
      (ph :: r.1, r.2)

/-- A time step: the phases it has. -/
def stepPhases (models : List Guards) (t fuel : Nat) : List Ph × Flags :=
  phases models t fuel (raise ⟨false, false, false⟩ (models.map fun g => spikeAnswer g t))

/-- The methods of the process model with guards `g` called in a time step, in order. -/
def lockstepRuns (models : List Guards) (g : Guards) (t : Nat) : List Run :=
  .spk t :: (stepPhases models t 3).1.flatMap (phaseRuns g t)

/-- Calls of the converted model as calls of methods. -/
def Call.run : Call → Run
  | .pre t => .pre t
  | .spk t => .spk t
  | .post t => .post t

/-- Everything the converted model calls in its first run, of `n` time steps (`Verif.AsyncModel.runAsync`). -/
def convertedRuns (g : Guards) (n : Nat) : List Run := (runAsync ⟨g.pre, g.post⟩ n n init).2.calls.map Call.run

/-! ### What is called -/

theorem contains_map (models : List Guards) (f : Guards → Answer) (a : Answer) :
    (models.map f).contains a = models.any fun g => decide (f g = a) := by
  induction models with
  | nil => rfl
  | cons g l ih =>
    rw [List.map_cons, List.contains_cons, ih, List.any_cons]
    congr 1
    by_cases h : f g = a
    · simp [h]
    · simp [h, Ne.symm h]

theorem any_false {l : List Guards} {f : Guards → Bool} : l.any f = false ↔ ∀ g ∈ l, f g = false := by
  simp

/-- The phases of a time step: pre-management (then learning) if some model wants to learn and to manage; learning if some model wants to;
post-management if some model wants to. Three phases are enough: no request is left. -/
theorem stepPhases_eq (models : List Guards) (t k : Nat) :
    stepPhases models t (k + 3) =
      ((if models.any fun g => g.lrn t && g.pre t then [.pre, .lrn] else if models.any fun g => g.lrn t then [.lrn] else []) ++
        (if models.any fun g => g.post t then [.post] else []), ⟨false, false, false⟩) := by
  have hpre : (models.any fun g => decide (spikeAnswer g t = .reqPre)) = models.any fun g => g.lrn t && g.pre t := by
    congr 1; funext g; unfold spikeAnswer
    cases g.lrn t <;> cases g.pre t <;> cases g.post t <;> rfl
  have hlrn : (models.any fun g => decide (spikeAnswer g t = .reqLrn)) = models.any fun g => g.lrn t && !g.pre t := by
    congr 1; funext g; unfold spikeAnswer
    cases g.lrn t <;> cases g.pre t <;> cases g.post t <;> rfl
  have hpost : (models.any fun g => decide (spikeAnswer g t = .reqPost)) = models.any fun g => !g.lrn t && g.post t := by
    congr 1; funext g; unfold spikeAnswer
    cases g.lrn t <;> cases g.pre t <;> cases g.post t <;> rfl
  have hl1 : (models.any fun g => decide ((if g.post t then Answer.reqPost else .done) = .reqPre)) = false := by
    rw [any_false]; intro g _; cases g.post t <;> rfl
  have hl2 : (models.any fun g => decide ((if g.post t then Answer.reqPost else .done) = .reqLrn)) = false := by
    rw [any_false]; intro g _; cases g.post t <;> rfl
  have hl3 : (models.any fun g => decide ((if g.post t then Answer.reqPost else .done) = .reqPost)) = models.any fun g => g.post t := by
    congr 1; funext g; cases g.post t <;> rfl
  have hor : ∀ a : Bool, ((models.any fun g => !g.lrn t && g.post t) || models.any fun g => g.post t) = models.any fun g => g.post t := by
    intro _
    cases h : models.any fun g => g.post t with
    | true => simp
    | false =>
      rw [any_false] at h
      rw [Bool.or_false, any_false]
      intro g hg; simp [h g hg]
  have hor := hor true
  -- after the learning phase
  have after : ∀ k, phases models t (k + 2) ⟨false, true, models.any fun g => !g.lrn t && g.post t⟩ =
      (.lrn :: (if models.any fun g => g.post t then [.post] else []), ⟨false, false, false⟩) := by
    intro k
    rw [phases]
    simp only [nextPhase, raise, contains_map, phaseAnswer, hl1, hl2, hl3, hor, Bool.or_false, Bool.false_eq_true, if_false, if_true]
    cases h : models.any fun g => g.post t with
    | true =>
      rw [phases]
      simp only [nextPhase, raise, contains_map, phaseAnswer, Bool.false_eq_true, if_false, if_true, reduceCtorEq, decide_false]
      cases k with
      | zero => simp [phases]
      | succ k => simp [phases, nextPhase]
    | false => simp [phases, nextPhase]
  unfold stepPhases
  simp only [raise, contains_map, hpre, hlrn, hpost, Bool.false_or]
  cases h1 : models.any fun g => g.lrn t && g.pre t with
  | true =>
    have hne : (models.any fun _ => decide True) = true := by
      simp only [List.any_eq_true] at h1 ⊢
      obtain ⟨g, hg, _⟩ := h1
      exact ⟨g, hg, rfl⟩
    have hno : ∀ a : Answer, a ≠ .reqLrn → (models.any fun _ => decide (Answer.reqLrn = a)) = false := by
      intro a ha; rw [any_false]; intro g _; simp [Ne.symm ha]
    rw [phases]
    simp only [nextPhase, raise, contains_map, phaseAnswer, if_true, hno .reqPre (by decide), hno .reqPost (by decide), Bool.or_false]
    rw [hne, Bool.or_true, after k]
    rfl
  | false =>
    cases h2 : models.any fun g => g.lrn t with
    | true =>
      have h3 : (models.any fun g => g.lrn t && !g.pre t) = true := by
        rw [any_false] at h1
        simp only [List.any_eq_true] at h2 ⊢
        obtain ⟨g, hg, h⟩ := h2
        have := h1 g hg
        rw [h, Bool.true_and] at this
        exact ⟨g, hg, by simp [h, this]⟩
      rw [h3, after (k + 1)]
      simp
    | false =>
      rw [any_false] at h2
      have h3 : (models.any fun g => g.lrn t && !g.pre t) = false := by
        rw [any_false]; intro g hg; simp [h2 g hg]
      have h4 : (models.any fun g => !g.lrn t && g.post t) = models.any fun g => g.post t := by
        apply Bool.eq_iff_iff.2
        simp only [List.any_eq_true]
        constructor
        · rintro ⟨g, hg, h⟩; exact ⟨g, hg, by simpa [h2 g hg] using h⟩
        · rintro ⟨g, hg, h⟩; exact ⟨g, hg, by simp [h2 g hg, h]⟩
      rw [h3, h4, phases]
      cases h5 : models.any fun g => g.post t with
      | true =>
        simp only [nextPhase, raise, contains_map, phaseAnswer, Bool.false_eq_true, if_false, if_true, reduceCtorEq, decide_false]
        simp [phases, nextPhase]
      | false => simp [nextPhase]

/-- **C127.** On the Loihi protocol, a process model is called in every time step: `run_spk`; then `run_pre_mgmt` if it asks for it and some
model of its service wants to learn and to manage; `run_lrn` if it asks for it; `run_post_mgmt` if it asks for it. -/
theorem C127_lockstep_runs (models : List Guards) (g : Guards) (hg : g ∈ models) (t : Nat) :
    lockstepRuns models g t =
      [.spk t] ++ (if g.pre t = true ∧ ∃ g' ∈ models, g'.lrn t = true ∧ g'.pre t = true then [.pre t] else []) ++
        (if g.lrn t then [.lrn t] else []) ++ (if g.post t then [.post t] else []) := by
  have e1 : (∃ g' ∈ models, g'.lrn t = true ∧ g'.pre t = true) ↔ (models.any fun g => g.lrn t && g.pre t) = true := by
    simp
  unfold lockstepRuns
  rw [stepPhases_eq models t 0]
  simp only [e1]
  have hp : g.post t = true → (models.any fun g => g.post t) = true := fun h => by
    simp only [List.any_eq_true]; exact ⟨g, hg, h⟩
  have hl : g.lrn t = true → (models.any fun g => g.lrn t) = true := fun h => by
    simp only [List.any_eq_true]; exact ⟨g, hg, h⟩
  generalize (models.any fun g => g.post t) = a at hp
  generalize (models.any fun g => g.lrn t) = b at hl
  generalize (models.any fun g => g.lrn t && g.pre t) = c
  cases c <;> cases b <;> cases a <;> cases h1 : g.pre t <;> cases h2 : g.lrn t <;> cases h3 : g.post t <;>
    simp_all [phaseRuns]

/-- **C127.** The converted model calls in every time step `run_pre_mgmt` if its guard says so, *then* `run_spk`, then `run_post_mgmt` if
its guard says so. -/
theorem C127_converted_runs (g : Guards) (n : Nat) :
    convertedRuns g n = (List.range' 1 n).flatMap fun t =>
      (if g.pre t then [.pre t] else []) ++ [.spk t] ++ (if g.post t then [.post t] else []) := by
  unfold convertedRuns
  rw [C14_first_run_partial, List.map_flatMap]
  congr 1
  funext t
  simp only [stepCalls]
  by_cases h : g.pre t = true <;> by_cases h' : g.post t = true <;> simp [h, h', Call.run]

/-- **C127, finding.** A converted model never calls `run_lrn`: a learning connection made asynchronous does not learn. On the Loihi
protocol it is called in exactly the time steps in which its guard says so. -/
theorem C127_converted_never_learns (g : Guards) (n t : Nat) :
    .lrn t ∉ convertedRuns g n ∧ ∀ models, g ∈ models → (.lrn t ∈ lockstepRuns models g t ↔ g.lrn t = true) := by
  constructor
  · rw [C127_converted_runs]
    intro h
    obtain ⟨s, _, h⟩ := List.mem_flatMap.1 h
    revert h
    cases g.pre s <;> cases g.post s <;> simp
  · intro models hg
    rw [C127_lockstep_runs models g hg]
    cases g.lrn t <;> cases g.post t <;> simp <;> split <;> simp

theorem filter_time (f : Nat → List Run) (hf : ∀ t, ∀ c ∈ f t, c.time = t) : ∀ (l : List Nat) (t : Nat), l.Nodup → t ∈ l →
    (l.flatMap f).filter (fun c => decide (c.time = t)) = f t := by
  have hself : ∀ s t, (f s).filter (fun c => decide (c.time = t)) = if s = t then f t else [] := by
    intro s t
    split
    · rename_i h
      subst h
      exact List.filter_eq_self.2 fun c hc => decide_eq_true (hf _ c hc)
    · rename_i h
      apply List.filter_eq_nil_iff.2
      intro c hc
      rw [hf s c hc]
      simp [h]
  intro l
  induction l with
  | nil => intro t _ h; cases h
  | cons s l ih =>
    intro t hn ht
    rw [List.nodup_cons] at hn
    rw [List.flatMap_cons, List.filter_append, hself]
    by_cases h : s = t
    · subst h
      rw [if_pos rfl]
      have : (l.flatMap f).filter (fun c => decide (c.time = s)) = [] := by
        apply List.filter_eq_nil_iff.2
        intro c hc
        obtain ⟨u, hu, hc⟩ := List.mem_flatMap.1 hc
        rw [hf u c hc]
        have : u ≠ s := fun h => hn.1 (h ▸ hu)
        simp [this]
      rw [this, List.append_nil]
    · rw [if_neg h, List.nil_append]
      exact ih t hn.2 ((List.mem_cons.1 ht).resolve_left (Ne.symm h))

/-- **C127.** The conversion keeps the sequence of calls of the first `n` time steps exactly if in these time steps the model neither learns
nor asks for pre-management. -/
theorem C127_same_runs_iff (models : List Guards) (g : Guards) (hg : g ∈ models) (n : Nat) :
    (List.range' 1 n).flatMap (lockstepRuns models g) = convertedRuns g n ↔ ∀ t, 1 ≤ t → t ≤ n → g.lrn t = false ∧ g.pre t = false := by
  rw [C127_converted_runs]
  constructor
  · intro h t h1 h2
    have hmem : t ∈ List.range' 1 n := by rw [List.mem_range'_1]; omega
    have := congrArg (List.filter fun c => decide (c.time = t)) h
    rw [filter_time _ (fun t c hc => ?_) _ t List.nodup_range' hmem, filter_time _ (fun t c hc => ?_) _ t List.nodup_range' hmem,
      C127_lockstep_runs models g hg] at this
    · revert this
      cases g.lrn t <;> cases g.pre t <;> cases g.post t <;> simp
    · revert hc
      cases g.pre t <;> cases g.post t <;> simp <;> (try rintro (rfl | rfl | rfl)) <;> (try rintro (rfl | rfl)) <;> (try rintro rfl) <;> rfl
    · rw [C127_lockstep_runs models g hg] at hc
      simp only [List.mem_append, List.mem_singleton] at hc
      rcases hc with ((rfl | hc) | hc) | hc
      · rfl
      all_goals split at hc
      all_goals first
        | (rw [List.mem_singleton] at hc; subst hc; rfl)
        | cases hc
  · intro h
    rw [List.flatMap_def, List.flatMap_def]
    congr 1
    apply List.map_congr_left
    intro t ht
    rw [List.mem_range'_1] at ht
    obtain ⟨h1, h2⟩ := h t (by omega) (by omega)
    rw [C127_lockstep_runs models g hg, h1, h2]
    simp

/-- A learning connection with epoch 2 next to a Monitor: on the Loihi protocol it learns in steps 2 and 4, converted in none. -/
theorem C127_example_learning :
    let conn : Guards := ⟨fun _ => false, fun t => t % 2 == 0, fun _ => false⟩
    let monitor : Guards := ⟨fun _ => false, fun _ => false, fun _ => true⟩
    (List.range' 1 4).flatMap (lockstepRuns [conn, monitor] conn) = [.spk 1, .spk 2, .lrn 2, .spk 3, .spk 4, .lrn 4] ∧
    convertedRuns conn 4 = [.spk 1, .spk 2, .spk 3, .spk 4] ∧
    (List.range' 1 2).flatMap (lockstepRuns [conn, monitor] monitor) = convertedRuns monitor 2 ∧
    (stepPhases [conn, monitor] 2 3).1 = [.lrn, .post] := by decide

end Verif.AsyncModel
