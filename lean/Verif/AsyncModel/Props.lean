import Verif.AsyncModel.Model

/-! # C14, C67: asynchronous execution -/

namespace Verif.AsyncModel

variable (g : Guard)

theorem run_exact (num : Nat) : ∀ (k fuel : Nat) (s : St), s.time + k = num + 1 → k ≤ fuel →
    runAsync g num fuel s =
      (true, { time := num + 1, calls := s.calls ++ (List.range' s.time k).flatMap (stepCalls g) }) := by
  intro k
  induction k with
  | zero =>
    intro fuel s h _
    cases fuel <;> simp_all [runAsync] <;> (cases s; simp_all)
  | succ k ih =>
    intro fuel s h hf
    obtain ⟨f, rfl⟩ : ∃ f, fuel = f + 1 := ⟨fuel - 1, by omega⟩
    have h1 : s.time ≠ num + 1 := by omega
    simp only [runAsync, h1, if_false]
    rw [ih f _ (by simp only; omega) (by omega)]
    simp [List.range'_succ]

/-- Specification: what a user expects one time step to call, in this order. -/
def expectedStep (g : Guard) (t : Nat) : List Call :=
  match g.pre t, g.post t with
  | true, true => [.pre t, .spk t, .post t]
  | true, false => [.pre t, .spk t]
  | false, true => [.spk t, .post t]
  | false, false => [.spk t]

theorem stepCalls_expected (t : Nat) : stepCalls g t = expectedStep g t := by
  unfold stepCalls expectedStep
  cases g.pre t <;> cases g.post t <;> rfl

/-- **C14 (partial: the first run), spelled out.** The calls of the first run with `num_steps = n` are those
of the steps 1, ..., n: pre-management if guarded, spiking always, post-management if guarded. -/
theorem C14_first_run_order_partial (n : Nat) :
    (runAsync g n n init).1 = true ∧
    (runAsync g n n init).2.calls = ((List.range' 1 n).map (expectedStep g)).flatten := by
  have := run_exact g n n n init (by simp [init]; omega) (by omega)
  rw [this]
  refine ⟨rfl, ?_⟩
  simp only [init, List.nil_append]
  rw [List.flatMap_def]
  congr 1
  exact List.map_congr_left (fun t _ => stepCalls_expected g t)

/-- **C14 (partial: the first run).** The first run command with `num_steps = n` executes exactly the steps
1, ..., n, in order, each with pre-management (if guarded), spiking, post-management (if guarded). -/
theorem C14_first_run_partial (n : Nat) :
    runAsync g n n init = (true, { time := n + 1, calls := (List.range' 1 n).flatMap (stepCalls g) }) := by
  have := run_exact g n n n init (by simp [init]; omega) (by omega)
  simpa [init] using this

/-- **C14, what is true of later runs.** After `done` steps a run command with `num_steps = n ≥ done` executes
only the steps `done + 1, ..., n`: `num_steps` is taken as a total. -/
theorem C14_later_run_is_total (done n : Nat) (calls : List Call) (h : done ≤ n) :
    runAsync g n (n - done) { time := done + 1, calls := calls } =
      (true, { time := n + 1, calls := calls ++ (List.range' (done + 1) (n - done)).flatMap (stepCalls g) }) :=
  run_exact g n (n - done) (n - done) { time := done + 1, calls := calls } (by simp only; omega) (by omega)

/-- **C14 fails (finding).** A second run with the same number of steps executes nothing at all, for every `n`
(and reports done). -/
theorem C14_second_run_empty (n : Nat) :
    runAsync g n 0 (runAsync g n n init).2 = (true, (runAsync g n n init).2) := by
  rw [C14_first_run_partial]; simp [runAsync]

/-- **C14 fails (finding).** A run with fewer steps than were already executed never ends: after every
number of turns the loop is still running and the model has executed that many further steps. -/
theorem C14_smaller_run_diverges (n : Nat) : ∀ (fuel : Nat) (s : St), n + 1 < s.time →
    (runAsync g n fuel s).1 = false ∧ (runAsync g n fuel s).2.time = s.time + fuel := by
  intro fuel
  induction fuel with
  | zero => intro s h; simp [runAsync]; omega
  | succ f ih =>
    intro s h
    have h1 : s.time ≠ n + 1 := by omega
    simp only [runAsync, h1, if_false]
    have := ih { time := s.time + 1, calls := s.calls ++ stepCalls g s.time } (by simp only; omega)
    exact ⟨this.1, by rw [this.2]; simp only; omega⟩

/-- The hypothesis is met after a run of 5 steps followed by a run of 3 steps. -/
example : (3 : Nat) + 1 < (runAsync ⟨fun _ => false, fun t => t % 2 == 0⟩ 5 5 init).2.time ∧
    (runAsync ⟨fun _ => false, fun t => t % 2 == 0⟩ 3 3 init).2.calls =
      [.spk 1, .spk 2, .post 2, .spk 3] := by decide

/-! ## C67 -/

theorem collect_eq (rs : List Resp) : ∀ s : Svc, collect s rs =
    { s with reqPause := s.reqPause || rs.contains .reqPause, reqStop := s.reqStop || rs.contains .reqStop,
             error := s.error || rs.contains .error } := by
  induction rs with
  | nil => intro s; simp [collect]
  | cons r rs ih =>
    intro s
    have := fun s' => ih s'
    simp only [collect, List.foldl_cons] at this ⊢
    rw [this]
    cases r <;> simp <;> grind

theorem serveRuns_append (s : Svc) (a b : List (List Resp)) :
    serveRuns s (a ++ b) =
      ((serveRuns (serveRuns s a).1 b).1, (serveRuns s a).2 ++ (serveRuns (serveRuns s a).1 b).2) := by
  have acc : ∀ (b : List (List Resp)) (s : Svc) (l : List (List Out)),
      b.foldl (fun (acc : Svc × List (List Out)) rs =>
        let r := handleResps acc.1 rs
        (r.1, acc.2 ++ [r.2])) (s, l) =
      ((serveRuns s b).1, l ++ (serveRuns s b).2) := by
    intro b
    induction b with
    | nil => intro s l; simp [serveRuns]
    | cons x xs ih =>
      intro s l
      simp only [serveRuns, List.foldl_cons]
      rw [ih, ih _ ([] ++ _)]
      simp
  simp only [serveRuns, List.foldl_append]
  rw [show List.foldl (fun (acc : Svc × List (List Out)) rs =>
        let r := handleResps acc.1 rs
        (r.1, acc.2 ++ [r.2])) (s, []) a = serveRuns s a from rfl, acc]
  rfl

/-- **C67 (partial: no pause or stop request or error so far).** As long as every model answers DONE, each run is
reported by exactly one DONE and nothing else, for every sequence of runs and every number of models. -/
theorem C67_done_once_partial (runs : List (List Resp)) (h : ∀ rs ∈ runs, ∀ r ∈ rs, r = .done) :
    serveRuns {} runs = ({}, runs.map fun _ => [.done]) := by
  have key : ∀ (runs : List (List Resp)) (l : List (List Out)), (∀ rs ∈ runs, ∀ r ∈ rs, r = .done) →
      runs.foldl (fun (acc : Svc × List (List Out)) rs =>
        let r := handleResps acc.1 rs
        (r.1, acc.2 ++ [r.2])) (({} : Svc), l) = ({}, l ++ runs.map fun _ => [Out.done]) := by
    intro runs
    induction runs with
    | nil => intro l _; simp
    | cons rs runs ih =>
      intro l h
      have hall : rs.all (· == .done) = true := by
        simp only [List.all_eq_true, beq_iff_eq]; exact h rs (by simp)
      have hc : collect {} rs = {} := by
        rw [collect_eq]
        have : ∀ x, x ≠ Resp.done → rs.contains x = false := by
          intro x hx
          simp only [List.contains_eq_mem, decide_eq_false_iff_not]
          intro hm; exact hx (h rs (by simp) x hm)
        rw [this _ (by simp), this _ (by simp), this _ (by simp)]
        rfl
      have hh : handleResps {} rs = ({}, [.done]) := by
        simp only [handleResps, hc, hall, if_true]; rfl
      simp only [List.foldl_cons, hh]
      have := ih (l ++ [[.done]]) (fun rs' h' => h rs' (by simp [h']))
      simp only at this
      rw [this]
      simp
  have := key runs [] h
  simp only [List.nil_append] at this
  exact this

/-- **C67.** DONE is reported exactly if all models answered DONE. -/
theorem C67_done_iff (s : Svc) (rs : List Resp) :
    Out.done ∈ (handleResps s rs).2 ↔ ∀ r ∈ rs, r = .done := by
  simp only [handleResps, List.mem_append]
  constructor
  · rintro (((h | h) | h) | h)
    · split at h
      · rename_i hh; simpa using hh
      · simp at h
    all_goals (split at h <;> simp at h)
  · intro h
    left; left; left
    rw [if_pos (by simpa using h)]; simp

/-- **C67 fails (finding).** Once a model has asked for a pause, *every* later run in which all models finish
normally is reported as DONE *and* as a pause request, because the service never clears the flag. -/
theorem C67_sticky_pause (before after : List (List Resp)) (rs : List Resp) (h : Resp.reqPause ∈ rs)
    (hafter : ∀ rs ∈ after, ∀ r ∈ rs, r = .done) :
    ∀ out ∈ ((serveRuns (serveRuns {} (before ++ [rs])).1 after).2), Out.done ∈ out ∧ Out.reqPause ∈ out := by
  have sticky : ∀ (s : Svc) (rs : List Resp), s.reqPause = true → (handleResps s rs).1.reqPause = true := by
    intro s rs hs; simp [handleResps, collect_eq, hs]
  have h1 : (serveRuns {} (before ++ [rs])).1.reqPause = true := by
    rw [serveRuns_append]
    simp only [serveRuns, List.foldl_cons, List.foldl_nil, handleResps, collect_eq]
    simp [h]
  generalize (serveRuns {} (before ++ [rs])).1 = s at h1
  clear h
  induction after generalizing s with
  | nil => simp [serveRuns]
  | cons a after ih =>
    have hsplit : serveRuns s (a :: after) = ((serveRuns (handleResps s a).1 after).1,
        [(handleResps s a).2] ++ (serveRuns (handleResps s a).1 after).2) := by
      have := serveRuns_append s [a] after
      simpa [serveRuns] using this
    rw [hsplit]
    intro out ho
    simp only [List.mem_append, List.mem_singleton] at ho
    rcases ho with rfl | ho
    · refine ⟨(C67_done_iff s a).mpr (hafter a (by simp)), ?_⟩
      simp [handleResps, collect_eq, h1]
    · exact ih (fun x hx => hafter x (by simp [hx])) _ (sticky s a h1) out ho

example : (serveRuns {} [[.done, .done], [.done, .reqPause], [.done, .done]]).2 =
    [[.done], [.reqPause], [.done, .reqPause]] := by decide

end Verif.AsyncModel
