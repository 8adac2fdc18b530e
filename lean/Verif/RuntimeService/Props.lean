import Verif.RuntimeService.Exact

/-! # C06-C09: run length, phase order, host-phase access, pause

Vocabulary (see `Model`): `runCmd e n s` is the execution of one `run(RunSteps(n))` command by the service
whose attributes are `s`; `.sent` are the phase commands received by *every* process model of the domain,
each with the time step it belongs to; `.out` are the answers to the runtime; `e` is an arbitrary
environment (number of models, the guards of every model in every phase of every step, the
commands of the runtime visible at the end of each iteration). `serveAll outerInit cs` is the execution of a
whole list of runtime commands. -/

namespace Verif.RuntimeService

theorem finish_sent (l : Loop) : (finish l).sent = l.sent := by
  unfold finish; split <;> (try split) <;> (try split) <;> rfl

theorem finish_status (l : Loop) : (finish l).status = l.status := by
  unfold finish
  split
  · split
    · rfl
    · split <;> rfl
  · rfl

theorem finish_svc (l : Loop) : (finish l).svc = l.svc := by
  unfold finish; split <;> (try split) <;> (try split) <;> rfl

theorem run_linv (e : Env) (n : Nat) (s : Svc) (hs : rank s = 0) :
    LInv n (loop e n (4 * n + 2) (start s)) :=
  linv_loop _ _ (linv_start n s hs)

/-- The exact execution from a service that has no pending request. -/
theorem run_base (e : Env) (h : e.Undisturbed) (n : Nat) (pa st : Bool) :
    let r := runCmd e n (base pa st)
    r.status = .finished ∧ r.svc = base pa st ∧
    r.out = (if pa || st then [] else [.done]) ∧
    r.sent = (List.range' 1 n).flatMap e.stepPhases ++ [(n, .host)] := by
  obtain ⟨h1, h2, h3, h4, h5, h6⟩ := steps_part h n pa st n (start (base pa st)) (4 * n + 2)
    (by simp [start]) rfl rfl (by omega)
  intro r
  refine ⟨?_, ?_, ?_, ?_⟩
  · simp [r, runCmd, finish_status, h1]
  · simp [r, runCmd, finish_svc, h2]
  · have h3' : (loop e n (4 * n + 2) (start (base pa st))).out = [] := h3
    simp only [r, runCmd, finish]
    rw [h1]
    simp only [h2, h3', h4]
    cases pa <;> cases st <;> simp [base] <;> exact h3'
  · simp only [r, runCmd, finish_sent, h6]
    simp [start]

/-! ## C06 -/

theorem stepPhases_spk (e : Env) (t : Nat) :
    (e.stepPhases t).filter (fun x => x.2 == .spk) = [(t, .spk)] := by
  unfold Env.stepPhases
  cases e.preAt t <;> cases e.lrnAt t <;> cases e.postAt t <;> rfl

theorem flatMap_spk (e : Env) (ts : List Nat) :
    (ts.flatMap e.stepPhases).filter (fun x => x.2 == .spk) = ts.map fun t => (t, Phase.spk) := by
  induction ts with
  | nil => rfl
  | cons t ts ih => simp [List.flatMap_cons, stepPhases_spk, ih]

/-- **C06.** Starting from a service with no pending request, `run(n)` with models that neither raise nor ask
for pause/stop: every process model gets the phases of step 1, of step 2, ..., of step `n`, then the
host phase; the runtime gets exactly one answer, DONE; and the service is again without pending request. -/
theorem C06_run_exact (e : Env) (h : e.Undisturbed) (n : Nat) :
    let r := runCmd e n {}
    r.status = .finished ∧ r.svc = {} ∧ r.out = [.done] ∧
    r.sent = (List.range' 1 n).flatMap e.stepPhases ++ [(n, .host)] := by
  obtain ⟨h1, h2, h3, h4⟩ := run_base e h n false false
  exact ⟨h1, h2, h3, h4⟩

/-- **C06.** The spiking phase is executed exactly `n` times by every process model, in the time steps
`1, 2, ..., n` in this order. -/
theorem C06_spiking_phases (e : Env) (h : e.Undisturbed) (n : Nat) :
    ((runCmd e n {}).sent.filter fun x => x.2 == .spk) = (List.range' 1 n).map fun t => (t, Phase.spk) := by
  obtain ⟨_, _, _, h4⟩ := C06_run_exact e h n
  rw [h4, List.filter_append, flatMap_spk]
  simp

/-- Events of one undisturbed run, seen from outside. -/
def runEvents (e : Env) (n : Nat) : List Ev :=
  ((List.range' 1 n).flatMap e.stepPhases).map (fun x => Ev.phase x.2) ++ [.phase .host, .rsp .done]

/-- **C06.** Every sequence of undisturbed runs: the runs are executed one after the other, each
completely, each reported by exactly one DONE; time steps of different runs do not mix. -/
theorem C06_run_sequence (rs : List (Nat × Env)) (h : ∀ r ∈ rs, r.2.Undisturbed) :
    let o := serveAll outerInit (rs.map fun r => .run r.1 r.2)
    o.evs = rs.flatMap (fun r => runEvents r.2 r.1) ∧ o.svc = {} ∧ o.terminated = false := by
  have key : ∀ (rs : List (Nat × Env)) (o : Outer), (∀ r ∈ rs, r.2.Undisturbed) → o.svc = {} →
      o.terminated = false →
      (serveAll o (rs.map fun r => .run r.1 r.2)).evs = o.evs ++ rs.flatMap (fun r => runEvents r.2 r.1) ∧
      (serveAll o (rs.map fun r => .run r.1 r.2)).svc = {} ∧
      (serveAll o (rs.map fun r => .run r.1 r.2)).terminated = false := by
    intro rs
    induction rs with
    | nil => intro o _ h1 h2; simp [serveAll, h1, h2]
    | cons r rs ih =>
      intro o hu h1 h2
      obtain ⟨a1, a2, a3, a4⟩ := C06_run_exact r.2 (hu r (by simp)) r.1
      have hs : serve o (.run r.1 r.2) =
          { o with svc := {}, evs := o.evs ++ runEvents r.2 r.1, hostPhase := true } := by
        simp only [serve, h2, h1, a1, a2, a3, a4, runEvents]
        simp
      simp only [serveAll, List.map_cons, List.foldl_cons, hs]
      have := ih { o with svc := {}, evs := o.evs ++ runEvents r.2 r.1, hostPhase := true }
        (fun x hx => hu x (by simp [hx])) rfl h2
      simp only [serveAll] at this
      simp [this]
  have := key rs outerInit h rfl rfl
  simpa [outerInit] using this

/-- **C06.** For every environment whatsoever (errors, pause/stop requests, commands of the runtime at
any time) a run command ends: the inner loop is left after at most `4n+2` phases. -/
theorem C06_terminates (e : Env) (n : Nat) (s : Svc) (hs : rank s = 0) :
    (runCmd e n s).status ≠ .running := by
  rw [runCmd, finish_status]
  apply loop_done _ _ (linv_start n s hs) rfl
  simp [work, start, hs]

/-- **C06.** For every environment, `run(n)` never executes more than `n` time steps. -/
theorem C06_never_more (e : Env) (n : Nat) (s : Svc) (hs : rank s = 0) :
    (runCmd e n s).sent.countP (fun x => x.2 == .spk) ≤ n := by
  rw [runCmd, finish_sent, (run_linv e n s hs).count]
  exact (run_linv e n s hs).le

/-- Three models; model 0 learns every second step, model 1 asks for post-management, model 2 nothing. -/
def exEnv : Env where
  models := 3
  guards m t _ := { pre := m == 0, lrn := m == 0 && t % 2 == 0, post := m == 1, pauseReq := false,
                    stopReq := false, raises := false }
  peek _ := .nothing

/-- Non-vacuity of C06 and C07: an environment with learning and post-management meets the hypotheses and
produces a non-trivial trace. -/
example : exEnv.Undisturbed ∧
    (runCmd exEnv 2 {}).sent =
      [(1, .spk), (1, .post), (2, .spk), (2, .pre), (2, .lrn), (2, .post), (2, .host)] ∧
    (runCmd exEnv 2 {}).out = [.done] := by
  refine ⟨⟨fun _ _ _ => by simp [exEnv], fun _ => rfl⟩, by decide, by decide⟩

/-! ## C07 -/

/-- **C07.** For every environment: each phase command is followed by a later phase of the same time
step or by the spiking phase of the next step, nothing follows a host phase, the first phase is the
spiking phase of step 1 (or the host phase of an empty run), and a host phase is entered only
when `n` steps are done. (`PhaseOrder` compares the phase numbers SPK 1 < PRE 2 < LRN 3 < POST 4 < HOST 5.) -/
theorem C07_order (e : Env) (n : Nat) (s : Svc) (hs : rank s = 0) :
    Adj PhaseOrder (runCmd e n s).sent ∧
    (∀ x, (runCmd e n s).sent.head? = some x → x = (1, .spk) ∨ (x = (0, .host) ∧ n = 0)) ∧
    (∀ t, (t, .host) ∈ (runCmd e n s).sent → t = n) := by
  rw [runCmd, finish_sent]
  have := run_linv e n s hs
  exact ⟨this.adj, this.head, this.host⟩

/-- A phase order as in C07 repeats no phase: time step and phase number increase lexicographically. -/
theorem adj_strict {l : List (Nat × Phase)} (h : Adj PhaseOrder l) : ∀ (d i : Nat) (a b : Nat × Phase),
    l[i]? = some a → l[i + d + 1]? = some b → a.1 < b.1 ∨ (a.1 = b.1 ∧ a.2.num < b.2.num) := by
  intro d
  induction d with
  | zero =>
    intro i a b ha hb
    obtain ⟨_, h1 | h1⟩ := h i a b ha hb
    · right; exact ⟨h1.1.symm, h1.2⟩
    · left; omega
  | succ d ih =>
    intro i a b ha hb
    have hlt : i + d + 1 < l.length := by
      have := (List.getElem?_eq_some_iff.mp hb).1; omega
    have hc : l[i + d + 1]? = some l[i + d + 1] := List.getElem?_eq_getElem hlt
    have h1 := ih i a _ ha hc
    obtain ⟨_, h2 | h2⟩ := h (i + d + 1) _ b hc (by rw [← hb]; congr 1)
    · rcases h1 with h1 | h1
      · left; omega
      · right; exact ⟨by omega, by omega⟩
    · left
      rcases h1 with h1 | h1 <;> omega

/-- **C07.** Each phase at most once per time step. -/
theorem C07_at_most_once (e : Env) (n : Nat) (s : Svc) (hs : rank s = 0) : (runCmd e n s).sent.Nodup := by
  rw [List.nodup_iff_pairwise_ne, List.pairwise_iff_getElem]
  intro i j hi hj hij heq
  obtain ⟨d, rfl⟩ : ∃ d, j = i + d + 1 := ⟨j - i - 1, by omega⟩
  have := adj_strict (C07_order e n s hs).1 d i _ _ (List.getElem?_eq_getElem hi) (List.getElem?_eq_getElem hj)
  rw [heq] at this
  omega

/-- **C07.** In a phase other than the spiking phase a model's user method runs exactly if its own guard says
so at that moment; in the spiking phase always. -/
theorem C07_guarded (p : Phase) (g : Guards) :
    (pmHandle p g).1 = true ↔
      p = .spk ∨ (p = .pre ∧ g.pre = true) ∨ (p = .lrn ∧ g.lrn = true) ∨ (p = .post ∧ g.post = true) := by
  cases p <;> simp [pmHandle]

/-- **C07.** The optional phases are entered exactly when requested (undisturbed run): a phase command
`(t, p)` with `1 ≤ t ≤ n` is sent iff `p` is the spiking phase, or some model asked for it. -/
theorem C07_requested (e : Env) (h : e.Undisturbed) (n t : Nat) (p : Phase) (hp : p ≠ .host) :
    (t, p) ∈ (runCmd e n {}).sent ↔ (1 ≤ t ∧ t ≤ n) ∧
      (p = .spk ∨ (p = .pre ∧ e.preAt t = true) ∨ (p = .lrn ∧ e.lrnAt t = true) ∨
        (p = .post ∧ e.postAt t = true)) := by
  obtain ⟨_, _, _, h4⟩ := C06_run_exact e h n
  rw [h4]
  simp only [List.mem_append, List.mem_flatMap, List.mem_range'_1, List.mem_singleton, Prod.mk.injEq]
  constructor
  · rintro (⟨t', ht, hx⟩ | ⟨_, rfl⟩)
    · have : t' = t ∧ (p = .spk ∨ (p = .pre ∧ e.preAt t' = true) ∨ (p = .lrn ∧ e.lrnAt t' = true) ∨
        (p = .post ∧ e.postAt t' = true)) := by
        unfold Env.stepPhases at hx
        cases h1 : e.preAt t' <;> cases h2 : e.lrnAt t' <;> cases h3 : e.postAt t' <;>
          simp [h1, h2, h3] at hx <;> grind
      obtain ⟨rfl, h5⟩ := this
      exact ⟨⟨ht.1, by omega⟩, h5⟩
    · exact absurd rfl hp
  · rintro ⟨⟨h1, h2⟩, h3⟩
    refine Or.inl ⟨t, ⟨h1, by omega⟩, ?_⟩
    unfold Env.stepPhases
    rcases h3 with rfl | ⟨rfl, h3⟩ | ⟨rfl, h3⟩ | ⟨rfl, h3⟩
    · simp
    · simp [h3]
    · simp [h3]
    · simp [h3]

/-! ## C08 -/



/-- A phase of the interior of a time step comes directly after an earlier phase of that step. -/
def Interior (a b : Ev) : Prop :=
  ∀ p, b = .phase p → p ≠ .spk → p ≠ .host → ∃ q, a = .phase q ∧ q.num < p.num

structure OInv (o : Outer) : Prop where
  rank0 : o.terminated = false → rank o.svc = 0
  host : o.terminated = false → o.hostPhase = true
  wrong : o.wrongPhase = false
  adj : Adj Interior o.evs
  first : ∀ a, o.evs.head? = some a → ∀ p, a = .phase p → p = .spk ∨ p = .host

theorem adj_of_no_phase {es : List Ev} (h : ∀ x ∈ es, ∀ p, x ≠ .phase p) : Adj Interior es := by
  intro i a b _ hb p hp
  exact absurd hp (h b (List.mem_of_getElem? hb) p)

theorem oinv_append {o : Outer} {es : List Ev} (h : OInv o) (hes : Adj Interior es)
    (hf : ∀ a, es.head? = some a → ∀ p, a = .phase p → p = .spk ∨ p = .host) :
    Adj Interior (o.evs ++ es) ∧
    ∀ a, (o.evs ++ es).head? = some a → ∀ p, a = .phase p → p = .spk ∨ p = .host := by
  constructor
  · apply adj_append h.adj hes
    intro a b _ hb p hp h1 h2
    rcases hf b hb p hp with h3 | h3
    · exact absurd h3 h1
    · exact absurd h3 h2
  · intro a ha
    cases hq : o.evs with
    | nil => rw [hq] at ha; exact hf a (by simpa using ha)
    | cons x xs =>
      rw [hq] at ha
      apply h.first
      rw [hq]; simpa using ha

theorem run_events_adj (e : Env) (n : Nat) (s : Svc) (hs : rank s = 0) (tl : List Ev)
    (htl : ∀ x ∈ tl, ∀ p, x ≠ .phase p) :
    let es := (runCmd e n s).sent.map (fun x => Ev.phase x.2) ++ tl
    Adj Interior es ∧ ∀ a, es.head? = some a → ∀ p, a = .phase p → p = .spk ∨ p = .host := by
  obtain ⟨c1, c2, _⟩ := C07_order e n s hs
  constructor
  · apply adj_append
    · intro i a b ha hb p hp h1 h2
      simp only [List.getElem?_map, Option.map_eq_some_iff] at ha hb
      obtain ⟨x, hx, rfl⟩ := ha
      obtain ⟨y, hy, rfl⟩ := hb
      obtain ⟨_, h3 | h3⟩ := c1 i x y hx hy
      · cases hp; exact ⟨x.2, rfl, h3.2⟩
      · cases hp; exact absurd h3.2 h1
    · exact adj_of_no_phase htl
    · intro a b _ hb p hp
      exact absurd hp (htl b (List.mem_of_mem_head? hb) p)
  · intro a ha p hp
    cases hq : (runCmd e n s).sent with
    | nil =>
      rw [hq] at ha
      exact absurd hp (htl a (List.mem_of_mem_head? (by simpa using ha)) p)
    | cons x xs =>
      rw [hq] at ha
      have := c2 x (by rw [hq]; rfl)
      simp at ha; subst ha; cases hp
      rcases this with h | h
      · left; rw [h]
      · right; rw [h.1]

theorem oinv_serve {o : Outer} (h : OInv o) (c : Cmd) : OInv (serve o c) := by
  by_cases ht : o.terminated = true
  · simp only [serve, ht, if_true]; exact h
  have ht' : o.terminated = false := by simpa using ht
  have hh := h.host ht'
  have hr := h.rank0 ht'
  cases c with
  | stop =>
    simp only [serve, ht', Bool.false_eq_true, if_false]
    obtain ⟨a, b⟩ := oinv_append (es := [.stop, .rsp .terminated]) h
      (adj_of_no_phase (by simp)) (by simp)
    exact ⟨by simp, by simp, h.wrong, a, b⟩
  | pause =>
    simp only [serve, ht', Bool.false_eq_true, if_false]
    obtain ⟨a, b⟩ := oinv_append (es := [.pause, .rsp .paused]) h
      (adj_of_no_phase (by simp)) (by simp)
    exact ⟨fun _ => hr, fun _ => hh, h.wrong, a, b⟩
  | get =>
    simp only [serve, ht', hh, Bool.false_eq_true, if_false, if_true]
    obtain ⟨a, b⟩ := oinv_append (es := [.get]) h
      (adj_of_no_phase (by simp)) (by simp)
    exact ⟨fun _ => hr, fun _ => rfl, h.wrong, a, b⟩
  | set =>
    simp only [serve, ht', hh, Bool.false_eq_true, if_false, if_true]
    obtain ⟨a, b⟩ := oinv_append (es := [.set]) h
      (adj_of_no_phase (by simp)) (by simp)
    exact ⟨fun _ => hr, fun _ => rfl, h.wrong, a, b⟩
  | run n e =>
    have hterm := C06_terminates e n o.svc hr
    have hinv := run_linv e n o.svc hr
    simp only [serve, ht', Bool.false_eq_true, if_false]
    cases hst : (runCmd e n o.svc).status with
    | running => exact absurd hst hterm
    | crashed =>
      obtain ⟨a0, b0⟩ := run_events_adj e n o.svc hr ((runCmd e n o.svc).out.map Ev.rsp ++ [.stop]) (by
        intro x hx p; simp at hx; rcases hx with ⟨_, _, rfl⟩ | rfl <;> simp)
      obtain ⟨a, b⟩ := oinv_append h a0 b0
      exact ⟨by simp, by simp, h.wrong, by simpa using a, by simpa using b⟩
    | finished =>
      obtain ⟨a0, b0⟩ := run_events_adj e n o.svc hr ((runCmd e n o.svc).out.map Ev.rsp) (by
        intro x hx p; simp at hx; rcases hx with ⟨_, _, rfl⟩; simp)
      obtain ⟨a, b⟩ := oinv_append h a0 b0
      refine ⟨fun _ => ?_, fun _ => by simp, h.wrong, by simpa using a, by simpa using b⟩
      have : rank (runCmd e n o.svc).svc = 0 := by
        rw [runCmd, finish_svc]
        apply hinv.fin
        rw [runCmd, finish_status] at hst; exact hst
      exact this

theorem oinv_init : OInv outerInit :=
  ⟨fun _ => rfl, fun _ => rfl, rfl, Adj.nil _, by simp [outerInit]⟩

theorem oinv_all (cs : List Cmd) (o : Outer) (h : OInv o) : OInv (serveAll o cs) := by
  induction cs generalizing o with
  | nil => exact h
  | cons c cs ih => exact ih _ (oinv_serve h c)

/-- **C08.** For every list of commands and every environment of every run: the pre-management, learning and
post-management phase of a time step are each delivered to the process models *directly* after an
earlier phase of the same step. So no get, set or pause command is ever served between two phases
of a time step. -/
theorem C08_no_access_inside_step (cs : List Cmd) (i : Nat) (a b : Ev)
    (ha : (serveAll outerInit cs).evs[i]? = some a) (hb : (serveAll outerInit cs).evs[i + 1]? = some b)
    (hm : a = .get ∨ a = .set ∨ a = .pause) : ∀ p, b = .phase p → p = .spk ∨ p = .host := by
  intro p hp
  have := (oinv_all cs outerInit oinv_init).adj i a b ha hb p hp
  by_cases h1 : p = .spk
  · exact Or.inl h1
  · by_cases h2 : p = .host
    · exact Or.inr h2
    · obtain ⟨q, hq, _⟩ := this h1 h2
      rcases hm with rfl | rfl | rfl <;> cases hq

/-- **C08.** Stronger form of the same: the inner phases of a step follow directly an earlier phase. -/
theorem C08_steps_contiguous (cs : List Cmd) (i : Nat) (b : Ev) (p : Phase)
    (hb : (serveAll outerInit cs).evs[i]? = some b) (hp : b = .phase p) (h1 : p ≠ .spk) (h2 : p ≠ .host) :
    ∃ q, q.num < p.num ∧ 0 < i ∧ (serveAll outerInit cs).evs[i - 1]? = some (.phase q) := by
  have hinv := oinv_all cs outerInit oinv_init
  cases i with
  | zero =>
    have := hinv.first b (by rw [List.head?_eq_getElem?]; exact hb) p hp
    rcases this with h | h
    · exact absurd h h1
    · exact absurd h h2
  | succ i =>
    have hlt : i < (serveAll outerInit cs).evs.length := by
      have := (List.getElem?_eq_some_iff.mp hb).1; omega
    have hc := List.getElem?_eq_getElem hlt
    obtain ⟨q, hq, hlt⟩ := hinv.adj i _ b hc hb p hp h1 h2
    exact ⟨q, hlt, by omega, by rw [Nat.add_sub_cancel, hc, hq]⟩

/-- **C08.** A get or set command sent while the service is alive is always served (the "Wrong Phase" error is
never raised), whatever commands came before. -/
theorem C08_access_served (cs : List Cmd) (c : Cmd) (hc : c = .get ∨ c = .set)
    (ht : (serveAll outerInit cs).terminated = false) :
    (serveAll outerInit cs).wrongPhase = false ∧
    (serve (serveAll outerInit cs) c).evs =
      (serveAll outerInit cs).evs ++ [if c matches .get then .get else .set] := by
  have hinv := oinv_all cs outerInit oinv_init
  refine ⟨hinv.wrong, ?_⟩
  have hh := hinv.host ht
  rcases hc with rfl | rfl <;> simp [serve, ht, hh]

/-- Non-vacuity of C08: a history with two runs, accesses and a pause. -/
example : (serveAll outerInit [.get, .run 2 exEnv, .set, .pause, .run 1 exEnv, .get]).evs =
    [.get, .phase .spk, .phase .post, .phase .spk, .phase .pre, .phase .lrn, .phase .post, .phase .host,
     .rsp .done, .set, .pause, .rsp .paused, .phase .spk, .phase .post, .phase .host, .rsp .done, .get] := by
  decide

/-! ## C09 -/

/-- **C09 (partial: pause while the service is idle).** A pause that arrives between runs, with
no run in progress, is transparent: every later command has the effect it would have had without
the pause. -/
theorem C09_idle_pause_partial (o : Outer) (ht : o.terminated = false) (c : Cmd) :
    (serve (serve o .pause) c).svc = (serve o c).svc ∧
    (serve (serve o .pause) c).terminated = (serve o c).terminated ∧
    ∃ tl, (serve o c).evs = o.evs ++ tl ∧
      (serve (serve o .pause) c).evs = o.evs ++ [.pause, .rsp .paused] ++ tl := by
  cases c with
  | stop => simp [serve, ht]
  | pause => simp [serve, ht]
  | get => cases hq : o.hostPhase <;> simp [serve, ht, hq]
  | set => cases hq : o.hostPhase <;> simp [serve, ht, hq]
  | run n e =>
    simp only [serve, ht, Bool.false_eq_true, if_false]
    cases (runCmd e n o.svc).status <;> simp

/-- **C09 (partial: the work is done).** After a run was interrupted by a pause of the runtime (the service
keeps its attribute `pausing`), the next undisturbed `run(n)` does execute `n` steps. The completion
report is missing: see `C09_no_completion_after_pause`. -/
theorem C09_resume_steps_partial (e : Env) (h : e.Undisturbed) (n : Nat) :
    ((runCmd e n (base true false)).sent.filter fun x => x.2 == .spk) =
      (List.range' 1 n).map fun t => (t, Phase.spk) := by
  obtain ⟨_, _, _, h4⟩ := run_base e h n true false
  rw [h4, List.filter_append, flatMap_spk]
  simp

/-- **C09 fails (finding).** Once a run was interrupted by a pause of the runtime, *no* later run of the
service ever reports completion, for every length and every undisturbed environment: the attribute `pausing` is
never reset. The blocking `run()` of the runtime waits for that report, so it never returns. -/
theorem C09_no_completion_after_pause (rs : List (Nat × Env)) (h : ∀ r ∈ rs, r.2.Undisturbed) (o : Outer)
    (ho : o.svc = base true false) (ht : o.terminated = false) :
    ∃ tl, (serveAll o (rs.map fun r => .run r.1 r.2)).evs = o.evs ++ tl ∧ ∀ x ∈ tl, ∃ p, x = Ev.phase p := by
  induction rs generalizing o with
  | nil => exact ⟨[], by simp [serveAll], by simp⟩
  | cons r rs ih =>
    obtain ⟨a1, a2, a3, a4⟩ := run_base r.2 (h r (by simp)) r.1 true false
    have hs : serve o (.run r.1 r.2) =
        { o with svc := base true false,
                 evs := o.evs ++ (runCmd r.2 r.1 (base true false)).sent.map (fun x => Ev.phase x.2),
                 hostPhase := true } := by
      simp only [serve, ht, ho, a1, a2, a3]
      simp
    obtain ⟨tl, h1, h2⟩ := ih (fun x hx => h x (by simp [hx])) (serve o (.run r.1 r.2)) (by rw [hs])
      (by rw [hs]; exact ht)
    rw [hs] at h1
    refine ⟨(runCmd r.2 r.1 (base true false)).sent.map (fun x => Ev.phase x.2) ++ tl, ?_, ?_⟩
    · simp only [serveAll, List.map_cons, List.foldl_cons, hs]
      simpa [serveAll] using h1
    · intro x hx
      simp only [List.mem_append, List.mem_map] at hx
      rcases hx with ⟨y, _, rfl⟩ | hx
      · exact ⟨_, rfl⟩
      · exact h2 x hx

/-- A run of 3 steps during which a pause command of the runtime becomes visible in step 2. -/
def pauseEnv : Env := { exEnv with peek := fun k => if k = 3 then .pause else .nothing }

/-- **C09 fails (finding).** The state of `C09_no_completion_after_pause` is reached by the ordinary sequence
run(3) – pause() during the run; the service stays alive. -/
theorem C09_pause_reached :
    (serveAll outerInit [.run 3 pauseEnv, .pause]).svc = base true false ∧
    (serveAll outerInit [.run 3 pauseEnv, .pause]).terminated = false := by
  decide

/-- A pause command that becomes visible only after the last phase of a run of `n` steps of one silent
model: iteration `n + 1` is the host phase. -/
def latePause (n : Nat) : Env where
  models := 1
  guards _ _ _ := ⟨false, false, false, false, false, false⟩
  peek k := if k = n + 1 then .pause else .nothing

/-- **C09 fails (finding).** A pause that is seen in the host phase of a run stays pending: the next run
executes *no* time step at all, whatever its length and environment. -/
theorem C09_stale_pause_skips_run (e : Env) (n : Nat) (s : Svc) (h0 : rank s = 0) (hp : s.reqPause = true) :
    (runCmd e n s).sent = [] ∧ (runCmd e n s).status = .finished := by
  rw [rank_zero] at h0
  have h1 : ∀ b, nextPhase s b = (.pause, { s with reqPause := false }) := by
    intro b; simp [nextPhase, h0, hp]
  have hit := iterate_pause (e := e) (n := n) (l := start s) (svc := { s with reqPause := false })
    (by rw [show (start s).svc = s from rfl, h1]) (by rw [show (start s).svc = s from rfl, h1])
  have hl : loop e n (4 * n + 2) (start s) = iterate e n (start s) := by
    rw [show 4 * n + 2 = (4 * n + 1) + 1 from rfl, loop_running _ _ _ _ rfl, loop_stop]
    rw [hit]; simp
  refine ⟨?_, ?_⟩
  · rw [runCmd, finish_sent, hl, hit]; rfl
  · rw [runCmd, finish_status, hl, hit]

/-- The hypotheses of `C09_stale_pause_skips_run` are reached by run(2) with a pause seen in its host phase. -/
example : (runCmd (latePause 2) 2 {}).svc.reqPause = true ∧ rank (runCmd (latePause 2) 2 {}).svc = 0 ∧
    (runCmd (latePause 2) 2 {}).sent = [(1, .spk), (2, .spk), (2, .host)] := by decide

end Verif.RuntimeService
