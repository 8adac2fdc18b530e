import Verif.RuntimeService.Lemmas

/-! The exact phase sequence of an undisturbed run; helper lemmas for `Verif.RuntimeService.Props`. -/

namespace Verif.RuntimeService

/-- No process model raises or asks for pause/stop, and the runtime stays silent. -/
structure Env.Undisturbed (e : Env) : Prop where
  calm : ∀ m t p, (e.guards m t p).pauseReq = false ∧ (e.guards m t p).stopReq = false ∧
    (e.guards m t p).raises = false
  silent : ∀ k, e.peek k = .nothing

/-- Some model asks for learning in step `t`. -/
def Env.lrnAt (e : Env) (t : Nat) : Bool :=
  (List.range e.models).any fun m => (e.guards m t .spk).lrn

/-- Some model asks for learning and for pre-management in step `t`. -/
def Env.preAt (e : Env) (t : Nat) : Bool :=
  (List.range e.models).any fun m => (e.guards m t .spk).lrn && (e.guards m t .spk).pre

/-- Some model asks for post-management in step `t`: right after the spiking phase (models that do not
learn), or after the learning phase. -/
def Env.postAt (e : Env) (t : Nat) : Bool :=
  ((List.range e.models).any fun m => !(e.guards m t .spk).lrn && (e.guards m t .spk).post) ||
  (e.lrnAt t && (List.range e.models).any fun m => (e.guards m t .lrn).post)

/-- The phases of time step `t`. -/
def Env.stepPhases (e : Env) (t : Nat) : List (Nat × Phase) :=
  [(t, .spk)] ++ (if e.preAt t then [(t, .pre)] else []) ++ (if e.lrnAt t then [(t, .lrn)] else [])
    ++ (if e.postAt t then [(t, .post)] else [])

variable {e : Env}

theorem contains_resps {t : Nat} {p : Phase} {r : Resp} :
    (e.resps t p).contains r = (List.range e.models).any fun m => (pmHandle p (e.guards m t p)).2 == r := by
  rw [Bool.eq_iff_iff]
  simp only [List.contains_eq_mem, decide_eq_true_eq, List.any_eq_true, List.mem_range, beq_iff_eq, mem_resps]

theorem collect_quiet (h : e.Undisturbed) (s : Svc) (t : Nat) (p : Phase) : collect s (e.resps t p) =
    { s with
      reqPre := s.reqPre || (e.resps t p).contains .reqPre
      reqLrn := s.reqLrn || (e.resps t p).contains .reqLrn
      reqPost := s.reqPost || (e.resps t p).contains .reqPost } := by
  have h1 : (e.resps t p).contains .reqPause = false := by
    simp only [List.contains_eq_mem, decide_eq_false_iff_not, mem_resps]
    rintro ⟨m, _, hm⟩
    have := h.calm m t p
    cases p <;> simp [pmHandle, this] at hm <;> grind
  have h2 : (e.resps t p).contains .reqStop = false := by
    simp only [List.contains_eq_mem, decide_eq_false_iff_not, mem_resps]
    rintro ⟨m, _, hm⟩
    have := h.calm m t p
    cases p <;> simp [pmHandle, this] at hm <;> grind
  have h3 : (e.resps t p).contains .error = false := by
    simp only [List.contains_eq_mem, decide_eq_false_iff_not, mem_resps]
    rintro ⟨m, _, hm⟩
    have := h.calm m t p
    cases p <;> simp [pmHandle, this] at hm <;> grind
  rw [collect_eq, h1, h2, h3]
  simp

theorem any_congr {α} {l : List α} {f g : α → Bool} (h : ∀ x, f x = g x) : l.any f = l.any g := by
  congr 1; funext x; exact h x

theorem resps_spk_pre (h : e.Undisturbed) (t : Nat) :
    (e.resps t .spk).contains .reqPre = e.preAt t := by
  rw [contains_resps]
  apply any_congr; intro m
  obtain ⟨a, b, c⟩ := h.calm m t .spk
  simp only [pmHandle, a, b, c]
  cases (e.guards m t .spk).lrn <;> cases (e.guards m t .spk).pre <;> cases (e.guards m t .spk).post <;> rfl

theorem resps_spk_lrn (h : e.Undisturbed) (t : Nat) (hp : e.preAt t = false) :
    (e.resps t .spk).contains .reqLrn = e.lrnAt t := by
  rw [contains_resps]
  simp only [Env.preAt, List.any_eq_false, Bool.not_eq_true] at hp
  unfold Env.lrnAt
  rw [Bool.eq_iff_iff, List.any_eq_true, List.any_eq_true]
  constructor <;> rintro ⟨m, hm, hx⟩ <;> refine ⟨m, hm, ?_⟩
  all_goals
    obtain ⟨a, b, c⟩ := h.calm m t .spk
    have h1 := hp m hm
    simp only [pmHandle, a, b, c] at hx ⊢
    revert hx h1
    cases (e.guards m t .spk).lrn <;> cases (e.guards m t .spk).pre <;> cases (e.guards m t .spk).post <;> decide

theorem resps_spk_post (h : e.Undisturbed) (t : Nat) :
    (e.resps t .spk).contains .reqPost =
      (List.range e.models).any fun m => !(e.guards m t .spk).lrn && (e.guards m t .spk).post := by
  rw [contains_resps]
  apply any_congr; intro m
  obtain ⟨a, b, c⟩ := h.calm m t .spk
  simp only [pmHandle, a, b, c]
  cases (e.guards m t .spk).lrn <;> cases (e.guards m t .spk).pre <;> cases (e.guards m t .spk).post <;> rfl

theorem resps_pre_lrn (h : e.Undisturbed) (t : Nat) (hm : e.preAt t = true) :
    (e.resps t .pre).contains .reqLrn = true := by
  rw [contains_resps]
  simp only [Env.preAt, List.any_eq_true] at hm ⊢
  obtain ⟨m, hm, _⟩ := hm
  refine ⟨m, hm, ?_⟩
  obtain ⟨a, b, c⟩ := h.calm m t .pre
  simp [pmHandle, a, b, c]

theorem preAt_lrnAt (t : Nat) (hm : e.preAt t = true) : e.lrnAt t = true := by
  simp only [Env.preAt, Env.lrnAt, List.any_eq_true, Bool.and_eq_true] at hm ⊢
  obtain ⟨m, hm, h1, _⟩ := hm
  exact ⟨m, hm, h1⟩

theorem resps_lrn_post (h : e.Undisturbed) (t : Nat) :
    (e.resps t .lrn).contains .reqPost =
      (List.range e.models).any fun m => (e.guards m t .lrn).post := by
  rw [contains_resps]
  apply any_congr; intro m
  obtain ⟨a, b, c⟩ := h.calm m t .lrn
  simp only [pmHandle, a, b, c]
  cases (e.guards m t .lrn).post <;> rfl

theorem no_resp (t : Nat) (p : Phase) :
    (p ≠ .spk → (e.resps t p).contains .reqPre = false) ∧
    (p ≠ .spk → p ≠ .pre → (e.resps t p).contains .reqLrn = false) ∧
    (p ≠ .spk → p ≠ .lrn → (e.resps t p).contains .reqPost = false) := by
  simp only [List.contains_eq_mem, decide_eq_false_iff_not, mem_resps]
  refine ⟨fun h => ?_, fun h h' => ?_, fun h h' => ?_⟩
  · rintro ⟨m, _, hm⟩; exact pm_pre_no _ h hm
  · rintro ⟨m, _, hm⟩; exact pm_lrn_no _ h h' hm
  · rintro ⟨m, _, hm⟩; exact pm_post_no _ h h' hm

/-- A phase iteration in an undisturbed environment, started without error flag. -/
theorem phaseIter_quiet (h : e.Undisturbed) (l : Loop) (svc : Svc) (last : Bool) (p : Phase)
    (he : svc.error = false) :
    phaseIter e l svc last p =
      { l with
        svc := if p = .host then svc else collect svc (e.resps (if p = .spk then l.curr + 1 else l.curr) p)
        last := last
        iter := l.iter + 1
        curr := if p = .spk then l.curr + 1 else l.curr
        sent := l.sent ++ [((if p = .spk then l.curr + 1 else l.curr), p)]
        status := if p = .host then .finished else .running } := by
  have herr : ∀ t, (if p = .host then svc else collect svc (e.resps t p)).error = false := by
    intro t; split
    · exact he
    · rw [collect_quiet h]; exact he
  simp only [phaseIter, h.silent]
  rw [if_neg]
  · rw [herr]; simp

/-- The base of the flags that the phases of a step start from: only `pausing`/`stopping` may be set. -/
def base (pa st : Bool) : Svc := { pausing := pa, stopping := st }

theorem post_part (h : e.Undisturbed) (n : Nat) (pa st b : Bool) (l : Loop) (hr : l.status = .running)
    (hs : l.svc = { base pa st with reqPost := b }) :
    ∃ c l', c ≤ (if b then 1 else 0) ∧ (∀ fuel, loop e n (fuel + c) l = loop e n fuel l') ∧
      l'.svc = base pa st ∧ l'.curr = l.curr ∧ l'.out = l.out ∧ l'.status = .running ∧
      l'.sent = l.sent ++ (if b then [(l.curr, .post)] else []) := by
  cases b with
  | false => exact ⟨0, l, by simp, fun _ => rfl, hs, rfl, rfl, hr, by simp⟩
  | true =>
    have h1 : (nextPhase l.svc (decide (l.curr = n))) = (.phase .post, base pa st) := by
      simp [nextPhase, hs, base]
    have hit := iterate_phase (e := e) (n := n) (l := l) (p := .post) (svc := base pa st)
      (by rw [h1]) (by rw [h1])
    rw [phaseIter_quiet h _ _ _ _ rfl] at hit
    refine ⟨1, iterate e n l, by simp, fun fuel => loop_running _ _ _ _ hr, ?_, ?_, ?_, ?_, ?_⟩
    · rw [hit]
      simp only [collect_quiet h, (no_resp _ _).1 (by simp : Phase.post ≠ .spk),
        (no_resp _ _).2.1 (by simp : Phase.post ≠ .spk) (by simp),
        (no_resp _ _).2.2 (by simp : Phase.post ≠ .spk) (by simp)]
      simp [base]
    · rw [hit]; simp
    · rw [hit]
    · rw [hit]; simp
    · rw [hit]; simp

theorem lrn_part (h : e.Undisturbed) (n : Nat) (pa st a b : Bool) (l : Loop) (hr : l.status = .running)
    (hs : l.svc = { base pa st with reqLrn := a, reqPost := b }) :
    let d := b || (a && (List.range e.models).any fun m => (e.guards m l.curr .lrn).post)
    ∃ c l', c ≤ 2 ∧ (∀ fuel, loop e n (fuel + c) l = loop e n fuel l') ∧
      l'.svc = base pa st ∧ l'.curr = l.curr ∧ l'.out = l.out ∧ l'.status = .running ∧
      l'.sent = l.sent ++ (if a then [(l.curr, .lrn)] else []) ++ (if d then [(l.curr, .post)] else []) := by
  intro d
  cases a with
  | false =>
    have hd : d = b := by simp [d]
    rw [hd]
    obtain ⟨c, l', h1, h2, h3, h4, h5, h6, h7⟩ := post_part h n pa st b l hr hs
    exact ⟨c, l', by revert h1; split <;> omega, h2, h3, h4, h5, h6, by simpa using h7⟩
  | true =>
    have h1 : (nextPhase l.svc (decide (l.curr = n))) = (.phase .lrn, { base pa st with reqPost := b }) := by
      simp [nextPhase, hs, base]
    have hit := iterate_phase (e := e) (n := n) (l := l) (p := .lrn) (svc := { base pa st with reqPost := b })
      (by rw [h1]) (by rw [h1])
    rw [phaseIter_quiet h _ _ _ _ rfl] at hit
    have hsvc : (iterate e n l).svc = { base pa st with reqPost := d } := by
      rw [hit]
      simp only [collect_quiet h, (no_resp _ _).1 (by simp : Phase.lrn ≠ .spk),
        (no_resp _ _).2.1 (by simp : Phase.lrn ≠ .spk) (by simp), resps_lrn_post h]
      simp [base, d]
    obtain ⟨c, l', g1, g2, g3, g4, g5, g6, g7⟩ := post_part h n pa st d (iterate e n l)
      (by rw [hit]; simp) hsvc
    refine ⟨c + 1, l', by revert g1; split <;> omega, ?_, g3, ?_, ?_, g6, ?_⟩
    · intro fuel
      rw [← g2 fuel, ← Nat.add_assoc, loop_running _ _ _ _ hr]
    · rw [g4, hit]; simp
    · rw [g5, hit]
    · rw [g7, hit]; simp

/-- One whole time step. -/
theorem step_part (h : e.Undisturbed) (n : Nat) (pa st : Bool) (l : Loop) (hr : l.status = .running)
    (hs : l.svc = base pa st) (hlt : l.curr < n) :
    ∃ c l', c ≤ 4 ∧ (∀ fuel, loop e n (fuel + c) l = loop e n fuel l') ∧
      l'.svc = base pa st ∧ l'.curr = l.curr + 1 ∧ l'.out = l.out ∧ l'.status = .running ∧
      l'.sent = l.sent ++ e.stepPhases (l.curr + 1) := by
  have hne : decide (l.curr = n) = false := by simp; omega
  have h1 : (nextPhase l.svc (decide (l.curr = n))) = (.phase .spk, base pa st) := by
    rw [hne]; simp [nextPhase, hs, base]
  have hit := iterate_phase (e := e) (n := n) (l := l) (p := .spk) (svc := base pa st)
    (by rw [h1]) (by rw [h1])
  rw [phaseIter_quiet h _ _ _ _ rfl] at hit
  -- state after the spiking phase
  generalize hL : iterate e n l = L at *
  have Lr : L.status = .running := by rw [hit]; simp
  have Lc : L.curr = l.curr + 1 := by rw [hit]; simp
  have Lo : L.out = l.out := by rw [hit]
  have Ls : L.sent = l.sent ++ [(l.curr + 1, .spk)] := by rw [hit]; simp
  have Lv : L.svc = collect (base pa st) (e.resps (l.curr + 1) .spk) := by rw [hit]; simp
  rw [collect_quiet h, resps_spk_pre h, resps_spk_post h] at Lv
  clear hit
  have hloop : ∀ fuel, loop e n (fuel + 1) l = loop e n fuel L := by
    intro fuel; rw [loop_running _ _ _ _ hr, hL]
  by_cases hpre : e.preAt (l.curr + 1) = true
  · -- pre-management phase
    have hl := preAt_lrnAt _ hpre
    generalize hb : ((List.range e.models).any fun m =>
      !(e.guards m (l.curr + 1) .spk).lrn && (e.guards m (l.curr + 1) .spk).post) = b at *
    have h2 : nextPhase L.svc (decide (L.curr = n)) =
        (.phase .pre, { base pa st with
          reqLrn := (e.resps (l.curr + 1) .spk).contains .reqLrn, reqPost := b }) := by
      rw [Lv]; simp [nextPhase, base, hpre]
    have hit2 := iterate_phase (e := e) (n := n) (l := L) (p := .pre)
      (svc := { base pa st with
          reqLrn := (e.resps (l.curr + 1) .spk).contains .reqLrn, reqPost := b }) (by rw [h2]) (by rw [h2])
    rw [phaseIter_quiet h _ _ _ _ rfl] at hit2
    have hsvc : (iterate e n L).svc = { base pa st with reqLrn := true, reqPost := b } := by
      rw [hit2]
      simp only [collect_quiet h, (no_resp _ _).1 (by simp : Phase.pre ≠ .spk),
        (no_resp _ _).2.2 (by simp : Phase.pre ≠ .spk) (by simp)]
      simp [base, Lc]
      right
      have := resps_pre_lrn h (l.curr + 1) hpre
      simpa using this
    obtain ⟨c, l', g1, g2, g3, g4, g5, g6, g7⟩ := lrn_part h n pa st true b (iterate e n L)
      (by rw [hit2]; simp) hsvc
    have hc' : (iterate e n L).curr = l.curr + 1 := by rw [hit2]; simp [Lc]
    rw [hc'] at g4 g7
    refine ⟨c + 2, l', by omega, ?_, g3, g4, ?_, g6, ?_⟩
    · intro fuel
      have : fuel + (c + 2) = (fuel + c + 1) + 1 := by omega
      rw [this, hloop, loop_running _ _ _ _ Lr, g2]
    · rw [g5, hit2, Lo]
    · rw [g7, hit2]
      simp only [Env.stepPhases, Env.postAt, hpre, hl, hb, Ls, Lc]
      simp
  · -- no pre-management
    have hpre' : e.preAt (l.curr + 1) = false := by simpa using hpre
    rw [resps_spk_lrn h _ hpre', hpre'] at Lv
    obtain ⟨c, l', g1, g2, g3, g4, g5, g6, g7⟩ := lrn_part h n pa st (e.lrnAt (l.curr + 1))
      ((List.range e.models).any fun m =>
        !(e.guards m (l.curr + 1) .spk).lrn && (e.guards m (l.curr + 1) .spk).post) L Lr
      (by rw [Lv]; simp [base])
    rw [Lc] at g4 g7
    refine ⟨c + 1, l', by omega, ?_, g3, g4, ?_, g6, ?_⟩
    · intro fuel
      rw [← Nat.add_assoc, hloop, g2]
    · rw [g5, Lo]
    · rw [g7, Ls]
      simp only [Env.stepPhases, Env.postAt, hpre']
      simp

/-- All remaining steps and the host phase. -/
theorem steps_part (h : e.Undisturbed) (n : Nat) (pa st : Bool) :
    ∀ (k : Nat) (l : Loop) (fuel : Nat), l.curr + k = n → l.status = .running → l.svc = base pa st →
      4 * k + 1 ≤ fuel →
      let r := loop e n fuel l
      r.status = .finished ∧ r.svc = base pa st ∧ r.out = l.out ∧ r.last = true ∧ r.curr = n ∧
      r.sent = l.sent ++ ((List.range' (l.curr + 1) k).flatMap e.stepPhases) ++ [(n, .host)] := by
  intro k
  induction k with
  | zero =>
    intro l fuel hk hr hs hf
    obtain ⟨f, rfl⟩ : ∃ f, fuel = f + 1 := ⟨fuel - 1, by omega⟩
    have hlast : decide (l.curr = n) = true := by simp; omega
    have h1 : (nextPhase l.svc (decide (l.curr = n))) = (.phase .host, base pa st) := by
      rw [hlast]; simp [nextPhase, hs, base]
    have hit := iterate_phase (e := e) (n := n) (l := l) (p := .host) (svc := base pa st)
      (by rw [h1]) (by rw [h1])
    rw [phaseIter_quiet h _ _ _ _ rfl] at hit
    intro r
    have hr' : r = iterate e n l := by
      simp only [r]
      rw [loop_running _ _ _ _ hr, loop_stop]
      rw [hit]; simp
    rw [hr', hit]
    simp at hk
    simp [hk]
  | succ k ih =>
    intro l fuel hk hr hs hf
    obtain ⟨c, l', h1, h2, h3, h4, h5, h6, h7⟩ := step_part h n pa st l hr hs (by omega)
    obtain ⟨f, rfl⟩ : ∃ f, fuel = f + c := ⟨fuel - c, by omega⟩
    have := ih l' f (by omega) h6 h3 (by omega)
    intro r
    have hr' : r = loop e n f l' := h2 f
    rw [hr']
    obtain ⟨g1, g2, g3, g4, g5, g6⟩ := this
    refine ⟨g1, g2, by rw [g3, h5], g4, g5, ?_⟩
    rw [g6, h7, h4, List.range'_succ]
    simp

end Verif.RuntimeService
