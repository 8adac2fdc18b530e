import Verif.RuntimeService.Model

namespace Verif.RuntimeService

theorem collect_eq (rs : List Resp) : ∀ s : Svc, collect s rs =
    { s with reqPre := s.reqPre || rs.contains .reqPre, reqLrn := s.reqLrn || rs.contains .reqLrn,
             reqPost := s.reqPost || rs.contains .reqPost, reqPause := s.reqPause || rs.contains .reqPause,
             reqStop := s.reqStop || rs.contains .reqStop, error := s.error || rs.contains .error } := by
  induction rs with
  | nil => intro s; simp [collect]
  | cons r rs ih =>
    intro s
    have : collect s (r :: rs) = collect (collect s [r]) rs := by simp [collect]
    rw [this, ih]
    cases r <;> simp [collect, Bool.or_assoc]

theorem mem_resps {e : Env} {t : Nat} {p : Phase} {r : Resp} :
    r ∈ e.resps t p ↔ ∃ m, m < e.models ∧ (pmHandle p (e.guards m t p)).2 = r := by
  simp [Env.resps]

/-- Number of phases that are still due in the current time step. -/
def rank (s : Svc) : Nat := if s.reqPre then 3 else if s.reqLrn then 2 else if s.reqPost then 1 else 0

theorem loop_running (e : Env) (n fuel : Nat) (l : Loop) (h : l.status = .running) :
    loop e n (fuel + 1) l = loop e n fuel (iterate e n l) := by
  simp [loop, h]

theorem loop_stop (e : Env) (n fuel : Nat) (l : Loop) (h : l.status ≠ .running) :
    loop e n fuel l = l := by
  cases fuel with
  | zero => rfl
  | succ k =>
    simp only [loop]

theorem pm_pre_no {p : Phase} (g : Guards) (hp : p ≠ .spk) : (pmHandle p g).2 ≠ .reqPre := by
  cases p <;> simp [pmHandle] at hp ⊢ <;> grind

theorem pm_lrn_no {p : Phase} (g : Guards) (hp : p ≠ .spk) (hp2 : p ≠ .pre) :
    (pmHandle p g).2 ≠ .reqLrn := by
  cases p <;> simp [pmHandle] at hp hp2 ⊢ <;> grind

theorem pm_post_no {p : Phase} (g : Guards) (hp : p ≠ .spk) (hp2 : p ≠ .lrn) :
    (pmHandle p g).2 ≠ .reqPost := by
  cases p <;> simp [pmHandle] at hp hp2 ⊢ <;> grind

/-- Adjacent elements of a list are related. -/
def Adj {α : Type} (R : α → α → Prop) (l : List α) : Prop :=
  ∀ i a b, l[i]? = some a → l[i + 1]? = some b → R a b

theorem Adj.nil {α : Type} (R : α → α → Prop) : Adj R [] := by intro i a b h; simp at h

theorem adj_append {α : Type} {R : α → α → Prop} {l r : List α} (hl : Adj R l) (hr : Adj R r)
    (hx : ∀ a b, l.getLast? = some a → r.head? = some b → R a b) : Adj R (l ++ r) := by
  intro i a b h1 h2
  by_cases hi : i + 1 < l.length
  · rw [List.getElem?_append_left (by omega)] at h1
    rw [List.getElem?_append_left hi] at h2
    exact hl i a b h1 h2
  · by_cases hi2 : i + 1 = l.length
    · rw [List.getElem?_append_left (by omega)] at h1
      rw [List.getElem?_append_right (by omega)] at h2
      apply hx a b
      · rw [List.getLast?_eq_getElem?, ← hi2]; simpa using h1
      · rw [List.head?_eq_getElem?, ← h2]; congr 1; omega
    · rw [List.getElem?_append_right (by omega)] at h1 h2
      apply hr (i - l.length) a b h1
      rw [← h2]; congr 1; omega

theorem adj_singleton {α : Type} (R : α → α → Prop) (a : α) : Adj R [a] := by
  intro i x y h1 h2
  have : i + 1 < [a].length := by
    rw [List.getElem?_eq_some_iff] at h2; exact h2.1
  simp at this

theorem adj_snoc {α : Type} {R : α → α → Prop} {l : List α} {x : α} (hl : Adj R l)
    (hx : ∀ a, l.getLast? = some a → R a x) : Adj R (l ++ [x]) :=
  adj_append hl (adj_singleton R x) (by
    intro a b h1 h2; simp at h2; subst h2; exact hx a h1)

/-- Order of phases: after a phase comes a later phase of the same time step (the host phase being the
last of all), or the spiking phase of the next step; nothing comes after the host phase. -/
def PhaseOrder (a b : Nat × Phase) : Prop :=
  a.2 ≠ .host ∧ ((b.1 = a.1 ∧ a.2.num < b.2.num) ∨ (b.1 = a.1 + 1 ∧ b.2 = .spk))

/-- Invariant of the inner loop, for every environment. -/
structure LInv (n : Nat) (l : Loop) : Prop where
  le : l.curr ≤ n
  adj : Adj PhaseOrder l.sent
  head : ∀ x, l.sent.head? = some x → x = (1, .spk) ∨ (x = (0, .host) ∧ n = 0)
  count : l.sent.countP (fun x => x.2 == .spk) = l.curr
  host : ∀ t, (t, .host) ∈ l.sent → t = n
  lastT : ∀ x, l.sent.getLast? = some x → x.1 = l.curr
  times : ∀ x ∈ l.sent, x.1 ≤ l.curr
  due : l.status = .running →
    (l.sent = [] → l.curr = 0 ∧ rank l.svc = 0) ∧
    ∀ x, l.sent.getLast? = some x → x.2 ≠ .host ∧ (l.svc.reqPre = true → x.2.num < 2) ∧
      (l.svc.reqLrn = true → x.2.num < 3) ∧ (l.svc.reqPost = true → x.2.num < 4)
  fin : l.status = .finished → rank l.svc = 0
  err : l.status = .crashed → l.out ≠ []

/-- Phase chosen by `_next_phase`. -/
theorem nextPhase_cases (s : Svc) (last : Bool) :
    (nextPhase s last).1 = .phase .pre ∧ s.reqPre = true ∧ (nextPhase s last).2 = { s with reqPre := false } ∨
    (nextPhase s last).1 = .phase .lrn ∧ s.reqPre = false ∧ s.reqLrn = true ∧
      (nextPhase s last).2 = { s with reqLrn := false } ∨
    (nextPhase s last).1 = .phase .post ∧ s.reqPre = false ∧ s.reqLrn = false ∧ s.reqPost = true ∧
      (nextPhase s last).2 = { s with reqPost := false } ∨
    rank s = 0 ∧ (((nextPhase s last).1 = .pause ∧ s.reqPause = true ∧
        (nextPhase s last).2 = { s with reqPause := false }) ∨
      ((nextPhase s last).1 = .stop ∧ s.reqPause = false ∧ s.reqStop = true ∧
        (nextPhase s last).2 = { s with reqStop := false }) ∨
      ((nextPhase s last).1 = .phase .host ∧ last = true ∧ s.reqPause = false ∧ s.reqStop = false ∧
        (nextPhase s last).2 = s) ∨
      ((nextPhase s last).1 = .phase .spk ∧ last = false ∧ s.reqPause = false ∧ s.reqStop = false ∧
        (nextPhase s last).2 = s)) := by
  unfold nextPhase rank
  grind

/-- The part of an iteration after a phase was chosen. -/
def phaseIter (e : Env) (l : Loop) (svc : Svc) (last : Bool) (p : Phase) : Loop :=
  let curr := if p = .spk then l.curr + 1 else l.curr
  let svc1 := if p = .host then svc else collect svc (e.resps curr p)
  if p ≠ .host ∧ svc1.error = true then
    { l with svc := svc1, last := last, iter := l.iter + 1, curr := curr, sent := l.sent ++ [(curr, p)],
             out := l.out ++ [.error], status := .crashed }
  else
    { l with
      svc := match e.peek (l.iter + 1) with
        | .nothing => svc1
        | .stop => { svc1 with stopping := true, reqStop := true }
        | .pause => { svc1 with pausing := true, reqPause := true }
      last := last, iter := l.iter + 1, curr := curr, sent := l.sent ++ [(curr, p)],
      status := if p = .host then .finished else .running }

theorem iterate_phase {e : Env} {n : Nat} {l : Loop} {p : Phase} {svc : Svc}
    (h1 : (nextPhase l.svc (decide (l.curr = n))).1 = .phase p)
    (h2 : (nextPhase l.svc (decide (l.curr = n))).2 = svc) :
    iterate e n l = phaseIter e l svc (decide (l.curr = n)) p := by
  simp only [iterate, h1, h2, phaseIter]
  cases e.peek (l.iter + 1) <;> rfl

theorem iterate_pause {e : Env} {n : Nat} {l : Loop} {svc : Svc}
    (h1 : (nextPhase l.svc (decide (l.curr = n))).1 = .pause)
    (h2 : (nextPhase l.svc (decide (l.curr = n))).2 = svc) :
    iterate e n l =
      { l with
        svc := svc
        last := decide (l.curr = n)
        iter := l.iter + 1
        out := if svc.pausing then l.out else l.out ++ [.reqPause]
        status := .finished } := by
  simp only [iterate, h1, h2]

theorem iterate_stop {e : Env} {n : Nat} {l : Loop} {svc : Svc}
    (h1 : (nextPhase l.svc (decide (l.curr = n))).1 = .stop)
    (h2 : (nextPhase l.svc (decide (l.curr = n))).2 = svc) :
    iterate e n l =
      { l with
        svc := svc
        last := decide (l.curr = n)
        iter := l.iter + 1
        out := if svc.stopping then l.out else l.out ++ [.reqStop]
        status := .finished } := by
  simp only [iterate, h1, h2]

/-- Flags of the service after the responses to a phase and a possible peek. -/
def afterPhase (e : Env) (k : Nat) (t : Nat) (svc : Svc) (p : Phase) : Svc :=
  let svc1 := if p = .host then svc else collect svc (e.resps t p)
  match e.peek k with
  | .nothing => svc1
  | .stop => { svc1 with stopping := true, reqStop := true }
  | .pause => { svc1 with pausing := true, reqPause := true }

theorem afterPhase_reqPre {e : Env} {k t : Nat} {svc : Svc} {p : Phase} (hp : p ≠ .spk) :
    (afterPhase e k t svc p).reqPre = svc.reqPre := by
  have h : (e.resps t p).contains .reqPre = false := by
    simp only [List.contains_eq_mem, decide_eq_false_iff_not]
    rw [mem_resps]; rintro ⟨m, _, hm⟩; exact pm_pre_no _ hp hm
  unfold afterPhase
  by_cases hh : p = .host
  · simp only [hh, if_true]; split <;> rfl
  · simp only [hh, if_false, collect_eq, h]; split <;> simp

theorem afterPhase_reqLrn {e : Env} {k t : Nat} {svc : Svc} {p : Phase} (hp : p ≠ .spk)
    (hp2 : p ≠ .pre) : (afterPhase e k t svc p).reqLrn = svc.reqLrn := by
  have h : (e.resps t p).contains .reqLrn = false := by
    simp only [List.contains_eq_mem, decide_eq_false_iff_not]
    rw [mem_resps]; rintro ⟨m, _, hm⟩; exact pm_lrn_no _ hp hp2 hm
  unfold afterPhase
  by_cases hh : p = .host
  · simp only [hh, if_true]; split <;> rfl
  · simp only [hh, if_false, collect_eq, h]; split <;> simp

theorem afterPhase_reqPost {e : Env} {k t : Nat} {svc : Svc} {p : Phase} (hp : p ≠ .spk)
    (hp2 : p ≠ .lrn) : (afterPhase e k t svc p).reqPost = svc.reqPost := by
  have h : (e.resps t p).contains .reqPost = false := by
    simp only [List.contains_eq_mem, decide_eq_false_iff_not]
    rw [mem_resps]; rintro ⟨m, _, hm⟩; exact pm_post_no _ hp hp2 hm
  unfold afterPhase
  by_cases hh : p = .host
  · simp only [hh, if_true]; split <;> rfl
  · simp only [hh, if_false, collect_eq, h]; split <;> simp

theorem phaseIter_cases (e : Env) (l : Loop) (svc : Svc) (last : Bool) (p : Phase) :
    let t := if p = .spk then l.curr + 1 else l.curr
    let r := phaseIter e l svc last p
    r.curr = t ∧ r.sent = l.sent ++ [(t, p)] ∧ r.last = last ∧ r.iter = l.iter + 1 ∧
    ((r.status = .crashed ∧ p ≠ .host ∧ r.out = l.out ++ [.error]) ∨
     (r.status = (if p = .host then .finished else .running) ∧ r.out = l.out ∧
      r.svc = afterPhase e (l.iter + 1) t svc p)) := by
  intro t r
  by_cases hc : p ≠ .host ∧ (if p = .host then svc else collect svc (e.resps t p)).error = true
  · have hr : r = { l with
        svc := if p = .host then svc else collect svc (e.resps t p)
        last := last
        iter := l.iter + 1
        curr := t
        sent := l.sent ++ [(t, p)]
        out := l.out ++ [.error]
        status := .crashed } := by
      simp only [r, phaseIter]; rw [if_pos hc]
    rw [hr]
    exact ⟨rfl, rfl, rfl, rfl, Or.inl ⟨rfl, hc.1, rfl⟩⟩
  · have hr : r = { l with
        svc := afterPhase e (l.iter + 1) t svc p
        last := last
        iter := l.iter + 1
        curr := t
        sent := l.sent ++ [(t, p)]
        status := if p = .host then .finished else .running } := by
      simp only [r, phaseIter]; rw [if_neg hc]
      simp only [afterPhase]
      cases e.peek (l.iter + 1) <;> rfl
    rw [hr]
    exact ⟨rfl, rfl, rfl, rfl, Or.inr ⟨rfl, rfl, rfl⟩⟩

theorem linv_phase {e : Env} {n : Nat} {l : Loop} (h : LInv n l) (hr : l.status = .running) {svc : Svc}
    {p : Phase} (last : Bool)
    (hle : p = .spk → l.curr < n) (hhost : p = .host → l.curr = n)
    (hrank : p = .spk ∨ p = .host → rank l.svc = 0)
    (hpn : p = .pre → l.svc.reqPre = true) (hln : p = .lrn → l.svc.reqLrn = true)
    (hon : p = .post → l.svc.reqPost = true)
    (s1 : svc.reqPre = true → p = .spk) (s2 : svc.reqLrn = true → p = .spk ∨ p = .pre)
    (s3 : svc.reqPost = true → p = .spk ∨ p = .pre ∨ p = .lrn)
    (s4 : p = .host → rank svc = 0) :
    LInv n (phaseIter e l svc last p) := by
  obtain ⟨c1, c2, c3, c4, c5⟩ := phaseIter_cases e l svc last p
  have due := h.due hr
  have hempty : l.sent = [] → l.curr = 0 ∧ (p = .spk ∨ p = .host) := by
    intro he
    have := due.1 he
    refine ⟨this.1, ?_⟩
    have h0 := this.2
    unfold rank at h0
    cases p
    · simp
    · rw [hpn rfl] at h0; simp at h0
    · rw [hln rfl] at h0; simp at h0; split at h0 <;> simp at h0
    · rw [hon rfl] at h0; cases h1 : l.svc.reqPre <;> cases h2 : l.svc.reqLrn <;> simp [h1, h2] at h0
    · simp
  generalize ht : (if p = .spk then l.curr + 1 else l.curr) = t at *
  have htc : l.curr ≤ t := by rw [← ht]; split <;> omega
  constructor
  · rw [c1, ← ht]; split
    · rename_i hp; have := hle hp; omega
    · exact h.le
  · rw [c2]
    apply adj_snoc h.adj
    intro a ha
    have hd := due.2 a ha
    have hat := h.lastT a ha
    refine ⟨hd.1, ?_⟩
    cases p
    · right; simp at ht; simp [hat, ht]
    · left; simp at ht; simp only [hat, ht, true_and, Phase.num]; exact hd.2.1 (hpn rfl)
    · left; simp at ht; simp only [hat, ht, true_and, Phase.num]; exact hd.2.2.1 (hln rfl)
    · left; simp at ht; simp only [hat, ht, true_and, Phase.num]; exact hd.2.2.2 (hon rfl)
    · left; simp at ht; simp only [hat, ht, true_and]
      have := hd.1
      cases hx : a.2 <;> simp [Phase.num]
      exact this hx
  · rw [c2]
    intro x hx
    cases hs : l.sent with
    | nil =>
      simp [hs] at hx
      obtain ⟨h0, hp⟩ := hempty hs
      rcases hp with hp | hp
      · subst hp; simp [h0] at ht; simp [← hx, ← ht]
      · subst hp; simp [h0] at ht
        right
        have := hhost rfl
        simp [← hx, ← ht]; omega
    | cons a as =>
      apply h.head
      rw [hs] at hx ⊢
      simpa using hx
  · rw [c2, List.countP_append, h.count, c1, ← ht]
    cases p <;> simp
  · intro t' ht'
    rw [c2] at ht'
    rcases List.mem_append.1 ht' with a | a
    · exact h.host t' a
    · simp at a
      obtain ⟨a1, a2⟩ := a
      have := hhost a2.symm
      rw [a1, ← ht, ← a2]; simpa using this
  · rw [c2, c1]
    intro x hx
    simp at hx
    rw [← hx]
  · rw [c2, c1]
    intro x hx
    rcases List.mem_append.1 hx with a | a
    · exact Nat.le_trans (h.times x a) htc
    · simp at a; simp [a]
  · intro hst
    refine ⟨fun he => by rw [c2] at he; simp at he, ?_⟩
    intro x hx
    rw [c2] at hx
    simp at hx
    subst hx
    rcases c5 with c5 | c5
    · rw [c5.1] at hst; cases hst
    · rw [c5.1] at hst
      have hph : p ≠ .host := by intro hp; simp [hp] at hst
      refine ⟨hph, ?_, ?_, ?_⟩
      · rw [c5.2.2]
        cases p <;> simp [Phase.num] at *
        all_goals
          rw [afterPhase_reqPre (by simp)]
          cases hq : svc.reqPre <;> simp_all
      · rw [c5.2.2]
        cases p <;> simp [Phase.num] at *
        all_goals
          rw [afterPhase_reqLrn (by simp) (by simp)]
          cases hq : svc.reqLrn <;> simp_all
      · rw [c5.2.2]
        cases p <;> simp [Phase.num] at *
        all_goals
          rw [afterPhase_reqPost (by simp) (by simp)]
          cases hq : svc.reqPost <;> simp_all
  · intro hst
    rcases c5 with c5 | c5
    · rw [c5.1] at hst; cases hst
    · rw [c5.1] at hst
      have hph : p = .host := by
        apply Classical.byContradiction; intro hp; simp [hp] at hst
      rw [c5.2.2]
      have h4 := s4 hph
      subst hph
      unfold rank at h4 ⊢
      rw [afterPhase_reqPre (by simp), afterPhase_reqLrn (by simp) (by simp),
        afterPhase_reqPost (by simp) (by simp)]
      exact h4
  · intro hst
    rcases c5 with c5 | c5
    · rw [c5.2.2]; simp
    · rw [c5.1] at hst; split at hst <;> cases hst

theorem rank_zero {s : Svc} : rank s = 0 ↔ s.reqPre = false ∧ s.reqLrn = false ∧ s.reqPost = false := by
  unfold rank
  cases s.reqPre <;> cases s.reqLrn <;> cases s.reqPost <;> simp

theorem linv_iterate {e : Env} {n : Nat} {l : Loop} (h : LInv n l) (hr : l.status = .running) :
    LInv n (iterate e n l) := by
  rcases nextPhase_cases l.svc (decide (l.curr = n)) with c | c | c | ⟨c0, c | c | c | c⟩
  · obtain ⟨c1, c2, c3⟩ := c
    rw [iterate_phase c1 c3]
    apply linv_phase h hr <;> simp_all
  · obtain ⟨c1, c2, c3, c4⟩ := c
    rw [iterate_phase c1 c4]
    apply linv_phase h hr <;> simp_all
  · obtain ⟨c1, c2, c3, c4, c5⟩ := c
    rw [iterate_phase c1 c5]
    apply linv_phase h hr <;> simp_all
  · obtain ⟨c1, c2, c3⟩ := c
    rw [iterate_pause c1 c3]
    rw [rank_zero] at c0
    exact ⟨h.le, h.adj, h.head, h.count, h.host, h.lastT, h.times, by simp, by simp [rank_zero, c0], by simp⟩
  · obtain ⟨c1, c2, c3, c4⟩ := c
    rw [iterate_stop c1 c4]
    rw [rank_zero] at c0
    exact ⟨h.le, h.adj, h.head, h.count, h.host, h.lastT, h.times, by simp, by simp [rank_zero, c0], by simp⟩
  · obtain ⟨c1, c2, c3, c4, c5⟩ := c
    rw [iterate_phase c1 c5]
    rw [rank_zero] at c0
    apply linv_phase h hr <;> simp_all [rank_zero]
  · obtain ⟨c1, c2, c3, c4, c5⟩ := c
    rw [iterate_phase c1 c5]
    rw [rank_zero] at c0
    have := h.le
    have h2 : l.curr ≠ n := by simpa using c2
    apply linv_phase h hr <;> simp_all [rank_zero]
    omega

theorem linv_start (n : Nat) (s : Svc) (hs : rank s = 0) : LInv n (start s) := by
  constructor <;> simp [start, Adj, hs]

theorem linv_loop {e : Env} {n : Nat} : ∀ (fuel : Nat) (l : Loop), LInv n l → LInv n (loop e n fuel l) := by
  intro fuel
  induction fuel with
  | zero => intro l h; exact h
  | succ k ih =>
    intro l h
    by_cases hr : l.status = .running
    · rw [loop_running _ _ _ _ hr]; exact ih _ (linv_iterate h hr)
    · rw [loop_stop _ _ _ _ hr]; exact h

/-- Work left in the inner loop. -/
def work (n : Nat) (l : Loop) : Nat := 4 * (n - l.curr) + rank l.svc

theorem rank_le (s : Svc) : rank s ≤ 3 := by unfold rank; grind

theorem iterate_work {e : Env} {n : Nat} {l : Loop} (h : LInv n l) (hr : l.status = .running) :
    (iterate e n l).status ≠ .running ∨ work n (iterate e n l) < work n l := by
  rcases nextPhase_cases l.svc (decide (l.curr = n)) with c | c | c | ⟨c0, c | c | c | c⟩
  · obtain ⟨c1, c2, c3⟩ := c
    rw [iterate_phase c1 c3]
    obtain ⟨d1, d2, d3, d4, d5⟩ := phaseIter_cases e l { l.svc with reqPre := false } (decide (l.curr = n)) .pre
    rcases d5 with d5 | d5
    · left; rw [d5.1]; simp
    · right
      simp only [work, d1, d5.2.2]
      have : rank (afterPhase e (l.iter + 1) (if Phase.pre = .spk then l.curr + 1 else l.curr)
        { l.svc with reqPre := false } .pre) ≤ 2 := by
        unfold rank; rw [afterPhase_reqPre (by simp)]; simp; split <;> (try split) <;> omega
      have h2 : rank l.svc = 3 := by simp [rank, c2]
      simp at this ⊢
      omega
  · obtain ⟨c1, c2, c3, c4⟩ := c
    rw [iterate_phase c1 c4]
    obtain ⟨d1, d2, d3, d4, d5⟩ := phaseIter_cases e l { l.svc with reqLrn := false } (decide (l.curr = n)) .lrn
    rcases d5 with d5 | d5
    · left; rw [d5.1]; simp
    · right
      simp only [work, d1, d5.2.2]
      have : rank (afterPhase e (l.iter + 1) (if Phase.lrn = .spk then l.curr + 1 else l.curr)
        { l.svc with reqLrn := false } .lrn) ≤ 1 := by
        unfold rank; rw [afterPhase_reqPre (by simp), afterPhase_reqLrn (by simp) (by simp)]
        simp [c2]; split <;> omega
      have h2 : rank l.svc = 2 := by simp [rank, c2, c3]
      simp at this ⊢
      omega
  · obtain ⟨c1, c2, c3, c4, c5⟩ := c
    rw [iterate_phase c1 c5]
    obtain ⟨d1, d2, d3, d4, d5⟩ := phaseIter_cases e l { l.svc with reqPost := false } (decide (l.curr = n)) .post
    rcases d5 with d5 | d5
    · left; rw [d5.1]; simp
    · right
      simp only [work, d1, d5.2.2]
      have : rank (afterPhase e (l.iter + 1) (if Phase.post = .spk then l.curr + 1 else l.curr)
        { l.svc with reqPost := false } .post) = 0 := by
        unfold rank
        rw [afterPhase_reqPre (by simp), afterPhase_reqLrn (by simp) (by simp),
          afterPhase_reqPost (by simp) (by simp)]
        simp [c2, c3]
      have h2 : rank l.svc = 1 := by simp [rank, c2, c3, c4]
      simp at this ⊢
      omega
  · rw [iterate_pause c.1 c.2.2]; simp
  · rw [iterate_stop c.1 c.2.2.2]; simp
  · rw [iterate_phase c.1 c.2.2.2.2]
    obtain ⟨d1, d2, d3, d4, d5⟩ := phaseIter_cases e l l.svc (decide (l.curr = n)) .host
    rcases d5 with d5 | d5
    · left; rw [d5.1]; simp
    · left; rw [d5.1]; simp
  · rw [iterate_phase c.1 c.2.2.2.2]
    obtain ⟨d1, d2, d3, d4, d5⟩ := phaseIter_cases e l l.svc (decide (l.curr = n)) .spk
    rcases d5 with d5 | d5
    · left; rw [d5.1]; simp
    · right
      have h2 : l.curr ≠ n := by simpa using c.2.1
      have := h.le
      simp only [work, d1]
      have h3 := rank_le (phaseIter e l l.svc (decide (l.curr = n)) .spk).svc
      simp only [c0, if_true]
      omega

theorem loop_done {e : Env} {n : Nat} : ∀ (fuel : Nat) (l : Loop), LInv n l → l.status = .running →
    work n l < fuel → (loop e n fuel l).status ≠ .running := by
  intro fuel
  induction fuel with
  | zero => intro l _ _ h; omega
  | succ k ih =>
    intro l h hr hw
    rw [loop_running _ _ _ _ hr]
    have hi := linv_iterate (e := e) h hr
    rcases iterate_work (e := e) h hr with a | a
    · rw [loop_stop _ _ _ _ a]; exact a
    · by_cases hr2 : (iterate e n l).status = .running
      · exact ih _ hi hr2 (by omega)
      · rw [loop_stop _ _ _ _ hr2]; exact hr2

end Verif.RuntimeService
