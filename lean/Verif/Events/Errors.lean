import Verif.Events.Findings

/-!
# C91: exceptions with several runtime services

Several synchronous networks of processes, each with its own runtime service, and a blocking run of `n` steps. No process model requests a pause or stop.
-/

namespace Verif.Events

variable {D : Type}

/-- No process model requests a pause or stop. -/
def NoRequests (tick : D → Option (D × Ev)) : Prop := ∀ d d' e, tick d = some (d', e) → e.pause = false ∧ e.stop = false

/-! ## One service -/

theorem ends_uncons {tick : D → Option (D × Ev)} {d d1 : D} (h : tick d = some (d1, ⟨false, false, 0⟩)) {k : Nat} {x : End D}
    (hx : Ends tick (some (k + 1)) d x) : Ends tick (some k) d1 x := by
  have key : ∀ j a b (e : Ev), Quietly tick j d a → tick a = some (b, e) → e ≠ ⟨false, false, 0⟩ → ∃ i, j = i + 1 ∧ Quietly tick i d1 a := by
    intro j a b e hq ht hne
    cases j with
    | zero =>
      cases hq
      rw [h] at ht
      simp only [Option.some.injEq, Prod.mk.injEq] at ht
      exact absurd ht.2.symm hne
    | succ i =>
      obtain ⟨y, hy, hq⟩ := quietly_inv hq
      rw [h] at hy
      simp only [Option.some.injEq, Prod.mk.injEq, and_true] at hy
      subst hy
      exact ⟨i, rfl, hq⟩
  cases hx with
  | done m d' hm hq =>
    simp only [Option.some.injEq] at hm
    subst hm
    obtain ⟨y, hy, hq⟩ := quietly_inv hq
    rw [h] at hy
    simp only [Option.some.injEq, Prod.mk.injEq, and_true] at hy
    subst hy
    exact .done _ _ rfl hq
  | paused j a b e hk hq ht h0 h1 =>
    obtain ⟨i, rfl, hq2⟩ := key j a b e hq ht (by rintro rfl; simp at h1)
    have := Ends.paused (n := some k) i a b e (by intro m hm; have := hk (k + 1) rfl; simp only [Option.some.injEq] at hm; omega) hq2 ht h0 h1
    simpa using this
  | stopped j a b e hk hq ht h0 h1 h2 =>
    obtain ⟨i, rfl, hq2⟩ := key j a b e hq ht (by rintro rfl; simp at h2)
    have := Ends.stopped (n := some k) i a b e (by intro m hm; have := hk (k + 1) rfl; simp only [Option.some.injEq] at hm; omega) hq2 ht h0 h1 h2
    simpa using this
  | raised j a b e hk hq ht h0 =>
    obtain ⟨i, rfl, hq2⟩ := key j a b e hq ht (by rintro rfl; simp at h0)
    exact .raised i a b e (by intro m hm; have := hk (k + 1) rfl; simp only [Option.some.injEq] at hm; omega) hq2 ht h0

/-- Where a service can be; `c`: its response has been received. -/
inductive EPh (tick : D → Option (D × Ev)) (n : Nat) (d : D) : Bool → Svc D → Prop where
  | todo : EPh tick n d false ⟨.idle, [.run (some n)], [], d, false, false, false, false, 0⟩
  | busy (k x) : (∀ e, Ends tick (some k) x e ↔ Ends tick (some n) d e) → EPh tick n d false ⟨.busy (some k), [], [], x, false, false, false, false, 0⟩
  | done (x) : Ends tick (some n) d (.done x) → EPh tick n d false ⟨.idle, [], [.done], x, false, false, false, false, 0⟩
  | got (x) : Ends tick (some n) d (.done x) → EPh tick n d true ⟨.idle, [], [], x, false, false, false, false, 0⟩
  | raised (x m) : Ends tick (some n) d (.raised m) → EPh tick n d false ⟨.dead, [], [.error], x, false, false, false, false, m⟩
  | told (x m) : Ends tick (some n) d (.raised m) → EPh tick n d true ⟨.dead, [], [], x, false, false, false, false, m⟩

theorem eph_step {tick : D → Option (D × Ev)} (hr : NoRequests tick) {n : Nat} {d : D} {c : Bool} {s y : Svc D} (h : EPh tick n d c s) (hs : svcStep tick s = some y) :
    EPh tick n d c y := by
  cases h with
  | todo =>
    simp only [svcStep, Option.some.injEq] at hs
    subst hs
    exact .busy n d fun _ => Iff.rfl
  | busy k x he =>
    cases k with
    | zero =>
      simp only [svcStep, Bool.false_eq_true, if_false, Option.some.injEq] at hs
      subst hs
      have : EPh tick n d false (⟨.idle, [], [.done], x, false, false, false, false, 0⟩ : Svc D) := .done x ((he _).1 (.done 0 x rfl (.zero _)))
      simpa [doneMsg, probe] using this
    | succ k =>
      simp only [svcStep, Bool.false_eq_true, if_false] at hs
      obtain ⟨⟨x', p, q, m⟩, ht, rfl⟩ := Option.map_eq_some_iff.1 hs
      obtain ⟨hp, hq⟩ := hr _ _ _ ht
      simp only at hp hq
      subst hp hq
      cases m with
      | zero =>
        have : EPh tick n d false (⟨.busy (some k), [], [], x', false, false, false, false, 0⟩ : Svc D) :=
          .busy k x' fun e => by rw [← he e]; exact ⟨ends_cons ht (.count k), ends_uncons ht⟩
        simpa [timeStep, probe] using this
      | succ m =>
        have : EPh tick n d false (⟨.dead, [], [.error], x', false, false, false, false, m + 1⟩ : Svc D) :=
          .raised x' (m + 1) ((he _).1 (.raised 0 x x' ⟨false, false, m + 1⟩ (by simp) (.zero _) ht (by simp)))
        simpa [timeStep] using this
  | done x _ => simp [svcStep] at hs
  | got x _ => simp [svcStep] at hs
  | raised x m _ => simp [svcStep] at hs
  | told x m _ => simp [svcStep] at hs

theorem eph_halts {tick : D → Option (D × Ev)} {n : Nat} {d : D} {c : Bool} {s : Svc D} (h : EPh tick n d c s) (he : ∃ e, Ends tick (some n) d e) : ∃ k, Halts tick s k := by
  cases h with
  | todo =>
    obtain ⟨j, hj⟩ := halts_busy (some n) d he false false
    exact ⟨j + 1, .step _ _ _ (by simp [svcStep]) hj⟩
  | busy k x hx =>
    obtain ⟨e, he⟩ := he
    exact halts_busy (some k) x ⟨e, (hx e).2 he⟩ false false
  | done x _ => exact ⟨0, .rest _ (by simp [svcStep])⟩
  | got x _ => exact ⟨0, .rest _ (by simp [svcStep])⟩
  | raised x m _ => exact ⟨0, .rest _ (by simp [svcStep])⟩
  | told x m _ => exact ⟨0, .rest _ (by simp [svcStep])⟩

/-- Nothing received yet. -/
def fresh (d : D) : Svc D := ⟨.idle, [], [], d, false, false, false, false, 0⟩

/-! ## All services -/

def countTrue (S : Nat) (c : Nat → Bool) : Nat := (List.range S).countP c

theorem countTrue_upd (S : Nat) (c : Nat → Bool) (j : Nat) (hj : j < S) (hc : c j = false) : countTrue S (upd c j true) = countTrue S c + 1 := by
  have hle : ∀ S, S ≤ j → countTrue S (upd c j true) = countTrue S c := by
    intro S hS
    apply List.countP_congr
    intro x hx
    have : x < S := List.mem_range.1 hx
    rw [upd_ne _ (by omega)]
  induction S with
  | zero => omega
  | succ S ih =>
    have hrec : ∀ c : Nat → Bool, countTrue (S + 1) c = countTrue S c + if c S = true then 1 else 0 := by
      intro c
      simp [countTrue, List.range_succ, List.countP_cons]
    rw [hrec, hrec]
    by_cases h : j = S
    · subst h
      rw [hle j (Nat.le_refl _)]
      simp [hc]
    · rw [ih (by omega), upd_ne _ (by omega)]
      omega

theorem countTrue_all (S : Nat) (c : Nat → Bool) (h : countTrue S c = S) : ∀ i, i < S → c i = true := by
  have h1 : (List.range S).countP c = (List.range S).length := by rw [List.length_range]; exact h
  intro i hi
  exact List.countP_eq_length.1 h1 i (List.mem_range.2 hi)

theorem countTrue_false (S : Nat) : countTrue S (fun _ => false) = 0 := by simp [countTrue]

/-- The invariant. -/
inductive EInv (S : Nat) (tick : Nat → D → Option (D × Ev)) (n : Nat) (d : Nat → D) : St D → Prop where
  | start (svc : Nat → Svc D) (r st) : (∀ i, i < S → svc i = fresh (d i)) → EInv S tick n d ⟨svc, [.run n true], .ready, r, st, []⟩
  | send (svc : Nat → Svc D) (i : Nat) (r st) : (∀ j, j < S → j < i → EPh (tick j) n (d j) false (svc j)) → (∀ j, j < S → i ≤ j → svc j = fresh (d j)) →
      EInv S tick n d ⟨svc, [], .sendRun (some n) true i, r, st, []⟩
  | collect (svc : Nat → Svc D) (c : Nat → Bool) (g r st) : (∀ j, j < S → EPh (tick j) n (d j) (c j) (svc j)) → (∀ j, j < S → c j = true → (svc j).mode = .idle) → countTrue S c = g →
      (g < S ∨ S = 0) → EInv S tick n d ⟨svc, [], .collect g, r, st, []⟩
  | join (svc : Nat → Svc D) (c : Nat → Bool) (r st) : (∀ j, j < S → EPh (tick j) n (d j) (c j) (svc j)) → (∃ j m, j < S ∧ Ends (tick j) (some n) (d j) (.raised m)) →
      EInv S tick n d ⟨svc, [], .joinErr, r, st, []⟩
  | returned (svc : Nat → Svc D) (r st) (xs : Nat → D) : (∀ j, j < S → EPh (tick j) n (d j) true (svc j)) → (∀ i, i < S → Ends (tick i) (some n) (d i) (.done (xs i))) → EInv S tick n d ⟨svc, [], .ready, r, st, [.returned ((List.range S).map xs)]⟩
  | raised (svc : Nat → Svc D) (r st) (c : Nat → Bool) (m : Nat → Nat) : (∀ j, j < S → EPh (tick j) n (d j) (c j) (svc j)) → (∀ i, i < S → Ends (tick i) (some n) (d i) (.raised (m i))) →
      EInv S tick n d ⟨svc, [], .ready, r, st, [.raised ((List.range S).map m).sum]⟩

theorem einv_svc {S : Nat} {tick : Nat → D → Option (D × Ev)} (hr : ∀ i, NoRequests (tick i)) {n : Nat} {d : Nat → D} {s : St D} (h : EInv S tick n d s) (i : Nat)
    (hi : i < S) (y : Svc D) (hs : svcStep (tick i) (s.svc i) = some y) : EInv S tick n d { s with svc := upd s.svc i y } := by
  have key : ∀ (svc : Nat → Svc D) (c : Nat → Bool) (P : Nat → Prop), (∀ j, j < S → P j → EPh (tick j) n (d j) (c j) (svc j)) → P i → svcStep (tick i) (svc i) = some y →
      ∀ j, j < S → P j → EPh (tick j) n (d j) (c j) (upd svc i y j) := by
    intro svc c P h hP hs j hj hPj
    by_cases he : j = i
    · subst he
      rw [upd_self]
      exact eph_step (hr j) (h j hj hPj) hs
    · rw [upd_ne _ he]
      exact h j hj hPj
  cases h with
  | start svc r st h =>
    simp only [h i hi, fresh] at hs
    simp [svcStep] at hs
  | send svc k r st h1 h2 =>
    by_cases hk : i < k
    · refine .send _ k r st (key svc (fun _ => false) (· < k) h1 hk hs) fun j hj hkj => ?_
      show upd svc i y j = _
      rw [upd_ne _ (by omega)]
      exact h2 j hj hkj
    · simp only [h2 i hi (by omega), fresh] at hs
      simp [svcStep] at hs
  | collect svc c g r st h1 h2 h3 h4 =>
    refine .collect _ c g r st (fun j hj => key svc c (fun _ => True) (fun j hj _ => h1 j hj) trivial hs j hj trivial) (fun j hj hc => ?_) h3 h4
    show (upd svc i y j).mode = _
    by_cases he : j = i
    · subst he
      exfalso
      have hp := h1 j hj
      rw [hc] at hp
      simp only at hs
      generalize svc j = z at hp hs
      cases hp <;> simp [svcStep] at hs
    · rw [upd_ne _ he]; exact h2 j hj hc
  | join svc c r st h1 h2 => exact .join _ c r st (fun j hj => key svc c (fun _ => True) (fun j hj _ => h1 j hj) trivial hs j hj trivial) h2
  | returned svc r st xs h1 h2 =>
    exact .returned _ r st xs (fun j hj => key svc (fun _ => true) (fun _ => True) (fun j hj _ => h1 j hj) trivial hs j hj trivial) h2
  | raised svc r st c m h1 h2 => exact .raised _ r st c m (fun j hj => key svc c (fun _ => True) (fun j hj _ => h1 j hj) trivial hs j hj trivial) h2

/-- A service that has ended and failed no process model raises nothing: here, ended services have failed. -/
theorem eph_dead {tick : D → Option (D × Ev)} {n : Nat} {d : D} {c : Bool} {s : Svc D} (h : EPh tick n d c s) (hd : s.mode = .dead) :
    Ends tick (some n) d (.raised s.errs) := by
  cases h with
  | raised x m he => exact he
  | told x m he => exact he
  | _ => simp at hd

theorem eph_got {tick : D → Option (D × Ev)} {n : Nat} {d : D} {s : Svc D} (h : EPh tick n d true s) (hd : s.mode = .idle) : Ends tick (some n) d (.done s.d) := by
  cases h with
  | got x he => exact he
  | told x m he => simp at hd

theorem einv_host {S : Nat} {tick : Nat → D → Option (D × Ev)} {n : Nat} {d : Nat → D} {s a : St D} (h : EInv S tick n d s) (j : Nat) (hs : hostStep S s j = some a) :
    EInv S tick n d a := by
  cases h with
  | start svc r st h =>
    simp only [hostStep, call, Option.some.injEq] at hs
    subst hs
    exact .send svc 0 _ _ (fun j _ hj => by omega) fun j hj _ => h j hj
  | send svc k r st h1 h2 =>
    simp only [hostStep, if_true] at hs
    split at hs
    · rename_i hk
      simp only [Option.some.injEq] at hs
      subst hs
      refine .send _ (k + 1) r st (fun j hj hjk => ?_) fun j hj hjk => ?_
      · by_cases he : j = k
        · subst he
          rw [upd_self, h2 j hj (Nat.le_refl _)]
          exact .todo
        · rw [upd_ne _ he]
          exact h1 j hj (by omega)
      · rw [upd_ne _ (by omega)]
        exact h2 j hj (by omega)
    · rename_i hk
      simp only [Option.some.injEq] at hs
      subst hs
      exact .collect svc (fun _ => false) 0 r st (fun j hj => h1 j hj (by omega)) (by simp) (countTrue_false S) (by omega)
  | collect svc c g r st h1 h2 h3 h4 =>
    simp only [hostStep] at hs
    split at hs
    · rename_i hj
      have hp := h1 j hj
      generalize hx : svc j = x at hp hs
      have others : ∀ (y : Svc D), EPh (tick j) n (d j) true y → ∀ i, i < S → EPh (tick i) n (d i) (upd c j true i) (upd svc j y i) := by
        intro y hy i hi
        by_cases he : i = j
        · subst he; rw [upd_self, upd_self]; exact hy
        · rw [upd_ne _ he, upd_ne _ he]; exact h1 i hi
      cases hc : c j with
      | true =>
        rw [hc] at hp
        cases hp <;> simp at hs
      | false =>
        rw [hc] at hp
        have hcount := countTrue_upd S c j hj hc
        cases hp with
        | todo => simp at hs
        | busy k y he => simp at hs
        | done y he =>
          have hgot : EPh (tick j) n (d j) true (⟨.idle, [], [], y, false, false, false, false, 0⟩ : Svc D) := .got y he
          have hidle : ∀ i, i < S → upd c j true i = true → (upd svc j (⟨.idle, [], [], y, false, false, false, false, 0⟩ : Svc D) i).mode = .idle := by
            intro i hi hci
            by_cases hij : i = j
            · subst hij; rw [upd_self]
            · rw [upd_ne _ hij] at hci ⊢
              exact h2 i hi hci
          simp only at hs
          split at hs
          · rename_i hg
            simp only [Option.some.injEq, pop, St.ret, hx, List.nil_append] at hs
            subst hs
            have hall := countTrue_all S (upd c j true) (by rw [hcount, h3, hg])
            have ho := others _ hgot
            refine .returned _ _ _ (fun i => (upd svc j (⟨.idle, [], [], y, false, false, false, false, 0⟩ : Svc D) i).d) (fun i hi => ?_) (fun i hi => ?_)
            · have := ho i hi; rwa [hall i hi] at this
            · have := ho i hi
              rw [hall i hi] at this
              exact eph_got this (hidle i hi (hall i hi))
          · rename_i hg
            simp only [Option.some.injEq, pop, hx] at hs
            subst hs
            refine .collect _ (upd c j true) (g + 1) r st (others _ hgot) hidle (by rw [hcount, h3]) (by omega)
        | raised y m he =>
          simp only [Option.some.injEq, pop, hx] at hs
          subst hs
          exact .join _ (upd c j true) r st (others _ (.told y m he)) ⟨j, m, hj, he⟩
    · simp at hs
  | join svc c r st h1 h2 =>
    simp only [hostStep] at hs
    split at hs
    · rename_i hd
      simp only [Option.some.injEq, St.ret, List.nil_append] at hs
      subst hs
      refine .raised svc r st c (fun i => (svc i).errs) h1 fun i hi => eph_dead (h1 i hi) ?_
      simp only [allDead, List.all_eq_true, List.mem_range, decide_eq_true_eq] at hd
      exact hd i hi
    · simp at hs
  | returned svc r st xs h1 h2 => simp [hostStep] at hs
  | raised svc r st c m h1 h2 => simp [hostStep] at hs

theorem einv_exec {S : Nat} {tick : Nat → D → Option (D × Ev)} (hr : ∀ i, NoRequests (tick i)) {n : Nat} {d : Nat → D} : ∀ (ls : List Lbl) (s : St D),
    EInv S tick n d s → EInv S tick n d (exec S tick s ls)
  | [], _, h => h
  | l :: ls, s, h => by
    rw [exec]
    apply einv_exec hr ls
    rcases step_cases S tick s l with h1 | ⟨j, a, _, h1, h2⟩ | ⟨i, y, hi, _, h1, h2⟩
    · rw [h1]; exact h
    · rw [h2]; exact einv_host h j h1
    · rw [h2]; exact einv_svc hr h i hi y h1

/-- **C91.** Several networks of processes in a blocking run, no requests. Under every schedule the run either has not returned, or it returns and every network did all its steps,
or it raises and in every network process models failed, and the number reported is the number of all of them. -/
theorem C91_outcomes (S : Nat) (tick : Nat → D → Option (D × Ev)) (hr : ∀ i, NoRequests (tick i)) (n : Nat) (d : Nat → D) (ls : List Lbl) :
    (exec S tick (init d [.run n true]) ls).log = [] ∨
    (∃ xs : Nat → D, (∀ i, i < S → Ends (tick i) (some n) (d i) (.done (xs i))) ∧ (exec S tick (init d [.run n true]) ls).log = [.returned ((List.range S).map xs)]) ∨
    ∃ m : Nat → Nat, (∀ i, i < S → Ends (tick i) (some n) (d i) (.raised (m i))) ∧ (exec S tick (init d [.run n true]) ls).log = [.raised ((List.range S).map m).sum] := by
  have h := einv_exec (S := S) hr (n := n) (d := d) ls (init d [.run n true]) (.start _ _ _ fun i _ => rfl)
  generalize exec S tick (init d [.run n true]) ls = s at h
  cases h with
  | start => exact Or.inl rfl
  | send => exact Or.inl rfl
  | collect => exact Or.inl rfl
  | join => exact Or.inl rfl
  | returned svc r st xs h1 h2 => exact Or.inr (Or.inl ⟨xs, h2, rfl⟩)
  | raised svc r st c m h1 h2 => exact Or.inr (Or.inr ⟨m, h2, rfl⟩)

/-- **C91, the gap.** If process models of one network fail and those of another do not, the run never returns, under no schedule: the exception is not reported. -/
theorem C91_one_fails (S : Nat) (tick : Nat → D → Option (D × Ev)) (hr : ∀ i, NoRequests (tick i)) (n : Nat) (d : Nat → D) (i j m : Nat) (x : D) (hi : i < S) (hj : j < S)
    (h1 : Ends (tick i) (some n) (d i) (.raised m)) (h2 : Ends (tick j) (some n) (d j) (.done x)) (ls : List Lbl) : (exec S tick (init d [.run n true]) ls).log = [] := by
  rcases C91_outcomes S tick hr n d ls with h | ⟨xs, h, _⟩ | ⟨ms, h, _⟩
  · exact h
  · cases ends_det h1 (h i hi)
  · cases ends_det h2 (h j hj)

theorem einv_runTo {S : Nat} {tick : Nat → D → Option (D × Ev)} (hr : ∀ i, NoRequests (tick i)) (n : Nat) (d : Nat → D) (sched : Nat → Lbl) (t : Nat) :
    EInv S tick n d (runTo S tick (init d [.run n true]) sched t) := by
  rw [runTo_exec]
  exact einv_exec hr _ _ (.start _ _ _ fun i _ => rfl)

theorem einv_rest {S : Nat} (hS : 0 < S) {tick : Nat → D → Option (D × Ev)} (hr : ∀ i, NoRequests (tick i)) (n : Nat) (d : Nat → D) (sched : Nat → Lbl) (hf : Fair S sched)
    (he : ∀ i, i < S → ∃ e, Ends (tick i) (some n) (d i) e) :
    ∃ T, (∀ t, T ≤ t → runTo S tick (init d [.run n true]) sched t = runTo S tick (init d [.run n true]) sched T) ∧
      ∀ i, i < S → svcStep (tick i) ((runTo S tick (init d [.run n true]) sched T).svc i) = none ∧ hostStep S (runTo S tick (init d [.run n true]) sched T) i = none := by
  have hI := einv_runTo hr n d sched (S := S)
  obtain ⟨T, hT | hT⟩ := eventually_rest S tick (init d [.run n true]) sched hf (fun t g hg => by
      have h := hI t
      generalize runTo S tick (init d [.run n true]) sched t = s at h hg
      cases h <;> simp only [reduceCtorEq, Pc.collect.injEq] at hg
      omega) (fun t _ i hi => by
      have h := hI t
      generalize runTo S tick (init d [.run n true]) sched t = s at h
      cases h with
      | start svc r st h => simp only [h i hi]; exact ⟨0, .rest _ (by simp [svcStep, fresh])⟩
      | send svc k r st h1 h2 =>
        by_cases hk : i < k
        · exact eph_halts (h1 i hi hk) (he i hi)
        · simp only [h2 i hi (by omega)]; exact ⟨0, .rest _ (by simp [svcStep, fresh])⟩
      | collect svc c g r st h1 h2 h3 h4 => exact eph_halts (h1 i hi) (he i hi)
      | join svc c r st h1 h2 => exact eph_halts (h1 i hi) (he i hi)
      | returned svc r st xs h1 h2 => exact eph_halts (h1 i hi) (he i hi)
      | raised svc r st c m h1 h2 => exact eph_halts (h1 i hi) (he i hi))
  · exfalso
    have h := hI T
    have hp := hT T (Nat.le_refl _)
    generalize runTo S tick (init d [.run n true]) sched T = s at h hp
    cases h <;> simp at hp
  · exact ⟨T, hT⟩

/-- At rest, a service has been asked and has answered. -/
theorem eph_rest {tick : D → Option (D × Ev)} {n : Nat} {d : D} {c : Bool} {s : Svc D} (h : EPh tick n d c s) (he : ∃ e, Ends tick (some n) d e) (hr : svcStep tick s = none) :
    c = true ∨ s.outq = [.done] ∨ s.outq = [.error] := by
  cases h with
  | todo => simp [svcStep] at hr
  | busy k x hx =>
    obtain ⟨e, he⟩ := he
    exact absurd hr (busy_moves (some k) x ⟨e, (hx e).2 he⟩ false false)
  | done x _ => simp
  | got x _ => simp
  | raised x m _ => simp
  | told x m _ => simp

/-- At rest, a service whose process models fail has ended. -/
theorem eph_rest_dead {tick : D → Option (D × Ev)} {n : Nat} {d : D} {c : Bool} {s : Svc D} {m : Nat} (h : EPh tick n d c s) (he : Ends tick (some n) d (.raised m))
    (hr : svcStep tick s = none) : s.mode = .dead := by
  cases h with
  | todo => simp [svcStep] at hr
  | busy k x hx => exact absurd hr (busy_moves (some k) x ⟨_, (hx _).2 he⟩ false false)
  | done x hx => cases ends_det he hx
  | got x hx => cases ends_det he hx
  | raised x m _ => rfl
  | told x m _ => rfl

/-- What the run can be at rest. -/
theorem einv_final {S : Nat} (hS : 0 < S) {tick : Nat → D → Option (D × Ev)} {n : Nat} {d : Nat → D} {s : St D} (h : EInv S tick n d s)
    (he : ∀ i, i < S → ∃ e, Ends (tick i) (some n) (d i) e) (hrest : ∀ i, i < S → svcStep (tick i) (s.svc i) = none ∧ hostStep S s i = none) :
    s.log ≠ [] ∨ (s.pc = .joinErr ∧ ∃ i, i < S ∧ (s.svc i).mode ≠ .dead) := by
  cases h with
  | start svc r st h => have := (hrest 0 hS).2; simp [hostStep] at this
  | send svc k r st h1 h2 =>
    have := (hrest 0 hS).2
    simp only [hostStep, if_true] at this
    split at this <;> simp at this
  | collect svc c g r st h1 h2 h3 h4 =>
    exfalso
    have hall : ∀ i, i < S → c i = true := by
      intro i hi
      obtain ⟨hs, hh⟩ := hrest i hi
      rcases eph_rest (h1 i hi) (he i hi) hs with h | h | h
      · exact h
      · simp only [hostStep, hi, if_true, h] at hh
        split at hh <;> simp at hh
      · simp [hostStep, hi, h] at hh
    have : countTrue S c = S := by
      have h1 : (List.range S).countP c = (List.range S).length := List.countP_eq_length.2 fun i hi => hall i (List.mem_range.1 hi)
      rw [List.length_range] at h1
      exact h1
    omega
  | join svc c r st h1 h2 =>
    right
    refine ⟨rfl, ?_⟩
    have := (hrest 0 hS).2
    simp only [hostStep] at this
    split at this
    · simp at this
    · rename_i hd
      simp only [allDead, List.all_eq_true, List.mem_range, decide_eq_true_eq] at hd
      push Not at hd
      exact hd
  | returned svc r st xs h1 h2 => left; simp
  | raised svc r st c m h1 h2 => left; simp

/-- **C91, completion.** If all networks do all their steps, then under every fair schedule the run returns, with the data of all of them. -/
theorem C91_returns (S : Nat) (hS : 0 < S) (tick : Nat → D → Option (D × Ev)) (hr : ∀ i, NoRequests (tick i)) (n : Nat) (d : Nat → D) (sched : Nat → Lbl) (hf : Fair S sched)
    (xs : Nat → D) (he : ∀ i, i < S → Ends (tick i) (some n) (d i) (.done (xs i))) :
    ∃ T, ∀ t, T ≤ t → (runTo S tick (init d [.run n true]) sched t).log = [.returned ((List.range S).map xs)] := by
  obtain ⟨T, h1, h2⟩ := einv_rest hS hr n d sched hf fun i hi => ⟨_, he i hi⟩
  refine ⟨T, fun t ht => ?_⟩
  rw [h1 t ht]
  have hI := einv_runTo hr n d sched T (S := S)
  rcases einv_final hS hI (fun i hi => ⟨_, he i hi⟩) h2 with h | ⟨hpc, _⟩
  · have := C91_outcomes S tick hr n d ((List.range T).map sched)
    rw [← runTo_exec] at this
    rcases this with h' | ⟨ys, h', hl⟩ | ⟨ms, h', hl⟩
    · exact absurd h' h
    · rw [hl]
      congr 2
      apply List.map_congr_left
      intro i hi
      have := ends_det (he i (List.mem_range.1 hi)) (h' i (List.mem_range.1 hi))
      simp only [End.done.injEq] at this
      exact this.symm
    · cases ends_det (he 0 hS) (h' 0 hS)
  · exfalso
    generalize runTo S tick (init d [.run n true]) sched T = s at hI hpc
    cases hI <;> simp at hpc
    rename_i h
    obtain ⟨j, m, hj, hx⟩ := h
    cases ends_det (he j hj) hx

/-- **C91, completion.** If in every network process models fail, then under every fair schedule the run raises, and the number of exceptions reported is the number of all
process models that failed. -/
theorem C91_raises (S : Nat) (hS : 0 < S) (tick : Nat → D → Option (D × Ev)) (hr : ∀ i, NoRequests (tick i)) (n : Nat) (d : Nat → D) (sched : Nat → Lbl) (hf : Fair S sched)
    (m : Nat → Nat) (he : ∀ i, i < S → Ends (tick i) (some n) (d i) (.raised (m i))) :
    ∃ T, ∀ t, T ≤ t → (runTo S tick (init d [.run n true]) sched t).log = [.raised ((List.range S).map m).sum] := by
  obtain ⟨T, h1, h2⟩ := einv_rest hS hr n d sched hf fun i hi => ⟨_, he i hi⟩
  refine ⟨T, fun t ht => ?_⟩
  rw [h1 t ht]
  have hI := einv_runTo hr n d sched T (S := S)
  rcases einv_final hS hI (fun i hi => ⟨_, he i hi⟩) h2 with h | ⟨hpc, i, hi, hm⟩
  · have := C91_outcomes S tick hr n d ((List.range T).map sched)
    rw [← runTo_exec] at this
    rcases this with h' | ⟨ys, h', hl⟩ | ⟨ms, h', hl⟩
    · exact absurd h' h
    · cases ends_det (he 0 hS) (h' 0 hS)
    · rw [hl]
      congr 3
      apply List.map_congr_left
      intro i hi
      have := ends_det (he i (List.mem_range.1 hi)) (h' i (List.mem_range.1 hi))
      simp only [End.raised.injEq] at this
      exact this.symm
  · exfalso
    have hs := (h2 i hi).1
    generalize runTo S tick (init d [.run n true]) sched T = s at hI hpc hs hm
    cases hI <;> simp at hpc
    rename_i h1 _
    have hp := h1 i hi
    simp only at hs hm
    exact hm (eph_rest_dead hp (he i hi) hs)

/-! ## Examples -/

/-- Network `i` counts, and `i + 1` of its process models fail when it reaches `5 + i`, if `fails i`. -/
def count2 (fails : Nat → Bool) (i d : Nat) : Option (Nat × Ev) := some (d + 1, ⟨false, false, if fails i ∧ d + 1 = 5 + i then i + 1 else 0⟩)

theorem count2_quiet (fails : Nat → Bool) (i : Nat) : NoRequests (count2 fails i) := by
  intro d d' e h
  simp only [count2, Option.some.injEq, Prod.mk.injEq] at h
  obtain ⟨_, rfl⟩ := h
  exact ⟨rfl, rfl⟩

/-- A fair schedule of two services. -/
def alternate2 (t : Nat) : Lbl := if t % 2 = 0 then .host (t / 2 % 2) else .svc (t / 2 % 2)

theorem alternate2_fair : Fair 2 alternate2 := by
  intro t i hi
  have h1 : (2 * (2 * t + i)) / 2 = 2 * t + i := by omega
  have h2 : (2 * (2 * t + i) + 1) / 2 = 2 * t + i := by omega
  refine ⟨⟨2 * (2 * t + i), by omega, ?_⟩, ⟨2 * (2 * t + i) + 1, by omega, ?_⟩⟩
  · rw [alternate2, if_pos (by omega), h1]
    congr 1
    omega
  · rw [alternate2, if_neg (by omega), h2]
    congr 1
    omega

theorem count2_quietly (fails : Nat → Bool) (i : Nat) : ∀ k, k < 5 + i → Quietly (count2 fails i) k 0 k
  | 0, _ => .zero _
  | k + 1, h => .succ k 0 k _ (count2_quietly fails i k (by omega)) (by
      have : ¬(fails i = true ∧ k + 1 = 5 + i) := by omega
      simp [count2, this])

/-- The hypotheses of `C91_returns` are met: two networks of which none fails within 4 steps. -/
example : (∀ i, NoRequests (count2 (fun _ => true) i)) ∧ Fair 2 alternate2 ∧ ∀ i, i < 2 → Ends (count2 (fun _ => true) i) (some 4) 0 (.done 4) :=
  ⟨count2_quiet _, alternate2_fair, fun i _ => .done 4 4 rfl (count2_quietly _ i 4 (by omega))⟩

theorem count2_raised (i : Nat) (fails : Nat → Bool) (hf : fails i = true) (hi : i < 2) : Ends (count2 fails i) (some 8) 0 (.raised (i + 1)) := by
  have := Ends.raised (tick := count2 fails i) (n := some 8) (4 + i) (4 + i) (5 + i) ⟨false, false, i + 1⟩
    (by intro m hm; simp only [Option.some.injEq] at hm; omega) (count2_quietly fails i (4 + i) (by omega))
    (by
      have : fails i = true ∧ 4 + i + 1 = 5 + i := ⟨hf, by omega⟩
      simp only [count2, this, and_self, if_true]) (by simp)
  exact this

/-- The hypotheses of `C91_raises` are met. -/
example : ∀ i, i < 2 → Ends (count2 (fun _ => true) i) (some 8) 0 (.raised (i + 1)) := fun i hi => count2_raised i _ rfl hi

example : (runTo 2 (count2 fun _ => true) (init (fun _ => 0) [.run 8 true]) alternate2 100).log = [.raised 3] := by decide +kernel
example : (runTo 2 (count2 fun _ => true) (init (fun _ => 0) [.run 4 true]) alternate2 100).log = [.returned [4, 4]] := by decide +kernel

theorem count2_fine (i : Nat) (fails : Nat → Bool) (hf : fails i = false) : ∀ k, Quietly (count2 fails i) k 0 k
  | 0 => .zero _
  | k + 1 => .succ k 0 k _ (count2_fine i fails hf k) (by simp [count2, hf])

/-- **C91 is false as it stands**: a process model fails, and the run neither returns nor raises. -/
theorem C91_not_reported : ∃ (tick : Nat → Nat → Option (Nat × Ev)) (m x : Nat), (∀ i, NoRequests (tick i)) ∧ Ends (tick 0) (some 8) 0 (.raised m) ∧
    Ends (tick 1) (some 8) 0 (.done x) ∧ ∀ ls, (exec 2 tick (init (fun _ => 0) [.run 8 true]) ls).log = [] := by
  have h0 : Ends (count2 (fun i => i == 0) 0) (some 8) 0 (.raised 1) := count2_raised 0 _ rfl (by omega)
  have h1 : Ends (count2 (fun i => i == 0) 1) (some 8) 0 (.done 8) := .done 8 8 rfl (count2_fine 1 _ rfl 8)
  exact ⟨count2 fun i => i == 0, 1, 8, count2_quiet _, h0, h1, C91_one_fails 2 _ (count2_quiet _) 8 _ 0 1 1 8 (by omega) (by omega) h0 h1⟩

end Verif.Events
