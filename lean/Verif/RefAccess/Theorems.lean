import Verif.RefAccess.Acyclic

/-!
# C113: access to Vars of other processes through RefPorts
-/

namespace Verif.RefAccess

open Verif.EndToEnd (Phase Flags noFlags nextPhase)

variable {S V : Type} {y : Sys S V} {cs cd : Nat → Nat} {W : Nat → Prop}

theorem exec_append (n : Net Ch (Proc S V) (Msg V)) (s : St Ch (Proc S V) (Msg V)) (a b : List (Nat × Nat)) :
    exec n s (a ++ b) = exec n (exec n s a) b := by
  induction a generalizing s with
  | nil => rfl
  | cons l a ih => exact ih _

/-- **C113.** If the reference gets to the end, so does the system, whatever the schedule: no schedule has more than `N` effective steps,
every one can be continued to the end, and at the end the Vars of all processes and the data in the channels are those of the reference, and
no request, reply, command or response is on its way. -/
theorem C113_outcome (hy : Tidy y cs cd W) (turns : Order S V) (runs : List Nat) {r : Vals S V} (hr : runAll y turns runs = some r) :
    (∃ N, ∀ ls, effective (net y) (initial y runs) ls ≤ N) ∧
    (∀ ls, ∃ more, Stuck (net y) (exec (net y) (initial y runs) (ls ++ more))) ∧
    ∀ ls, Stuck (net y) (exec (net y) (initial y runs) ls) →
      Finished (exec (net y) (initial y runs) ls) ∧ (∀ i, varsOf (exec (net y) (initial y runs) ls) i = some (r.1 i)) ∧
      (∀ c, (exec (net y) (initial y runs) ls).chan (.data c) = (r.2 c).map .data) ∧
      (∀ e, (exec (net y) (initial y runs) ls).chan (.req e) = [] ∧ (exec (net y) (initial y runs) ls).chan (.rep e) = []) ∧
      (∀ i, (exec (net y) (initial y runs) ls).chan (.cmd i) = [] ∧ (exec (net y) (initial y runs) ls).chan (.rsp i) = []) := by
  obtain ⟨ph, N, hN⟩ := runs_reach hy turns runs .spk (r := (y.init, fun _ => [])) hr
  rw [← initial_calm] at hN
  have hst := calm_stuck (y := y) noFlags ph r.1 r.2
  have ext := fun ls => (exec_steps (net y) (initial y runs) ls).extend (commutes hy) (inv_initial (cs := cs) (cd := cd) (W := W) runs) hN hst
  refine ⟨⟨N, fun ls => ?_⟩, fun ls => ?_, fun ls hs => ?_⟩
  · obtain ⟨k, h, _⟩ := ext ls; omega
  · obtain ⟨k, _, h⟩ := ext ls
    obtain ⟨more, h1, _⟩ := h.exec
    exact ⟨more, by rw [exec_append, h1]; exact hst⟩
  · obtain ⟨k, _, h⟩ := ext ls
    rw [(h.of_stuck hs).2]
    exact ⟨⟨_, rfl⟩, fun i => rfl, fun c => rfl, fun e => ⟨rfl, rfl⟩, fun i => ⟨rfl, rfl⟩⟩

/-- **C113.** Disciplined use is deterministic, whether the runs get to the end or not: two schedules that cannot be continued lead to the same
state, after the same number of effective steps. -/
theorem C113_deterministic (hy : Tidy y cs cd W) (runs : List Nat) (ls ls' : List (Nat × Nat))
    (h : Stuck (net y) (exec (net y) (initial y runs) ls)) (h' : Stuck (net y) (exec (net y) (initial y runs) ls')) :
    exec (net y) (initial y runs) ls = exec (net y) (initial y runs) ls' ∧
      effective (net y) (initial y runs) ls = effective (net y) (initial y runs) ls' := by
  obtain ⟨k, hk, h2⟩ := (exec_steps (net y) (initial y runs) ls).extend (commutes hy) (inv_initial (cs := cs) (cd := cd) (W := W) runs)
    (exec_steps (net y) (initial y runs) ls') h'
  obtain ⟨h3, h4⟩ := h2.of_stuck h
  exact ⟨h4, by omega⟩

/-- **C113.** A request is served only when the owner of the Var has finished its own method of the very phase in which the requester is. -/
theorem C113_served_after_own_method (hy : Tidy y cs cd W) (runs : List Nat) (ls : List (Nat × Nat)) {i e : Nat}
    (h : step (net y) (exec (net y) (initial y runs) ls) (i + 1, e + 1) ≠ none) :
    e < y.ne ∧ y.dst e = i ∧ ∃ mo mr, (exec (net y) (initial y runs) ls).q (i + 1) = .mdl mo ∧
      (exec (net y) (initial y runs) ls).q (y.src e + 1) = .mdl mr ∧ mo.pc = .idle ∧ mr.pc ≠ .idle ∧ mgmt mr.ph = true ∧ mo.ph = mr.ph := by
  obtain ⟨x, m, ha, hg⟩ := (exec_steps (net y) (initial y runs) ls).keep (commutes hy) (inv_initial (cs := cs) (cd := cd) (W := W) runs)
  obtain ⟨t, ht⟩ := Option.ne_none_iff_exists'.1 h
  obtain ⟨x', m', _, htr⟩ := step_trans ha ht
  obtain ⟨hi, he, hd, hp, hpc, hc⟩ := htr.served
  obtain ⟨r, rs, hr⟩ := List.exists_cons_of_ne_nil hc
  obtain ⟨a, b, _⟩ := (hg.edge _ (hy.src_lt e he)).pending he hr
  have hq := hg.round.quiet (i := y.src e) (j := i) (hy.src_lt e he) hi a b (isIdle_iff.2 hpc) hp
  refine ⟨he, hd, _, _, ha.2 i, ha.2 _, hpc, ?_, b, hq.2⟩
  intro h0
  rw [h0] at a; cases a

/-- **C113.** `wait` makes the writes of a method disciplined: a method that waits on the RefPorts it has written through, and is disciplined
after that, is disciplined. -/
theorem C113_wait_suffices (e : Nat) (v : V) (k : Prog S V) (pend : Nat → Prop) (hk : k.Waits fun x => pend x ∧ x ≠ e) :
    (Prog.wait e k).Waits pend ∧ (Prog.write e v (.wait e k)).Waits (fun x => pend x ∧ x ≠ e) := by
  refine ⟨fun _ => hk, fun _ => ?_⟩
  have : (fun x => ((pend x ∧ x ≠ e) ∨ x = e) ∧ x ≠ e) = (fun x => pend x ∧ x ≠ e) := by
    funext x
    refine propext ⟨fun h => h.1.resolve_right h.2, fun h => ⟨.inl h, h.2⟩⟩
  rw [this]; exact hk

theorem body_noData (hpre : ∀ i s, (y.pre i s).NoData) (hpost : ∀ i s, (y.post i s).NoData) (ph : Phase) (h : mgmt ph = true) (i : Nat) (s : S) :
    (y.body i ph s).NoData := by
  cases ph with
  | pre => unfold Sys.body; dsimp only; split; exact hpre i s; trivial
  | post => unfold Sys.body; dsimp only; split; exact hpost i s; trivial
  | _ => cases h

/-- **C113.** If no circle of accesses is possible (`rank`), management methods do nothing but access, and the other phases get to the end
without leaving data behind, then every run gets to its end under every schedule. -/
theorem C113_no_circle_finishes (hy : Tidy y cs cd W) {rank : Nat → Nat} (hrank : ∀ e, e < y.ne → rank (y.dst e) < rank (y.src e))
    (hpre : ∀ i s, (y.pre i s).NoData) (hpost : ∀ i s, (y.post i s).NoData) (turns : Order S V)
    (hspk : ∀ σ, ∃ σ', phaseRef y turns .spk (σ, fun _ => []) = some (σ', fun _ => []))
    (hlrn : ∀ σ, ∃ σ', phaseRef y turns .lrn (σ, fun _ => []) = some (σ', fun _ => [])) (runs : List Nat) :
    (∃ N, ∀ ls, effective (net y) (initial y runs) ls ≤ N) ∧
    ∀ ls, (∃ more, Stuck (net y) (exec (net y) (initial y runs) (ls ++ more))) ∧
      (Stuck (net y) (exec (net y) (initial y runs) ls) → Finished (exec (net y) (initial y runs) ls)) := by
  obtain ⟨turns', r, hr⟩ := acyclic_runs hy hrank (body_noData hpre hpost .pre rfl) (body_noData hpre hpost .post rfl) turns hspk hlrn runs
  obtain ⟨h1, h2, h3⟩ := C113_outcome hy turns' runs hr
  exact ⟨h1, fun ls => ⟨h2 ls, fun h => (h3 ls h).1⟩⟩

/-- **C113.** If models get to wait for each other in a circle in a management phase of a time step (in any order of turns), no schedule
finishes the runs. -/
theorem C113_circle_never_finishes (hy : Tidy y cs cd W) (turns : Order S V) (runs : List Nat) {k : Nat} (hk : k < runs.sum) {r ρ : Vals S V}
    (hr : stepsRef y turns k (y.init, fun _ => []) = some r) {ph : Phase}
    (hρ : (ph = .pre ∧ atPre y turns r = some ρ) ∨ (ph = .post ∧ atPost y turns r = some ρ)) (l : List Nat) {C : Nat → Prop} {i0 : Nat} (h0 : C i0)
    (hC : Circle y C (l.foldl (turn y) (called y ph ρ))) (ls : List (Nat × Nat)) : ¬ Finished (exec (net y) (initial y runs) ls) := by
  obtain ⟨t, cur, rs, lp, hlt, hre⟩ := arrive_reach hy turns runs .spk k hk hr
  rw [← initial_calm] at hre
  have hsane := body_sane hy ph ρ.1 ρ.2
  have hs := turns_sane hy ph l _ hsane
  have hkept := turns_kept (y := y) l _ (called_kept hy ph ρ)
  rcases hρ with ⟨rfl, hρ⟩ | ⟨rfl, hρ⟩
  · obtain ⟨f, h1⟩ := atPre_reach hy turns lp (rs := rs) hlt hρ
    exact never_finished hy h0 hs hkept hC (inv_initial runs) ((hre.trans h1).trans (turns_reach hy _ .pre l _ hsane)) ls
  · obtain ⟨f, h1⟩ := atPost_reach hy turns lp (rs := rs) hlt hρ
    exact never_finished hy h0 hs hkept hC (inv_initial runs) ((hre.trans h1).trans (turns_reach hy _ .post l _ hsane)) ls

/-- To see that nobody can do anything it suffices to try the service, the models and their VarPorts. -/
theorem stuck_of {s : St Ch (Proc S V) (Msg V)} (h : ∀ p, p ≤ y.n → ∀ a, a ≤ y.ne → (step (net y) s (p, a)).isNone = true) : Stuck (net y) s := by
  rintro ⟨p, a⟩
  by_cases hp : p ≤ y.n
  · by_cases ha : a ≤ y.ne
    · exact Option.isNone_iff_eq_none.1 (h p hp a ha)
    · have hv : view y p (s.q p) a = .none := by
        unfold view
        split
        · rw [if_neg (by omega)]
        · split
          · rename_i m hq hi
            have : ∀ i, mdlView y i m a = .none := by
              intro i
              obtain ⟨e, rfl⟩ : ∃ e, a = e + 1 := ⟨a - 1, by omega⟩
              obtain ⟨ms, mph, pc⟩ := m
              unfold mdlView
              cases pc with
              | idle => dsimp only; rw [if_neg (by omega)]
              | run P => cases P <;> rfl
              | await e' k => rfl
              | failed => rfl
            rw [this]; rfl
          · rfl
        · rfl
      unfold step
      rw [show (net y).view (p, a).1 (s.q (p, a).1) (p, a).2 = .none from hv]
  · have hv : view y p (s.q p) a = .none := by
      unfold view
      split
      · omega
      · rw [if_neg (by omega)]
      · rfl
    unfold step
    rw [show (net y).view (p, a).1 (s.q (p, a).1) (p, a).2 = .none from hv]

end Verif.RefAccess
