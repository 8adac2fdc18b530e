import Verif.Plastic.PartsSpec

/-!
# C125: networks that learn are their parts
-/

namespace Verif.Plastic

open Verif.Wired.Spec (linkedSum Linked Script Proper)
open Verif.Wiring (Builders Port)
open Verif.EndToEnd (Call Res)
open Verif.PortGraph (G run)
open Verif.Snn (linkedSum_congr)
open Verif.Snn.Spec (Gives)
open Verif.Trains (writesFrom_before writesFrom_append writesFrom_after steps_append started_append)
open Verif.Trains.Spec (Writes steps started writes writesFrom)
open Spec

variable {X V W : Type} [AddCommMonoid V] {g : G} {n : Nat} {own : Nat → Nat} {name : Nat → String} {P : Nat → Proc X V W}

omit [AddCommMonoid V] in
theorem stateWith_congr (P : Proc X V W) {w w' : Nat → Writes W} {a a' : Nat → String → V} : ∀ t, (∀ u, u < t → a u = a' u) → (∀ u, u ≤ t → w u = w' u) → stateWith P w a t = stateWith P w' a' t
  | 0, _, hw => by unfold stateWith; rw [hw 0 (Nat.le_refl 0)]
  | t + 1, h, hw => by
    have ih := stateWith_congr P t (fun u hu => h u (by omega)) fun u hu => hw u (by omega)
    unfold stateWith
    rw [ih, h t (by omega), hw (t + 1) (Nat.le_refl _)]

omit [AddCommMonoid V] in
theorem oneSent_early {Q : Proc X V W} (h : Q.late = false) (s : X) (a : String → V) (x : String) : oneSent Q s a x = Q.out (Q.begin_ s) x := by
  unfold oneSent; rw [h]; rfl

omit [AddCommMonoid V] in
theorem oneSent_late {Q : Proc X V W} (h : Q.late = true) (s : X) (a : String → V) (x : String) : oneSent Q s a x = Q.out (received Q a (Q.begin_ s)) x := by
  unfold oneSent; rw [h]; rfl

/-- Two solutions are the same. -/
theorem agree (hf : Fed g n own name P) {w : Nat → Nat → Writes W} {y y' : Nat → String → Nat → V} (h : SolvesWith g n own name P w y) (h' : SolvesWith g n own name P w y') :
    ∀ t p x, p < n → y p x t = y' p x t := by
  intro t
  induction t using Nat.strong_induction_on with
  | _ t ih =>
    have hpast : ∀ p, ∀ u, u < t → heard g n own name y p u = heard g n own name y' p u := by
      intro p u hu
      funext x
      unfold heard
      apply linkedSum_congr
      intro o ho hl
      exact ih u hu (own o) (name o) hl.1
    have hstate : ∀ p, stateWith (P p) (w p) (heard g n own name y p) t = stateWith (P p) (w p) (heard g n own name y' p) t :=
      fun p => stateWith_congr (P p) t (hpast p) fun _ _ => rfl
    have hearly : ∀ p x, p < n → (P p).late = false → y p x t = y' p x t := by
      intro p x hp hk
      rw [h p x t hp, h' p x t hp, oneSent_early hk, oneSent_early hk, hstate]
    intro p x hp
    cases hk : (P p).late with
    | false => exact hearly p x hp hk
    | true =>
      rw [h p x t hp, h' p x t hp, oneSent_late hk, oneSent_late hk, hstate]
      have e : heard g n own name y p t = heard g n own name y' p t := by
        funext x
        unfold heard
        apply linkedSum_congr
        intro o ho hl
        exact hearly (own o) (name o) hl.1 (hf p o x hp hk hl)
      rw [e]

/-- If everybody sends what it would send in state `σ`, the next states are the steps of the processes on their own. -/
theorem next_own (hf : Fed g n own name P) {y : Nat → String → Nat → V} {t : Nat} {σ : Nat → X}
    (hy : ∀ p x, p < n → y p x t = oneSent (P p) (σ p) (heard g n own name y p t) x) (p : Nat) (hp : p < n) :
    next g n own name P σ p = oneStep (P p) (σ p) (heard g n own name y p t) := by
  have hearly : ∀ q x, q < n → (P q).late = false → early P σ ⟨q, x, .out⟩ = y q x t := by
    intro q x hq hk
    rw [hy q x hq, oneSent_early hk]
    unfold early
    dsimp only
    rw [hk]; rfl
  have hrec : ∀ q, q < n → (P q).late = true → linkedSum g n own name (early P σ) q = heard g n own name y q t := by
    intro q hq hn
    funext x
    unfold heard
    apply linkedSum_congr
    intro o ho hl
    exact hearly (own o) (name o) hl.1 (hf q o x hq hn hl)
  have hsent : ∀ q x, q < n → sent g n own name P σ ⟨q, x, .out⟩ = y q x t := by
    intro q x hq
    cases hk : (P q).late with
    | true =>
      rw [hy q x hq, oneSent_late hk]
      unfold sent
      dsimp only
      rw [hk, if_pos rfl, hrec q hq hk]
    | false =>
      rw [← hearly q x hq hk]
      unfold sent
      dsimp only
      rw [hk]; rfl
  have hl : linkedSum g n own name (sent g n own name P σ) p = heard g n own name y p t := by
    funext x
    unfold heard
    apply linkedSum_congr
    intro o ho hl
    exact hsent (own o) (name o) hl.1
  unfold next oneStep informed
  rw [if_pos hp, hl]

/-! ### A solution exists -/

/-- The step-by-step simulation with writes. -/
noncomputable def simWith (g : G) (n : Nat) (own : Nat → Nat) (name : Nat → String) (P : Nat → Proc X V W) (w : Nat → Nat → Writes W) : Nat → Nat → X
  | 0 => fun p => overwrite (P p) (w p 0) (P p).init
  | t + 1 => fun p => overwrite (P p) (w p (t + 1)) (next g n own name P (simWith g n own name P w t) p)

noncomputable def simSent (g : G) (n : Nat) (own : Nat → Nat) (name : Nat → String) (P : Nat → Proc X V W) (w : Nat → Nat → Writes W) (p : Nat) (x : String) (t : Nat) : V :=
  sent g n own name P (simWith g n own name P w t) ⟨p, x, .out⟩

theorem simSent_one (hf : Fed g n own name P) (w : Nat → Nat → Writes W) (t p : Nat) (x : String) (hp : p < n) :
    simSent g n own name P w p x t = oneSent (P p) (simWith g n own name P w t p) (heard g n own name (simSent g n own name P w) p t) x := by
  cases hk : (P p).late with
  | true =>
    rw [oneSent_late hk]
    unfold simSent sent
    dsimp only
    rw [hk, if_pos rfl]
    congr 2
    funext z
    unfold heard
    apply linkedSum_congr
    intro o ho hl
    dsimp only
    rw [if_neg (by rw [hf p o z hp hk hl]; decide)]
  | false =>
    rw [oneSent_early hk]
    unfold simSent sent early
    dsimp only
    rw [hk]; rfl

theorem simWith_state (hf : Fed g n own name P) (w : Nat → Nat → Writes W) : ∀ t p, p < n →
    simWith g n own name P w t p = stateWith (P p) (w p) (heard g n own name (simSent g n own name P w) p) t
  | 0, _, _ => rfl
  | t + 1, p, hp => by
    have ih := simWith_state hf w t p hp
    unfold simWith stateWith
    rw [next_own hf (fun p x hp => simSent_one hf w t p x hp) p hp, ih]

theorem simSent_solves (hf : Fed g n own name P) (w : Nat → Nat → Writes W) : SolvesWith g n own name P w (simSent g n own name P w) := by
  intro p x t hp
  rw [← simWith_state hf w t p hp]
  exact simSent_one hf w t p x hp

/-! ### Programs -/

omit [AddCommMonoid V] in
theorem overwrite_append (Q : Proc X V W) (l l' : Writes W) (s : X) : overwrite Q (l ++ l') s = overwrite Q l' (overwrite Q l s) := List.foldl_append

/-- More steps, as long as the program writes nothing. -/
theorem run_states (hf : Fed g n own name P) {w : Nat → Nat → Writes W} {y : Nat → String → Nat → V}
    (h : SolvesWith g n own name P w y) (w' : Nat → Nat → Writes W) (t k : Nat) (hw : ∀ p u, u < t + k → w p u = w' p u) (hw' : ∀ p u, t < u → w' p u = []) {σ : Nat → X}
    (hσ : ∀ p, p < n → σ p = stateWith (P p) (w' p) (heard g n own name y p) t) :
    ∀ j, j ≤ k → ∀ p, p < n → (next g n own name P)^[j] σ p = stateWith (P p) (w' p) (heard g n own name y p) (t + j)
  | 0, _, p, hp => hσ p hp
  | j + 1, hj, p, hp => by
    have ih := run_states hf h w' t k hw hw' hσ j (by omega)
    rw [Function.iterate_succ_apply']
    have hy : ∀ q x, q < n → y q x (t + j) = oneSent (P q) ((next g n own name P)^[j] σ q) (heard g n own name y q (t + j)) x := by
      intro q x hq
      rw [h q x (t + j) hq, ih q hq, stateWith_congr (P q) (t + j) (fun _ _ => rfl) fun u hu => hw q u (by omega)]
    rw [next_own hf hy p hp, ih p hp]
    show _ = overwrite (P p) (w' p (t + j + 1)) _
    rw [hw' p (t + j + 1) (by omega)]
    rfl

theorem results_shown (hf : Fed g n own name P) {y : Nat → String → Nat → V} {prog : List (Call W)}
    (h : SolvesWith g n own name P (writes prog) y) :
    ∀ (todo done : List (Call W)) (σ : Nat → X), prog = done ++ todo → (∀ p x, .get p x ∈ todo → p < n) →
      (∀ p, p < n → σ p = stateWith (P p) (writes done p) (heard g n own name y p) (steps done)) →
      results P (next g n own name P) (started done) σ todo = shown P (heard g n own name y) done todo
  | [], done, σ, _, _, _ => by
    unfold results shown; cases started done <;> rfl
  | .run k :: cs, done, σ, he, hg, hσ => by
    have ih := results_shown hf h cs (done ++ [.run k]) ((next g n own name P)^[k] σ) (by rw [he]; simp) (fun p x hm => hg p x (List.mem_cons_of_mem _ hm)) (by
      intro p hp
      have hwd : writes (done ++ [.run k]) = writes done := by
        funext p u
        unfold writes
        rw [writesFrom_append]
        have : writesFrom p (false || started done) (0 + steps done) [.run k] u = ([] : Writes W) := by cases started done <;> rfl
        rw [this, List.append_nil]
      rw [hwd, steps_append]
      exact run_states hf h (writes done) (steps done) k (by
        intro p u hu
        unfold writes
        rw [he, writesFrom_append]
        have e : writesFrom p (false || started done) (0 + steps done) (.run k :: cs) u = writesFrom p true (0 + steps done + k) cs u := by cases started done <;> rfl
        rw [e, writesFrom_before p cs true _ u (by omega), List.append_nil]) (fun p u hu => writesFrom_after p done false 0 u (by omega)) hσ k (Nat.le_refl k) p hp)
    rw [started_append] at ih
    have e : (started done || started [(.run k : Call W)]) = true := by simp [started]
    rw [e] at ih
    cases hd : started done <;> (simp only [results, shown]; rw [ih])
  | .get p x :: cs, done, σ, he, hg, hσ => by
    have hw : writes (done ++ [.get p x]) = writes done := by
      funext q u
      unfold writes
      rw [writesFrom_append]
      have : writesFrom q (false || started done) (0 + steps done) [.get p x] u = ([] : Writes W) := by cases started done <;> rfl
      rw [this, List.append_nil]
    have ih := results_shown hf h cs (done ++ [.get p x]) σ (by rw [he]; simp) (fun p x hm => hg p x (List.mem_cons_of_mem _ hm)) (by
      intro q hq
      rw [hw, steps_append]
      exact hσ q hq)
    rw [started_append] at ih
    have e : (started done || started [(.get p x : Call W)]) = started done := by simp [started]
    rw [e] at ih
    have hp := hσ p (hg p x List.mem_cons_self)
    cases hd : started done
    · rw [hd] at ih; simp only [results, shown]; rw [hd, ih]; rfl
    · rw [hd] at ih; simp only [results, shown]; rw [hd, ih, hp]; rfl
  | .set p x ws :: cs, done, σ, he, hg, hσ => by
    cases hd : started done
    · have hw : writes (done ++ [.set p x ws]) = writes done := by
        funext q u
        unfold writes
        rw [writesFrom_append, hd]
        exact List.append_nil _
      have ih := results_shown hf h cs (done ++ [.set p x ws]) σ (by rw [he]; simp) (fun p x hm => hg p x (List.mem_cons_of_mem _ hm)) (by
        intro q hq
        rw [hw, steps_append]
        exact hσ q hq)
      rw [started_append, hd] at ih
      simp only [results, shown]
      rw [hd]
      exact congrArg _ ih
    · have ih := results_shown hf h cs (done ++ [.set p x ws]) (fun q => if q = p then pokes (P p) x 0 ws (σ p) else σ q) (by rw [he]; simp)
        (fun p x hm => hg p x (List.mem_cons_of_mem _ hm)) (by
          intro q hq
          rw [steps_append]
          show _ = stateWith (P q) (writes (done ++ [.set p x ws]) q) _ (steps done + 0)
          have hwr : ∀ u, writes (done ++ [.set p x ws]) q u = writes done q u ++ (if p = q ∧ u = steps done then [(x, ws)] else []) := by
            intro u
            unfold writes
            rw [writesFrom_append, hd, Nat.zero_add]
            exact congrArg _ (List.append_nil _)
          have hst : stateWith (P q) (writes (done ++ [.set p x ws]) q) (heard g n own name y q) (steps done + 0) =
              overwrite (P q) (if p = q then [(x, ws)] else []) (stateWith (P q) (writes done q) (heard g n own name y q) (steps done)) := by
            rw [Nat.add_zero]
            cases hsd : steps done with
            | zero =>
              unfold stateWith
              rw [hwr, hsd, overwrite_append]
              simp
            | succ t =>
              unfold stateWith
              rw [hwr, hsd, overwrite_append]
              have e := stateWith_congr (P q) (w := writes (done ++ [.set p x ws]) q) (w' := writes done q) (a := heard g n own name y q) (a' := heard g n own name y q) t (fun _ _ => rfl) (by
                intro u hu
                rw [hwr, if_neg (by omega), List.append_nil])
              rw [e]
              simp
          rw [hst, ← hσ q hq]
          by_cases hqp : q = p
          · subst hqp
            rw [if_pos rfl, if_pos rfl]; rfl
          · rw [if_neg hqp, if_neg (fun h => hqp h.symm)]; rfl)
      rw [started_append, hd] at ih
      simp only [results, shown]
      rw [hd]
      exact congrArg _ ih

/-- **C125.** A network of processes with any number of ports, some of which learn, and a program that may write Vars: if the trains `y` solve the equations of the network, then under every schedule the program
shows the Vars that each process has on its own after it has received what `y` sends it, with the writes made so far. -/
theorem C125_network_is_its_parts (lim : Nat) (calls : List PortGraph.Op) (n : Nat) (P : Nat → Proc X V W) (k : Nat) (svc : Nat → Nat) (pms : Nat → List Nat) (cap : Nat → Nat) (own : Nat → Nat)
    (name : Nat → String) (outs : Nat → List Nat) (procs : List Nat) (has : Nat → String → Bool) (b : Builders) (hd : Deployed lim calls n P k svc pms cap own name outs procs has b)
    (hf : Fed (run lim G.empty calls) n own name P) (prog : List (Call W)) (hp : Proper n (fun p => (P p).pm) prog) (y : Nat → String → Nat → V)
    (h : SolvesWith (run lim G.empty calls) n own name P (writes prog) y) :
    Gives (platform n P k svc pms cap) b prog (shown P (heard (run lim G.empty calls) n own name y) [] prog) := by
  have e := results_shown hf h prog [] (fun p => (P p).init) rfl hp.gets (fun _ _ => rfl)
  rw [← e]
  exact C116_simulated lim calls n P k svc pms cap own name outs procs has b hd hf prog hp

/-- **C125.** Whatever is written, the equations have exactly one solution. -/
theorem C125_one_solution (g : G) (n : Nat) (own : Nat → Nat) (name : Nat → String) (P : Nat → Proc X V W) (hf : Fed g n own name P) (w : Nat → Nat → Writes W) :
    (∃ y, SolvesWith g n own name P w y) ∧
    ∀ y y', SolvesWith g n own name P w y → SolvesWith g n own name P w y' → ∀ p x t, p < n → y p x t = y' p x t :=
  ⟨⟨_, simSent_solves hf w⟩, fun _ _ h h' p x t hp => agree hf h h' t p x hp⟩

end Verif.Plastic
