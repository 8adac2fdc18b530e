import Verif.Trains.WritesSpec

/-!
# C122: programs that write Vars
-/

namespace Verif.Trains

open Verif.Wired.Spec (linkedSum Linked Script Proper)
open Verif.Wiring (Builders Port)
open Verif.EndToEnd (Call Res)
open Verif.PortGraph (G run)
open Verif.Snn (Proc Kind platform linkedSum_congr)
open Verif.Snn.Spec (Gives Deployed Fed results next sent early fired pokes)
open Spec

variable {X V W : Type} [AddCommMonoid V] {g : G} {n : Nat} {own : Nat → Nat} {name : Nat → String} {P : Nat → Proc X V W} {outs : Nat → List Nat}

omit [AddCommMonoid V] in
theorem stateWith_congr (P : Proc X V W) {w w' : Nat → Writes W} {a a' : Nat → V} : ∀ t, (∀ u, u < t → a u = a' u) → (∀ u, u ≤ t → w u = w' u) → stateWith P w a t = stateWith P w' a' t
  | 0, _, hw => by unfold stateWith; rw [hw 0 (Nat.le_refl 0)]
  | t + 1, h, hw => by
    have ih := stateWith_congr P t (fun u hu => h u (by omega)) fun u hu => hw u (by omega)
    unfold stateWith
    rw [ih, h t (by omega), hw (t + 1) (Nat.le_refl _)]

omit [AddCommMonoid V] in
theorem oneSent_early {Q : Proc X V W} (h : Q.kind = .synapse ∨ Q.kind = .source) (s : X) (a : V) : oneSent Q s a = some (Q.out (Q.begin_ s)) := by
  unfold oneSent; rcases h with h | h <;> rw [h]

omit [AddCommMonoid V] in
theorem oneSent_neuron {Q : Proc X V W} (h : Q.kind = .neuron) (s : X) (a : V) : oneSent Q s a = some (Q.fire (Q.begin_ s) a).2 := by
  unfold oneSent; rw [h]

/-- Two solutions are the same. -/
theorem agreeWith (hi : PortGraph.Inv g) (hs : Script g n own name outs fun p => (P p).pm) (hf : Fed g n own name P) {w : Nat → Nat → Writes W} {y y' : Nat → Nat → V}
    (h : SolvesWith g n own name P w y) (h' : SolvesWith g n own name P w y') :
    ∀ t p, p < n → ((P p).kind = .neuron ∨ (P p).kind = .synapse ∨ (P p).kind = .source) → y p t = y' p t := by
  intro t
  induction t using Nat.strong_induction_on with
  | _ t ih =>
    have hpast : ∀ p, ∀ u, u < t → received g n own name P y p u = received g n own name P y' p u := by
      intro p u hu
      unfold received
      apply linkedSum_congr
      intro o ho hl
      obtain ⟨h1, h2⟩ := sender hi hs ho hl
      exact ih u hu (own o) h1 h2
    have hstate : ∀ p, stateWith (P p) (w p) (received g n own name P y p) t = stateWith (P p) (w p) (received g n own name P y' p) t :=
      fun p => stateWith_congr (P p) t (hpast p) fun _ _ => rfl
    have hearly : ∀ p, p < n → ((P p).kind = .synapse ∨ (P p).kind = .source) → y p t = y' p t := by
      intro p hp hk
      rw [h p t _ hp (oneSent_early hk _ _), h' p t _ hp (oneSent_early hk _ _), hstate]
    intro p hp hk
    by_cases hn : (P p).kind = .neuron
    · rw [h p t _ hp (oneSent_neuron hn _ _), h' p t _ hp (oneSent_neuron hn _ _), hstate]
      have e : received g n own name P y p t = received g n own name P y' p t := by
        unfold received
        apply linkedSum_congr
        intro o ho hl
        obtain ⟨h1, h2⟩ := sender hi hs ho hl
        have hl' : Linked g n own name o p "a_in" := by
          rw [hn] at hl; exact hl
        exact hearly (own o) h1 (h2.resolve_left (hf p o hp hn hl'))
      rw [e]
    · exact hearly p hp (hk.resolve_left hn)

/-- If everybody sends what it would send in state `σ`, the next states are the steps of the processes on their own. -/
theorem next_own (hi : PortGraph.Inv g) (hs : Script g n own name outs fun p => (P p).pm) (hf : Fed g n own name P) {y : Nat → Nat → V} {t : Nat} {σ : Nat → X}
    (hy : ∀ p v, p < n → oneSent (P p) (σ p) (received g n own name P y p t) = some v → y p t = v) (p : Nat) (hp : p < n) :
    next g n own name P σ p = oneStep (P p) (σ p) (received g n own name P y p t) := by
  have hearly : ∀ q, q < n → ((P q).kind = .synapse ∨ (P q).kind = .source) → early P σ ⟨q, "", .out⟩ = y q t := by
    intro q hq hk
    rw [hy q _ hq (oneSent_early hk _ _)]
    unfold early
    rw [if_neg (by rcases hk with hk | hk <;> (rw [hk]; decide))]
  have hrec : ∀ q, q < n → (P q).kind = .neuron → linkedSum g n own name (early P σ) q "a_in" = received g n own name P y q t := by
    intro q hq hn
    unfold received
    rw [hn]
    apply linkedSum_congr
    intro o ho hl
    obtain ⟨h1, h2⟩ := sender hi hs ho hl
    exact hearly (own o) h1 (h2.resolve_left (hf q o hq hn hl))
  have hsent : ∀ q, q < n → ((P q).kind = .neuron ∨ (P q).kind = .synapse ∨ (P q).kind = .source) → sent g n own name P σ ⟨q, "", .out⟩ = y q t := by
    intro q hq hk
    by_cases hn : (P q).kind = .neuron
    · rw [hy q _ hq (oneSent_neuron hn _ _)]
      unfold sent fired
      dsimp only
      rw [if_pos hn, hrec q hq hn]
    · rw [← hearly q hq (hk.resolve_left hn)]
      unfold sent
      dsimp only
      rw [if_neg hn]
  have hl : ∀ x, x = inName (P p).kind → linkedSum g n own name (sent g n own name P σ) p x = received g n own name P y p t := by
    rintro x rfl
    unfold received
    apply linkedSum_congr
    intro o ho hl
    obtain ⟨h1, h2⟩ := sender hi hs ho hl
    exact hsent (own o) h1 h2
  unfold next oneStep
  rw [if_pos hp]
  cases hk : (P p).kind with
  | neuron => dsimp only; unfold fired; rw [hrec p hp hk]
  | synapse => dsimp only; rw [hl "s_in" (by rw [hk]; rfl)]
  | sink => dsimp only; rw [hl "a_in" (by rw [hk]; rfl)]
  | source => rfl
  | silent => rfl

/-! ### A solution exists -/

/-- The step-by-step simulation with writes. -/
noncomputable def simWith (g : G) (n : Nat) (own : Nat → Nat) (name : Nat → String) (P : Nat → Proc X V W) (w : Nat → Nat → Writes W) : Nat → Nat → X
  | 0 => fun p => overwrite (P p) (w p 0) (P p).init
  | t + 1 => fun p => overwrite (P p) (w p (t + 1)) (next g n own name P (simWith g n own name P w t) p)

noncomputable def simSent (g : G) (n : Nat) (own : Nat → Nat) (name : Nat → String) (P : Nat → Proc X V W) (w : Nat → Nat → Writes W) (p t : Nat) : V :=
  sent g n own name P (simWith g n own name P w t) ⟨p, "", .out⟩

theorem simSent_one (hf : Fed g n own name P) (w : Nat → Nat → Writes W) (t p : Nat) (v : V) (hp : p < n)
    (hv : oneSent (P p) (simWith g n own name P w t p) (received g n own name P (simSent g n own name P w) p t) = some v) : simSent g n own name P w p t = v := by
  cases hk : (P p).kind with
  | neuron =>
    rw [oneSent_neuron hk] at hv
    rw [← Option.some.inj hv]
    unfold simSent sent fired
    dsimp only
    rw [if_pos hk]
    congr 2
    unfold received
    rw [hk]
    apply linkedSum_congr
    intro o ho hl
    dsimp only
    rw [if_neg (hf p o hp hk hl)]
    rfl
  | synapse =>
    rw [oneSent_early (.inl hk)] at hv
    rw [← Option.some.inj hv]
    unfold simSent sent early
    dsimp only
    rw [if_neg (by rw [hk]; decide), if_neg (by rw [hk]; decide)]
  | source =>
    rw [oneSent_early (.inr hk)] at hv
    rw [← Option.some.inj hv]
    unfold simSent sent early
    dsimp only
    rw [if_neg (by rw [hk]; decide), if_neg (by rw [hk]; decide)]
  | sink => unfold oneSent at hv; rw [hk] at hv; cases hv
  | silent => unfold oneSent at hv; rw [hk] at hv; cases hv

theorem simWith_state (hi : PortGraph.Inv g) (hs : Script g n own name outs fun p => (P p).pm) (hf : Fed g n own name P) (w : Nat → Nat → Writes W) : ∀ t p, p < n →
    simWith g n own name P w t p = stateWith (P p) (w p) (received g n own name P (simSent g n own name P w) p) t
  | 0, _, _ => rfl
  | t + 1, p, hp => by
    have ih := simWith_state hi hs hf w t p hp
    unfold simWith stateWith
    rw [next_own hi hs hf (fun p v hp hv => simSent_one hf w t p v hp hv) p hp, ih]

theorem simSent_solves (hi : PortGraph.Inv g) (hs : Script g n own name outs fun p => (P p).pm) (hf : Fed g n own name P) (w : Nat → Nat → Writes W) :
    SolvesWith g n own name P w (simSent g n own name P w) := by
  intro p t v hp hv
  apply simSent_one hf w t p v hp
  rw [simWith_state hi hs hf w t p hp]
  exact hv

/-! ### Programs -/

theorem writesFrom_before (p : Nat) : ∀ (cs : List (Call W)) (b : Bool) (t u : Nat), u < t → writesFrom p b t cs u = []
  | [], b, _, _, _ => by cases b <;> rfl
  | .run k :: cs, b, t, u, h => by
    have := writesFrom_before p cs true (t + k) u (by omega)
    cases b <;> exact this
  | .get _ _ :: cs, b, t, u, h => by
    have := writesFrom_before p cs b t u h
    cases b <;> exact this
  | .set q x ws :: cs, true, t, u, h => by
    have := writesFrom_before p cs true t u h
    show (if q = p ∧ u = t then [(x, ws)] else []) ++ writesFrom p true t cs u = []
    rw [this, if_neg (by omega)]; rfl
  | .set _ _ _ :: cs, false, t, u, h => writesFrom_before p cs false t u h

theorem writesFrom_append (p : Nat) (cs' : List (Call W)) : ∀ (cs : List (Call W)) (b : Bool) (t u : Nat),
    writesFrom p b t (cs ++ cs') u = writesFrom p b t cs u ++ writesFrom p (b || started cs) (t + steps cs) cs' u
  | [], b, t, u => by cases b <;> rfl
  | .run k :: cs, b, t, u => by
    have := writesFrom_append p cs' cs true (t + k) u
    have e : writesFrom p b t (.run k :: cs ++ cs') u = writesFrom p true (t + k) (cs ++ cs') u := by cases b <;> rfl
    have e' : writesFrom p b t (.run k :: cs) u = writesFrom p true (t + k) cs u := by cases b <;> rfl
    rw [e, e', this]
    simp only [started, steps, Bool.or_true, Bool.true_or, Nat.add_assoc]
  | .get q x :: cs, b, t, u => by
    have := writesFrom_append p cs' cs b t u
    cases b <;> exact this
  | .set q x ws :: cs, true, t, u => by
    have := writesFrom_append p cs' cs true t u
    show (if q = p ∧ u = t then [(x, ws)] else []) ++ writesFrom p true t (cs ++ cs') u = ((if q = p ∧ u = t then [(x, ws)] else []) ++ writesFrom p true t cs u) ++ _
    rw [this, List.append_assoc]
    rfl
  | .set _ _ _ :: cs, false, t, u => writesFrom_append p cs' cs false t u

theorem writesFrom_after (p : Nat) : ∀ (cs : List (Call W)) (b : Bool) (t u : Nat), t + steps cs < u → writesFrom p b t cs u = []
  | [], b, _, _, _ => by cases b <;> rfl
  | .run k :: cs, b, t, u, h => by
    have := writesFrom_after p cs true (t + k) u (by simp only [steps] at h; omega)
    cases b <;> exact this
  | .get _ _ :: cs, b, t, u, h => by
    have := writesFrom_after p cs b t u h
    cases b <;> exact this
  | .set q x ws :: cs, true, t, u, h => by
    have h : t + steps cs < u := h
    have := writesFrom_after p cs true t u h
    show (if q = p ∧ u = t then [(x, ws)] else []) ++ writesFrom p true t cs u = []
    rw [this, if_neg (by omega)]; rfl
  | .set _ _ _ :: cs, false, t, u, h => writesFrom_after p cs false t u h

theorem steps_append (cs cs' : List (Call W)) : steps (cs ++ cs') = steps cs + steps cs' := by
  induction cs with
  | nil => exact (Nat.zero_add _).symm
  | cons c cs ih => cases c <;> simp only [List.cons_append, steps, ih, Nat.add_assoc]

theorem started_append (cs cs' : List (Call W)) : started (cs ++ cs') = (started cs || started cs') := by
  induction cs with
  | nil => rfl
  | cons c cs ih => cases c <;> simp only [List.cons_append, started, ih, Bool.true_or]

omit [AddCommMonoid V] in
theorem overwrite_append (Q : Proc X V W) (l l' : Writes W) (s : X) : overwrite Q (l ++ l') s = overwrite Q l' (overwrite Q l s) := List.foldl_append

/-- More steps, as long as the program writes nothing. -/
theorem run_states (hi : PortGraph.Inv g) (hs : Script g n own name outs fun p => (P p).pm) (hf : Fed g n own name P) {w : Nat → Nat → Writes W} {y : Nat → Nat → V}
    (h : SolvesWith g n own name P w y) (w' : Nat → Nat → Writes W) (t k : Nat) (hw : ∀ p u, u < t + k → w p u = w' p u) (hw' : ∀ p u, t < u → w' p u = []) {σ : Nat → X}
    (hσ : ∀ p, p < n → σ p = stateWith (P p) (w' p) (received g n own name P y p) t) :
    ∀ j, j ≤ k → ∀ p, p < n → (next g n own name P)^[j] σ p = stateWith (P p) (w' p) (received g n own name P y p) (t + j)
  | 0, _, p, hp => hσ p hp
  | j + 1, hj, p, hp => by
    have ih := run_states hi hs hf h w' t k hw hw' hσ j (by omega)
    rw [Function.iterate_succ_apply']
    have hy : ∀ q v, q < n → oneSent (P q) ((next g n own name P)^[j] σ q) (received g n own name P y q (t + j)) = some v → y q (t + j) = v := by
      intro q v hq hv
      apply h q (t + j) v hq
      rw [ih q hq] at hv
      unfold sentWith
      rw [stateWith_congr (P q) (t + j) (fun _ _ => rfl) fun u hu => hw q u (by omega)]
      exact hv
    rw [next_own hi hs hf hy p hp, ih p hp]
    show _ = overwrite (P p) (w' p (t + j + 1)) _
    rw [hw' p (t + j + 1) (by omega)]
    rfl

theorem results_shownWith (hi : PortGraph.Inv g) (hs : Script g n own name outs fun p => (P p).pm) (hf : Fed g n own name P) {y : Nat → Nat → V} {prog : List (Call W)}
    (h : SolvesWith g n own name P (writes prog) y) :
    ∀ (todo done : List (Call W)) (σ : Nat → X), prog = done ++ todo → (∀ p x, .get p x ∈ todo → p < n) →
      (∀ p, p < n → σ p = stateWith (P p) (writes done p) (received g n own name P y p) (steps done)) →
      results P (next g n own name P) (started done) σ todo = shownWith P (received g n own name P y) done todo
  | [], done, σ, _, _, _ => by
    unfold results shownWith; cases started done <;> rfl
  | .run k :: cs, done, σ, he, hg, hσ => by
    have ih := results_shownWith hi hs hf h cs (done ++ [.run k]) ((next g n own name P)^[k] σ) (by rw [he]; simp) (fun p x hm => hg p x (List.mem_cons_of_mem _ hm)) (by
      intro p hp
      have hwd : writes (done ++ [.run k]) = writes done := by
        funext p u
        unfold writes
        rw [writesFrom_append]
        have : writesFrom p (false || started done) (0 + steps done) [.run k] u = ([] : Writes W) := by cases started done <;> rfl
        rw [this, List.append_nil]
      rw [hwd, steps_append]
      exact run_states hi hs hf h (writes done) (steps done) k (by
        intro p u hu
        unfold writes
        rw [he, writesFrom_append]
        have e : writesFrom p (false || started done) (0 + steps done) (.run k :: cs) u = writesFrom p true (0 + steps done + k) cs u := by cases started done <;> rfl
        rw [e, writesFrom_before p cs true _ u (by omega), List.append_nil]) (fun p u hu => writesFrom_after p done false 0 u (by omega)) hσ k (Nat.le_refl k) p hp)
    rw [started_append] at ih
    have e : (started done || started [(.run k : Call W)]) = true := by simp [started]
    rw [e] at ih
    cases hd : started done <;> (simp only [results, shownWith]; rw [ih])
  | .get p x :: cs, done, σ, he, hg, hσ => by
    have hw : writes (done ++ [.get p x]) = writes done := by
      funext q u
      unfold writes
      rw [writesFrom_append]
      have : writesFrom q (false || started done) (0 + steps done) [.get p x] u = ([] : Writes W) := by cases started done <;> rfl
      rw [this, List.append_nil]
    have ih := results_shownWith hi hs hf h cs (done ++ [.get p x]) σ (by rw [he]; simp) (fun p x hm => hg p x (List.mem_cons_of_mem _ hm)) (by
      intro q hq
      rw [hw, steps_append]
      exact hσ q hq)
    rw [started_append] at ih
    have e : (started done || started [(.get p x : Call W)]) = started done := by simp [started]
    rw [e] at ih
    have hp := hσ p (hg p x List.mem_cons_self)
    cases hd : started done
    · rw [hd] at ih; simp only [results, shownWith]; rw [hd, ih]; rfl
    · rw [hd] at ih; simp only [results, shownWith]; rw [hd, ih, hp]; rfl
  | .set p x ws :: cs, done, σ, he, hg, hσ => by
    cases hd : started done
    · have hw : writes (done ++ [.set p x ws]) = writes done := by
        funext q u
        unfold writes
        rw [writesFrom_append, hd]
        exact List.append_nil _
      have ih := results_shownWith hi hs hf h cs (done ++ [.set p x ws]) σ (by rw [he]; simp) (fun p x hm => hg p x (List.mem_cons_of_mem _ hm)) (by
        intro q hq
        rw [hw, steps_append]
        exact hσ q hq)
      rw [started_append, hd] at ih
      simp only [results, shownWith]
      rw [hd]
      exact congrArg _ ih
    · have ih := results_shownWith hi hs hf h cs (done ++ [.set p x ws]) (fun q => if q = p then pokes (P p) x 0 ws (σ p) else σ q) (by rw [he]; simp)
        (fun p x hm => hg p x (List.mem_cons_of_mem _ hm)) (by
          intro q hq
          rw [steps_append]
          show _ = stateWith (P q) (writes (done ++ [.set p x ws]) q) _ (steps done + 0)
          have hwr : ∀ u, writes (done ++ [.set p x ws]) q u = writes done q u ++ (if p = q ∧ u = steps done then [(x, ws)] else []) := by
            intro u
            unfold writes
            rw [writesFrom_append, hd, Nat.zero_add]
            exact congrArg _ (List.append_nil _)
          have hst : stateWith (P q) (writes (done ++ [.set p x ws]) q) (received g n own name P y q) (steps done + 0) =
              overwrite (P q) (if p = q then [(x, ws)] else []) (stateWith (P q) (writes done q) (received g n own name P y q) (steps done)) := by
            rw [Nat.add_zero]
            cases hsd : steps done with
            | zero =>
              unfold stateWith
              rw [hwr, hsd, overwrite_append]
              simp
            | succ t =>
              unfold stateWith
              rw [hwr, hsd, overwrite_append]
              have e := stateWith_congr (P q) (w := writes (done ++ [.set p x ws]) q) (w' := writes done q) (a := received g n own name P y q) (a' := received g n own name P y q) t (fun _ _ => rfl) (by
                intro u hu
                rw [hwr, if_neg (by omega), List.append_nil])
              rw [e]
              simp
          rw [hst, ← hσ q hq]
          by_cases hqp : q = p
          · subst hqp
            rw [if_pos rfl, if_pos rfl]; rfl
          · rw [if_neg hqp, if_neg (fun h => hqp h.symm)]; rfl)
      rw [started_append, hd] at ih
      simp only [results, shownWith]
      rw [hd]
      exact congrArg _ ih

/-- **C122.** Programs may write Vars: if trains `y` solve the equations of the network in which each process has its Vars overwritten at the times at which the program writes them, then under every schedule
the program shows the Vars that each process has on its own after it has received what `y` sends it, with the writes made so far. -/
theorem C122_network_is_its_parts (lim : Nat) (calls : List PortGraph.Op) (n : Nat) (P : Nat → Proc X V W) (k : Nat) (svc : Nat → Nat) (pms : Nat → List Nat) (cap : Nat → Nat) (own : Nat → Nat)
    (name : Nat → String) (outs : Nat → List Nat) (procs : List Nat) (has : Nat → String → Bool) (b : Builders) (hd : Deployed lim calls n P k svc pms cap own name outs procs has b)
    (hf : Fed (run lim G.empty calls) n own name P) (prog : List (Call W)) (hp : Proper n (fun p => (P p).pm) prog) (y : Nat → Nat → V)
    (h : SolvesWith (run lim G.empty calls) n own name P (writes prog) y) :
    Gives (platform n P k svc pms cap) b prog (shownWith P (received (run lim G.empty calls) n own name P y) [] prog) := by
  have hi := PortGraph.inv_run PortGraph.inv_empty lim calls hd.good
  have e := results_shownWith hi hd.script hf h prog [] (fun p => (P p).init) rfl hp.gets (fun _ _ => rfl)
  rw [← e]
  exact Snn.C115_simulated lim calls n P k svc pms cap own name outs procs has b hd hf prog hp

/-- **C122.** Whatever is written, the equations have exactly one solution. -/
theorem C122_one_solution (lim : Nat) (calls : List PortGraph.Op) (n : Nat) (P : Nat → Proc X V W) (k : Nat) (svc : Nat → Nat) (pms : Nat → List Nat) (cap : Nat → Nat) (own : Nat → Nat)
    (name : Nat → String) (outs : Nat → List Nat) (procs : List Nat) (has : Nat → String → Bool) (b : Builders) (hd : Deployed lim calls n P k svc pms cap own name outs procs has b)
    (hf : Fed (run lim G.empty calls) n own name P) (w : Nat → Nat → Writes W) :
    (∃ y, SolvesWith (run lim G.empty calls) n own name P w y) ∧
    ∀ y y', SolvesWith (run lim G.empty calls) n own name P w y → SolvesWith (run lim G.empty calls) n own name P w y' →
      ∀ p t, p < n → (P p).kind = .neuron ∨ (P p).kind = .synapse ∨ (P p).kind = .source → y p t = y' p t :=
  have hi := PortGraph.inv_run PortGraph.inv_empty lim calls hd.good
  ⟨⟨_, simSent_solves hi hd.script hf w⟩, fun _ _ h h' p t hp hk => agreeWith hi hd.script hf h h' t p hp hk⟩

end Verif.Trains
