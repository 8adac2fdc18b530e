import Verif.Trains.Spec

/-!
# C119: what a network does is determined by what its parts do on their own
-/

namespace Verif.Trains

open Verif.Wired.Spec (linkedSum Linked Script Proper)
open Verif.Wiring (Builders Port)
open Verif.EndToEnd (Call Res)
open Verif.PortGraph (G run)
open Verif.Snn (Proc Kind platform linkedSum_congr out_name)
open Verif.Snn.Spec (Gives Deployed Fed results next sent early fired)
open Verif.Swap.Spec (stateAt sentAt)
open Verif.Swap (stateAt_congr)
open Spec

variable {X V W : Type} [AddCommMonoid V] {g : G} {n : Nat} {own : Nat → Nat} {name : Nat → String} {P : Nat → Proc X V W} {outs : Nat → List Nat}

/-- A process with a linked OutPort sends something. -/
theorem sender (hi : PortGraph.Inv g) (hs : Script g n own name outs fun p => (P p).pm) {o p : Nat} {x : String} (ho : o < g.next) (hl : Linked g n own name o p x) :
    own o < n ∧ ((P (own o)).kind = .neuron ∨ (P (own o)).kind = .synapse ∨ (P (own o)).kind = .source) := by
  obtain ⟨h1, h2, i, _, _, _, hr⟩ := hl
  have hu := hs.usesOut o ho h1 h2 (Wired.reaches_ends hi hr).2.2.1
  rcases out_name (k := (P (own o)).kind) hu with h | h | h
  · exact ⟨h1, .inl h.1⟩
  · exact ⟨h1, .inr (.inl h.1)⟩
  · exact ⟨h1, .inr (.inr h.1)⟩

omit [AddCommMonoid V] in
theorem sentAt_neuron {p : Nat} (h : (P p).kind = .neuron) (a : Nat → V) (t : Nat) : sentAt (P p) a t = some ((P p).fire ((P p).begin_ (stateAt (P p) a t)) (a t)).2 := by
  unfold sentAt; rw [h]

omit [AddCommMonoid V] in
theorem sentAt_early {p : Nat} (h : (P p).kind = .synapse ∨ (P p).kind = .source) (a : Nat → V) (t : Nat) : sentAt (P p) a t = some ((P p).out ((P p).begin_ (stateAt (P p) a t))) := by
  unfold sentAt; rcases h with h | h <;> rw [h]

/-- Two solutions are the same. -/
theorem agree (hi : PortGraph.Inv g) (hs : Script g n own name outs fun p => (P p).pm) (hf : Fed g n own name P) {y y' : Nat → Nat → V} (h : Solves g n own name P y)
    (h' : Solves g n own name P y') : ∀ t p, p < n → ((P p).kind = .neuron ∨ (P p).kind = .synapse ∨ (P p).kind = .source) → y p t = y' p t := by
  intro t
  induction t using Nat.strong_induction_on with
  | _ t ih =>
    have hpast : ∀ p, ∀ u, u < t → received g n own name P y p u = received g n own name P y' p u := by
      intro p u hu
      unfold received
      apply linkedSum_congr
      intro o ho hl
      obtain ⟨h1, h2⟩ := sender hi hs ho hl
      exact ih u hu (own o) h1 h2
    have hstate : ∀ p, stateAt (P p) (received g n own name P y p) t = stateAt (P p) (received g n own name P y' p) t := fun p => stateAt_congr (P p) t (hpast p)
    have hearly : ∀ p, p < n → ((P p).kind = .synapse ∨ (P p).kind = .source) → y p t = y' p t := by
      intro p hp hk
      rw [h p t _ hp (sentAt_early hk _ t), h' p t _ hp (sentAt_early hk _ t), hstate]
    intro p hp hk
    by_cases hn : (P p).kind = .neuron
    · rw [h p t _ hp (sentAt_neuron hn _ t), h' p t _ hp (sentAt_neuron hn _ t), hstate]
      have e : received g n own name P y p t = received g n own name P y' p t := by
        unfold received
        apply linkedSum_congr
        intro o ho hl
        obtain ⟨h1, h2⟩ := sender hi hs ho hl
        have hl' : Linked g n own name o p "a_in" := by
          rw [hn] at hl; exact hl
        exact hearly (own o) h1 (h2.resolve_left (hf p o hp hn hl'))
      rw [e]
    · exact hearly p hp (hk.resolve_left hn)

/-- What is sent in the step-by-step simulation of C115. -/
noncomputable def simulated (g : G) (n : Nat) (own : Nat → Nat) (name : Nat → String) (P : Nat → Proc X V W) (p t : Nat) : V :=
  sent g n own name P ((next g n own name P)^[t] fun p => (P p).init) ⟨p, "", .out⟩

theorem simulated_state (hf : Fed g n own name P) : ∀ t p, p < n →
    stateAt (P p) (received g n own name P (simulated g n own name P) p) t = (next g n own name P)^[t] (fun p => (P p).init) p ∧
    ((P p).kind = .neuron → received g n own name P (simulated g n own name P) p t =
      linkedSum g n own name (early P ((next g n own name P)^[t] fun p => (P p).init)) p "a_in") := by
  intro t
  have hrec : ∀ t p, p < n → (P p).kind = .neuron → received g n own name P (simulated g n own name P) p t =
      linkedSum g n own name (early P ((next g n own name P)^[t] fun p => (P p).init)) p "a_in" := by
    intro t p hp hn
    unfold received
    rw [hn]
    apply linkedSum_congr
    intro o ho hl
    unfold simulated sent
    rw [if_neg (hf p o hp hn hl)]
    rfl
  induction t with
  | zero => intro p hp; exact ⟨rfl, hrec 0 p hp⟩
  | succ t ih =>
    intro p hp
    refine ⟨?_, hrec (t + 1) p hp⟩
    rw [Function.iterate_succ_apply']
    have e1 := (ih p hp).1
    have hl : ∀ x, linkedSum g n own name (fun o => simulated g n own name P o.proc t) p x =
        linkedSum g n own name (sent g n own name P ((next g n own name P)^[t] fun p => (P p).init)) p x := fun x => linkedSum_congr fun o _ _ => rfl
    unfold stateAt next
    rw [if_pos hp, e1]
    cases hk : (P p).kind with
    | neuron =>
      dsimp only
      rw [(ih p hp).2 hk]
      rfl
    | synapse =>
      dsimp only
      unfold received
      rw [hk]
      exact congrArg _ (hl "s_in")
    | sink =>
      dsimp only
      unfold received
      rw [hk]
      exact congrArg _ (hl "a_in")
    | source => rfl
    | silent => rfl

theorem simulated_solves (hf : Fed g n own name P) : Solves g n own name P (simulated g n own name P) := by
  intro p t v hp hv
  have e1 := (simulated_state hf t p hp).1
  have e2 := (simulated_state hf t p hp).2
  cases hk : (P p).kind with
  | neuron =>
    rw [sentAt_neuron hk, e1, e2 hk] at hv
    rw [← Option.some.inj hv]
    unfold simulated sent
    dsimp only
    rw [if_pos hk]
    rfl
  | synapse =>
    rw [sentAt_early (.inl hk), e1] at hv
    rw [← Option.some.inj hv]
    unfold simulated sent early
    dsimp only
    rw [if_neg (by rw [hk]; decide), if_neg (by rw [hk]; decide)]
  | source =>
    rw [sentAt_early (.inr hk), e1] at hv
    rw [← Option.some.inj hv]
    unfold simulated sent early
    dsimp only
    rw [if_neg (by rw [hk]; decide), if_neg (by rw [hk]; decide)]
  | sink => unfold sentAt at hv; rw [hk] at hv; cases hv
  | silent => unfold sentAt at hv; rw [hk] at hv; cases hv

/-- The states of the simulation are the answers of the processes to any solution. -/
theorem solution_state (hi : PortGraph.Inv g) (hs : Script g n own name outs fun p => (P p).pm) (hf : Fed g n own name P) {y : Nat → Nat → V} (h : Solves g n own name P y) (t p : Nat) (hp : p < n) :
    (next g n own name P)^[t] (fun p => (P p).init) p = stateAt (P p) (received g n own name P y p) t := by
  rw [← (simulated_state hf t p hp).1]
  apply stateAt_congr
  intro u _
  unfold received
  apply linkedSum_congr
  intro o ho hl
  obtain ⟨h1, h2⟩ := sender hi hs ho hl
  exact agree hi hs hf (simulated_solves hf) h u (own o) h1 h2

theorem results_shown (hi : PortGraph.Inv g) (hs : Script g n own name outs fun p => (P p).pm) (hf : Fed g n own name P) {y : Nat → Nat → V} (h : Solves g n own name P y) :
    ∀ (prog : List (Call W)) (b : Bool) (t : Nat), (∀ p x, .get p x ∈ prog → p < n) → (∀ p x ws, .set p x ws ∉ prog) →
    results P (next g n own name P) b ((next g n own name P)^[t] fun p => (P p).init) prog = shown P (received g n own name P y) b t prog
  | [], b, t, _, _ => by cases b <;> rfl
  | .run k :: cs, b, t, hg, hset => by
    have ih := results_shown hi hs hf h cs true (t + k) (fun p x hm => hg p x (List.mem_cons_of_mem _ hm)) (fun p x ws hm => hset p x ws (List.mem_cons_of_mem _ hm))
    have e : (next g n own name P)^[k] ((next g n own name P)^[t] fun p => (P p).init) = (next g n own name P)^[t + k] fun p => (P p).init := by
      rw [Nat.add_comm, Function.iterate_add_apply]
    cases b <;> (simp only [results, shown]; rw [e, ih])
  | .get p x :: cs, true, t, hg, hset => by
    have ih := results_shown hi hs hf h cs true t (fun p x hm => hg p x (List.mem_cons_of_mem _ hm)) (fun p x ws hm => hset p x ws (List.mem_cons_of_mem _ hm))
    simp only [results, shown]
    rw [ih, solution_state hi hs hf h t p (hg p x List.mem_cons_self)]
  | .get p x :: cs, false, t, hg, hset => by
    have ih := results_shown hi hs hf h cs false t (fun p x hm => hg p x (List.mem_cons_of_mem _ hm)) (fun p x ws hm => hset p x ws (List.mem_cons_of_mem _ hm))
    simp only [results, shown]
    rw [ih]
  | .set p x ws :: cs, b, t, _, hset => absurd List.mem_cons_self (hset p x ws)

/-- **C119.** If trains `y` solve the equations of a network, then under every schedule a program of `run` and `get` calls shows the Vars that each process has on its own after it has received what `y` sends it. -/
theorem C119_network_is_its_parts (lim : Nat) (calls : List PortGraph.Op) (n : Nat) (P : Nat → Proc X V W) (k : Nat) (svc : Nat → Nat) (pms : Nat → List Nat) (cap : Nat → Nat) (own : Nat → Nat)
    (name : Nat → String) (outs : Nat → List Nat) (procs : List Nat) (has : Nat → String → Bool) (b : Builders) (hd : Deployed lim calls n P k svc pms cap own name outs procs has b)
    (hf : Fed (run lim G.empty calls) n own name P) (y : Nat → Nat → V) (h : Solves (run lim G.empty calls) n own name P y) (prog : List (Call W)) (hp : Proper n (fun p => (P p).pm) prog)
    (hset : ∀ p x ws, .set p x ws ∉ prog) :
    Gives (platform n P k svc pms cap) b prog (shown P (received (run lim G.empty calls) n own name P y) false 0 prog) := by
  have hi := PortGraph.inv_run PortGraph.inv_empty lim calls hd.good
  have e := results_shown hi hd.script hf h prog false 0 hp.gets hset
  rw [← e]
  exact Snn.C115_simulated lim calls n P k svc pms cap own name outs procs has b hd hf prog hp

/-- **C119.** The equations of a network have a solution, and it is the only one: whatever the processes compute, their answers fit together in exactly one way. -/
theorem C119_one_solution (lim : Nat) (calls : List PortGraph.Op) (n : Nat) (P : Nat → Proc X V W) (k : Nat) (svc : Nat → Nat) (pms : Nat → List Nat) (cap : Nat → Nat) (own : Nat → Nat)
    (name : Nat → String) (outs : Nat → List Nat) (procs : List Nat) (has : Nat → String → Bool) (b : Builders) (hd : Deployed lim calls n P k svc pms cap own name outs procs has b)
    (hf : Fed (run lim G.empty calls) n own name P) :
    (∃ y, Solves (run lim G.empty calls) n own name P y) ∧
    ∀ y y', Solves (run lim G.empty calls) n own name P y → Solves (run lim G.empty calls) n own name P y' →
      ∀ p t, p < n → (P p).kind = .neuron ∨ (P p).kind = .synapse ∨ (P p).kind = .source → y p t = y' p t :=
  have hi := PortGraph.inv_run PortGraph.inv_empty lim calls hd.good
  ⟨⟨_, simulated_solves hf⟩, fun _ _ h h' p t hp hk => agree hi hd.script hf h h' t p hp hk⟩

end Verif.Trains
