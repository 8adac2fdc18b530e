import Verif.Pipe.Spec

/-!
# C120: a chain of processes computes the composition of what the processes compute
-/

namespace Verif.Pipe

open Verif.Wired.Spec (linkedSum Linked Script Proper)
open Verif.Wiring (Builders Port)
open Verif.EndToEnd (Call Res)
open Verif.PortGraph (G run)
open Verif.Snn (Proc Kind platform)
open Verif.Snn.Spec (Gives Deployed Fed Feeds)
open Verif.Swap.Spec (stateAt sentAt)
open Verif.Trains.Spec (inName received Solves shown)
open Spec

variable {X V W : Type} [AddCommMonoid V] {g : G} {n : Nat} {own : Nat → Nat} {name : Nat → String} {P : Nat → Proc X V W} {outs : Nat → List Nat}

omit [AddCommMonoid V] in
theorem chain_fed (hi : PortGraph.Inv g) (hc : Chain g n own name P) : Fed g n own name P := by
  intro p o hp hk hl
  cases p with
  | zero => rw [hc.first] at hk; cases hk
  | succ p =>
    have ho : o < g.next := by
      obtain ⟨_, _, i, _, _, _, hr⟩ := hl
      exact (Wired.reaches_ends hi hr).1
    have h := (hc.feeds p hp (own o)).1 ⟨o, ho, rfl, by rw [hk]; exact hl⟩
    rw [h]
    exact hc.turns p hp hk

omit [AddCommMonoid V] in
/-- A source does not look at anything. -/
theorem stateAt_src {P : Proc X V W} (h : P.kind = .source) (a a' : Nat → V) : ∀ t, stateAt P a t = stateAt P a' t
  | 0 => rfl
  | t + 1 => by
    unfold stateAt
    rw [h, stateAt_src h a a' t]

theorem chain_received (hi : PortGraph.Inv g) (hs : Script g n own name outs fun p => (P p).pm) (hc : Chain g n own name P) (y : Nat → Nat → V) {p : Nat} (hp : p + 1 < n) :
    received g n own name P y (p + 1) = y p :=
  funext fun t => Trains.received_one hi hs y rfl (hc.feeds p hp) t

theorem chain_solves (hi : PortGraph.Inv g) (hs : Script g n own name outs fun p => (P p).pm) (hc : Chain g n own name P) : Solves g n own name P (train P) := by
  intro p t v hp hv
  cases p with
  | zero =>
    have e : sentAt (P 0) (fun _ => 0) t = some v := by
      rw [← hv]
      unfold sentAt
      rw [hc.first, stateAt_src hc.first (fun _ => 0)]
    show (sentAt (P 0) (fun _ => 0) t).getD 0 = v
    rw [e]; rfl
  | succ p =>
    rw [chain_received hi hs hc _ hp] at hv
    show (sentAt (P (p + 1)) (train P p) t).getD 0 = v
    rw [hv]; rfl

theorem shown_chain (hi : PortGraph.Inv g) (hs : Script g n own name outs fun p => (P p).pm) (hc : Chain g n own name P) : ∀ (prog : List (Call W)) (b : Bool) (t : Nat),
    (∀ p x, .get p x ∈ prog → p < n) → shown P (received g n own name P (train P)) b t prog = shown P (incoming P) b t prog
  | [], b, t, _ => by cases b <;> rfl
  | .run k :: cs, b, t, hg => by
    have ih := shown_chain hi hs hc cs true (t + k) fun p x hm => hg p x (List.mem_cons_of_mem _ hm)
    cases b <;> (simp only [shown]; rw [ih])
  | .get p x :: cs, true, t, hg => by
    have ih := shown_chain hi hs hc cs true t fun p x hm => hg p x (List.mem_cons_of_mem _ hm)
    have hp := hg p x List.mem_cons_self
    simp only [shown]
    rw [ih]
    cases p with
    | zero => rw [stateAt_src hc.first _ (incoming P 0)]
    | succ p => rw [chain_received hi hs hc _ hp]; rfl
  | .get p x :: cs, false, t, hg => by
    have ih := shown_chain hi hs hc cs false t fun p x hm => hg p x (List.mem_cons_of_mem _ hm)
    simp only [shown]; rw [ih]
  | .set p x ws :: cs, b, t, hg => by
    have ih := shown_chain hi hs hc cs b t fun p x hm => hg p x (List.mem_cons_of_mem _ hm)
    cases b <;> (simp only [shown]; rw [ih])

/-- **C120.** A chain of processes on any number of runtime services: under every schedule, a program of `run` and `get` calls shows the Vars that each process has on its own after it has received what the
process before it answers to what the process before that answers, and so on. -/
theorem C120_chain (lim : Nat) (calls : List PortGraph.Op) (n : Nat) (P : Nat → Proc X V W) (k : Nat) (svc : Nat → Nat) (pms : Nat → List Nat) (cap : Nat → Nat) (own : Nat → Nat)
    (name : Nat → String) (outs : Nat → List Nat) (procs : List Nat) (has : Nat → String → Bool) (b : Builders) (hd : Deployed lim calls n P k svc pms cap own name outs procs has b)
    (hc : Chain (run lim G.empty calls) n own name P) (prog : List (Call W)) (hp : Proper n (fun p => (P p).pm) prog) (hset : ∀ p x ws, .set p x ws ∉ prog) :
    Gives (platform n P k svc pms cap) b prog (shown P (incoming P) false 0 prog) := by
  have hi := PortGraph.inv_run PortGraph.inv_empty lim calls hd.good
  have h := Trains.C119_network_is_its_parts lim calls n P k svc pms cap own name outs procs has b hd (chain_fed hi hc) (train P) (chain_solves hi hd.script hc) prog hp hset
  rwa [shown_chain hi hd.script hc prog false 0 hp.gets] at h

end Verif.Pipe
