import Verif.Trains.Writes

/-!
# C122: chains of processes whose Vars are written
-/

namespace Verif.Pipe

open Verif.Wired.Spec (linkedSum Linked Script Proper)
open Verif.Wiring (Builders Port)
open Verif.EndToEnd (Call Res)
open Verif.PortGraph (G run)
open Verif.Snn (Proc Kind platform)
open Verif.Snn.Spec (Gives Deployed Fed Feeds)
open Verif.Trains (agreeWith stateWith_congr)
open Verif.Trains.Spec (inName received SolvesWith shownWith Writes writes sentWith stateWith oneSent oneStep overwrite started steps)
open Spec

variable {X V W : Type} [AddCommMonoid V] {g : G} {n : Nat} {own : Nat → Nat} {name : Nat → String} {P : Nat → Proc X V W} {outs : Nat → List Nat}

omit [AddCommMonoid V] in
theorem stateWith_src {Q : Proc X V W} (h : Q.kind = .source) (w : Nat → Writes W) (a a' : Nat → V) : ∀ t, stateWith Q w a t = stateWith Q w a' t
  | 0 => rfl
  | t + 1 => by
    unfold stateWith oneStep
    rw [h, stateWith_src h w a a' t]

theorem chain_solvesWith (hi : PortGraph.Inv g) (hs : Script g n own name outs fun p => (P p).pm) (hc : Chain g n own name P) (w : Nat → Nat → Writes W) :
    SolvesWith g n own name P w (trainWith P w) := by
  intro p t v hp hv
  cases p with
  | zero =>
    have e : sentWith (P 0) (w 0) (fun _ => 0) t = some v := by
      rw [← hv]
      unfold sentWith oneSent
      rw [hc.first, stateWith_src hc.first (w 0) (fun _ => 0)]
    show (sentWith (P 0) (w 0) (fun _ => 0) t).getD 0 = v
    rw [e]; rfl
  | succ p =>
    rw [chain_received hi hs hc _ hp] at hv
    show (sentWith (P (p + 1)) (w (p + 1)) (trainWith P w p) t).getD 0 = v
    rw [hv]; rfl

theorem shownWith_chain (hi : PortGraph.Inv g) (hs : Script g n own name outs fun p => (P p).pm) (hc : Chain g n own name P) (w : Nat → Nat → Writes W) : ∀ (cs done : List (Call W)),
    (∀ p x, .get p x ∈ cs → p < n) → shownWith P (received g n own name P (trainWith P w)) done cs = shownWith P (incomingWith P w) done cs
  | [], _, _ => rfl
  | .run k :: cs, done, hg => by
    have ih := shownWith_chain hi hs hc w cs (done ++ [.run k]) fun p x hm => hg p x (List.mem_cons_of_mem _ hm)
    simp only [shownWith]; rw [ih]
  | .get p x :: cs, done, hg => by
    have ih := shownWith_chain hi hs hc w cs (done ++ [.get p x]) fun p x hm => hg p x (List.mem_cons_of_mem _ hm)
    have hp := hg p x List.mem_cons_self
    simp only [shownWith]
    rw [ih]
    cases p with
    | zero => rw [stateWith_src hc.first _ _ (incomingWith P w 0)]
    | succ p => rw [chain_received hi hs hc _ hp]; rfl
  | .set p x ws :: cs, done, hg => by
    have ih := shownWith_chain hi hs hc w cs (done ++ [.set p x ws]) fun p x hm => hg p x (List.mem_cons_of_mem _ hm)
    simp only [shownWith]; rw [ih]

/-- **C122.** A chain of processes and a program that may write Vars: what is shown are the Vars that each process has on its own, with the writes made so far, after it has received what the process before
it, with its writes, answers to what the process before that answers, and so on. -/
theorem C122_chain (lim : Nat) (calls : List PortGraph.Op) (n : Nat) (P : Nat → Proc X V W) (k : Nat) (svc : Nat → Nat) (pms : Nat → List Nat) (cap : Nat → Nat) (own : Nat → Nat)
    (name : Nat → String) (outs : Nat → List Nat) (procs : List Nat) (has : Nat → String → Bool) (b : Builders) (hd : Deployed lim calls n P k svc pms cap own name outs procs has b)
    (hc : Chain (run lim G.empty calls) n own name P) (prog : List (Call W)) (hp : Proper n (fun p => (P p).pm) prog) :
    Gives (platform n P k svc pms cap) b prog (shownWith P (incomingWith P (writes prog)) [] prog) := by
  have hi := PortGraph.inv_run PortGraph.inv_empty lim calls hd.good
  have h := Trains.C122_network_is_its_parts lim calls n P k svc pms cap own name outs procs has b hd (chain_fed hi hc) prog hp (trainWith P (writes prog)) (chain_solvesWith hi hd.script hc _)
  rwa [shownWith_chain hi hd.script hc _ prog [] hp.gets] at h

end Verif.Pipe
