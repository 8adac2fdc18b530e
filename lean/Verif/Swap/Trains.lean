import Verif.Swap.Props
import Verif.Snn.Props

/-!
# C118: processes that answer every sequence of inputs with the same sequence of outputs
-/

namespace Verif.Swap

open Verif.Wired (PM POp)
open Verif.Wired.Spec (after Proper Hosted Script)
open Verif.Wiring (Builders)
open Verif.EndToEnd (Call Res)
open Verif.PortGraph (G run)
open Verif.Snn (Proc Kind platform)
open Verif.Snn.Spec (Gives Deployed Fed results next)
open Spec

variable {X V W : Type}

namespace Spec

/-- A process on its own: its state before time step `t` (0-based) if it receives `a u` in step `u`. -/
def stateAt (P : Proc X V W) (a : Nat → V) : Nat → X
  | 0 => P.init
  | t + 1 =>
    match P.kind with
    | .neuron => (P.fire (P.begin_ (stateAt P a t)) (a t)).1
    | .synapse => P.absorb (P.begin_ (stateAt P a t)) (a t)
    | .sink => P.absorb (P.begin_ (stateAt P a t)) (a t)
    | _ => P.begin_ (stateAt P a t)

/-- What it sends in step `t` (nothing if it has no OutPort). -/
def sentAt (P : Proc X V W) (a : Nat → V) (t : Nat) : Option V :=
  match P.kind with
  | .neuron => some (P.fire (P.begin_ (stateAt P a t)) (a t)).2
  | .synapse => some (P.out (P.begin_ (stateAt P a t)))
  | .source => some (P.out (P.begin_ (stateAt P a t)))
  | _ => none

/-- Two processes with ports of the same kind send the same for every sequence of inputs. -/
def SameTrains (P P' : Proc X V W) : Prop := P'.kind = P.kind ∧ ∀ a t, sentAt P' a t = sentAt P a t

/-- ... and a Var of both has always the same value. -/
def SameVar (P P' : Proc X V W) (x : Nat) : Prop := P'.vsize x = P.vsize x ∧ ∀ a t j, P'.peek (stateAt P' a t) x j = P.peek (stateAt P a t) x j

end Spec

theorem stateAt_congr (P : Proc X V W) {a a' : Nat → V} : ∀ t, (∀ u, u < t → a u = a' u) → stateAt P a t = stateAt P a' t
  | 0, _ => rfl
  | t + 1, h => by
    have ih := stateAt_congr P t fun u hu => h u (by omega)
    unfold stateAt
    rw [ih, h t (by omega)]

theorem matches_refl (P : PM X V W) : Matches P P (fun _ => True) (fun _ => True) Eq where
  ops := rfl
  init := rfl
  sends := by rintro s _ inp l y r rfl _; rfl
  step := by rintro s _ inp rfl; rfl
  pre := by rintro s _ rfl; exact ⟨rfl, rfl⟩
  lrn := by rintro s _ rfl; exact ⟨rfl, rfl⟩
  post := by rintro s _ rfl; exact ⟨rfl, rfl⟩
  read := by rintro x _; exact ⟨rfl, by rintro s _ j rfl; rfl⟩
  write := by rintro x _; exact ⟨rfl, by rintro s _ j w rfl; rfl⟩
  updated := by rintro s _ rfl; rfl

/-- Both have got the same inputs so far. -/
def Fellow (P P' : Proc X V W) (s s' : X × V) : Prop := ∃ a t, s.1 = stateAt P a t ∧ s'.1 = stateAt P' a t

theorem fellow_step (P P' : Proc X V W) {s s' : X × V} (v : V) (h : Fellow P P' s s') :
    ∃ a t, s.1 = stateAt P a t ∧ s'.1 = stateAt P' a t ∧ a t = v := by
  obtain ⟨a, t, h1, h2⟩ := h
  refine ⟨fun u => if u < t then a u else v, t, ?_, ?_, if_neg (Nat.lt_irrefl t)⟩
  · rw [h1]; exact stateAt_congr P t fun u hu => (if_pos hu).symm
  · rw [h2]; exact stateAt_congr P' t fun u hu => (if_pos hu).symm

theorem matches_trains [Zero V] {P P' : Proc X V W} (h : SameTrains P P') : Matches P.pm P'.pm (SameVar P P') (fun _ => False) (Fellow P P') where
  ops := by show P'.kind.ops = P.kind.ops; rw [h.1]
  init := ⟨fun _ => 0, 0, rfl, rfl⟩
  sends := by
    intro s s' inp l y r hR ho
    have ho : P.kind.ops = l ++ .send y :: r := ho
    cases hk : P.kind with
    | neuron =>
      have hk' := h.1.trans hk
      rw [hk] at ho
      rcases l with _ | ⟨l0, _ | ⟨l1, l⟩⟩
      · simp [Kind.ops] at ho
      · simp only [Kind.ops, List.cons_append, List.nil_append, List.cons.injEq] at ho
        obtain ⟨rfl, _, _⟩ := ho
        obtain ⟨a, t, h1, h2, h3⟩ := fellow_step P P' (inp "a_in") hR
        have e := h.2 a t
        simp only [sentAt, hk, hk', Option.some.injEq] at e
        simp only [after, Proc.pm, hk, hk', if_true]
        rw [h1, h2, ← h3]
        exact e
      · simp [Kind.ops] at ho
    | synapse =>
      have hk' := h.1.trans hk
      rw [hk] at ho
      rcases l with _ | ⟨l0, _ | ⟨l1, l⟩⟩
      · obtain ⟨a, t, h1, h2⟩ := hR
        have e := h.2 a t
        simp only [sentAt, hk, hk', Option.some.injEq] at e
        simp only [after, Proc.pm, hk, hk']
        rw [if_neg (by decide), if_neg (by decide), h1, h2]
        exact e
      · simp [Kind.ops] at ho
      · simp [Kind.ops] at ho
    | source =>
      have hk' := h.1.trans hk
      rw [hk] at ho
      rcases l with _ | ⟨l0, l⟩
      · obtain ⟨a, t, h1, h2⟩ := hR
        have e := h.2 a t
        simp only [sentAt, hk, hk', Option.some.injEq] at e
        simp only [after, Proc.pm, hk, hk']
        rw [if_neg (by decide), if_neg (by decide), h1, h2]
        exact e
      · simp [Kind.ops] at ho
    | sink => rw [hk] at ho; rcases l with _ | ⟨l0, l⟩ <;> simp [Kind.ops] at ho
    | silent => rw [hk] at ho; rcases l with _ | ⟨l0, l⟩ <;> simp [Kind.ops] at ho
  step := by
    intro s s' inp hR
    cases hk : P.kind with
    | neuron =>
      have hk' := h.1.trans hk
      obtain ⟨a, t, h1, h2, h3⟩ := fellow_step P P' (inp "a_in") hR
      refine ⟨a, t + 1, ?_, ?_⟩
      · simp only [Proc.pm, hk, Kind.ops, after, stateAt, if_true]; rw [h1, h3]
      · simp only [Proc.pm, hk', Kind.ops, after, stateAt, if_true]; rw [h2, h3]
    | synapse =>
      have hk' := h.1.trans hk
      obtain ⟨a, t, h1, h2, h3⟩ := fellow_step P P' (inp "s_in") hR
      refine ⟨a, t + 1, ?_, ?_⟩
      · simp only [Proc.pm, hk, Kind.ops, after, stateAt]; rw [if_neg (by decide), h1, h3]
      · simp only [Proc.pm, hk', Kind.ops, after, stateAt]; rw [if_neg (by decide), h2, h3]
    | sink =>
      have hk' := h.1.trans hk
      obtain ⟨a, t, h1, h2, h3⟩ := fellow_step P P' (inp "a_in") hR
      refine ⟨a, t + 1, ?_, ?_⟩
      · simp only [Proc.pm, hk, Kind.ops, after, stateAt]; rw [if_neg (by decide), h1, h3]
      · simp only [Proc.pm, hk', Kind.ops, after, stateAt]; rw [if_neg (by decide), h2, h3]
    | source =>
      have hk' := h.1.trans hk
      obtain ⟨a, t, h1, h2⟩ := hR
      exact ⟨a, t + 1, by simp only [Proc.pm, hk, Kind.ops, after, stateAt]; rw [h1], by simp only [Proc.pm, hk', Kind.ops, after, stateAt]; rw [h2]⟩
    | silent =>
      have hk' := h.1.trans hk
      obtain ⟨a, t, h1, h2⟩ := hR
      exact ⟨a, t + 1, by simp only [Proc.pm, hk, Kind.ops, after, stateAt]; rw [h1], by simp only [Proc.pm, hk', Kind.ops, after, stateAt]; rw [h2]⟩
  pre := fun s s' hR => ⟨rfl, hR⟩
  lrn := fun s s' hR => ⟨rfl, hR⟩
  post := fun s s' hR => ⟨rfl, hR⟩
  read := by
    intro x hx
    refine ⟨hx.1, ?_⟩
    rintro s s' j ⟨a, t, h1, h2⟩
    show P'.peek s'.1 x j = P.peek s.1 x j
    rw [h1, h2]
    exact hx.2 a t j
  write := fun x hx => hx.elim
  updated := fun s s' hR => hR

/-- **C118.** In a network of neurons, connections, sources and sinks, any number of processes can be replaced by others that answer every sequence of inputs with the same sequence of outputs: every
program that does not write Vars of replaced processes, and reads only those of them that are always equal, shows what the step-by-step simulation of the original network shows - under every schedule, with
other channel capacities, and also in recurrent networks. -/
theorem C118_same_trains [AddCommMonoid V] (lim : Nat) (calls : List PortGraph.Op) (n : Nat) (P P' : Nat → Proc X V W) (k : Nat) (svc : Nat → Nat) (pms : Nat → List Nat) (cap cap' : Nat → Nat)
    (hcap : ∀ c, 1 ≤ cap' c) (own : Nat → Nat) (name : Nat → String) (outs : Nat → List Nat) (procs : List Nat) (has : Nat → String → Bool) (b : Builders)
    (hd : Deployed lim calls n P k svc pms cap own name outs procs has b) (hf : Fed (run lim G.empty calls) n own name P)
    (hsame : ∀ p, P' p = P p ∨ SameTrains (P p) (P' p)) (prog : List (Call W)) (hp : Proper n (fun p => (P p).pm) prog)
    (hget : ∀ p x, .get p x ∈ prog → P' p = P p ∨ SameVar (P p) (P' p) x) (hset : ∀ p x ws, .set p x ws ∈ prog → P' p = P p) :
    Gives (platform n P k svc pms cap) b prog (results P (next (run lim G.empty calls) n own name P) false (fun p => (P p).init) prog) ∧
    Gives (platform n P' k svc pms cap') b prog (results P (next (run lim G.empty calls) n own name P) false (fun p => (P p).init) prog) := by
  have hm : ∀ p, ∃ R, Matches (P p).pm (P' p).pm (fun x => P' p = P p ∨ SameVar (P p) (P' p) x) (fun _ => P' p = P p) R := by
    intro p
    by_cases he : P' p = P p
    · have m := matches_refl (P p).pm
      refine ⟨Eq, ?_⟩
      rw [he]
      exact { ops := rfl, init := rfl, sends := m.sends, step := m.step, pre := m.pre, lrn := m.lrn, post := m.post, read := fun x _ => m.read x trivial, write := fun x _ => m.write x trivial, updated := m.updated }
    · have m := matches_trains ((hsame p).resolve_left he)
      exact ⟨_, { ops := m.ops, init := m.init, sends := m.sends, step := m.step, pre := m.pre, lrn := m.lrn, post := m.post, read := fun x hx => m.read x (hx.resolve_left he), write := fun x hx => absurd hx he, updated := m.updated }⟩
  let R : Nat → X × V → X × V → Prop := fun p => Classical.choose (hm p)
  have hR : ∀ p, Matches (P p).pm (P' p).pm (fun x => P' p = P p ∨ SameVar (P p) (P' p) x) (fun _ => P' p = P p) (R p) := fun p => Classical.choose_spec (hm p)
  have h1 := Snn.C115_simulated lim calls n P k svc pms cap own name outs procs has b hd hf prog hp
  refine ⟨h1, ?_⟩
  obtain ⟨log, _, g1, g2⟩ := C118_interchangeable (platform n P k svc pms cap) (platform n P' k svc pms cap') _ _ R hR ⟨rfl, fun _ _ _ _ => Iff.rfl⟩ lim calls hd.good own name outs procs hd.all
    hd.script hd.found (Snn.noCircle_snn hf) hd.hosted ⟨hcap, hd.hosted.svc, hd.hosted.pms⟩ has b hd.built prog hp ⟨hget, hset⟩
  have e : results P (next (run lim G.empty calls) n own name P) false (fun p => (P p).init) prog = log := by
    obtain ⟨_, _, N1, a1⟩ := h1
    obtain ⟨_, _, N2, a2⟩ := g1
    have hr : ∀ rd ∈ List.replicate (N1 + N2) (List.range (2 * (n + k) + 1)), ∀ a, a ≤ 2 * (n + k) → a ∈ rd := by
      intro rd hrd a ha
      rw [List.eq_of_mem_replicate hrd]
      exact List.mem_range.2 (by omega)
    rw [← (a1 _ hr (by simp)).1, ← (a2 _ hr (by simp)).1]
  rw [e]
  exact g2

end Verif.Swap
