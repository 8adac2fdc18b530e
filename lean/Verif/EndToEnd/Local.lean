import Verif.EndToEnd.Props

/-!
# Does it matter how process models are distributed over services?

Phases are entered by all models of a service when one of them asks for it. Guards that do not depend on what the management phases do make this
invisible; a pre-learning guard without learning guard makes it visible.
-/

namespace Verif.EndToEnd

open Verif.System (Op Act Net St upd exec)

variable {S V W : Type}

/-- Guards behave: pre-learning management is wanted only together with learning, and the guards still to be asked are not changed by the
phases before. True of guards that depend on the time step and of `learning_dense`-like models. -/
structure Tame (y : Sys S V W) : Prop where
  preLrn : ∀ p s, y.preGuard p s = true → y.lrnGuard p s = true
  lrnPre : ∀ p s, y.lrnGuard p (doPre y p s) = y.lrnGuard p s
  postPre : ∀ p s, y.postGuard p (doPre y p s) = y.postGuard p s
  postLrn : ∀ p s, y.postGuard p (doLrn y p s) = y.postGuard p s

theorem anyOf_of_mem {y : Sys S V W} {i p : Nat} {g : Nat → S → Bool} {σ : Nat → S} (hp : p ∈ y.pms i) (h : g p (σ p) = true) :
    anyOf y i g σ = true := by
  unfold anyOf
  rw [List.any_eq_true]
  exact ⟨p, hp, h⟩

/-- **C96.** With tame guards, what a process model does after the spiking phase depends on its own state only. -/
theorem C96_phases_are_local (y : Sys S V W) (ht : Tame y) (i p : Nat) (hp : p ∈ y.pms i) (σ : Nat → S) :
    managed y i σ p = doPost y p (doLrn y p (doPre y p (σ p))) := by
  have h1 : phaseIf y i (anyOf y i (fun p s => y.lrnGuard p s && y.preGuard p s) σ) (doPre y) σ p = doPre y p (σ p) := by
    unfold phaseIf
    by_cases hb : anyOf y i (fun p s => y.lrnGuard p s && y.preGuard p s) σ = true
    · rw [if_pos ⟨hb, hp⟩]
    · rw [if_neg (fun h => hb h.1)]
      unfold doPre
      rw [if_neg]
      intro hg
      exact hb (anyOf_of_mem hp (by simp [hg, ht.preLrn p _ hg]))
  have h2 : phaseIf y i (anyOf y i y.lrnGuard σ) (doLrn y)
      (phaseIf y i (anyOf y i (fun p s => y.lrnGuard p s && y.preGuard p s) σ) (doPre y) σ) p = doLrn y p (doPre y p (σ p)) := by
    show (if _ then doLrn y p _ else _) = _
    rw [h1]
    by_cases hb : anyOf y i y.lrnGuard σ = true
    · rw [if_pos ⟨hb, hp⟩]
    · rw [if_neg (fun h => hb h.1)]
      unfold doLrn
      rw [if_neg]
      intro hg
      rw [ht.lrnPre] at hg
      exact hb (anyOf_of_mem hp hg)
  unfold managed
  show (if _ then doPost y p _ else _) = _
  rw [h2]
  split
  · rfl
  · rename_i hb
    unfold doPost
    rw [if_neg]
    intro hg
    apply hb
    refine ⟨?_, hp⟩
    rw [Bool.or_eq_true, Bool.and_eq_true]
    by_cases hl : y.lrnGuard p (σ p) = true
    · right
      refine ⟨anyOf_of_mem hp hl, anyOf_of_mem hp ?_⟩
      rw [h2]
      exact hg
    · left
      refine anyOf_of_mem hp ?_
      rw [ht.postLrn, ht.postPre] at hg
      simp [hl, hg]

/-- The same models in other services, with channels of other capacities. -/
def Sys.redistributed (y : Sys S V W) (k : Nat) (svc : Nat → Nat) (pms : Nat → List Nat) (cap : Nat → Nat) : Sys S V W :=
  { y with k := k, svc := svc, pms := pms, cap := cap }

section
variable {y : Sys S V W} {k : Nat} {svc : Nat → Nat} {pms : Nat → List Nat} {cap : Nat → Nat}

theorem after_redistributed (h : Nat → V) (p : Nat) (l : List Op) :
    ∀ s, after (y.redistributed k svc pms cap) h p l s = after y h p l s := by
  induction l with
  | nil => intro s; rfl
  | cons o l ih => intro s; cases o <;> exact ih _

theorem pokes_redistributed (p x : Nat) (ws : List W) :
    ∀ j s, pokes (y.redistributed k svc pms cap) p x j ws s = pokes y p x j ws s := by
  induction ws with
  | nil => intro j s; rfl
  | cons w ws ih => intro j s; exact ih _ _

theorem tame_redistributed (ht : Tame y) : Tame (y.redistributed k svc pms cap) :=
  ⟨ht.preLrn, ht.lrnPre, ht.postPre, ht.postLrn⟩

theorem oneStep_redistributed {src dst : Nat → Nat} (ht : Tame y) (hw : WF y src dst) (hw' : WF (y.redistributed k svc pms cap) src dst)
    {σ σ' : Nat → S} (h : OneStep y σ σ') : OneStep (y.redistributed k svc pms cap) σ σ' := by
  obtain ⟨m, hM, hs⟩ := h
  have hsp : spiked (y.redistributed k svc pms cap) m σ = spiked y m σ := by
    funext p
    show (if p < y.n then y.tick p (after (y.redistributed k svc pms cap) m p (y.body p) (y.start p (σ p))) else σ p) = _
    rw [after_redistributed]
    rfl
  refine ⟨m, ?_, ?_⟩
  · intro p c x z hp hb
    show m c = y.emit p (after (y.redistributed k svc pms cap) m p x (y.start p (σ p))) c
    rw [after_redistributed]
    exact hM p c x z hp hb
  · intro p
    rw [hs p, hsp]
    show (if p < y.n then _ else _) = if p < y.n then _ else _
    by_cases hp : p < y.n
    · rw [if_pos hp, if_pos hp, C96_phases_are_local y ht _ p (((hw.pms _).2 p).2 ⟨hp, rfl⟩),
        C96_phases_are_local _ (tame_redistributed ht) _ p (((hw'.pms _).2 p).2 ⟨hp, rfl⟩)]
      rfl
    · rw [if_neg hp, if_neg hp]

theorem stepsTo_redistributed {src dst : Nat → Nat} (ht : Tame y) (hw : WF y src dst) (hw' : WF (y.redistributed k svc pms cap) src dst)
    (n : Nat) : ∀ {σ σ' : Nat → S}, StepsTo y n σ σ' → StepsTo (y.redistributed k svc pms cap) n σ σ' := by
  induction n with
  | zero => intro σ σ' h; exact h
  | succ n ih =>
    intro σ σ' h
    obtain ⟨τ, h1, h2⟩ := h
    exact ⟨τ, oneStep_redistributed ht hw hw' h1, ih h2⟩

end

/-- **C96.** With tame guards a program means the same however the models are distributed over services. -/
theorem C96_services_irrelevant {y : Sys S V W} {k : Nat} {svc : Nat → Nat} {pms : Nat → List Nat} {cap src dst : Nat → Nat}
    (ht : Tame y) (hw : WF y src dst) (hw' : WF (y.redistributed k svc pms cap) src dst) (prog : List (Call W)) :
    ∀ (b : Bool) (σ : Nat → S) (l : List (Res W)), Means y b σ prog l → Means (y.redistributed k svc pms cap) b σ prog l := by
  induction prog with
  | nil => intro b σ l h; cases h; exact .stop _
  | cons c cs ih =>
    intro b σ l h
    cases h with
    | run s m => exact .run (stepsTo_redistributed ht hw hw' _ s) (ih _ _ _ m)
    | get m => exact Means.get (y := y.redistributed k svc pms cap) (ih _ _ _ m)
    | set m =>
      refine Means.set (y := y.redistributed k svc pms cap) ?_
      simp only [pokes_redistributed]
      exact ih _ _ _ m
    | getEarly m => exact .getEarly (ih _ _ _ m)
    | setEarly m => exact .setEarly (ih _ _ _ m)

/-- **C96.** … and a user sees the same of every completed execution. -/
theorem C96_distribution_invisible [Inhabited V] {y : Sys S V W} {k : Nat} {svc : Nat → Nat} {pms : Nat → List Nat}
    {cap src dst : Nat → Nat} (ht : Tame y) (hw : WF y src dst) (hw' : WF (y.redistributed k svc pms cap) src dst)
    (hc : NoCircle y src) (prog : List (Call W)) (hp : Proper y prog) (l l' : List Nat)
    (hl : Verif.System.Stuck (net y) (exec (net y) (initial y prog) l))
    (hl' : Verif.System.Stuck (net (y.redistributed k svc pms cap))
      (exec (net (y.redistributed k svc pms cap)) (initial (y.redistributed k svc pms cap) prog) l')) :
    seen (exec (net y) (initial y prog) l) =
      seen (exec (net (y.redistributed k svc pms cap)) (initial (y.redistributed k svc pms cap) prog) l') := by
  have hp' : Proper (y.redistributed k svc pms cap) prog := by
    refine ⟨?_, hp.runs⟩
    intro c hc
    have := hp.valid c hc
    cases c <;> exact this
  obtain ⟨a, ma, -, sa, -⟩ := C96_every_schedule y src dst hw hc prog hp
  obtain ⟨b, mb, -, sb, -⟩ := C96_every_schedule _ src dst hw' hc prog hp'
  rw [(sa l hl).1, (sb l' hl').1]
  exact C96_meaning_unique hw' hc prog _ _ _ _ (C96_services_irrelevant ht hw hw' prog _ _ _ ma) mb

end Verif.EndToEnd
