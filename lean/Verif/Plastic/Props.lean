import Verif.Plastic.Spec
import Verif.Snn.Props

/-!
# C116: networks that learn compute what a step-by-step simulation computes
-/

namespace Verif.Plastic

open Verif.Wired (PM POp Platform sys connections written)
open Verif.Wired.Spec (linkedSum Linked Script NoCircleOfPorts Before Hosted Proper Shows Values OneStep Steps after spiked managed)
open Verif.Wiring (Port Builders buildChannels)
open Verif.EndToEnd (Call Res net initial seen)
open Verif.PortGraph (G run dstPorts Reaches)
open Verif.Snn (linkedSum_congr)
open Verif.Snn.Spec (Gives)
open Spec

section after
variable {X V W : Type}

theorem after_append (P : PM X V W) (inp : String → V) : ∀ (a b : List POp) (s : X), after P inp (a ++ b) s = after P inp b (after P inp a s)
  | [], _, _ => rfl
  | .send _ :: a, b, s => after_append P inp a b s
  | .recv _ :: a, b, _ => after_append P inp a b _

theorem after_sends (P : PM X V W) (inp : String → V) : ∀ (ys : List String) (s : X), after P inp (ys.map .send) s = s
  | [], _ => rfl
  | _ :: ys, s => after_sends P inp ys s

theorem after_recvs (P : Proc X V W) (inp : String → V) : ∀ (xs : List String) (s : X), after P.pm inp (xs.map .recv) s = xs.foldl (fun s x => P.absorb s x (inp x)) s
  | [], _ => rfl
  | _ :: xs, _ => after_recvs P inp xs _

theorem after_ops (P : Proc X V W) (inp : String → V) (s : X) : after P.pm inp P.ops s = received P inp s := by
  unfold Proc.ops received
  split
  · rw [after_append, after_sends, after_recvs]
  · rw [after_append, after_sends, after_recvs]

/-- What has been received before a message is sent. -/
theorem after_before (P : Proc X V W) (inp : String → V) {l r : List POp} {y : String} (h : P.ops = l ++ .send y :: r) (s : X) :
    after P.pm inp l s = if P.late = true then received P inp s else s := by
  unfold Proc.ops at h
  have hmem : ∀ (ys : List String) (l r : List POp), ys.map POp.send = l ++ r → ∃ zs : List String, l = zs.map POp.send := by
    intro ys l r h
    obtain ⟨a, b, _, h1, _⟩ := List.map_eq_append_iff.1 h
    exact ⟨a, h1.symm⟩
  cases hl : P.late with
  | true =>
    rw [hl] at h
    rw [if_pos rfl] at h ⊢
    obtain ⟨a, e1, e2⟩ | ⟨a, e1, e2⟩ := List.append_eq_append_iff.1 h
    · obtain ⟨zs, hz⟩ := hmem _ _ _ e2
      rw [e1, hz, after_append, after_sends, after_recvs]; rfl
    · rcases a with _ | ⟨a0, a⟩
      · rw [List.append_nil] at e1
        rw [← e1, after_recvs]; rfl
      · simp only [List.cons_append, List.cons.injEq] at e2
        have : POp.send y ∈ P.ins.map POp.recv := by rw [e1, e2.1]; simp
        simp at this
  | false =>
    rw [hl] at h
    simp only [Bool.false_eq_true, if_false] at h ⊢
    obtain ⟨a, e1, e2⟩ | ⟨a, e1, e2⟩ := List.append_eq_append_iff.1 h
    · rcases a with _ | ⟨a0, a⟩
      · rw [List.append_nil] at e1
        rw [e1, after_sends]
      · have : POp.send y ∈ P.ins.map POp.recv := by rw [e2]; simp
        simp at this
    · obtain ⟨zs, hz⟩ := hmem _ _ _ e1
      rw [hz, after_sends]

end after

variable {X V W : Type} [AddCommMonoid V] {g : G} {n : Nat} {own : Nat → Nat} {name : Nat → String} {P : Nat → Proc X V W} {outs : Nat → List Nat}

omit [AddCommMonoid V] in
/-- A process receives something only through ports that are linked. -/
theorem received_congr (Q : Proc X V W) {f f' : String → V} (h : ∀ x ∈ Q.ins, f x = f' x) (s : X) : received Q f s = received Q f' s := by
  unfold received
  generalize Q.ins = l at h
  induction l generalizing s with
  | nil => rfl
  | cons x xs ih =>
    rw [List.foldl_cons, List.foldl_cons, h x (by simp)]
    exact ih _ (fun y hy => h y (by simp [hy]))

/-- What the equations of C114 say about what is sent. -/
theorem values_sent (hi : PortGraph.Inv g) (hs : Script g n own name outs fun p => (P p).pm) (hf : Fed g n own name P) (k : Nat) (svc : Nat → Nat) (pms : Nat → List Nat) (cap : Nat → Nat)
    {s : Nat → X} {w : Port → V} (hw : Values (written (platform n P k svc pms cap) g own name) s w) {o p : Nat} {x : String} (ho : o < g.next)
    (hl : Linked g n own name o p x) : w ⟨own o, name o, .out⟩ = sent g n own name P s ⟨own o, name o, .out⟩ := by
  have hval : ∀ o' p' x', o' < g.next → Linked g n own name o' p' x' → w ⟨own o', name o', .out⟩ =
      (P (own o')).out (if (P (own o')).late = true then received (P (own o')) (linkedSum g n own name w (own o')) ((P (own o')).begin_ (s (own o'))) else (P (own o')).begin_ (s (own o'))) (name o') := by
    rintro o' p' x' ho' ⟨h1, h2, i, _, _, _, hr⟩
    obtain ⟨l, r, hlr⟩ := List.append_of_mem (hs.usesOut o' ho' h1 h2 (Wired.reaches_ends hi hr).2.2.1)
    rw [hw (own o') (name o') l r h1 hlr]
    show (P (own o')).out (after (P (own o')).pm _ l ((P (own o')).begin_ (s (own o')))) (name o') = _
    rw [after_before (P (own o')) _ hlr]
    rfl
  have hearly : ∀ o' p' x', o' < g.next → Linked g n own name o' p' x' → (P (own o')).late = false → w ⟨own o', name o', .out⟩ = early P s ⟨own o', name o', .out⟩ := by
    intro o' p' x' ho' hl' hk
    rw [hval o' p' x' ho' hl']
    unfold early
    simp [hk]
  by_cases hk : (P (own o)).late = true
  · rw [hval o p x ho hl]
    unfold sent
    rw [if_pos hk, if_pos hk]
    congr 1
    apply received_congr
    intro y _
    apply linkedSum_congr
    intro o' ho' hl'
    exact hearly o' _ _ ho' hl' (hf (own o) o' y hl.1 hk hl')
  · rw [hearly o p x ho hl (by simpa using hk)]
    unfold sent
    rw [if_neg hk]

omit [AddCommMonoid V] in
/-- Each process decides for itself whether it learns. -/
theorem managed_own {P : Nat → Proc X V W} {grp : List Nat} {p : Nat} (hp : p ∈ grp) (σ : Nat → X) :
    managed (fun p => (P p).pm) grp σ p = if (P p).guard (σ p) = true then (P p).learn (σ p) else σ p := by
  have hphase : ∀ (b : Bool) (f : Nat → X → X) (τ : Nat → X), Wired.Spec.phase grp b (fun _ _ => false) f τ = τ := by
    intro b f τ
    funext p
    unfold Wired.Spec.phase
    rw [if_neg (by simp)]
  unfold managed
  simp only [Proc.pm]
  rw [hphase, hphase]
  unfold Wired.Spec.phase Wired.Spec.anyOf
  by_cases hg : (P p).guard (σ p) = true
  · rw [if_pos ⟨List.any_eq_true.2 ⟨p, hp, hg⟩, hp, hg⟩, if_pos hg]
  · rw [if_neg (fun h => hg h.2.2), if_neg hg]

variable {k : Nat} {svc : Nat → Nat} {pms : Nat → List Nat} {cap : Nat → Nat}

/-- One step according to the equations of C114 is one step of the simulation. -/
theorem oneStep_next (hi : PortGraph.Inv g) (hs : Script g n own name outs fun p => (P p).pm) (hf : Fed g n own name P) (hh : Hosted (platform n P k svc pms cap))
    {s s' : Nat → X} (h : OneStep (written (platform n P k svc pms cap) g own name) s s') : s' = next g n own name P s := by
  obtain ⟨w, hw, hs'⟩ := h
  have hsum : ∀ p x, linkedSum g n own name w p x = linkedSum g n own name (sent g n own name P s) p x :=
    fun p x => linkedSum_congr fun o ho hl => values_sent hi hs hf k svc pms cap hw ho hl
  funext p
  rw [hs' p]
  unfold next
  by_cases hp : p < n
  · rw [if_pos hp, if_pos (show p < (written (platform n P k svc pms cap) g own name).n from hp)]
    have hm : p ∈ pms (svc p) := ((hh.pms (svc p)).2 p).2 ⟨hp, rfl⟩
    have e := managed_own (P := P) hm (spiked (written (platform n P k svc pms cap) g own name) w s)
    have e' : spiked (written (platform n P k svc pms cap) g own name) w s p = informed g n own name P s p := by
      unfold spiked informed
      rw [if_pos (show p < (written (platform n P k svc pms cap) g own name).n from hp)]
      show after (P p).pm (fun x => linkedSum g n own name w p x) (P p).ops ((P p).begin_ (s p)) = _
      rw [after_ops]
      exact received_congr _ (fun x _ => hsum p x) _
    rw [e'] at e
    exact e
  · rw [if_neg hp, if_neg (show ¬ p < (written (platform n P k svc pms cap) g own name).n from hp)]

theorem steps_next (hi : PortGraph.Inv g) (hs : Script g n own name outs fun p => (P p).pm) (hf : Fed g n own name P) (hh : Hosted (platform n P k svc pms cap)) :
    ∀ (m : Nat) {s s' : Nat → X}, Steps (written (platform n P k svc pms cap) g own name) m s s' → s' = (next g n own name P)^[m] s
  | 0, _, _, h => h
  | m + 1, s, s', ⟨τ, h1, h2⟩ => by
    rw [Function.iterate_succ_apply, ← oneStep_next hi hs hf hh h1]
    exact steps_next hi hs hf hh m h2

omit [AddCommMonoid V] in
theorem pokes_pm (Q : Proc X V W) (x : Nat) (ws : List W) : ∀ (j : Nat) (s : X), Wired.Spec.pokes Q.pm x j ws s = pokes Q x j ws s := by
  induction ws with
  | nil => intro j s; rfl
  | cons w ws ih => intro j s; show Wired.Spec.pokes Q.pm x (j + 1) ws (Q.poke s x j w) = _; rw [ih]; rfl

/-- What the equations of C114 show is what the simulation shows. -/
theorem shows_results (hi : PortGraph.Inv g) (hs : Script g n own name outs fun p => (P p).pm) (hf : Fed g n own name P) (hh : Hosted (platform n P k svc pms cap))
    (prog : List (Call W)) : ∀ (b : Bool) (s : Nat → X) (log : List (Res W)), Shows (written (platform n P k svc pms cap) g own name) b s prog log →
      log = results P (next g n own name P) b s prog := by
  induction prog with
  | nil => intro b s log h; cases h; rfl
  | cons c cs ih =>
    intro b s log h
    cases h with
    | run h1 h2 =>
      show _ = Res.ran :: _
      rw [ih _ _ _ h2, steps_next hi hs hf hh _ h1]
    | get h1 => rw [ih _ _ _ h1]; rfl
    | set h1 =>
      rename_i p x ws l
      rw [ih _ _ _ h1]
      show _ = Res.wasSet :: _
      congr 2
      funext q
      by_cases hq : q = p
      · rw [if_pos hq, if_pos hq]
        exact pokes_pm (P p) x ws 0 (s p)
      · rw [if_neg hq, if_neg hq]
    | getEarly h1 => rw [ih _ _ _ h1]; rfl
    | setEarly h1 => rw [ih _ _ _ h1]; rfl

omit [AddCommMonoid V] in
/-- Connections send before they receive: there is no circle. -/
theorem noCircle_plastic (hf : Fed g n own name P) : NoCircleOfPorts g n own name fun p => (P p).pm := by
  rintro ⟨K, ⟨o, ho⟩, hK⟩
  have key : ∀ o, K o → (P (own o)).late = true ∧ ∃ o' x, K o' ∧ Linked g n own name o' (own o) x := by
    intro o ho
    obtain ⟨_, _, o', x, hk', hl, a, b, c, hb⟩ := hK o ho
    refine ⟨?_, o', x, hk', hl⟩
    apply Classical.byContradiction
    intro hn
    have hb : (P (own o)).ops = a ++ .recv x :: (b ++ .send (name o) :: c) := hb
    have hb' : (P (own o)).ops = (a ++ .recv x :: b) ++ .send (name o) :: c := by rw [hb]; simp
    unfold Proc.ops at hb'
    rw [if_neg hn] at hb'
    obtain ⟨a', e1, e2⟩ | ⟨a', e1, e2⟩ := List.append_eq_append_iff.1 hb'
    · have : POp.send (name o) ∈ (P (own o)).ins.map POp.recv := by rw [e2]; simp
      simp at this
    · have : POp.recv x ∈ (P (own o)).outs.map POp.send := by rw [e1]; simp
      simp at this
  obtain ⟨h1, o', x, hk', hl⟩ := key o ho
  have := hf (own o) o' x (hK o ho).2.1 h1 hl
  rw [(key o' hk').1] at this
  cases this

/-- **C116.** A network of process models that send first or receive first, some of which learn, connected by any program of `connect` calls: under every schedule, and however the processes are distributed
over runtime services, the calls show (a prefix of) what the step-by-step simulation shows, in which every process learns when its own guard says so; an execution that cannot go on has shown all of it and has
terminated, and every fair schedule gets there. -/
theorem C116_simulated (lim : Nat) (calls : List PortGraph.Op) (n : Nat) (P : Nat → Proc X V W) (k : Nat) (svc : Nat → Nat) (pms : Nat → List Nat) (cap : Nat → Nat)
    (own : Nat → Nat) (name : Nat → String) (outs : Nat → List Nat) (procs : List Nat) (has : Nat → String → Bool) (b : Builders)
    (hd : Deployed lim calls n P k svc pms cap own name outs procs has b) (hf : Fed (run lim G.empty calls) n own name P)
    (prog : List (Call W)) (hp : Proper n (fun p => (P p).pm) prog) :
    Gives (platform n P k svc pms cap) b prog (results P (next (run lim G.empty calls) n own name P) false (fun p => (P p).init) prog) := by
  have hi := PortGraph.inv_run PortGraph.inv_empty lim calls hd.good
  obtain ⟨log, h1, h2⟩ := Wired.C114_from_connect_calls (platform n P k svc pms cap) lim calls hd.good own name outs procs hd.all hd.script hd.found (noCircle_plastic hf) hd.hosted has b hd.built prog hp
  have e := shows_results hi hd.script hf hd.hosted prog _ _ _ h1
  rw [e] at h2
  exact h2

end Verif.Plastic
