import Verif.Snn.Spec

/-!
# C115: networks of neurons and connections compute what a step-by-step simulation computes
-/

namespace Verif.Snn

open Verif.Wired (PM POp Platform sys connections written)
open Verif.Wired.Spec (linkedSum Linked Script NoCircleOfPorts Before Hosted Proper Shows Values OneStep Steps after spiked managed)
open Verif.Wiring (Port Builders buildChannels)
open Verif.EndToEnd (Call Res net initial seen)
open Verif.System (exec Stuck AllHalted)
open Verif.PortGraph (G run dstPorts Reaches)
open Spec

variable {X V W : Type} [AddCommMonoid V] {g : G} {n : Nat} {own : Nat → Nat} {name : Nat → String} {P : Nat → Proc X V W} {outs : Nat → List Nat}

/-- A sum over linked ports depends only on what linked ports send. -/
theorem linkedSum_congr {w w' : Port → V} {p : Nat} {x : String} (h : ∀ o, o < g.next → Linked g n own name o p x → w ⟨own o, name o, .out⟩ = w' ⟨own o, name o, .out⟩) :
    linkedSum g n own name w p x = linkedSum g n own name w' p x := by
  classical
  unfold linkedSum
  congr 1
  apply List.map_congr_left
  intro o ho
  simp only [List.mem_filter, List.mem_range, decide_eq_true_eq] at ho
  exact h o ho.1 ho.2

/-- The OutPorts of a process are those of its kind. -/
theorem out_name {k : Kind} {y : String} (h : POp.send y ∈ k.ops) :
    (k = .neuron ∧ y = "s_out") ∨ (k = .synapse ∧ y = "a_out") ∨ (k = .source ∧ y = "s_out") := by
  cases k <;> simp_all [Kind.ops]

/-- What the equations of C114 say about what is sent. -/
theorem values_sent (hi : PortGraph.Inv g) (hs : Script g n own name outs fun p => (P p).pm) (hf : Fed g n own name P) (k : Nat) (svc : Nat → Nat) (pms : Nat → List Nat) (cap : Nat → Nat)
    {s : Nat → X × V} {w : Port → V} (hw : Values (written (platform n P k svc pms cap) g own name) s w) {o p : Nat} {x : String} (ho : o < g.next)
    (hl : Linked g n own name o p x) : w ⟨own o, name o, .out⟩ = sent g n own name P (fun q => (s q).1) ⟨own o, name o, .out⟩ := by
  have hearly : ∀ o' p' x', o' < g.next → Linked g n own name o' p' x' → (P (own o')).kind ≠ .neuron → w ⟨own o', name o', .out⟩ = early P (fun q => (s q).1) ⟨own o', name o', .out⟩ := by
    rintro o' p' x' ho' ⟨h1, h2, i, _, _, _, hr⟩ hk
    have hu := hs.usesOut o' ho' h1 h2 (Wired.reaches_ends hi hr).2.2.1
    rcases out_name (k := (P (own o')).kind) hu with h | ⟨h, hn⟩ | ⟨h, hn⟩
    · exact absurd h.1 hk
    · have := hw (own o') (name o') [] [.recv "s_in"] h1 (by show (P (own o')).kind.ops = _; rw [h, hn]; rfl)
      rw [this]
      show (if (P (own o')).kind = .neuron then _ else _) = (if (P (own o')).kind = .neuron then _ else _)
      rw [if_neg hk, if_neg hk]
      rfl
    · have := hw (own o') (name o') [] [] h1 (by show (P (own o')).kind.ops = _; rw [h, hn]; rfl)
      rw [this]
      show (if (P (own o')).kind = .neuron then _ else _) = (if (P (own o')).kind = .neuron then _ else _)
      rw [if_neg hk, if_neg hk]
      rfl
  by_cases hk : (P (own o)).kind = .neuron
  · have hl' := hl
    obtain ⟨h1, h2, i, _, _, _, hr⟩ := hl
    have hu := hs.usesOut o ho h1 h2 (Wired.reaches_ends hi hr).2.2.1
    rcases out_name (k := (P (own o)).kind) hu with ⟨h, hn⟩ | h | h
    · have := hw (own o) (name o) [.recv "a_in"] [] h1 (by show (P (own o)).kind.ops = _; rw [h, hn]; rfl)
      rw [this]
      show (if (P (own o)).kind = .neuron then _ else _) = (if (P (own o)).kind = .neuron then _ else _)
      rw [if_pos hk, if_pos hk]
      show (if (P (own o)).kind = .neuron then (P (own o)).fire ((P (own o)).begin_ (s (own o)).1) (linkedSum g n own name w (own o) "a_in") else _ : X × V).2 = _
      rw [if_pos hk]
      unfold fired
      rw [linkedSum_congr (w' := early P fun q => (s q).1)]
      intro o' ho' hl''
      exact hearly o' _ _ ho' hl'' (hf (own o) o' h1 hk hl'')
    · rw [hk] at h; cases h.1
    · rw [hk] at h; cases h.1
  · rw [hearly o p x ho hl hk]
    unfold sent
    rw [if_neg hk]

theorem managed_none {P : Nat → Proc X V W} (grp : List Nat) (σ : Nat → X × V) : managed (fun p => (P p).pm) grp σ = σ := by
  have hphase : ∀ (b : Bool) (f : Nat → X × V → X × V) (τ : Nat → X × V), Wired.Spec.phase grp b (fun _ _ => false) f τ = τ := by
    intro b f τ
    funext p
    unfold Wired.Spec.phase
    rw [if_neg (by simp)]
  unfold managed
  simp only [Proc.pm]
  rw [hphase, hphase, hphase]

/-- One step according to the equations of C114 is one step of the simulation. -/
theorem oneStep_next (hi : PortGraph.Inv g) (hs : Script g n own name outs fun p => (P p).pm) (hf : Fed g n own name P) (k : Nat) (svc : Nat → Nat) (pms : Nat → List Nat) (cap : Nat → Nat)
    {s s' : Nat → X × V} (h : OneStep (written (platform n P k svc pms cap) g own name) s s') :
    (fun p => (s' p).1) = next g n own name P fun p => (s p).1 := by
  obtain ⟨w, hw, hs'⟩ := h
  have hsum : ∀ p x, linkedSum g n own name w p x = linkedSum g n own name (sent g n own name P fun q => (s q).1) p x :=
    fun p x => linkedSum_congr fun o ho hl => values_sent hi hs hf k svc pms cap hw ho hl
  funext p
  rw [hs' p]
  unfold next
  by_cases hp : p < n
  · rw [if_pos hp, if_pos (show p < (written (platform n P k svc pms cap) g own name).n from hp)]
    have e : managed (written (platform n P k svc pms cap) g own name).pm ((written (platform n P k svc pms cap) g own name).group p)
        (spiked (written (platform n P k svc pms cap) g own name) w s) = spiked (written (platform n P k svc pms cap) g own name) w s := managed_none _ _
    rw [e]
    unfold spiked
    rw [if_pos (show p < (written (platform n P k svc pms cap) g own name).n from hp)]
    show (after (P p).pm (fun x => linkedSum g n own name w p x) (P p).kind.ops ((P p).begin_ (s p).1, (s p).2)).1 = _
    cases hk : (P p).kind with
    | neuron =>
      show (if (P p).kind = .neuron then (P p).fire ((P p).begin_ (s p).1) (linkedSum g n own name w p "a_in") else _ : X × V).1 = _
      rw [if_pos hk, hsum]
      unfold fired
      rw [linkedSum_congr (w' := early P fun q => (s q).1)]
      intro o ho hl
      unfold sent
      rw [if_neg (hf p o hp hk hl)]
    | synapse =>
      show (if (P p).kind = .neuron then _ else ((P p).absorb ((P p).begin_ (s p).1) (linkedSum g n own name w p "s_in"), _) : X × V).1 = _
      rw [if_neg (by rw [hk]; decide), hsum]
    | source => rfl
    | sink =>
      show (if (P p).kind = .neuron then _ else ((P p).absorb ((P p).begin_ (s p).1) (linkedSum g n own name w p "a_in"), _) : X × V).1 = _
      rw [if_neg (by rw [hk]; decide), hsum]
    | silent => rfl
  · rw [if_neg hp, if_neg (show ¬ p < (written (platform n P k svc pms cap) g own name).n from hp)]

theorem steps_next (hi : PortGraph.Inv g) (hs : Script g n own name outs fun p => (P p).pm) (hf : Fed g n own name P) (k : Nat) (svc : Nat → Nat) (pms : Nat → List Nat) (cap : Nat → Nat) :
    ∀ (m : Nat) {s s' : Nat → X × V}, Steps (written (platform n P k svc pms cap) g own name) m s s' →
      (fun p => (s' p).1) = (next g n own name P)^[m] fun p => (s p).1
  | 0, _, _, h => by have h : _ = _ := h; subst h; rfl
  | m + 1, s, s', ⟨τ, h1, h2⟩ => by
    rw [Function.iterate_succ_apply, ← oneStep_next hi hs hf k svc pms cap h1]
    exact steps_next hi hs hf k svc pms cap m h2

theorem pokes_fst (Q : Proc X V W) (x : Nat) (ws : List W) : ∀ (j : Nat) (s : X × V), (Wired.Spec.pokes Q.pm x j ws s).1 = pokes Q x j ws s.1 := by
  induction ws with
  | nil => intro j s; rfl
  | cons w ws ih => intro j s; show (Wired.Spec.pokes Q.pm x (j + 1) ws (Q.poke s.1 x j w, s.2)).1 = _; rw [ih]; rfl

/-- What the equations of C114 show is what the simulation shows. -/
theorem shows_results (hi : PortGraph.Inv g) (hs : Script g n own name outs fun p => (P p).pm) (hf : Fed g n own name P) (k : Nat) (svc : Nat → Nat) (pms : Nat → List Nat) (cap : Nat → Nat)
    (prog : List (Call W)) : ∀ (b : Bool) (s : Nat → X × V) (log : List (Res W)), Shows (written (platform n P k svc pms cap) g own name) b s prog log →
      log = results P (next g n own name P) b (fun p => (s p).1) prog := by
  induction prog with
  | nil => intro b s log h; cases h; rfl
  | cons c cs ih =>
    intro b s log h
    cases h with
    | run h1 h2 =>
      show _ = Res.ran :: _
      rw [ih _ _ _ h2, steps_next hi hs hf k svc pms cap _ h1]
    | get h1 => rw [ih _ _ _ h1]; rfl
    | set h1 =>
      rename_i p x ws l
      rw [ih _ _ _ h1]
      show _ = Res.wasSet :: _
      congr 2
      funext q
      by_cases hq : q = p
      · rw [if_pos hq, if_pos hq]
        exact pokes_fst (P p) x ws 0 (s p)
      · rw [if_neg hq, if_neg hq]
    | getEarly h1 => rw [ih _ _ _ h1]; rfl
    | setEarly h1 => rw [ih _ _ _ h1]; rfl

/-- Connections send before they receive: there is no circle. -/
theorem noCircle_snn (hf : Fed g n own name P) : NoCircleOfPorts g n own name fun p => (P p).pm := by
  rintro ⟨K, ⟨o, ho⟩, hK⟩
  have key : ∀ o, K o → (P (own o)).kind = .neuron ∧ ∃ o', K o' ∧ Linked g n own name o' (own o) "a_in" := by
    intro o ho
    obtain ⟨_, _, o', x, hk', hl, a, b, c, hb⟩ := hK o ho
    have hb : (P (own o)).kind.ops = a ++ .recv x :: (b ++ .send (name o) :: c) := hb
    cases hk : (P (own o)).kind with
    | neuron =>
      rw [hk] at hb
      rcases a with _ | ⟨a0, _ | ⟨a1, a⟩⟩
      · simp [Kind.ops] at hb
        rw [← hb.1] at hl
        exact ⟨rfl, o', hk', hl⟩
      · simp [Kind.ops] at hb
      · simp [Kind.ops] at hb
    | synapse =>
      rw [hk] at hb
      rcases a with _ | ⟨a0, _ | ⟨a1, a⟩⟩ <;> simp [Kind.ops] at hb
    | source => rw [hk] at hb; rcases a with _ | ⟨a0, a⟩ <;> simp [Kind.ops] at hb
    | sink => rw [hk] at hb; rcases a with _ | ⟨a0, a⟩ <;> simp [Kind.ops] at hb
    | silent => rw [hk] at hb; rcases a with _ | ⟨a0, a⟩ <;> simp [Kind.ops] at hb
  obtain ⟨h1, o', hk', hl⟩ := key o ho
  exact hf (own o) o' (hK o ho).2.1 h1 hl (key o' hk').1

/-- **C115.** A network of neurons, connections, sources and sinks, connected by any program of `connect` calls: under every schedule the calls show (a prefix of) what the step-by-step simulation shows,
an execution that cannot go on has shown all of it and has terminated, and every fair schedule gets there. Recurrent connections never deadlock. -/
theorem C115_simulated (lim : Nat) (calls : List PortGraph.Op) (n : Nat) (P : Nat → Proc X V W) (k : Nat) (svc : Nat → Nat) (pms : Nat → List Nat) (cap : Nat → Nat)
    (own : Nat → Nat) (name : Nat → String) (outs : Nat → List Nat) (procs : List Nat) (has : Nat → String → Bool) (b : Builders)
    (hd : Deployed lim calls n P k svc pms cap own name outs procs has b) (hf : Fed (run lim G.empty calls) n own name P)
    (prog : List (Call W)) (hp : Proper n (fun p => (P p).pm) prog) :
    Gives (platform n P k svc pms cap) b prog (results P (next (run lim G.empty calls) n own name P) false (fun p => (P p).init) prog) := by
  have hi := PortGraph.inv_run PortGraph.inv_empty lim calls hd.good
  obtain ⟨log, h1, h2⟩ := Wired.C114_from_connect_calls (platform n P k svc pms cap) lim calls hd.good own name outs procs hd.all hd.script hd.found (noCircle_snn hf) hd.hosted has b hd.built prog hp
  have e := shows_results hi hd.script hf k svc pms cap prog _ _ _ h1
  rw [e] at h2
  exact h2

end Verif.Snn
