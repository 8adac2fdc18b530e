import Verif.Swap.Spec

/-!
# C118: process models that match can be exchanged in every network
-/

namespace Verif.Swap

open Verif.Wired (PM POp Platform written connections sys)
open Verif.Wired.Spec
open Verif.Wiring (Port Builders buildChannels)
open Verif.EndToEnd (Call Res)
open Verif.PortGraph (G Reaches dstPorts run)
open Verif.Snn.Spec (Gives)
open Spec

variable {S S' V W : Type}

/-! ### Phases -/

section
variable {n : Nat} {pm : Nat → PM S V W} {pm' : Nat → PM S' V W} {rd wr : Nat → Nat → Prop} {R : Nat → S → S' → Prop}

theorem anyOf_match {grp grp' : List Nat} (hg : ∀ q, q ∈ grp' ↔ q ∈ grp) {g : Nat → S → Bool} {g' : Nat → S' → Bool} {σ : Nat → S} {σ' : Nat → S'}
    (h : ∀ q ∈ grp, g' q (σ' q) = g q (σ q)) : anyOf grp' g' σ' = anyOf grp g σ := by
  unfold anyOf
  rw [Bool.eq_iff_iff, List.any_eq_true, List.any_eq_true]
  constructor
  · rintro ⟨q, hq, e⟩; exact ⟨q, (hg q).1 hq, by rw [← h q ((hg q).1 hq)]; exact e⟩
  · rintro ⟨q, hq, e⟩; exact ⟨q, (hg q).2 hq, by rw [h q hq]; exact e⟩

theorem phase_match {grp grp' : List Nat} (hg : ∀ q, q ∈ grp' ↔ q ∈ grp) {b b' : Bool} (hb : b' = b) {g : Nat → S → Bool} {g' : Nat → S' → Bool} {f : Nat → S → S} {f' : Nat → S' → S'}
    {σ : Nat → S} {σ' : Nat → S'} (hσ : ∀ q, q < n → R q (σ q) (σ' q)) (hgd : ∀ q, q < n → g' q (σ' q) = g q (σ q)) (hf : ∀ q, q < n → R q (f q (σ q)) (f' q (σ' q))) :
    ∀ q, q < n → R q (phase grp b g f σ q) (phase grp' b' g' f' σ' q) := by
  intro q hq
  unfold phase
  rw [hb, hgd q hq]
  by_cases h : b = true ∧ q ∈ grp ∧ g q (σ q) = true
  · rw [if_pos h, if_pos ⟨h.1, (hg q).2 h.2.1, h.2.2⟩]; exact hf q hq
  · rw [if_neg h, if_neg (fun h' => h ⟨h'.1, (hg q).1 h'.2.1, h'.2.2⟩)]; exact hσ q hq

theorem managed_match (hm : ∀ p, p < n → Matches (pm p) (pm' p) (rd p) (wr p) (R p)) {grp grp' : List Nat} (hg : ∀ q, q ∈ grp' ↔ q ∈ grp) (hlt : ∀ q ∈ grp, q < n)
    {σ : Nat → S} {σ' : Nat → S'} (hσ : ∀ q, q < n → R q (σ q) (σ' q)) : ∀ q, q < n → R q (managed pm grp σ q) (managed pm' grp' σ' q) := by
  have h1 : ∀ q, q < n → R q (phase grp (anyOf grp (fun p s => (pm p).lrnGuard s && (pm p).preGuard s) σ) (fun p => (pm p).preGuard) (fun p => (pm p).runPre) σ q)
      (phase grp' (anyOf grp' (fun p s => (pm' p).lrnGuard s && (pm' p).preGuard s) σ') (fun p => (pm' p).preGuard) (fun p => (pm' p).runPre) σ' q) := by
    refine phase_match hg (anyOf_match hg fun q hq => ?_) hσ (fun q hq => ((hm q hq).pre _ _ (hσ q hq)).1) (fun q hq => ((hm q hq).pre _ _ (hσ q hq)).2)
    have hq := hlt q hq
    rw [((hm q hq).pre _ _ (hσ q hq)).1, ((hm q hq).lrn _ _ (hσ q hq)).1]
  have e1 : anyOf grp' (fun p => (pm' p).lrnGuard) σ' = anyOf grp (fun p => (pm p).lrnGuard) σ :=
    anyOf_match hg fun q hq => ((hm q (hlt q hq)).lrn _ _ (hσ q (hlt q hq))).1
  have h2 := phase_match (f := fun p => (pm p).runLrn) (f' := fun p => (pm' p).runLrn) (g := fun p => (pm p).lrnGuard) (g' := fun p => (pm' p).lrnGuard) hg e1 h1
    (fun q hq => ((hm q hq).lrn _ _ (h1 q hq)).1) (fun q hq => ((hm q hq).lrn _ _ (h1 q hq)).2)
  unfold managed
  refine phase_match hg ?_ h2 (fun q hq => ((hm q hq).post _ _ (h2 q hq)).1) (fun q hq => ((hm q hq).post _ _ (h2 q hq)).2)
  rw [e1]
  congr 1
  · refine anyOf_match hg fun q hq => ?_
    have hq := hlt q hq
    rw [((hm q hq).lrn _ _ (hσ q hq)).1, ((hm q hq).post _ _ (hσ q hq)).1]
  · congr 1
    rw [e1] at h2
    exact anyOf_match hg fun q hq => ((hm q (hlt q hq)).post _ _ (h2 q (hlt q hq))).1

end

/-! ### Time steps and programs -/

section
variable {N : Network S V W} {N' : Network S' V W} {rd wr : Nat → Nat → Prop} {R : Nat → S → S' → Prop}

theorem oneStep_match (hn : N'.n = N.n) (hi : N'.inp = N.inp) (hg : ∀ p, p < N.n → (∀ q, q ∈ N'.group p ↔ q ∈ N.group p) ∧ ∀ q ∈ N.group p, q < N.n)
    (hm : ∀ p, p < N.n → Matches (N.pm p) (N'.pm p) (rd p) (wr p) (R p)) {σ τ : Nat → S} {σ' : Nat → S'} (hσ : ∀ p, p < N.n → R p (σ p) (σ' p)) (h : OneStep N σ τ) :
    ∃ τ', OneStep N' σ' τ' ∧ ∀ p, p < N.n → R p (τ p) (τ' p) := by
  obtain ⟨w, h1, h2⟩ := h
  have hsp : ∀ p, p < N.n → R p (spiked N w σ p) (spiked N' w σ' p) := by
    intro p hp
    unfold spiked
    rw [if_pos hp, if_pos (by rw [hn]; exact hp), hi]
    exact (hm p hp).step _ _ _ (hσ p hp)
  refine ⟨fun p => if p < N'.n then managed N'.pm (N'.group p) (spiked N' w σ') p else σ' p, ⟨w, ?_, fun p => rfl⟩, ?_⟩
  · intro p y l r hp ho
    rw [hn] at hp
    rw [(hm p hp).ops] at ho
    rw [h1 p y l r hp ho, hi]
    exact ((hm p hp).sends _ _ _ l y r (hσ p hp) ho).symm
  · intro p hp
    dsimp only
    rw [h2 p, if_pos hp, if_pos (by rw [hn]; exact hp)]
    exact managed_match hm (hg p hp).1 (hg p hp).2 hsp p hp

theorem steps_match (hn : N'.n = N.n) (hi : N'.inp = N.inp) (hg : ∀ p, p < N.n → (∀ q, q ∈ N'.group p ↔ q ∈ N.group p) ∧ ∀ q ∈ N.group p, q < N.n)
    (hm : ∀ p, p < N.n → Matches (N.pm p) (N'.pm p) (rd p) (wr p) (R p)) : ∀ (k : Nat) {σ τ : Nat → S} {σ' : Nat → S'}, (∀ p, p < N.n → R p (σ p) (σ' p)) → Steps N k σ τ →
    ∃ τ', Steps N' k σ' τ' ∧ ∀ p, p < N.n → R p (τ p) (τ' p)
  | 0, σ, τ, σ', hσ, h => ⟨σ', rfl, by cases h; exact hσ⟩
  | k + 1, σ, τ, σ', hσ, ⟨ρ, h1, h2⟩ => by
    obtain ⟨ρ', g1, g2⟩ := oneStep_match hn hi hg hm hσ h1
    obtain ⟨τ', g3, g4⟩ := steps_match hn hi hg hm k g2 h2
    exact ⟨τ', ⟨ρ', g1, g3⟩, g4⟩

theorem pokes_match {P : PM S V W} {P' : PM S' V W} {rd wr : Nat → Prop} {R : S → S' → Prop} (hm : Matches P P' rd wr R) {x : Nat} (hx : wr x) : ∀ (ws : List W) (j : Nat) {s : S} {s' : S'},
    R s s' → R (pokes P x j ws s) (pokes P' x j ws s')
  | [], _, _, _, h => h
  | w :: ws, j, _, _, h => pokes_match hm hx ws (j + 1) ((hm.write x hx).2 _ _ j w h)

theorem shows_match (hn : N'.n = N.n) (hi : N'.inp = N.inp) (hg : ∀ p, p < N.n → (∀ q, q ∈ N'.group p ↔ q ∈ N.group p) ∧ ∀ q ∈ N.group p, q < N.n)
    (hm : ∀ p, p < N.n → Matches (N.pm p) (N'.pm p) (rd p) (wr p) (R p)) {st : Bool} {σ : Nat → S} {prog : List (Call W)} {log : List (Res W)} (h : Shows N st σ prog log) :
    ∀ {σ' : Nat → S'}, (∀ p, p < N.n → R p (σ p) (σ' p)) → (∀ p x, .get p x ∈ prog → p < N.n) → (∀ p x ws, .set p x ws ∈ prog → p < N.n) → Within rd wr prog → Shows N' st σ' prog log := by
  induction h with
  | stop => intro σ' _ _ _ _; exact .stop σ'
  | run h1 _ ih =>
    intro σ' hσ hget hset hw
    obtain ⟨τ', g1, g2⟩ := steps_match hn hi hg hm _ hσ h1
    exact .run g1 (ih g2 (fun p x h => hget p x (List.mem_cons_of_mem _ h)) (fun p x ws h => hset p x ws (List.mem_cons_of_mem _ h))
      ⟨fun p x h => hw.1 p x (List.mem_cons_of_mem _ h), fun p x ws h => hw.2 p x ws (List.mem_cons_of_mem _ h)⟩)
  | @get σ p x cs l _ ih =>
    intro σ' hσ hget hset hw
    have hp := hget p x List.mem_cons_self
    have hr := (hm p hp).read x (hw.1 p x List.mem_cons_self)
    have e : (List.range ((N.pm p).vsize x)).map ((N.pm p).peek (σ p) x) = (List.range ((N'.pm p).vsize x)).map ((N'.pm p).peek (σ' p) x) := by
      rw [hr.1]
      exact List.map_congr_left fun j _ => (hr.2 _ _ j (hσ p hp)).symm
    rw [e]
    exact .get (ih hσ (fun p x h => hget p x (List.mem_cons_of_mem _ h)) (fun p x ws h => hset p x ws (List.mem_cons_of_mem _ h))
      ⟨fun p x h => hw.1 p x (List.mem_cons_of_mem _ h), fun p x ws h => hw.2 p x ws (List.mem_cons_of_mem _ h)⟩)
  | @set σ p x ws cs l _ ih =>
    intro σ' hσ hget hset hw
    have hp := hset p x ws List.mem_cons_self
    refine .set (ih (fun q hq => ?_) (fun p x h => hget p x (List.mem_cons_of_mem _ h)) (fun p x ws h => hset p x ws (List.mem_cons_of_mem _ h))
      ⟨fun p x h => hw.1 p x (List.mem_cons_of_mem _ h), fun p x ws h => hw.2 p x ws (List.mem_cons_of_mem _ h)⟩)
    dsimp only
    by_cases hqp : q = p
    · subst hqp
      rw [if_pos rfl, if_pos rfl]
      exact (hm q hq).updated _ _ (pokes_match (hm q hq) (hw.2 q x ws List.mem_cons_self) ws 0 (hσ q hq))
    · rw [if_neg hqp, if_neg hqp]; exact hσ q hq
  | getEarly _ ih =>
    intro σ' hσ hget hset hw
    exact .getEarly (ih hσ (fun p x h => hget p x (List.mem_cons_of_mem _ h)) (fun p x ws h => hset p x ws (List.mem_cons_of_mem _ h))
      ⟨fun p x h => hw.1 p x (List.mem_cons_of_mem _ h), fun p x ws h => hw.2 p x ws (List.mem_cons_of_mem _ h)⟩)
  | setEarly _ ih =>
    intro σ' hσ hget hset hw
    exact .setEarly (ih hσ (fun p x h => hget p x (List.mem_cons_of_mem _ h)) (fun p x ws h => hset p x ws (List.mem_cons_of_mem _ h))
      ⟨fun p x h => hw.1 p x (List.mem_cons_of_mem _ h), fun p x ws h => hw.2 p x ws (List.mem_cons_of_mem _ h)⟩)

end

/-- **C118.** Process models that match can be exchanged in every network, all at once: whatever the calls that connect the network, the program (as long as it reads and writes only Vars for which the
models match), the schedules, channel capacities and numbers of services, both networks show the same. -/
theorem C118_interchangeable [AddCommMonoid V] (x : Platform S V W) (x' : Platform S' V W) (rd wr : Nat → Nat → Prop) (R : Nat → S → S' → Prop)
    (hm : ∀ p, Matches (x.pm p) (x'.pm p) (rd p) (wr p) (R p)) (hsv : SameServices x x') (lim : Nat) (calls : List PortGraph.Op) (hgood : ∀ op ∈ calls, op.Good)
    (own : Nat → Nat) (name : Nat → String) (outs : Nat → List Nat) (procs : List Nat) (hprocs : ∀ p, p ∈ procs ↔ p < x.n)
    (hs : Script (run lim G.empty calls) x.n own name outs x.pm)
    (hret : ∀ p, p < x.n → ∀ s ∈ outs p, ∃ l, dstPorts (run lim G.empty calls) false lim s = some l)
    (hc : NoCircleOfPorts (run lim G.empty calls) x.n own name x.pm) (hh : Hosted x) (hh' : Hosted x')
    (has : Nat → String → Bool) (b : Builders) (hb : buildChannels has (connections (run lim G.empty calls) lim procs outs own name) = some b)
    (prog : List (Call W)) (hp : Proper x.n x.pm prog) (hw : Within rd wr prog) :
    ∃ log, Shows (written x (run lim G.empty calls) own name) false (fun p => (x.pm p).init) prog log ∧ Gives x b prog log ∧ Gives x' b prog log := by
  obtain ⟨n', pm', k', svc', pms', cap'⟩ := x'
  obtain ⟨hn, hsame⟩ := hsv
  dsimp only at hn hsame hm
  subst hn
  have hs' : Script (run lim G.empty calls) x.n own name outs pm' :=
    { io := hs.io, names := hs.names, members := hs.members, leafOut := hs.leafOut, leafIn := hs.leafIn
      once := fun p => by rw [(hm p).ops]; exact hs.once p
      recvs := fun p y h => hs.recvs p y (by rw [← (hm p).ops]; exact h)
      sends := fun p y h => hs.sends p y (by rw [← (hm p).ops]; exact h)
      usesIn := fun i h1 h2 h3 h4 => by rw [(hm _).ops]; exact hs.usesIn i h1 h2 h3 h4
      usesOut := fun i h1 h2 h3 h4 => by rw [(hm _).ops]; exact hs.usesOut i h1 h2 h3 h4 }
  have hc' : NoCircleOfPorts (run lim G.empty calls) x.n own name pm' := by
    rintro ⟨K, h0, hK⟩
    refine hc ⟨K, h0, fun o ho => ?_⟩
    obtain ⟨h1, h2, o', y, h3, h4, a, b, c, h5⟩ := hK o ho
    exact ⟨h1, h2, o', y, h3, h4, a, b, c, by rw [← (hm _).ops]; exact h5⟩
  have hp' : Proper x.n pm' prog :=
    ⟨hp.gets, fun p y ws h => ⟨(hp.sets p y ws h).1, by rw [((hm p).write y (hw.2 p y ws h)).1]; exact (hp.sets p y ws h).2⟩, hp.runs⟩
  obtain ⟨log, l1, l2⟩ := Wired.C114_from_connect_calls x lim calls hgood own name outs procs hprocs hs hret hc hh has b hb prog hp
  obtain ⟨log', m1, m2⟩ := Wired.C114_from_connect_calls ⟨x.n, pm', k', svc', pms', cap'⟩ lim calls hgood own name outs procs hprocs hs' hret hc' hh' has b hb prog hp'
  refine ⟨log, l1, l2, ?_⟩
  have : log' = log := by
    refine Wired.C114_from_connect_calls_unique ⟨x.n, pm', k', svc', pms', cap'⟩ lim calls hgood own name outs hs' hret hc' hh' prog log' log m1 ?_
    refine shows_match (N := written x (run lim G.empty calls) own name) (N' := written ⟨x.n, pm', k', svc', pms', cap'⟩ (run lim G.empty calls) own name) rfl rfl ?_ (fun p _ => hm p) l1
      (fun p _ => (hm p).init) hp.gets (fun p y ws h => (hp.sets p y ws h).1) hw
    intro p hpn
    refine ⟨fun q => ?_, fun q hq => (((hh.pms _).2 q).1 hq).1⟩
    show q ∈ pms' (svc' p) ↔ q ∈ x.pms (x.svc p)
    rw [(hh'.pms (svc' p)).2 q, (hh.pms (x.svc p)).2 q]
    constructor
    · rintro ⟨h1, h2⟩; exact ⟨h1, (hsame q p h1 hpn).1 h2⟩
    · rintro ⟨h1, h2⟩; exact ⟨h1, (hsame q p h1 hpn).2 h2⟩
  subst this
  exact m2

end Verif.Swap
