import Verif.Trains.Writes
import Verif.Snn.Loihi

/-!
# C122: what has been written is read
-/

namespace Verif.Trains

open Verif.Wired.Spec (Proper)
open Verif.Wiring (Builders)
open Verif.EndToEnd (Call Res)
open Verif.PortGraph (G run)
open Verif.Snn (Proc Vars platform ringPeek ringPoke popProc sourceProc sinkProc)
open Verif.Snn.Spec (Gives Deployed Fed pokes)
open Spec

/-- Var `x` of a process keeps what is written to it, in states with `inv`: item by item. -/
structure Spec.Keeps {X W : Type} (vsize : Nat) (peek : X → Nat → W) (poke : X → Nat → W → X) (inv : X → Prop) : Prop where
  stays : ∀ s j w, inv s → inv (poke s j w)
  item : ∀ s j k w, inv s → j < vsize → k < vsize → peek (poke s j w) k = if k = j then w else peek s k

theorem keeps_fold {X W : Type} {vsize : Nat} {peek : X → Nat → W} {poke : X → Nat → W → X} {inv : X → Prop} (h : Keeps vsize peek poke inv) (f : Nat → List W → X → X)
    (f0 : ∀ j s, f j [] s = s) (f1 : ∀ j w ws s, f j (w :: ws) s = f (j + 1) ws (poke s j w)) : ∀ (ws : List W) (j : Nat) (s : X), inv s → j + ws.length ≤ vsize →
    (∀ k, k < j → peek (f j ws s) k = peek s k) ∧ ∀ i (hi : i < ws.length), peek (f j ws s) (j + i) = ws[i]
  | [], j, s, _, _ => ⟨fun k _ => by rw [f0], fun i hi => absurd hi (Nat.not_lt_zero _)⟩
  | w :: ws, j, s, hs, hl => by
    rw [List.length_cons] at hl
    obtain ⟨h1, h2⟩ := keeps_fold h f f0 f1 ws (j + 1) (poke s j w) (h.stays s j w hs) (by omega)
    rw [f1]
    refine ⟨fun k hk => ?_, fun i hi => ?_⟩
    · rw [h1 k (by omega), h.item s j k w hs (by omega) (by omega), if_neg (by omega)]
    · rcases i with _ | i
      · show peek _ j = w
        rw [h1 j (by omega), h.item s j j w hs (by omega) (by omega), if_pos rfl]
      · rw [List.length_cons] at hi
        have := h2 i (by omega)
        rw [show j + 1 + i = j + (i + 1) by omega] at this
        rw [this]; rfl

/-- All items after a write of all items. -/
theorem keeps_all {X W : Type} {vsize : Nat} {peek : X → Nat → W} {poke : X → Nat → W → X} {inv : X → Prop} (h : Keeps vsize peek poke inv) (f : Nat → List W → X → X)
    (f0 : ∀ j s, f j [] s = s) (f1 : ∀ j w ws s, f j (w :: ws) s = f (j + 1) ws (poke s j w)) (ws : List W) (s : X) (hs : inv s) (hl : ws.length = vsize) :
    (List.range vsize).map (peek (f 0 ws s)) = ws := by
  obtain ⟨_, h2⟩ := keeps_fold h f f0 f1 ws 0 s hs (by omega)
  apply List.ext_getElem
  · rw [List.length_map, List.length_range, hl]
  · intro i h3 h4
    rw [List.getElem_map, List.getElem_range]
    have := h2 i h4
    rw [Nat.zero_add] at this
    exact this

variable {N C R : Type} [Zero R] [One R]

omit [One R] in
/-- Data of a ring buffer. -/
theorem ring_keeps (rows len : Nat) : Keeps (rows * len) (ringPeek len) (ringPoke len) fun s : Vars N C R => ∃ t d, s = .ring t d where
  stays := by rintro s j w ⟨t, d, rfl⟩; exact ⟨_, _, rfl⟩
  item := by
    rintro s j k w ⟨t, d, rfl⟩ _ _
    show (if k % len = j % len ∧ k / len = j / len then w else d (k % len) (k / len)) = _
    by_cases h : k = j
    · rw [if_pos h, if_pos (by rw [h]; exact ⟨rfl, rfl⟩)]
    · rw [if_neg h, if_neg]
      · rfl
      · rintro ⟨h1, h2⟩
        apply h
        rw [← Nat.div_add_mod k len, ← Nat.div_add_mod j len, h1, h2]

/-- A Var of a population whose neurons keep what is written. -/
theorem pop_keeps (size : Nat) (init : Nat → N) (step : Nat → N → R → N × Bool) (pk : N → Nat → R) (po : N → Nat → R → N) (x : Nat) (h : ∀ o w, pk (po o x w) x = w) :
    Keeps size (fun s => (popProc (C := C) size init step pk po).peek s x) (fun s => (popProc (C := C) size init step pk po).poke s x) fun s : Vars N C R => ∃ o, s = .pop o where
  stays := by rintro s j w ⟨o, rfl⟩; exact ⟨_, rfl⟩
  item := by
    rintro s j k w ⟨o, rfl⟩ _ _
    show pk (if k = j then po (o k) x w else o k) x = if k = j then w else pk (o k) x
    split
    · exact h _ _
    · rfl

/-- The buffer of a connection. -/
theorem dense_keeps (size : Nat) (par : Dense.Par) (w : Dense.Mat) (x : Nat) :
    Keeps size (fun s => (Snn.denseFix size par w).peek s x) (fun s => (Snn.denseFix size par w).poke s x) fun s => ∃ st, s = .conn st where
  stays := by rintro s j w ⟨o, rfl⟩; exact ⟨_, rfl⟩
  item := by
    rintro s j k w ⟨o, rfl⟩ _ _
    rfl

variable {X V W : Type} [AddCommMonoid V]

omit [AddCommMonoid V] in
/-- The entry of a `get` right after a `set`. -/
theorem shownWith_set_get (P : Nat → Proc X V W) (r : Nat → Nat → V) (p x : Nat) (ws : List W) (rest : List (Call W)) : ∀ (cs done : List (Call W)), started (done ++ cs) = true →
    (shownWith P r done (cs ++ .set p x ws :: .get p x :: rest))[cs.length + 1]? =
      some (.value ((List.range ((P p).vsize x)).map ((P p).peek (pokes (P p) x 0 ws (stateWith (P p) (writes (done ++ cs) p) (r p) (steps (done ++ cs)))) x)))
  | [], done, hs => by
    rw [List.append_nil] at hs ⊢
    show (shownWith P r done (.set p x ws :: .get p x :: rest))[1]? = _
    have hs' : started (done ++ [.set p x ws]) = true := by rw [started_append, hs]; rfl
    unfold shownWith shownWith
    rw [hs', if_pos rfl, List.getElem?_cons_succ, List.getElem?_cons_zero, steps_append]
    have hwr : ∀ u, writes (done ++ [.set p x ws]) p u = writes done p u ++ (if u = steps done then [(x, ws)] else []) := by
      intro u
      unfold writes
      rw [writesFrom_append, hs, Nat.zero_add]
      show _ ++ ((if p = p ∧ u = steps done then [(x, ws)] else []) ++ []) = _
      rw [List.append_nil]
      simp
    have hst : stateWith (P p) (writes (done ++ [.set p x ws]) p) (r p) (steps done + 0) = pokes (P p) x 0 ws (stateWith (P p) (writes done p) (r p) (steps done)) := by
      rw [Nat.add_zero]
      cases hsd : steps done with
      | zero =>
        unfold stateWith
        rw [hwr, hsd, overwrite_append, if_pos rfl]
        rfl
      | succ t =>
        unfold stateWith
        rw [hwr, hsd, overwrite_append, if_pos rfl]
        have e := stateWith_congr (P p) (w := writes (done ++ [.set p x ws]) p) (w' := writes done p) (a := r p) (a' := r p) t (fun _ _ => rfl) (by
          intro u hu
          rw [hwr, if_neg (by omega), List.append_nil])
        rw [e]
        rfl
    have h0 : steps ([.set p x ws] : List (Call W)) = 0 := rfl
    rw [h0, hst]
  | c :: cs, done, hs => by
    have e : done ++ c :: cs = (done ++ [c]) ++ cs := by simp
    rw [e] at hs ⊢
    have ih := shownWith_set_get P r p x ws rest cs (done ++ [c]) hs
    cases c with
    | run k => show (shownWith P r done (.run k :: (cs ++ .set p x ws :: .get p x :: rest)))[cs.length + 1 + 1]? = _; unfold shownWith; rw [List.getElem?_cons_succ]; exact ih
    | get q z => show (shownWith P r done (.get q z :: (cs ++ .set p x ws :: .get p x :: rest)))[cs.length + 1 + 1]? = _; unfold shownWith; rw [List.getElem?_cons_succ]; exact ih
    | set q z vs => show (shownWith P r done (.set q z vs :: (cs ++ .set p x ws :: .get p x :: rest)))[cs.length + 1 + 1]? = _; unfold shownWith; rw [List.getElem?_cons_succ]; exact ih

/-- **C122 (read your own writes).** In every network, under every schedule: a `get` right after a `set` of the whole Var shows the values that have been set, in their order, if the Var of the process keeps
what is written to it. -/
theorem C122_set_then_get (lim : Nat) (calls : List PortGraph.Op) (n : Nat) (P : Nat → Proc X V W) (k : Nat) (svc : Nat → Nat) (pms : Nat → List Nat) (cap : Nat → Nat) (own : Nat → Nat)
    (name : Nat → String) (outs : Nat → List Nat) (procs : List Nat) (has : Nat → String → Bool) (b : Builders) (hd : Deployed lim calls n P k svc pms cap own name outs procs has b)
    (hf : Fed (run lim G.empty calls) n own name P) (prog : List (Call W)) (hp : Proper n (fun p => (P p).pm) prog) :
    ∃ log, Gives (platform n P k svc pms cap) b prog log ∧
      ∀ done p x ws rest inv, prog = done ++ .set p x ws :: .get p x :: rest → started done = true → ws.length = (P p).vsize x →
        Keeps ((P p).vsize x) (fun s => (P p).peek s x) (fun s => (P p).poke s x) inv → (∀ w a t, inv (stateWith (P p) w a t)) → log[done.length + 1]? = some (.value ws) := by
  obtain ⟨y, hy⟩ := (C122_one_solution lim calls n P k svc pms cap own name outs procs has b hd hf (writes prog)).1
  refine ⟨_, C122_network_is_its_parts lim calls n P k svc pms cap own name outs procs has b hd hf prog hp y hy, ?_⟩
  intro done p x ws rest inv he hs hl hk hi
  have h := shownWith_set_get P (received (run lim G.empty calls) n own name P y) p x ws rest done [] (by simpa using hs)
  rw [List.nil_append, ← he] at h
  rw [h]
  have e := keeps_all hk (fun j ws s => pokes (P p) x j ws s) (fun _ _ => rfl) (fun _ _ _ _ => rfl) ws _ (hi (writes done p) (received (run lim G.empty calls) n own name P y p) (steps done)) hl
  exact congrArg (fun l => some (Res.value l)) e

/-! ### The processes keep what is written -/

omit [AddCommMonoid V] in
/-- What every step and every write keeps holds in all states. -/
theorem always (P : Proc X V W) (inv : X → Prop) (h0 : inv P.init) (hs : ∀ s a, inv s → inv (oneStep P s a)) (hp : ∀ s x j w, inv s → inv (P.poke s x j w)) (w : Nat → Writes W) (a : Nat → V) :
    ∀ t, inv (stateWith P w a t) := by
  have h1 : ∀ x (ws : List W) j s, inv s → inv (pokes P x j ws s) := by
    intro x ws
    induction ws with
    | nil => intro j s h; exact h
    | cons v ws ih => intro j s h; exact ih _ _ (hp _ _ _ _ h)
  have h2 : ∀ (l : Writes W) s, inv s → inv (overwrite P l s) := by
    intro l
    induction l with
    | nil => intro s h; exact h
    | cons v l ih => intro s h; exact ih _ (h1 _ _ _ _ h)
  intro t
  induction t with
  | zero => exact h2 _ _ h0
  | succ t ih => exact h2 _ _ (hs _ _ ih)

/-- **C122.** LIF populations keep both Vars, ring buffers their data and connections their buffer: the hypotheses of `C122_set_then_get`. -/
theorem C122_vars_keep (size : Nat) (par : Nat → LIF.Par) (vth : Nat → Int) (dp : Dense.Par) (m : Dense.Mat) (rows len : Nat) (data : Nat → Nat → Int) (x : Nat) :
    (∃ inv, Keeps size (fun s => (Snn.lifFix size par vth).peek s x) (fun s => (Snn.lifFix size par vth).poke s x) inv ∧ ∀ w a t, inv (stateWith (Snn.lifFix size par vth) w a t)) ∧
    (∃ inv, Keeps size (fun s => (Snn.denseFix size dp m).peek s x) (fun s => (Snn.denseFix size dp m).poke s x) inv ∧ ∀ w a t, inv (stateWith (Snn.denseFix size dp m) w a t)) ∧
    (∃ inv, Keeps (rows * len) (fun s => (sourceProc rows len data : Proc Snn.FixVars _ _).peek s x) (fun s => (sourceProc rows len data : Proc Snn.FixVars _ _).poke s x) inv ∧
      ∀ w a t, inv (stateWith (sourceProc rows len data : Proc Snn.FixVars _ _) w a t)) ∧
    ∃ inv, Keeps (rows * len) (fun s => (sinkProc rows len : Proc Snn.FixVars _ Int).peek s x) (fun s => (sinkProc rows len : Proc Snn.FixVars _ Int).poke s x) inv ∧
      ∀ w a t, inv (stateWith (sinkProc rows len : Proc Snn.FixVars _ Int) w a t) := by
  refine ⟨⟨fun s => ∃ o, s = Vars.pop o, pop_keeps size _ _ _ _ x ?_, always _ (fun s => ∃ o, s = Vars.pop o) ⟨_, rfl⟩ ?_ ?_⟩,
    ⟨fun s => ∃ st, s = Vars.conn st, dense_keeps size dp m x, always _ (fun s => ∃ st, s = Vars.conn st) ⟨_, rfl⟩ ?_ ?_⟩,
    ⟨fun s => ∃ t d, s = Vars.ring t d, ring_keeps rows len, always _ (fun s => ∃ t d, s = Vars.ring t d) ⟨_, _, rfl⟩ ?_ ?_⟩,
    ⟨fun s => ∃ t d, s = Vars.ring t d, ring_keeps rows len, always _ (fun s => ∃ t d, s = Vars.ring t d) ⟨_, _, rfl⟩ ?_ ?_⟩⟩
  · intro o w; dsimp only; by_cases hx : x = 0 <;> simp [hx]
  · rintro s a ⟨o, rfl⟩; exact ⟨_, rfl⟩
  · rintro s x j w ⟨o, rfl⟩; exact ⟨_, rfl⟩
  · rintro s a ⟨o, rfl⟩; exact ⟨_, rfl⟩
  · rintro s x j w ⟨o, rfl⟩; exact ⟨_, rfl⟩
  · rintro s a ⟨t, d, rfl⟩; exact ⟨_, _, rfl⟩
  · rintro s x j w ⟨t, d, rfl⟩; exact ⟨_, _, rfl⟩
  · rintro s a ⟨t, d, rfl⟩; exact ⟨_, _, rfl⟩
  · rintro s x j w ⟨t, d, rfl⟩; exact ⟨_, _, rfl⟩

end Verif.Trains
