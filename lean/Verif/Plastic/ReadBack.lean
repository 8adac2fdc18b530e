import Verif.Plastic.BitProps
import Verif.Trains.ReadBack

/-!
# C125: what has been written to a learning connection is read
-/

namespace Verif.Plastic

open Verif.Wired.Spec (Proper)
open Verif.Wiring (Builders)
open Verif.EndToEnd (Call Res)
open Verif.PortGraph (G run)
open Verif.Snn.Spec (Gives)
open Verif.Trains (writesFrom_append steps_append started_append keeps_all)
open Verif.Trains.Spec (Writes steps started writes Keeps)
open Spec

variable {X V W : Type} [AddCommMonoid V]

omit [AddCommMonoid V] in
/-- The entry of a `get` right after a `set`. -/
theorem shown_set_get (P : Nat → Proc X V W) (r : Nat → Nat → String → V) (p x : Nat) (ws : List W) (done rest : List (Call W)) (hs : started done = true) :
    (shown P r [] (done ++ .set p x ws :: .get p x :: rest))[done.length + 1]? =
      some (.value ((List.range ((P p).vsize x)).map ((P p).peek (pokes (P p) x 0 ws (stateWith (P p) (writes done p) (r p) (steps done))) x))) := by
  have hs' : started ([] ++ (done ++ [.set p x ws])) = true := by rw [List.nil_append, started_append, hs]; rfl
  have h := shown_at P r p x rest (done ++ [.set p x ws]) [] hs'
  rw [List.nil_append, List.length_append, List.append_assoc] at h
  have e : done ++ ([.set p x ws] ++ .get p x :: rest) = done ++ .set p x ws :: .get p x :: rest := rfl
  rw [e] at h
  rw [show done.length + [(.set p x ws : Call W)].length = done.length + 1 from rfl] at h
  rw [h, steps_append]
  have hwr : ∀ u, writes (done ++ [.set p x ws]) p u = writes done p u ++ (if u = steps done then [(x, ws)] else []) := by
    intro u
    unfold writes
    rw [writesFrom_append, hs, Nat.zero_add]
    show _ ++ ((if p = p ∧ u = steps done then [(x, ws)] else []) ++ []) = _
    rw [List.append_nil]
    simp
  have hst : stateWith (P p) (writes (done ++ [.set p x ws]) p) (r p) (steps done + 0) = pokes (P p) x 0 ws (stateWith (P p) (writes done p) (r p) (steps done)) := by
    rw [Nat.add_zero]
    cases hsd : steps done with
    | zero =>
      unfold stateWith
      rw [hwr, hsd, overwrite_append, if_pos rfl]
      rfl
    | succ t =>
      unfold stateWith
      rw [hwr, hsd, overwrite_append, if_pos rfl]
      have e := stateWith_congr (P p) (w := writes (done ++ [.set p x ws]) p) (w' := writes done p) (a := r p) (a' := r p) t (fun _ _ => rfl) (by
        intro u hu
        rw [hwr, if_neg (by omega), List.append_nil])
      rw [e]
      rfl
  have h0 : steps ([.set p x ws] : List (Call W)) = 0 := rfl
  rw [h0, hst]

variable {Y : Type}

/-- Weights and buffer of a learning connection that has raised nothing. -/
theorem bit_keeps (c : LPar) (w0 : Nat → Nat → Int) (x : Nat) :
    Keeps ((bitLearn (Y := Y) c w0).vsize x) (fun s => (bitLearn (Y := Y) c w0).peek s x) (fun s => (bitLearn (Y := Y) c w0).poke s x) fun s => ∃ t b buf m, s = LVars.learn t b buf m where
  stays := by
    rintro s j w ⟨t, b, buf, m, rfl⟩
    show ∃ _ _ _ _, (if x = 0 then _ else _) = _
    split
    · exact ⟨_, _, _, _, rfl⟩
    · exact ⟨_, _, _, _, rfl⟩
  item := by
    rintro s j k w ⟨t, b, buf, m, rfl⟩ _ _
    by_cases hx : x = 0
    · subst hx
      show (if k / c.cfg.pre = j / c.cfg.pre ∧ k % c.cfg.pre = j % c.cfg.pre then w else m.w.at_ (k / c.cfg.pre) (k % c.cfg.pre)) = if k = j then w else m.w.at_ (k / c.cfg.pre) (k % c.cfg.pre)
      by_cases h : k = j
      · rw [if_pos h, if_pos (by rw [h]; exact ⟨rfl, rfl⟩)]
      · rw [if_neg h, if_neg]
        rintro ⟨h1, h2⟩
        apply h
        rw [← Nat.div_add_mod k c.cfg.pre, ← Nat.div_add_mod j c.cfg.pre, h1, h2]
    · simp only [bitLearn, if_neg hx]

/-- **C125 (read your own writes).** In every network, under every schedule: a `get` of the weights or of the buffer of a fixed-point learning connection, right after a `set` of all of it, shows the values that
have been set, in their order: they are neither clipped nor truncated. -/
theorem C125_set_then_get (lim : Nat) (calls : List PortGraph.Op) (n : Nat) (P : Nat → Proc (LVars Y) (Nat → Int) Int) (k : Nat) (svc : Nat → Nat) (pms : Nat → List Nat) (cap : Nat → Nat)
    (own : Nat → Nat) (name : Nat → String) (outs : Nat → List Nat) (procs : List Nat) (has : Nat → String → Bool) (b : Builders)
    (hd : Deployed lim calls n P k svc pms cap own name outs procs has b) (hf : Fed (run lim G.empty calls) n own name P) (prog : List (Call Int)) (hp : Proper n (fun p => (P p).pm) prog) :
    ∃ log, Gives (platform n P k svc pms cap) b prog log ∧
      ∀ p c w0, P p = bitLearn c w0 → (∀ m, 0 ≤ (c.rnd m).xDecay ∧ 0 ≤ (c.rnd m).yDecay) →
      ∀ done x ws rest, prog = done ++ .set p x ws :: .get p x :: rest → started done = true → ws.length = (P p).vsize x → log[done.length + 1]? = some (.value ws) := by
  obtain ⟨y, hy⟩ := (C125_one_solution (run lim G.empty calls) n own name P hf (writes prog)).1
  refine ⟨_, C125_network_is_its_parts lim calls n P k svc pms cap own name outs procs has b hd hf prog hp y hy, ?_⟩
  intro p c w0 hP hr done x ws rest he hs hl
  rw [he, shown_set_get P _ p x ws done rest hs]
  rw [hP] at hl ⊢
  -- nothing is ever raised: the arrays keep their shapes
  have hsh : ∀ t, ∃ t' b' buf m, stateWith (bitLearn (Y := Y) c w0) (writes done p) (heard (run lim G.empty calls) n own name y p) t = LVars.learn t' b' buf m ∧ m.shaped c.cfg := by
    have hpk : ∀ x (ws : List Int) j σ, (∃ t' b' buf m, σ = LVars.learn t' b' buf m ∧ m.shaped c.cfg) → ∃ t' b' buf m, pokes (bitLearn (Y := Y) c w0) x j ws σ = LVars.learn t' b' buf m ∧ m.shaped c.cfg := by
      intro x ws
      induction ws with
      | nil => intro j σ h; exact h
      | cons v ws ih =>
        rintro j σ ⟨t, b, buf, m, rfl, hm⟩
        apply ih (j + 1)
        show ∃ _ _ _ _, (if x = 0 then _ else _) = _ ∧ _
        split
        · exact ⟨_, _, _, _, rfl, ⟨hm.x1, hm.x2, hm.tx, hm.y1, hm.y2, hm.y3, hm.ty, hm.w, hm.d, hm.t⟩⟩
        · exact ⟨_, _, _, _, rfl, hm⟩
    have how : ∀ (l : Writes Int) σ, (∃ t' b' buf m, σ = LVars.learn t' b' buf m ∧ m.shaped c.cfg) → ∃ t' b' buf m, overwrite (bitLearn (Y := Y) c w0) l σ = LVars.learn t' b' buf m ∧ m.shaped c.cfg := by
      intro l
      induction l with
      | nil => intro σ h; exact h
      | cons e l ih => intro σ h; exact ih _ (hpk _ _ _ _ h)
    intro t
    induction t with
    | zero =>
      refine how _ _ ⟨_, _, _, _, rfl, ?_⟩
      constructor <;> simp [freshM, Learning.Arr.isFull, Learning.Arr.full]
    | succ t ih =>
      refine how _ _ ?_
      obtain ⟨t', b', buf, m, e, hm⟩ := ih
      rw [e]
      have e2 := bit_step (Y := Y) c w0 t' b' buf m (fun _ => heard (run lim G.empty calls) n own name y p t)
      rw [e2]
      have hm' : (if b' then m else truncM c m).shaped c.cfg := by
        cases b' with
        | true => exact hm
        | false => exact ⟨hm.x1, hm.x2, hm.tx, hm.y1, hm.y2, hm.y3, hm.ty, hm.w, hm.d, hm.t⟩
      obtain ⟨s', e1, h2, _⟩ := Learning.step_spec c.cfg (t' + 1) _ (inpOf c (fun _ => heard (run lim G.empty calls) n own name y p t) (t' + 1))
        (rcvOf c (fun _ => heard (run lim G.empty calls) n own name y p t) (t' + 1)) hm' (inpOf_shaped c hr _ _) (rcvOf_shaped c _ _)
      rw [e1]
      exact ⟨_, _, _, _, rfl, h2⟩
  obtain ⟨t', b', buf, m, e, _⟩ := hsh (steps done)
  have h := keeps_all (bit_keeps (Y := Y) c w0 x) (fun j ws s => pokes (bitLearn (Y := Y) c w0) x j ws s) (fun _ _ => rfl) (fun _ _ _ _ => rfl) ws _ ⟨t', b', buf, m, e⟩ hl
  exact congrArg (fun l => some (Res.value l)) h

end Verif.Plastic
