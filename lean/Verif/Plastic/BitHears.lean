import Verif.Plastic.BitProps

/-!
# C125: what the synapses of a network hear, silence, one-shot learning

Consequences of `C125_synapse_in_network` with the laws of a single connection (C57, C107, C108).
-/

namespace Verif.Plastic

open Verif.EndToEnd (Call Res)
open Verif.PortGraph (G run)
open Verif.Snn.Spec (Gives)
open Verif.Trains.Spec (Writes steps started writes writesFrom)
open Verif.Weights (Legal truncWeight)
open Verif.Wired.Spec (Proper)
open Verif.Wiring (Builders)
open Spec

variable {Y : Type}

/-- **C125.** What synapse `(i, j)` gets in time step `m` if the connection receives `a u x` on InPort `x` in step `u` (from 0): the item `j` that arrives on `s_in` in this step (its payload, or just that
there is one), whether there is an item `i` on `s_in_bap`, and for a three-factor rule the items `i` on `s_in_y1`, `s_in_y2`, `s_in_y3`. -/
theorem C125_what_a_synapse_hears (c : LPar) (a : Nat → String → Nat → Int) (m i j : Nat) (hi : i < c.cfg.post) (hj : j < c.cfg.pre) :
    ((inpOf c a (m + 1)).syn i j).pre = (if c.msg then (a m "s_in" j).toNat else if a m "s_in" j = 0 then 0 else 1) ∧
    (((inpOf c a (m + 1)).syn i j).post = true ↔ a m "s_in_bap" i ≠ 0) ∧
    (c.three = true → ∃ r, rcvOf c a (m + 1) = some r ∧ r.syn i = ⟨a m "s_in_y1" i, a m "s_in_y2" i, a m "s_in_y3" i⟩) ∧
    (c.three = false → rcvOf c a (m + 1) = none) := by
  refine ⟨?_, ?_, ?_, ?_⟩
  · show (preOf c (a m "s_in")).getD j 0 = _
    unfold preOf
    rw [List.getD_eq_getElem?_getD, List.getElem?_map, List.getElem?_range hj]
    show (if c.msg then (a m "s_in" j).toNat else if a m "s_in" j ≠ 0 then 1 else 0) = _
    by_cases h : a m "s_in" j = 0 <;> simp [h]
  · show (postOf c (a m "s_in_bap")).getD i false = true ↔ _
    unfold postOf
    rw [List.getD_eq_getElem?_getD, List.getElem?_map, List.getElem?_range hi]
    simp
  · intro h3
    refine ⟨_, by unfold rcvOf; rw [if_pos h3], ?_⟩
    simp only [Learning.MRcv.syn, traceOf, Nat.add_sub_cancel]
    simp only [List.getD_eq_getElem?_getD, List.getElem?_map, List.getElem?_range hi, Option.map_some, Option.getD_some]
  · intro h3
    unfold rcvOf; rw [h3]; rfl

/-- A synapse without spikes keeps its weight, whatever the epoch. -/
theorem quiet (c : Learning.Cfg) (s0 : Learning.St) (inp : Nat → Learning.Inp) (hE : 0 < c.tEpoch) (hx : s0.tx = 0) (hy : s0.ty = 0) (hl : Legal c.mode 8 s0.w) (hi : ∀ n, (inp n).ok)
    (hpre : ∀ n, 1 ≤ n → (inp n).pre = 0) (hpost : ∀ n, 1 ≤ n → (inp n).post = false) (hu : ∀ ps, c.dw = some ps → ∀ p ∈ ps, p.dep ≠ .u) : ∀ n, (Learning.run c s0 inp n).w = s0.w := by
  intro n
  induction n using Nat.strongRecOn with
  | _ n ih =>
    cases n with
    | zero => rfl
    | succ n =>
      by_cases h : c.tEpoch ∣ n + 1
      · obtain ⟨m, hm⟩ := h
        cases m with
        | zero => simp at hm
        | succ m =>
          have e : n + 1 = (m + 1) * c.tEpoch := by rw [hm, Nat.mul_comm]
          have hlt : m * c.tEpoch < n + 1 := by rw [e, Nat.add_mul]; omega
          rw [e, Learning.C57_silent_without_spikes c s0 inp hE hx hy hl hi m (fun j h1 _ => hpre _ (by omega)) (fun j h1 _ => hpost _ (by omega)) (fun ps hps p hp hd => absurd hd (hu ps hps p hp))]
          exact ih _ hlt
      · rw [(Learning.C58_no_learning_inside_epoch c s0 inp n h).1]
        exact ih n (by omega)

/-- The random numbers are as `np.random` gives them. -/
structure Draw.ok (r : Draw) : Prop where
  a : 0 ≤ r.xDecay
  b : 0 ≤ r.yDecay
  c : 0 ≤ r.rndW
  d : 0 ≤ r.rndPost ∧ r.rndPost < 2 ^ 7
  e : 0 ≤ r.xImp ∧ r.xImp < 2 ^ 7
  f : 0 ≤ r.yImp ∧ r.yImp < 2 ^ 7

/-- **C125.** Silence, in any network: a synapse of a two-factor connection whose two neurons send nothing to the connection in any step has, whenever it is looked at after the first time step, its initial
weight (truncated to `num_weight_bits`), whatever the other synapses and the other processes do – for a rule all of whose products depend on spikes. -/
theorem C125_silent_synapse_keeps_its_weight (lim : Nat) (calls : List PortGraph.Op) (n : Nat) (P : Nat → Proc (LVars Y) (Nat → Int) Int) (k : Nat) (svc : Nat → Nat) (pms : Nat → List Nat)
    (cap : Nat → Nat) (own : Nat → Nat) (name : Nat → String) (outs : Nat → List Nat) (procs : List Nat) (has : Nat → String → Bool) (b : Builders)
    (hd : Deployed lim calls n P k svc pms cap own name outs procs has b) (hf : Fed (run lim G.empty calls) n own name P) (prog : List (Call Int)) (hp : Proper n (fun p => (P p).pm) prog)
    (y : Nat → String → Nat → Nat → Int) (h : SolvesWith (run lim G.empty calls) n own name P (writes prog) y) :
    ∃ log, Gives (platform n P k svc pms cap) b prog log ∧
      ∀ p c w0 i j, P p = bitLearn c w0 → c.three = false → (∀ m, (c.rnd m).ok) → (∀ x ws, .set p x ws ∉ prog) → i < c.cfg.post → j < c.cfg.pre → 0 < c.cfg.tEpoch →
      (∀ ps, c.cfg.syn.dw = some ps → ∀ q ∈ ps, q.dep ≠ .u) → Legal c.cfg.mode 8 (truncWeight (w0 i j) c.cfg.mode c.bits 8) →
      (∀ m, heard (run lim G.empty calls) n own name y p m "s_in" j = 0 ∧ heard (run lim G.empty calls) n own name y p m "s_in_bap" i = 0) →
      ∀ done rest, prog = done ++ .get p 0 :: rest → started done = true → 0 < steps done →
        ∃ ws, log[done.length]? = some (.value ws) ∧ ws[i * c.cfg.pre + j]? = some (truncWeight (w0 i j) c.cfg.mode c.bits 8) := by
  obtain ⟨log, hg, hl⟩ := C125_synapse_in_network lim calls n P k svc pms cap own name outs procs has b hd hf prog hp y h
  refine ⟨log, hg, ?_⟩
  intro p c w0 i j hP h3 hr hn hi hj hE hu hleg hs done rest he hst hpos
  obtain ⟨ws, h1, _, h2⟩ := hl p c w0 hP (fun m => ⟨(hr m).a, (hr m).b⟩) hn done rest he hst hpos
  refine ⟨ws, h1, ?_⟩
  rw [h2 i j hi hj]
  have hnone : (fun m => (rcvOf c (heard (run lim G.empty calls) n own name y p) m).map fun x => x.syn i) = fun _ => none := by
    funext m; unfold rcvOf; rw [h3]; rfl
  rw [hnone, Learning.synRun_two, quiet]
  · rfl
  · exact hE
  · show (List.replicate c.cfg.pre 0).getD j 0 = 0
    rw [List.getD_eq_getElem?_getD, List.getElem?_replicate]; split <;> rfl
  · show (List.replicate c.cfg.post 0).getD i 0 = 0
    rw [List.getD_eq_getElem?_getD, List.getElem?_replicate]; split <;> rfl
  · exact hleg
  · intro m; exact ⟨(hr m).a, (hr m).b, (hr m).c, (hr m).d, (hr m).e, (hr m).f⟩
  · intro m hm
    obtain ⟨m, rfl⟩ : ∃ k, m = k + 1 := ⟨m - 1, by omega⟩
    rw [(C125_what_a_synapse_hears c _ m i j hi hj).1, (hs m).1]
    cases c.msg <;> rfl
  · intro m hm
    obtain ⟨m, rfl⟩ : ∃ k, m = k + 1 := ⟨m - 1, by omega⟩
    rw [Bool.eq_false_iff]
    intro ht
    exact (C125_what_a_synapse_hears c _ m i j hi hj).2.1.1 ht (hs m).2
  · exact hu

/-- The payload of item `j` that arrived last on `s_in` up to step `m` (from 1), 0 if there was none. -/
def lastHeard (a : Nat → String → Nat → Int) (j : Nat) : Nat → Nat
  | 0 => 0
  | m + 1 => if 0 < a m "s_in" j then (a m "s_in" j).toNat else lastHeard a j m

/-- **C125.** One-shot learning, in any network: a connection with the rule of the prototype learner and graded spikes, weights 0 at the start. Row `i` is told to learn once, in step `K i` (an item on
`s_in_bap`, with `y1 = 127`), or not yet. Whenever the weights are looked at after `N` steps, row `i` is still 0 if `N < K i`, and otherwise holds, within `p - 4 ≤ w ≤ p + 1`, the payload `p` of each feature
that was seen last at step `K i`. -/
theorem C125_patterns_stored_in_network (lim : Nat) (calls : List PortGraph.Op) (n : Nat) (P : Nat → Proc (LVars Y) (Nat → Int) Int) (k : Nat) (svc : Nat → Nat) (pms : Nat → List Nat)
    (cap : Nat → Nat) (own : Nat → Nat) (name : Nat → String) (outs : Nat → List Nat) (procs : List Nat) (has : Nat → String → Bool) (b : Builders)
    (hd : Deployed lim calls n P k svc pms cap own name outs procs has b) (hf : Fed (run lim G.empty calls) n own name P) (prog : List (Call Int)) (hp : Proper n (fun p => (P p).pm) prog)
    (y : Nat → String → Nat → Nat → Int) (h : SolvesWith (run lim G.empty calls) n own name P (writes prog) y) :
    ∃ log, Gives (platform n P k svc pms cap) b prog log ∧
      ∀ p c (d : ℚ) (K : Nat → Nat), P p = bitLearn c (fun _ _ => 0) → Learning.OneShotCfg c.cfg.syn d → 0 ≤ d → d ≤ 1 → (1 - d) * 127 ≤ 1 → c.three = true → c.msg = true → (∀ m, (c.rnd m).ok) →
      (∀ m, (c.rnd m).xDecay < 1 - (1 - d) * 127 ∧ (c.rnd m).yDecay < 1 - (1 - d) * 127) → (∀ x ws, .set p x ws ∉ prog) →
      (∀ m j, heard (run lim G.empty calls) n own name y p m "s_in" j ≤ 254) →
      ∀ done rest, prog = done ++ .get p 0 :: rest → started done = true → 0 < steps done →
      (∀ i, i < c.cfg.post → 1 ≤ K i ∧ heard (run lim G.empty calls) n own name y p (K i - 1) "s_in_y1" i = 127 ∧
        ∀ m, m < steps done → (heard (run lim G.empty calls) n own name y p m "s_in_bap" i ≠ 0 ↔ m + 1 = K i)) →
        ∃ ws, log[done.length]? = some (.value ws) ∧ ws.length = c.cfg.post * c.cfg.pre ∧ ∀ i j, i < c.cfg.post → j < c.cfg.pre → ∃ w, ws[i * c.cfg.pre + j]? = some w ∧
          (steps done < K i → w = 0) ∧
          (K i ≤ steps done → (lastHeard (heard (run lim G.empty calls) n own name y p) j (K i) : Int) - 4 ≤ w ∧
            w ≤ lastHeard (heard (run lim G.empty calls) n own name y p) j (K i) + 1) := by
  obtain ⟨log, hg, hl⟩ := C125_synapse_in_network lim calls n P k svc pms cap own name outs procs has b hd hf prog hp y h
  refine ⟨log, hg, ?_⟩
  intro p c d K hP hc h0 h1 hdd h3 hmsg hr hrnd hn hle done rest he hst hpos hK
  obtain ⟨ws, e1, e3, e2⟩ := hl p c _ hP (fun m => ⟨(hr m).a, (hr m).b⟩) hn done rest he hst hpos
  refine ⟨ws, e1, e3, fun i j hi hj => ⟨_, e2 i j hi hj, ?_⟩⟩
  generalize hA : heard (run lim G.empty calls) n own name y p = a at hle hK ⊢
  have hx : ∀ m, rcvOf c a m = some ⟨traceOf c (a (m - 1) "s_in_y1"), traceOf c (a (m - 1) "s_in_y2"), traceOf c (a (m - 1) "s_in_y3")⟩ := by
    intro m; unfold rcvOf; rw [if_pos h3]
  have hrcv : (fun m => (rcvOf c a m).map fun x => x.syn i) =
      fun m => some ((⟨traceOf c (a (m - 1) "s_in_y1"), traceOf c (a (m - 1) "s_in_y2"), traceOf c (a (m - 1) "s_in_y3")⟩ : Learning.MRcv).syn i) := by
    funext m; rw [hx m]; rfl
  rw [hrcv, Learning.synRun_three]
  have hfresh : Learning.FreshSyn ((startM c fun _ _ => 0).syn i j) := by
    refine ⟨?_, ?_, ?_, ?_⟩
    · show (List.replicate c.cfg.pre 0).getD j 0 = 0
      rw [List.getD_eq_getElem?_getD, List.getElem?_replicate]; split <;> rfl
    · show (List.replicate c.cfg.pre 0).getD j 0 = 0
      rw [List.getD_eq_getElem?_getD, List.getElem?_replicate]; split <;> rfl
    · show (List.replicate c.cfg.post 0).getD i 0 = 0
      rw [List.getD_eq_getElem?_getD, List.getElem?_replicate]; split <;> rfl
    · show truncWeight 0 c.cfg.mode c.bits 8 = 0
      have z : ∀ k : Int, Weights.shl (Weights.shr 0 k) k = 0 := by
        intro k
        unfold Weights.shl Weights.shr
        split <;> simp
      unfold truncWeight
      dsimp only
      split <;> simp [z]
  obtain ⟨k1, k2, k3⟩ := hK i hi
  have hpre : ∀ m, ((inpOf c a (m + 1)).syn i j).pre = (a m "s_in" j).toNat := by
    intro m; rw [(C125_what_a_synapse_hears c a m i j hi hj).1, if_pos hmsg]
  have hlast : ∀ m, Learning.lastPat (fun m => (inpOf c a m).syn i j) m = lastHeard a j m := by
    intro m
    induction m with
    | zero => rfl
    | succ m ih =>
      rw [Learning.lastPat, lastHeard, hpre m, ih]
      by_cases hz : 0 < a m "s_in" j
      · rw [if_pos hz, if_pos (by omega)]
      · rw [if_neg hz, if_neg (by omega)]
  have key := Learning.C107_stores_pattern c.cfg.syn d hc h0 h1 hdd _ hfresh (fun m => (inpOf c a m).syn i j)
    (fun m => (⟨traceOf c (a (m - 1) "s_in_y1"), traceOf c (a (m - 1) "s_in_y2"), traceOf c (a (m - 1) "s_in_y3")⟩ : Learning.MRcv).syn i)
    (fun m => ⟨(hr m).a, (hr m).b, (hr m).c, (hr m).d, (hr m).e, (hr m).f⟩) (by
      intro m
      show (preOf c (a (m - 1) "s_in")).getD j 0 ≤ 254
      unfold preOf
      rw [List.getD_eq_getElem?_getD, List.getElem?_map, List.getElem?_range hj]
      have := hle (m - 1) j
      simp [hmsg]
      omega) (K i) (steps done) (by
      intro m hm hN
      obtain ⟨m, rfl⟩ : ∃ k, m = k + 1 := ⟨m - 1, by omega⟩
      rw [(C125_what_a_synapse_hears c a m i j hi hj).2.1]
      exact k3 m (by omega)) (by
      show (traceOf c (a (K i - 1) "s_in_y1")).getD i 0 = 127
      unfold traceOf
      rw [List.getD_eq_getElem?_getD, List.getElem?_map, List.getElem?_range hi]
      exact k2)
  constructor
  · intro hlt
    exact key.1 _ hlt (Nat.le_refl _)
  · intro hle'
    obtain ⟨w, w1, _, _, w4, w5⟩ := key.2 k1 hle'
    rw [w1 _ hle' (Nat.le_refl _), ← hlast (K i)]
    exact ⟨w5 (fun m => (hrnd m).1) (hrnd _).2, w4⟩

end Verif.Plastic
