import Verif.Plastic.BitModel
import Verif.Plastic.Parts
import Verif.Learning.MatrixProps

/-!
# C125: fixed-point learning in networks
-/

namespace Verif.Plastic

open Verif.Learning (MCfg MSt MInp MRcv Arr preSpikeM postSpikeM runLrnM recvTracesM stepM runM synRun synStep)
open Verif.Wired.Spec (Proper)
open Verif.Wiring (Builders)
open Verif.EndToEnd (Call Res)
open Verif.PortGraph (G run)
open Verif.Snn.Spec (Gives)
open Verif.Trains.Spec (Writes steps started writes writesFrom)
open Verif.Weights (Legal truncWeight)
open Spec

variable {Y : Type}

/-! ### Specification -/

namespace Spec

/-- What the learning engine receives in time step `m` (1-based), if the process receives `a u x` on InPort `x` in step `u` (0-based). -/
def inpOf (c : LPar) (a : Nat → String → Nat → Int) (m : Nat) : MInp := (c.rnd m).inp (preOf c (a (m - 1) "s_in")) (postOf c (a (m - 1) "s_in_bap"))

/-- The third factors. -/
def rcvOf (c : LPar) (a : Nat → String → Nat → Int) (m : Nat) : Option MRcv :=
  if c.three then some ⟨traceOf c (a (m - 1) "s_in_y1"), traceOf c (a (m - 1) "s_in_y2"), traceOf c (a (m - 1) "s_in_y3")⟩ else none

/-- The arrays at the start: zeros, and the truncated weights. -/
def startM (c : LPar) (w0 : Nat → Nat → Int) : MSt := truncM c (freshM c.cfg w0)

end Spec

/-! ### One step -/

/-- One step of the process is one step of the array code. -/
theorem bit_step (c : LPar) (w0 : Nat → Nat → Int) (t : Nat) (b : Bool) (buf : Nat → Int) (s : MSt) (a : Nat → String → Nat → Int) :
    oneStep (bitLearn (Y := Y) c w0) (.learn t b buf s) (a t) =
      match stepM c.cfg (t + 1) (if b then s else truncM c s) (inpOf c a (t + 1)) (rcvOf c a (t + 1)) with
      | some s' => .learn (t + 1) true (fun i => Dense.shiftExp c.weightExp (Dense.accum c.cfg.pre c.msg (if b then s else truncM c s).w.at_ (a t "s_in") i)) s'
      | none => .crashed := by
  generalize hs : (if b then s else truncM c s) = s1
  have hr : received (bitLearn (Y := Y) c w0) (a t) ((bitLearn (Y := Y) c w0).begin_ (.learn t b buf s)) =
      .learn (t + 1) true (fun i => Dense.shiftExp c.weightExp (Dense.accum c.cfg.pre c.msg s1.w.at_ (a t "s_in") i)) (recvTracesM c.cfg (t + 1) s1 (inpOf c a (t + 1)) (rcvOf c a (t + 1))) := by
    subst hs
    unfold received rcvOf
    cases h3 : c.three with
    | true => simp only [bitLearn, h3]; rfl
    | false => simp only [bitLearn, h3]; rfl
  unfold oneStep
  rw [hr]
  have hi : (rcvOf c a (t + 1)).isSome = c.three := by unfold rcvOf; cases c.three <;> rfl
  show (if Learning.lrnGuard c.cfg.tEpoch (t + 1) = true then _ else _) = _
  unfold stepM
  dsimp only
  by_cases hg : ((t + 1) % c.cfg.tEpoch == 0) = true
  · rw [if_pos (show Learning.lrnGuard c.cfg.tEpoch (t + 1) = true from hg), if_pos hg, hi]
    rfl
  · rw [if_neg (show ¬ Learning.lrnGuard c.cfg.tEpoch (t + 1) = true from hg), if_neg hg]

theorem inpOf_shaped (c : LPar) (hr : ∀ m, 0 ≤ (c.rnd m).xDecay ∧ 0 ≤ (c.rnd m).yDecay) (a : Nat → String → Nat → Int) (m : Nat) : (inpOf c a m).shaped c.cfg :=
  ⟨by simp [inpOf, Draw.inp, preOf], by simp [inpOf, Draw.inp, postOf], (hr m).1, (hr m).2⟩

theorem rcvOf_shaped (c : LPar) (a : Nat → String → Nat → Int) (m : Nat) (x : MRcv) (h : rcvOf c a m = some x) : x.shaped c.cfg := by
  unfold rcvOf at h
  split at h
  · cases h; exact ⟨by simp [traceOf], by simp [traceOf], by simp [traceOf]⟩
  · cases h

theorem start_shaped (c : LPar) (w0 : Nat → Nat → Int) : (startM c w0).shaped c.cfg := by
  constructor <;> simp [startM, truncM, freshM, Arr.isFull, Arr.map, Arr.full]

/-- **C125.** The process on its own: after any number of steps it is in the state of the array code, it has raised nothing, and its buffer is what the weights before the last step make of the last spikes. -/
theorem C125_process_alone (c : LPar) (w0 : Nat → Nat → Int) (hr : ∀ m, 0 ≤ (c.rnd m).xDecay ∧ 0 ≤ (c.rnd m).yDecay) (w : Nat → Writes Int) (a : Nat → String → Nat → Int) :
    ∀ t, (∀ u, u ≤ t + 1 → w u = []) → ∃ s s', runM c.cfg (startM c w0) (inpOf c a) (rcvOf c a) t = some s ∧ runM c.cfg (startM c w0) (inpOf c a) (rcvOf c a) (t + 1) = some s' ∧
      stateWith (bitLearn (Y := Y) c w0) w a (t + 1) = .learn (t + 1) true (fun i => Dense.shiftExp c.weightExp (Dense.accum c.cfg.pre c.msg s.w.at_ (a t "s_in") i)) s' := by
  have key : ∀ t, ∃ s', runM c.cfg (startM c w0) (inpOf c a) (rcvOf c a) t = some s' := fun t =>
    let ⟨s', h, _⟩ := Learning.C108_each_synapse_alone c.cfg (startM c w0) (inpOf c a) (rcvOf c a) (start_shaped c w0) (inpOf_shaped c hr a) (rcvOf_shaped c a) t
    ⟨s', h⟩
  intro t
  induction t with
  | zero =>
    intro hw
    obtain ⟨s', h'⟩ := key 1
    refine ⟨startM c w0, s', rfl, h', ?_⟩
    have hs : stepM c.cfg 1 (startM c w0) (inpOf c a 1) (rcvOf c a 1) = some s' := h'
    unfold stateWith stateWith
    rw [hw 0 (by omega), hw 1 (by omega)]
    show oneStep _ (LVars.learn 0 false (fun _ => 0) (freshM c.cfg w0)) (a 0) = _
    rw [bit_step, if_neg (by decide)]
    show (match stepM c.cfg 1 (startM c w0) (inpOf c a 1) (rcvOf c a 1) with | some s' => _ | none => _) = _
    rw [hs]
    rfl
  | succ t ih =>
    intro hw
    obtain ⟨s, s', _, h1, h2⟩ := ih fun u hu => hw u (by omega)
    obtain ⟨s'', h''⟩ := key (t + 2)
    refine ⟨s', s'', h1, h'', ?_⟩
    have hs : stepM c.cfg (t + 2) s' (inpOf c a (t + 2)) (rcvOf c a (t + 2)) = some s'' := by
      have := h''
      unfold runM at this
      rw [h1] at this
      exact this
    unfold stateWith
    rw [hw (t + 2) (by omega), h2]
    show oneStep _ _ (a (t + 1)) = _
    rw [bit_step, if_pos rfl, hs]

/-! ### Programs -/

/-- The entry of a call in what a program shows. -/
theorem shown_at {X V W : Type} (P : Nat → Proc X V W) (r : Nat → Nat → String → V) (p x : Nat) (rest : List (Call W)) : ∀ (cs done : List (Call W)), started (done ++ cs) = true →
    (shown P r done (cs ++ .get p x :: rest))[cs.length]? =
      some (.value ((List.range ((P p).vsize x)).map ((P p).peek (stateWith (P p) (writes (done ++ cs) p) (r p) (steps (done ++ cs))) x)))
  | [], done, hs => by
    rw [List.append_nil] at hs ⊢
    show (shown P r done (.get p x :: rest))[0]? = _
    unfold shown
    rw [hs]; rfl
  | c :: cs, done, hs => by
    have e : done ++ c :: cs = (done ++ [c]) ++ cs := by simp
    rw [e] at hs ⊢
    have ih := shown_at P r p x rest cs (done ++ [c]) hs
    cases c with
    | run k => show (shown P r done (.run k :: (cs ++ .get p x :: rest)))[cs.length + 1]? = _; unfold shown; rw [List.getElem?_cons_succ]; exact ih
    | get q z => show (shown P r done (.get q z :: (cs ++ .get p x :: rest)))[cs.length + 1]? = _; unfold shown; rw [List.getElem?_cons_succ]; exact ih
    | set q z ws => show (shown P r done (.set q z ws :: (cs ++ .get p x :: rest)))[cs.length + 1]? = _; unfold shown; rw [List.getElem?_cons_succ]; exact ih

theorem writes_none {W : Type} (p : Nat) : ∀ (cs : List (Call W)) (b : Bool) (t u : Nat), (∀ x ws, .set p x ws ∉ cs) → writesFrom p b t cs u = []
  | [], b, _, _, _ => by cases b <;> rfl
  | .run k :: cs, b, t, u, h => by
    have := writes_none p cs true (t + k) u fun x ws hm => h x ws (List.mem_cons_of_mem _ hm)
    cases b <;> exact this
  | .get _ _ :: cs, b, t, u, h => by
    have := writes_none p cs b t u fun x ws hm => h x ws (List.mem_cons_of_mem _ hm)
    cases b <;> exact this
  | .set q x ws :: cs, true, t, u, h => by
    have := writes_none p cs true t u fun x ws hm => h x ws (List.mem_cons_of_mem _ hm)
    show (if q = p ∧ u = t then [(x, ws)] else []) ++ writesFrom p true t cs u = []
    rw [this, if_neg]
    · rfl
    · rintro ⟨rfl, _⟩
      exact h x ws List.mem_cons_self
  | .set _ _ _ :: cs, false, t, u, h => writes_none p cs false t u fun x ws hm => h x ws (List.mem_cons_of_mem _ hm)

/-- The writes of a program are those of its calls. -/
theorem writes_mem {W : Type} (p : Nat) : ∀ (cs : List (Call W)) (b : Bool) (t u : Nat), ∀ e ∈ writesFrom p b t cs u, .set p e.1 e.2 ∈ cs
  | [], b, _, _, e, h => by cases b <;> cases h
  | .run k :: cs, b, t, u, e, h => by
    have := writes_mem p cs true (t + k) u e (by cases b <;> exact h)
    exact List.mem_cons_of_mem _ this
  | .get _ _ :: cs, b, t, u, e, h => by
    have := writes_mem p cs b t u e (by cases b <;> exact h)
    exact List.mem_cons_of_mem _ this
  | .set q x ws :: cs, true, t, u, e, h => by
    have h : e ∈ (if q = p ∧ u = t then [(x, ws)] else []) ++ writesFrom p true t cs u := h
    rcases List.mem_append.1 h with h | h
    · split at h
      · rename_i hq
        rw [List.mem_singleton] at h
        subst h
        rw [hq.1]
        exact List.mem_cons_self
      · cases h
    · exact List.mem_cons_of_mem _ (writes_mem p cs true t u e h)
  | .set _ _ _ :: cs, false, t, u, e, h => List.mem_cons_of_mem _ (writes_mem p cs false t u e h)

/-- **C125.** A fixed-point learning connection in any network, with any other processes, under every schedule, in every program that does not write its Vars: `get` shows, for every synapse, the weight this
synapse has if it is alone and gets the spikes of its two neurons (`synRun`, C56, C57, C58, C107). -/
theorem C125_synapse_in_network (lim : Nat) (calls : List PortGraph.Op) (n : Nat) (P : Nat → Proc (LVars Y) (Nat → Int) Int) (k : Nat) (svc : Nat → Nat) (pms : Nat → List Nat) (cap : Nat → Nat)
    (own : Nat → Nat) (name : Nat → String) (outs : Nat → List Nat) (procs : List Nat) (has : Nat → String → Bool) (b : Builders)
    (hd : Deployed lim calls n P k svc pms cap own name outs procs has b) (hf : Fed (run lim G.empty calls) n own name P) (prog : List (Call Int)) (hp : Proper n (fun p => (P p).pm) prog)
    (y : Nat → String → Nat → Nat → Int) (h : SolvesWith (run lim G.empty calls) n own name P (writes prog) y) :
    ∃ log, Gives (platform n P k svc pms cap) b prog log ∧
      ∀ p c w0, P p = bitLearn c w0 → (∀ m, 0 ≤ (c.rnd m).xDecay ∧ 0 ≤ (c.rnd m).yDecay) → (∀ x ws, .set p x ws ∉ prog) →
      ∀ done rest, prog = done ++ .get p 0 :: rest → started done = true → 0 < steps done → ∃ ws, log[done.length]? = some (.value ws) ∧ ws.length = c.cfg.post * c.cfg.pre ∧
        ∀ i j, i < c.cfg.post → j < c.cfg.pre → ws[i * c.cfg.pre + j]? =
          some (synRun c.cfg.syn ((startM c w0).syn i j) (fun m => (inpOf c (heard (run lim G.empty calls) n own name y p) m).syn i j)
            (fun m => (rcvOf c (heard (run lim G.empty calls) n own name y p) m).map fun x => x.syn i) (steps done)).w := by
  refine ⟨_, C125_network_is_its_parts lim calls n P k svc pms cap own name outs procs has b hd hf prog hp y h, ?_⟩
  intro p c w0 hP hr hn done rest he hst hpos
  have hat := shown_at P (heard (run lim G.empty calls) n own name y) p 0 rest done [] (by simpa using hst)
  rw [List.nil_append, ← he] at hat
  refine ⟨_, hat, ?_, ?_⟩
  · rw [List.length_map, List.length_range, hP]; rfl
  · intro i j hi hj
    have hw : writes done p = fun _ => [] := by
      funext u
      exact writes_none p done false 0 u fun x ws hm => hn x ws (by rw [he]; simp [hm])
    obtain ⟨t, ht⟩ : ∃ t, steps done = t + 1 := ⟨steps done - 1, by omega⟩
    obtain ⟨s, s', _, h1, h2⟩ := C125_process_alone (Y := Y) c w0 hr (fun _ => []) (heard (run lim G.empty calls) n own name y p) t fun _ _ => rfl
    obtain ⟨s'', e1, _, e3⟩ := Learning.C108_each_synapse_alone c.cfg (startM c w0) (inpOf c (heard (run lim G.empty calls) n own name y p)) (rcvOf c (heard (run lim G.empty calls) n own name y p))
      (start_shaped c w0) (inpOf_shaped c hr _) (rcvOf_shaped c _) (t + 1)
    rw [h1] at e1
    cases e1
    rw [hw, hP, ht, h2]
    have hk : i * c.cfg.pre + j < c.cfg.post * c.cfg.pre := by
      have : (i + 1) * c.cfg.pre ≤ c.cfg.post * c.cfg.pre := Nat.mul_le_mul_right _ hi
      rw [Nat.add_mul, Nat.one_mul] at this
      omega
    rw [List.getElem?_map, List.getElem?_range (by exact hk), Option.map_some]
    show some (s'.w.at_ ((i * c.cfg.pre + j) / c.cfg.pre) ((i * c.cfg.pre + j) % c.cfg.pre)) = _
    have q1 : (i * c.cfg.pre + j) / c.cfg.pre = i := by
      rw [Nat.mul_comm, Nat.mul_add_div (by omega), Nat.div_eq_of_lt hj, Nat.add_zero]
    have q2 : (i * c.cfg.pre + j) % c.cfg.pre = j := by
      rw [Nat.mul_comm, Nat.mul_add_mod, Nat.mod_eq_of_lt hj]
    rw [q1, q2]
    exact congrArg (fun z => some z.w) (e3 i j hi hj)

/-! ### Weights stay legal -/

/-- The arrays have their shapes, the weights are legal, nothing has been raised. -/
def Sound (c : LPar) (σ : LVars Y) : Prop :=
  ∃ t b buf s, σ = .learn t b buf s ∧ s.shaped c.cfg ∧ ∀ i j, i < c.cfg.post → j < c.cfg.pre → Legal c.cfg.mode 8 (s.w.at_ i j)

/-- One step of a synapse keeps its weight legal. -/
theorem synStep_legal (c : Learning.Cfg) (t : Nat) (s : Learning.St) (i : Learning.Inp) (r : Option Learning.Rcv) (h : Legal c.mode 8 s.w) : Legal c.mode 8 (synStep c t s i r).w := by
  have hw : ∀ env rnd w, Legal c.mode 8 w → Legal c.mode 8 (Learning.learnW c env rnd w) := by
    intro env rnd w hw
    unfold Learning.learnW
    split
    · exact hw
    · exact Weights.C37_clip_legal _ _ _ _
  cases r with
  | none =>
    show Legal c.mode 8 (Learning.step c t s i).w
    unfold Learning.step
    split
    · exact hw _ _ _ h
    · exact h
  | some r =>
    show Legal c.mode 8 (Learning.step3 c t s i r).w
    unfold Learning.step3
    split
    · exact hw _ _ _ h
    · exact h

theorem sound_step (c : LPar) (w0 : Nat → Nat → Int) (hr : ∀ m, 0 ≤ (c.rnd m).xDecay ∧ 0 ≤ (c.rnd m).yDecay)
    (hb : ∀ x, Legal c.cfg.mode 8 x → Legal c.cfg.mode 8 (truncWeight x c.cfg.mode c.bits 8)) (σ : LVars Y) (a : String → Nat → Int)
    (h : Sound c σ) : Sound c (oneStep (bitLearn c w0) σ a) := by
  obtain ⟨t, b, buf, s, rfl, hsh, hl⟩ := h
  have e := bit_step (Y := Y) c w0 t b buf s (fun _ => a)
  rw [e]
  have h1 : (if b then s else truncM c s).shaped c.cfg ∧ ∀ i j, i < c.cfg.post → j < c.cfg.pre → Legal c.cfg.mode 8 ((if b then s else truncM c s).w.at_ i j) := by
    cases b with
    | true => exact ⟨hsh, hl⟩
    | false => exact ⟨⟨hsh.x1, hsh.x2, hsh.tx, hsh.y1, hsh.y2, hsh.y3, hsh.ty, hsh.w, hsh.d, hsh.t⟩, fun i j hi hj => hb _ (hl i j hi hj)⟩
  obtain ⟨s', e1, e2, e3⟩ := Learning.step_spec c.cfg (t + 1) (if b then s else truncM c s) (inpOf c (fun _ => a) (t + 1)) (rcvOf c (fun _ => a) (t + 1)) h1.1 (inpOf_shaped c hr _ _) (rcvOf_shaped c _ _)
  rw [e1]
  refine ⟨_, _, _, s', rfl, e2, fun i j hi hj => ?_⟩
  have := synStep_legal c.cfg.syn (t + 1) ((if b then s else truncM c s).syn i j) ((inpOf c (fun _ => a) (t + 1)).syn i j) ((rcvOf c (fun _ => a) (t + 1)).map fun x => x.syn i) (h1.2 i j hi hj)
  rw [← e3 i j hi hj] at this
  exact this

theorem sound_pokes (c : LPar) (w0 : Nat → Nat → Int) (x : Nat) : ∀ (ws : List Int) (j : Nat) (σ : LVars Y), (x = 0 → ∀ v ∈ ws, Legal c.cfg.mode 8 v) → Sound c σ →
    Sound c (pokes (bitLearn c w0) x j ws σ)
  | [], _, _, _, h => h
  | v :: ws, j, σ, hv, h => by
    apply sound_pokes c w0 x ws (j + 1) _ fun hx u hu => hv hx u (List.mem_cons_of_mem _ hu)
    obtain ⟨t, b, buf, s, rfl, hsh, hl⟩ := h
    show Sound c (if x = 0 then _ else _)
    split
    · rename_i hx
      refine ⟨_, _, _, _, rfl, ⟨hsh.x1, hsh.x2, hsh.tx, hsh.y1, hsh.y2, hsh.y3, hsh.ty, hsh.w, hsh.d, hsh.t⟩, fun i j' hi hj => ?_⟩
      show Legal c.cfg.mode 8 (if _ then _ else _)
      split
      · exact hv hx v List.mem_cons_self
      · exact hl i j' hi hj
    · exact ⟨_, _, _, _, rfl, hsh, hl⟩

theorem sound_state (c : LPar) (w0 : Nat → Nat → Int) (hr : ∀ m, 0 ≤ (c.rnd m).xDecay ∧ 0 ≤ (c.rnd m).yDecay)
    (hb : ∀ x, Legal c.cfg.mode 8 x → Legal c.cfg.mode 8 (truncWeight x c.cfg.mode c.bits 8)) (h0 : ∀ i j, i < c.cfg.post → j < c.cfg.pre → Legal c.cfg.mode 8 (w0 i j))
    (w : Nat → Writes Int) (hw : ∀ u, ∀ e ∈ w u, e.1 = 0 → ∀ v ∈ e.2, Legal c.cfg.mode 8 v) (a : Nat → String → Nat → Int) : ∀ t, Sound (Y := Y) c (stateWith (bitLearn c w0) w a t) := by
  have how : ∀ (l : Writes Int) (σ : LVars Y), (∀ e ∈ l, e.1 = 0 → ∀ v ∈ e.2, Legal c.cfg.mode 8 v) → Sound c σ → Sound c (overwrite (bitLearn c w0) l σ) := by
    intro l
    induction l with
    | nil => intro σ _ h; exact h
    | cons e l ih => intro σ hl h; exact ih _ (fun e' he' => hl e' (List.mem_cons_of_mem _ he')) (sound_pokes c w0 e.1 e.2 0 σ (hl e List.mem_cons_self) h)
  intro t
  induction t with
  | zero =>
    refine how _ _ (hw 0) ⟨_, _, _, _, rfl, ?_, h0⟩
    constructor <;> simp [freshM, Arr.isFull, Arr.full]
  | succ t ih => exact how _ _ (hw (t + 1)) (sound_step c w0 hr hb _ _ ih)

/-- **C125.** The weights that the user sees are always legal: in any network, with any other processes, under every schedule and in every program that writes no illegal weights, each `get` of `weights` of a
fixed-point learning connection shows weights in the range of its sign mode, if the initial weights are. -/
theorem C125_weights_shown_are_legal (lim : Nat) (calls : List PortGraph.Op) (n : Nat) (P : Nat → Proc (LVars Y) (Nat → Int) Int) (k : Nat) (svc : Nat → Nat) (pms : Nat → List Nat) (cap : Nat → Nat)
    (own : Nat → Nat) (name : Nat → String) (outs : Nat → List Nat) (procs : List Nat) (has : Nat → String → Bool) (b : Builders)
    (hd : Deployed lim calls n P k svc pms cap own name outs procs has b) (hf : Fed (run lim G.empty calls) n own name P) (prog : List (Call Int)) (hp : Proper n (fun p => (P p).pm) prog) :
    ∃ log, Gives (platform n P k svc pms cap) b prog log ∧
      ∀ p c w0, P p = bitLearn c w0 → (∀ m, 0 ≤ (c.rnd m).xDecay ∧ 0 ≤ (c.rnd m).yDecay) → 0 ≤ c.bits ∧ c.bits ≤ 8 ∧ (c.cfg.mode = .mixed → 1 ≤ c.bits) →
      (∀ i j, i < c.cfg.post → j < c.cfg.pre → Legal c.cfg.mode 8 (w0 i j)) → (∀ ws, .set p 0 ws ∈ prog → ∀ v ∈ ws, Legal c.cfg.mode 8 v) →
      ∀ done rest, prog = done ++ .get p 0 :: rest → started done = true →
        ∃ ws, log[done.length]? = some (.value ws) ∧ ws.length = c.cfg.post * c.cfg.pre ∧ ∀ v ∈ ws, Legal c.cfg.mode 8 v := by
  obtain ⟨y, hy⟩ := (C125_one_solution (run lim G.empty calls) n own name P hf (writes prog)).1
  refine ⟨_, C125_network_is_its_parts lim calls n P k svc pms cap own name outs procs has b hd hf prog hp y hy, ?_⟩
  intro p c w0 hP hr hbits h0 hset done rest he hst
  have hat := shown_at P (heard (run lim G.empty calls) n own name y) p 0 rest done [] (by simpa using hst)
  rw [List.nil_append, ← he] at hat
  refine ⟨_, hat, ?_, ?_⟩
  · rw [List.length_map, List.length_range, hP]; rfl
  · intro v hv
    obtain ⟨q, hq, rfl⟩ := List.mem_map.1 hv
    rw [List.mem_range] at hq
    rw [hP] at hq ⊢
    have hq : q < c.cfg.post * c.cfg.pre := hq
    have hb : ∀ x, Legal c.cfg.mode 8 x → Legal c.cfg.mode 8 (truncWeight x c.cfg.mode c.bits 8) := by
      intro x hx
      have := Weights.C37_clip_truncate_legal x c.cfg.mode c.bits.toNat (by omega) (fun hm => by have := hbits.2.2 hm; omega)
      rw [Weights.C37_clip_id x _ _ hx, Int.toNat_of_nonneg hbits.1] at this
      exact this
    obtain ⟨t, b', buf, s, e, _, hl⟩ := sound_state (Y := Y) c w0 hr hb h0 (writes done p) (by
      intro u e hm h1 v hv
      have := writes_mem p done false 0 u e hm
      rw [h1] at this
      exact hset e.2 (by rw [he]; simp [this]) v hv) (heard (run lim G.empty calls) n own name y p) (steps done)
    rw [e]
    have hpre : 0 < c.cfg.pre := Nat.pos_of_ne_zero (by rintro h; rw [h] at hq; simp at hq)
    exact hl (q / c.cfg.pre) (q % c.cfg.pre) ((Nat.div_lt_iff_lt_mul hpre).2 hq) (Nat.mod_lt _ hpre)

end Verif.Plastic
