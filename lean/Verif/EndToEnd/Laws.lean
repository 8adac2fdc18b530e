import Verif.EndToEnd.Local
import Verif.System.Recurrent

/-!
# Laws of programs of calls, and a spiking network
-/

namespace Verif.EndToEnd

open Verif.System (Op Act Net St upd exec Stuck RecData RecPar train train_succ runAll_append)

variable {S V W : Type}

theorem stepsTo_add (y : Sys S V W) (a b : Nat) : ∀ {σ σ' : Nat → S},
    StepsTo y (a + b) σ σ' ↔ ∃ τ, StepsTo y a σ τ ∧ StepsTo y b τ σ' := by
  induction a with
  | zero =>
    intro σ σ'
    rw [Nat.zero_add]
    constructor
    · intro h; exact ⟨σ, rfl, h⟩
    · rintro ⟨τ, rfl, h⟩; exact h
  | succ a ih =>
    intro σ σ'
    rw [Nat.succ_add]
    constructor
    · rintro ⟨τ, h1, h2⟩
      obtain ⟨ρ, h3, h4⟩ := ih.1 h2
      exact ⟨ρ, ⟨τ, h1, h3⟩, h4⟩
    · rintro ⟨ρ, ⟨τ, h1, h3⟩, h4⟩
      exact ⟨τ, h1, ih.2 ⟨ρ, h3, h4⟩⟩

/-- **C96.** Two runs in a row are one run of the sum of steps. -/
theorem C96_runs_compose (y : Sys S V W) (a b : Nat) (st : Bool) (σ : Nat → S) (cs : List (Call W)) (l : List (Res W)) :
    Means y st σ (.run a :: .run b :: cs) (.ran :: .ran :: l) ↔ Means y st σ (.run (a + b) :: cs) (.ran :: l) := by
  constructor
  · intro h
    cases h with
    | run h1 h2 =>
      cases h2 with
      | run h3 h4 => exact .run ((stepsTo_add y a b).2 ⟨_, h1, h3⟩) h4
  · intro h
    cases h with
    | run h1 h2 =>
      obtain ⟨τ, h3, h4⟩ := (stepsTo_add y a b).1 h1
      exact .run h3 (.run h4 h2)

/-- A program without its `get` calls. -/
def noGets : List (Call W) → List (Call W)
  | [] => []
  | .get _ _ :: cs => noGets cs
  | c :: cs => c :: noGets cs

/-- A log without the values. -/
def noValues : List (Res W) → List (Res W)
  | [] => []
  | .value _ :: l => noValues l
  | r :: l => r :: noValues l

/-- **C96.** Reading Vars has no effect on anything else a user sees, in particular not on later values. -/
theorem C96_get_is_pure (y : Sys S V W) (prog : List (Call W)) : ∀ (σ : Nat → S) (l : List (Res W)),
    Means y true σ prog l → Means y true σ (noGets prog) (noValues l) := by
  induction prog with
  | nil => intro σ l h; cases h; exact .stop _
  | cons c cs ih =>
    intro σ l h
    cases h with
    | run h1 h2 => exact .run h1 (ih _ _ h2)
    | get h2 => rename_i l' ; exact ih _ l' h2
    | set h2 => exact .set (ih _ _ h2)

/-- Vars behave as arrays: an item holds what was written to it last, and writing to an item changes no other; `on_var_update` leaves them. -/
structure ArrayVars (y : Sys S V W) : Prop where
  same : ∀ p s x j w, j < y.vsize p x → y.peek p (y.poke p s x j w) x j = w
  other : ∀ p s x j w x' j', (x', j') ≠ (x, j) → y.peek p (y.poke p s x j w) x' j' = y.peek p s x' j'
  upd : ∀ p s x j, y.peek p (y.updated p s) x j = y.peek p s x j

theorem peek_pokes {y : Sys S V W} (ha : ArrayVars y) (p x : Nat) (ws : List W) : ∀ (j : Nat) (s : S) (x' i : Nat),
    j + ws.length ≤ y.vsize p x →
    y.peek p (pokes y p x j ws s) x' i = if x' = x ∧ j ≤ i then (ws[i - j]?).getD (y.peek p s x' i) else y.peek p s x' i := by
  induction ws with
  | nil => intro j s x' i _; simp [pokes]
  | cons w ws ih =>
    intro j s x' i hj
    rw [List.length_cons] at hj
    rw [pokes, ih (j + 1) _ x' i (by omega)]
    by_cases hx : x' = x
    · subst hx
      by_cases hi : j + 1 ≤ i
      · rw [if_pos ⟨rfl, hi⟩, if_pos ⟨rfl, by omega⟩, show i - j = (i - (j + 1)) + 1 by omega, List.getElem?_cons_succ,
          ha.other p s x' j w x' i (by simp; omega)]
      · rw [if_neg (fun h => hi h.2)]
        by_cases hi' : j = i
        · subst hi'
          rw [ha.same p s x' j w (by omega), if_pos ⟨rfl, Nat.le_refl _⟩]; simp
        · rw [if_neg (fun h => by omega), ha.other p s x' j w x' i (by simp; omega)]
    · rw [if_neg (fun h => hx h.1), if_neg (fun h => hx h.1), ha.other p s x j w x' i (by simp [hx])]

/-- **C96.** `get` after `set` gives the value that was set. -/
theorem C96_get_after_set (y : Sys S V W) (ha : ArrayVars y) (p x : Nat) (ws : List W) (hl : ws.length = y.vsize p x) (σ : Nat → S)
    (cs : List (Call W)) (l : List (Res W)) (h : Means y true σ (.set p x ws :: .get p x :: cs) l) :
    ∃ l', l = .wasSet :: .value ws :: l' := by
  cases h with
  | set h =>
    cases h with
    | get h =>
      rename_i l'
      refine ⟨l', ?_⟩
      congr 2
      congr 1
      dsimp only
      rw [if_pos rfl]
      apply List.ext_getElem
      · simp [hl]
      · intro i h1 h2
        rw [List.getElem_map, List.getElem_range, ha.upd, peek_pokes ha p x ws 0 _ x i (by omega), if_pos ⟨rfl, by omega⟩]
        simp [h2]

/-- **C96.** … and `get` of another Var, or of another process, gives what it gave before. -/
theorem C96_set_changes_nothing_else (y : Sys S V W) (ha : ArrayVars y) (p x q x' : Nat) (hne : (q, x') ≠ (p, x)) (ws : List W)
    (hl : ws.length ≤ y.vsize p x) (σ : Nat → S) (cs : List (Call W)) (l : List (Res W))
    (h : Means y true σ (.get q x' :: .set p x ws :: .get q x' :: cs) l) : ∃ v l', l = .value v :: .wasSet :: .value v :: l' := by
  cases h with
  | get h =>
    cases h with
    | set h =>
      cases h with
      | get h =>
        rename_i l'
        refine ⟨(List.range (y.vsize q x')).map (y.peek q (σ q) x'), l', ?_⟩
        congr 3
        congr 1
        dsimp only
        apply List.map_congr_left
        intro i _
        by_cases hq : q = p
        · subst hq
          rw [if_pos rfl, ha.upd, peek_pokes ha q x ws 0 _ x' i (by omega), if_neg (fun h => hne (by rw [h.1]))]
        · rw [if_neg hq]

/-- A process with three Vars of two items each; in every time step it adds Var 1 to Var 0. -/
def arraySys : Sys (Nat → Nat → Int) Int Int where
  n := 1
  k := 1
  svc := fun _ => 0
  pms := fun i => if i = 0 then [0] else []
  cap := fun _ => 1
  init := fun _ x _ => x
  start := fun _ s => s
  body := fun _ => []
  emit := fun _ _ _ => 0
  absorb := fun _ s _ _ => s
  tick := fun _ s x j => if x = 0 then s 0 j + s 1 j else s x j
  preGuard := fun _ _ => false
  lrnGuard := fun _ _ => false
  postGuard := fun _ _ => false
  runPre := fun _ s => s
  runLrn := fun _ s => s
  runPost := fun _ s => s
  vsize := fun _ x => if x < 3 then 2 else 0
  peek := fun _ s x j => s x j
  poke := fun _ s x j w x' j' => if x' = x ∧ j' = j then w else s x' j'
  updated := fun _ s => s

/-- The hypothesis of the two theorems before is met. -/
example : ArrayVars arraySys where
  same := by intro p s x j w _; simp [arraySys]
  other := by
    intro p s x j w x' j' h
    simp only [arraySys]
    rw [if_neg]
    rintro ⟨rfl, rfl⟩
    exact h rfl
  upd := fun _ _ _ _ => rfl

/-! ### A recurrent spiking network -/

/-- The population of LIF neurons with a recurrent Dense connection of `Verif.System.Recurrent`, with Var 0 of process 0 the voltages of the `m`
neurons and Var 1 their currents. -/
def recSys (a : RecPar) (m : Nat) (cap : Nat → Nat) : Sys RecData Verif.Dense.Vec Int where
  n := 2
  k := 1
  svc := fun _ => 0
  pms := fun i => if i = 0 then [0, 1] else []
  cap := cap
  init := fun _ => { neurons := a.start, out := fun _ => 0, conn := Verif.Dense.init a.weights }
  start := fun _ s => s
  body := fun p => if p = 0 then [.rcv 1, .snd 0] else if p = 1 then [.snd 1, .rcv 0] else []
  emit := fun p d _ => if p = 0 then d.out else (Verif.Dense.runSpk a.dense d.conn (fun _ => 0)).2
  absorb := fun p d _ v =>
    if p = 0 then
      { d with
        neurons := fun i => (Verif.LIF.runSpk a.lif a.vth (d.neurons i) (v i)).1
        out := fun i => if (Verif.LIF.runSpk a.lif a.vth (d.neurons i) (v i)).2 then 1 else 0 }
    else { d with conn := (Verif.Dense.runSpk a.dense d.conn v).1 }
  tick := fun _ d => d
  preGuard := fun _ _ => false
  lrnGuard := fun _ _ => false
  postGuard := fun _ _ => false
  runPre := fun _ s => s
  runLrn := fun _ s => s
  runPost := fun _ s => s
  vsize := fun p x => if p = 0 ∧ x < 2 then m else 0
  peek := fun _ d x j => if x = 0 then (d.neurons j).st.v else (d.neurons j).st.u
  poke := fun _ d x j w =>
    { d with neurons := fun i => if i = j then
        (if x = 0 then ⟨{ (d.neurons i).st with v := w }, (d.neurons i).eff⟩ else ⟨{ (d.neurons i).st with u := w }, (d.neurons i).eff⟩)
      else d.neurons i }
  updated := fun _ d => d

theorem rec_wf (a : RecPar) (m : Nat) (cap : Nat → Nat) (hcap : ∀ c, 1 ≤ cap c) : WF (recSys a m cap) (fun c => c) (fun c => 1 - c) where
  nodup := by
    intro p
    show (if p = 0 then _ else if p = 1 then _ else _ : List Op).Nodup
    split
    · decide
    · split <;> decide
  snd := by
    intro p c hp h
    have hp' : p = 0 ∨ p = 1 := by have : p < 2 := hp; omega
    rcases hp' with rfl | rfl
    · have : c = 0 := by simpa [recSys] using h
      subst this; exact ⟨rfl, Nat.lt_succ_self 1, List.mem_cons_of_mem _ (List.mem_singleton.2 rfl)⟩
    · have : c = 1 := by simpa [recSys] using h
      subst this; exact ⟨rfl, Nat.zero_lt_two, List.mem_cons_self⟩
  rcv := by
    intro p c hp h
    have hp' : p = 0 ∨ p = 1 := by have : p < 2 := hp; omega
    rcases hp' with rfl | rfl
    · have : c = 1 := by simpa [recSys] using h
      subst this; exact ⟨rfl, Nat.lt_succ_self 1, List.mem_cons_self⟩
    · have : c = 0 := by simpa [recSys] using h
      subst this; exact ⟨rfl, Nat.zero_lt_two, List.mem_cons_of_mem _ (List.mem_singleton.2 rfl)⟩
  cap := hcap
  svc := fun p hp => by show 0 < 1; omega
  pms := by
    intro i
    show (if i = 0 then [0, 1] else [] : List Nat).Nodup ∧ ∀ p, p ∈ (if i = 0 then [0, 1] else [] : List Nat) ↔ p < 2 ∧ 0 = i
    split
    · exact ⟨by decide, fun p => by simp; omega⟩
    · exact ⟨by simp, fun p => by simp; omega⟩

theorem rec_noCircle (a : RecPar) (m : Nat) (cap : Nat → Nat) : NoCircle (recSys a m cap) (fun c => c) := by
  rintro ⟨K, ⟨c, hc⟩, h⟩
  have pair : ∀ {a b c d : Op}, Verif.System.Precedes [a, b] c d → c = a ∧ d = b := by
    rintro a b c d ⟨x, y, z, h⟩
    rcases x with _ | ⟨x, _ | ⟨x', x''⟩⟩
    · rcases y with _ | ⟨y, y'⟩
      · simp at h; exact ⟨h.1.symm, h.2.1.symm⟩
      · have := congrArg List.length h; simp at this
    · have := congrArg List.length h; simp at this
    · have := congrArg List.length h; simp at this
  have h1 : ¬ K 1 := by
    intro hk
    obtain ⟨-, -, c', -, hp⟩ := h 1 hk
    have := pair (show Verif.System.Precedes [.snd 1, .rcv 0] (.rcv c') (.snd 1) from hp)
    exact absurd this.1 (by simp)
  have h0 : ¬ K 0 := by
    intro hk
    obtain ⟨-, -, c', hk', hp⟩ := h 0 hk
    have := pair (show Verif.System.Precedes [.rcv 1, .snd 0] (.rcv c') (.snd 0) from hp)
    have e : c' = 1 := by simpa using this.1
    exact h1 (e ▸ hk')
  have : c < 2 := (h c hc).1
  have : c = 0 ∨ c = 1 := by omega
  rcases this with rfl | rfl
  · exact h0 hc
  · exact h1 hc

theorem rec_tame (a : RecPar) (m : Nat) (cap : Nat → Nat) : Tame (recSys a m cap) where
  preLrn := by intro p s h; cases h
  lrnPre := fun _ _ => rfl
  postPre := fun _ _ => rfl
  postLrn := fun _ _ => rfl

/-- Activations sent in a state. -/
def recAct (a : RecPar) (σ : Nat → RecData) : Verif.Dense.Vec := (Verif.Dense.runSpk a.dense (σ 1).conn (fun _ => 0)).2

/-- Spikes sent in a state. -/
def recSpk (a : RecPar) (σ : Nat → RecData) : Verif.Dense.Vec :=
  fun i => if (Verif.LIF.runSpk a.lif a.vth ((σ 0).neurons i) (recAct a σ i)).2 then 1 else 0

/-- One step. -/
def recNext (a : RecPar) (m : Nat) (cap : Nat → Nat) (σ : Nat → RecData) (p : Nat) : RecData :=
  if p < 2 then spiked (recSys a m cap) (fun c => if c = 1 then recAct a σ else recSpk a σ) σ p else σ p

theorem rec_oneStep (a : RecPar) (m : Nat) (cap : Nat → Nat) (hcap : ∀ c, 1 ≤ cap c) (σ : Nat → RecData) :
    OneStep (recSys a m cap) σ (recNext a m cap σ) := by
  refine ⟨fun c => if c = 1 then recAct a σ else recSpk a σ, ?_, ?_⟩
  · intro p c x z hp hb
    have hp' : p = 0 ∨ p = 1 := by have : p < 2 := hp; omega
    rcases hp' with rfl | rfl
    · have hb : [Op.rcv 1, Op.snd 0] = x ++ .snd c :: z := hb
      rcases x with _ | ⟨x, _ | ⟨x', x''⟩⟩
      · simp at hb
      · simp only [List.cons_append, List.nil_append, List.cons.injEq, Op.snd.injEq] at hb
        obtain ⟨rfl, rfl, -⟩ := hb
        rfl
      · have := congrArg List.length hb; simp at this
    · have hb : [Op.snd 1, Op.rcv 0] = x ++ .snd c :: z := hb
      rcases x with _ | ⟨x, _ | ⟨x', x''⟩⟩
      · simp only [List.nil_append, List.cons.injEq, Op.snd.injEq] at hb
        obtain ⟨rfl, -⟩ := hb
        rfl
      · simp at hb
      · have := congrArg List.length hb; simp at this
  · intro p
    show (if p < 2 then _ else _) = if p < 2 then managed (recSys a m cap) ((recSys a m cap).svc p) _ p else _
    by_cases hp : p < 2
    · rw [if_pos hp, if_pos hp, C96_phases_are_local _ (rec_tame a m cap) _ p (((rec_wf a m cap hcap).pms _).2 p |>.2 ⟨hp, rfl⟩)]
      rfl
    · rw [if_neg hp, if_neg hp]

/-- States of the network over time. -/
def recAt (a : RecPar) (m : Nat) (cap : Nat → Nat) (t : Nat) : Nat → RecData := (recNext a m cap)^[t] (recSys a m cap).init

theorem recAt_succ (a : RecPar) (m : Nat) (cap : Nat → Nat) (t : Nat) :
    recAt a m cap (t + 1) = recNext a m cap (recAt a m cap t) := Function.iterate_succ_apply' _ _ _

theorem rec_steps (a : RecPar) (m : Nat) (cap : Nat → Nat) (hcap : ∀ c, 1 ≤ cap c) (k : Nat) : ∀ t,
    StepsTo (recSys a m cap) k (recAt a m cap t) (recAt a m cap (t + k)) := by
  induction k with
  | zero => intro t; rfl
  | succ k ih =>
    intro t
    refine ⟨recAt a m cap (t + 1), ?_, ?_⟩
    · rw [recAt_succ]; exact rec_oneStep a m cap hcap _
    · have := ih (t + 1)
      rwa [show t + 1 + k = t + (k + 1) by omega] at this

theorem rec_neurons (a : RecPar) (m : Nat) (cap : Nat → Nat) (i : Nat) : ∀ t,
    (recAt a m cap t 0).neurons i = (Verif.LIF.runAll a.lif a.vth (a.start i) (train (fun t => recAct a (recAt a m cap t)) i t)).1
  | 0 => rfl
  | t + 1 => by
    rw [train_succ, runAll_append, recAt_succ]
    show (Verif.LIF.runSpk a.lif a.vth ((recAt a m cap t 0).neurons i) (recAct a (recAt a m cap t) i)).1 = _
    rw [rec_neurons a m cap i t]
    rfl

theorem rec_conn (a : RecPar) (m : Nat) (cap : Nat → Nat) : ∀ t,
    (recAt a m cap t 1).conn = Verif.Dense.stateAt a.dense (Verif.Dense.init a.weights) (fun t => recSpk a (recAt a m cap t)) t
  | 0 => rfl
  | t + 1 => by
    rw [recAt_succ]
    show (Verif.Dense.runSpk a.dense (recAt a m cap t 1).conn (recSpk a (recAt a m cap t))).1 = _
    rw [rec_conn a m cap t]
    rfl

/-- Run in pieces, reading the voltages after each. -/
def pieces : List Nat → List (Call Int)
  | [] => []
  | k :: ks => .run k :: .get 0 0 :: pieces ks

/-- … and what is to be seen, if `v t` are the voltages after `t` steps. -/
def readings (v : Nat → List Int) : Nat → List Nat → List (Res Int)
  | _, [] => [.stopped]
  | t, k :: ks => .ran :: .value (v (t + k)) :: readings v (t + k) ks

theorem rec_means (a : RecPar) (m : Nat) (cap : Nat → Nat) (hcap : ∀ c, 1 ≤ cap c) (ks : List Nat) : ∀ (b : Bool) (t : Nat),
    (b = true ∨ ks ≠ []) → Means (recSys a m cap) b (recAt a m cap t) (pieces ks)
      (readings (fun t => (List.range m).map fun i => ((recAt a m cap t 0).neurons i).st.v) t ks) := by
  induction ks with
  | nil =>
    intro b t hb
    rcases hb with rfl | h
    · exact .stop _
    · exact absurd rfl h
  | cons k ks ih =>
    intro b t _
    exact .run (rec_steps a m cap hcap k t) (Means.get (y := recSys a m cap) (p := 0) (x := 0) (ih true (t + k) (Or.inl rfl)))

/-- **C96.** The recurrent network of a LIF population and a Dense connection, run by the host in pieces of any lengths, with the voltages read
after each piece. There are spikes `S` and activations `A` over time with
* `A` starts with zero, `A (t + 1)` is the scaled product of weights and spikes `S t`;
* neuron `i` spikes in step `t` exactly if a LIF neuron fed with `A 0 i, …, A t i` does;
* whatever the schedule of host, service and process models, a completed execution has shown after `t` steps in total the voltages of LIF
  neurons fed with the first `t` activations, and every fair schedule completes. -/
theorem C96_recurrent_lif_dense (a : RecPar) (m : Nat) (cap : Nat → Nat) (hcap : ∀ c, 1 ≤ cap c) :
    ∃ S A : Nat → Verif.Dense.Vec,
      (∀ i, A 0 i = 0) ∧
      (∀ t i, A (t + 1) i = Verif.scaled a.dense.weightExp (Verif.Dense.matVec a.dense.nIn
        (Verif.Dense.prepared a.dense a.weights) (if a.dense.graded then S t else Verif.Dense.bin (S t)) i)) ∧
      (∀ t i, S t i = if (Verif.LIF.runSpk a.lif a.vth (Verif.LIF.runAll a.lif a.vth (a.start i) (train A i t)).1 (A t i)).2 then 1 else 0) ∧
      ∀ ks : List Nat, ks ≠ [] →
        (∀ l, seen (exec (net (recSys a m cap)) (initial (recSys a m cap) (pieces ks)) l) <+:
          readings (fun t => (List.range m).map fun i => (Verif.LIF.runAll a.lif a.vth (a.start i) (train A i t)).1.st.v) 0 ks) ∧
        ∃ N, ∀ rounds : List (List Nat), (∀ rd ∈ rounds, ∀ p, p ≤ 6 → p ∈ rd) → N ≤ rounds.length →
          seen (exec (net (recSys a m cap)) (initial (recSys a m cap) (pieces ks)) rounds.flatten) =
            readings (fun t => (List.range m).map fun i => (Verif.LIF.runAll a.lif a.vth (a.start i) (train A i t)).1.st.v) 0 ks := by
  have hA : ∀ t, recAct a (recAt a m cap t) =
      Verif.Dense.sentAt a.dense (Verif.Dense.init a.weights) (fun t => recSpk a (recAt a m cap t)) t := by
    intro t
    unfold recAct
    rw [rec_conn]
    rfl
  refine ⟨fun t => recSpk a (recAt a m cap t), fun t => recAct a (recAt a m cap t), ?_, ?_, ?_, ?_⟩
  · intro i
    dsimp only
    rw [hA]
    exact (Verif.Dense.C39_dense_product a.dense a.weights _ i).1
  · intro t i
    dsimp only
    rw [hA]
    exact (Verif.Dense.C39_dense_product a.dense a.weights _ i).2 t
  · intro t i
    rw [← rec_neurons]
    rfl
  · intro ks hks
    have hw := rec_wf a m cap hcap
    have hc := rec_noCircle a m cap
    have hp : Proper (recSys a m cap) (pieces ks) := by
      constructor
      · clear hks
        induction ks with
        | nil => intro c hc; cases hc
        | cons k ks ih =>
          intro c hc
          rcases List.mem_cons.1 hc with rfl | hc
          · trivial
          · rcases List.mem_cons.1 hc with rfl | hc
            · show 0 < 2; omega
            · exact ih c hc
      · cases ks with
        | nil => exact absurd rfl hks
        | cons k ks => exact ⟨k, List.mem_cons_self⟩
    obtain ⟨log, hM, h1, -, N, h2⟩ := C96_every_schedule _ _ _ hw hc _ hp
    have e := C96_meaning_unique hw hc _ _ _ _ _ hM (rec_means a m cap hcap ks false 0 (Or.inr hks))
    have e2 : (fun t => (List.range m).map fun i => ((recAt a m cap t 0).neurons i).st.v) =
        fun t => (List.range m).map fun i =>
          (Verif.LIF.runAll a.lif a.vth (a.start i) (train (fun t => recAct a (recAt a m cap t)) i t)).1.st.v := by
      funext t
      apply List.map_congr_left
      intro i _
      rw [rec_neurons]
    rw [e2] at e
    rw [e] at h1 h2
    exact ⟨h1, N, fun rounds hr hN => (h2 rounds (fun rd hrd p hp => hr rd hrd p hp) hN).1⟩

end Verif.EndToEnd
