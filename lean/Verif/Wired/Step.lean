import Verif.Wired.Wf

/-!
# The equations of channels and the equations of connections
-/

namespace Verif.Wired

open Verif.Wiring (Port End Builders CB ioEnds trOf builders sel buildChannels PKind)
open Verif.System (Op Precedes)
open Spec

variable {S V W : Type} [Add V] [Zero V]

variable {x : Platform S V W} {conns : List (Port × Port)} {kd : Nat → String → PKind} {has : Nat → String → Bool} {b : Builders}
  (funcs : Port → List (List Char × List (V → V)))

/-- Messages on channels are the values of the OutPorts. -/
def Agree (conns : List (Port × Port)) (h : Nat → V) (w : Port → V) : Prop := ∀ c o q, conns[c]? = some (o, q) → h c = w o

/-- An InPort receives the sum over its connections. -/
theorem received_eq (hr : Regular x.n x.pm conns kd) (hb : buildChannels has conns = some b) {h : Nat → V} {w : Port → V} (hw : Agree conns h w)
    {p : Nat} {y : String} (hy : POp.recv y ∈ (x.pm p).ops) :
    received b funcs h p y = inputs conns (Wiring.Spec.transform funcs) w p y := by
  unfold received inputs arrives
  rw [← List.foldl_map (f := fun e => trP b funcs p e (h e.chan)) (g := (· + ·)), ends_inp_sel hr hb hy]
  rw [← List.foldl_map (f := fun o => Wiring.Spec.transform funcs o ⟨p, y, .inp⟩ (w o)) (g := (· + ·))]
  congr 1
  have hok := regular_ok hr
  rw [Wiring.sel_map (fun c => c.dst = ⟨p, y, .inp⟩) false y (fun e => trP b funcs p e (h e.chan))
    (fun c => Wiring.Spec.transform funcs c.src ⟨p, y, .inp⟩ (w c.src)) (builders conns) 0 ?_]
  · exact Wiring.sources_builders hok (q := ⟨p, y, .inp⟩) rfl (fun o => Wiring.Spec.transform funcs o ⟨p, y, .inp⟩ (w o))
  · intro i c hi hd
    have hd' : c.dst = ⟨p, y, .inp⟩ := of_decide_eq_true hd
    have e := Wiring.trOf_eq hok hb funcs (q := ⟨p, y, .inp⟩) (hr.recvs p y hy).symm hi hd' (h i)
    simp only [Nat.zero_add]
    show trOf b funcs ⟨p, y, .inp⟩ ⟨i, false, y⟩ (h i) = _
    rw [e, hw i c.src c.dst ((chan_iff hr).1 hi)]

omit [Add V] [Zero V] in
theorem after_congr (P : PM S V W) (f g : String → V) : ∀ (l : List POp) (s : S), (∀ y, POp.recv y ∈ l → f y = g y) → after P f l s = after P g l s
  | [], s, _ => rfl
  | .send y :: l, s, h => by simp only [after]; exact after_congr P f g l s (fun y hy => h y (by simp [hy]))
  | .recv y :: l, s, h => by
    simp only [after]
    rw [h y (by simp)]
    exact after_congr P f g l _ (fun y hy => h y (by simp [hy]))

/-- A process model between time steps. -/
def rest (s : S) : Task S V := ⟨s, 0, []⟩

def restF (σ : Nat → S) : Nat → Task S V := fun p => rest (σ p)

/-- What is sent on a channel is what the process computes before `send`. -/
theorem emit_eq (hr : Regular x.n x.pm conns kd) (hb : buildChannels has conns = some b) (h : Nat → V) (σ : Nat → S) {p c : Nat} {X Z : List Op}
    (hbody : (sys x b funcs).body p = X ++ .snd c :: Z) :
    ∃ y q l r, (x.pm p).ops = l ++ .send y :: r ∧ conns[c]? = some (⟨p, y, .out⟩, q) ∧
      (sys x b funcs).emit p (EndToEnd.after (sys x b funcs) h p X ((sys x b funcs).start p (restF σ p))) c =
        (x.pm p).value (after (x.pm p) (received b funcs h p) l ((x.pm p).start (σ p))) y := by
  have hn := pieces_nodup hr hb p
  rw [← body_pieces x b funcs] at hn
  have hbody' := hbody
  change (micros b p (x.pm p).ops).flatMap chanOp = _ at hbody'
  obtain ⟨L, m, R, X', R', e1, e2, e3, e4⟩ := flatMap_split _ _ _ _ _ hbody'
  obtain ⟨y, e, rfl, hec⟩ : ∃ y e, m = .out y e ∧ e.chan = c := by
    cases m with
    | out y e =>
      refine ⟨y, e, rfl, ?_⟩
      have : Op.snd c ∈ chanOp (.out y e) := by rw [e2]; simp
      simpa [chanOp, eq_comm] using this
    | zero => simp [chanOp] at e2
    | put _ => simp [chanOp] at e2
    | add e =>
      have : Op.snd c ∈ chanOp (.add e) := by rw [e2]; simp
      simp [chanOp] at this
  have hX' : X' = [] ∧ R' = [] := by
    have := congrArg List.length e2
    simp only [chanOp, List.length_cons, List.length_nil, List.length_append] at this
    exact ⟨List.length_eq_zero_iff.1 (by omega), List.length_eq_zero_iff.1 (by omega)⟩
  obtain ⟨rfl, rfl⟩ := hX'
  rw [List.append_nil] at e3
  have e1' := e1
  unfold micros at e1'
  obtain ⟨l, o, r, Y', T', f1, f2, f3, f4⟩ := flatMap_split _ _ _ _ _ e1'
  have ho : o ∈ (x.pm p).ops := by rw [f1]; simp
  obtain ⟨rfl, hY'⟩ : o = .send y ∧ ∃ es : List End, Y' = es.map (.out y) := by
    cases o with
    | recv z =>
      have : Micro.out y e ∈ unfoldOp b p (.recv z) := by rw [f2]; simp
      simp [unfoldOp] at this
    | send z =>
      have : Micro.out y e ∈ unfoldOp b p (.send z) := by rw [f2]; simp
      simp only [unfoldOp, List.mem_map, Micro.out.injEq] at this
      obtain ⟨_, _, rfl, _⟩ := this
      refine ⟨rfl, ?_⟩
      simp only [unfoldOp] at f2
      obtain ⟨es1, es2, _, h2, _⟩ := List.map_eq_append_iff.1 f2
      exact ⟨es1, h2.symm⟩
  obtain ⟨es, rfl⟩ := hY'
  have hce : Op.snd c ∈ piece b p (.send y) := by
    unfold piece
    rw [f2, List.mem_flatMap]
    exact ⟨.out y e, by simp, by simp [chanOp, hec]⟩
  obtain ⟨y', q, hy', hcq⟩ := (mem_piece_snd hr hb ho c).1 hce
  cases hy'
  refine ⟨y, q, l, r, f1, hcq, ?_⟩
  obtain ⟨Z', s', a', g1, g2, g3, g4⟩ := after_micro x b funcs h p (.out y e :: R) L [] ((x.pm p).start (σ p)) 0 noAdd_nil
  have hstart : (sys x b funcs).start p (restF σ p) = ⟨(x.pm p).start (σ p), 0, [] ++ (L ++ .out y e :: R)⟩ := by
    show (⟨(x.pm p).start (σ p), 0, micros b p (x.pm p).ops⟩ : Task S V) = _
    rw [e1]; rfl
  rw [hstart, e3, g3]
  show emitM (x.pm p) c (Z' ++ .out y e :: R) s' a' = _
  rw [emitM_skip (x.pm p) (trP b funcs p) h c y e hec R Z' s' a' g1, g4, List.nil_append, f3, mAfter_append, mAfter_outs]
  · have := mAfter_ops (x.pm p) b funcs h p l ((x.pm p).start (σ p)) 0
    unfold micros at this
    rw [this]
  · intro y' e' hm hcc
    have hmL : Micro.out y' e' ∈ L := by simpa using g2 _ hm
    have : Op.snd c ∈ X := by
      rw [e3, List.mem_flatMap]
      exact ⟨_, hmL, by simp [chanOp, hcc]⟩
    rw [hbody] at hn
    have := (List.nodup_append.1 hn).2.2 _ this _ List.mem_cons_self
    exact this rfl

/-- The network as its user knows it. -/
def network (x : Platform S V W) (conns : List (Port × Port)) (funcs : Port → List (List Char × List (V → V))) : Network S V W where
  n := x.n
  pm := x.pm
  inp := inputs conns (Wiring.Spec.transform funcs)
  group p := x.pms (x.svc p)

theorem spiked_eq (hr : Regular x.n x.pm conns kd) (hb : buildChannels has conns = some b) {h : Nat → V} {w : Port → V} (hw : Agree conns h w) (σ : Nat → S) :
    EndToEnd.spiked (sys x b funcs) h (restF σ) = restF (Spec.spiked (network x conns funcs) w σ) := by
  funext p
  unfold EndToEnd.spiked restF Spec.spiked
  by_cases hp : p < x.n
  · rw [if_pos (show p < (sys x b funcs).n from hp), if_pos (show p < (network x conns funcs).n from hp)]
    obtain ⟨Z', s', a', g1, _, g3, g4⟩ := after_micro x b funcs h p [] (micros b p (x.pm p).ops) [] ((x.pm p).start (σ p)) 0 noAdd_nil
    rw [List.nil_append, List.append_nil, List.append_nil] at g3
    rw [List.nil_append] at g4
    show (sys x b funcs).tick p (EndToEnd.after (sys x b funcs) h p ((micros b p (x.pm p).ops).flatMap chanOp) ⟨(x.pm p).start (σ p), 0, micros b p (x.pm p).ops⟩) = _
    rw [g3]
    show (⟨finishM (x.pm p) Z' s' a', 0, []⟩ : Task S V) = _
    rw [finishM_skip (x.pm p) (trP b funcs p) h Z' s' a' g1, g4, mAfter_ops]
    rw [after_congr (x.pm p) (received b funcs h p) (inputs conns (Wiring.Spec.transform funcs) w p)]
    · rfl
    · intro y hy
      exact received_eq funcs hr hb hw hy
  · rw [if_neg (show ¬ p < (sys x b funcs).n from hp), if_neg (show ¬ p < (network x conns funcs).n from hp)]

theorem anyOf_eq (i : Nat) (g : Nat → S → Bool) (σ : Nat → S) :
    EndToEnd.anyOf (sys x b funcs) i (fun p t => g p t.vars) (restF σ) = Spec.anyOf (x.pms i) g σ := rfl

theorem phase_eq (i : Nat) (bb : Bool) (g : Nat → S → Bool) (f : Nat → S → S) (F : Nat → Task S V → Task S V)
    (hF : ∀ p t, F p t = if g p t.vars then t.on (f p) else t) (σ : Nat → S) :
    EndToEnd.phaseIf (sys x b funcs) i bb F (restF σ) = restF (Spec.phase (x.pms i) bb g f σ) := by
  funext p
  unfold EndToEnd.phaseIf Spec.phase
  show (if bb = true ∧ p ∈ x.pms i then F p (rest (σ p)) else rest (σ p)) =
    rest (if bb = true ∧ p ∈ x.pms i ∧ g p (σ p) = true then f p (σ p) else σ p)
  by_cases h1 : bb = true ∧ p ∈ x.pms i
  · rw [if_pos h1, hF]
    by_cases h2 : g p (σ p) = true
    · rw [if_pos (show g p (rest (σ p) : Task S V).vars = true from h2), if_pos ⟨h1.1, h1.2, h2⟩]
      rfl
    · rw [if_neg (show ¬ g p (rest (σ p) : Task S V).vars = true from h2), if_neg (fun hh => h2 hh.2.2)]
  · rw [if_neg h1, if_neg (fun hh => h1 ⟨hh.1, hh.2.1⟩)]

theorem managed_eq (i : Nat) (σ : Nat → S) :
    EndToEnd.managed (sys x b funcs) i (restF σ) = restF (Spec.managed x.pm (x.pms i) σ) := by
  unfold EndToEnd.managed Spec.managed
  rw [phase_eq funcs i _ (fun p => (x.pm p).preGuard) (fun p => (x.pm p).runPre) (EndToEnd.doPre (sys x b funcs)) (fun p t => rfl)]
  rw [phase_eq funcs i _ (fun p => (x.pm p).lrnGuard) (fun p => (x.pm p).runLrn) (EndToEnd.doLrn (sys x b funcs)) (fun p t => rfl)]
  rw [phase_eq funcs i _ (fun p => (x.pm p).postGuard) (fun p => (x.pm p).runPost) (EndToEnd.doPost (sys x b funcs)) (fun p t => rfl)]
  rfl

theorem takeWhile_prefix {L l r : List POp} {o : POp} (hn : L.Nodup) (h : L = l ++ o :: r) : L.takeWhile (· ≠ o) = l := by
  subst h
  induction l with
  | nil => simp
  | cons a l ih =>
    have hn' := List.nodup_cons.1 hn
    have hao : a ≠ o := by
      rintro rfl
      exact hn'.1 (by simp)
    rw [List.cons_append, List.takeWhile_cons, if_pos (by simpa using hao), ih hn'.2]

/-- The value of every OutPort, from the messages. -/
def valueOf (x : Platform S V W) (b : Builders) (funcs : Port → List (List Char × List (V → V))) (h : Nat → V) (σ : Nat → S) (o : Port) : V :=
  (x.pm o.proc).value (after (x.pm o.proc) (received b funcs h o.proc) ((x.pm o.proc).ops.takeWhile (· ≠ .send o.name)) ((x.pm o.proc).start (σ o.proc))) o.name

theorem valueOf_eq (hr : Regular x.n x.pm conns kd) (h : Nat → V) (σ : Nat → S) {p : Nat} {y : String} {k : PKind} {l r : List POp}
    (hl : (x.pm p).ops = l ++ .send y :: r) :
    valueOf x b funcs h σ ⟨p, y, k⟩ = (x.pm p).value (after (x.pm p) (received b funcs h p) l ((x.pm p).start (σ p))) y := by
  unfold valueOf
  show (x.pm p).value (after (x.pm p) (received b funcs h p) ((x.pm p).ops.takeWhile (· ≠ .send y)) ((x.pm p).start (σ p))) y = _
  rw [takeWhile_prefix (hr.once p) hl]

theorem oneStep_forward (hr : Regular x.n x.pm conns kd) (hb : buildChannels has conns = some b) {σ : Nat → S}
    {τ : Nat → Task S V} (h : EndToEnd.OneStep (sys x b funcs) (restF σ) τ) : ∃ σ', τ = restF σ' ∧ Spec.OneStep (network x conns funcs) σ σ' := by
  obtain ⟨h, hm, hτ⟩ := h
  have hag : Agree conns h (valueOf x b funcs h σ) := by
    intro c o q hc
    obtain ⟨h1, h2, h3, h4, h5, h6⟩ := hr.conn o q (List.mem_of_getElem? hc)
    obtain ⟨p, y, k⟩ := o
    simp only at h1 h5
    subst h1
    have hmem := (snd_body funcs hr hb p c).2 ⟨y, q, h5, hc⟩
    obtain ⟨X, Z, hXZ⟩ := List.append_of_mem hmem
    obtain ⟨y', q', l, r, e1, e2, e3⟩ := emit_eq funcs hr hb h σ hXZ
    rw [hc] at e2
    simp only [Option.some.injEq, Prod.mk.injEq, Port.mk.injEq] at e2
    obtain ⟨⟨_, rfl, _⟩, _⟩ := e2
    rw [hm p c X Z h3 hXZ, e3, valueOf_eq funcs hr h σ e1]
  refine ⟨fun p => if p < x.n then Spec.managed x.pm (x.pms (x.svc p)) (Spec.spiked (network x conns funcs) (valueOf x b funcs h σ) σ) p else σ p, ?_,
    valueOf x b funcs h σ, ?_, fun p => rfl⟩
  · funext p
    rw [hτ p, spiked_eq funcs hr hb hag, managed_eq]
    by_cases hp : p < x.n
    · rw [if_pos (show p < (sys x b funcs).n from hp)]
      simp only [restF]
      rw [if_pos hp]
      rfl
    · rw [if_neg (show ¬ p < (sys x b funcs).n from hp)]
      simp only [restF]
      rw [if_neg hp]
  · intro p y l r hp hl
    rw [valueOf_eq funcs hr h σ (k := .out) hl]
    congr 1
    refine after_congr _ _ _ _ _ ?_
    intro z hz
    refine received_eq funcs hr hb hag ?_
    show POp.recv z ∈ (x.pm p).ops
    have hl' : (x.pm p).ops = l ++ .send y :: r := hl
    rw [hl']; simp [hz]

theorem oneStep_backward (hr : Regular x.n x.pm conns kd) (hb : buildChannels has conns = some b) {σ σ' : Nat → S}
    (h : Spec.OneStep (network x conns funcs) σ σ') : EndToEnd.OneStep (sys x b funcs) (restF σ) (restF σ') := by
  obtain ⟨w, hw, hσ⟩ := h
  have hag : Agree conns (fun c => (conns[c]?.map fun z => w z.1).getD 0) w := by
    intro c o q hc
    simp [hc]
  refine ⟨fun c => (conns[c]?.map fun z => w z.1).getD 0, ?_, fun p => ?_⟩
  · intro p c X Z hp hbody
    obtain ⟨y, q, l, r, e1, e2, e3⟩ := emit_eq funcs hr hb (fun c => (conns[c]?.map fun z => w z.1).getD 0) σ hbody
    rw [e3, hag c _ _ e2, hw p y l r hp e1]
    congr 1
    refine after_congr _ _ _ _ _ ?_
    intro z hz
    refine (received_eq funcs hr hb hag ?_).symm
    rw [e1]; simp [hz]
  · rw [spiked_eq funcs hr hb hag, managed_eq]
    unfold restF
    rw [hσ p]
    by_cases hp : p < x.n
    · rw [if_pos (show p < (sys x b funcs).n from hp), if_pos (show p < (network x conns funcs).n from hp)]
      rfl
    · rw [if_neg (show ¬ p < (sys x b funcs).n from hp), if_neg (show ¬ p < (network x conns funcs).n from hp)]

theorem steps_forward (hr : Regular x.n x.pm conns kd) (hb : buildChannels has conns = some b) : ∀ (k : Nat) {σ : Nat → S}
    {τ : Nat → Task S V}, EndToEnd.StepsTo (sys x b funcs) k (restF σ) τ → ∃ σ', τ = restF σ' ∧ Spec.Steps (network x conns funcs) k σ σ'
  | 0, σ, τ, h => ⟨σ, h, rfl⟩
  | k + 1, σ, τ, h => by
    obtain ⟨ρ, h1, h2⟩ := h
    obtain ⟨σ1, rfl, h3⟩ := oneStep_forward funcs hr hb h1
    obtain ⟨σ2, h4, h5⟩ := steps_forward hr hb k h2
    exact ⟨σ2, h4, σ1, h3, h5⟩

theorem steps_backward (hr : Regular x.n x.pm conns kd) (hb : buildChannels has conns = some b) : ∀ (k : Nat) {σ σ' : Nat → S},
    Spec.Steps (network x conns funcs) k σ σ' → EndToEnd.StepsTo (sys x b funcs) k (restF σ) (restF σ')
  | 0, σ, σ', h => by rw [show σ' = σ from h]; rfl
  | k + 1, σ, σ', h => by
    obtain ⟨ρ, h1, h2⟩ := h
    exact ⟨restF ρ, oneStep_backward funcs hr hb h1, steps_backward hr hb k h2⟩

theorem pokes_eq (p y : Nat) : ∀ (j : Nat) (ws : List W) (t : Task S V),
    EndToEnd.pokes (sys x b funcs) p y j ws t = t.on (Spec.pokes (x.pm p) y j ws)
  | _, [], t => rfl
  | j, w :: ws, t => by
    simp only [EndToEnd.pokes]
    rw [pokes_eq p y (j + 1) ws]
    rfl

theorem set_eq (σ : Nat → S) (p y : Nat) (ws : List W) :
    (fun q => if q = p then (sys x b funcs).updated p (EndToEnd.pokes (sys x b funcs) p y 0 ws (restF σ p)) else restF σ q) =
      restF (fun q => if q = p then (x.pm p).updated (Spec.pokes (x.pm p) y 0 ws (σ p)) else σ q) := by
  funext q
  simp only [restF]
  by_cases hq : q = p
  · rw [if_pos hq, if_pos hq, pokes_eq]
    rfl
  · rw [if_neg hq, if_neg hq]

theorem shows_of_means (hr : Regular x.n x.pm conns kd) (hb : buildChannels has conns = some b) (prog : List (EndToEnd.Call W)) :
    ∀ (f : Bool) (σ : Nat → S) (log : List (EndToEnd.Res W)), EndToEnd.Means (sys x b funcs) f (restF σ) prog log →
      Shows (network x conns funcs) f σ prog log := by
  induction prog with
  | nil => intro f σ log h; cases h; exact .stop σ
  | cons c cs ih =>
    intro f σ log h
    cases h with
    | run h1 h2 =>
      obtain ⟨σ', rfl, h3⟩ := steps_forward funcs hr hb _ h1
      exact .run h3 (ih _ _ _ h2)
    | get h1 => exact .get (N := network x conns funcs) (ih _ _ _ h1)
    | set h1 =>
      rw [set_eq] at h1
      exact .set (N := network x conns funcs) (ih _ _ _ h1)
    | getEarly h1 => exact .getEarly (ih _ _ _ h1)
    | setEarly h1 => exact .setEarly (ih _ _ _ h1)

theorem means_of_shows (hr : Regular x.n x.pm conns kd) (hb : buildChannels has conns = some b) (prog : List (EndToEnd.Call W)) :
    ∀ (f : Bool) (σ : Nat → S) (log : List (EndToEnd.Res W)), Shows (network x conns funcs) f σ prog log →
      EndToEnd.Means (sys x b funcs) f (restF σ) prog log := by
  induction prog with
  | nil => intro f σ log h; cases h; exact .stop _
  | cons c cs ih =>
    intro f σ log h
    cases h with
    | run h1 h2 => exact .run (steps_backward funcs hr hb _ h1) (ih _ _ _ h2)
    | get h1 => exact .get (y := sys x b funcs) (ih _ _ _ h1)
    | set h1 =>
      refine .set (y := sys x b funcs) ?_
      rw [set_eq]
      exact ih _ _ _ h1
    | getEarly h1 => exact .getEarly (ih _ _ _ h1)
    | setEarly h1 => exact .setEarly (ih _ _ _ h1)

end Verif.Wired
