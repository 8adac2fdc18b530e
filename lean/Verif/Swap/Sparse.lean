import Verif.Swap.Conns
import Verif.Snn.Theorems

/-!
# C118: networks of LIF populations and Sparse connections

They spike as the equations of the network with `Dense` connections of the same weights say (C115).
-/

namespace Verif.Swap

open Verif.Wired (PM POp)
open Verif.Wired.Spec (after Proper Hosted Script)
open Verif.Wiring (Builders)
open Verif.EndToEnd (Call Res)
open Verif.PortGraph (G run)
open Verif.Snn (Proc Kind Vars platform arranged popProc sourceProc sinkProc fixProcs FixVars noProc connProc lifFix fixConn)
open Verif.Snn.Spec (Gives Deployed Fed results next Arrangement recorded)
open Verif.SpikeNet (Net fixSpike)
open Verif.VarAccess (Csr)
open Verif.Sparse (valAt)
open Spec

/-- What a network shows is determined. -/
theorem gives_unique {S V W : Type} [AddCommMonoid V] {x : Wired.Platform S V W} {b : Builders} {prog : List (Call W)} {l l' : List (Res W)} (h : Gives x b prog l) (h' : Gives x b prog l') : l = l' := by
  obtain ⟨_, _, N1, a1⟩ := h
  obtain ⟨_, _, N2, a2⟩ := h'
  have hr : ∀ rd ∈ List.replicate (N1 + N2) (List.range (2 * (x.n + x.k) + 1)), ∀ a, a ≤ 2 * (x.n + x.k) → a ∈ rd := by
    intro rd hrd a ha
    rw [List.eq_of_mem_replicate hrd]
    exact List.mem_range.2 (by omega)
  rw [← (a1 _ hr (by simp)).1, ← (a2 _ hr (by simp)).1]

/-! ### The same process with other types of Vars -/

section
variable {X X' V W : Type}

/-- `P'` does with `e s` what `P` does with `s`. -/
structure Lifts (e : X → X') (P : Proc X V W) (P' : Proc X' V W) : Prop where
  kind : P'.kind = P.kind
  init : P'.init = e P.init
  begin_ : ∀ s, P'.begin_ (e s) = e (P.begin_ s)
  fire : ∀ s a, P'.fire (e s) a = (e (P.fire s a).1, (P.fire s a).2)
  out : ∀ s, P'.out (e s) = P.out s
  absorb : ∀ s a, P'.absorb (e s) a = e (P.absorb s a)
  vsize : P'.vsize = P.vsize
  peek : ∀ s, P'.peek (e s) = P.peek s
  poke : ∀ s x j w, P'.poke (e s) x j w = e (P.poke s x j w)

theorem after_lift [Zero V] {e : X → X'} {P : Proc X V W} {P' : Proc X' V W} (h : Lifts e P P') (inp : String → V) : ∀ (l : List POp) (s : X × V),
    after P'.pm inp l (e s.1, s.2) = (e (after P.pm inp l s).1, (after P.pm inp l s).2)
  | [], _ => rfl
  | .send _ :: l, s => after_lift h inp l s
  | .recv y :: l, s => by
    have e1 : P'.pm.store (e s.1, s.2) y (inp y) = (e (P.pm.store s y (inp y)).1, (P.pm.store s y (inp y)).2) := by
      show (if P'.kind = .neuron then P'.fire (e s.1) (inp y) else (P'.absorb (e s.1) (inp y), s.2)) = _
      rw [h.kind, h.fire, h.absorb]
      show _ = (e (if P.kind = .neuron then P.fire s.1 (inp y) else (P.absorb s.1 (inp y), s.2)).1, (if P.kind = .neuron then P.fire s.1 (inp y) else (P.absorb s.1 (inp y), s.2)).2)
      split <;> rfl
    show after P'.pm inp l (P'.pm.store (e s.1, s.2) y (inp y)) = _
    rw [e1]
    exact after_lift h inp l _

theorem matches_lift [Zero V] {e : X → X'} {P : Proc X V W} {P' : Proc X' V W} (h : Lifts e P P') :
    Matches P.pm P'.pm (fun _ => True) (fun _ => True) (fun s s' => s' = (e s.1, s.2)) where
  ops := by show P'.kind.ops = P.kind.ops; rw [h.kind]
  init := by show (P'.init, (0 : V)) = _; rw [h.init]; rfl
  sends := by
    rintro s _ inp l y r rfl _
    have e0 : P'.pm.start (e s.1, s.2) = (e (P.pm.start s).1, (P.pm.start s).2) := by
      show (P'.begin_ (e s.1), s.2) = _
      rw [h.begin_]; rfl
    rw [e0, after_lift h]
    show (if P'.kind = .neuron then _ else P'.out (e _)) = if P.kind = .neuron then _ else P.out _
    rw [h.kind, h.out]
  step := by
    rintro s _ inp rfl
    have e0 : P'.pm.start (e s.1, s.2) = (e (P.pm.start s).1, (P.pm.start s).2) := by
      show (P'.begin_ (e s.1), s.2) = _
      rw [h.begin_]; rfl
    rw [e0]
    have e1 : P'.pm.ops = P.pm.ops := by show P'.kind.ops = P.kind.ops; rw [h.kind]
    rw [e1]
    exact after_lift h inp _ _
  pre := by rintro s _ rfl; exact ⟨rfl, rfl⟩
  lrn := by rintro s _ rfl; exact ⟨rfl, rfl⟩
  post := by rintro s _ rfl; exact ⟨rfl, rfl⟩
  read := by
    rintro x _
    exact ⟨by show P'.vsize x = P.vsize x; rw [h.vsize], by rintro s _ j rfl; show P'.peek (e s.1) x j = P.peek s.1 x j; rw [h.peek]⟩
  write := by
    rintro x _
    exact ⟨by show P'.vsize x = P.vsize x; rw [h.vsize], by rintro s _ j w rfl; show (P'.poke (e s.1) x j w, s.2) = _; rw [h.poke]; rfl⟩
  updated := by rintro s _ rfl; rfl

end

/-! ### Sparse networks -/

/-- Vars of the processes of a network with connections of either kind. -/
abbrev AnyVars := Vars LIF.Obj Store Int

/-- `LIF` with `PyLifModelBitAcc` (lif/models.py:81-278), as `Snn.lifFix`. -/
def lifC (size : Nat) (par : Nat → LIF.Par) (vth : Nat → Int) : Proc AnyVars (Nat → Int) Int :=
  popProc size (fun _ => ⟨⟨0, 0⟩, none⟩) (fun i o a => LIF.runSpk (par i) (vth i) o a) (fun o x => if x = 0 then o.st.u else o.st.v)
    (fun o x w => if x = 0 then { o with st := { o.st with u := w } } else { o with st := { o.st with v := w } })

/-- LIF populations, connections, a source and a sink for each population, as `Snn.fixProcs`. -/
def anyProcs (net : Net) (np : Nat) (size : Nat → Nat) (len buf : Nat) (data : Nat → Nat → Nat → Int) (conn : Nat → Proc AnyVars (Nat → Int) Int) : Nat → Proc AnyVars (Nat → Int) Int :=
  arranged np net.conns.length (fun q => lifC (size q) (net.lif q) (net.vth q)) conn (fun q => sourceProc (size q) len (data q)) (fun q => sinkProc (size q) buf)

/-- The network with `Dense` connections. -/
def denseProcs (net : Net) (np : Nat) (size : Nat → Nat) (len buf : Nat) (data : Nat → Nat → Nat → Int) : Nat → Proc AnyVars (Nat → Int) Int :=
  anyProcs net np size len buf data fun c => match net.conns[c]? with | some k => denseC (size k.dst) k.par k.w | none => noProc

/-- The network with `Sparse` connections: `par c` and `csr c` for connection `c`. -/
def sparseProcs (net : Net) (np : Nat) (size : Nat → Nat) (len buf : Nat) (data : Nat → Nat → Nat → Int) (par : Nat → Sparse.Par) (csr : Nat → Csr) : Nat → Proc AnyVars (Nat → Int) Int :=
  anyProcs net np size len buf data fun c => match net.conns[c]? with | some k => sparseC (size k.dst) (par c) (csr c) | none => noProc

def up : FixVars → AnyVars
  | .pop o => .pop o
  | .conn st => .conn (.dense st)
  | .ring t d => .ring t d

theorem lifts_lif (size : Nat) (par : Nat → LIF.Par) (vth : Nat → Int) : Lifts up (lifFix size par vth) (lifC size par vth) where
  kind := rfl
  init := rfl
  begin_ _ := rfl
  fire s a := by cases s <;> rfl
  out _ := rfl
  absorb _ _ := rfl
  vsize := rfl
  peek s := by cases s <;> rfl
  poke s x j w := by cases s <;> rfl

theorem lifts_dense (size : Nat) (par : Dense.Par) (w : Dense.Mat) : Lifts up (Snn.denseFix size par w) (denseC size par w) where
  kind := rfl
  init := rfl
  begin_ _ := rfl
  fire s a := by cases s <;> rfl
  out s := by cases s <;> rfl
  absorb s a := by cases s <;> rfl
  vsize := rfl
  peek s := by cases s <;> rfl
  poke s x j w := by cases s <;> rfl

theorem lifts_source (size len : Nat) (data : Nat → Nat → Int) : Lifts up (sourceProc size len data) (sourceProc size len data) where
  kind := rfl
  init := rfl
  begin_ s := by cases s <;> rfl
  fire s a := by cases s <;> rfl
  out s := by cases s <;> rfl
  absorb s a := by cases s <;> rfl
  vsize := rfl
  peek s := by cases s <;> rfl
  poke s x j w := by cases s <;> rfl

theorem lifts_sink (size len : Nat) : Lifts up (sinkProc size len) (sinkProc size len) where
  kind := rfl
  init := rfl
  begin_ s := by cases s <;> rfl
  fire s a := by cases s <;> rfl
  out s := by cases s <;> rfl
  absorb s a := by cases s <;> rfl
  vsize := rfl
  peek s := by cases s <;> rfl
  poke s x j w := by cases s <;> rfl

theorem lifts_none : Lifts up noProc noProc where
  kind := rfl
  init := rfl
  begin_ s := by cases s <;> rfl
  fire s a := by cases s <;> rfl
  out s := by cases s <;> rfl
  absorb s a := by cases s <;> rfl
  vsize := rfl
  peek s := by cases s <;> rfl
  poke s x j w := by cases s <;> rfl

theorem lifts_procs (net : Net) (np : Nat) (size : Nat → Nat) (len buf : Nat) (data : Nat → Nat → Nat → Int) (p : Nat) :
    Lifts up (fixProcs net np size len buf data p) (denseProcs net np size len buf data p) := by
  unfold fixProcs denseProcs anyProcs arranged
  split
  · exact lifts_lif _ _ _
  split
  · unfold fixConn
    dsimp only
    cases net.conns[p - np]? with
    | none => exact lifts_none
    | some k => exact lifts_dense _ _ _
  split
  · exact lifts_source _ _ _
  split
  · exact lifts_sink _ _
  · exact lifts_none

/-- The stored entries of `csr c` are the weights of connection `c` of `net`, and the parameters are the same. -/
def SameWeights (net : Net) (par : Nat → Sparse.Par) (csr : Nat → Csr) : Prop :=
  ∀ c k, net.conns[c]? = some k → k.w = valAt (csr c) ∧ k.par = (par c).dense (valAt (csr c)) ∧ Sparse.Wf (par c).n (par c).nIn (csr c) ∧ 0 < (par c).n ∧ 0 < (par c).nIn

theorem same_procs (net : Net) (np : Nat) (size : Nat → Nat) (len buf : Nat) (data : Nat → Nat → Nat → Int) (par : Nat → Sparse.Par) (csr : Nat → Csr) (hw : SameWeights net par csr) (p : Nat) :
    sparseProcs net np size len buf data par csr p = denseProcs net np size len buf data p ∨
      SameTrains (denseProcs net np size len buf data p) (sparseProcs net np size len buf data par csr p) := by
  unfold sparseProcs denseProcs anyProcs arranged
  split
  · exact .inl rfl
  split
  · dsimp only
    cases h : net.conns[p - np]? with
    | none => exact .inl rfl
    | some k =>
      obtain ⟨h1, h2, h3, h4, h5⟩ := hw _ k h
      right
      dsimp only
      rw [h1, h2]
      exact (C118_sparse_for_dense (size k.dst) (par (p - np)) (csr (p - np)) h3 h4 h5).1
  · exact .inl rfl

/-- If the connections answer as the `Dense` processes of a network (C115) do, its spikes are recorded. -/
theorem recorded_any (net : Net) (np : Nat) (size : Nat → Nat) (len buf : Nat) (data : Nat → Nat → Nat → Int) (conn : Nat → Proc AnyVars (Nat → Int) Int)
    (hsame : ∀ p, anyProcs net np size len buf data conn p = denseProcs net np size len buf data p ∨ SameTrains (denseProcs net np size len buf data p) (anyProcs net np size len buf data conn p))
    (lim : Nat) (calls : List PortGraph.Op) (k : Nat) (svc : Nat → Nat) (pms : Nat → List Nat) (cap : Nat → Nat) (own : Nat → Nat) (name : Nat → String) (outs : Nat → List Nat) (procs : List Nat)
    (has : Nat → String → Bool) (b : Builders)
    (hd : Deployed lim calls (np + net.conns.length + np + np) (anyProcs net np size len buf data conn) k svc pms cap own name outs procs has b)
    (ha : Arrangement (run lim G.empty calls) own name np net.conns) (T : Nat) (hT : T ≤ buf) (q : Nat) (hq : q < np) :
    Gives (platform (np + net.conns.length + np + np) (anyProcs net np size len buf data conn) k svc pms cap) b [.run T, .get (np + net.conns.length + np + q) 0]
      [.ran, .value (recorded (size q) buf T fun t i => fixSpike net (Snn.extOf len data) t q i), .stopped] := by
  have hi := PortGraph.inv_run PortGraph.inv_empty lim calls hd.good
  have hkind : ∀ p, (anyProcs net np size len buf data conn p).kind = (denseProcs net np size len buf data p).kind := by
    intro p
    rcases hsame p with h | h
    · rw [h]
    · exact h.1
  have hkind' : ∀ p, (denseProcs net np size len buf data p).kind = (fixProcs net np size len buf data p).kind := fun p => (lifts_procs net np size len buf data p).kind
  have hs : ∀ {X : Type} (P : Nat → Proc X (Nat → Int) Int), (∀ p, (anyProcs net np size len buf data conn p).kind = (P p).kind) →
      Deployed lim calls (np + net.conns.length + np + np) P k svc pms cap own name outs procs has b := by
    intro X P hP
    have e : ∀ p, ((P p).pm).ops = ((anyProcs net np size len buf data conn p).pm).ops := fun p => by
      show (P p).kind.ops = (anyProcs net np size len buf data conn p).kind.ops
      rw [hP]
    exact {
      good := hd.good, all := hd.all, found := hd.found, built := hd.built
      hosted := ⟨hd.hosted.cap, hd.hosted.svc, hd.hosted.pms⟩
      script := {
        io := hd.script.io, names := hd.script.names, members := hd.script.members, leafOut := hd.script.leafOut, leafIn := hd.script.leafIn
        once := fun p => by rw [e]; exact hd.script.once p
        recvs := fun p y h => hd.script.recvs p y (by rw [← e]; exact h)
        sends := fun p y h => hd.script.sends p y (by rw [← e]; exact h)
        usesIn := fun i h1 h2 h3 h4 => by rw [e]; exact hd.script.usesIn i h1 h2 h3 h4
        usesOut := fun i h1 h2 h3 h4 => by rw [e]; exact hd.script.usesOut i h1 h2 h3 h4 } }
  have hdf := hs (fixProcs net np size len buf data) fun p => (hkind p).trans (hkind' p)
  have hdd := hs (denseProcs net np size len buf data) hkind
  have g1 := Snn.C115_recorded_fixed net np size len buf data lim calls k svc pms cap own name outs procs has b hdf ha T hT q hq
  have hff : Fed (run lim G.empty calls) (np + net.conns.length + np + np) own name (fixProcs net np size len buf data) :=
    Snn.fed_arranged (by intro c hc; rw [Snn.fix_conn_kind net size c hc]; rfl) (fun _ => rfl) (fun _ => rfl) hi ha
  have hfd : Fed (run lim G.empty calls) (np + net.conns.length + np + np) own name (denseProcs net np size len buf data) := by
    intro p o hp hk hl
    rw [hkind'] at hk ⊢
    exact hff p o hp hk hl
  have hp1 : ∀ {X : Type} (P : Nat → Proc X (Nat → Int) Int), Proper (np + net.conns.length + np + np) (fun p => (P p).pm) [.run T, .get (np + net.conns.length + np + q) 0] :=
    fun P => Snn.proper_get (by omega)
  obtain ⟨log, _, a1, a2⟩ := C118_interchangeable (platform _ (fixProcs net np size len buf data) k svc pms cap) (platform _ (denseProcs net np size len buf data) k svc pms cap)
    (fun _ _ => True) (fun _ _ => True) _ (fun p => matches_lift (lifts_procs net np size len buf data p)) ⟨rfl, fun _ _ _ _ => Iff.rfl⟩ lim calls hd.good own name outs procs hd.all
    hdf.script hd.found (Snn.noCircle_snn hff) hdf.hosted hdd.hosted has b hd.built [.run T, .get (np + net.conns.length + np + q) 0] (hp1 _) ⟨fun _ _ _ => trivial, fun _ _ _ _ => trivial⟩
  rw [gives_unique a1 g1] at a2
  obtain ⟨b1, b2⟩ := C118_same_trains lim calls _ (denseProcs net np size len buf data) (anyProcs net np size len buf data conn) k svc pms cap cap hd.hosted.cap own name outs procs has b hdd hfd hsame
    [.run T, .get (np + net.conns.length + np + q) 0] (hp1 _) (by
      intro p x h
      simp only [List.mem_cons, List.not_mem_nil, or_false, reduceCtorEq, false_or, Call.get.injEq] at h
      left
      rw [h.1]
      unfold denseProcs anyProcs arranged
      rw [if_neg (show ¬ np + net.conns.length + np + q < np by omega), if_neg (show ¬ np + net.conns.length + np + q < np + net.conns.length by omega),
        if_neg (show ¬ np + net.conns.length + np + q < np by omega), if_neg (show ¬ np + net.conns.length + np + q < np + net.conns.length by omega)]) (by simp)
  rw [gives_unique b1 a2] at b2
  exact b2

/-- **C118.** A network of LIF populations and `Sparse` connections records exactly the spikes of the equations of the network (C115) whose `Dense` weights are the stored entries: under every schedule the user
sees the same spike trains. -/
theorem C118_recorded_sparse (net : Net) (np : Nat) (size : Nat → Nat) (len buf : Nat) (data : Nat → Nat → Nat → Int) (par : Nat → Sparse.Par) (csr : Nat → Csr) (hw : SameWeights net par csr)
    (lim : Nat) (calls : List PortGraph.Op) (k : Nat) (svc : Nat → Nat) (pms : Nat → List Nat) (cap : Nat → Nat) (own : Nat → Nat) (name : Nat → String) (outs : Nat → List Nat) (procs : List Nat)
    (has : Nat → String → Bool) (b : Builders)
    (hd : Deployed lim calls (np + net.conns.length + np + np) (sparseProcs net np size len buf data par csr) k svc pms cap own name outs procs has b)
    (ha : Arrangement (run lim G.empty calls) own name np net.conns) (T : Nat) (hT : T ≤ buf) (q : Nat) (hq : q < np) :
    Gives (platform (np + net.conns.length + np + np) (sparseProcs net np size len buf data par csr) k svc pms cap) b [.run T, .get (np + net.conns.length + np + q) 0]
      [.ran, .value (recorded (size q) buf T fun t i => fixSpike net (Snn.extOf len data) t q i), .stopped] :=
  recorded_any net np size len buf data _ (same_procs net np size len buf data par csr hw) lim calls k svc pms cap own name outs procs has b hd ha T hT q hq

end Verif.Swap
