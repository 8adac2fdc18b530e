import Verif.Wired.Step
import Verif.PortGraph.Props
import Verif.Compiler.Props
import Mathlib.Data.List.Nodup
import Mathlib.Data.List.Perm.Basic
import Mathlib.Algebra.BigOperators.Group.List.Basic

/-!
# C114: what is connected is what is computed
-/

namespace Verif.Wired

open Verif.Wiring (Port End Builders CB ioEnds trOf builders sel buildChannels PKind)
open Verif.System (exec Stuck AllHalted)
open Verif.EndToEnd (net initial seen Call Res)
open Spec

/-! ## From connections to results -/

section
variable {S V W : Type} [Add V] [Zero V]

/-- **C114.** A network of process models with the given connections, built by the runtime and executed under any schedule with any program of calls: the user never sees anything but
(a prefix of) the results that the equations of the network define; an execution that cannot go on has shown all of them and has terminated; every fair schedule gets there. -/
theorem C114_results (x : Platform S V W) (conns : List (Port × Port)) (kd : Nat → String → PKind) (funcs : Port → List (List Char × List (V → V)))
    (has : Nat → String → Bool) (b : Builders) (hb : buildChannels has conns = some b) (hr : Regular x.n x.pm conns kd) (hc : NoCircle x.pm conns) (hh : Hosted x)
    (prog : List (Call W)) (hp : Proper x.n x.pm prog) :
    ∃ log, Shows (network x conns funcs) false (fun p => (x.pm p).init) prog log ∧
      (∀ l, seen (exec (net (sys x b funcs)) (initial (sys x b funcs) prog) l) <+: log) ∧
      (∀ l, Stuck (net (sys x b funcs)) (exec (net (sys x b funcs)) (initial (sys x b funcs) prog) l) →
        seen (exec (net (sys x b funcs)) (initial (sys x b funcs) prog) l) = log ∧
          AllHalted (net (sys x b funcs)) (exec (net (sys x b funcs)) (initial (sys x b funcs) prog) l)) ∧
      (∃ N, ∀ rounds : List (List Nat), (∀ rd ∈ rounds, ∀ a, a ≤ 2 * (x.n + x.k) → a ∈ rd) → N ≤ rounds.length →
        seen (exec (net (sys x b funcs)) (initial (sys x b funcs) prog) rounds.flatten) = log ∧
          AllHalted (net (sys x b funcs)) (exec (net (sys x b funcs)) (initial (sys x b funcs) prog) rounds.flatten)) := by
  let _ : Inhabited V := ⟨0⟩
  have hp' : EndToEnd.Proper (sys x b funcs) prog := by
    refine ⟨?_, hp.runs⟩
    intro c hcm
    cases c with
    | run k => trivial
    | get p y => exact hp.gets p y hcm
    | set p y ws => exact hp.sets p y ws hcm
  obtain ⟨log, h1, h2, h3, h4⟩ := EndToEnd.C96_every_schedule (sys x b funcs) _ _ (wf funcs hr hb hh) (noCircle funcs hr hb hc) prog hp'
  exact ⟨log, shows_of_means funcs hr hb prog false _ log h1, h2, h3, h4⟩

/-- **C114.** The equations of such a network define the results uniquely. -/
theorem C114_unique (x : Platform S V W) (conns : List (Port × Port)) (kd : Nat → String → PKind) (funcs : Port → List (List Char × List (V → V)))
    (hr : Regular x.n x.pm conns kd) (hc : NoCircle x.pm conns) (hh : Hosted x) (prog : List (Call W)) (log log' : List (Res W))
    (h : Shows (network x conns funcs) false (fun p => (x.pm p).init) prog log) (h' : Shows (network x conns funcs) false (fun p => (x.pm p).init) prog log') :
    log = log' := by
  let _ : Inhabited V := ⟨0⟩
  obtain ⟨b, hb⟩ := (Wiring.C88_built_iff (pairs := conns) (fun _ _ => true)).2 (fun _ _ => ⟨rfl, rfl⟩)
  exact EndToEnd.C96_meaning_unique (wf funcs hr hb hh) (noCircle funcs hr hb hc) prog false _ log log'
    (means_of_shows funcs hr hb prog false _ log h) (means_of_shows funcs hr hb prog false _ log' h')

/-! ### Changing the input function -/

omit [Add V] [Zero V] in
theorem oneStep_congr {N : Network S V W} {f : (Port → V) → Nat → String → V} (hf : ∀ w p y, p < N.n → POp.recv y ∈ (N.pm p).ops → N.inp w p y = f w p y)
    {σ σ' : Nat → S} (h : OneStep N σ σ') : OneStep { N with inp := f } σ σ' := by
  obtain ⟨w, h1, h2⟩ := h
  have e : spiked N w σ = spiked { N with inp := f } w σ := by
    funext p
    unfold spiked
    by_cases hp : p < N.n
    · rw [if_pos hp, if_pos hp]
      congr 1
      exact after_congr _ _ _ _ _ (fun y hy => hf w p y hp hy)
    · rw [if_neg hp, if_neg hp]
  refine ⟨w, ?_, fun p => ?_⟩
  · intro p y l r hp hl
    rw [h1 p y l r hp hl]
    congr 1
    refine after_congr _ _ _ _ _ (fun z hz => hf w p z hp ?_)
    rw [show (N.pm p).ops = l ++ .send y :: r from hl]
    simp [hz]
  · rw [h2 p, e]

omit [Add V] [Zero V] in
theorem steps_congr {N : Network S V W} {f : (Port → V) → Nat → String → V} (hf : ∀ w p y, p < N.n → POp.recv y ∈ (N.pm p).ops → N.inp w p y = f w p y) :
    ∀ (k : Nat) {σ σ' : Nat → S}, Steps N k σ σ' → Steps { N with inp := f } k σ σ'
  | 0, _, _, h => h
  | k + 1, _, _, ⟨τ, h1, h2⟩ => ⟨τ, oneStep_congr hf h1, steps_congr hf k h2⟩

omit [Add V] [Zero V] in
theorem shows_congr {N : Network S V W} {f : (Port → V) → Nat → String → V} (hf : ∀ w p y, p < N.n → POp.recv y ∈ (N.pm p).ops → N.inp w p y = f w p y)
    (prog : List (Call W)) : ∀ (g : Bool) (σ : Nat → S) (log : List (Res W)), Shows N g σ prog log → Shows { N with inp := f } g σ prog log := by
  induction prog with
  | nil => intro g σ log h; cases h; exact .stop σ
  | cons c cs ih =>
    intro g σ log h
    cases h with
    | run h1 h2 => exact .run (steps_congr hf _ h1) (ih _ _ _ h2)
    | get h1 => exact .get (N := { N with inp := f }) (ih _ _ _ h1)
    | set h1 => exact .set (N := { N with inp := f }) (ih _ _ _ h1)
    | getEarly h1 => exact .getEarly (ih _ _ _ h1)
    | setEarly h1 => exact .setEarly (ih _ _ _ h1)

end

/-! ## From `connect` calls to results -/

open Verif.PortGraph (G Reaches dstPorts run Kind)

/-- The port of a process model that belongs to port `i` of a leaf process. -/
def toPort (g : G) (own : Nat → Nat) (name : Nat → String) (i : Nat) : Port :=
  ⟨own i, name i, match (g.port i).kind with | .out => .out | .inp => .inp | .ref => .ref | _ => .var⟩

/-- The keys of the channel map (C31): `procs` are the leaf processes in the order of the process groups, `outs p` the members of `p.out_ports` (channel_map.py:68-113). -/
def mapKeys (g : G) (lim : Nat) (procs : List Nat) (outs : Nat → List Nat) (own : Nat → Nat) : List (Nat × Nat) :=
  (Compiler.fromGroups () (Compiler.portPairs procs outs (fun s => (dstPorts g false lim s).getD []) own)).map Prod.fst

/-- The connections given to the runtime. -/
def connections (g : G) (lim : Nat) (procs : List Nat) (outs : Nat → List Nat) (own : Nat → Nat) (name : Nat → String) : List (Port × Port) :=
  (mapKeys g lim procs outs own).map fun c => (toPort g own name c.1, toPort g own name c.2)

namespace Spec

/-- A network of In- and OutPorts as a user writes it: `own i` is the process of port `i`, `name i` its name; processes below `n` are leaf processes with a process model, the others are
hierarchical. Ports of a process have different names, leaf processes are connected through their own ports only, process models use their ports at most once per time step and use those that are
connected. -/
structure Script {S V W : Type} (g : G) (n : Nat) (own : Nat → Nat) (name : Nat → String) (outs : Nat → List Nat) (pm : Nat → PM S V W) : Prop where
  io : ∀ i, i < g.next → (g.port i).kind = .out ∨ (g.port i).kind = .inp
  names : ∀ i j, i < g.next → j < g.next → own i = own j → name i = name j → i = j
  members : ∀ p, p < n → ∀ i, i ∈ outs p ↔ i < g.next ∧ own i = p ∧ (g.port i).kind = .out
  leafOut : ∀ i, i < g.next → own i < n → (g.port i).kind = .out → (g.port i).ins = []
  leafIn : ∀ i, i < g.next → own i < n → (g.port i).kind = .inp → (g.port i).outs = []
  once : ∀ p, (pm p).ops.Nodup
  recvs : ∀ p x, POp.recv x ∈ (pm p).ops → ∃ i, i < g.next ∧ own i = p ∧ name i = x ∧ (g.port i).kind = .inp
  sends : ∀ p y, POp.send y ∈ (pm p).ops → ∃ i, i < g.next ∧ own i = p ∧ name i = y ∧ (g.port i).kind = .out
  usesIn : ∀ i, i < g.next → own i < n → (g.port i).kind = .inp → (g.port i).ins ≠ [] → POp.recv (name i) ∈ (pm (own i)).ops
  usesOut : ∀ i, i < g.next → own i < n → (g.port i).kind = .out → (g.port i).outs ≠ [] → POp.send (name i) ∈ (pm (own i)).ops

/-- OutPort `o` of a leaf process is connected, directly or through ports of hierarchical processes, to InPort `x` of process `p`. -/
def Linked (g : G) (n : Nat) (own : Nat → Nat) (name : Nat → String) (o p : Nat) (x : String) : Prop :=
  own o < n ∧ (g.port o).kind = .out ∧ ∃ i, own i = p ∧ name i = x ∧ (g.port i).kind = .inp ∧ Reaches g o i

open Classical in
/-- What InPort `x` of process `p` receives: the sum over the OutPorts linked to it, each counted once. -/
noncomputable def linkedSum {V : Type} [AddCommMonoid V] (g : G) (n : Nat) (own : Nat → Nat) (name : Nat → String) (w : Port → V) (p : Nat) (x : String) : V :=
  (((List.range g.next).filter fun o => Linked g n own name o p x).map fun o => w ⟨own o, name o, .out⟩).sum

/-- There is no set of OutPorts such that before each of them is sent to, something has to be received that comes from another one. -/
def NoCircleOfPorts {S V W : Type} (g : G) (n : Nat) (own : Nat → Nat) (name : Nat → String) (pm : Nat → PM S V W) : Prop :=
  ¬ ∃ K : Nat → Prop, (∃ o, K o) ∧ ∀ o, K o → o < g.next ∧ own o < n ∧ ∃ o' x, K o' ∧ Linked g n own name o' (own o) x ∧ Before (pm (own o)) x (name o)

end Spec

section
variable {S V W : Type} {g : G} {lim n : Nat} {own : Nat → Nat} {name : Nat → String} {outs : Nat → List Nat} {pm : Nat → PM S V W} {procs : List Nat}

theorem reaches_ends (hi : PortGraph.Inv g) {s d : Nat} (h : Reaches g s d) : s < g.next ∧ d < g.next ∧ (g.port s).outs ≠ [] ∧ (g.port d).ins ≠ [] := by
  induction h with
  | direct h => exact ⟨(hi.outLt _ _ h).1, (hi.outLt _ _ h).2, List.ne_nil_of_mem h, List.ne_nil_of_mem ((hi.sym _ _).1 h)⟩
  | step h _ ih => exact ⟨(hi.outLt _ _ h).1, ih.2.1, List.ne_nil_of_mem h, ih.2.2.2⟩

/-- The channel map has exactly the pairs of linked ports. -/
theorem mem_mapKeys (hi : PortGraph.Inv g) (hs : Script g n own name outs pm) (hprocs : ∀ p, p ∈ procs ↔ p < n)
    (hret : ∀ p, p < n → ∀ s ∈ outs p, ∃ l, dstPorts g false lim s = some l) (s d : Nat) :
    (s, d) ∈ mapKeys g lim procs outs own ↔ own s < n ∧ (g.port s).kind = .out ∧ own d < n ∧ (g.port d).kind = .inp ∧ Reaches g s d := by
  unfold mapKeys
  rw [(Compiler.C31_channel_map_exact () procs outs _ own).2 s d]
  constructor
  · rintro ⟨p, hp, h1, h2, h3⟩
    obtain ⟨h4, h5, h6⟩ := (hs.members p ((hprocs p).1 hp) s).1 h1
    obtain ⟨l, hl⟩ := hret p ((hprocs p).1 hp) s h1
    rw [hl] at h2
    obtain ⟨_, h8⟩ := (PortGraph.C23_dst_ports g lim s l hl d).1 h2
    obtain ⟨_, hd, _, hins⟩ := reaches_ends hi h8
    have hdn := (hprocs _).1 h3
    refine ⟨by rw [h5]; exact (hprocs p).1 hp, h6, hdn, ?_, h8⟩
    rcases hs.io d hd with hk | hk
    · exact absurd (hs.leafOut d hd hdn hk) hins
    · exact hk
  · rintro ⟨h1, h2, h3, h4, h5⟩
    obtain ⟨hsn, hd, _, hins⟩ := reaches_ends hi h5
    have hm := (hs.members (own s) h1 s).2 ⟨hsn, rfl, h2⟩
    refine ⟨own s, (hprocs _).2 h1, hm, ?_, (hprocs _).2 h3⟩
    obtain ⟨l, hl⟩ := hret (own s) h1 s hm
    rw [hl]
    exact (PortGraph.C23_dst_ports g lim s l hl d).2 ⟨hs.leafIn d hd h3 h4, h5⟩

theorem mapKeys_nodup : (mapKeys g lim procs outs own).Nodup :=
  (Compiler.C31_channel_map_exact () procs outs _ own).1

theorem toPort_out {i : Nat} (h : (g.port i).kind = .out) : toPort g own name i = ⟨own i, name i, .out⟩ := by unfold toPort; rw [h]

theorem toPort_inp {i : Nat} (h : (g.port i).kind = .inp) : toPort g own name i = ⟨own i, name i, .inp⟩ := by unfold toPort; rw [h]

theorem mem_connections (hi : PortGraph.Inv g) (hs : Script g n own name outs pm) (hprocs : ∀ p, p ∈ procs ↔ p < n)
    (hret : ∀ p, p < n → ∀ s ∈ outs p, ∃ l, dstPorts g false lim s = some l) (o q : Port) :
    (o, q) ∈ connections g lim procs outs own name ↔ ∃ s d, own s < n ∧ (g.port s).kind = .out ∧ own d < n ∧ (g.port d).kind = .inp ∧ Reaches g s d ∧
      o = ⟨own s, name s, .out⟩ ∧ q = ⟨own d, name d, .inp⟩ := by
  unfold connections
  rw [List.mem_map]
  constructor
  · rintro ⟨⟨s, d⟩, h1, h2⟩
    obtain ⟨a1, a2, a3, a4, a5⟩ := (mem_mapKeys hi hs hprocs hret s d).1 h1
    simp only [Prod.mk.injEq] at h2
    exact ⟨s, d, a1, a2, a3, a4, a5, by rw [← h2.1, toPort_out a2], by rw [← h2.2, toPort_inp a4]⟩
  · rintro ⟨s, d, a1, a2, a3, a4, a5, rfl, rfl⟩
    exact ⟨(s, d), (mem_mapKeys hi hs hprocs hret s d).2 ⟨a1, a2, a3, a4, a5⟩, by rw [toPort_out a2, toPort_inp a4]⟩

/-- Kinds of the ports of process models. -/
def kinds (pm : Nat → PM S V W) (p : Nat) (x : String) : PKind := if POp.recv x ∈ (pm p).ops then .inp else .out

theorem connections_regular (hi : PortGraph.Inv g) (hs : Script g n own name outs pm) (hprocs : ∀ p, p ∈ procs ↔ p < n)
    (hret : ∀ p, p < n → ∀ s ∈ outs p, ∃ l, dstPorts g false lim s = some l) :
    Regular n pm (connections g lim procs outs own name) (kinds pm) where
  once := hs.once
  recvs p x h := by unfold kinds; rw [if_pos h]
  sends p y h := by
    unfold kinds
    rw [if_neg]
    intro h'
    obtain ⟨i, h1, h2, h3, h4⟩ := hs.sends p y h
    obtain ⟨j, g1, g2, g3, g4⟩ := hs.recvs p y h'
    have := hs.names i j h1 g1 (by rw [h2, g2]) (by rw [h3, g3])
    subst this
    rw [h4] at g4
    cases g4
  nodup := by
    unfold connections
    refine List.Nodup.map_on ?_ mapKeys_nodup
    rintro ⟨s, d⟩ h1 ⟨s', d'⟩ h2 he
    obtain ⟨_, a2, _, a4, a5⟩ := (mem_mapKeys hi hs hprocs hret s d).1 h1
    obtain ⟨_, b2, _, b4, b5⟩ := (mem_mapKeys hi hs hprocs hret s' d').1 h2
    rw [toPort_out a2, toPort_out b2, toPort_inp a4, toPort_inp b4] at he
    simp only [Prod.mk.injEq, Port.mk.injEq, and_true] at he
    have ha := reaches_ends hi a5
    have hb := reaches_ends hi b5
    rw [hs.names s s' ha.1 hb.1 he.1.1 he.1.2, hs.names d d' ha.2.1 hb.2.1 he.2.1 he.2.2]
  conn o q h := by
    obtain ⟨s, d, a1, a2, a3, a4, a5, rfl, rfl⟩ := (mem_connections hi hs hprocs hret o q).1 h
    obtain ⟨h1, h2, h3, h4⟩ := reaches_ends hi a5
    exact ⟨rfl, rfl, a1, a3, hs.usesOut s h1 a1 a2 h3, hs.usesIn d h2 a3 a4 h4⟩

theorem connections_noCircle (hi : PortGraph.Inv g) (hs : Script g n own name outs pm) (hprocs : ∀ p, p ∈ procs ↔ p < n)
    (hret : ∀ p, p < n → ∀ s ∈ outs p, ∃ l, dstPorts g false lim s = some l) (hc : NoCircleOfPorts g n own name pm) :
    NoCircle pm (connections g lim procs outs own name) := by
  rintro ⟨K, ⟨⟨o0, q0⟩, h0⟩, hK⟩
  apply hc
  have key : ∀ o q, K (o, q) → ∃ s d, own s < n ∧ (g.port s).kind = .out ∧ own d < n ∧ (g.port d).kind = .inp ∧ Reaches g s d ∧
      o = ⟨own s, name s, .out⟩ ∧ q = ⟨own d, name d, .inp⟩ := fun o q h => (mem_connections hi hs hprocs hret o q).1 (hK _ h).1
  refine ⟨fun s => s < g.next ∧ own s < n ∧ (g.port s).kind = .out ∧ ∃ q, K (⟨own s, name s, .out⟩, q), ?_, ?_⟩
  · obtain ⟨s, d, a1, a2, _, _, a5, rfl, rfl⟩ := key o0 q0 h0
    exact ⟨s, (reaches_ends hi a5).1, a1, a2, _, h0⟩
  · rintro s ⟨hsn, h1, h2, q, hq⟩
    refine ⟨hsn, h1, ?_⟩
    obtain ⟨_, ⟨o', q'⟩, hk', hp, hbef⟩ := hK _ hq
    obtain ⟨s', d', a1, a2, a3, a4, a5, rfl, rfl⟩ := key o' q' hk'
    exact ⟨s', name d', ⟨(reaches_ends hi a5).1, a1, a2, _, hk'⟩, ⟨a1, a2, d', hp, rfl, a4, a5⟩, hbef⟩

theorem transform_none (o q : Port) (v : V) : Wiring.Spec.transform (fun _ => []) o q v = v := rfl

theorem connections_inputs [AddCommMonoid V] (hi : PortGraph.Inv g) (hs : Script g n own name outs pm) (hprocs : ∀ p, p ∈ procs ↔ p < n)
    (hret : ∀ p, p < n → ∀ s ∈ outs p, ∃ l, dstPorts g false lim s = some l) (w : Port → V) {p : Nat} {x : String} (hpn : p < n) :
    inputs (connections g lim procs outs own name) (Wiring.Spec.transform (fun _ => [])) w p x = linkedSum g n own name w p x := by
  classical
  unfold inputs arrives
  simp only [transform_none]
  rw [← List.foldl_map (f := w) (g := (· + ·)), ← List.sum_eq_foldl]
  unfold linkedSum
  have hreg := connections_regular hi hs hprocs hret
  have hperm : (sources (connections g lim procs outs own name) ⟨p, x, .inp⟩).Perm
      (((List.range g.next).filter fun o => Linked g n own name o p x).map fun o => (⟨own o, name o, .out⟩ : Port)) := by
    rw [List.perm_ext_iff_of_nodup]
    · intro o
      unfold sources
      simp only [List.mem_map, List.mem_filter, decide_eq_true_eq, List.mem_range]
      constructor
      · rintro ⟨⟨o', q⟩, ⟨h1, h2⟩, rfl⟩
        obtain ⟨s, d, a1, a2, a3, a4, a5, rfl, rfl⟩ := (mem_connections hi hs hprocs hret o' q).1 h1
        simp only [Port.mk.injEq, and_true] at h2
        exact ⟨s, ⟨(reaches_ends hi a5).1, a1, a2, d, h2.1, h2.2, a4, a5⟩, rfl⟩
      · rintro ⟨s, ⟨_, a1, a2, d, h1, h2, a4, a5⟩, rfl⟩
        refine ⟨(⟨own s, name s, .out⟩, ⟨own d, name d, .inp⟩), ⟨(mem_connections hi hs hprocs hret _ _).2 ⟨s, d, a1, a2, by rw [h1]; exact hpn, a4, a5, rfl, rfl⟩, ?_⟩, rfl⟩
        rw [h1, h2]
    · unfold sources
      refine List.Nodup.map_on ?_ (hreg.nodup.filter _)
      rintro ⟨o, q⟩ h1 ⟨o', q'⟩ h2 he
      simp only [List.mem_filter, decide_eq_true_eq] at h1 h2
      simp only at he
      rw [he, h1.2, h2.2]
    · refine List.Nodup.map_on ?_ (List.nodup_range.filter _)
      intro s h1 s' h2 he
      simp only [List.mem_filter, List.mem_range] at h1 h2
      simp only [Port.mk.injEq, and_true] at he
      exact hs.names s s' h1.1 h2.1 he.1 he.2
  rw [(hperm.map w).sum_eq, List.map_map]
  rfl

/-- The network that a user has written. -/
noncomputable def written [AddCommMonoid V] (x : Platform S V W) (g : G) (own : Nat → Nat) (name : Nat → String) : Network S V W where
  n := x.n
  pm := x.pm
  inp := linkedSum g x.n own name
  group p := x.pms (x.svc p)

/-- **C114.** From `connect` calls to results: ports are created and connected by any program of calls (including calls that raise), the compiler finds the destinations of every OutPort of the leaf
processes and makes the channel map, the runtime builds the channels, and the network is executed under any schedule with any program of calls. The user never sees anything but (a prefix of) the results
defined by the equations in which every InPort receives the sum of the values of all OutPorts connected to it, directly or through hierarchical processes; an execution that cannot go on has shown all of
them and has terminated; every fair schedule gets there. -/
theorem C114_from_connect_calls [AddCommMonoid V] (x : Platform S V W) (lim : Nat) (calls : List PortGraph.Op) (hgood : ∀ op ∈ calls, op.Good)
    (own : Nat → Nat) (name : Nat → String) (outs : Nat → List Nat) (procs : List Nat) (hprocs : ∀ p, p ∈ procs ↔ p < x.n)
    (hs : Script (run lim G.empty calls) x.n own name outs x.pm)
    (hret : ∀ p, p < x.n → ∀ s ∈ outs p, ∃ l, dstPorts (run lim G.empty calls) false lim s = some l)
    (hc : NoCircleOfPorts (run lim G.empty calls) x.n own name x.pm) (hh : Hosted x)
    (has : Nat → String → Bool) (b : Builders) (hb : buildChannels has (connections (run lim G.empty calls) lim procs outs own name) = some b)
    (prog : List (Call W)) (hp : Proper x.n x.pm prog) :
    ∃ log, Shows (written x (run lim G.empty calls) own name) false (fun p => (x.pm p).init) prog log ∧
      (∀ l, seen (exec (net (sys x b fun _ => [])) (initial (sys x b fun _ => []) prog) l) <+: log) ∧
      (∀ l, Stuck (net (sys x b fun _ => [])) (exec (net (sys x b fun _ => [])) (initial (sys x b fun _ => []) prog) l) →
        seen (exec (net (sys x b fun _ => [])) (initial (sys x b fun _ => []) prog) l) = log ∧
          AllHalted (net (sys x b fun _ => [])) (exec (net (sys x b fun _ => [])) (initial (sys x b fun _ => []) prog) l)) ∧
      (∃ N, ∀ rounds : List (List Nat), (∀ rd ∈ rounds, ∀ a, a ≤ 2 * (x.n + x.k) → a ∈ rd) → N ≤ rounds.length →
        seen (exec (net (sys x b fun _ => [])) (initial (sys x b fun _ => []) prog) rounds.flatten) = log ∧
          AllHalted (net (sys x b fun _ => [])) (exec (net (sys x b fun _ => [])) (initial (sys x b fun _ => []) prog) rounds.flatten)) := by
  have hi := PortGraph.inv_run PortGraph.inv_empty lim calls hgood
  obtain ⟨log, h1, h2⟩ := C114_results x _ (kinds x.pm) (fun _ => []) has b hb (connections_regular hi hs hprocs hret) (connections_noCircle hi hs hprocs hret hc) hh prog hp
  refine ⟨log, ?_, h2⟩
  exact shows_congr (N := network x _ (fun _ => [])) (f := linkedSum (run lim G.empty calls) x.n own name)
    (fun w p y hpn _ => connections_inputs hi hs hprocs hret w hpn) prog _ _ _ h1

/-- **C114.** The results of a network that a user has written are unique. -/
theorem C114_from_connect_calls_unique [AddCommMonoid V] (x : Platform S V W) (lim : Nat) (calls : List PortGraph.Op) (hgood : ∀ op ∈ calls, op.Good)
    (own : Nat → Nat) (name : Nat → String) (outs : Nat → List Nat)
    (hs : Script (run lim G.empty calls) x.n own name outs x.pm)
    (hret : ∀ p, p < x.n → ∀ s ∈ outs p, ∃ l, dstPorts (run lim G.empty calls) false lim s = some l)
    (hc : NoCircleOfPorts (run lim G.empty calls) x.n own name x.pm) (hh : Hosted x) (prog : List (Call W)) (log log' : List (Res W))
    (h : Shows (written x (run lim G.empty calls) own name) false (fun p => (x.pm p).init) prog log)
    (h' : Shows (written x (run lim G.empty calls) own name) false (fun p => (x.pm p).init) prog log') : log = log' := by
  have hi := PortGraph.inv_run PortGraph.inv_empty lim calls hgood
  have hprocs : ∀ p, p ∈ List.range x.n ↔ p < x.n := fun p => List.mem_range
  have key : ∀ w p y, p < (written x (run lim G.empty calls) own name).n → POp.recv y ∈ ((written x (run lim G.empty calls) own name).pm p).ops →
      (written x (run lim G.empty calls) own name).inp w p y =
        inputs (connections (run lim G.empty calls) lim (List.range x.n) outs own name) (Wiring.Spec.transform (fun _ => [])) w p y :=
    fun w p y hpn _ => (connections_inputs hi hs hprocs hret w hpn).symm
  exact C114_unique x _ (kinds x.pm) (fun _ => []) (connections_regular hi hs hprocs hret) (connections_noCircle hi hs hprocs hret hc) hh prog log log'
    (shows_congr key prog _ _ _ h) (shows_congr key prog _ _ _ h')

end
end Verif.Wired
