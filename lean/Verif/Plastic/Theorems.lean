import Verif.Plastic.States
import Verif.Snn.Theorems

/-!
# C116: networks with spike-timing dependent plasticity
-/

namespace Verif.Plastic

open Verif.Wired (PM POp Platform)
open Verif.Wired.Spec (linkedSum Linked Script Proper)
open Verif.Wiring (Port Builders)
open Verif.EndToEnd (Call Res)
open Verif.PortGraph (G run)
open Verif.Snn (linkedSum_congr accumFlt)
open Verif.Snn.Spec (Feeds Gives recorded)
open Verif.Neurons (FLSt flStep)
open Verif.Learning (FArr FSt FInp fRun)
open Verif.Learning.Spec (Later trace pairStdp OnePerEpoch epochOf)
open Spec

section states
variable {net : PNet} {np : Nat} {size : Nat → Nat} {len buf : Nat} {data : Nat → Nat → Nat → ℚ} {g : G} {own : Nat → Nat} {name : Nat → String} {outs : Nat → List Nat}

/-- The external input in step `t` (from 1 on): the columns of the sources, repeated. -/
def extOf (len : Nat) (data : Nat → Nat → Nat → ℚ) : Nat → Nat → Nat → ℚ := fun t q i => data q ((t - 1) % len) i

/-- State of the simulation after `t` steps. -/
noncomputable def stateAt (net : PNet) (np : Nat) (size : Nat → Nat) (len buf : Nat) (data : Nat → Nat → Nat → ℚ) (g : G) (own : Nat → Nat) (name : Nat → String) (t : Nat) : Nat → Vars :=
  (next g (np + net.conns.length + np + np) own name (procs net np size len buf data))^[t] fun p => (procs net np size len buf data p).init

def spikesOf : Vars → Nat → Bool
  | .pop _ s => s
  | _ => fun _ => false

/-- Spikes of the simulation. -/
noncomputable def spk (net : PNet) (np : Nat) (size : Nat → Nat) (len buf : Nat) (data : Nat → Nat → Nat → ℚ) (g : G) (own : Nat → Nat) (name : Nat → String) (q i t : Nat) : Bool :=
  spikesOf (stateAt net np size len buf data g own name t q) i

theorem spk_zero (q i : Nat) : spk net np size len buf data g own name q i 0 = false := by
  unfold spk stateAt
  show spikesOf ((procs net np size len buf data q).init) i = false
  rcases procs_cases (net := net) (np := np) (size := size) (len := len) (buf := buf) (data := data) q with ⟨_, e⟩ | ⟨_, ⟨k, e⟩ | ⟨r, d, e⟩ | ⟨r, e⟩ | e⟩ <;> rw [e]
  · rfl
  · unfold connOf; cases k.rule <;> rfl
  · rfl
  · rfl
  · rfl

variable (hi : PortGraph.Inv g) (ha : Arrangement g own name np net.conns)
  (hs : Script g (np + net.conns.length + np + np) own name outs fun p => (procs net np size len buf data p).pm)

include hi ha hs in
/-- What arrives at a process that is fed by population `q` only: its spikes. -/
theorem sum_pop {p q : Nat} {x : String} (hq : q < np) (hx : ∀ r, Feeds g (np + net.conns.length + np + np) own name r p x ↔ r = q) (σ : Nat → Vars) :
    linkedSum g (np + net.conns.length + np + np) own name (sent g (np + net.conns.length + np + np) own name (procs net np size len buf data) σ) p x =
      (lifProc (size q) (net.lif q)).out (next g (np + net.conns.length + np + np) own name (procs net np size len buf data) σ q) "s_out" := by
  have e := linkedSum_feeds hi hs procs_outs (fun r => sent g (np + net.conns.length + np + np) own name (procs net np size len buf data) σ ⟨r, "", .out⟩) (p := p) (x := x)
    (l := [q]) (by simp) (by intro r; rw [hx]; simp)
  simp only [List.map_cons, List.map_nil, List.sum_cons, List.sum_nil, add_zero] at e
  rw [linkedSum_congr (w' := fun o => sent g (np + net.conns.length + np + np) own name (procs net np size len buf data) σ ⟨o.proc, "", .out⟩), e]
  · rw [sent_eq (fed_procs hi ha hs) σ _ (show q < np + net.conns.length + np + np by omega)]
    dsimp only
    rw [procs_pop hq]
    rw [if_pos (show (lifProc (size q) (net.lif q)).late = true from rfl)]
    unfold next
    rw [if_pos (by omega), procs_pop hq]
    rfl
  · intro o ho hl
    rw [sent_eq (fed_procs hi ha hs) σ _ hl.1, sent_eq (fed_procs hi ha hs) σ _ hl.1]
    dsimp only
    rw [procs_out _ _ (name o) "", procs_out _ _ (name o) ""]

include hi ha hs in
/-- What arrives at a population. -/
theorem sum_in {q : Nat} (hq : q < np) (σ : Nat → Vars) (src : Nat → ℚ) (bufs : Nat → Nat → ℚ)
    (h1 : (procs net np size len buf data (np + net.conns.length + q)).out ((procs net np size len buf data (np + net.conns.length + q)).begin_ (σ (np + net.conns.length + q))) "" = src)
    (h2 : ∀ c, c < net.conns.length → (procs net np size len buf data (np + c)).out ((procs net np size len buf data (np + c)).begin_ (σ (np + c))) "" = bufs c) :
    linkedSum g (np + net.conns.length + np + np) own name (sent g (np + net.conns.length + np + np) own name (procs net np size len buf data) σ) q "a_in" =
      src + (((List.range net.conns.length).filter fun c => (net.conns[c]?.map PConn.dst) = some q).map bufs).sum := by
  have e := linkedSum_feeds hi hs procs_outs (fun r => sent g (np + net.conns.length + np + np) own name (procs net np size len buf data) σ ⟨r, "", .out⟩) (p := q) (x := "a_in")
    (l := (np + net.conns.length + q) :: ((List.range net.conns.length).filter fun c => (net.conns[c]?.map PConn.dst) = some q).map fun c => np + c) ?_ ?_
  · rw [linkedSum_congr (w' := fun o => sent g (np + net.conns.length + np + np) own name (procs net np size len buf data) σ ⟨o.proc, "", .out⟩), e]
    · rw [List.map_cons, List.sum_cons, List.map_map]
      congr 1
      · rw [sent_eq (fed_procs hi ha hs) σ _ (show np + net.conns.length + q < np + net.conns.length + np + np by omega)]
        dsimp only
        rw [if_neg (by rw [procs_src hq]; simp [sourceProc]), h1]
      · congr 1
        apply List.map_congr_left
        intro c hc
        simp only [List.mem_filter, List.mem_range] at hc
        dsimp only [Function.comp]
        rw [sent_eq (fed_procs hi ha hs) σ _ (show np + c < np + net.conns.length + np + np by omega)]
        dsimp only
        rw [if_neg (by rw [procs_conn hc.1, connOf_late]; decide), h2 c hc.1]
    · intro o ho hl
      rw [sent_eq (fed_procs hi ha hs) σ _ hl.1, sent_eq (fed_procs hi ha hs) σ _ hl.1]
      dsimp only
      rw [procs_out _ _ (name o) "", procs_out _ _ (name o) ""]
  · rw [List.nodup_cons]
    refine ⟨?_, List.Nodup.map_on (fun a _ b _ h => by omega) (List.nodup_range.filter _)⟩
    simp only [List.mem_map, List.mem_filter, List.mem_range, not_exists, not_and]
    intro c hc h
    omega
  · intro p
    rw [ha.pops q hq, List.mem_cons]
    apply or_congr Iff.rfl
    simp only [List.mem_map, List.mem_filter, List.mem_range, decide_eq_true_eq]
    constructor
    · rintro ⟨c, ⟨hc, h⟩, rfl⟩
      rw [List.getElem?_eq_getElem hc] at h
      exact ⟨c, hc, by simpa using h, rfl⟩
    · rintro ⟨c, hc, h, rfl⟩
      exact ⟨c, ⟨hc, by rw [List.getElem?_eq_getElem hc]; simpa using h⟩, rfl⟩

/-- A sum over the connections to a population. -/
theorem sum_conns {R : Type} [AddCommMonoid R] (l : List PConn) (q i : Nat) (F : Nat → Nat → R) (G' : PConn → Nat → R) (h : ∀ c (hc : c < l.length), F c i = G' l[c] i) :
    (((List.range l.length).filter fun c => (l[c]?.map PConn.dst) = some q).map F).sum i = (l.map fun k => if k.dst = q then G' k i else 0).sum := by
  rw [Pi.list_sum_apply, List.map_map]
  induction l using List.reverseRecOn with
  | nil => rfl
  | append_singleton l k ih =>
    rw [List.length_append, List.length_singleton, List.range_succ, List.filter_append, List.map_append, List.sum_append, List.map_append, List.sum_append]
    have e1 : ((List.range l.length).filter fun c => ((l ++ [k])[c]?.map PConn.dst) = some q) = (List.range l.length).filter fun c => (l[c]?.map PConn.dst) = some q := by
      apply List.filter_congr
      intro c hc
      rw [List.mem_range] at hc
      rw [List.getElem?_append_left hc]
    rw [e1, ih (fun c hc => by rw [h c (by simp; omega), List.getElem_append_left hc])]
    congr 1
    have hk := h l.length (by simp)
    rw [List.getElem_append_right (le_refl _)] at hk
    simp only [Nat.sub_self, List.getElem_cons_zero] at hk
    rw [List.filter_cons, List.getElem?_append_right (le_refl _)]
    simp only [Nat.sub_self, List.getElem?_cons_zero, Option.map_some, Option.some.injEq, List.filter_nil, decide_eq_true_eq, List.map_cons, List.map_nil, List.sum_cons, List.sum_nil, add_zero]
    by_cases hd : k.dst = q
    · rw [if_pos hd, if_pos hd]
      simp [hk]
    · rw [if_neg hd, if_neg hd]
      rfl

/-- The states of the simulation after `t` steps. -/
structure At (net : PNet) (np : Nat) (len buf : Nat) (data : Nat → Nat → Nat → ℚ) (sp : Nat → Nat → Nat → Bool) (t : Nat) (σ : Nat → Vars) : Prop where
  pop : ∀ q, q < np → σ q = .pop (fun i => membrane net (extOf len data) sp q i t) fun i => sp q i t
  conn : ∀ c (hc : c < net.conns.length), ConnState sp net.conns[c] t (σ (np + c))
  src : ∀ q, q < np → σ (np + net.conns.length + q) = .ring t (data q)
  snk : ∀ q, q < np → σ (np + net.conns.length + np + q) = .ring t (IO.sinkAt (fun _ => 0) buf (fun τ i => if sp q i τ then 1 else 0) t)

include hi ha hs in
/-- One step. -/
theorem step_at (hok : ∀ k ∈ net.conns, ∀ r, k.rule = some r → Rule.Ok r) {sp : Nat → Nat → Nat → Bool} {t : Nat} {σ : Nat → Vars} (h : At net np len buf data sp t σ)
    (hsp : ∀ q, q < np → ∀ i, sp q i (t + 1) = spikesOf (next g (np + net.conns.length + np + np) own name (procs net np size len buf data) σ q) i) :
    At net np len buf data sp (t + 1) (next g (np + net.conns.length + np + np) own name (procs net np size len buf data) σ) ∧
    ∀ q, q < np → ∀ i, sp q i (t + 1) = (flStep (net.lif q i) (membrane net (extOf len data) sp q i t) (input net (extOf len data) sp (t + 1) q i)).2 := by
  have hpop : ∀ q, q < np → next g (np + net.conns.length + np + np) own name (procs net np size len buf data) σ q =
      .pop (fun i => membrane net (extOf len data) sp q i (t + 1)) fun i => (flStep (net.lif q i) (membrane net (extOf len data) sp q i t) (input net (extOf len data) sp (t + 1) q i)).2 := by
    intro q hq
    have hin := sum_in hi ha hs hq σ (fun i => extOf len data (t + 1) q i) (fun c => match net.conns[c]? with | some k => buffer sp k t | none => fun _ => 0)
      (by rw [procs_src hq, h.src q hq]; rfl)
      (by intro c hc; rw [procs_conn hc, conn_out (h.conn c hc), List.getElem?_eq_getElem hc])
    unfold next
    rw [if_pos (by omega)]
    unfold informed
    rw [procs_pop hq, h.pop q hq]
    show Vars.pop (fun i => (flStep (net.lif q i) (membrane net (extOf len data) sp q i t) ((linkedSum _ _ _ _ _ q "a_in" : Nat → ℚ) i)).1)
      (fun i => (flStep (net.lif q i) (membrane net (extOf len data) sp q i t) ((linkedSum _ _ _ _ _ q "a_in" : Nat → ℚ) i)).2) = _
    rw [hin]
    have hinput : ∀ i, ((fun i => extOf len data (t + 1) q i) + (((List.range net.conns.length).filter fun c => (net.conns[c]?.map PConn.dst) = some q).map
        (fun c => match net.conns[c]? with | some k => buffer sp k t | none => fun _ => 0)).sum : Nat → ℚ) i = input net (extOf len data) sp (t + 1) q i := by
      intro i
      rw [Pi.add_apply]
      unfold input
      congr 1
      rw [sum_conns net.conns q i _ (fun k => buffer sp k t) (by intro c hc; simp only [List.getElem?_eq_getElem hc])]
      rfl
    simp only [hinput]
    rfl
  have hspk : ∀ q, q < np → ∀ i, sp q i (t + 1) = (flStep (net.lif q i) (membrane net (extOf len data) sp q i t) (input net (extOf len data) sp (t + 1) q i)).2 := by
    intro q hq i
    rw [hsp q hq i, hpop q hq]
    rfl
  have hpop' : ∀ q, q < np → next g (np + net.conns.length + np + np) own name (procs net np size len buf data) σ q =
      .pop (fun i => membrane net (extOf len data) sp q i (t + 1)) fun i => sp q i (t + 1) := by
    intro q hq
    rw [hpop q hq]
    congr 1
    funext i
    exact (hspk q hq i).symm
  refine ⟨⟨hpop', ?_, ?_, ?_⟩, hspk⟩
  · intro c hc
    obtain ⟨l1, l2⟩ := ha.links c hc
    have e := conn_next (size := size) (h.conn c hc) (hok _ (List.getElem_mem hc))
      (linkedSum g (np + net.conns.length + np + np) own name (sent g (np + net.conns.length + np + np) own name (procs net np size len buf data) σ) (np + c))
      (by rw [sum_pop hi ha hs l1 l2, hpop' _ l1]; rfl)
      (by intro hr; obtain ⟨b1, b2⟩ := ha.baps c hc hr; rw [sum_pop hi ha hs b1 b2, hpop' _ b1]; rfl)
    unfold next informed
    rw [if_pos (by omega), procs_conn hc]
    exact e
  · intro q hq
    unfold next informed
    rw [if_pos (by omega), procs_src hq, h.src q hq]
    rfl
  · intro q hq
    have e := sum_pop hi ha hs hq (ha.sinks q hq) σ
    rw [hpop' q hq] at e
    unfold next informed
    rw [if_pos (by omega), procs_snk hq, h.snk q hq]
    show Vars.ring (t + 1) (IO.upd _ ((t + 1 - 1) % buf) (linkedSum _ _ _ _ _ (np + net.conns.length + np + q) "a_in" : Nat → ℚ)) = _
    rw [e]
    rfl

include hi ha hs in
theorem state_at (hok : ∀ k ∈ net.conns, ∀ r, k.rule = some r → Rule.Ok r) (t : Nat) :
    At net np len buf data (spk net np size len buf data g own name) t (stateAt net np size len buf data g own name t) := by
  induction t with
  | zero =>
    refine ⟨?_, ?_, ?_, ?_⟩
    · intro q hq
      have : (fun i => spk net np size len buf data g own name q i 0) = fun _ => false := by funext i; exact spk_zero q i
      rw [this]
      show (procs net np size len buf data q).init = _
      rw [procs_pop hq]; rfl
    · intro c hc
      show ConnState _ _ _ (procs net np size len buf data (np + c)).init
      rw [procs_conn hc]
      exact conn_init _ spk_zero _
    · intro q hq
      show (procs net np size len buf data (np + net.conns.length + q)).init = _
      rw [procs_src hq]; rfl
    · intro q hq
      show (procs net np size len buf data (np + net.conns.length + np + q)).init = _
      rw [procs_snk hq]; rfl
  | succ t ih =>
    have e : stateAt net np size len buf data g own name (t + 1) = next g (np + net.conns.length + np + np) own name (procs net np size len buf data) (stateAt net np size len buf data g own name t) := by
      unfold stateAt; rw [Function.iterate_succ_apply']
    rw [e]
    refine (step_at hi ha hs hok ih ?_).1
    intro q _ i
    rw [← e]
    rfl

include hi ha hs in
theorem spk_solves (hok : ∀ k ∈ net.conns, ∀ r, k.rule = some r → Rule.Ok r) : Solves net np (extOf len data) (spk net np size len buf data g own name) where
  start := spk_zero
  step := by
    intro q hq i t
    have e : stateAt net np size len buf data g own name (t + 1) = next g (np + net.conns.length + np + np) own name (procs net np size len buf data) (stateAt net np size len buf data g own name t) := by
      unfold stateAt; rw [Function.iterate_succ_apply']
    refine (step_at hi ha hs hok (state_at hi ha hs hok t) ?_).2 q hq i
    intro q _ i
    rw [← e]
    rfl

end states
end Verif.Plastic
