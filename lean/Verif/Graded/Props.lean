import Verif.Graded.Model
import Verif.Neurons.Props
import Mathlib.Algebra.BigOperators.Group.List.Basic
import Mathlib.Algebra.Order.BigOperators.Group.Finset

/-!
# C94: networks of graded vectors compute what is written
-/

namespace Verif.Graded

open Verif.Dense (Vec Mat matVec prepared bin)
open Verif.System (Diagram)

/-! ### Specification -/

/-- A threshold on the magnitude. -/
def thr (vth x : Int) : Int := if |x| > vth then x else 0

/-- What arrives at an in-port of process `p` in step `t`: the sum over its channels. `H c t` is the message of channel `c` in step
`t`. In-port 0 or another one. -/
def Wiring.arrives (w : Wiring) (H : Nat → Nat → Vec) (p : Nat) (first : Bool) (t i : Nat) : Int :=
  ∑ c ∈ Finset.range w.edges.length,
    if (w.edge c).2.2.1 = p ∧ ((w.edge c).2.2.2 = 0 ↔ first = true) then H c t i else 0

/-- What process `p` computes in step `t` from what arrives, on an out-port. -/
def Wiring.value (w : Wiring) (H : Nat → Nat → Vec) (p outPort t : Nat) : Vec :=
  match w.node p with
  | .input data => data t
  | .graded vth => fun i => thr vth (w.arrives H p true t i)
  | .relu vth => fun i => if w.arrives H p true t i > vth then w.arrives H p true t i else 0
  | .prod vth exp => fun i => thr vth (w.arrives H p true t i * w.arrives H p false t i / 2 ^ exp)
  | .conn par wt => fun i => if t = 0 then 0 else
      Verif.scaled par.weightExp (matVec par.nIn (prepared par wt)
        (if par.graded then w.arrives H p true (t - 1) else bin (w.arrives H p true (t - 1))) i)
  | .norm vth => fun i => if outPort = 0 then
      thr vth ((if t = 0 then 0 else w.arrives H p true (t - 1) i) * w.arrives H p false t i)
      else w.arrives H p true t i ^ 2
  | .isq => fun i => if i = 0 then invSqrtSpk (w.arrives H p true t 0).toNat else 0
  | .sink => fun _ => 0

/-- The equation of a message. -/
def Wiring.Eqn (w : Wiring) (H : Nat → Nat → Vec) (c t : Nat) : Prop := H c t = w.value H (w.edge c).1 (w.edge c).2.1 t

/-- Channels join processes of the network. -/
def Wiring.Ok (w : Wiring) : Prop := ∀ e ∈ w.edges, e.1 < w.n ∧ e.2.2.1 < w.n

/-- Every channel begins or ends at a connection. -/
def Wiring.Alternates (w : Wiring) : Prop := ∀ e ∈ w.edges, (w.node e.1).isConn = true ∨ (w.node e.2.2.1).isConn = true

/-- `H` is what the network computes in `T` steps: under every schedule the `k`-th message of channel `c` is `H c k`, no schedule
gets stuck before the end, and every schedule with enough turns for everybody completes all steps. -/
def Wiring.Computes (w : Wiring) (T : Nat) (cap : Nat → Nat) (H : Nat → Nat → Vec) : Prop :=
  (∀ schedule c k, c < w.edges.length → k < ((w.diagram T cap).sent schedule c).length →
    ((w.diagram T cap).sent schedule c)[k]? = some (H c k)) ∧
  (∀ schedule, Verif.System.Stuck (w.diagram T cap).prog.net
      (Verif.System.exec (w.diagram T cap).prog.net (w.diagram T cap).prog.init schedule) →
    Verif.System.AllHalted (w.diagram T cap).prog.net
      (Verif.System.exec (w.diagram T cap).prog.net (w.diagram T cap).prog.init schedule)) ∧
  (∀ rounds : List (List Nat), (∀ rd ∈ rounds, ∀ p, p < w.n → p ∈ rd) →
    Verif.System.work (w.diagram T cap).prog ≤ rounds.length →
    ∀ c, c < w.edges.length → ((w.diagram T cap).sent rounds.flatten c).length = T)

/-! ### Proof of the equations -/

theorem edge_mem (w : Wiring) (c : Nat) (h : c < w.edges.length) : w.edge c ∈ w.edges := by
  unfold Wiring.edge
  rw [List.getD_eq_getElem?_getD, List.getElem?_eq_getElem h, Option.getD_some]
  exact List.getElem_mem h

theorem wiring_wf (w : Wiring) (h : w.Ok) (T : Nat) (cap : Nat → Nat) (hc : ∀ c, c < w.edges.length → 1 ≤ cap c) :
    (w.diagram T cap).WF where
  ins := fun p => ⟨List.nodup_range.filter _, fun c => by simp [Wiring.diagram]⟩
  outs := fun p => ⟨List.nodup_range.filter _, fun c => by simp [Wiring.diagram]⟩
  src := fun c hc => (h _ (edge_mem w c hc)).1
  dst := fun c hc => (h _ (edge_mem w c hc)).2
  cap := hc

theorem sum_filter_range (m : Nat) (q : Nat → Prop) [DecidablePred q] (f : Nat → Int) :
    (((List.range m).filter fun c => q c).map f).sum = ∑ c ∈ Finset.range m, if q c then f c else 0 := by
  induction m with
  | zero => rfl
  | succ m ih =>
    rw [List.range_succ, List.filter_append, List.map_append, List.sum_append, ih, Finset.sum_range_succ]
    congr 1
    by_cases h : q m <;> simp [h]

theorem feed_spec (w : Wiring) (T : Nat) (cap : Nat → Nat) (H : Nat → Nat → Vec) (p t : Nat) (cs : List Nat) : ∀ s : NodeSt,
    (w.diagram T cap).feed p H t cs s =
      ⟨s.t, fun i => s.in1 i + (cs.map fun c => if (w.edge c).2.2.2 = 0 then H c t i else 0).sum,
        fun i => s.in2 i + (cs.map fun c => if (w.edge c).2.2.2 = 0 then 0 else H c t i).sum, s.v, s.ns, s.conn⟩ := by
  induction cs with
  | nil => intro s; simp [Diagram.feed]
  | cons c cs ih =>
    intro s
    have : (w.diagram T cap).feed p H t (c :: cs) s =
      (w.diagram T cap).feed p H t cs ((w.node p).absorb s (w.edge c).2.2.2 (H c t)) := rfl
    rw [this, ih]
    unfold Node.absorb
    by_cases hp : (w.edge c).2.2.2 = 0
    · simp only [hp, if_true, List.map_cons, List.sum_cons, zero_add]
      congr 1
      funext i; ring
    · simp only [hp, if_false, List.map_cons, List.sum_cons, zero_add]
      congr 1
      funext i; ring

theorem arrives_true (w : Wiring) (H : Nat → Nat → Vec) (p t i : Nat) :
    ((((List.range w.edges.length).filter fun c => (w.edge c).2.2.1 = p).map
      fun c => if (w.edge c).2.2.2 = 0 then H c t i else 0).sum) = w.arrives H p true t i := by
  rw [sum_filter_range _ (fun c => (w.edge c).2.2.1 = p)]
  unfold Wiring.arrives
  apply Finset.sum_congr rfl
  intro c _
  by_cases h1 : (w.edge c).2.2.1 = p <;> by_cases h2 : (w.edge c).2.2.2 = 0 <;> simp [h1, h2]

theorem arrives_false (w : Wiring) (H : Nat → Nat → Vec) (p t i : Nat) :
    ((((List.range w.edges.length).filter fun c => (w.edge c).2.2.1 = p).map
      fun c => if (w.edge c).2.2.2 = 0 then 0 else H c t i).sum) = w.arrives H p false t i := by
  rw [sum_filter_range _ (fun c => (w.edge c).2.2.1 = p)]
  unfold Wiring.arrives
  apply Finset.sum_congr rfl
  intro c _
  by_cases h1 : (w.edge c).2.2.1 = p <;> by_cases h2 : (w.edge c).2.2.2 = 0 <;> simp [h1, h2]

theorem feed_all (w : Wiring) (T : Nat) (cap : Nat → Nat) (H : Nat → Nat → Vec) (p t : Nat) (s : NodeSt) :
    (w.diagram T cap).feed p H t ((w.diagram T cap).ins p) s =
      ⟨s.t, fun i => s.in1 i + w.arrives H p true t i, fun i => s.in2 i + w.arrives H p false t i, s.v, s.ns, s.conn⟩ := by
  rw [feed_spec]
  congr 1
  · funext i; rw [← arrives_true]; rfl
  · funext i; rw [← arrives_false]; rfl

/-- The Vars of a process before step `t`. -/
structure StateOk (w : Wiring) (H : Nat → Nat → Vec) (p t : Nat) (s : NodeSt) : Prop where
  time : s.t = t
  in1 : s.in1 = fun _ => 0
  in2 : s.in2 = fun _ => 0
  v : s.v = fun _ => 0
  ns : ∀ vth, w.node p = .norm vth → ∀ i, (s.ns i).v = if t = 0 then 0 else w.arrives H p true (t - 1) i
  conn : ∀ par wt, w.node p = .conn par wt →
    s.conn = Verif.Dense.stateAt par (Verif.Dense.init wt) (fun t => w.arrives H p true t) t

theorem state_ok (w : Wiring) (T : Nat) (cap : Nat → Nat) (H : Nat → Nat → Vec) (p : Nat) : ∀ t,
    StateOk w H p t ((w.diagram T cap).state p H t)
  | 0 => by
    show StateOk w H p 0 ((w.node p).start)
    cases hn : w.node p <;>
      exact ⟨rfl, rfl, rfl, rfl, fun _ _ _ => rfl, fun _ _ h => (by rw [hn] at h; cases h <;> rfl)⟩
  | t + 1 => by
    have ih := state_ok w T cap H p t
    have he : (w.diagram T cap).state p H (t + 1) = (w.node p).tick ((w.diagram T cap).feed p H t ((w.diagram T cap).ins p)
      ((w.diagram T cap).state p H t)) := rfl
    rw [he, feed_all]
    generalize (w.diagram T cap).state p H t = s at ih ⊢
    obtain ⟨st, si1, si2, sv, sns, sconn⟩ := s
    obtain ⟨h1, h2, h3, h4, h5, h6⟩ := ih
    simp only at h1 h2 h3 h4 h5 h6
    subst h1 h2 h3 h4
    simp only [zero_add]
    cases hn : w.node p with
    | conn par wt =>
      refine ⟨rfl, rfl, rfl, rfl, fun _ h => (by rw [hn] at h; cases h), ?_⟩
      intro par' wt' h
      rw [hn] at h
      cases h
      show (Verif.Dense.runSpk par sconn _).1 = _
      rw [h6 par wt hn]
      rfl
    | norm vth =>
      refine ⟨rfl, rfl, rfl, rfl, ?_, fun _ _ h => by rw [hn] at h; cases h⟩
      intro vth' _ i
      rfl
    | graded vth =>
      exact ⟨rfl, rfl, rfl, rfl, fun _ h => (by rw [hn] at h; cases h), fun _ _ h => by rw [hn] at h; cases h⟩
    | relu vth =>
      exact ⟨rfl, rfl, rfl, rfl, fun _ h => (by rw [hn] at h; cases h), fun _ _ h => by rw [hn] at h; cases h⟩
    | prod vth exp =>
      exact ⟨rfl, rfl, rfl, rfl, fun _ h => (by rw [hn] at h; cases h), fun _ _ h => by rw [hn] at h; cases h⟩
    | input data =>
      exact ⟨rfl, rfl, rfl, rfl, fun _ h => (by rw [hn] at h; cases h), fun _ _ h => by rw [hn] at h; cases h⟩
    | isq =>
      exact ⟨rfl, rfl, rfl, rfl, fun _ h => (by rw [hn] at h; cases h), fun _ _ h => by rw [hn] at h; cases h⟩
    | sink =>
      exact ⟨rfl, rfl, rfl, rfl, fun _ h => (by rw [hn] at h; cases h), fun _ _ h => by rw [hn] at h; cases h⟩

theorem mul_ite_thr (vth x : Int) : x * (if (x.natAbs : Int) > vth then 1 else 0) = thr vth x := by
  unfold thr
  rw [Int.natCast_natAbs]
  split <;> simp

theorem meets_iff (w : Wiring) (T : Nat) (cap : Nat → Nat) (H : Nat → Nat → Vec) (h : (w.diagram T cap).Meets H) (c t : Nat)
    (hc : c < w.edges.length) (ht : t < T) : w.Eqn H c t := by
  have he := h c t hc ht
  have hs := state_ok w T cap H (w.edge c).1 t
  have hin : (w.diagram T cap).input (w.edge c).1 H t = if (w.node (w.edge c).1).isConn then
      (w.diagram T cap).state (w.edge c).1 H t else (w.diagram T cap).feed (w.edge c).1 H t ((w.diagram T cap).ins (w.edge c).1)
        ((w.diagram T cap).state (w.edge c).1 H t) := rfl
  have he : H c t = (w.node (w.edge c).1).emit ((w.diagram T cap).input (w.edge c).1 H t) (w.edge c).2.1 := he
  rw [hin, feed_all] at he
  unfold Wiring.Eqn
  generalize (w.diagram T cap).state (w.edge c).1 H t = s at hs he
  obtain ⟨st, si1, si2, sv, sns, sconn⟩ := s
  obtain ⟨h1, h2, h3, h4, h5, h6⟩ := hs
  simp only at h1 h2 h3 h4 h5 h6
  subst h1 h2 h3 h4
  simp only [zero_add] at he
  generalize hp : (w.edge c).1 = p at *
  unfold Wiring.value
  cases hn : w.node p with
  | input data => rw [hn] at he; exact he
  | graded vth =>
    rw [hn] at he
    rw [he]
    funext i
    show (Verif.Neurons.gradedStep vth 0 (w.arrives H p true st i)).2 = _
    simp only [Verif.Neurons.gradedStep, zero_add]
    exact mul_ite_thr _ _
  | relu vth =>
    rw [hn] at he
    rw [he]
    funext i
    show (Verif.Neurons.reluStep vth 0 (w.arrives H p true st i)).2 = _
    simp only [Verif.Neurons.reluStep, zero_add]
    split <;> simp
  | prod vth exp =>
    rw [hn] at he
    rw [he]
    funext i
    show Verif.Neurons.prodStep vth exp _ _ = _
    simp only [Verif.Neurons.prodStep]
    exact mul_ite_thr _ _
  | conn par wt =>
    rw [hn, if_pos (show (Node.conn par wt).isConn = true from rfl)] at he
    rw [he]
    funext i
    show (Verif.Dense.runSpk par sconn (fun _ => 0)).2 i = _
    rw [h6 par wt hn]
    have hd := Verif.Dense.C39_dense_product par wt (fun t => w.arrives H p true t) i
    cases st with
    | zero => rfl
    | succ t => exact hd.2 t
  | norm vth =>
    rw [hn] at he
    rw [he]
    funext i
    show (if (w.edge c).2.1 = 0 then (Verif.Neurons.normStep vth (sns i) (w.arrives H p true st i) (w.arrives H p false st i)).2.1
      else (Verif.Neurons.normStep vth (sns i) (w.arrives H p true st i) (w.arrives H p false st i)).2.2) = _
    simp only [Verif.Neurons.normStep, h5 vth hn i]
    split
    · exact mul_ite_thr _ _
    · simp [pow_two]
  | isq => rw [hn] at he; rw [he]; rfl
  | sink => rw [hn] at he; rw [he]; rfl

/-- **C94.** Every network of these processes in which each loop goes through a connection computes its equations, for every number of
steps and all channel capacities, under every schedule, and cannot deadlock. -/
theorem C94_network_equations (w : Wiring) (hw : w.Ok) (T : Nat) (cap : Nat → Nat) (hc : ∀ c, c < w.edges.length → 1 ≤ cap c)
    (hl : (w.diagram T cap).LoopsHaveConnections) :
    ∃ H, w.Computes T cap H ∧ ∀ c t, c < w.edges.length → t < T → w.Eqn H c t := by
  obtain ⟨H, h1, h2, h3, h4, _⟩ := Verif.System.C79_block_diagrams (w.diagram T cap) (wiring_wf w hw T cap hc) hl
  exact ⟨H, ⟨h2, h3, h4⟩, fun c t hc ht => meets_iff w T cap H h1 c t hc ht⟩

theorem alternates_loops (w : Wiring) (h : w.Alternates) (T : Nat) (cap : Nat → Nat) : (w.diagram T cap).LoopsHaveConnections := by
  refine ⟨fun _ => 0, ?_⟩
  intro c hc h1 h2
  exfalso
  have h1 : (w.node (w.edge c).1).isConn = false := h1
  have h2 : (w.node (w.edge c).2.2.1).isConn = false := h2
  rcases h _ (edge_mem w c hc) with h | h
  · rw [h1] at h; cases h
  · rw [h2] at h; cases h

end Verif.Graded
