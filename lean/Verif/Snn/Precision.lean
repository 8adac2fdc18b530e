import Verif.Snn.Spikes

/-!
# C115: the same network in both precisions
-/

namespace Verif.Snn

open Verif.Wired (PM POp Platform sys connections written)
open Verif.Wired.Spec (linkedSum Linked Script Hosted Proper)
open Verif.Wiring (Port Builders buildChannels)
open Verif.EndToEnd (Call Res net initial seen)
open Verif.System (exec Stuck AllHalted)
open Verif.PortGraph (G run dstPorts Reaches)
open Verif.SpikeNet (Net Conn fixAt fixSpike fltAt fltSpike)
open Spec

/-- A sum over the connections to a population. -/
theorem sum_conns {R : Type} [AddCommMonoid R] (l : List Conn) (q i : Nat) (F : Nat → Nat → R) (G' : Conn → Nat → R) (h : ∀ c (hc : c < l.length), F c i = G' l[c] i) :
    (((List.range l.length).filter fun c => (l[c]?.map Conn.dst) = some q).map F).sum i = (l.map fun k => if k.dst = q then G' k i else 0).sum := by
  rw [Pi.list_sum_apply, List.map_map]
  induction l using List.reverseRecOn with
  | nil => rfl
  | append_singleton l k ih =>
    rw [List.length_append, List.length_singleton, List.range_succ, List.filter_append, List.map_append, List.sum_append, List.map_append, List.sum_append]
    have e1 : ((List.range l.length).filter fun c => ((l ++ [k])[c]?.map Conn.dst) = some q) = (List.range l.length).filter fun c => (l[c]?.map Conn.dst) = some q := by
      apply List.filter_congr
      intro c hc
      rw [List.mem_range] at hc
      rw [List.getElem?_append_left hc]
    rw [e1, ih (fun c hc => by rw [h c (by simp; omega), List.getElem_append_left hc])]
    congr 1
    have hk := h l.length (by simp)
    rw [List.getElem_append_right (le_refl _)] at hk
    simp only [Nat.sub_self, List.getElem_cons_zero] at hk
    rw [List.filter_cons, List.getElem?_append_right (le_refl _)]
    simp only [Nat.sub_self, List.getElem?_cons_zero, Option.map_some, Option.some.injEq, List.filter_nil, decide_eq_true_eq, List.map_cons, List.map_nil, List.sum_cons, List.sum_nil, add_zero]
    by_cases hd : k.dst = q
    · rw [if_pos hd, if_pos hd]
      simp [hk]
    · rw [if_neg hd, if_neg hd]
      rfl

variable {g : G} {own : Nat → Nat} {name : Nat → String} {outs : Nat → List Nat} {np : Nat}

/-- The external input: the columns of the sources, repeated. -/
def extOf (len : Nat) (data : Nat → Nat → Nat → Int) : Nat → Nat → Nat → Int := fun t q i => data q (t % len) i

/-! ### Fixed point -/

theorem fix_conn_kind (net : Net) (size : Nat → Nat) (c : Nat) (hc : c < net.conns.length) :
    fixConn net size c =
      denseFix (size net.conns[c].dst) net.conns[c].par net.conns[c].w := by
  unfold fixConn; rw [List.getElem?_eq_getElem hc]

/-- The states of the simulation are those of the equations. -/
theorem fix_states (net : Net) (size : Nat → Nat) (len buf : Nat) (data : Nat → Nat → Nat → Int) (hi : PortGraph.Inv g) (ha : Arrangement g own name np net.conns)
    (hs : Script g (np + net.conns.length + np + np) own name outs fun p => (fixProcs net np size len buf data p).pm) (t : Nat) :
    (∀ q, q < np → (next g (np + net.conns.length + np + np) own name (fixProcs net np size len buf data))^[t] (fun p => (fixProcs net np size len buf data p).init) q =
      .pop fun i => (fixAt net (extOf len data) t).pop q i) ∧
    (∀ c (hc : c < net.conns.length), (next g (np + net.conns.length + np + np) own name (fixProcs net np size len buf data))^[t] (fun p => (fixProcs net np size len buf data p).init) (np + c) =
      .conn (Dense.stateAt net.conns[c].par (Dense.init net.conns[c].w) (fun τ => SpikeNet.spikeVec fun j => fixSpike net (extOf len data) τ net.conns[c].src j) t)) ∧
    (∀ q, q < np → (next g (np + net.conns.length + np + np) own name (fixProcs net np size len buf data))^[t] (fun p => (fixProcs net np size len buf data p).init) (np + net.conns.length + q) =
      .ring t (data q)) ∧
    (∀ q, q < np → (next g (np + net.conns.length + np + np) own name (fixProcs net np size len buf data))^[t] (fun p => (fixProcs net np size len buf data p).init) (np + net.conns.length + np + q) =
      .ring t (IO.sinkAt (fun _ => 0) buf (fun τ => SpikeNet.spikeVec fun j => fixSpike net (extOf len data) (τ - 1) q j) t)) := by
  induction t with
  | zero =>
    refine ⟨?_, ?_, ?_, ?_⟩
    · intro q hq
      show (fixProcs net np size len buf data q).init = _
      unfold fixProcs; rw [arr_pop hq]; rfl
    · intro c hc
      show (fixProcs net np size len buf data (np + c)).init = _
      unfold fixProcs; rw [arr_conn hc, fix_conn_kind net size c hc]; rfl
    · intro q hq
      show (fixProcs net np size len buf data (np + net.conns.length + q)).init = _
      unfold fixProcs; rw [arr_src hq]; rfl
    · intro q hq
      show (fixProcs net np size len buf data (np + net.conns.length + np + q)).init = _
      unfold fixProcs; rw [arr_snk hq]; rfl
  | succ t ih =>
    simp only [Function.iterate_succ_apply']
    generalize (next g (np + net.conns.length + np + np) own name (fixProcs net np size len buf data))^[t] (fun p => (fixProcs net np size len buf data p).init) = σ at ih ⊢
    obtain ⟨h1, h2, h3, h4⟩ := ih
    have hin : ∀ q, q < np → popIn np net.conns (fixConn net size)
        (fun q => sourceProc (size q) len (data q)) σ q = fun i => SpikeNet.fixIn net (fixAt net (extOf len data) t) (extOf len data t) q i := by
      intro q hq
      funext i
      unfold popIn SpikeNet.fixIn
      rw [Pi.add_apply, h3 q hq]
      congr 1
      rw [SpikeNet.fix_conn, SpikeNet.zip_map_self]
      rw [sum_conns net.conns q i _ (fun k => (Dense.stateAt k.par (Dense.init k.w) (fun τ => SpikeNet.spikeVec fun j => fixSpike net (extOf len data) τ k.src j) t).aBuff)]
      intro c hc
      rw [fix_conn_kind net size c hc, h2 c hc]
      rfl
    have hfire : ∀ q, q < np → (lifFix (size q) (net.lif q) (net.vth q)).fire ((lifFix (size q) (net.lif q) (net.vth q)).begin_ (σ q))
        (fun i => SpikeNet.fixIn net (fixAt net (extOf len data) t) (extOf len data t) q i) =
        (.pop fun i => (fixAt net (extOf len data) (t + 1)).pop q i, SpikeNet.spikeVec fun j => fixSpike net (extOf len data) t q j) := by
      intro q hq
      rw [h1 q hq]
      rfl
    have hk : ∀ c, c < net.conns.length → (fixConn net size c).kind = .synapse := by
      intro c hc; rw [fix_conn_kind net size c hc]; rfl
    refine ⟨?_, ?_, ?_, ?_⟩
    · intro q hq
      refine (next_pop (fun _ => rfl) hk (fun _ => rfl) hi ha hs σ hq).trans ?_
      rw [hin q hq, hfire q hq]
    · intro c hc
      refine (next_conn (fun _ => rfl) hk (fun _ => rfl) hi ha hs σ hc).trans ?_
      rw [hin _ (ha.links c hc).1, hfire _ (ha.links c hc).1, fix_conn_kind net size c hc, h2 c hc]
      rfl
    · intro q hq
      refine (next_src (fun _ => rfl) σ hq).trans ?_
      rw [h3 q hq]; rfl
    · intro q hq
      refine (next_snk (fun _ => rfl) hk (fun _ => rfl) (fun _ => rfl) hi ha hs σ hq).trans ?_
      rw [hin q hq, hfire q hq, h4 q hq]
      rfl

/-! ### Floating point -/

theorem flt_conn_kind (net : Net) (size : Nat → Nat) (c : Nat) (hc : c < net.conns.length) :
    fltConn net size c =
      denseFlt (size net.conns[c].dst) net.conns[c].par.nIn net.conns[c].par.graded net.conns[c].wf := by
  unfold fltConn; rw [List.getElem?_eq_getElem hc]

/-- Spikes as numbers. -/
def spikeVecQ (s : Nat → Bool) : Nat → ℚ := fun j => if s j then 1 else 0

theorem accumFlt_spikes (k : Conn) (s : Nat → Bool) : accumFlt k.par.nIn k.par.graded k.wf (spikeVecQ s) = SpikeNet.fltDense k s := by
  funext i
  unfold accumFlt SpikeNet.fltDense spikeVecQ
  split
  · rw [Finset.sum_filter]
    apply Finset.sum_congr rfl
    intro j _
    split <;> simp
  · rw [Finset.sum_filter, Finset.sum_filter]
    apply Finset.sum_congr rfl
    intro j _
    by_cases h : s j = true <;> simp [h]

theorem flt_states (net : Net) (size : Nat → Nat) (len buf : Nat) (data : Nat → Nat → Nat → Int) (hi : PortGraph.Inv g) (ha : Arrangement g own name np net.conns)
    (hs : Script g (np + net.conns.length + np + np) own name outs fun p => (fltProcs net np size len buf data p).pm) (t : Nat) :
    (∀ q, q < np → (next g (np + net.conns.length + np + np) own name (fltProcs net np size len buf data))^[t] (fun p => (fltProcs net np size len buf data p).init) q =
      .pop fun i => (fltAt net (extOf len data) t).pop q i) ∧
    (∀ c (hc : c < net.conns.length), (next g (np + net.conns.length + np + np) own name (fltProcs net np size len buf data))^[t] (fun p => (fltProcs net np size len buf data p).init) (np + c) =
      .conn (SpikeNet.fltBuf net (extOf len data) net.conns[c] t)) ∧
    (∀ q, q < np → (next g (np + net.conns.length + np + np) own name (fltProcs net np size len buf data))^[t] (fun p => (fltProcs net np size len buf data p).init) (np + net.conns.length + q) =
      .ring t fun k i => (data q k i : ℚ)) ∧
    (∀ q, q < np → (next g (np + net.conns.length + np + np) own name (fltProcs net np size len buf data))^[t] (fun p => (fltProcs net np size len buf data p).init) (np + net.conns.length + np + q) =
      .ring t (IO.sinkAt (fun _ => 0) buf (fun τ => spikeVecQ fun j => fltSpike net (extOf len data) (τ - 1) q j) t)) := by
  induction t with
  | zero =>
    refine ⟨?_, ?_, ?_, ?_⟩
    · intro q hq
      show (fltProcs net np size len buf data q).init = _
      unfold fltProcs; rw [arr_pop hq]; rfl
    · intro c hc
      show (fltProcs net np size len buf data (np + c)).init = _
      unfold fltProcs; rw [arr_conn hc, flt_conn_kind net size c hc]; rfl
    · intro q hq
      show (fltProcs net np size len buf data (np + net.conns.length + q)).init = _
      unfold fltProcs; rw [arr_src hq]; rfl
    · intro q hq
      show (fltProcs net np size len buf data (np + net.conns.length + np + q)).init = _
      unfold fltProcs; rw [arr_snk hq]; rfl
  | succ t ih =>
    simp only [Function.iterate_succ_apply']
    generalize (next g (np + net.conns.length + np + np) own name (fltProcs net np size len buf data))^[t] (fun p => (fltProcs net np size len buf data p).init) = σ at ih ⊢
    obtain ⟨h1, h2, h3, h4⟩ := ih
    have hin : ∀ q, q < np → popIn np net.conns (fltConn net size)
        (fun q => sourceProc (size q) len fun k i => (data q k i : ℚ)) σ q = fun i => SpikeNet.fltIn net (fltAt net (extOf len data) t) (extOf len data t) q i := by
      intro q hq
      funext i
      unfold popIn SpikeNet.fltIn
      rw [Pi.add_apply, h3 q hq]
      congr 1
      rw [SpikeNet.flt_conn, SpikeNet.zip_map_self]
      rw [sum_conns net.conns q i _ (fun k => SpikeNet.fltBuf net (extOf len data) k t)]
      intro c hc
      rw [flt_conn_kind net size c hc, h2 c hc]
      rfl
    have hfire : ∀ q, q < np → (lifFlt (size q) (SpikeNet.fltPar net q)).fire ((lifFlt (size q) (SpikeNet.fltPar net q)).begin_ (σ q))
        (fun i => SpikeNet.fltIn net (fltAt net (extOf len data) t) (extOf len data t) q i) =
        (.pop fun i => (fltAt net (extOf len data) (t + 1)).pop q i, spikeVecQ fun j => fltSpike net (extOf len data) t q j) := by
      intro q hq
      rw [h1 q hq]
      rfl
    have hk : ∀ c, c < net.conns.length → (fltConn net size c).kind = .synapse := by
      intro c hc; rw [flt_conn_kind net size c hc]; rfl
    refine ⟨?_, ?_, ?_, ?_⟩
    · intro q hq
      refine (next_pop (fun _ => rfl) hk (fun _ => rfl) hi ha hs σ hq).trans ?_
      rw [hin q hq, hfire q hq]
    · intro c hc
      refine (next_conn (fun _ => rfl) hk (fun _ => rfl) hi ha hs σ hc).trans ?_
      rw [hin _ (ha.links c hc).1, hfire _ (ha.links c hc).1, flt_conn_kind net size c hc, h2 c hc]
      show Vars.conn (accumFlt _ _ _ _) = Vars.conn _
      rw [accumFlt_spikes]
      rfl
    · intro q hq
      refine (next_src (fun _ => rfl) σ hq).trans ?_
      rw [h3 q hq]; rfl
    · intro q hq
      refine (next_snk (fun _ => rfl) hk (fun _ => rfl) (fun _ => rfl) hi ha hs σ hq).trans ?_
      rw [hin q hq, hfire q hq, h4 q hq]
      rfl

end Verif.Snn
