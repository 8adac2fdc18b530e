import Verif.Swap.Trains
import Verif.Snn.Loihi
import Verif.Sparse.Props

/-!
# C118: Dense and Sparse connections, with and without delays, can be exchanged in every network
-/

namespace Verif.Swap

open Verif.Snn (Proc Kind Vars connProc)
open Verif.VarAccess (Csr)
open Verif.Sparse (valAt)
open Spec

/-- Vars of a connection: those of `Dense`, of `Sparse`, the buffer of a delay connection, or the buffer of `Conv` (flattened). -/
inductive Store where
  | dense (st : Dense.St)
  | sparse (st : Sparse.St)
  | delay (b : Dense.Flat)
  | conv (b : Dense.Vec)

/-- `a_buff` of a connection without delays. -/
def Store.buf : Store → Dense.Vec
  | .dense st => st.aBuff
  | .sparse st => st.aBuff
  | .delay _ => fun _ => 0
  | .conv b => b

def Store.poke (st : Store) (j : Nat) (x : Int) : Store :=
  match st with
  | .dense st => .dense { st with aBuff := fun i => if i = j then x else st.aBuff i }
  | .sparse st => .sparse { st with aBuff := fun i => if i = j then x else st.aBuff i }
  | .delay b => .delay fun i => if i = j then x else b i
  | .conv b => .conv fun i => if i = j then x else b i

variable {N : Type}

/-- `Dense` with `PyDenseModelBitAcc` (dense/models.py:58-107). -/
def denseC (size : Nat) (par : Dense.Par) (w : Dense.Mat) : Proc (Vars N Store Int) (Nat → Int) Int :=
  connProc size (.dense (Dense.init w)) Store.buf (fun st s => match st with | .dense st => .dense (Dense.runSpk par st s).1 | st => st) Store.poke

/-- `Sparse` with `PySparseModelBitAcc` (sparse/models.py:58-107). -/
def sparseC (size : Nat) (par : Sparse.Par) (c : Csr) : Proc (Vars N Store Int) (Nat → Int) Int :=
  connProc size (.sparse (Sparse.init c)) Store.buf (fun st s => match st with | .sparse st => .sparse (Sparse.runSpk par st s).1 | st => st) Store.poke

/-- A delay connection with `n` outputs, buffers of `d` columns and the given update of the buffer: column 0 is sent, then the buffer is updated (dense/models.py:282, 339, sparse/models.py:359). -/
def delayC (n d : Nat) (upd : Dense.Flat → Dense.Vec → Dense.Flat) : Proc (Vars N Store Int) (Nat → Int) Int where
  kind := .synapse
  init := .conn (.delay fun _ => 0)
  begin_ s := s
  fire s _ := (s, fun _ => 0)
  out s := match s with | .conn (.delay b) => (fun i => if i < n then b (i * d) else 0) | _ => fun _ => 0
  absorb s a := match s with | .conn (.delay b) => .conn (.delay (upd b a)) | s => s
  vsize _ := n * d
  peek s _ j := match s with | .conn (.delay b) => if j < n * d then b j else 0 | _ => 0
  poke s _ j w := match s with | .conn st => .conn (st.poke j w) | s => s

/-- `DelayDense` with `PyDelayDenseModelBitAcc` (dense/models.py:286-352). -/
def delayDenseC (p : Dense.DelayPar) : Proc (Vars N Store Int) (Nat → Int) Int := delayC p.n p.d (Dense.delayStep p)

/-- `DelaySparse` with `PyDelaySparseModelBitAcc` (sparse/models.py:307-372). -/
def delaySparseC (p : Sparse.DelayPar) : Proc (Vars N Store Int) (Nat → Int) Int := delayC p.n (p.maxDelay + 1) (Sparse.delayStep p)

theorem stateAt_dense (size : Nat) (par : Dense.Par) (w : Dense.Mat) (a : Nat → Nat → Int) : ∀ t,
    stateAt (denseC (N := N) size par w) a t = .conn (.dense (Dense.stateAt par (Dense.init w) a t))
  | 0 => rfl
  | t + 1 => by
    show (denseC (N := N) size par w).absorb (stateAt (denseC (N := N) size par w) a t) (a t) = _
    rw [stateAt_dense size par w a t]
    rfl

theorem stateAt_sparse (size : Nat) (par : Sparse.Par) (c : Csr) (a : Nat → Nat → Int) : ∀ t,
    stateAt (sparseC (N := N) size par c) a t = .conn (.sparse (Sparse.stateAt par c a t))
  | 0 => rfl
  | t + 1 => by
    show (sparseC (N := N) size par c).absorb (stateAt (sparseC (N := N) size par c) a t) (a t) = _
    rw [stateAt_sparse size par c a t]
    rfl

theorem stateAt_delayDense (p : Dense.DelayPar) (a : Nat → Nat → Int) : ∀ t, stateAt (delayDenseC (N := N) p) a t = .conn (.delay (Dense.delayBuf p a t))
  | 0 => rfl
  | t + 1 => by
    show (delayDenseC (N := N) p).absorb (stateAt (delayDenseC (N := N) p) a t) (a t) = _
    rw [stateAt_delayDense p a t]
    rfl

theorem stateAt_delaySparse (p : Sparse.DelayPar) (a : Nat → Nat → Int) : ∀ t, stateAt (delaySparseC (N := N) p) a t = .conn (.delay (Sparse.delayBuf p a t))
  | 0 => rfl
  | t + 1 => by
    show (delaySparseC (N := N) p).absorb (stateAt (delaySparseC (N := N) p) a t) (a t) = _
    rw [stateAt_delaySparse p a t]
    rfl

/-- **C118.** `Sparse` instead of `Dense` with the same weights: the same is sent for every sequence of inputs, and the buffers are the same. -/
theorem C118_sparse_for_dense (size : Nat) (par : Sparse.Par) (c : Csr) (h : Sparse.Wf par.n par.nIn c) (hn : 0 < par.n) (hm : 0 < par.nIn) :
    SameTrains (denseC (N := N) size (par.dense (valAt c)) (valAt c)) (sparseC size par c) ∧
    ∀ x, SameVar (denseC (N := N) size (par.dense (valAt c)) (valAt c)) (sparseC size par c) x := by
  have key : ∀ a t, (Sparse.stateAt par c a t).aBuff = (Dense.stateAt (par.dense (valAt c)) (Dense.init (valAt c)) a t).aBuff :=
    fun a t => funext fun i => Sparse.C99_sparse_is_dense par c h hn hm a t i
  refine ⟨⟨rfl, fun a t => ?_⟩, fun x => ⟨rfl, fun a t j => ?_⟩⟩
  · show some ((sparseC (N := N) size par c).out (stateAt (sparseC (N := N) size par c) a t)) = some ((denseC (N := N) size (par.dense (valAt c)) (valAt c)).out (stateAt _ a t))
    rw [stateAt_sparse, stateAt_dense]
    exact congrArg some (key a t)
  · rw [stateAt_sparse, stateAt_dense]
    exact congrFun (key a t) j

/-- **C118.** `DelaySparse` instead of `DelayDense` with the same weights and delays. -/
theorem C118_delay_sparse_for_delay_dense (p : Sparse.DelayPar) (h : p.Wf) (hm : 0 < p.maxDelay ∨ ∀ e ∈ p.d.entries, e.2 = 0) :
    SameTrains (delayDenseC (N := N) p.dense) (delaySparseC p) ∧ ∀ x, SameVar (delayDenseC (N := N) p.dense) (delaySparseC p) x := by
  refine ⟨⟨rfl, fun a t => ?_⟩, fun x => ⟨rfl, fun a t j => ?_⟩⟩
  · show some ((delaySparseC (N := N) p).out (stateAt (delaySparseC (N := N) p) a t)) = some ((delayDenseC (N := N) p.dense).out (stateAt _ a t))
    rw [stateAt_delaySparse, stateAt_delayDense]
    refine congrArg some (funext fun i => ?_)
    show (if i < p.n then _ else _) = if i < p.n then _ else _
    by_cases hi : i < p.n
    · rw [if_pos hi, if_pos hi]
      exact Sparse.C99_delay_sparse_is_dense p h hm a t i hi
    · rw [if_neg hi, if_neg hi]
  · rw [stateAt_delaySparse, stateAt_delayDense]
    show (if j < p.n * (p.maxDelay + 1) then _ else _) = if j < p.n * (p.maxDelay + 1) then _ else _
    by_cases hj : j < p.n * (p.maxDelay + 1)
    · rw [if_pos hj, if_pos hj]
      exact Sparse.delayBuf_eq p h hm a t j hj
    · rw [if_neg hj, if_neg hj]

end Verif.Swap
