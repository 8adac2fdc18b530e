/-
Model of the algebraic network syntax, `src/lava/networks/network.py` and the vector and matrix
classes of `src/lava/networks/gradedvecnetwork.py`.

Network objects are numbers. A connection made by `out_port.connect(in_port)` is recorded by the
networks whose ports are connected (that `connect` itself does what it should is C22).
-/

namespace Verif.Networks

/-- What kind of network an object is: an `AlgebraicVector` (with or without the attribute `shape`:
`LIFVec` does not set it, gradedvecnetwork.py:110-123), or another network (matrix). -/
inductive Kind where
  | vec (hasShape : Bool)
  | mat
deriving DecidableEq, Repr

/-- A connection from network `src` to network `dst`, directly or through a new identity synapse. -/
structure Conn where
  src : Nat
  dst : Nat
  viaIdentity : Bool
deriving DecidableEq, Repr

/-- Values of expressions: a network object, a `NetworkList` object (by address), or a plain list,
the result of `list.__add__` on two lists. -/
inductive Val where
  | net (n : Nat)
  | nl (addr : Nat)
  | plain
deriving DecidableEq, Repr

/-- Heap of `NetworkList` objects and the connections made so far. -/
structure St where
  heap : List (List Nat)
  conns : List Conn
deriving DecidableEq, Repr

/-- `Network.__add__` and `__radd__` (network.py:63-76) with Python's rules for `+`: a list as left
operand leaves the choice to `Network.__radd__` first; two lists are concatenated by `list`, and the
result is a plain list. `none` is `TypeError`. -/
def plus (h : St) : Val → Val → Option (Val × St)
  | .net a, .net b => some (.nl h.heap.length, { h with heap := h.heap ++ [[a, b]] })
  | .net a, .nl p => some (.nl p, { h with heap := h.heap.modify p (· ++ [a]) })
  | .nl p, .net a => some (.nl p, { h with heap := h.heap.modify p (· ++ [a]) })
  | .net _, .plain => none
  | .plain, .net _ => none
  | _, _ => some (.plain, h)

/-- `AlgebraicMatrix.__matmul__` (network.py:125-136): connect the vector to the matrix, return the
matrix. `none`: operand kinds for which it is not implemented. -/
def matmul (k : Nat → Kind) (h : St) (a x : Nat) : Option (Val × St) :=
  match k a, k x with
  | .mat, .vec _ => some (.net a, { h with conns := h.conns ++ [⟨x, a, false⟩] })
  | _, _ => none

/-- `AlgebraicVector.__lshift__` for one network on the right (network.py:86-110); `none`:
`AttributeError` for a missing `shape`. For a target that is not a vector: `Network.__lshift__`
(network.py:40-55). -/
def shiftNet (k : Nat → Kind) (h : St) (v o : Nat) : Option St :=
  match k v, k o with
  | .vec true, .vec _ => some { h with conns := h.conns ++ [⟨o, v, true⟩] }
  | .vec false, .vec _ => none
  | _, _ => some { h with conns := h.conns ++ [⟨o, v, false⟩] }

/-- The loop over a `NetworkList` (network.py:56-59, 111-115). -/
def shiftAll (k : Nat → Kind) (v : Nat) : St → List Nat → Option St
  | h, [] => some h
  | h, o :: os => (shiftNet k h v o).bind (fun h' => shiftAll k v h' os)

/-- `v << value`; a plain list is not accepted (`NotImplemented`, then `TypeError`). -/
def shift (k : Nat → Kind) (h : St) (v : Nat) : Val → Option St
  | .net o => shiftNet k h v o
  | .nl p => shiftAll k v h (h.heap[p]?.getD [])
  | .plain => none

/-- Expressions on the right of `<<`: networks, products `A @ x`, sums. -/
inductive Ex where
  | net (n : Nat)
  | mv (a x : Nat)
  | add (l r : Ex)
deriving DecidableEq, Repr

def Ex.eval (k : Nat → Kind) : Ex → St → Option (Val × St)
  | .net n, h => some (.net n, h)
  | .mv a x, h => matmul k h a x
  | .add l r, h =>
    (l.eval k h).bind (fun p => (r.eval k p.2).bind (fun q => plus q.2 p.1 q.1))

/-- The statement `v << e`. -/
def assign (k : Nat → Kind) (v : Nat) (e : Ex) (h : St) : Option St :=
  (e.eval k h).bind (fun p => shift k p.2 v p.1)

end Verif.Networks
