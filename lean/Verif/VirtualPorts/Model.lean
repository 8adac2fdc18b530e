/-!
# Model of the virtual ports

`src/lava/magma/core/process/ports/ports.py` (ReshapePort, TransposePort, ConcatPort and the functions that
collect them) and the NumPy functions they refer to. An array is a shape and the list of its elements in
C order.
-/

namespace Verif.VirtualPorts

/-- `math.prod(shape)`. -/
def size : List Nat → Nat
  | [] => 1
  | n :: s => n * size s

/-- NumPy array: shape and elements in C order. -/
structure Arr (V : Type) where
  shape : List Nat
  data : List V
deriving DecidableEq, Repr

/-- A NumPy array has as many elements as its shape says. -/
def Arr.WF {V} (a : Arr V) : Prop := a.data.length = size a.shape

/-- Flat C-order position of a multi-index. -/
def ravel : List Nat → List Nat → Nat
  | _ :: s, i :: is => i * size s + ravel s is
  | _, _ => 0

/-- Multi-index at a flat C-order position. -/
def unravel : List Nat → Nat → List Nat
  | [], _ => []
  | _ :: s, k => (k / size s) :: unravel s (k % size s)

/-- Element at a multi-index. -/
def Arr.get {V} [Inhabited V] (a : Arr V) (idx : List Nat) : V := a.data.getD (ravel a.shape idx) default

/-- Position of a possibly negative axis (`len(shape) + idx if idx < 0 else idx`, process/ports/ports.py:382). -/
def normAxis (n : Nat) (i : Int) : Int := if i < 0 then (n : Int) + i else i

/-- `np.reshape(data, newshape)`: `ValueError` (here `none`) when the sizes differ. Entries `-1` of
`newshape` cannot occur, process/ports/ports.py:315 compares the product of the shape. -/
def npReshape {V} (newShape : List Nat) (a : Arr V) : Option (Arr V) :=
  if a.data.length = size newShape then some { shape := newShape, data := a.data } else none

/-- Source multi-index of an element of the transposed array: component `axes[k]` of it is component `k`
of the index in the new array. -/
def invPerm (axes idx : List Nat) : List Nat :=
  (List.range axes.length).map fun j => idx.getD (axes.idxOf j) 0

/-- `np.transpose(data, axes)` for normalised axes. -/
def npTransposeN {V} [Inhabited V] (axes : List Nat) (a : Arr V) : Arr V :=
  let newShape := axes.map fun i => a.shape.getD i 0
  { shape := newShape
    data := (List.range (size newShape)).map fun k => a.get (invPerm axes (unravel newShape k)) }

/-- `np.transpose(data, axes)`: `ValueError` unless the normalised axes are in range and distinct and as
many as the array has. -/
def npTranspose {V} [Inhabited V] (axes : List Int) (a : Arr V) : Option (Arr V) :=
  let n := a.shape.length
  let ax := axes.map (normAxis n)
  if axes.length = n ∧ (∀ i ∈ ax, 0 ≤ i ∧ i < n) ∧ ax.Nodup then
    some (npTransposeN (ax.map Int.toNat) a)
  else none

/-- `np.argsort(axes)` (stable sort of the positions; on distinct keys every sort gives the same). -/
def argsort (axes : List Int) : List Int :=
  ((List.range axes.length).mergeSort fun i j => decide (axes.getD i 0 ≤ axes.getD j 0)).map Int.ofNat

/-- Virtual ports that carry data (process/ports/ports.py:899-931 and 983-1023); ConcatPort is treated separately. -/
inductive VP where
  | reshape (newShape oldShape : List Nat)
  | transpose (newShape : List Nat) (axes : List Int)
deriving DecidableEq, Repr

/-- `get_transform_func_fwd` (process/ports/ports.py:911-920, 1001-1011). -/
def VP.fwd {V} [Inhabited V] : VP → Arr V → Option (Arr V)
  | .reshape new _ => npReshape new
  | .transpose _ axes => npTranspose axes

/-- `get_transform_func_bwd` (process/ports/ports.py:922-931, 1013-1023). -/
def VP.bwd {V} [Inhabited V] : VP → Arr V → Option (Arr V)
  | .reshape _ old => npReshape old
  | .transpose _ axes => npTranspose (argsort axes)

/-- Shape of the virtual port. -/
def VP.shape : VP → List Nat
  | .reshape new _ => new
  | .transpose new _ => new

/-- `AbstractPort.reshape` (process/ports/ports.py:305-322): `ReshapeError` is `none`. -/
def reshape (shape newShape : List Nat) : Option VP :=
  if size shape ≠ size newShape then none else some (.reshape newShape shape)

/-- `AbstractPort.flatten` (process/ports/ports.py:324-328). -/
def flatten (shape : List Nat) : Option VP := reshape shape [size shape]

/-- Python's `shape[i]` for a possibly negative index. -/
def pyIndex (shape : List Nat) (i : Int) : Nat := shape.getD (normAxis shape.length i).toNat 0

/-- `AbstractPort.transpose` (process/ports/ports.py:356-391): `none` is TransposeShapeError or TransposeIndexError. -/
def transpose (shape : List Nat) (axes : Option (List Int)) : Option VP :=
  match axes with
  | none =>
    let ax := (List.range shape.length).reverse.map Int.ofNat
    some (.transpose (ax.map (pyIndex shape)) ax)
  | some ax =>
    if shape.length ≠ ax.length then none
    else if ∃ i ∈ ax, normAxis shape.length i < 0 ∨ normAxis shape.length i ≥ shape.length then none
    else some (.transpose (ax.map (pyIndex shape)) ax)

/-- One user call that derives a virtual port. -/
inductive Call where
  | reshape (newShape : List Nat)
  | flatten
  | transpose (axes : Option (List Int))
deriving DecidableEq, Repr

/-- Result of the call on a port with the given shape. -/
def Call.derive (shape : List Nat) : Call → Option VP
  | .reshape s => VirtualPorts.reshape shape s
  | .flatten => VirtualPorts.flatten shape
  | .transpose ax => VirtualPorts.transpose shape ax

/-- Virtual ports created by a chain of calls `port.call1(..).call2(..)...`. -/
def deriveChain (shape : List Nat) : List Call → Option (List VP)
  | [] => some []
  | c :: cs =>
    match c.derive shape with
    | none => none
    | some vp => (deriveChain vp.shape cs).map (vp :: ·)

/-! ## Collecting the virtual ports of a connection -/

/-- A port with everything in front of it (`in_connections`) or behind it (`out_connections`): a port
without connections, or a port of kind virtual (`some vp`), Concat, or real (hierarchical) with its
connections. The port graph is acyclic, so it unfolds into a tree. -/
inductive Tree where
  | leaf (id : String)
  | real (next : List Tree)
  | virt (vp : VP) (next : List Tree)
  | concat (next : List Tree)

mutual
/-- `get_incoming_virtual_ports` (process/ports/ports.py:208-238); `get_outgoing_virtual_ports` (ports.py:259-287) is the
same function over `out_connections`: recursion first, then the port itself. `none` is
NotImplementedError. A port with an empty connection list is a `leaf`, so `next` is never empty. -/
def collect : Tree → Option (Option String × List VP)
  | .leaf id => some (some id, [])
  | .real next => collectAll next
  | .virt vp next => (collectAll next).map fun r => (r.1, r.2 ++ [vp])
  | .concat next => match collectAll next with | none => none | some _ => none
/-- The loop over the connections: lists are concatenated, the last id wins (process/ports/ports.py:226-231). -/
def collectAll : List Tree → Option (Option String × List VP)
  | [] => some (none, [])
  | t :: ts =>
    match collect t with
    | none => none
    | some (i, vs) =>
      match collectAll ts with
      | none => none
      | some (j, ws) => some (j.orElse fun _ => i, vs ++ ws)
end

/-- `get_incoming_transform_funcs` (process/ports/ports.py:187-207): map from the source id to the virtual ports whose
forward functions are applied; an empty list is not entered. A later entry replaces an earlier one. -/
def incomingFuncs (ins : List Tree) : Option (List (Option String × List VP)) :=
  ins.foldlM (fun m t =>
    match collect t with
    | none => none
    | some (i, vs) => if vs.isEmpty then some m else some (m.filter (fun e => e.1 ≠ i) ++ [(i, vs)])) []

/-- `get_outgoing_transform_funcs` (process/ports/ports.py:240-257). -/
def outgoingFuncs (outs : List Tree) : Option (List (Option String × List VP)) :=
  outs.foldlM (fun m t =>
    match collect t with
    | none => none
    | some (i, vs) => some (m.filter (fun e => e.1 ≠ i) ++ [(i, vs)])) []

/-- `VirtualPortTransformer._get_transform` (model/py/ports.py:171-208): apply the functions in list order. -/
def runFuncs {V} (fs : List (Arr V → Option (Arr V))) (a : Arr V) : Option (Arr V) :=
  fs.foldl (fun f g => fun data => (f data).bind g) some a

/-- One more port on a connection: hierarchical (`none`) or virtual. -/
def chainStep (t : Tree) : Option VP → Tree
  | none => .real [t]
  | some vp => .virt vp [t]

/-- A connection through virtual ports and hierarchical real ports: the steps listed from the leaf to the
port at which collection starts. -/
def chainTree (id : String) (steps : List (Option VP)) : Tree := steps.foldl chainStep (.leaf id)

/-- What `incomingFuncs` gives for one incoming connection, looked up for its source id: the functions that
the destination applies to data from that source (model/py/ports.py:161-164; no entry means identity). -/
def transformOf {V} [Inhabited V] (m : List (Option String × List VP)) (id : String)
    (dir : VP → Arr V → Option (Arr V)) : Arr V → Option (Arr V) :=
  match m.find? (fun e => e.1 == some id) with
  | none => some
  | some e => runFuncs (e.2.map dir)

/-! ## ConcatPort -/

/-- Python slices `shape[:axis]` and `shape[axis+1:]` for a possibly negative axis. -/
def sliceTo (l : List Nat) (i : Int) : List Nat :=
  if i < 0 then l.take ((l.length : Int) + i).toNat else l.take i.toNat

/-- `shape[i:]`. -/
def sliceFrom (l : List Nat) (i : Int) : List Nat :=
  if i < 0 then l.drop ((l.length : Int) + i).toNat else l.drop i.toNat

/-- Outcomes of `_get_new_shape`. -/
inductive ConcatRes where
  | ok (shape : List Nat)
  | indexError
  | shapeError
deriving DecidableEq, Repr

/-- `shapes_incompatible` after one more shape (process/ports/ports.py:966-967): overwritten by the last comparison. -/
def concatFlag (ex : List (List Nat)) (cur : List Nat) (bad : Bool) : Bool :=
  match ex.getLast? with
  | none => bad
  | some prev => decide (prev ≠ cur)

/-- The loop of `_get_new_shape` (process/ports/ports.py:957-967): running total, shapes without the axis (newest last),
flag. An IndexError of `shape[axis]` for a too negative axis is also `indexError`. -/
def concatLoop (axis : Int) (total : Nat) (ex : List (List Nat)) (bad : Bool) :
    List (List Nat) → Option (Nat × List (List Nat) × Bool)
  | [] => some (total, ex, bad)
  | shape :: rest =>
    if axis ≥ shape.length ∨ axis < -(shape.length : Int) then none
    else
      let cur := sliceTo shape axis ++ sliceFrom shape (axis + 1)
      concatLoop axis (total + pyIndex shape axis) (ex ++ [cur]) (concatFlag ex cur bad) rest

/-- `ConcatPort._get_new_shape` (process/ports/ports.py:951-974). The list of ports is never empty (ports.py:348). -/
def concatShape (shapes : List (List Nat)) (axis : Int) : ConcatRes :=
  match concatLoop axis 0 [] false shapes with
  | none => .indexError
  | some (total, ex, bad) =>
    if bad then .shapeError
    else
      let new := ex.headD []
      .ok (sliceTo new axis ++ [total] ++ sliceFrom new axis)

end Verif.VirtualPorts
