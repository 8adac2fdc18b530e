/-!
# Model of the core mapper

`src/lava/magma/compiler/mapper.py`.
-/

namespace Verif.Mapper

/-- Logical core ids of the address objects (address.py:9-15), by object. The objects are mutated in place, hence a heap.
The `chip_id` of a logical address is never read by the mapper and is left out here; see `C33_witness_logical_chip_ignored`. -/
abbrev Heap := Nat → Nat

/-- An Nc builder: the number of cores per chip chosen for it (mapper.py:83-87) and the address objects of its resources,
then ports, variables and var ports, in the order in which `map_cores` visits them (mapper.py:89-114). -/
structure Builder where
  numCores : Nat
  addrs : List Nat

/-- `mapper_core_dict`, `mapper_core_offset` (mapper.py:37-39) and the address objects. -/
structure St where
  dict : Nat → Option Nat
  off : Nat
  heap : Heap

def Heap.set (h : Heap) (o v : Nat) : Heap := fun x => if x = o then v else h x

/-- The loop body for one address (mapper.py:55-65, 90-102): the new state and the global core id given. -/
def mapAddr (s : St) (o : Nat) : St × Nat :=
  match s.dict (s.heap o) with
  | none =>
    ({ dict := fun k => if k = s.heap o then some s.off else s.dict k, off := s.off + 1, heap := s.heap.set o s.off },
      s.off)
  | some g => ({ s with heap := s.heap.set o g }, g)

/-- The virtual address for a global core id (mapper.py:62-65, 99-102): (chip, core). -/
def virt (n g : Nat) : Nat × Nat := (g / n, g % n)

def mapAddrs : St → List Nat → St × List Nat
  | s, [] => (s, [])
  | s, o :: os =>
    let r := mapAddr s o
    let q := mapAddrs r.1 os
    (q.1, r.2 :: q.2)

/-- One builder (mapper.py:82-115): the dictionary is cleared at the end, the offset is kept. -/
def mapBuilder (s : St) (b : Builder) : St × List (Nat × Nat) :=
  let r := mapAddrs s b.addrs
  ({ r.1 with dict := fun _ => none }, r.2.map (virt b.numCores))

/-- All builders (mapper.py:82-115): for each the virtual addresses in the order of its address objects. -/
def mapBuilders : St → List Builder → St × List (List (Nat × Nat))
  | s, [] => (s, [])
  | s, b :: bs =>
    let r := mapBuilder s b
    let q := mapBuilders r.1 bs
    (q.1, r.2 :: q.2)

/-- A new mapper (mapper.py:37-39). -/
def init (h : Heap) : St := { dict := fun _ => none, off := 0, heap := h }

/-- `Mapper().map_cores(..)`, Nc builders. -/
def mapCores (h : Heap) (bs : List Builder) : List (List (Nat × Nat)) := (mapBuilders (init h) bs).2

end Verif.Mapper
