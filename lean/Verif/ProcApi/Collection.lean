/-
Model of the member collections of a process (`proc.vars`, `proc.in_ports`, ...), of the id servers
and of `proc_params`:
* `Collection`, `_find_attr_by_type`, `_init_proc_member_obj`, `ProcessServer`, `ProcessParameters`
  in `src/lava/magma/core/process/process.py`;
* `IdGeneratorSingleton` in `src/lava/magma/core/process/interfaces.py`;
* `VarServer` in `src/lava/magma/core/process/variable.py`.

Not modelled: threads creating processes at the same time, members whose names clash with methods of
`Collection` itself, and mutation of a value stored in `proc_params` behind the back of the wrapper.
-/

namespace Verif.ProcApi

/-! ### Insertion-ordered dictionaries -/

/-- `d[k] = v` on a Python dict: an existing key keeps its position, a new one goes to the end. -/
def dictSet {α : Type} : List (String × α) → String → α → List (String × α)
  | [], k, v => [(k, v)]
  | (k', v') :: rest, k, v => if k' = k then (k, v) :: rest else (k', v') :: dictSet rest k v

/-- `d.get(k)` / `d[k]`; `none` where Python raises `KeyError`. -/
def dictGet {α : Type} : List (String × α) → String → Option α
  | [], _ => none
  | (k', v') :: rest, k => if k' = k then some v' else dictGet rest k

/-- `d.update(other)`. -/
def dictUpdate {α : Type} (d new : List (String × α)) : List (String × α) :=
  new.foldl (fun d kv => dictSet d kv.1 kv.2) d

/-! ### `Collection` -/

/-- `Collection` (core/process/process.py:570-592): the members in dictionary order and the iterator position. -/
structure Coll where
  members : List (String × Nat)
  it : Int := -1
deriving DecidableEq, Repr

/-- `Collection.__init__` (core/process/process.py:586-592). -/
def Coll.empty : Coll := ⟨[], -1⟩

/-- `add_members` (core/process/process.py:604-615). -/
def Coll.add (c : Coll) (ms : List (String × Nat)) : Coll :=
  { c with members := dictUpdate c.members ms }

/-- `__next__` (core/process/process.py:642-647): `none` is `StopIteration`.  The value is looked up by attribute,
which `add_members` keeps equal to the dictionary entry. -/
def Coll.next (c : Coll) : Option Nat × Coll :=
  let it := c.it + 1
  if it < c.members.length then
    (((c.members[it.toNat]?).map (·.2)), { c with it := it })
  else (none, { c with it := -1 })

/-- A `for` loop over the collection that calls `next` at most `fuel` times; `brk` says after how
many elements the body leaves the loop (`break`, `return`, an exception, or a hit of the `in`
operator); `none` runs to the end.  Returns the visited members, whether the loop ended, and the
collection. -/
def Coll.loop : Nat → Option Nat → Coll → List Nat × Bool × Coll
  | 0, _, c => ([], false, c)
  | fuel + 1, brk, c =>
    match c.next with
    | (none, c') => ([], true, c')
    | (some m, c') =>
      if brk = some 0 then ([m], true, c')
      else
        let r := Coll.loop fuel (brk.map (· - 1)) c'
        (m :: r.1, r.2)

/-- A loop over a collection whose body runs another complete loop over the same collection.
Returns what the outer loop visited. -/
def Coll.nested (inner : Nat) : Nat → Coll → List Nat × Bool × Coll
  | 0, c => ([], false, c)
  | fuel + 1, c =>
    match c.next with
    | (none, c') => ([], true, c')
    | (some m, c') =>
      let r := Coll.nested inner fuel (Coll.loop inner none c').2.2
      (m :: r.1, r.2)

/-- Insertion into a list sorted by name. -/
def insName (a : String × Nat) : List (String × Nat) → List (String × Nat)
  | [] => [a]
  | b :: rest => if a.1 ≤ b.1 then a :: b :: rest else b :: insName a rest

/-- `dir(self)`: the attributes in alphabetical order of their names. -/
def dirOf (attrs : List (String × Nat)) : List (String × Nat) := attrs.foldr insName []

/-- `_find_attr_by_type` (core/process/process.py:264-271): `dir(self)` lists the attribute names in
alphabetical order.  Attributes are given as name and object. -/
def findAttrs (attrs : List (String × Nat)) (isKind : Nat → Bool) : List (String × Nat) :=
  (dirOf attrs).filter (fun a => isKind a.2)

/-- `_init_proc_member_obj` (core/process/process.py:273-278): name given to each object; later entries win when
one object has two attribute names. -/
def initNames (attrs : List (String × Nat)) (nm : Nat → Option String) : Nat → Option String :=
  attrs.foldl (fun nm a => fun o => if o = a.2 then some a.1 else nm o) nm

/-! ### Id servers -/

/-- `ProcessServer` / `VarServer` (core/process/process.py:533-567, variable.py:197-231,
core/process/interfaces.py:58-79): next id and the registered objects. -/
structure Server where
  next : Nat := 0
  objs : List Nat := []
deriving DecidableEq, Repr

/-- `register` (core/process/process.py:556-561, variable.py:220-225): returns the id. -/
def Server.register (s : Server) (o : Nat) : Nat × Server :=
  (s.next, { next := s.next + 1, objs := s.objs ++ [o] })

/-- `reset_server` (core/process/process.py:563-567): the next use creates a fresh singleton. -/
def Server.reset (_ : Server) : Server := {}

inductive SrvOp where
  | register (obj : Nat)
  | reset
deriving DecidableEq, Repr

/-- Runs a history; the output lists the ids handed out since the last reset. -/
def Server.run : Server × List Nat → List SrvOp → Server × List Nat
  | st, [] => st
  | (s, ids), .register o :: ops =>
    Server.run ((s.register o).2, ids ++ [(s.register o).1]) ops
  | (s, _), .reset :: ops => Server.run (s.reset, []) ops

/-- The process name: `proc_params.get("name") or f"Process_{self.id}"` (core/process/process.py:170-172). -/
def procName (given : Option String) (id : Nat) : String :=
  match given with
  | some n => if n = "" then "Process_" ++ toString id else n
  | none => "Process_" ++ toString id

/-! ### `ProcessParameters` -/

/-- `ProcessParameters` (core/process/process.py:479-514). -/
structure Params where
  d : List (String × Int)
deriving DecidableEq, Repr

/-- `__setitem__` (core/process/process.py:494-500); `none` is `KeyError`. -/
def Params.setItem (p : Params) (k : String) (v : Int) : Option Params :=
  if (dictGet p.d k).isSome then none else some ⟨dictSet p.d k v⟩

/-- `overwrite` (core/process/process.py:502-505). -/
def Params.overwrite (p : Params) (k : String) (v : Int) : Params := ⟨dictSet p.d k v⟩

/-- `__getitem__` (core/process/process.py:507-508); `none` is `KeyError`. -/
def Params.getItem (p : Params) (k : String) : Option Int := dictGet p.d k

/-- `get` (core/process/process.py:510-514). -/
def Params.get (p : Params) (k : String) (dflt : Int) : Int :=
  match dictGet p.d k with
  | none => dflt
  | some v => v

inductive ParOp where
  | set (k : String) (v : Int)
  | over (k : String) (v : Int)
deriving DecidableEq, Repr

/-- One operation; a raising assignment leaves the parameters as they were. -/
def Params.step (p : Params) : ParOp → Params
  | .set k v => (p.setItem k v).getD p
  | .over k v => p.overwrite k v

end Verif.ProcApi
