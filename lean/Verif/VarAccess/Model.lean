/-!
# Model of variable access (`Var.get` / `Var.set`)

Three parties connected by FIFO channels (C01), each modelled as a transformer of token streams:
the runtime (`runtime.py`: `set_var` 516-571, `get_var` 573-627), the runtime service
(`runtime_service.py`: `_handle_get_set` 125-146 and its relays 93-123), and the process model
(`model.py`: `_get_var` 109-140, `_set_var` 142-199, `run` 207-239).

Simplifications: every token is an integer (the code sends one-element float64 arrays; the payload
is never computed with, only copied); values are representable in the element type of the target variable
(the cast of `i[...] = x` is the identity); the element types and `on_var_update` are not modelled.
`none` means that a party waits forever for a token that does not come, or that it failed with an
exception (the two are told apart by `Res`).
-/

namespace Verif.VarAccess

/-- A token on a management channel. -/
abbrev Tok := Int

/-- `MGMT_COMMAND` (mgmt_token_enums.py:38-55). -/
def STOP : Tok := -1
def PAUSE : Tok := -2
def GET_DATA : Tok := -3
def SET_DATA : Tok := -4

/-- `MGMT_RESPONSE` (mgmt_token_enums.py:58-75). -/
def ERROR : Tok := -2
def SET_COMPLETE : Tok := -6

/-- A numpy array: its elements in logical (C) order, and the order in which `np.nditer` with the default
order 'K' visits these logical positions, i.e. the order of the elements in memory. -/
structure NdArr where
  data : List Tok
  korder : List Nat
deriving DecidableEq, Repr

/-- Every logical position has exactly one place in memory. -/
def NdArr.Wf (a : NdArr) : Prop := a.korder.Perm (List.range a.data.length)

/-- An array in C order, as the builder creates it (py_builder.py:401-403). -/
def NdArr.ofList (d : List Tok) : NdArr := { data := d, korder := List.range d.length }

/-- A scipy csr matrix: the stored entries (unique positions), in the order of `scipy.sparse.find`;
explicit zeros are stored entries with value 0. -/
structure Csr where
  entries : List ((Nat × Nat) × Tok)
deriving DecidableEq, Repr

/-- `find(mat, explicit_zeros=True)` (sparse.py:10-32): all stored entries. -/
def Csr.findAll (m : Csr) : List ((Nat × Nat) × Tok) := m.entries

/-- `scipy.sparse.find(mat)`: stored entries whose value is not zero. -/
def Csr.findNz (m : Csr) : List ((Nat × Nat) × Tok) := m.entries.filter fun x => x.2 ≠ 0

/-- `csr_matrix((buffer, (dst, src)), shape)`: fails if the lengths differ. -/
def mkCsr (pos : List (Nat × Nat)) (vals : List Tok) : Option Csr :=
  if pos.length = vals.length then some { entries := pos.zip vals } else none

/-- The value of a variable of a process model, by Python type. -/
inductive VarVal where
  /-- `int` -/
  | pyInt (v : Tok)
  /-- `float`: accepted by no branch of `_get_var`/`_set_var` -/
  | pyFloat (v : Tok)
  /-- `np.int32` -/
  | npInt (v : Tok)
  | arr (a : NdArr)
  | csr (m : Csr)
  | str (s : List Nat)
deriving DecidableEq, Repr

/-- Variables of a process model by id. -/
abbrev Vars := Nat → Option VarVal

def Vars.upd (vs : Vars) (i : Nat) (v : VarVal) : Vars := fun j => if j = i then some v else vs j

/-- Outcome of a handler that reads from a token stream. -/
inductive Res (α : Type) where
  | ok (a : α)
  /-- waits forever -/
  | blocked
  /-- raised an exception -/
  | failed
deriving DecidableEq, Repr

/-! ## Process model -/

/-- `_get_var` (model.py:109-140): the tokens sent to the runtime service. -/
def getVar (v : VarVal) : List Tok :=
  match v with
  | .pyInt x | .npInt x => [1, x]
  | .arr a => (a.data.length : Int) :: a.data
  | .csr m => (m.entries.length : Int) :: m.findAll.map (·.2)
  | .str s => (s.length : Int) :: s.map Int.ofNat
  | .pyFloat _ => []

/-- The loop `for i in var_iter` of `_set_var` (model.py:163-171): `order` is what is left of the iteration,
`num` the remaining `num_items`. Returns the data and what is left in the channel. -/
def setLoop : List Nat → Int → List Tok → List Tok → Res (List Tok × List Tok)
  | [], _, data, inp => .ok (data, inp)
  | pos :: order, num, data, inp =>
    if num = 0 then .ok (data, inp)
    else match inp with
      | [] => .blocked
      | x :: inp => setLoop order (num - 1) (data.set pos x) inp

/-- Takes exactly `n` tokens. -/
def takeN (n : Nat) (inp : List Tok) : Res (List Tok × List Tok) :=
  if inp.length < n then .blocked else .ok (inp.take n, inp.drop n)

/-- `_set_var` (model.py:142-201) after the variable was looked up: new value and rest of the channel. -/
def setVar (v : VarVal) (inp : List Tok) : Res (VarVal × List Tok) :=
  match v with
  | .pyInt _ =>
    match inp with
    -- `setattr(self, var_name, buffer.item())` with a float64 buffer: a Python float
    | _ :: x :: inp => .ok (.pyFloat x, inp)
    | _ => .blocked
  | .npInt _ =>
    match inp with
    | _ :: x :: inp => .ok (.npInt x, inp)
    | _ => .blocked
  | .arr a =>
    match inp with
    | n :: inp =>
      match setLoop a.korder n a.data inp with
      | .ok (d, rest) => .ok (.arr { a with data := d }, rest)
      | .blocked => .blocked
      | .failed => .failed
    | _ => .blocked
  | .csr m =>
    match inp with
    | n :: inp =>
      match takeN n.toNat inp with
      | .ok (buf, rest) =>
        match mkCsr (m.findNz.map (·.1)) buf with
        | some m' => .ok (.csr m', rest)
        | none => .failed
      | .blocked => .blocked
      | .failed => .failed
    | _ => .blocked
  | .str _ =>
    match inp with
    | n :: inp =>
      match takeN n.toNat inp with
      | .ok (buf, rest) => .ok (.str (buf.map Int.toNat), rest)
      | .blocked => .blocked
      | .failed => .failed
    | _ => .blocked
  | .pyFloat _ => .failed

/-- One turn of the command loop `run` (model.py:207-238) for GET and SET commands: new variables, tokens sent
to the service, rest of the command channel. Other commands are not modelled here. -/
def pmServe (vs : Vars) (inp : List Tok) : Res (Vars × List Tok × List Tok) :=
  match inp with
  | c :: vid :: inp =>
    match vs vid.toNat with
    | none => .failed
    | some v =>
      if c = GET_DATA then .ok (vs, getVar v, inp)
      else if c = SET_DATA then
        match setVar v inp with
        | .ok (v', rest) => .ok (vs.upd vid.toNat v', [SET_COMPLETE], rest)
        | .blocked => .blocked
        | .failed => .failed
      else .failed
  | _ => .blocked

/-! ## Runtime service -/

/-- Requests of the runtime relayed by `_handle_get_set` for a SET (runtime_service.py:136-144, 104-118):
the model id is removed, everything else is forwarded to that model. Result: model id, tokens sent to
the process model, rest of the channel from the runtime. -/
def relaySet (inp : List Tok) : Res (Nat × List Tok × List Tok) :=
  match inp with
  | c :: mid :: vid :: n :: inp =>
    match takeN n.toNat inp with
    | .ok (d, rest) => .ok (mid.toNat, c :: vid :: n :: d, rest)
    | .blocked => .blocked
    | .failed => .failed
  | _ => .blocked

/-- GET (runtime_service.py:128-135, 120-125). -/
def relayGet (inp : List Tok) : Res (Nat × List Tok × List Tok) :=
  match inp with
  | c :: mid :: vid :: inp => .ok (mid.toNat, [c, vid], inp)
  | _ => .blocked

/-- `_relay_to_runtime_data_given_model_id` (runtime_service.py:92-102). -/
def relayBack (inp : List Tok) : Res (List Tok × List Tok) :=
  match inp with
  | n :: inp =>
    match takeN n.toNat inp with
    | .ok (d, rest) => .ok (n :: d, rest)
    | .blocked => .blocked
    | .failed => .failed
  | _ => .blocked

/-! ## Runtime -/

/-- Tokens sent by `Runtime.set_var` (runtime.py:539-565) for a value given by its elements in C order. -/
def rtSet (mid vid : Nat) (value : List Tok) : List Tok :=
  [SET_DATA, (mid : Int), (vid : Int), (value.length : Int)] ++ value

/-- Tokens sent by `Runtime.get_var` (runtime.py:597-600). -/
def rtGet (mid vid : Nat) : List Tok := [GET_DATA, (mid : Int), (vid : Int)]

/-- What `Runtime.get_var` makes of the answer (runtime.py:602-625) for a variable of `size` elements:
a buffer of zeros filled from the left. More items than `size` raise an IndexError. -/
def rtRecv (size : Nat) (inp : List Tok) : Res (List Tok × List Tok) :=
  match inp with
  | n :: inp =>
    match takeN n.toNat inp with
    | .ok (d, rest) => if size < d.length then .failed else .ok (d ++ List.replicate (size - d.length) 0, rest)
    | .blocked => .blocked
    | .failed => .failed
  | _ => .blocked

/-- `runtime_service_to_process` of the model ids: all process models of a domain. -/
abbrev Domain := Nat → Option Vars

def Domain.upd (dom : Domain) (m : Nat) (vs : Vars) : Domain := fun j => if j = m then some vs else dom j

/-- A complete `Var.set`: runtime → service → process model → back. The result is the new state of all
models and the tokens left in the command channel of the addressed model. -/
def varSet (dom : Domain) (mid vid : Nat) (value : List Tok) : Res (Domain × List Tok) :=
  match relaySet (rtSet mid vid value) with
  | .ok (m, toks, _) =>
    match dom m with
    | none => .failed
    | some vs =>
      match pmServe vs toks with
      | .ok (vs', out, rest) => if out = [SET_COMPLETE] then .ok (dom.upd m vs', rest) else .failed
      | .blocked => .blocked
      | .failed => .failed
  | .blocked => .blocked
  | .failed => .failed

/-- A complete `Var.get` of a variable of `size` elements. -/
def varGet (dom : Domain) (mid vid size : Nat) : Res (List Tok) :=
  match relayGet (rtGet mid vid) with
  | .ok (m, toks, _) =>
    match dom m with
    | none => .failed
    | some vs =>
      match pmServe vs toks with
      | .ok (_, out, _) =>
        match relayBack out with
        | .ok (toks, _) =>
          match rtRecv size toks with
          | .ok (d, _) => .ok d
          | .blocked => .blocked
          | .failed => .failed
        | .blocked => .blocked
        | .failed => .failed
      | .blocked => .blocked
      | .failed => .failed
  | .blocked => .blocked
  | .failed => .failed

/-! ## Sparse `Var.set` / `Var.get` (variable.py:131-194) -/

/-- Check of `Var.set` for a sparse value (variable.py:145-157); `init` is the initial value of the Var.
(Shapes are not modelled.) -/
def sparseSetCheck (init value : Csr) : Option (List Tok) :=
  if init.findAll.map (·.1) = value.findAll.map (·.1) then some (value.findAll.map (·.2)) else none

/-- `Var.set` of a sparse value. -/
def sparseSet (dom : Domain) (mid vid : Nat) (init value : Csr) : Res (Domain × List Tok) :=
  match sparseSetCheck init value with
  | some vals => varSet dom mid vid vals
  | none => .failed

/-- `Var.get` of a sparse Var (variable.py:177-181): the values received are put on the non-zero positions
of the initial value. For sparse variables the runtime's buffer has the announced length
(runtime.py:606-612). -/
def sparseGet (dom : Domain) (mid vid : Nat) (init : Csr) : Res Csr :=
  match relayGet (rtGet mid vid) with
  | .ok (m, toks, _) =>
    match dom m with
    | none => .failed
    | some vs =>
      match pmServe vs toks with
      | .ok (_, out, _) =>
        match relayBack out with
        | .ok (toks, _) =>
          match mkCsr (init.findNz.map (·.1)) toks.tail with
          | some c => .ok c
          | none => .failed
        | .blocked => .blocked
        | .failed => .failed
      | .blocked => .blocked
      | .failed => .failed
  | .blocked => .blocked
  | .failed => .failed

/-! ## Alias variables (variable.py:80-129, 131-194) -/

/-- A Var: its alias target, if any. Vars are numbered in order of creation. -/
abbrev AliasMap := Nat → Option Nat

/-- `Var.set`/`Var.get` delegation along `aliased_var` (variable.py:136-137, 169-170); with fuel, since the
code recurses. `none`: fuel exhausted, i.e. the recursion of the code does not end. -/
def resolve (al : AliasMap) : Nat → Nat → Option Nat
  | 0, _ => none
  | fuel + 1, v =>
    match al v with
    | none => some v
    | some w => resolve al fuel w

/-- A hierarchy of processes and the Vars in it. -/
structure Net where
  /-- `parent_proc` -/
  parent : Nat → Option Nat
  /-- `Var.process` -/
  proc : Nat → Nat
  /-- `Var.shape` -/
  shape : Nat → List Nat
  alias : AliasMap

/-- `is_sub_proc_of` (process.py:304-312): `q` is reached from `p` by one or more `parent_proc` steps. -/
inductive SubProc (parent : Nat → Option Nat) : Nat → Nat → Prop where
  | direct {p q : Nat} : parent p = some q → SubProc parent p q
  | step {p r q : Nat} : parent p = some r → SubProc parent r q → SubProc parent p q

/-- `Var.alias` (variable.py:80-107): rejected (`none`) if the shapes differ. The check of `shareable` is
analogous and not modelled. -/
def Net.aliasTo (n : Net) (v w : Nat) : Option Net :=
  if n.shape v = n.shape w then some { n with alias := fun x => if x = v then some w else n.alias x }
  else none

/-- `validate_alias` of all Vars (variable.py:109-129), called for every process that is compiled
(compiler_graphs.py:997). -/
def Net.Validated (n : Net) : Prop :=
  ∀ v w, n.alias v = some w → SubProc n.parent (n.proc w) (n.proc v) ∧ n.proc w ≠ n.proc v

end Verif.VarAccess
