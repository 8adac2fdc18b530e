/-!
# Model of process model selection

`src/lava/magma/core/run_configs.py`.
-/

namespace Verif.RunCfg

/-- What `select` looks at in a process model class. `nc` means an Nc model whose required resources fit the
hardware of the configuration. -/
structure Pm where
  id : Nat
  sub : Bool
  py : Bool
  nc : Bool
  c : Bool
  tags : List String
deriving DecidableEq, Repr

/-- The run configurations for Loihi (run_configs.py:345-479). -/
inductive Target where
  | sim | hw
deriving DecidableEq, Repr

/-- Settings of a configuration (run_configs.py:152-166); `exc` is the entry of the process' class in the exception
map, if any. -/
structure Cfg where
  target : Target
  tag : Option String
  selectSub : Bool
  exc : Option Pm

inductive Err where
  | noModels | notSupported | noTag | noLeaf | indexError
deriving DecidableEq, Repr

/-- Indices of the models with a property, in list order. -/
def idxs (f : Pm → Bool) (l : List Pm) : List Nat := (List.range l.length).filter fun i => (l[i]?.map f).getD false

/-- `_is_hw_supported` (run_configs.py:328-330, 411-417, 473-479). -/
def supported (t : Target) (pm : Pm) : Bool :=
  match t with
  | .sim => pm.py
  | .hw => pm.py || pm.c || pm.nc

/-- `_order_according_to_resources` (run_configs.py:355-361, 394-409, 456-471). -/
def order (t : Target) (l : List Pm) : List Nat :=
  match t with
  | .sim => idxs Pm.py l
  | .hw => idxs Pm.nc l ++ idxs Pm.c l ++ idxs Pm.py l

/-- Case 2: a single model (run_configs.py:214-250). -/
def selectOne (cfg : Cfg) (pm : Pm) : Except Err Pm :=
  if ¬ (pm.sub ∨ supported cfg.target pm) then .error .notSupported
  else
    match cfg.tag with
    | none => .ok pm
    | some t =>
      if pm.tags.length = 0 then .ok pm
      else if t ∈ pm.tags then .ok pm
      else .error .noTag

/-- `[idx for idx in sub_pm_idxs if tag in proc_models[sub_pm_idxs[idx]].tags]` (run_configs.py:283-285), with the double
indexing as written; `none` is IndexError. -/
def validSubs (l : List Pm) (t : String) (subs : List Nat) : List Nat → Option (List Nat)
  | [] => some []
  | idx :: rest =>
    match subs[idx]? with
    | none => none
    | some j =>
      match l[j]? with
      | none => none
      | some pm => (validSubs l t subs rest).map fun r => if t ∈ pm.tags then idx :: r else r

/-- `proc_models[i]`. -/
def pick (l : List Pm) (i : Nat) : Except Err Pm :=
  match l[i]? with
  | some pm => .ok pm
  | none => .error .indexError

/-- Case 3a: several models, a SubProcessModel is wanted and available (run_configs.py:257-292). -/
def selectSubs (cfg : Cfg) (l : List Pm) : Except Err Pm :=
  let subs := idxs Pm.sub l
  if subs.length = 1 then pick l (subs.headD 0)
  else
    match cfg.tag with
    | none => pick l (subs.headD 0)
    | some t =>
      match validSubs l t subs subs with
      | none => .error .indexError
      | some [] => .error .noTag
      | some (i :: _) => pick l i

/-- Case 3b: several models (run_configs.py:293-326). -/
def selectLeaf (cfg : Cfg) (l : List Pm) : Except Err Pm :=
  match order cfg.target l with
  | [] => .error .noLeaf
  | i :: is =>
    match cfg.tag with
    | none => pick l i
    | some t =>
      match (i :: is).filter fun k => (l[k]?.map fun pm => decide (t ∈ pm.tags)).getD false with
      | [] => .error .noTag
      | k :: _ => pick l k

/-- `AbstractLoihiRunCfg.select` (run_configs.py:168-326). -/
def select (cfg : Cfg) (l : List Pm) : Except Err Pm :=
  match l with
  | [] => .error .noModels
  | pm :: rest =>
    match cfg.exc with
    | some e => .ok e
    | none =>
      if rest = [] then selectOne cfg pm
      else if cfg.selectSub ∧ (idxs Pm.sub l).length > 0 then selectSubs cfg l
      else selectLeaf cfg l

end Verif.RunCfg
