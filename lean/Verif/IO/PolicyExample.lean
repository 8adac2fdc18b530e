import Verif.IO.PolicyProps
import Mathlib.Algebra.Group.Int.Defs

/-! # C126: examples, and what the constructors of Injector and Extractor accept -/

namespace Verif.IO.PolicyNet

/-- A network that adds up its inputs; everything non-blocking; the Injector accumulates. -/
def exNet : Net Int Int Int where
  capIn := 2
  capOut := 2
  inj := ⟨true, true, true⟩
  ext := ⟨true, true, false⟩
  F := fun d x => d + x
  G := fun d => d
  d0 := 0
  instant := true

def exProg : List (Op Int) := [.send 1, .send 2, .send 3, .start 2, .recv, .wait, .recv]

def exRound : List Who := [.app, .inAnn, .inBack, .inj, .ext, .sync, .outAnn, .outBack]

example : WaitsAfter 0 exProg := by simp [exProg, WaitsAfter]

example : ∀ w : Who, w ∈ exRound := by intro w; cases w <;> simp [exRound]

/-- The third item is dropped (both slots are taken), the first time step gets the sum of the first two, and `receive` is too early
once. -/
theorem C126_example :
    let s := exec exNet (init exNet exProg) (List.replicate 45 exRound).flatten
    s.offers = [(1, true), (2, true), (3, false)] ∧ s.fed = [3, 0] ∧ s.emits = [(3, true), (3, true)] ∧ s.log = [3, 3] ∧ s.prog = [] ∧
      (exProg.map opLoad).sum + 8 < 45 := by
  decide +kernel

/-- **C126, finding.** With `NON_BLOCKING_ZEROS` what `receive` returns depends on timing, even right after the `wait` for the run whose
output it is to return: the item may still be in flight, and zeros cannot be told from an output that is zero. -/
theorem C126_witness_zeros_after_wait :
    (exec exNet (init exNet [.send 1, .start 1, .wait, .recv])
      [.app, .inAnn, .app, .inj, .ext, .sync, .app, .app]).log = [0] ∧
    (exec exNet (init exNet [.send 1, .start 1, .wait, .recv])
      [.app, .inAnn, .app, .inj, .ext, .sync, .outAnn, .app, .app]).log = [1] := by
  decide +kernel

/-- **C126, finding.** With `NON_BLOCKING_DROP` an item may be dropped although everything sent before has been received. -/
theorem C126_witness_drop_when_empty :
    let s := exec { exNet with capIn := 1 } (init { exNet with capIn := 1 } [.start 1, .send 1, .wait, .send 2])
      [.app, .app, .inAnn, .inj, .ext, .sync, .app, .app]
    s.fed = [1] ∧ s.k = 1 ∧ s.pin.vis = [] ∧ s.pin.flight = [] ∧ s.offers = [(1, true), (2, false)] := by
  decide +kernel

/-- **C126, finding.** Slots come back one by one: after the Injector's model has taken both items at once (`ACCUMULATE`) the pipe is empty, but the next item is dropped; after the first acknowledgement one more
is taken, and the next is dropped again. -/
theorem C126_witness_slots_come_back_one_by_one :
    let n := { exNet with capIn := 2, inj := ⟨true, true, true⟩ }
    let s := exec n (init n [.start 1, .send 1, .send 2, .wait, .send 3, .send 4, .send 5])
      [.app, .app, .app, .inAnn, .inAnn, .inj, .ext, .sync, .app, .app, .inBack, .app, .app]
    s.fed = [3] ∧ s.pin.vis = [] ∧ s.prog = [] ∧ s.offers = [(1, true), (2, true), (3, false), (4, true), (5, false)] := by
  decide +kernel

/-- **C126, finding.** A blocking receive that had to wait takes one item, even with `ACCUMULATE` and two items in the pipe: here the
Extractor accumulates, the call blocks, two outputs arrive, and the call returns the first of them. -/
theorem C126_witness_accumulate_after_wait :
    let n := { exNet with ext := ⟨true, false, true⟩ }
    let s := exec n (init n [.start 2, .recv])
      [.app, .app, .inj, .ext, .sync, .inj, .ext, .sync, .outAnn, .outAnn, .app]
    s.log.length = 1 ∧ s.pout.vis.length = 1 := by
  decide +kernel

/-! ### Constructors -/

/-- A Python value as far as the checks look at it. `int i`: a Python `int` or a `np.int64`; other numbers (bool, `np.int32`, float) are
`np.issubdtype(type(v), int) == False`. -/
inductive Val where
  | int (i : Int)
  | other
deriving DecidableEq

inductive ShapeArg where
  | tuple (l : List Val)
  | other
deriving DecidableEq

/-- A `channel_config` argument: omitted (or falsy, e.g. `None`, `0`); a `ChannelConfig` with fields that are or are not of their enum
types; something else. -/
inductive ConfArg where
  | falsy
  | conf (sendFull receiveEmpty receiveNotEmpty : Bool)
  | other
deriving DecidableEq

inductive Err where
  | typeError
  | valueError
deriving DecidableEq

/-- `validate_shape` (io/utils.py:212-231), the loop -/
def checkShape : List Val → Option Err
  | [] => none
  | .other :: _ => some .typeError
  | .int i :: l => if i ≤ 0 then some .valueError else checkShape l

/-- `validate_shape` (io/utils.py:212-231) -/
def validateShape : ShapeArg → Option Err
  | .other => some .typeError
  | .tuple l => checkShape l

/-- `validate_buffer_size` (io/utils.py:234-247) -/
def validateBufferSize : Val → Option Err
  | .other => some .typeError
  | .int i => if i ≤ 0 then some .valueError else none

/-- `validate_channel_config` (io/utils.py:250-286), after `channel_config or ChannelConfig()` (injector.py:56, extractor.py:57) -/
def validateConfig : ConfArg → Option Err
  | .falsy => none
  | .other => some .typeError
  | .conf a b c => if !a then some .typeError else if !b then some .typeError else if !c then some .typeError else none

/-- `Injector.__init__` and `Extractor.__init__` (injector.py:49-70, extractor.py:50-76): the three checks in this order. -/
def construct (s : ShapeArg) (b : Val) (c : ConfArg) : Option Err :=
  match validateShape s with
  | some e => some e
  | none => match validateBufferSize b with
    | some e => some e
    | none => validateConfig c

/-- `VarWire.__init__` (extractor.py:208-232): no shape. -/
def constructWire (b : Val) (c : ConfArg) : Option Err :=
  match validateBufferSize b with
  | some e => some e
  | none => validateConfig c

theorem checkShape_none (l : List Val) : checkShape l = none ↔ ∀ v ∈ l, ∃ i, v = .int i ∧ 0 < i := by
  induction l with
  | nil => simp [checkShape]
  | cons v l ih =>
    cases v with
    | other => simp [checkShape]
    | int i =>
      simp only [checkShape, List.mem_cons, forall_eq_or_imp, Val.int.injEq, exists_eq_left']
      by_cases h : i ≤ 0
      · simp [h]; omega
      · simp only [h, if_false, ih]
        constructor
        · intro h'; exact ⟨by omega, h'⟩
        · exact fun h' => h'.2

/-- **C126.** An Injector or Extractor is made exactly for a tuple of positive integers as shape, a positive integer as buffer size and a
`ChannelConfig` of proper policies (or none): in particular every buffer that exists has a slot. -/
theorem C126_constructor (s : ShapeArg) (b : Val) (c : ConfArg) :
    construct s b c = none ↔
      (∃ l, s = .tuple l ∧ ∀ v ∈ l, ∃ i, v = .int i ∧ 0 < i) ∧ (∃ i, b = .int i ∧ 0 < i) ∧ (c = .falsy ∨ c = .conf true true true) := by
  have hb : validateBufferSize b = none ↔ ∃ i, b = .int i ∧ 0 < i := by
    cases b with
    | other => simp [validateBufferSize]
    | int i =>
      simp only [validateBufferSize, Val.int.injEq, exists_eq_left']
      by_cases h : i ≤ 0
      · simp [h]
      · simp only [h, if_false, true_iff]; omega
  have hs : validateShape s = none ↔ ∃ l, s = .tuple l ∧ ∀ v ∈ l, ∃ i, v = .int i ∧ 0 < i := by
    cases s with
    | other => simp [validateShape]
    | tuple l => simp only [validateShape, checkShape_none, ShapeArg.tuple.injEq, exists_eq_left']
  have hc : validateConfig c = none ↔ c = .falsy ∨ c = .conf true true true := by
    cases c with
    | falsy => simp [validateConfig]
    | other => simp [validateConfig]
    | conf a b c => cases a <;> cases b <;> cases c <;> simp [validateConfig]
  unfold construct
  rw [← hb, ← hs, ← hc]
  cases validateShape s with
  | some e => simp
  | none => cases validateBufferSize b with
    | some e => simp
    | none => simp

/-- **C126.** The first thing that is wrong decides: an argument that is no tuple, or a tuple whose first bad entry is no integer, raises
TypeError; one whose first bad entry is an integer below 1 raises ValueError – whatever the other arguments are. -/
theorem C126_first_bad_entry (good : List Val) (v : Val) (rest : List Val) (hg : ∀ v ∈ good, ∃ i, v = .int i ∧ 0 < i) (b : Val)
    (c : ConfArg) :
    (v = .other → construct (.tuple (good ++ v :: rest)) b c = some .typeError) ∧
    (∀ i, v = .int i → i ≤ 0 → construct (.tuple (good ++ v :: rest)) b c = some .valueError) := by
  have key : ∀ good : List Val, (∀ v ∈ good, ∃ i, v = .int i ∧ 0 < i) →
      checkShape (good ++ v :: rest) = checkShape (v :: rest) := by
    intro good
    induction good with
    | nil => intro _; rfl
    | cons g l ih =>
      intro h
      obtain ⟨i, rfl, hi⟩ := h g List.mem_cons_self
      rw [List.cons_append, checkShape, if_neg (by omega), ih fun v hv => h v (List.mem_cons_of_mem _ hv)]
  constructor
  · rintro rfl
    simp only [construct, validateShape, key good hg, checkShape]
  · rintro i rfl hi
    simp only [construct, validateShape, key good hg, checkShape, if_pos hi]

example : construct (.tuple [.int 3, .int 2]) (.int 1) .falsy = none ∧ construct (.tuple []) (.int 1) (.conf true true true) = none ∧
    construct (.tuple [.int 3, .int 0, .other]) (.int 1) .falsy = some .valueError ∧
    construct (.tuple [.int 3, .other, .int 0]) .other .falsy = some .typeError ∧
    construct (.tuple [.int 3]) (.int 0) .other = some .valueError := by decide

/-- **C126.** A VarWire is made exactly for a positive integer as buffer size and a `ChannelConfig` of proper policies (or none). -/
theorem C126_wire_constructor (b : Val) (c : ConfArg) :
    constructWire b c = none ↔ (∃ i, b = .int i ∧ 0 < i) ∧ (c = .falsy ∨ c = .conf true true true) := by
  have h := C126_constructor (.tuple []) b c
  simpa [construct, validateShape, checkShape, constructWire] using h

/-- **C126.** Which error: a shape that is no tuple raises TypeError whatever else is given; with a good shape (and for a VarWire) a buffer
size that is no integer raises TypeError and an integer below 1 ValueError, whatever the configuration; with a good shape and size a
configuration that is not one, or has a field that is none of its policies, raises TypeError. -/
theorem C126_which_error (l : List Val) (hl : ∀ v ∈ l, ∃ i, v = .int i ∧ 0 < i) (b : Val) (c : ConfArg) :
    construct .other b c = some .typeError ∧
    construct (.tuple l) .other c = some .typeError ∧ constructWire .other c = some .typeError ∧
    (∀ i, i ≤ 0 → construct (.tuple l) (.int i) c = some .valueError ∧ constructWire (.int i) c = some .valueError) ∧
    (∀ i, 0 < i → c ≠ .falsy → c ≠ .conf true true true →
      construct (.tuple l) (.int i) c = some .typeError ∧ constructWire (.int i) c = some .typeError) := by
  have hs : validateShape (.tuple l) = none := (checkShape_none l).2 hl
  refine ⟨rfl, ?_, rfl, ?_, ?_⟩
  · simp only [construct, hs]; rfl
  · intro i hi
    simp only [construct, constructWire, hs, validateBufferSize, if_pos hi, and_self]
  · intro i hi h1 h2
    have hi' : ¬ i ≤ 0 := by omega
    simp only [construct, constructWire, hs, validateBufferSize, if_neg hi']
    cases c with
    | falsy => exact absurd rfl h1
    | other => exact ⟨rfl, rfl⟩
    | conf a b c => cases a <;> cases b <;> cases c <;> first | exact absurd rfl h2 | exact ⟨rfl, rfl⟩

end Verif.IO.PolicyNet
