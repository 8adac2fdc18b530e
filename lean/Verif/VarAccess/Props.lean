import Verif.VarAccess.Lemmas

/-! # C08 (relay), C10-C13: access to variables from the host

`varSet dom mid vid value` / `varGet dom mid vid size` are complete `Var.set` / `Var.get` calls through runtime,
runtime service and process model; `dom` are the variables of all process models. -/

namespace Verif.VarAccess

/-! ## C08: what the runtime sends is what the process model gets -/

/-- **C08.** The service forwards a set request to the addressed model unchanged (only the model id is
taken off), and what the runtime sends next is what the service reads next, for every payload. -/
theorem C08_relay_set (mid vid : Nat) (value next : List Tok) :
    relaySet (rtSet mid vid value ++ next) =
      .ok (mid, [SET_DATA, (vid : Int), (value.length : Int)] ++ value, next) :=
  relaySet_rtSet mid vid value next

/-- **C08.** The same for get requests, and for the answer on the way back. -/
theorem C08_relay_get (mid vid : Nat) (d next : List Tok) :
    relayGet (rtGet mid vid ++ next) = .ok (mid, [GET_DATA, (vid : Int)], next) ∧
    relayBack (((d.length : Int) :: d) ++ next) = .ok ((d.length : Int) :: d, next) := by
  refine ⟨by simp [rtGet, relayGet], ?_⟩
  simp only [List.cons_append, relayBack, Int.toNat_natCast, takeN_append]

/-! ## C10 -/

/-- What a variable holds, as the flat list of its elements in C order. -/
def VarVal.flat : VarVal → List Tok
  | .pyInt x | .pyFloat x | .npInt x => [x]
  | .arr a => a.data
  | .csr m => m.entries.map (·.2)
  | .str s => s.map Int.ofNat

/-- `dom'` differs from `dom` at most in variable `vid` of model `mid`. -/
def OnlyChanges (dom dom' : Domain) (mid vid : Nat) : Prop :=
  (∀ m, m ≠ mid → dom' m = dom m) ∧
  ∀ vs, dom mid = some vs → ∃ vs', dom' mid = some vs' ∧ ∀ v, v ≠ vid → vs' v = vs v

theorem onlyChanges_upd {dom : Domain} {mid vid : Nat} {vs : Vars} (hd : dom mid = some vs) (v : VarVal) :
    OnlyChanges dom (dom.upd mid (vs.upd vid v)) mid vid := by
  refine ⟨fun m hm => by simp [Domain.upd, hm], fun vs0 h0 => ⟨vs.upd vid v, by simp [Domain.upd], ?_⟩⟩
  rw [hd] at h0; cases h0
  intro w hw; simp [Vars.upd, hw]

/-- **C10 (partial: arrays in C order).** Setting an array variable that lies in memory in C order to any value
of its size and reading it back gives the value, element for element; no other variable of any model changes. -/
theorem C10_roundtrip_partial (dom : Domain) (mid vid : Nat) (vs : Vars) (d value : List Tok)
    (hd : dom mid = some vs) (hv : vs vid = some (.arr (NdArr.ofList d))) (hl : value.length = d.length) :
    ∃ dom', varSet dom mid vid value = .ok (dom', []) ∧ varGet dom' mid vid d.length = .ok value ∧
      OnlyChanges dom dom' mid vid := by
  have hw : (NdArr.ofList d).Wf := List.Perm.refl _
  refine ⟨dom.upd mid (vs.upd vid (.arr { (NdArr.ofList d) with data := value })), ?_, ?_, onlyChanges_upd hd _⟩
  · rw [varSet_eq hd hv, setVar_arr _ hw value hl]
    simp only [NdArr.ofList]
    rw [writeAll_range d value hl]
  · rw [← hl]
    apply varGet_list (vs := vs.upd vid (.arr { (NdArr.ofList d) with data := value }))
      (v := .arr { (NdArr.ofList d) with data := value })
    · simp [Domain.upd]
    · simp [Vars.upd]
    · rfl

/-- **C10, exact condition.** For an array of any memory layout: *every* value round-trips if and only if the
memory order of the array is C order. -/
theorem C10_roundtrip_iff (dom : Domain) (mid vid : Nat) (vs : Vars) (a : NdArr) (hw : a.Wf)
    (hd : dom mid = some vs) (hv : vs vid = some (.arr a)) :
    (∀ value, value.length = a.data.length → ∃ dom', varSet dom mid vid value = .ok (dom', []) ∧
      varGet dom' mid vid a.data.length = .ok value) ↔ a.korder = List.range a.data.length := by
  have hlen : a.korder.length = a.data.length := by simpa using hw.length_eq
  constructor
  · intro h
    let value : List Tok := (List.range a.data.length).map Int.ofNat
    have hvl : value.length = a.data.length := by simp [value]
    obtain ⟨dom', h1, h2⟩ := h value hvl
    rw [varSet_eq hd hv, setVar_arr _ hw value hvl] at h1
    simp only [Res.ok.injEq, Prod.mk.injEq, and_true] at h1
    have h3 : varGet dom' mid vid (writeAll a.data (a.korder.zip value)).length =
        .ok (writeAll a.data (a.korder.zip value)) := by
      rw [← h1]
      apply varGet_list (vs := vs.upd vid (.arr { a with data := writeAll a.data (a.korder.zip value) }))
        (v := .arr { a with data := writeAll a.data (a.korder.zip value) })
      · simp [Domain.upd]
      · simp [Vars.upd]
      · rfl
    rw [writeAll_length, h2] at h3
    have h4 : value = writeAll a.data (a.korder.zip value) := by simpa using h3
    apply List.ext_getElem (by simp [hlen])
    intro i hi hi'
    have h5 := writeAll_perm a.korder a.data value hw hvl i hi
    rw [← h4] at h5
    have hk : a.korder[i] < a.data.length := by
      have : a.korder[i] ∈ List.range a.data.length := hw.mem_iff.mp (List.getElem_mem hi)
      simpa using this
    have hi2 : i < a.data.length := by omega
    simp only [value, List.getElem?_map, List.getElem?_range hk, List.getElem?_range hi2, Option.map_some,
      Option.some.injEq] at h5
    simp
    exact Int.ofNat.inj h5
  · intro h value hl
    have ha : a = NdArr.ofList a.data := by cases a; simp_all [NdArr.ofList]
    rw [ha] at hv
    obtain ⟨dom', h1, h2, _⟩ := C10_roundtrip_partial dom mid vid vs a.data value hd hv hl
    exact ⟨dom', h1, h2⟩

/-- A 2×3 array stored in Fortran order, as produced by transposing a 3×2 array. -/
def fArr : NdArr := { data := [0, 0, 0, 0, 0, 0], korder := [0, 3, 1, 4, 2, 5] }

/-- **C10 fails (finding)** for arrays that are not in C order: setting `[[1,2,3],[4,5,6]]` and reading back
gives `[[1,3,5],[2,4,6]]`. -/
theorem C10_scrambled :
    fArr.Wf ∧
    ∃ dom dom' : Domain, varSet dom 0 0 [1, 2, 3, 4, 5, 6] = .ok (dom', []) ∧
      (∃ vs, dom 0 = some vs ∧ vs 0 = some (.arr fArr)) ∧
      varGet dom' 0 0 6 = .ok [1, 3, 5, 2, 4, 6] := by
  refine ⟨List.isPerm_iff.mp (by decide), (fun m => if m = 0 then some (fun v => if v = 0 then some (.arr fArr) else none) else none), _,
    rfl, ⟨_, rfl, rfl⟩, by decide⟩

/-- **C10 (partial).** Strings and `np.int32` scalars round-trip. -/
theorem C10_roundtrip_scalar_partial (dom : Domain) (mid vid : Nat) (vs : Vars) (x y : Tok)
    (hd : dom mid = some vs) (hv : vs vid = some (.npInt x)) :
    ∃ dom', varSet dom mid vid [y] = .ok (dom', []) ∧ varGet dom' mid vid 1 = .ok [y] ∧
      OnlyChanges dom dom' mid vid := by
  refine ⟨dom.upd mid (vs.upd vid (.npInt y)), ?_, ?_, onlyChanges_upd hd _⟩
  · rw [varSet_eq hd hv]; rfl
  · apply varGet_list (d := [y]) (vs := vs.upd vid (.npInt y)) (v := .npInt y)
    · simp [Domain.upd]
    · simp [Vars.upd]
    · rfl

theorem C10_roundtrip_str_partial (dom : Domain) (mid vid : Nat) (vs : Vars) (s t : List Nat)
    (hd : dom mid = some vs) (hv : vs vid = some (.str s)) :
    ∃ dom', varSet dom mid vid (t.map Int.ofNat) = .ok (dom', []) ∧
      varGet dom' mid vid t.length = .ok (t.map Int.ofNat) ∧ OnlyChanges dom dom' mid vid := by
  have hmap : (t.map Int.ofNat).map Int.toNat = t := by
    rw [List.map_map]; exact (List.map_congr_left (fun a _ => rfl)).trans (List.map_id t)
  refine ⟨dom.upd mid (vs.upd vid (.str t)), ?_, ?_, onlyChanges_upd hd _⟩
  · rw [varSet_eq hd hv]
    simp only [setVar, Int.toNat_natCast, takeN_self, hmap]
  · have := varGet_list (dom := dom.upd mid (vs.upd vid (.str t))) (mid := mid) (vid := vid)
      (d := t.map Int.ofNat) (vs := vs.upd vid (.str t)) (v := .str t) (by simp [Domain.upd]) (by simp [Vars.upd])
      (by simp [getVar])
    simpa using this

/-- **C10 fails (finding)** for variables that hold a Python `int` (`LavaPyType(int, ...)`, e.g. `vth` of the
fixed-point LIF models): the first `set` turns the variable into a Python `float`, for which `_get_var` has
no branch, so the `get` after it waits forever; a second `set` raises an error. For every value. -/
theorem C10_int_get_hangs (dom : Domain) (mid vid size : Nat) (vs : Vars) (x y z : Tok)
    (hd : dom mid = some vs) (hv : vs vid = some (.pyInt x)) :
    ∃ dom', varSet dom mid vid [y] = .ok (dom', []) ∧ varGet dom' mid vid size = .blocked ∧
      varSet dom' mid vid [z] = .failed := by
  refine ⟨dom.upd mid (vs.upd vid (.pyFloat y)), ?_, ?_, ?_⟩
  · rw [varSet_eq hd hv]; rfl
  · rw [varGet_eq (vs := vs.upd vid (.pyFloat y)) (v := .pyFloat y) (by simp [Domain.upd]) (by simp [Vars.upd])]
    rfl
  · rw [varSet_eq (vs := vs.upd vid (.pyFloat y)) (v := .pyFloat y) (by simp [Domain.upd]) (by simp [Vars.upd])]
    rfl

theorem map_fst_zip_take {α β} (l : List α) (m : List β) : (l.zip m).map (·.1) = l.take m.length := by
  induction l generalizing m with
  | nil => simp
  | cons x l ih => cases m with
    | nil => simp
    | cons y m => simp [ih]

/-- **C10, partial writes (finding).** A `set` of fewer elements than the variable has — this is what `set(value, idx)`
sends — writes the *first* elements of the variable, whatever indices were meant, and leaves the others. -/
theorem C10_short_set_writes_prefix (dom : Domain) (mid vid : Nat) (vs : Vars) (d value : List Tok)
    (hd : dom mid = some vs) (hv : vs vid = some (.arr (NdArr.ofList d))) (hl : value.length ≤ d.length) :
    ∃ dom', varSet dom mid vid value = .ok (dom', []) ∧
      varGet dom' mid vid d.length = .ok (value ++ d.drop value.length) := by
  have key : writeAll d ((List.range d.length).zip value) = value ++ d.drop value.length := by
    apply List.ext_getElem?
    intro i
    by_cases hi : i < value.length
    · rw [List.getElem?_append_left hi, List.getElem?_eq_getElem hi]
      apply writeAll_mem
      · rw [map_fst_zip_take]
        exact (List.nodup_range (n := d.length)).sublist (List.take_sublist _ _)
      · rw [List.mem_iff_getElem]
        exact ⟨i, by simp; omega, by simp⟩
      · omega
    · rw [List.getElem?_append_right (by omega), List.getElem?_drop]
      rw [writeAll_not_mem]
      · congr 1; omega
      · rw [map_fst_zip_take, List.take_range]
        simp; omega
  refine ⟨dom.upd mid (vs.upd vid (.arr { (NdArr.ofList d) with data := value ++ d.drop value.length })), ?_, ?_⟩
  · rw [varSet_eq hd hv]
    simp only [setVar, NdArr.ofList]
    rw [setLoop_eq _ _ _ _ (by simp; omega)]
    have hm : min value.length (List.range d.length).length = value.length := by simp; omega
    rw [hm, List.take_length, List.drop_length, key]
  · have := varGet_list
      (dom := dom.upd mid (vs.upd vid (.arr { (NdArr.ofList d) with data := value ++ d.drop value.length })))
      (mid := mid) (vid := vid) (d := value ++ d.drop value.length)
      (vs := vs.upd vid (.arr { (NdArr.ofList d) with data := value ++ d.drop value.length }))
      (v := .arr { (NdArr.ofList d) with data := value ++ d.drop value.length })
      (by simp [Domain.upd]) (by simp [Vars.upd]) rfl
    rw [← this]; congr 1; simp; omega

/-- Non-vacuity of C10: a domain of two models with several variables. -/
def exDom : Domain := fun m =>
  if m = 0 then some (fun v => if v = 0 then some (.arr (NdArr.ofList [1, 2, 3, 4])) else
    if v = 1 then some (.pyInt 5) else none)
  else if m = 3 then some (fun v => if v = 7 then some (.str [97, 98]) else none) else none

example : (match varSet exDom 0 0 [9, 8, 7, 6] with
    | .ok (dom', _) => varGet dom' 0 0 4
    | _ => .failed) = .ok [9, 8, 7, 6] := by decide

example : (match varSet exDom 3 7 [120, 121, 122] with
    | .ok (dom', _) => varGet dom' 3 7 3
    | _ => .failed) = .ok [120, 121, 122] := by decide

/-! ## C11 -/

/-- **C11, exact condition.** After a set command on an array variable of any layout was served, exactly
the payload values beyond the size of the variable are left in the command channel of the process model,
in front of the next command (`next`). -/
theorem C11_leftover (a : NdArr) (hw : a.Wf) (value next : List Tok) (h : a.data.length ≤ value.length) :
    ∃ a', setVar (.arr a) ((value.length : Int) :: value ++ next) =
      .ok (.arr a', value.drop a.data.length ++ next) := by
  have hlen : a.korder.length = a.data.length := by simpa using hw.length_eq
  refine ⟨{ a with data := writeAll a.data (a.korder.zip ((value ++ next).take a.data.length)) }, ?_⟩
  simp only [setVar, List.cons_append]
  rw [setLoop_eq _ _ _ _ (by simp; omega)]
  have hm : min value.length a.korder.length = a.data.length := by omega
  rw [hm, List.drop_append_of_le_length h]

/-- **C11 (partial: payload not longer than the variable).** If the value has at most as many elements as the
variable, the next token the process model reads is the next command. -/
theorem C11_in_sync_partial (a : NdArr) (hw : a.Wf) (value next : List Tok) (h : value.length ≤ a.data.length) :
    ∃ a', setVar (.arr a) ((value.length : Int) :: value ++ next) = .ok (.arr a', next) := by
  have hlen : a.korder.length = a.data.length := by simpa using hw.length_eq
  refine ⟨{ a with data := writeAll a.data (a.korder.zip ((value ++ next).take value.length)) }, ?_⟩
  simp only [setVar, List.cons_append]
  have hm : min value.length a.korder.length = value.length := by omega
  rw [setLoop_eq _ _ _ _ (by simp; omega), hm]
  simp

/-- **C11 (partial).** Scalars of length one and strings of any length leave the channel in sync. -/
theorem C11_in_sync_scalar_str_partial (x y : Tok) (s : List Nat) (value next : List Tok) :
    setVar (.npInt x) (1 :: y :: next) = .ok (.npInt y, next) ∧
    (∃ t, setVar (.str s) ((value.length : Int) :: value ++ next) = .ok (.str t, next)) := by
  refine ⟨rfl, value.map Int.toNat, ?_⟩
  simp only [setVar, List.cons_append, Int.toNat_natCast, takeN_append]

/-- A get of any value that `_get_var` supports: the service takes exactly the tokens the process model
sent, and the runtime takes exactly the tokens the service relayed; whatever follows on either channel
stays there (`size` is the size of the host's buffer). -/
theorem C11_get_in_sync (v : VarVal) (hv : ∀ x, v ≠ .pyFloat x) (size : Nat)
    (hs : (getVar v).length ≤ size + 1) (n1 n2 : List Tok) :
    relayBack (getVar v ++ n1) = .ok (getVar v, n1) ∧
    ∃ d, rtRecv size (getVar v ++ n2) = .ok (d, n2) ∧ d.length = size ∧
      d.take ((getVar v).length - 1) = (getVar v).tail := by
  obtain ⟨l, hl⟩ : ∃ l : List Tok, getVar v = (l.length : Int) :: l := by
    cases v with
    | pyInt x => exact ⟨[x], rfl⟩
    | npInt x => exact ⟨[x], rfl⟩
    | pyFloat x => exact absurd rfl (hv x)
    | arr a => exact ⟨a.data, rfl⟩
    | csr m => exact ⟨m.findAll.map (·.2), by simp [getVar, Csr.findAll]⟩
    | str s => exact ⟨s.map Int.ofNat, by simp [getVar]⟩
  rw [hl] at hs ⊢
  simp only [List.length_cons] at hs
  constructor
  · simp only [relayBack, List.cons_append, Int.toNat_natCast, takeN_append]
  · refine ⟨l ++ List.replicate (size - l.length) 0, ?_, ?_, ?_⟩
    · simp only [rtRecv, List.cons_append, Int.toNat_natCast, takeN_append]
      rw [if_neg (by omega)]
    · simp; omega
    · simp

example : ∀ x, VarVal.arr (NdArr.ofList [4, 5, 6]) ≠ .pyFloat x := by intro x; simp

/-- **C11 fails (finding).** If the value is longer than the variable by one element equal to -1, the process
model takes that element for its next command, and -1 is STOP. The value may have any first elements. -/
theorem C11_payload_becomes_stop (a : NdArr) (hw : a.Wf) (value next : List Tok)
    (h : value.length = a.data.length) :
    ∃ a', setVar (.arr a) (((value ++ [STOP]).length : Int) :: (value ++ [STOP]) ++ next) =
      .ok (.arr a', STOP :: next) := by
  obtain ⟨a', ha⟩ := C11_leftover a hw (value ++ [STOP]) next (by simp; omega)
  refine ⟨a', ?_⟩
  rw [ha]
  congr 2
  rw [← h, List.drop_left]
  rfl

example : (NdArr.ofList [1, 2]).Wf ∧
    setVar (.arr (NdArr.ofList [1, 2])) [3, 7, 8, STOP, 5] = .ok (.arr (NdArr.ofList [7, 8]), [STOP, 5]) :=
  ⟨List.Perm.refl _, by decide⟩

/-! ## C12 -/

/-- The set positions of a sparse value. -/
def Csr.pattern (m : Csr) : List (Nat × Nat) := m.entries.map (·.1)

/-- No stored entry is zero. -/
def Csr.NoZeros (m : Csr) : Prop := ∀ x ∈ m.entries, x.2 ≠ 0

theorem findNz_noZeros {m : Csr} (h : m.NoZeros) : m.findNz = m.entries := by
  simp only [Csr.findNz]
  rw [List.filter_eq_self]
  intro x hx
  simpa using h x hx

theorem zip_self (m : Csr) : m.pattern.zip (m.entries.map (·.2)) = m.entries := by
  unfold Csr.pattern
  induction m.entries with
  | nil => rfl
  | cons x xs ih => simp [ih]

theorem mkCsr_self {p : List (Nat × Nat)} (value : Csr) (h : p = value.pattern) :
    mkCsr p (value.entries.map (·.2)) = some value := by
  subst h
  simp only [mkCsr, zip_self]
  simp [Csr.pattern]

theorem sparseSet_ok (dom : Domain) (mid vid : Nat) (vs : Vars) (init cur value : Csr)
    (hd : dom mid = some vs) (hv : vs vid = some (.csr cur)) (hc : cur.NoZeros)
    (hpc : cur.pattern = init.pattern) (hp : value.pattern = init.pattern) :
    sparseSet dom mid vid init value = .ok (dom.upd mid (vs.upd vid (.csr value)), []) := by
  have h1 : sparseSetCheck init value = some (value.entries.map (·.2)) := by
    unfold sparseSetCheck
    rw [if_pos]
    · rfl
    · exact hp.symm
  simp only [sparseSet, h1]
  rw [varSet_eq hd hv]
  have : cur.findNz.map (·.1) = value.pattern := by
    rw [findNz_noZeros hc]; exact hpc.trans hp.symm
  simp only [setVar, Int.toNat_natCast, takeN_self, this]
  rw [mkCsr_self value rfl]

theorem sparseGet_ok (dom : Domain) (mid vid : Nat) (vs : Vars) (init cur : Csr)
    (hd : dom mid = some vs) (hv : vs vid = some (.csr cur)) (hi : init.NoZeros)
    (hpc : cur.pattern = init.pattern) : sparseGet dom mid vid init = .ok cur := by
  have hb : relayBack (getVar (.csr cur)) =
      .ok ((cur.entries.length : Int) :: cur.entries.map (·.2), []) := by
    have := back_cons (cur.entries.map (·.2))
    simpa [getVar, Csr.findAll] using this
  have hm : mkCsr (init.findNz.map (·.1)) (cur.entries.map (·.2)) = some cur := by
    apply mkCsr_self
    rw [findNz_noZeros hi]; exact hpc.symm
  simp only [sparseGet, rtGet, relayGet, Int.toNat_natCast, hd, pmServe, hv, if_true, hb, List.tail_cons, hm]

/-- **C12 (partial: no stored zeros).** If neither the initial nor the current value has stored zeros, then
setting new data on the pattern of the initial value and reading back returns the data set. -/
theorem C12_roundtrip_partial (dom : Domain) (mid vid : Nat) (vs : Vars) (init cur value : Csr)
    (hd : dom mid = some vs) (hv : vs vid = some (.csr cur)) (hi : init.NoZeros) (hc : cur.NoZeros)
    (hpc : cur.pattern = init.pattern) (hp : value.pattern = init.pattern) :
    ∃ dom', sparseSet dom mid vid init value = .ok (dom', []) ∧ sparseGet dom' mid vid init = .ok value ∧
      OnlyChanges dom dom' mid vid := by
  refine ⟨dom.upd mid (vs.upd vid (.csr value)), sparseSet_ok dom mid vid vs init cur value hd hv hc hpc hp, ?_,
    onlyChanges_upd hd _⟩
  exact sparseGet_ok (dom.upd mid (vs.upd vid (.csr value))) mid vid (vs.upd vid (.csr value)) init value
    (by simp [Domain.upd]) (by simp [Vars.upd]) hi hp

/-- **C12 (partial).** Any sequence of sets with data without zeros: every set succeeds and the last one
is read back. -/
theorem C12_history_partial (mid vid : Nat) (init : Csr) (hi : init.NoZeros) (vals : List Csr) :
    ∀ (dom : Domain) (vs : Vars) (cur : Csr), dom mid = some vs → vs vid = some (.csr cur) → cur.NoZeros →
      cur.pattern = init.pattern → (∀ v ∈ vals, v.pattern = init.pattern ∧ v.NoZeros) →
      ∃ dom', vals.foldl (fun (r : Res (Domain × List Tok)) v => match r with
          | .ok (d, _) => sparseSet d mid vid init v
          | x => x) (.ok (dom, [])) = .ok (dom', []) ∧
        sparseGet dom' mid vid init = .ok (vals.getLast?.getD cur) := by
  induction vals with
  | nil =>
    intro dom vs cur hd hv _ hpc _
    exact ⟨dom, rfl, sparseGet_ok dom mid vid vs init cur hd hv hi hpc⟩
  | cons v vals ih =>
    intro dom vs cur hd hv hc hpc hall
    have hv1 := hall v (by simp)
    have h1 := sparseSet_ok dom mid vid vs init cur v hd hv hc hpc hv1.1
    obtain ⟨dom', h2, h3⟩ := ih (dom.upd mid (vs.upd vid (.csr v))) (vs.upd vid (.csr v)) v
      (by simp [Domain.upd]) (by simp [Vars.upd]) hv1.2 hv1.1 (fun w hw => hall w (by simp [hw]))
    refine ⟨dom', ?_, ?_⟩
    · simp only [List.foldl_cons, h1]; exact h2
    · rw [h3]
      cases vals <;> simp [List.getLast?_cons]

/-- **C12.** A set that would change the pattern of stored positions is rejected, and no model sees it. -/
theorem C12_pattern_rejected (dom : Domain) (mid vid : Nat) (init value : Csr)
    (h : value.pattern ≠ init.pattern) : sparseSet dom mid vid init value = .failed := by
  have : sparseSetCheck init value = none := by
    unfold sparseSetCheck
    rw [if_neg]; intro hh; exact h hh.symm
  simp only [sparseSet, this]

theorem filter_length_lt {α} (p : α → Bool) (l : List α) (x : α) (hx : x ∈ l) (hp : p x = false) :
    (l.filter p).length < l.length := by
  induction l with
  | nil => simp at hx
  | cons y ys ih =>
    rcases List.mem_cons.mp hx with rfl | h
    · rw [List.filter_cons_of_neg (by simp [hp])]
      have := List.length_filter_le p ys
      simp; omega
    · have := ih h
      by_cases hy : p y = true
      · rw [List.filter_cons_of_pos hy]; simp only [List.length_cons]; omega
      · rw [List.filter_cons_of_neg hy]; simp only [List.length_cons]; omega

/-- **C12 fails (finding).** After a set whose data contain a zero, *every* further set of the variable fails
with an exception in the process model, whatever its data. -/
theorem C12_zero_poisons (dom : Domain) (mid vid : Nat) (vs : Vars) (init cur value next : Csr)
    (hd : dom mid = some vs) (hv : vs vid = some (.csr cur)) (hc : cur.NoZeros)
    (hpc : cur.pattern = init.pattern) (hp : value.pattern = init.pattern)
    (hz : ∃ x ∈ value.entries, x.2 = 0) :
    ∃ dom', sparseSet dom mid vid init value = .ok (dom', []) ∧ sparseSet dom' mid vid init next = .failed := by
  refine ⟨_, sparseSet_ok dom mid vid vs init cur value hd hv hc hpc hp, ?_⟩
  by_cases hn : next.pattern = init.pattern
  · have h1 : sparseSetCheck init next = some (next.entries.map (·.2)) := by
      unfold sparseSetCheck
      rw [if_pos]
      · rfl
      · exact hn.symm
    simp only [sparseSet, h1]
    rw [varSet_eq (vs := vs.upd vid (.csr value)) (v := .csr value) (by simp [Domain.upd]) (by simp [Vars.upd])]
    simp only [setVar, Int.toNat_natCast, takeN_self]
    have hlen : (value.findNz.map (·.1)).length ≠ (next.entries.map (·.2)).length := by
      have e1 : value.entries.length = init.entries.length := by
        have := congrArg List.length hp; simpa [Csr.pattern] using this
      have e2 : next.entries.length = init.entries.length := by
        have := congrArg List.length hn; simpa [Csr.pattern] using this
      obtain ⟨x, hx, hx0⟩ := hz
      have := filter_length_lt (fun x : (Nat × Nat) × Tok => decide (x.2 ≠ 0)) value.entries x hx (by simp [hx0])
      simp only [List.length_map, Csr.findNz]
      omega
    simp only [mkCsr, hlen, if_false]
  · exact C12_pattern_rejected _ _ _ _ _ hn

/-- **C12 fails (finding).** If the *initial* value has a stored zero, `get` fails with an exception even before
any set. -/
theorem C12_init_zero_get_fails (dom : Domain) (mid vid : Nat) (vs : Vars) (init : Csr)
    (hd : dom mid = some vs) (hv : vs vid = some (.csr init)) (hz : ∃ x ∈ init.entries, x.2 = 0) :
    sparseGet dom mid vid init = .failed := by
  have hb : relayBack (getVar (.csr init)) =
      .ok ((init.entries.length : Int) :: init.entries.map (·.2), []) := by
    have := back_cons (init.entries.map (·.2))
    simpa [getVar, Csr.findAll] using this
  have hm : mkCsr (init.findNz.map (·.1)) (init.entries.map (·.2)) = none := by
    obtain ⟨x, hx, hx0⟩ := hz
    have := filter_length_lt (fun x : (Nat × Nat) × Tok => decide (x.2 ≠ 0)) init.entries x hx (by simp [hx0])
    simp only [mkCsr, List.length_map, Csr.findNz]
    rw [if_neg (by omega)]
  simp only [sparseGet, rtGet, relayGet, Int.toNat_natCast, hd, pmServe, hv, if_true, hb, List.tail_cons, hm]

/-- Non-vacuity of C12: a 2×2 matrix with two stored entries; a good set, a set with a zero, a third set. -/
def exInit : Csr := ⟨[((0, 0), 5), ((1, 1), 6)]⟩
def exSparse : Domain := fun m => if m = 0 then some (fun v => if v = 0 then some (.csr exInit) else none) else none

example : exInit.NoZeros ∧
    (match sparseSet exSparse 0 0 exInit ⟨[((0, 0), 1), ((1, 1), 0)]⟩ with
    | .ok (dom', _) => sparseGet dom' 0 0 exInit
    | _ => .failed) = .ok ⟨[((0, 0), 1), ((1, 1), 0)]⟩ := by
  refine ⟨by intro x hx; simp [exInit] at hx; rcases hx with rfl | rfl <;> decide, by decide⟩

/-! ## C13 -/

theorem subProc_lt {parent : Nat → Option Nat} (h : ∀ p q, parent p = some q → q < p) {p q : Nat}
    (hs : SubProc parent p q) : q < p := by
  induction hs with
  | direct h1 => exact h _ _ h1
  | step h1 _ ih => have := h _ _ h1; omega

theorem subProc_trans {parent : Nat → Option Nat} {p q r : Nat} (h1 : SubProc parent p q)
    (h2 : SubProc parent q r) : SubProc parent p r := by
  induction h1 with
  | direct h => exact .step h h2
  | step h _ ih => exact .step h (ih h2)

/-- **C13.** In a compiled network (finitely many processes, a sub-process is created after its parent,
`validate_alias` has passed) every alias chain ends: `get`/`set` reach a Var that is not an alias; it
belongs to the same process or to a strict sub-process. -/
theorem C13_alias_ends (n : Net) (N : Nat) (hpar : ∀ p q, n.parent p = some q → q < p)
    (hfin : ∀ v, n.proc v < N) (hval : n.Validated) (v : Nat) :
    ∃ w, resolve n.alias (N + 1) v = some w ∧ n.alias w = none ∧
      (w = v ∨ SubProc n.parent (n.proc w) (n.proc v)) := by
  have key : ∀ (fuel : Nat) (v : Nat), N < n.proc v + fuel →
      ∃ w, resolve n.alias fuel v = some w ∧ n.alias w = none ∧
        (w = v ∨ SubProc n.parent (n.proc w) (n.proc v)) := by
    intro fuel
    induction fuel with
    | zero => intro v hv; have := hfin v; omega
    | succ fuel ih =>
      intro v hv
      cases ha : n.alias v with
      | none => exact ⟨v, by simp [resolve, ha], ha, Or.inl rfl⟩
      | some u =>
        have hsub := (hval v u ha).1
        have hlt := subProc_lt hpar hsub
        obtain ⟨w, h1, h2, h3⟩ := ih u (by omega)
        refine ⟨w, by simp [resolve, ha, h1], h2, Or.inr ?_⟩
        rcases h3 with rfl | h3
        · exact hsub
        · exact subProc_trans h3 hsub
  exact key (N + 1) v (by omega)

theorem resolve_mono (al : AliasMap) : ∀ (f g v w : Nat), f ≤ g → resolve al f v = some w → resolve al g v = some w := by
  intro f
  induction f with
  | zero => intro g v w _ h; simp [resolve] at h
  | succ f ih =>
    intro g v w hg h
    obtain ⟨g, rfl⟩ : ∃ k, g = k + 1 := ⟨g - 1, by omega⟩
    simp only [resolve] at h ⊢
    cases ha : al v with
    | none => rw [ha] at h; exact h
    | some u => rw [ha] at h; exact ih g u w (by omega) h

/-- **C13.** An alias and what it is aliased to have the same final target, so `get`/`set` through one act
on the same variable as through the other (for all chain lengths). -/
theorem C13_alias_transparent (n n' : Net) (v w : Nat) (h : n.aliasTo v w = some n') (f t : Nat)
    (ht : resolve n'.alias f w = some t) : resolve n'.alias (f + 1) v = some t := by
  unfold Net.aliasTo at h
  split at h
  · cases h
    simp only [resolve, if_true]
    exact ht
  · cases h

/-- Networks built by `alias` calls (accepted ones) from a network without aliases. -/
inductive Built (n0 : Net) : Net → Prop where
  | init : Built n0 { n0 with alias := fun _ => none }
  | alias {n n' : Net} {v w : Nat} : Built n0 n → n.aliasTo v w = some n' → Built n0 n'

/-- **C13.** After every sequence of alias declarations the final target has the shape of the alias. -/
theorem C13_alias_shape (n0 n : Net) (hb : Built n0 n) (f v w : Nat) (h : resolve n.alias f v = some w) :
    n.shape w = n.shape v := by
  have hstep : ∀ v w, n.alias v = some w → n.shape v = n.shape w := by
    clear h
    induction hb with
    | init => intro v w h; simp at h
    | @alias m m' a b _ hal ih =>
      unfold Net.aliasTo at hal
      split at hal
      · cases hal
        intro x y hxy
        simp only at hxy ⊢
        split at hxy
        · cases hxy; subst_vars; assumption
        · exact ih x y hxy
      · cases hal
  induction f generalizing v with
  | zero => simp [resolve] at h
  | succ f ih =>
    simp only [resolve] at h
    cases ha : n.alias v with
    | none => rw [ha] at h; cases h; rfl
    | some u => rw [ha] at h; rw [ih u h, ← hstep v u ha]

/-- Three nested processes 0 ⊃ 1 ⊃ 2 with Vars 0, 1, 2, aliased 0 → 1 → 2. -/
def exNet : Net where
  parent p := if p = 1 then some 0 else if p = 2 then some 1 else none
  proc v := if v = 1 then 1 else if v = 2 then 2 else 0
  shape _ := [3]
  alias v := if v = 0 then some 1 else if v = 1 then some 2 else none

/-- Non-vacuity of C13. -/
example : exNet.Validated ∧ (∀ v, exNet.proc v < 3) ∧ (∀ p q, exNet.parent p = some q → q < p) ∧
    resolve exNet.alias 4 0 = some 2 := by
  refine ⟨?_, ?_, ?_, by decide⟩
  · intro v w h
    simp only [exNet] at h ⊢
    split at h
    · cases h; subst_vars; exact ⟨.direct (by decide), by decide⟩
    · split at h
      · cases h; subst_vars; exact ⟨.direct (by decide), by decide⟩
      · cases h
  · intro v; simp only [exNet]; split <;> (try split) <;> omega
  · intro p q h
    simp only [exNet] at h
    split at h
    · cases h; omega
    · split at h
      · cases h; omega
      · cases h

end Verif.VarAccess
