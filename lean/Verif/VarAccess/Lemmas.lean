import Verif.VarAccess.Model

/-! Helper lemmas for `Verif.VarAccess.Props`. -/

namespace Verif.VarAccess

/-- Writes values at positions. -/
def writeAll (d : List Tok) (ps : List (Nat × Tok)) : List Tok := ps.foldl (fun d p => d.set p.1 p.2) d

theorem writeAll_length (ps : List (Nat × Tok)) : ∀ d, (writeAll d ps).length = d.length := by
  induction ps with
  | nil => intro d; rfl
  | cons p ps ih => intro d; simp only [writeAll, List.foldl_cons] at ih ⊢; rw [ih]; simp

theorem writeAll_not_mem (ps : List (Nat × Tok)) : ∀ d k, k ∉ ps.map (·.1) → (writeAll d ps)[k]? = d[k]? := by
  induction ps with
  | nil => intro d k _; rfl
  | cons p ps ih =>
    intro d k hk
    simp only [List.map_cons, List.mem_cons, not_or] at hk
    simp only [writeAll, List.foldl_cons] at ih ⊢
    rw [ih _ _ hk.2, List.getElem?_set_ne (fun h => hk.1 h.symm)]

theorem writeAll_mem (ps : List (Nat × Tok)) : ∀ d k x, (ps.map (·.1)).Nodup → (k, x) ∈ ps → k < d.length →
    (writeAll d ps)[k]? = some x := by
  induction ps with
  | nil => intro d k x _ h; simp at h
  | cons p ps ih =>
    intro d k x hn hm hk
    simp only [List.map_cons, List.nodup_cons] at hn
    rcases List.mem_cons.mp hm with h | h
    · subst h
      have := writeAll_not_mem ps (d.set k x) k hn.1
      simp only [writeAll, List.foldl_cons] at this ⊢
      rw [this]
      simp [hk]
    · have := ih (d.set p.1 p.2) k x hn.2 h (by simpa using hk)
      simpa only [writeAll, List.foldl_cons] using this

/-- The assignment loop: with `n` announced items and enough tokens in the channel it writes the first
`min n |order|` tokens and leaves the others in the channel. -/
theorem setLoop_eq : ∀ (order : List Nat) (n : Nat) (data inp : List Tok), min n order.length ≤ inp.length →
    setLoop order n data inp =
      .ok (writeAll data (order.zip (inp.take (min n order.length))), inp.drop (min n order.length)) := by
  intro order
  induction order with
  | nil => intro n data inp _; simp [setLoop, writeAll]
  | cons pos order ih =>
    intro n data inp h
    cases n with
    | zero => simp [setLoop, writeAll]
    | succ n =>
      cases inp with
      | nil => simp at h
      | cons x inp =>
        have h' : min n order.length ≤ inp.length := by simp at h; omega
        have h0 : ((n + 1 : Nat) : Int) ≠ 0 := by omega
        simp only [setLoop, h0, if_false]
        rw [show ((n + 1 : Nat) : Int) - 1 = (n : Int) by omega, ih n _ _ h']
        have : min (n + 1) (pos :: order).length = min n order.length + 1 := by simp
        rw [this]
        simp [writeAll]

theorem takeN_append (d rest : List Tok) : takeN d.length (d ++ rest) = .ok (d, rest) := by
  simp [takeN]

theorem takeN_self (d : List Tok) : takeN d.length d = .ok (d, []) := by
  simp [takeN]

theorem relaySet_rtSet (mid vid : Nat) (value rest : List Tok) :
    relaySet (rtSet mid vid value ++ rest) =
      .ok (mid, [SET_DATA, (vid : Int), (value.length : Int)] ++ value, rest) := by
  simp only [rtSet, relaySet, List.cons_append, List.nil_append, Int.toNat_natCast]
  rw [takeN_append]

theorem relaySet_rtSet' (mid vid : Nat) (value : List Tok) :
    relaySet (rtSet mid vid value) =
      .ok (mid, [SET_DATA, (vid : Int), (value.length : Int)] ++ value, []) := by
  have := relaySet_rtSet mid vid value []
  simpa using this

/-- `varSet` in terms of the handler of the process model. -/
theorem varSet_eq {dom : Domain} {mid vid : Nat} {vs : Vars} {v : VarVal} (hd : dom mid = some vs)
    (hv : vs vid = some v) (value : List Tok) :
    varSet dom mid vid value =
      match setVar v ((value.length : Int) :: value) with
      | .ok (v', rest) => .ok (dom.upd mid (vs.upd vid v'), rest)
      | .blocked => .blocked
      | .failed => .failed := by
  simp only [varSet, relaySet_rtSet', hd, List.cons_append, List.nil_append, pmServe, Int.toNat_natCast, hv]
  have : SET_DATA ≠ GET_DATA := by decide
  simp only [this, if_false, if_true]
  cases h : setVar v ((value.length : Int) :: value) with
  | ok a => rfl
  | blocked => rfl
  | failed => rfl

/-- `varGet` in terms of the handler of the process model. -/
theorem varGet_eq {dom : Domain} {mid vid size : Nat} {vs : Vars} {v : VarVal} (hd : dom mid = some vs)
    (hv : vs vid = some v) :
    varGet dom mid vid size =
      match relayBack (getVar v) with
      | .ok (toks, _) =>
        (match rtRecv size toks with
          | .ok (d, _) => .ok d
          | .blocked => .blocked
          | .failed => .failed)
      | .blocked => .blocked
      | .failed => .failed := by
  simp only [varGet, rtGet, relayGet, Int.toNat_natCast, hd, pmServe, hv, if_true]
  cases relayBack (getVar v) with
  | ok a => rfl
  | blocked => rfl
  | failed => rfl

theorem back_cons (d : List Tok) :
    relayBack ((d.length : Int) :: d) = .ok ((d.length : Int) :: d, []) := by
  simp only [relayBack, Int.toNat_natCast, takeN_self]

theorem rtRecv_cons (d : List Tok) : rtRecv d.length ((d.length : Int) :: d) = .ok (d, []) := by
  simp only [rtRecv, Int.toNat_natCast, takeN_self]
  simp

theorem varGet_list {dom : Domain} {mid vid : Nat} {vs : Vars} {v : VarVal} {d : List Tok}
    (hd : dom mid = some vs) (hv : vs vid = some v) (hg : getVar v = (d.length : Int) :: d) :
    varGet dom mid vid d.length = .ok d := by
  rw [varGet_eq hd hv, hg, back_cons]
  simp only [rtRecv_cons]

theorem setVar_arr (a : NdArr) (hw : a.Wf) (value : List Tok) (hl : value.length = a.data.length) :
    setVar (.arr a) ((value.length : Int) :: value) =
      .ok (.arr { a with data := writeAll a.data (a.korder.zip value) }, []) := by
  have hlen : a.korder.length = a.data.length := by simpa using hw.length_eq
  simp only [setVar]
  rw [setLoop_eq _ _ _ _ (by omega)]
  simp only [hlen, hl, Nat.min_self]
  rw [List.take_of_length_le (by omega), List.drop_of_length_le (by omega)]

/-- After writing along a permutation, the element at the `i`-th position of the order is the `i`-th value. -/
theorem writeAll_perm (order : List Nat) (d value : List Tok) (hp : order.Perm (List.range d.length))
    (hl : value.length = d.length) (i : Nat) (hi : i < order.length) :
    (writeAll d (order.zip value))[order[i]]? = value[i]? := by
  have hlen : order.length = d.length := by simpa using hp.length_eq
  have hiv : i < value.length := by omega
  rw [List.getElem?_eq_getElem hiv]
  apply writeAll_mem
  · rw [List.map_fst_zip (by omega)]
    exact (hp.nodup_iff).mpr List.nodup_range
  · rw [List.mem_iff_getElem]
    exact ⟨i, by simp; omega, by simp⟩
  · have : order[i] ∈ List.range d.length := hp.mem_iff.mp (List.getElem_mem hi)
    simpa using this

theorem writeAll_range (d value : List Tok) (hl : value.length = d.length) :
    writeAll d ((List.range d.length).zip value) = value := by
  apply List.ext_getElem?
  intro i
  by_cases hi : i < d.length
  · have := writeAll_perm (List.range d.length) d value (List.Perm.refl _) hl i (by simpa using hi)
    simpa using this
  · rw [List.getElem?_eq_none (by rw [writeAll_length]; omega), List.getElem?_eq_none (by omega)]

end Verif.VarAccess
