import Verif.IO.PolicyNet
import Mathlib.Data.List.Basic

/-! # C126: theorems about applications with any channel configuration -/

namespace Verif.IO.PolicyNet

variable {D X Y : Type} [AddMonoid X] [AddMonoid Y]

/-! ### Pipes -/

theorem foldl_add_sum {Z : Type} [AddMonoid Z] (l : List Z) : ∀ a : Z, l.foldl (· + ·) a = a + l.sum := by
  induction l with
  | nil => intro a; simp
  | cons x l ih => intro a; rw [List.foldl_cons, ih, List.sum_cons, add_assoc]

/-- The invariant of a pipe: bounded; what came out came in; slots not given back were received. -/
structure PInv {Z : Type} [AddMonoid Z] (p : Pol) (cap : Nat) (q : Pipe Z) (acc res : List Z) : Prop where
  grp : Grouped p acc res (q.vis ++ q.flight)
  cap : q.vis.length + q.flight.length + q.acks ≤ cap
  cnt : q.vis.length + q.flight.length + q.acks ≤ acc.length

theorem pinv_empty {Z : Type} [AddMonoid Z] (p : Pol) (cap : Nat) : PInv p cap (empty Z) [] [] where
  grp := ⟨[], rfl, rfl, by simp, by simp⟩
  cap := Nat.zero_le _
  cnt := Nat.zero_le _

theorem pinv_put {Z : Type} [AddMonoid Z] {p : Pol} {cap : Nat} {q : Pipe Z} {acc res : List Z} (h : PInv p cap q acc res) (x : Z)
    (hf : q.free cap = true) : PInv p cap (q.put x) (acc ++ [x]) res := by
  obtain ⟨⟨gs, h1, h2, h3, h4⟩, hc, hn⟩ := h
  simp only [Pipe.free, decide_eq_true_eq] at hf
  refine ⟨⟨gs, h1, ?_, h3, h4⟩, ?_, ?_⟩
  · simp only [Pipe.put]; rw [← h2]; simp
  · simp only [Pipe.put, List.length_append, List.length_cons, List.length_nil]; omega
  · simp only [Pipe.put, List.length_append, List.length_cons, List.length_nil]; omega

theorem pinv_announce {Z : Type} [AddMonoid Z] {p : Pol} {cap : Nat} {q q' : Pipe Z} {acc res : List Z} (h : PInv p cap q acc res)
    (hq : q.announce = some q') : PInv p cap q' acc res := by
  obtain ⟨⟨gs, h1, h2, h3, h4⟩, hc, hn⟩ := h
  obtain ⟨vis, flight, acks⟩ := q
  cases flight with
  | nil => cases hq
  | cons x r =>
    simp only [Pipe.announce, Option.some.injEq] at hq
    subst hq
    refine ⟨⟨gs, h1, ?_, h3, h4⟩, ?_, ?_⟩
    · rw [← h2]; simp
    · simp only [List.length_append, List.length_cons, List.length_nil] at hc ⊢; omega
    · simp only [List.length_append, List.length_cons, List.length_nil] at hn ⊢; omega

theorem pinv_giveBack {Z : Type} [AddMonoid Z] {p : Pol} {cap : Nat} {q q' : Pipe Z} {acc res : List Z} (h : PInv p cap q acc res)
    (hq : q.giveBack = some q') : PInv p cap q' acc res := by
  obtain ⟨hg, hc, hn⟩ := h
  obtain ⟨vis, flight, acks⟩ := q
  cases acks with
  | zero => cases hq
  | succ a =>
    simp only [Pipe.giveBack, Option.some.injEq] at hq
    subst hq
    exact ⟨hg, by simp only at hc ⊢; omega, by simp only at hn ⊢; omega⟩

theorem pinv_take {Z : Type} [AddMonoid Z] {p : Pol} {cap : Nat} {q q' : Pipe Z} {acc res : List Z} (h : PInv p cap q acc res)
    (w : Bool) (y : Z) (hq : q.take p w = some (y, q')) : PInv p cap q' acc (res ++ [y]) := by
  obtain ⟨⟨gs, h1, h2, h3, h4⟩, hc, hn⟩ := h
  obtain ⟨vis, flight, acks⟩ := q
  cases vis with
  | nil =>
    simp only [Pipe.take] at hq
    split at hq
    · rename_i hz
      simp only [Option.some.injEq, Prod.mk.injEq] at hq
      obtain ⟨rfl, rfl⟩ := hq
      simp only [Bool.and_eq_true] at hz
      refine ⟨⟨gs ++ [[]], by simp [h1], ?_, ?_, ?_⟩, hc, hn⟩
      · rw [← h2]; simp
      · intro ha g hg
        rcases List.mem_append.1 hg with hg | hg
        · exact h3 ha g hg
        · simp only [List.mem_singleton] at hg; subst hg; simp
      · intro hf; rw [hz.1] at hf; cases hf
    · cases hq
  | cons x r =>
    simp only [Pipe.take] at hq
    split at hq
    · rename_i ha
      simp only [Bool.and_eq_true] at ha
      simp only [Option.some.injEq, Prod.mk.injEq] at hq
      obtain ⟨rfl, rfl⟩ := hq
      refine ⟨⟨gs ++ [x :: r], ?_, ?_, ?_, ?_⟩, ?_, ?_⟩
      · rw [List.map_append, h1, foldl_add_sum, zero_add]; rfl
      · rw [← h2]; simp
      · intro hf; rw [ha.1] at hf; cases hf
      · intro hf g hg
        rcases List.mem_append.1 hg with hg | hg
        · exact h4 hf g hg
        · simp only [List.mem_singleton] at hg; subst hg; simp
      · simp only [List.length_cons, List.length_nil] at hc ⊢; omega
      · simp only [List.length_cons, List.length_nil] at hn ⊢; omega
    · simp only [Option.some.injEq, Prod.mk.injEq] at hq
      obtain ⟨rfl, rfl⟩ := hq
      refine ⟨⟨gs ++ [[x]], by simp [h1], ?_, ?_, ?_⟩, ?_, ?_⟩
      · rw [← h2]; simp
      · intro hf g hg
        rcases List.mem_append.1 hg with hg | hg
        · exact h3 hf g hg
        · simp only [List.mem_singleton] at hg; subst hg; simp
      · intro hf g hg
        rcases List.mem_append.1 hg with hg | hg
        · exact h4 hf g hg
        · simp only [List.mem_singleton] at hg; subst hg; simp
      · simp only [List.length_cons] at hc ⊢; omega
      · simp only [List.length_cons] at hn ⊢; omega

/-! ### The invariant -/

theorem taken_snoc {Z : Type} (l : List (Z × Bool)) (z : Z) (b : Bool) :
    taken (l ++ [(z, b)]) = taken l ++ (if b then [z] else []) := by
  cases b <;> simp [taken]

structure Inv (n : Net D X Y) (p0 : List (Op X)) (s : St D X Y) : Prop where
  pin : PInv n.inj n.capIn s.pin (taken s.offers) s.fed
  pout : PInv n.ext n.capOut s.pout (taken s.emits) s.log
  sends : sends p0 = s.offers.map (·.1) ++ sends s.prog
  offB : n.inj.drop = false → ∀ o ∈ s.offers, o.2 = true
  offD : ∀ (i : Nat) o, s.offers[i]? = some o → o.2 = false → n.capIn ≤ i
  fedL : s.fed.length = s.k + (if s.cur.isSome then 1 else 0)
  cur : ∀ x, s.cur = some x → s.fed[s.k]? = some x
  st : s.d = (s.fed.take s.k).foldl n.F n.d0
  emL : s.emits.length = s.k + (if s.ext then 1 else 0)
  emV : ∀ (t : Nat) e, s.emits[t]? = some e → e.1 = output n s.fed t
  emI : n.instant = true → s.ext = true → s.cur.isSome = true
  emB : n.ext.drop = false → ∀ o ∈ s.emits, o.2 = true
  emD : ∀ (i : Nat) o, s.emits[i]? = some o → o.2 = false → n.capOut ≤ i
  kT : s.k ≤ s.total
  busy : s.cur.isSome = true ∨ s.ext = true → s.k < s.total
  steps : s.total + stepsIn s.prog = stepsIn p0
  ends : ∀ e ∈ s.ends, e ≤ s.total
  wE : s.waits ≤ s.ends.length
  wI : s.wInj = true → n.inj.zeros = false
  wA : s.wApp = true → n.ext.zeros = false
  wOk : WaitsAfter 0 p0 → WaitsAfter (s.ends.length - s.waits) s.prog

theorem inv_init (n : Net D X Y) (p : List (Op X)) : Inv n p (init n p) where
  pin := pinv_empty _ _
  pout := pinv_empty _ _
  sends := rfl
  offB := by intro _ o h; cases h
  offD := by intro i o h; simp [init] at h
  fedL := rfl
  cur := by intro x h; cases h
  st := rfl
  emL := rfl
  emV := by intro t e h; simp [init] at h
  emI := by intro _ h; cases h
  emB := by intro _ o h; cases h
  emD := by intro i o h; simp [init] at h
  kT := Nat.le_refl _
  busy := by intro h; rcases h with h | h <;> cases h
  steps := by simp [init]
  ends := by intro e h; cases h
  wE := Nat.le_refl _
  wI := by intro h; cases h
  wA := by intro h; cases h
  wOk := by intro h; exact h

theorem taken_length_le {Z : Type} (l : List (Z × Bool)) : (taken l).length ≤ l.length := by
  rw [taken, List.length_map]; exact List.length_filter_le _ _

/-- A drop happens only when the pipe holds as many items as it can, so not for the first ones. -/
theorem snoc_drop {Z : Type} (l : List (Z × Bool)) (z : Z) (b : Bool) (cap : Nat)
    (h : ∀ (i : Nat) o, l[i]? = some o → o.2 = false → cap ≤ i) (hb : b = false → cap ≤ l.length) :
    ∀ (i : Nat) o, (l ++ [(z, b)])[i]? = some o → o.2 = false → cap ≤ i := by
  intro i o hi ho
  rcases Nat.lt_trichotomy i l.length with hlt | heq | hgt
  · rw [List.getElem?_append_left hlt] at hi; exact h i o hi ho
  · subst heq
    simp only [List.getElem?_append_right, Nat.le_refl, Nat.sub_self, List.getElem?_cons_zero, Option.some.injEq] at hi
    subst hi; exact hb ho
  · rw [List.getElem?_eq_none (by simp; omega)] at hi; cases hi

theorem snoc_all {Z : Type} (l : List (Z × Bool)) (z : Z) (b : Bool) (h : ∀ o ∈ l, o.2 = true) (hb : b = true) :
    ∀ o ∈ l ++ [(z, b)], o.2 = true := by
  intro o ho
  rcases List.mem_append.1 ho with ho | ho
  · exact h o ho
  · simp only [List.mem_singleton] at ho; subst ho; exact hb

omit [AddMonoid X] [AddMonoid Y] in
theorem output_snoc (n : Net D X Y) (xs : List X) (x : X) (t : Nat) (ht : (if n.instant then t + 1 else t) ≤ xs.length) :
    output n (xs ++ [x]) t = output n xs t := by
  unfold output; rw [List.take_append_of_le_length ht]

theorem inv_app (n : Net D X Y) (p0 : List (Op X)) (s a : St D X Y) (h : Inv n p0 s) (ha : step n s .app = some a) :
    Inv n p0 a := by
  obtain ⟨hpin, hpout, hsends, hoffB, hoffD, hfedL, hcur, hst, hemL, hemV, hemI, hemB, hemD, hkT, hbusy, hsteps, hends, hwE, hwI,
    hwA, hwOk⟩ := h
  obtain ⟨prog, pin, pout, k, total, ends, waits, d, cur, ext, wInj, wApp, log, offers, fed, emits⟩ := s
  simp only at hpin hpout hsends hoffB hoffD hfedL hcur hst hemL hemV hemI hemB hemD hkT hbusy hsteps hends hwE hwI hwA hwOk
  simp only [step] at ha
  cases prog with
  | nil => cases ha
  | cons o p =>
    cases o with
    | send x =>
      simp only [PolicyNet.sends] at hsends
      simp only [stepsIn] at hsteps
      simp only [WaitsAfter] at hwOk
      simp only at ha
      split at ha
      · rename_i hf
        cases ha
        refine ⟨?_, hpout, ?_, ?_, ?_, hfedL, hcur, hst, hemL, hemV, hemI, hemB, hemD, hkT, hbusy, hsteps, hends, hwE, hwI, hwA, hwOk⟩
        · simp only [taken_snoc, if_true]; exact pinv_put hpin x hf
        · rw [hsends]; simp
        · intro hd; exact snoc_all _ _ _ (hoffB hd) rfl
        · exact snoc_drop _ _ _ _ hoffD (by intro h; cases h)
      · rename_i hf
        split at ha
        · rename_i hd
          cases ha
          refine ⟨?_, hpout, ?_, ?_, ?_, hfedL, hcur, hst, hemL, hemV, hemI, hemB, hemD, hkT, hbusy, hsteps, hends, hwE, hwI, hwA,
            hwOk⟩
          · simp only [taken_snoc, Bool.false_eq_true, if_false, List.append_nil]; exact hpin
          · rw [hsends]; simp
          · intro hd'; rw [hd] at hd'; cases hd'
          · refine snoc_drop _ _ _ _ hoffD ?_
            intro _
            simp only [Pipe.free, decide_eq_true_eq, Nat.not_lt] at hf
            exact Nat.le_trans hf (Nat.le_trans hpin.cnt (taken_length_le _))
        · cases ha
    | recv =>
      simp only [PolicyNet.sends] at hsends
      simp only [stepsIn] at hsteps
      simp only [WaitsAfter] at hwOk
      simp only at ha
      cases ht : pout.take n.ext wApp with
      | some yq =>
        obtain ⟨y, q⟩ := yq
        rw [ht] at ha
        simp only [Option.some.injEq] at ha
        subst ha
        exact ⟨hpin, pinv_take hpout _ _ ht, hsends, hoffB, hoffD, hfedL, hcur, hst, hemL, hemV, hemI, hemB, hemD, hkT, hbusy, hsteps,
          hends, hwE, hwI, (by intro h; cases h), hwOk⟩
      | none =>
        rw [ht] at ha
        simp only at ha
        split at ha
        · cases ha
        · rename_i hw
          cases ha
          refine ⟨hpin, hpout, by rw [hsends]; rfl, hoffB, hoffD, hfedL, hcur, hst, hemL, hemV, hemI, hemB, hemD, hkT, hbusy, hsteps,
            hends, hwE, hwI, ?_, hwOk⟩
          intro _
          have hw' : wApp = false := by simpa using hw
          subst hw'
          unfold Pipe.take at ht
          split at ht
          · simpa using ht
          · split at ht <;> cases ht
    | start m =>
      simp only [PolicyNet.sends] at hsends
      simp only [stepsIn] at hsteps
      simp only [WaitsAfter] at hwOk
      cases ha
      refine ⟨hpin, hpout, hsends, hoffB, hoffD, hfedL, hcur, hst, hemL, hemV, hemI, hemB, hemD, ?_, ?_, ?_, ?_, ?_, hwI, hwA, ?_⟩
      · show k ≤ total + m; omega
      · intro h; have := hbusy h; show k < total + m; omega
      · show total + m + stepsIn p = _; omega
      · intro e he
        rcases List.mem_append.1 he with he | he
        · have := hends e he; show e ≤ total + m; omega
        · simp only [List.mem_singleton] at he; exact Nat.le_of_eq he
      · show waits ≤ (ends ++ [total + m]).length
        simp only [List.length_append, List.length_cons, List.length_nil]; omega
      · intro hw
        have := hwOk hw
        show WaitsAfter ((ends ++ [total + m]).length - waits) p
        simp only [List.length_append, List.length_cons, List.length_nil]
        have e : ends.length + (0 + 1) - waits = ends.length - waits + 1 := by omega
        rw [e]; exact this
    | wait =>
      simp only [PolicyNet.sends] at hsends
      simp only [stepsIn] at hsteps
      simp only [WaitsAfter] at hwOk
      simp only at ha
      cases hw : ends[waits]? with
      | none => rw [hw] at ha; cases ha
      | some e =>
        rw [hw] at ha
        simp only at ha
        have hlt := (List.getElem?_eq_some_iff.1 hw).1
        split at ha
        · cases ha
          refine ⟨hpin, hpout, hsends, hoffB, hoffD, hfedL, hcur, hst, hemL, hemV, hemI, hemB, hemD, hkT, hbusy, hsteps, hends, ?_, hwI,
            hwA, ?_⟩
          · show waits + 1 ≤ ends.length; omega
          · intro h
            have := (hwOk h).2
            show WaitsAfter (ends.length - (waits + 1)) p
            rwa [Nat.sub_sub] at this
        · cases ha

theorem inv_emit (n : Net D X Y) (p0 : List (Op X)) (s a : St D X Y) (h : Inv n p0 s) (y : Y) (he : s.ext = false) (hk : s.k < s.total)
    (hy : y = output n s.fed s.k) (hi : n.instant = true → s.cur.isSome = true) (ha : emit n s y = some a) : Inv n p0 a := by
  obtain ⟨hpin, hpout, hsends, hoffB, hoffD, hfedL, hcur, hst, hemL, hemV, hemI, hemB, hemD, hkT, hbusy, hsteps, hends, hwE, hwI,
    hwA, hwOk⟩ := h
  obtain ⟨prog, pin, pout, k, total, ends, waits, d, cur, ext, wInj, wApp, log, offers, fed, emits⟩ := s
  simp only at hpin hpout hsends hoffB hoffD hfedL hcur hst hemL hemV hemI hemB hemD hkT hbusy hsteps hends hwE hwI hwA hwOk he hk hy hi
  subst he
  simp only [Bool.false_eq_true, if_false, Nat.add_zero] at hemL
  have hV : ∀ b, ∀ (t : Nat) e, (emits ++ [(y, b)])[t]? = some e → e.1 = output n fed t := by
    intro b t e hte
    rcases Nat.lt_trichotomy t emits.length with hlt | heq | hgt
    · rw [List.getElem?_append_left hlt] at hte; exact hemV t e hte
    · subst heq
      simp only [List.getElem?_append_right, Nat.le_refl, Nat.sub_self, List.getElem?_cons_zero, Option.some.injEq] at hte
      subst hte
      rw [hemL]; exact hy
    · rw [List.getElem?_eq_none (by simp; omega)] at hte; cases hte
  unfold emit at ha
  simp only at ha
  split at ha
  · rename_i hf
    cases ha
    refine ⟨hpin, ?_, hsends, hoffB, hoffD, hfedL, hcur, hst, ?_, hV _, fun h _ => hi h, ?_, ?_, hkT, fun _ => hk, hsteps, hends, hwE, hwI,
      hwA, hwOk⟩
    · simp only [taken_snoc, if_true]; exact pinv_put hpout y hf
    · simp only [List.length_append, List.length_cons, List.length_nil, if_true]; omega
    · intro hd; exact snoc_all _ _ _ (hemB hd) rfl
    · exact snoc_drop _ _ _ _ hemD (by intro h; cases h)
  · rename_i hf
    split at ha
    · rename_i hd
      cases ha
      refine ⟨hpin, ?_, hsends, hoffB, hoffD, hfedL, hcur, hst, ?_, hV _, fun h _ => hi h, ?_, ?_, hkT, fun _ => hk, hsteps, hends, hwE,
        hwI, hwA, hwOk⟩
      · simp only [taken_snoc, Bool.false_eq_true, if_false, List.append_nil]; exact hpout
      · simp only [List.length_append, List.length_cons, List.length_nil, if_true]; omega
      · intro hd'; rw [hd] at hd'; cases hd'
      · refine snoc_drop _ _ _ _ hemD ?_
        intro _
        simp only [Pipe.free, decide_eq_true_eq, Nat.not_lt] at hf
        exact Nat.le_trans hf (Nat.le_trans hpout.cnt (taken_length_le _))
    · cases ha

theorem inv_net (n : Net D X Y) (p0 : List (Op X)) (s a : St D X Y) (h : Inv n p0 s) (w : Who) (hw : w ≠ .app)
    (ha : step n s w = some a) : Inv n p0 a := by
  have h0 := h
  obtain ⟨hpin, hpout, hsends, hoffB, hoffD, hfedL, hcur, hst, hemL, hemV, hemI, hemB, hemD, hkT, hbusy, hsteps, hends, hwE, hwI,
    hwA, hwOk⟩ := h
  cases w with
  | app => exact absurd rfl hw
  | inj =>
    obtain ⟨prog, pin, pout, k, total, ends, waits, d, cur, ext, wInj, wApp, log, offers, fed, emits⟩ := s
    simp only at hpin hpout hsends hoffB hoffD hfedL hcur hst hemL hemV hemI hemB hemD hkT hbusy hsteps hends hwE hwI hwA hwOk
    simp only [step] at ha
    split at ha
    · rename_i hc
      obtain ⟨hlt, hcn⟩ := hc
      subst hcn
      simp only [Option.isSome_none, Bool.false_eq_true, if_false, Nat.add_zero] at hfedL
      cases ht : pin.take n.inj wInj with
      | some xq =>
        obtain ⟨x, q⟩ := xq
        rw [ht] at ha
        simp only [Option.some.injEq] at ha
        subst ha
        refine ⟨pinv_take hpin _ _ ht, hpout, hsends, hoffB, hoffD, ?_, ?_, ?_, hemL, ?_, fun _ _ => rfl, hemB, hemD, hkT, fun _ => hlt,
          hsteps, hends, hwE, (by intro h; cases h), hwA, hwOk⟩
        · simp only [List.length_append, List.length_cons, List.length_nil, Option.isSome_some, if_true]; omega
        · intro z hz
          cases hz
          show (fed ++ [x])[k]? = some x
          rw [← hfedL]; simp
        · show d = ((fed ++ [x]).take k).foldl n.F n.d0
          rw [List.take_append_of_le_length (by omega)]; exact hst
        · intro t e hte
          rw [hemV t e hte]
          have hlt' : t < emits.length := (List.getElem?_eq_some_iff.1 hte).1
          rw [output_snoc]
          by_cases he : ext = true
          · have hi : ¬ n.instant = true := by
              intro hi; have := hemI hi he; cases this
            rw [if_neg hi]; rw [if_pos he] at hemL; omega
          · rw [if_neg he] at hemL
            split <;> omega
      | none =>
        rw [ht] at ha
        simp only at ha
        split at ha
        · cases ha
        · rename_i hwj
          cases ha
          refine ⟨hpin, hpout, hsends, hoffB, hoffD, by simpa using hfedL, hcur, hst, hemL, hemV, hemI, hemB, hemD, hkT, hbusy, hsteps,
            hends, hwE, ?_, hwA, hwOk⟩
          intro _
          have hw' : wInj = false := by simpa using hwj
          subst hw'
          unfold Pipe.take at ht
          split at ht
          · simpa using ht
          · split at ht <;> cases ht
    · cases ha
  | ext =>
    simp only [step] at ha
    split at ha
    · rename_i hc
      split at ha
      · rename_i hi
        cases hcu : s.cur with
        | none => rw [hcu] at ha; cases ha
        | some x =>
          rw [hcu] at ha
          refine inv_emit n p0 s a h0 _ hc.2 hc.1 ?_ (fun _ => by rw [hcu]; rfl) ha
          have hk := hcur x hcu
          unfold output
          rw [if_pos hi, List.take_add_one, hk]
          simp only [Option.toList_some, List.foldl_append, List.foldl_cons, List.foldl_nil, ← hst]
      · rename_i hi
        refine inv_emit n p0 s a h0 _ hc.2 hc.1 ?_ (fun h => absurd h hi) ha
        unfold output
        rw [if_neg hi, ← hst]
    · cases ha
  | sync =>
    obtain ⟨prog, pin, pout, k, total, ends, waits, d, cur, ext, wInj, wApp, log, offers, fed, emits⟩ := s
    simp only at hpin hpout hsends hoffB hoffD hfedL hcur hst hemL hemV hemI hemB hemD hkT hbusy hsteps hends hwE hwI hwA hwOk
    simp only [step] at ha
    cases cur with
    | none => cases ha
    | some x =>
      simp only at ha
      split at ha
      · rename_i he
        cases ha
        have hk := hcur x rfl
        have hb := hbusy (Or.inl rfl)
        simp only [Option.isSome_some, if_true] at hfedL
        rw [if_pos he] at hemL
        refine ⟨hpin, hpout, hsends, hoffB, hoffD, ?_, (by intro z hz; cases hz), ?_, ?_, hemV, (by intro _ h; cases h), hemB, hemD,
          hb, (by intro h; rcases h with h | h <;> cases h), hsteps, hends, hwE, hwI, hwA, hwOk⟩
        · simp only [Option.isSome_none, Bool.false_eq_true, if_false]; omega
        · show n.F d x = (fed.take (k + 1)).foldl n.F n.d0
          rw [List.take_add_one, hk]
          simp only [Option.toList_some, List.foldl_append, List.foldl_cons, List.foldl_nil, ← hst]
        · simp only [Bool.false_eq_true, if_false]; omega
      · cases ha
  | inAnn =>
    simp only [step, Option.map_eq_some_iff] at ha
    obtain ⟨q, hq, rfl⟩ := ha
    exact ⟨pinv_announce hpin hq, hpout, hsends, hoffB, hoffD, hfedL, hcur, hst, hemL, hemV, hemI, hemB, hemD, hkT, hbusy, hsteps, hends,
      hwE, hwI, hwA, hwOk⟩
  | inBack =>
    simp only [step, Option.map_eq_some_iff] at ha
    obtain ⟨q, hq, rfl⟩ := ha
    exact ⟨pinv_giveBack hpin hq, hpout, hsends, hoffB, hoffD, hfedL, hcur, hst, hemL, hemV, hemI, hemB, hemD, hkT, hbusy, hsteps, hends,
      hwE, hwI, hwA, hwOk⟩
  | outAnn =>
    simp only [step, Option.map_eq_some_iff] at ha
    obtain ⟨q, hq, rfl⟩ := ha
    exact ⟨hpin, pinv_announce hpout hq, hsends, hoffB, hoffD, hfedL, hcur, hst, hemL, hemV, hemI, hemB, hemD, hkT, hbusy, hsteps, hends,
      hwE, hwI, hwA, hwOk⟩
  | outBack =>
    simp only [step, Option.map_eq_some_iff] at ha
    obtain ⟨q, hq, rfl⟩ := ha
    exact ⟨hpin, pinv_giveBack hpout hq, hsends, hoffB, hoffD, hfedL, hcur, hst, hemL, hemV, hemI, hemB, hemD, hkT, hbusy, hsteps, hends,
      hwE, hwI, hwA, hwOk⟩

theorem inv_step (n : Net D X Y) (p0 : List (Op X)) (s a : St D X Y) (h : Inv n p0 s) (w : Who) (ha : step n s w = some a) :
    Inv n p0 a := by
  by_cases hw : w = .app
  · subst hw; exact inv_app n p0 s a h ha
  · exact inv_net n p0 s a h w hw ha

theorem inv_exec (n : Net D X Y) (p0 : List (Op X)) : ∀ (l : List Who) (s : St D X Y), Inv n p0 s → Inv n p0 (exec n s l)
  | [], _, h => h
  | w :: l, s, h => by
    rw [exec]
    apply inv_exec n p0 l
    cases ha : step n s w with
    | none => exact h
    | some a => exact inv_step n p0 s a h w ha

/-! ### Everything ends -/

/-- Work left in a call of the application. -/
def opLoad : Op X → Nat
  | .send _ => 4
  | .recv => 2
  | .start m => 1 + 8 * m
  | .wait => 1

/-- Work left in a pipe. -/
def Pipe.load {Z : Type} (q : Pipe Z) : Nat := 3 * q.flight.length + 2 * q.vis.length + q.acks

/-- Work left. -/
def load (s : St D X Y) : Nat :=
  (s.prog.map opLoad).sum + s.pin.load + s.pout.load + 8 * (s.total - s.k) + (if s.cur.isSome then 0 else 2) + (if s.ext then 0 else 4) +
    (if s.wInj then 0 else 1) + (if s.wApp then 0 else 1)

theorem load_take {Z : Type} [AddMonoid Z] {p : Pol} {q q' : Pipe Z} {w : Bool} {y : Z} (hq : q.take p w = some (y, q')) :
    q'.load ≤ q.load := by
  obtain ⟨vis, flight, acks⟩ := q
  cases vis with
  | nil =>
    simp only [Pipe.take] at hq
    split at hq
    · simp only [Option.some.injEq, Prod.mk.injEq] at hq; rw [← hq.2]; exact Nat.le_refl _
    · cases hq
  | cons x r =>
    simp only [Pipe.take] at hq
    split at hq
    · simp only [Option.some.injEq, Prod.mk.injEq] at hq; rw [← hq.2]
      simp only [Pipe.load, List.length_cons, List.length_nil]; omega
    · simp only [Option.some.injEq, Prod.mk.injEq] at hq; rw [← hq.2]
      simp only [Pipe.load, List.length_cons]; omega

theorem load_announce {Z : Type} {q q' : Pipe Z} (hq : q.announce = some q') : q'.load + 1 ≤ q.load := by
  obtain ⟨vis, flight, acks⟩ := q
  cases flight with
  | nil => cases hq
  | cons x r =>
    simp only [Pipe.announce, Option.some.injEq] at hq
    subst hq
    simp only [Pipe.load, List.length_append, List.length_cons, List.length_nil]; omega

theorem load_giveBack {Z : Type} {q q' : Pipe Z} (hq : q.giveBack = some q') : q'.load + 1 ≤ q.load := by
  obtain ⟨vis, flight, acks⟩ := q
  cases acks with
  | zero => cases hq
  | succ a =>
    simp only [Pipe.giveBack, Option.some.injEq] at hq
    subst hq
    simp only [Pipe.load]; omega

theorem load_put {Z : Type} (q : Pipe Z) (x : Z) : (q.put x).load = q.load + 3 := by
  simp only [Pipe.put, Pipe.load, List.length_append, List.length_cons, List.length_nil]; omega

omit [AddMonoid X] [AddMonoid Y] in
theorem load_emit (n : Net D X Y) (s a : St D X Y) (y : Y) (he : s.ext = false) (ha : emit n s y = some a) : load a + 1 ≤ load s := by
  unfold emit at ha
  split at ha
  · cases ha
    simp only [load, load_put, he, if_true, Bool.false_eq_true, if_false]; omega
  · split at ha
    · cases ha
      simp only [load, he, if_true, Bool.false_eq_true, if_false]; omega
    · cases ha

/-- Every step leaves less work. -/
theorem load_step (n : Net D X Y) (p0 : List (Op X)) (s a : St D X Y) (h : Inv n p0 s) (w : Who) (ha : step n s w = some a) :
    load a + 1 ≤ load s := by
  have hkT := h.kT
  have hbusy := h.busy
  cases w with
  | app =>
    obtain ⟨prog, pin, pout, k, total, ends, waits, d, cur, ext, wInj, wApp, log, offers, fed, emits⟩ := s
    simp only at hkT hbusy
    simp only [step] at ha
    cases prog with
    | nil => cases ha
    | cons o p =>
      cases o with
      | send x =>
        simp only at ha
        split at ha
        · cases ha
          simp only [load, load_put, List.map_cons, List.sum_cons, opLoad]; omega
        · split at ha
          · cases ha
            simp only [load, List.map_cons, List.sum_cons, opLoad]; omega
          · cases ha
      | recv =>
        simp only at ha
        cases ht : pout.take n.ext wApp with
        | some yq =>
          obtain ⟨y, q⟩ := yq
          rw [ht] at ha
          simp only [Option.some.injEq] at ha
          subst ha
          have := load_take ht
          simp only [load, List.map_cons, List.sum_cons, opLoad, Bool.false_eq_true, if_false]; omega
        | none =>
          rw [ht] at ha
          simp only at ha
          split at ha
          · cases ha
          · rename_i hw
            cases ha
            simp only [load, if_neg hw, if_true]; omega
      | start m =>
        cases ha
        simp only [load, List.map_cons, List.sum_cons, opLoad]; omega
      | wait =>
        simp only at ha
        cases hw : ends[waits]? with
        | none => rw [hw] at ha; cases ha
        | some e =>
          rw [hw] at ha
          simp only at ha
          split at ha
          · cases ha
            simp only [load, List.map_cons, List.sum_cons, opLoad]; omega
          · cases ha
  | inj =>
    obtain ⟨prog, pin, pout, k, total, ends, waits, d, cur, ext, wInj, wApp, log, offers, fed, emits⟩ := s
    simp only at hkT hbusy
    simp only [step] at ha
    split at ha
    · rename_i hc
      obtain ⟨hlt, hcn⟩ := hc
      subst hcn
      cases ht : pin.take n.inj wInj with
      | some xq =>
        obtain ⟨x, q⟩ := xq
        rw [ht] at ha
        simp only [Option.some.injEq] at ha
        subst ha
        have := load_take ht
        simp only [load, Option.isSome_none, Option.isSome_some, Bool.false_eq_true, if_false, if_true]
        split <;> omega
      | none =>
        rw [ht] at ha
        simp only at ha
        split at ha
        · cases ha
        · rename_i hw
          cases ha
          simp only [load, if_neg hw, if_true]; omega
    · cases ha
  | ext =>
    simp only [step] at ha
    split at ha
    · rename_i hc
      split at ha
      · cases hcu : s.cur with
        | none => rw [hcu] at ha; cases ha
        | some x => rw [hcu] at ha; exact load_emit n s a _ hc.2 ha
      · exact load_emit n s a _ hc.2 ha
    · cases ha
  | sync =>
    obtain ⟨prog, pin, pout, k, total, ends, waits, d, cur, ext, wInj, wApp, log, offers, fed, emits⟩ := s
    simp only at hkT hbusy
    simp only [step] at ha
    cases cur with
    | none => cases ha
    | some x =>
      simp only at ha
      split at ha
      · rename_i he
        cases ha
        have hb := hbusy (Or.inl rfl)
        simp only [load, he, Option.isSome_none, Option.isSome_some, Bool.false_eq_true, if_false, if_true]; omega
      · cases ha
  | inAnn =>
    simp only [step, Option.map_eq_some_iff] at ha
    obtain ⟨q, hq, rfl⟩ := ha
    have := load_announce hq
    simp only [load]; omega
  | inBack =>
    simp only [step, Option.map_eq_some_iff] at ha
    obtain ⟨q, hq, rfl⟩ := ha
    have := load_giveBack hq
    simp only [load]; omega
  | outAnn =>
    simp only [step, Option.map_eq_some_iff] at ha
    obtain ⟨q, hq, rfl⟩ := ha
    have := load_announce hq
    simp only [load]; omega
  | outBack =>
    simp only [step, Option.map_eq_some_iff] at ha
    obtain ⟨q, hq, rfl⟩ := ha
    have := load_giveBack hq
    simp only [load]; omega

theorem exec_load (n : Net D X Y) (p0 : List (Op X)) : ∀ (l : List Who) (s : St D X Y), Inv n p0 s → load (exec n s l) ≤ load s
  | [], _, _ => Nat.le_refl _
  | w :: l, s, h => by
    rw [exec]
    cases ha : step n s w with
    | none => exact exec_load n p0 l s h
    | some a =>
      have := load_step n p0 s a h w ha
      have := exec_load n p0 l a (inv_step n p0 s a h w ha)
      simp only [Option.getD_some]; omega

theorem exec_stuck (n : Net D X Y) (s : St D X Y) (h : Stuck n s) : ∀ l, exec n s l = s
  | [] => rfl
  | w :: l => by rw [exec, h w]; exact exec_stuck n s h l

theorem exec_append (n : Net D X Y) : ∀ (l l' : List Who) (s : St D X Y), exec n s (l ++ l') = exec n (exec n s l) l'
  | [], _, _ => rfl
  | w :: l, l', s => by rw [List.cons_append, exec, exec, exec_append n l l']

theorem round_load (n : Net D X Y) (p0 : List (Op X)) (w : Who) : ∀ (l : List Who) (s : St D X Y), Inv n p0 s → w ∈ l →
    step n s w ≠ none → load (exec n s l) + 1 ≤ load s
  | [], _, _, hw, _ => by cases hw
  | v :: l, s, h, hw, hs => by
    rw [exec]
    cases ha : step n s v with
    | none =>
      rcases List.mem_cons.1 hw with rfl | hw
      · exact absurd ha hs
      · exact round_load n p0 w l s h hw hs
    | some a =>
      have := load_step n p0 s a h v ha
      have := exec_load n p0 l a (inv_step n p0 s a h v ha)
      simp only [Option.getD_some]; omega

/-- After as many rounds as there is work nobody can do a step. -/
theorem rounds_stuck (n : Net D X Y) (p0 : List (Op X)) : ∀ (rounds : List (List Who)) (s : St D X Y), Inv n p0 s →
    (∀ rd ∈ rounds, ∀ w, w ∈ rd) → load s < rounds.length → Stuck n (exec n s rounds.flatten)
  | [], s, _, _, hl => by simp at hl
  | rd :: rounds, s, h, hr, hl => by
    by_cases hs : Stuck n s
    · rw [exec_stuck n s hs]; exact hs
    · rw [List.flatten_cons, exec_append]
      have : ∃ w, step n s w ≠ none := by
        refine Classical.byContradiction fun hn => hs fun w => ?_
        exact Classical.byContradiction fun hw => hn ⟨w, hw⟩
      obtain ⟨w, hw⟩ := this
      have hd := round_load n p0 w rd s h (hr rd List.mem_cons_self w) hw
      refine rounds_stuck n p0 rounds _ (inv_exec n p0 rd s h) (fun r hm => hr r (List.mem_cons_of_mem _ hm)) ?_
      simp only [List.length_cons] at hl; omega

/-- If the Injector's model never blocks on an empty pipe and the Extractor's model never on a full one, the network never waits: when
nobody can do a step, all runs that were started have ended. -/
theorem stuck_network (n : Net D X Y) (p0 : List (Op X)) (hz : n.inj.zeros = true) (hd : n.ext.drop = true) (s : St D X Y)
    (h : Inv n p0 s) (hs : Stuck n s) : s.k = s.total := by
  refine Classical.byContradiction fun hne => ?_
  have hlt : s.k < s.total := Nat.lt_of_le_of_ne h.kT hne
  have hemit : ∀ y, emit n s y ≠ none := by
    intro y hy
    unfold emit at hy
    rw [hd] at hy
    split at hy <;> cases hy
  cases hc : s.cur with
  | none =>
    have hi := hs .inj
    have hw : s.wInj = false := by
      cases hw : s.wInj with
      | false => rfl
      | true => rw [h.wI hw] at hz; cases hz
    simp only [step, hc, hlt, and_self, if_true, hw] at hi
    cases ht : s.pin.take n.inj false with
    | some xq => rw [ht] at hi; cases hi
    | none => rw [ht] at hi; simp at hi
  | some x =>
    have he := hs .ext
    have hy := hs .sync
    cases hx : s.ext with
    | true => simp [step, hc, hx] at hy
    | false =>
      simp only [step, hlt, hx, and_self, if_true, hc] at he
      split at he
      · exact hemit _ he
      · exact hemit _ he

/-- If additionally the application uses non-blocking calls, it ends. -/
theorem stuck_app (n : Net D X Y) (p0 : List (Op X)) (hp : WaitsAfter 0 p0) (hi : n.inj.zeros = true ∧ n.inj.drop = true)
    (he : n.ext.zeros = true ∧ n.ext.drop = true) (s : St D X Y) (h : Inv n p0 s) (hs : Stuck n s) : s.prog = [] := by
  have hk := stuck_network n p0 hi.1 he.2 s h hs
  have ha := hs .app
  cases hpr : s.prog with
  | nil => rfl
  | cons o p =>
    exfalso
    have hw := h.wOk hp
    rw [hpr] at hw
    simp only [step, hpr] at ha
    cases o with
    | send x =>
      simp only at ha
      split at ha
      · cases ha
      · rw [if_pos hi.2] at ha; cases ha
    | recv =>
      simp only at ha
      have hwA : s.wApp = false := by
        cases hw : s.wApp with
        | false => rfl
        | true => have := h.wA hw; rw [he.1] at this; cases this
      rw [hwA] at ha
      cases ht : s.pout.take n.ext false with
      | some yq => rw [ht] at ha; cases ha
      | none => rw [ht] at ha; simp at ha
    | start m => cases ha
    | wait =>
      simp only [WaitsAfter] at hw
      simp only at ha
      have hlt : s.waits < s.ends.length := by omega
      rw [List.getElem?_eq_getElem hlt] at ha
      simp only at ha
      have := h.ends _ (List.getElem_mem hlt)
      rw [if_pos (by omega)] at ha
      cases ha

/-- The pipes have settled. -/
theorem stuck_pipes (n : Net D X Y) (s : St D X Y) (hs : Stuck n s) :
    s.pin.flight = [] ∧ s.pin.acks = 0 ∧ s.pout.flight = [] ∧ s.pout.acks = 0 := by
  have h1 := hs .inAnn
  have h2 := hs .inBack
  have h3 := hs .outAnn
  have h4 := hs .outBack
  simp only [step, Option.map_eq_none_iff] at h1 h2 h3 h4
  refine ⟨?_, ?_, ?_, ?_⟩
  · unfold Pipe.announce at h1; split at h1
    · assumption
    · cases h1
  · unfold Pipe.giveBack at h2; split at h2
    · assumption
    · cases h2
  · unfold Pipe.announce at h3; split at h3
    · assumption
    · cases h3
  · unfold Pipe.giveBack at h4; split at h4
    · assumption
    · cases h4

/-! ### C126 -/

/-- **C126.** If the network's side does not block (`NON_BLOCKING_ZEROS` for the Injector, `NON_BLOCKING_DROP` for the Extractor), then
whatever the application does, with whatever blocking calls: after enough rounds in which everybody gets a turn, every run that was
started has ended. The network never waits for the application. -/
theorem C126_runs_end (n : Net D X Y) (p : List (Op X)) (hz : n.inj.zeros = true) (hd : n.ext.drop = true)
    (rounds : List (List Who)) (hr : ∀ rd ∈ rounds, ∀ w, w ∈ rd) (hlen : (p.map opLoad).sum + 8 < rounds.length) :
    (exec n (init n p) rounds.flatten).k = (exec n (init n p) rounds.flatten).total := by
  have hi := inv_init n p
  exact stuck_network n p hz hd _ (inv_exec n p _ _ hi) (rounds_stuck n p rounds _ hi hr (by
    simpa [load, init, empty, Pipe.load] using hlen))

/-- **C126.** If both sides do not block, every application whose `wait`s come after the runs they wait for completes, under every
schedule in which everybody gets enough turns, whatever the buffer sizes; all its runs have been done completely, everything sent was
either taken or dropped, and the pipes have settled. -/
theorem C126_completes (n : Net D X Y) (p : List (Op X)) (hp : WaitsAfter 0 p) (hi : n.inj.zeros = true ∧ n.inj.drop = true)
    (he : n.ext.zeros = true ∧ n.ext.drop = true) (rounds : List (List Who)) (hr : ∀ rd ∈ rounds, ∀ w, w ∈ rd)
    (hlen : (p.map opLoad).sum + 8 < rounds.length) :
    let s := exec n (init n p) rounds.flatten
    s.prog = [] ∧ s.k = stepsIn p ∧ s.fed.length = stepsIn p ∧ s.emits.length = stepsIn p ∧ s.offers.map (·.1) = sends p ∧
      s.pin.flight = [] ∧ s.pout.flight = [] := by
  intro s
  have hi0 := inv_init n p
  have hinv : Inv n p s := inv_exec n p _ _ hi0
  have hst : Stuck n s := rounds_stuck n p rounds _ hi0 hr (by simpa [load, init, empty, Pipe.load] using hlen)
  have hprog := stuck_app n p hp hi he s hinv hst
  have hk := stuck_network n p hi.1 he.2 s hinv hst
  have hs := hinv.steps
  rw [hprog] at hs
  simp only [stepsIn, Nat.add_zero] at hs
  have hc : s.cur.isSome = false := by
    cases hc : s.cur.isSome with
    | false => rfl
    | true => have := hinv.busy (Or.inl hc); omega
  have hx : s.ext = false := by
    cases hc : s.ext with
    | false => rfl
    | true => have := hinv.busy (Or.inr hc); omega
  have h1 := hinv.fedL
  have h2 := hinv.emL
  have h3 := hinv.sends
  rw [hc] at h1
  rw [hx] at h2
  rw [hprog] at h3
  simp only [Bool.false_eq_true, if_false, Nat.add_zero] at h1 h2
  simp only [sends, List.append_nil] at h3
  have hp := stuck_pipes n s hst
  exact ⟨hprog, by omega, by omega, by omega, h3.symm, hp.1, hp.2.2.1⟩

/-- **C126.** No schedule is infinite: whatever the configuration, at most a fixed number of steps is ever done. -/
theorem C126_no_endless_loop (n : Net D X Y) (p : List (Op X)) (rounds : List (List Who)) (hr : ∀ rd ∈ rounds, ∀ w, w ∈ rd)
    (hlen : (p.map opLoad).sum + 8 < rounds.length) : Stuck n (exec n (init n p) rounds.flatten) :=
  rounds_stuck n p rounds _ (inv_init n p) hr (by simpa [load, init, empty, Pipe.load] using hlen)

/-- **C126.** What the network is given, under every schedule: the inputs of the time steps are sums of groups of consecutive items among
those the pipe took (zeros for an empty group), the groups follow each other, and what is in no group is still in the pipe; with FIFO at
most one item per time step, with a blocking receive at least one. What the pipe took are the items sent, in order, without those
dropped; none is dropped with a blocking send, and never one of the first `buffer_size` items. -/
theorem C126_inputs (n : Net D X Y) (p : List (Op X)) (l : List Who) :
    let s := exec n (init n p) l
    Grouped n.inj (taken s.offers) s.fed (s.pin.vis ++ s.pin.flight) ∧ sends p = s.offers.map (·.1) ++ sends s.prog ∧
      (n.inj.drop = false → ∀ o ∈ s.offers, o.2 = true) ∧ (∀ (i : Nat) o, s.offers[i]? = some o → o.2 = false → n.capIn ≤ i) := by
  intro s
  have hinv : Inv n p s := inv_exec n p _ _ (inv_init n p)
  exact ⟨hinv.pin.grp, hinv.sends, hinv.offB, hinv.offD⟩

/-- **C126.** What `receive` returns, under every schedule: the output of the `t`-th time step is the network's output for the inputs it
was given; the returned values are sums of groups of consecutive outputs among those the pipe took, which are the outputs without those
dropped; none is dropped with a blocking send, and never one of the first `buffer_size` outputs. -/
theorem C126_outputs (n : Net D X Y) (p : List (Op X)) (l : List Who) :
    let s := exec n (init n p) l
    (∀ (t : Nat) e, s.emits[t]? = some e → e.1 = output n s.fed t) ∧
      Grouped n.ext (taken s.emits) s.log (s.pout.vis ++ s.pout.flight) ∧
      (n.ext.drop = false → ∀ o ∈ s.emits, o.2 = true) ∧ (∀ (i : Nat) o, s.emits[i]? = some o → o.2 = false → n.capOut ≤ i) := by
  intro s
  have hinv : Inv n p s := inv_exec n p _ _ (inv_init n p)
  exact ⟨hinv.emV, hinv.pout.grp, hinv.emB, hinv.emD⟩

theorem grouped_sum {Z : Type} [AddMonoid Z] {p : Pol} {acc res rest : List Z} (h : Grouped p acc res rest) :
    res.sum + rest.sum = acc.sum := by
  obtain ⟨gs, h1, h2, _, _⟩ := h
  rw [← h1, ← h2, List.sum_append, List.sum_flatten]

/-- **C126.** Nothing is lost and nothing is doubled: at every moment, whatever the configuration, what the network was given and what is
still in the pipe add up to what the pipe took; the same on the way out. -/
theorem C126_conserved (n : Net D X Y) (p : List (Op X)) (l : List Who) :
    let s := exec n (init n p) l
    s.fed.sum + (s.pin.vis ++ s.pin.flight).sum = (taken s.offers).sum ∧
      s.log.sum + (s.pout.vis ++ s.pout.flight).sum = (taken s.emits).sum := by
  intro s
  have hinv : Inv n p s := inv_exec n p _ _ (inv_init n p)
  exact ⟨grouped_sum hinv.pin.grp, grouped_sum hinv.pout.grp⟩

theorem taken_all {Z : Type} (l : List (Z × Bool)) (h : ∀ o ∈ l, o.2 = true) : taken l = l.map (·.1) := by
  unfold taken
  rw [List.filter_eq_self.2 h]

/-- With FIFO and a blocking receive, results are the items. -/
theorem grouped_fifo {Z : Type} [AddMonoid Z] {p : Pol} {acc res rest : List Z} (h : Grouped p acc res rest)
    (ha : p.accumulate = false) (hz : p.zeros = false) : res ++ rest = acc := by
  obtain ⟨gs, h1, h2, h3, h4⟩ := h
  have key : ∀ gs : List (List Z), (∀ g ∈ gs, g.length ≤ 1) → (∀ g ∈ gs, g ≠ []) → gs.map List.sum = gs.flatten := by
    intro gs
    induction gs with
    | nil => intro _ _; rfl
    | cons g gs ih =>
      intro h3 h4
      rw [List.map_cons, List.flatten_cons, ih (fun g' hg => h3 g' (List.mem_cons_of_mem _ hg))
        (fun g' hg => h4 g' (List.mem_cons_of_mem _ hg))]
      have l1 := h3 g List.mem_cons_self
      have l2 := h4 g List.mem_cons_self
      match g, l1, l2 with
      | [x], _, _ => simp
      | [], _, l2 => exact absurd rfl l2
      | _ :: _ :: _, l1, _ => simp at l1
  rw [← h2, ← h1, key gs (h3 ha) (h4 hz)]

/-- **C126.** With the default configuration (C101): for every schedule, the `t`-th value `receive` returns is the output of the `t`-th
time step of the network fed with the items sent, one per time step. -/
theorem C126_default (n : Net D X Y) (p : List (Op X)) (hi : n.inj = ⟨false, false, false⟩) (he : n.ext = ⟨false, false, false⟩)
    (l : List Who) (t : Nat) (y : Y) (h : (exec n (init n p) l).log[t]? = some y) : y = output n (sends p) t := by
  have hinv : Inv n p (exec n (init n p) l) := inv_exec n p _ _ (inv_init n p)
  generalize exec n (init n p) l = s at h hinv
  have h1 := grouped_fifo hinv.pout.grp (by rw [he]) (by rw [he])
  rw [taken_all _ (hinv.emB (by rw [he]))] at h1
  have h2 := grouped_fifo hinv.pin.grp (by rw [hi]) (by rw [hi])
  rw [taken_all _ (hinv.offB (by rw [hi]))] at h2
  have hlt := (List.getElem?_eq_some_iff.1 h).1
  have h3 : (s.emits.map (·.1))[t]? = some y := by rw [← h1, List.getElem?_append_left hlt]; exact h
  rw [List.getElem?_map, Option.map_eq_some_iff] at h3
  obtain ⟨e, h3, rfl⟩ := h3
  rw [hinv.emV t e h3]
  have hs : sends p = s.fed ++ ((s.pin.vis ++ s.pin.flight) ++ sends s.prog) := by
    rw [hinv.sends, ← h2, List.append_assoc]
  have hlt' := (List.getElem?_eq_some_iff.1 h3).1
  have hle : (if n.instant then t + 1 else t) ≤ s.fed.length := by
    have e1 := hinv.emL
    have e2 := hinv.fedL
    by_cases hx : s.ext = true
    · rw [if_pos hx] at e1
      by_cases hin : n.instant = true
      · rw [if_pos (hinv.emI hin hx)] at e2; rw [if_pos hin]; omega
      · rw [if_neg hin]; omega
    · rw [if_neg hx] at e1
      split <;> omega
  unfold output
  rw [hs, List.take_append_of_le_length hle]

/-- **C126.** An Injector connected directly to an Extractor, with `ACCUMULATE` or `FIFO` on either side and nothing dropped: when the
application has ended, what it received and what is left in the pipes add up to what it sent. -/
theorem C126_straight (n : Net D X X) (hG : ∀ d x, n.G (n.F d x) = x) (hin : n.instant = true) (p : List (Op X))
    (hp : WaitsAfter 0 p) (hi : n.inj.zeros = true ∧ n.inj.drop = true)
    (he : n.ext.zeros = true ∧ n.ext.drop = true) (hci : (sends p).length ≤ n.capIn) (hco : stepsIn p ≤ n.capOut)
    (rounds : List (List Who)) (hr : ∀ rd ∈ rounds, ∀ w, w ∈ rd) (hlen : (p.map opLoad).sum + 8 < rounds.length) :
    let s := exec n (init n p) rounds.flatten
    s.log.sum + s.pout.vis.sum + s.pin.vis.sum = (sends p).sum := by
  intro s
  have hinv : Inv n p s := inv_exec n p _ _ (inv_init n p)
  obtain ⟨_, _, hfl, hel, hof, hf1, hf2⟩ := C126_completes n p hp hi he rounds hr hlen
  have hallO : ∀ o ∈ s.offers, o.2 = true := by
    intro o ho
    obtain ⟨i, hi', hio⟩ := List.mem_iff_getElem.1 ho
    cases hb : o.2 with
    | true => rfl
    | false =>
      have h1 := hinv.offD i o (by rw [List.getElem?_eq_getElem hi', hio]) hb
      have h2 : s.offers.length = (sends p).length := by rw [← hof, List.length_map]
      omega
  have hallE : ∀ o ∈ s.emits, o.2 = true := by
    intro o ho
    obtain ⟨i, hi', hio⟩ := List.mem_iff_getElem.1 ho
    cases hb : o.2 with
    | true => rfl
    | false =>
      have h1 := hinv.emD i o (by rw [List.getElem?_eq_getElem hi', hio]) hb
      have h2 : s.emits.length = stepsIn p := hel
      omega
  have hfed : s.emits.map (·.1) = s.fed := by
    apply List.ext_getElem?
    intro t
    rw [List.getElem?_map]
    by_cases ht : t < s.emits.length
    · have h1 := hinv.emV t _ (List.getElem?_eq_getElem ht)
      rw [List.getElem?_eq_getElem ht, Option.map_some, h1]
      have h2 : t < s.fed.length := by
        have e1 : s.fed.length = stepsIn p := hfl
        have e2 : s.emits.length = stepsIn p := hel
        omega
      unfold output
      rw [if_pos hin, List.take_add_one, List.getElem?_eq_getElem h2]
      simp only [Option.toList_some, List.foldl_append, List.foldl_cons, List.foldl_nil, hG]
    · have h2 : s.fed.length ≤ t := by
        have e1 : s.fed.length = stepsIn p := hfl
        have e2 : s.emits.length = stepsIn p := hel
        omega
      rw [List.getElem?_eq_none (by omega), List.getElem?_eq_none h2]; rfl
  have c1 := grouped_sum hinv.pin.grp
  have c2 := grouped_sum hinv.pout.grp
  rw [taken_all _ hallO] at c1
  rw [taken_all _ hallE] at c2
  have hf1' : s.pin.flight = [] := hf1
  have hf2' : s.pout.flight = [] := hf2
  have hof' : s.offers.map (·.1) = sends p := hof
  rw [hf1', List.append_nil, hof'] at c1
  rw [hf2', List.append_nil, hfed] at c2
  rw [c2, c1]

end Verif.IO.PolicyNet
