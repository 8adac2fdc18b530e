import Verif.Wired.Spec

/-!
# Lemmas: from port operations to channel operations
-/

namespace Verif.Wired

open Verif.Wiring (Port End Builders CB ioEnds trOf builders sel buildChannels)
open Verif.System (Op Precedes)

variable {S V W : Type} [Add V] [Zero V]

/-! ## Lists -/

theorem flatMap_split {α β : Type} (f : α → List β) : ∀ (L : List α) (X : List β) (a : β) (R : List β), L.flatMap f = X ++ a :: R →
    ∃ l o r X' R', L = l ++ o :: r ∧ f o = X' ++ a :: R' ∧ X = l.flatMap f ++ X' ∧ R = R' ++ r.flatMap f
  | [], X, a, R, h => by simp at h
  | o :: L, X, a, R, h => by
    rw [List.flatMap_cons] at h
    rcases List.append_eq_append_iff.1 h with ⟨Y, h1, h2⟩ | ⟨Y, h1, h2⟩
    · obtain ⟨l, o', r, X', R', e1, e2, e3, e4⟩ := flatMap_split f L Y a R h2
      refine ⟨o :: l, o', r, X', R', by rw [e1]; rfl, e2, ?_, e4⟩
      rw [h1, e3, List.flatMap_cons, List.append_assoc]
    · cases Y with
      | nil =>
        simp only [List.append_nil, List.nil_append] at h1 h2
        obtain ⟨l, o', r, X', R', e1, e2, e3, e4⟩ := flatMap_split f L [] a R h2.symm
        refine ⟨o :: l, o', r, X', R', by rw [e1]; rfl, e2, ?_, e4⟩
        rw [List.flatMap_cons, List.append_assoc, ← e3, List.append_nil, h1]
      | cons y Y =>
        simp only [List.cons_append, List.cons.injEq] at h2
        obtain ⟨rfl, h2⟩ := h2
        exact ⟨[], o, L, X, Y, rfl, h1, by simp, h2⟩

/-! ## Running the steps of port operations -/

/-- Vars and sum after some steps, if `h c` is received on channel `c`. -/
def mAfter (P : PM S V W) (tr : End → V → V) (h : Nat → V) : List Micro → S → V → S × V
  | [], s, a => (s, a)
  | .zero :: r, s, _ => mAfter P tr h r s 0
  | .put x :: r, s, a => mAfter P tr h r (P.store s x a) a
  | .out _ _ :: r, s, a => mAfter P tr h r s a
  | .add e :: r, s, a => mAfter P tr h r s (a + tr e (h e.chan))

theorem mAfter_append (P : PM S V W) (tr : End → V → V) (h : Nat → V) : ∀ (X Y : List Micro) (s : S) (a : V),
    mAfter P tr h (X ++ Y) s a = mAfter P tr h Y (mAfter P tr h X s a).1 (mAfter P tr h X s a).2
  | [], Y, s, a => rfl
  | .zero :: X, Y, s, a => by simp only [List.cons_append, mAfter]; exact mAfter_append P tr h X Y _ _
  | .put x :: X, Y, s, a => by simp only [List.cons_append, mAfter]; exact mAfter_append P tr h X Y _ _
  | .out _ _ :: X, Y, s, a => by simp only [List.cons_append, mAfter]; exact mAfter_append P tr h X Y _ _
  | .add _ :: X, Y, s, a => by simp only [List.cons_append, mAfter]; exact mAfter_append P tr h X Y _ _

/-- No reception among the steps. -/
def NoAdd (Z : List Micro) : Prop := ∀ e, Micro.add e ∉ Z

theorem noAdd_tail {m : Micro} {Z : List Micro} (h : NoAdd (m :: Z)) : NoAdd Z := fun e he => h e (List.mem_cons_of_mem _ he)

theorem noAdd_nil : NoAdd [] := fun _ h => by simp at h

theorem emitM_skip (P : PM S V W) (tr : End → V → V) (h : Nat → V) (c : Nat) (y : String) (e : End) (he : e.chan = c) (R : List Micro) :
    ∀ (Z : List Micro) (s : S) (a : V), NoAdd Z → (∀ y' e', Micro.out y' e' ∈ Z → e'.chan ≠ c) →
      emitM P c (Z ++ .out y e :: R) s a = P.value (mAfter P tr h Z s a).1 y
  | [], s, a, _, _ => by simp [emitM, mAfter, he]
  | .zero :: Z, s, a, hz, ho => by
    simp only [List.cons_append, emitM, mAfter]
    exact emitM_skip P tr h c y e he R Z _ _ (noAdd_tail hz) (fun y' e' hm => ho y' e' (List.mem_cons_of_mem _ hm))
  | .put x :: Z, s, a, hz, ho => by
    simp only [List.cons_append, emitM, mAfter]
    exact emitM_skip P tr h c y e he R Z _ _ (noAdd_tail hz) (fun y' e' hm => ho y' e' (List.mem_cons_of_mem _ hm))
  | .out x e' :: Z, s, a, hz, ho => by
    simp only [List.cons_append, emitM, mAfter]
    rw [if_neg (ho x e' (by simp))]
    exact emitM_skip P tr h c y e he R Z _ _ (noAdd_tail hz) (fun y' e' hm => ho y' e' (List.mem_cons_of_mem _ hm))
  | .add e' :: Z, s, a, hz, ho => absurd (List.mem_cons_self) (hz e')

theorem absorbM_skip (P : PM S V W) (tr : End → V → V) (h : Nat → V) (v : V) (e : End) (R : List Micro) :
    ∀ (Z : List Micro) (s : S) (a : V), NoAdd Z →
      absorbM P tr v (Z ++ .add e :: R) s a = ⟨(mAfter P tr h Z s a).1, (mAfter P tr h Z s a).2 + tr e v, R⟩
  | [], s, a, _ => by simp [absorbM, mAfter]
  | .zero :: Z, s, a, hz => by
    simp only [List.cons_append, absorbM, mAfter]
    exact absorbM_skip P tr h v e R Z _ _ (noAdd_tail hz)
  | .put x :: Z, s, a, hz => by
    simp only [List.cons_append, absorbM, mAfter]
    exact absorbM_skip P tr h v e R Z _ _ (noAdd_tail hz)
  | .out x e' :: Z, s, a, hz => by
    simp only [List.cons_append, absorbM, mAfter]
    exact absorbM_skip P tr h v e R Z _ _ (noAdd_tail hz)
  | .add e' :: Z, s, a, hz => absurd (List.mem_cons_self) (hz e')

theorem finishM_skip (P : PM S V W) (tr : End → V → V) (h : Nat → V) :
    ∀ (Z : List Micro) (s : S) (a : V), NoAdd Z → finishM P Z s a = P.finish (mAfter P tr h Z s a).1
  | [], s, a, _ => rfl
  | .zero :: Z, s, a, hz => by simp only [finishM, mAfter]; exact finishM_skip P tr h Z _ _ (noAdd_tail hz)
  | .put x :: Z, s, a, hz => by simp only [finishM, mAfter]; exact finishM_skip P tr h Z _ _ (noAdd_tail hz)
  | .out x e' :: Z, s, a, hz => by simp only [finishM, mAfter]; exact finishM_skip P tr h Z _ _ (noAdd_tail hz)
  | .add e' :: Z, s, a, hz => absurd (List.mem_cons_self) (hz e')

/-- What the transformer of process `p` does. -/
def trP (b : Builders) (funcs : Port → List (List Char × List (V → V))) (p : Nat) (e : End) : V → V := trOf b funcs ⟨p, e.name, .inp⟩ e

/-- The executed code lags behind by steps without receptions. -/
theorem after_micro (x : Platform S V W) (b : Builders) (funcs : Port → List (List Char × List (V → V))) (h : Nat → V) (p : Nat) (Y : List Micro) :
    ∀ (X Z : List Micro) (s : S) (a : V), NoAdd Z → ∃ Z' s' a', NoAdd Z' ∧ (∀ m ∈ Z', m ∈ Z ++ X) ∧
      EndToEnd.after (sys x b funcs) h p (X.flatMap chanOp) ⟨s, a, Z ++ (X ++ Y)⟩ = ⟨s', a', Z' ++ Y⟩ ∧
      mAfter (x.pm p) (trP b funcs p) h Z' s' a' = mAfter (x.pm p) (trP b funcs p) h (Z ++ X) s a
  | [], Z, s, a, hz => ⟨Z, s, a, hz, by simp, by simp [EndToEnd.after], by simp⟩
  | .zero :: X, Z, s, a, hz => by
    have hz' : NoAdd (Z ++ [.zero]) := by
      intro e he
      rcases List.mem_append.1 he with h | h
      · exact hz e h
      · simp at h
    obtain ⟨Z', s', a', h1, h2, h3, h4⟩ := after_micro x b funcs h p Y X (Z ++ [.zero]) s a hz'
    refine ⟨Z', s', a', h1, by simpa using h2, ?_, by simpa using h4⟩
    simpa [chanOp] using h3
  | .put n :: X, Z, s, a, hz => by
    have hz' : NoAdd (Z ++ [.put n]) := by
      intro e he
      rcases List.mem_append.1 he with h | h
      · exact hz e h
      · simp at h
    obtain ⟨Z', s', a', h1, h2, h3, h4⟩ := after_micro x b funcs h p Y X (Z ++ [.put n]) s a hz'
    refine ⟨Z', s', a', h1, by simpa using h2, ?_, by simpa using h4⟩
    simpa [chanOp] using h3
  | .out n e :: X, Z, s, a, hz => by
    have hz' : NoAdd (Z ++ [.out n e]) := by
      intro e he
      rcases List.mem_append.1 he with h | h
      · exact hz e h
      · simp at h
    obtain ⟨Z', s', a', h1, h2, h3, h4⟩ := after_micro x b funcs h p Y X (Z ++ [.out n e]) s a hz'
    refine ⟨Z', s', a', h1, by simpa using h2, ?_, by simpa using h4⟩
    simpa [chanOp, EndToEnd.after] using h3
  | .add e :: X, Z, s, a, hz => by
    obtain ⟨Z', s', a', h1, h2, h3, h4⟩ := after_micro x b funcs h p Y X [] (mAfter (x.pm p) (trP b funcs p) h Z s a).1
      ((mAfter (x.pm p) (trP b funcs p) h Z s a).2 + trP b funcs p e (h e.chan)) noAdd_nil
    refine ⟨Z', s', a', h1, ?_, ?_, ?_⟩
    · intro m hm
      have := h2 m hm
      simp only [List.nil_append] at this
      simp [this]
    · rw [List.flatMap_cons]
      show EndToEnd.after (sys x b funcs) h p (X.flatMap chanOp) ((sys x b funcs).absorb p ⟨s, a, Z ++ (.add e :: X ++ Y)⟩ e.chan (h e.chan)) = _
      rw [← h3]
      congr 1
      show absorbM (x.pm p) (trP b funcs p) (h e.chan) (Z ++ .add e :: (X ++ Y)) s a = _
      rw [absorbM_skip (x.pm p) (trP b funcs p) h _ e (X ++ Y) Z s a hz]
      rfl
    · rw [h4, List.nil_append, mAfter_append _ _ _ Z]
      rfl

/-- What is received by `x` of process `p` if `h c` is received on channel `c`. -/
def received (b : Builders) (funcs : Port → List (List Char × List (V → V))) (h : Nat → V) (p : Nat) (x : String) : V :=
  (ioEnds b ⟨p, x, .inp⟩).foldl (fun a e => a + trP b funcs p e (h e.chan)) 0

theorem mAfter_adds (P : PM S V W) (tr : End → V → V) (h : Nat → V) : ∀ (es : List End) (s : S) (a : V),
    mAfter P tr h (es.map .add) s a = (s, es.foldl (fun a e => a + tr e (h e.chan)) a)
  | [], s, a => rfl
  | e :: es, s, a => by simp only [List.map_cons, mAfter, List.foldl_cons]; exact mAfter_adds P tr h es _ _

theorem mAfter_outs (P : PM S V W) (tr : End → V → V) (h : Nat → V) (y : String) : ∀ (es : List End) (s : S) (a : V),
    mAfter P tr h (es.map (.out y)) s a = (s, a)
  | [], s, a => rfl
  | e :: es, s, a => by simp only [List.map_cons, mAfter]; exact mAfter_outs P tr h y es _ _

theorem mAfter_ops (P : PM S V W) (b : Builders) (funcs : Port → List (List Char × List (V → V))) (h : Nat → V) (p : Nat) :
    ∀ (ops : List POp) (s : S) (a : V),
      (mAfter P (trP b funcs p) h (micros b p ops) s a).1 = Spec.after P (received b funcs h p) ops s
  | [], s, a => rfl
  | .send y :: ops, s, a => by
    show (mAfter P _ h (unfoldOp b p (.send y) ++ micros b p ops) s a).1 = _
    rw [mAfter_append]
    simp only [unfoldOp, mAfter_outs, Spec.after]
    exact mAfter_ops P b funcs h p ops _ _
  | .recv x :: ops, s, a => by
    show (mAfter P _ h (unfoldOp b p (.recv x) ++ micros b p ops) s a).1 = _
    rw [mAfter_append]
    have : mAfter P (trP b funcs p) h (unfoldOp b p (.recv x)) s a = (P.store s x (received b funcs h p x), received b funcs h p x) := by
      simp only [unfoldOp, List.cons_append, mAfter]
      rw [mAfter_append, mAfter_adds]
      rfl
    rw [this]
    exact mAfter_ops P b funcs h p ops _ _

end Verif.Wired
