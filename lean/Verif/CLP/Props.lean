import Verif.CLP.Model

/-!
# C81: novelty detection; C82: labels and allocation of prototypes
-/

namespace Verif.CLP

/-! ## NoveltyDetector -/

/-- An input of step `s` waits for an output at the beginning of step `t`: the last input was at `s`, there was no output since, and
the window of `w` steps is not over. -/
def Pending (w : Nat) (inp out : Nat → Bool) (s t : Nat) : Prop :=
  s < t ∧ t ≤ s + w + 1 ∧ inp s = true ∧ (∀ u, s < u → u < t → inp u = false) ∧ (∀ u, s ≤ u → u < t → out u = false)

theorem pending_succ (w : Nat) (inp out : Nat → Bool) (s t : Nat) : Pending w inp out s (t + 1) ↔
    (s = t ∧ inp t = true ∧ out t = false) ∨
    (Pending w inp out s t ∧ t + 1 ≤ s + w + 1 ∧ inp t = false ∧ out t = false) := by
  unfold Pending
  constructor
  · rintro ⟨h1, h2, h3, h4, h5⟩
    by_cases hs : s = t
    · left; subst hs; exact ⟨rfl, h3, h5 s (by omega) (by omega)⟩
    · right
      exact ⟨⟨by omega, by omega, h3, fun u a b => h4 u a (by omega), fun u a b => h5 u a (by omega)⟩, h2,
        h4 t (by omega) (by omega), h5 t (by omega) (by omega)⟩
  · rintro (⟨rfl, h1, h2⟩ | ⟨⟨h1, h2, h3, h4, h5⟩, h6, h7, h8⟩)
    · exact ⟨by omega, by omega, h1, fun u a b => by omega, fun u a b => by
        have : u = s := by omega
        rw [this]; exact h2⟩
    · refine ⟨by omega, by omega, h3, fun u a b => ?_, fun u a b => ?_⟩
      · by_cases hu : u = t
        · rw [hu]; exact h7
        · exact h4 u a (by omega)
      · by_cases hu : u = t
        · rw [hu]; exact h8
        · exact h5 u a (by omega)

/-- Two inputs cannot both be the last one. -/
theorem pending_unique {w : Nat} {inp out : Nat → Bool} {s s' t : Nat} (h : Pending w inp out s t) (h' : Pending w inp out s' t) :
    s = s' := by
  rcases Nat.lt_trichotomy s s' with hlt | he | hlt
  · have := h.2.2.2.1 s' hlt h'.1; rw [h'.2.2.1] at this; simp at this
  · exact he
  · have := h'.2.2.2.1 s hlt h.1; rw [h.2.2.1] at this; simp at this

/-- What the detector remembers. -/
def NovInv (w : Nat) (inp out : Nat → Bool) (t : Nat) (s : Nov) : Prop :=
  s.novelty = false ∧
  ((∃ b, Pending w inp out b t ∧ s.waiting = true ∧ s.tPassed = (t : Int) - b) ∨
   ((∀ b, ¬ Pending w inp out b t) ∧ s.waiting = false ∧ s.tPassed = 0))

/-- The signal of step `t`. -/
def Signals (w : Nat) (inp out : Nat → Bool) (t : Nat) : Prop :=
  ∃ s, s + w + 1 = t ∧ inp s = true ∧ (∀ u, s < u → u ≤ t → inp u = false) ∧ (∀ u, s ≤ u → u ≤ t → out u = false)

theorem nov_step (w : Nat) (inp out : Nat → Bool) (t : Nat) (s : Nov) (h : NovInv w inp out t s) :
    NovInv w inp out (t + 1) (novStep w s (inp t) (out t)).1 ∧
    ((novStep w s (inp t) (out t)).2 = 0 ∨ (novStep w s (inp t) (out t)).2 = 1) ∧
    ((novStep w s (inp t) (out t)).2 = 1 ↔ Signals w inp out t) := by
  obtain ⟨wt, tp, nv⟩ := s
  obtain ⟨hn, h⟩ := h
  simp only at hn h
  subst hn
  have sig_inp : inp t = true → ¬ Signals w inp out t := by
    rintro hi ⟨s, e, _, h1, _⟩
    have := h1 t (by omega) (le_refl _); rw [hi] at this; simp at this
  have sig_out : out t = true → ¬ Signals w inp out t := by
    rintro hi ⟨s, e, _, _, h1⟩
    have := h1 t (by omega) (le_refl _); rw [hi] at this; simp at this
  have hw0 : ¬ ((w : Int) < 0) := by omega
  cases hi : inp t with
  | true =>
    cases ho : out t with
    | true =>
      have e : novStep w { waiting := wt, tPassed := tp, novelty := false } true true =
          ({ waiting := false, tPassed := 0, novelty := false }, 0) := by simp [novStep]
      rw [e]
      refine ⟨⟨rfl, Or.inr ⟨fun b hb => ?_, rfl, rfl⟩⟩, Or.inl rfl, by simp [sig_inp hi]⟩
      rcases (pending_succ ..).1 hb with ⟨_, _, h2⟩ | ⟨_, _, _, h2⟩ <;> rw [ho] at h2 <;> simp at h2
    | false =>
      have e : novStep w { waiting := wt, tPassed := tp, novelty := false } true false =
          ({ waiting := true, tPassed := 1, novelty := false }, 0) := by simp [novStep, hw0]
      rw [e]
      refine ⟨⟨rfl, Or.inl ⟨t, (pending_succ ..).2 (Or.inl ⟨rfl, hi, ho⟩), rfl, by simp⟩⟩, Or.inl rfl, by simp [sig_inp hi]⟩
  | false =>
    cases ho : out t with
    | true =>
      have e : novStep w { waiting := wt, tPassed := tp, novelty := false } false true =
          ({ waiting := false, tPassed := 0, novelty := false }, 0) := by simp [novStep]
      rw [e]
      refine ⟨⟨rfl, Or.inr ⟨fun b hb => ?_, rfl, rfl⟩⟩, Or.inl rfl, by simp [sig_out ho]⟩
      rcases (pending_succ ..).1 hb with ⟨_, _, h2⟩ | ⟨_, _, _, h2⟩ <;> rw [ho] at h2 <;> simp at h2
    | false =>
      rcases h with ⟨b, hb, rfl, rfl⟩ | ⟨hno, rfl, rfl⟩
      · by_cases hlt : ((t : Int) - b) > w
        · have e : novStep w { waiting := true, tPassed := (t : Int) - b, novelty := false } false false =
              ({ waiting := false, tPassed := 0, novelty := false }, 1) := by simp [novStep, hlt]
          rw [e]
          obtain ⟨h1, h2, h3, h4, h5⟩ := hb
          refine ⟨⟨rfl, Or.inr ⟨fun b' hb' => ?_, rfl, rfl⟩⟩, Or.inr rfl, ?_⟩
          · rcases (pending_succ ..).1 hb' with ⟨_, h2, _⟩ | ⟨hp, hl, _, _⟩
            · rw [hi] at h2; simp at h2
            · have := pending_unique hp ⟨h1, h2, h3, h4, h5⟩
              omega
          · refine ⟨fun _ => ⟨b, by omega, h3, fun u a c => ?_, fun u a c => ?_⟩, fun _ => rfl⟩
            · by_cases hu : u = t
              · rw [hu]; exact hi
              · exact h4 u a (by omega)
            · by_cases hu : u = t
              · rw [hu]; exact ho
              · exact h5 u a (by omega)
        · have e : novStep w { waiting := true, tPassed := (t : Int) - b, novelty := false } false false =
              ({ waiting := true, tPassed := (t : Int) - b + 1, novelty := false }, 0) := by simp [novStep, hlt]
          rw [e]
          refine ⟨⟨rfl, Or.inl ⟨b, (pending_succ ..).2 (Or.inr ⟨hb, by omega, hi, ho⟩), rfl, by push_cast; ring⟩⟩, Or.inl rfl, ?_⟩
          simp only [zero_ne_one, false_iff]
          rintro ⟨s, e, h1, h2, h3⟩
          have : Pending w inp out s t := ⟨by omega, by omega, h1, fun u a c => h2 u a (by omega), fun u a c => h3 u a (by omega)⟩
          have := pending_unique this hb
          omega
      · have e : novStep w { waiting := false, tPassed := 0, novelty := false } false false =
            ({ waiting := false, tPassed := 0, novelty := false }, 0) := by simp [novStep, hw0]
        rw [e]
        refine ⟨⟨rfl, Or.inr ⟨fun b hb => ?_, rfl, rfl⟩⟩, Or.inl rfl, ?_⟩
        · rcases (pending_succ ..).1 hb with ⟨_, h2, _⟩ | ⟨hp, _, _, _⟩
          · rw [hi] at h2; simp at h2
          · exact hno b hp
        · simp only [zero_ne_one, false_iff]
          rintro ⟨s, e, h1, h2, h3⟩
          exact hno s ⟨by omega, by omega, h1, fun u a c => h2 u a (by omega), fun u a c => h3 u a (by omega)⟩

theorem nov_inv (w : Nat) (inp out : Nat → Bool) : ∀ t, NovInv w inp out t (novAt w inp out t)
  | 0 => ⟨rfl, Or.inr ⟨fun b hb => by have := hb.1; omega, rfl, rfl⟩⟩
  | t + 1 => (nov_step w inp out t _ (nov_inv w inp out t)).1

/-- **C81.** For every history of inputs and outputs and every waiting time, the detector signals novelty in step `t` exactly if the
last input was `t_wait + 1` steps ago and there was no output since it; in all other steps it sends zero. -/
theorem C81_novelty_iff (w : Nat) (inp out : Nat → Bool) (t : Nat) :
    (novSent w inp out t = 1 ↔
      ∃ s, s + w + 1 = t ∧ inp s = true ∧ (∀ u, s < u → u ≤ t → inp u = false) ∧ (∀ u, s ≤ u → u ≤ t → out u = false)) ∧
    (novSent w inp out t ≠ 1 → novSent w inp out t = 0) := by
  have h := nov_step w inp out t _ (nov_inv w inp out t)
  refine ⟨h.2.2, fun hne => ?_⟩
  rcases h.2.1 with h | h
  · exact h
  · exact absurd h hne

/-- An input is signalled at most once: between two signals there is an input. -/
theorem C81_one_signal_per_input (w : Nat) (inp out : Nat → Bool) (t t' : Nat) (h : t < t') (h1 : novSent w inp out t = 1)
    (h2 : novSent w inp out t' = 1) : ∃ s, t < s ∧ s ≤ t' ∧ inp s = true := by
  obtain ⟨s, e, hs, hn, _⟩ := (C81_novelty_iff w inp out t).1.1 h1
  obtain ⟨s', e', hs', _, _⟩ := (C81_novelty_iff w inp out t').1.1 h2
  have : t < s' := by
    by_contra hcon
    have := hn s' (by omega) (by omega)
    rw [hs'] at this
    simp at this
  exact ⟨s', this, by omega, hs'⟩

/-- The window starts at the last input, not at the first one: an input that is repeated within the waiting time is never signalled, even
if no prototype ever answers. -/
theorem C81_repeated_input_never_signalled (w : Nat) (inp out : Nat → Bool)
    (h : ∀ s, inp s = true → ∃ u, s < u ∧ u ≤ s + w + 1 ∧ inp u = true) (t : Nat) : novSent w inp out t = 0 := by
  apply (C81_novelty_iff w inp out t).2
  intro h1
  obtain ⟨s, e, hs, hn, _⟩ := (C81_novelty_iff w inp out t).1.1 h1
  obtain ⟨u, hu1, hu2, hu3⟩ := h s hs
  have := hn u hu1 (by omega)
  rw [hu3] at this
  simp at this

/-- A negative waiting time signals in every step without output, with or without input. -/
theorem C81_negative_wait_always_signals (w : Int) (hw : w < 0) (inp out : Nat → Bool) (t : Nat) (ho : out t = false) :
    novSent w inp out t = 1 := by
  have key : ∀ t, (novAt w inp out t).tPassed ≥ 0 := by
    intro t
    induction t with
    | zero => simp [novAt, Nov.init]
    | succ t ih =>
      rw [novAt]
      generalize novAt w inp out t = s at ih ⊢
      obtain ⟨wt, tp, nv⟩ := s
      simp only at ih
      cases inp t <;> cases out t <;> cases wt <;> cases nv <;> simp [novStep] <;> (try split) <;> simp <;> (try split) <;> (try simp) <;> omega
  have hk := key t
  unfold novSent
  generalize novAt w inp out t = s at hk ⊢
  obtain ⟨wt, tp, nv⟩ := s
  simp only at hk
  have h1 : tp > w := by omega
  rw [ho]
  cases inp t <;> simp [novStep, h1, hw]

/-- An input in step 1, none answered: with `t_wait = 3` the signal is sent in step 5. -/
example : novSent 3 (fun t => t == 1) (fun _ => false) 5 = 1 :=
  (C81_novelty_iff 3 _ _ 5).1.2 ⟨1, rfl, rfl, by intro u h1 h2; simp; omega, fun _ _ _ => rfl⟩

/-! ## Readout -/

/-- The winner of a time step: the first active prototype. -/
def winner (vec : List Int) : Option Nat := vec.findIdx? (· != 0)

/-- The most recent winner of a history, latest step first. -/
def lastWinner : List (List Int × Int) → Option Nat
  | [] => none
  | x :: h => match winner x.1 with
    | some w => some w
    | none => lastWinner h

/-- The name of prototype `i`: the first label the user gave while `i` was the most recent winner. -/
def nameOf (i : Nat) : List (List Int × Int) → Option Int
  | [] => none
  | x :: h => match nameOf i h with
    | some n => some n
    | none => if lastWinner (x :: h) = some i ∧ x.2 ≠ 0 then some x.2 else none

/-- Prototype `i` was active (as the first one) in some step. -/
def HasWon (i : Nat) (h : List (List Int × Int)) : Prop := ∃ x ∈ h, winner x.1 = some i

open Classical in
/-- What the label of prototype `i` should be. -/
noncomputable def labelSpec (i : Nat) (h : List (List Int × Int)) : Int := match nameOf i h with
  | some n => n
  | none => if HasWon i h then -((i : Int) + 1) else 0

theorem nameOf_pos (i : Nat) : ∀ (h : List (List Int × Int)) (n : Int), (∀ x ∈ h, 0 ≤ x.2) → nameOf i h = some n → 0 < n
  | [], n, _, hn => by simp [nameOf] at hn
  | x :: h, n, hp, hn => by
    rw [nameOf] at hn
    cases hm : nameOf i h with
    | some m =>
      rw [hm] at hn
      simp only [Option.some.injEq] at hn
      subst hn
      exact nameOf_pos i h m (fun y hy => hp y (by simp [hy])) hm
    | none =>
      rw [hm] at hn
      simp only at hn
      split at hn
      · rename_i hc
        simp only [Option.some.injEq] at hn
        have := hp x (by simp)
        omega
      · simp at hn

theorem nameOf_won (i : Nat) : ∀ (h : List (List Int × Int)) (n : Int), nameOf i h = some n → HasWon i h
  | [], n, hn => by simp [nameOf] at hn
  | x :: h, n, hn => by
    rw [nameOf] at hn
    cases hm : nameOf i h with
    | some m =>
      obtain ⟨y, hy, hw⟩ := nameOf_won i h m hm
      exact ⟨y, by simp [hy], hw⟩
    | none =>
      rw [hm] at hn
      simp only at hn
      split at hn
      · rename_i hc
        have key : ∀ h : List (List Int × Int), lastWinner h = some i → HasWon i h := by
          intro h
          induction h with
          | nil => simp [lastWinner]
          | cons y h ih =>
            intro hl
            rw [lastWinner] at hl
            cases hy : winner y.1 with
            | some w => rw [hy] at hl; simp at hl; subst hl; exact ⟨y, by simp, hy⟩
            | none =>
              rw [hy] at hl
              obtain ⟨z, hz, hw⟩ := ih hl
              exact ⟨z, by simp [hz], hw⟩
        exact key _ hc.1
      · simp at hn

theorem lastWinner_won : ∀ (h : List (List Int × Int)) (i : Nat), lastWinner h = some i → HasWon i h
  | [], _, hl => by simp [lastWinner] at hl
  | y :: h, i, hl => by
    rw [lastWinner] at hl
    cases hy : winner y.1 with
    | some w => rw [hy] at hl; simp at hl; subst hl; exact ⟨y, by simp, hy⟩
    | none =>
      rw [hy] at hl
      obtain ⟨z, hz, hw⟩ := lastWinner_won h i hl
      exact ⟨z, by simp [hz], hw⟩

theorem winner_any (vec : List Int) : (vec.any (· != 0) = true ↔ ∃ w, winner vec = some w) := by
  unfold winner
  rw [List.any_eq_true]
  constructor
  · rintro ⟨x, hx, h⟩
    rw [← Option.isSome_iff_exists, List.findIdx?_isSome, List.any_eq_true]
    exact ⟨x, hx, h⟩
  · rintro ⟨w, hw⟩
    have : (vec.findIdx? (· != 0)).isSome = true := by rw [hw]; rfl
    rw [List.findIdx?_isSome, List.any_eq_true] at this
    exact this

theorem winner_eq (vec : List Int) (w : Nat) (h : winner vec = some w) : vec.findIdx (· != 0) = w := by
  have := List.findIdx?_eq_some_iff_findIdx_eq.1 h
  exact this.2

theorem rdRun_snoc (s : Rd) (h : List (List Int × Int)) (x : List Int × Int) :
    rdRun s (h ++ [x]) = (rdStep (rdRun s h) x.1 x.2).1 := by
  simp [rdRun, List.foldl_append]

/-- The winner part of a step, in terms of the history. -/
theorem rdWinner_spec (s : Rd) (h : List (List Int × Int)) (x : List Int × Int) (hp : ∀ y ∈ h, 0 ≤ y.2)
    (hl : ∀ i, s.labels i = labelSpec i h) (hlast : s.last = (lastWinner h).getD 0) :
    (∀ i, (rdWinner s x.1).1.labels i = match nameOf i h with
        | some n => n
        | none => if winner x.1 = some i then -((i : Int) + 1) else labelSpec i h) ∧
    (rdWinner s x.1).1.last = (lastWinner (x :: h)).getD 0 ∧
    (rdWinner s x.1).2 = match winner x.1 with
        | some w => (rdWinner s x.1).1.labels w
        | none => 0 := by
  unfold rdWinner
  cases hw : winner x.1 with
  | none =>
    have hany : ¬ (x.1.any (· != 0) = true) := by rw [winner_any, hw]; simp
    rw [if_neg hany]
    refine ⟨fun i => ?_, ?_, rfl⟩
    · simp only [reduceCtorEq, if_false]
      rw [hl]
      unfold labelSpec
      cases nameOf i h <;> rfl
    · simp only [lastWinner, hw]; exact hlast
  | some w =>
    have hany : x.1.any (· != 0) = true := (winner_any _).2 ⟨w, hw⟩
    rw [if_pos hany, winner_eq _ _ hw]
    by_cases h0 : s.labels w = 0
    · simp only [h0, if_true]
      have hnone : nameOf w h = none := by
        cases hn : nameOf w h with
        | none => rfl
        | some n =>
          have h1 := nameOf_pos w h n hp hn
          have h2 := hl w
          rw [h0, labelSpec, hn] at h2
          simp only at h2
          omega
      refine ⟨fun i => ?_, by simp [lastWinner, hw], by simp [setAt]⟩
      by_cases hi : i = w
      · subst hi
        simp [setAt, hnone]
      · simp only [setAt, if_neg hi, hl i, Option.some.injEq, if_neg (Ne.symm hi)]
        unfold labelSpec
        cases nameOf i h <;> rfl
    · simp only [h0, if_false]
      refine ⟨fun i => ?_, by simp [lastWinner, hw], trivial⟩
      rw [hl i]
      by_cases hi : i = w
      · subst hi
        rw [hl] at h0
        unfold labelSpec at h0 ⊢
        cases hn : nameOf i h with
        | some n => rfl
        | none =>
          rw [hn] at h0
          simp only at h0 ⊢
          by_cases hw' : HasWon i h
          · simp [hw']
          · simp [hw'] at h0
      · simp only [Option.some.injEq, if_neg (Ne.symm hi)]
        unfold labelSpec
        cases nameOf i h <;> rfl

theorem labelSpec_cons (i : Nat) (x : List Int × Int) (h : List (List Int × Int)) :
    labelSpec i (x :: h) = match nameOf i h with
      | some n => n
      | none => if lastWinner (x :: h) = some i ∧ x.2 ≠ 0 then x.2
        else if winner x.1 = some i then -((i : Int) + 1) else labelSpec i h := by
  have hwon : HasWon i (x :: h) ↔ winner x.1 = some i ∨ HasWon i h := by simp [HasWon]
  unfold labelSpec
  rw [nameOf]
  cases hn : nameOf i h with
  | some n => rfl
  | none =>
    simp only
    by_cases hc : lastWinner (x :: h) = some i ∧ x.2 ≠ 0
    · simp [hc]
    · simp only [hc, if_false]
      by_cases hw : winner x.1 = some i
      · rw [if_pos (hwon.2 (Or.inl hw)), if_pos hw]
      · simp only [hw, if_false]
        by_cases hh : HasWon i h
        · rw [if_pos (hwon.2 (Or.inr hh)), if_pos hh]
        · rw [if_neg (by rw [hwon]; simp [hw, hh]), if_neg hh]

/-- One step of the readout, in terms of the history `h` (latest first). -/
theorem rdStep_spec (s : Rd) (h : List (List Int × Int)) (x : List Int × Int) (hp : ∀ y ∈ x :: h, 0 ≤ y.2)
    (hl : ∀ i, s.labels i = labelSpec i h) (hlast : s.last = (lastWinner h).getD 0) :
    (∀ i, (rdStep s x.1 x.2).1.labels i = labelSpec i (x :: h)) ∧
    (rdStep s x.1 x.2).1.last = (lastWinner (x :: h)).getD 0 ∧
    (rdStep s x.1 x.2).2.feedback = (if x.2 = 0 then 0 else match (lastWinner (x :: h)).bind fun w => nameOf w h with
      | none => 0
      | some n => if n = x.2 then 1 else -1) ∧
    (rdStep s x.1 x.2).2.trigger = (if (rdStep s x.1 x.2).2.feedback = -1 then 1 else 0) ∧
    (rdStep s x.1 x.2).2.label = (match lastWinner (x :: h) with
      | some w => if x.2 ≠ 0 ∧ nameOf w h = none then x.2 else if winner x.1 = none then 0 else labelSpec w (x :: h)
      | none => 0) := by
  obtain ⟨h1, h2, h3⟩ := rdWinner_spec s h x (fun y hy => hp y (by simp [hy])) hl hlast
  have hpx := hp x (by simp)
  generalize hW : rdWinner s x.1 = W at h1 h2 h3
  obtain ⟨⟨L, la⟩, inf⟩ := W
  simp only at h1 h2 h3
  -- the label of the last winner
  have hla : ∀ w, lastWinner (x :: h) = some w → L w = (match nameOf w h with
      | some n => n
      | none => -((w : Int) + 1)) := by
    intro w hw
    rw [h1 w]
    cases hn : nameOf w h with
    | some n => rfl
    | none =>
      simp only
      by_cases hx : winner x.1 = some w
      · rw [if_pos hx]
      · rw [if_neg hx]
        have : HasWon w h := by
          obtain ⟨y, hy, hyw⟩ := lastWinner_won _ _ hw
          rcases List.mem_cons.1 hy with e | hy
          · rw [e] at hyw; exact absurd hyw hx
          · exact ⟨y, hy, hyw⟩
        simp [labelSpec, hn, this]
  -- the inferred label
  have hinf : inf = match winner x.1 with
      | some w => (match nameOf w h with
          | some n => n
          | none => -((w : Int) + 1))
      | none => 0 := by
    rw [h3]
    cases hx : winner x.1 with
    | none => rfl
    | some w => exact hla w (by simp [lastWinner, hx])
  have hnolast : lastWinner (x :: h) = none → winner x.1 = none := by
    intro hn
    cases hx : winner x.1 with
    | none => rfl
    | some w => simp [lastWinner, hx] at hn
  have hlw : ∀ w, winner x.1 = some w → lastWinner (x :: h) = some w := by
    intro w hw; simp [lastWinner, hw]
  -- the labels if the user names nobody
  have hkeep : (∀ w, lastWinner (x :: h) = some w → x.2 ≠ 0 → nameOf w h ≠ none) → ∀ i, L i = labelSpec i (x :: h) := by
    intro hk i
    rw [h1 i, labelSpec_cons]
    cases hn : nameOf i h with
    | some n => rfl
    | none =>
      simp only
      rw [if_neg (c := lastWinner (x :: h) = some i ∧ x.2 ≠ 0) (by rintro ⟨ha, hb⟩; exact hk i ha hb hn)]
  -- the inferred label in the table
  have hout : ∀ w, lastWinner (x :: h) = some w → ¬ (x.2 ≠ 0 ∧ nameOf w h = none) →
      inf = if winner x.1 = none then 0 else labelSpec w (x :: h) := by
    intro w hw hc
    rw [hinf]
    cases hx : winner x.1 with
    | none => simp
    | some w' =>
      have : w' = w := by have := hlw w' hx; rw [hw] at this; simpa using this.symm
      subst this
      simp only [reduceCtorEq, if_false]
      rw [labelSpec_cons]
      cases hn : nameOf w' h with
      | some n => rfl
      | none =>
        simp only
        rw [if_neg (by rintro ⟨_, hb⟩; exact hc ⟨hb, hn⟩), if_pos hx]
  unfold rdStep
  rw [hW]
  simp only
  by_cases hu : x.2 = 0
  · simp only [hu, ne_eq, not_true_eq_false, if_false, if_true]
    refine ⟨hkeep (by intro w _ hb; exact absurd hu hb), h2, trivial, by simp, ?_⟩
    cases hlast' : lastWinner (x :: h) with
    | none => simp only; rw [hinf, hnolast hlast']
    | some w =>
      simp only [false_and, if_false]
      exact hout w hlast' (by simp [hu])
  · simp only [ne_eq, hu, not_false_eq_true, if_true, if_false, true_and]
    cases hlast' : lastWinner (x :: h) with
    | none =>
      -- nobody has ever won
      rw [hlast'] at h2
      simp only [Option.getD_none] at h2
      have hno : ¬ HasWon 0 h := by
        rintro ⟨y, hy, hyw⟩
        have : ∀ h : List (List Int × Int), lastWinner h = none → ∀ y ∈ h, winner y.1 = none := by
          intro h
          induction h with
          | nil => simp
          | cons z h ih =>
            intro hz y hy
            rw [lastWinner] at hz
            cases hzw : winner z.1 with
            | some w => rw [hzw] at hz; simp at hz
            | none =>
              rw [hzw] at hz
              rcases List.mem_cons.1 hy with e | hy
              · rw [e]; exact hzw
              · exact ih hz y hy
        rw [this _ hlast' y (by simp [hy])] at hyw
        simp at hyw
      have hname : nameOf 0 h = none := by
        cases hn : nameOf 0 h with
        | none => rfl
        | some n => exact absurd (nameOf_won 0 h n hn) hno
      have hL : L la = 0 := by
        rw [h2, h1 0, hname]
        simp [hnolast hlast', labelSpec, hname, hno]
      simp only [hL, gt_iff_lt, lt_self_iff_false, if_false, Option.bind_none]
      refine ⟨hkeep (by intro w hw; rw [hlast'] at hw; simp at hw), by rw [h2]; rfl, trivial, by simp, ?_⟩
      rw [hinf, hnolast hlast']
    | some w =>
      rw [hlast'] at h2
      simp only [Option.getD_some] at h2
      subst h2
      have hL := hla la hlast'
      cases hn : nameOf la h with
      | some n =>
        have hpos := nameOf_pos la h n (fun y hy => hp y (by simp [hy])) hn
        rw [hn] at hL
        simp only at hL
        have hk := hkeep (by
          intro w hw _
          rw [hlast'] at hw
          simp only [Option.some.injEq] at hw
          subst hw
          rw [hn]; simp)
        have ho := hout la hlast' (by rw [hn]; simp)
        simp only [hL, gt_iff_lt, hpos, if_true, Option.bind_some, hn, reduceCtorEq, if_false]
        by_cases he : n = x.2
        · simp only [he, if_true]
          exact ⟨hk, rfl, trivial, by simp, ho⟩
        · simp only [he, if_false]
          exact ⟨hk, rfl, trivial, by simp, ho⟩
      | none =>
        rw [hn] at hL
        simp only at hL
        have hneg : ¬ (0 < L la) := by omega
        have hneg' : L la < 0 := by omega
        simp only [gt_iff_lt, hneg, hneg', if_true, if_false, Option.bind_some, hn]
        refine ⟨fun i => ?_, rfl, trivial, by simp, trivial⟩
        rw [labelSpec_cons]
        by_cases hi : i = la
        · subst hi
          simp [setAt, hn, hlast', hu]
        · simp only [setAt, if_neg hi]
          rw [h1 i]
          cases hni : nameOf i h with
          | some n => rfl
          | none =>
            simp only
            rw [if_neg (c := lastWinner (x :: h) = some i ∧ x.2 ≠ 0) (by
              rintro ⟨ha, _⟩
              rw [hlast'] at ha
              simp only [Option.some.injEq] at ha
              exact hi ha.symm)]

theorem rd_inv (h : List (List Int × Int)) : (∀ y ∈ h, 0 ≤ y.2) →
    (∀ i, (rdRun Rd.init h).labels i = labelSpec i h.reverse) ∧ (rdRun Rd.init h).last = (lastWinner h.reverse).getD 0 := by
  induction h using List.reverseRecOn with
  | nil => intro _; simp [rdRun, Rd.init, labelSpec, nameOf, HasWon, lastWinner]
  | append_singleton h x ih =>
    intro hp
    obtain ⟨h1, h2⟩ := ih (fun y hy => hp y (by simp [hy]))
    have hs := rdStep_spec (rdRun Rd.init h) h.reverse x (by
      intro y hy
      apply hp y
      simp only [List.mem_cons, List.mem_reverse] at hy
      simp only [List.mem_append, List.mem_singleton]
      tauto) h1 h2
    rw [rdRun_snoc, List.reverse_append]
    exact ⟨hs.1, hs.2.1⟩

/-- **C82.** The label of every prototype, after every history of winners and non-negative user labels: the first label the user gave while
the prototype was the most recent winner; a negative pseudo label `-(i+1)` if it has won and was not named; 0 if it has never won. -/
theorem C82_labels (h : List (List Int × Int)) (hp : ∀ y ∈ h, 0 ≤ y.2) (i : Nat) :
    (rdRun Rd.init h).labels i = labelSpec i h.reverse := (rd_inv h hp).1 i

/-- **C82.** What the user sees in the next step: feedback `1` (`-1`) exactly if a label is given and the most recent winner has the same (a
different) name; an allocation is triggered exactly if the feedback is negative; the label sent is the label of the winner of this step, or
the label just given to a prototype without name. -/
theorem C82_outputs (h : List (List Int × Int)) (x : List Int × Int) (hp : ∀ y ∈ h ++ [x], 0 ≤ y.2) :
    (rdStep (rdRun Rd.init h) x.1 x.2).2.feedback = (if x.2 = 0 then 0 else
      match (lastWinner (x :: h.reverse)).bind fun w => nameOf w h.reverse with
      | none => 0
      | some n => if n = x.2 then 1 else -1) ∧
    (rdStep (rdRun Rd.init h) x.1 x.2).2.trigger = (if (rdStep (rdRun Rd.init h) x.1 x.2).2.feedback = -1 then 1 else 0) ∧
    (rdStep (rdRun Rd.init h) x.1 x.2).2.label = (match lastWinner (x :: h.reverse) with
      | some w => if x.2 ≠ 0 ∧ nameOf w h.reverse = none then x.2 else if winner x.1 = none then 0
          else labelSpec w (x :: h.reverse)
      | none => 0) := by
  obtain ⟨h1, h2⟩ := rd_inv h (fun y hy => hp y (by simp [hy]))
  have := rdStep_spec (rdRun Rd.init h) h.reverse x (by
    intro y hy
    apply hp y
    simp only [List.mem_cons, List.mem_reverse] at hy
    simp only [List.mem_append, List.mem_singleton]
    tauto) h1 h2
  exact ⟨this.2.2.1, this.2.2.2.1, this.2.2.2.2⟩

/-- **C82.** A positive label is permanent, whatever the initial labels and the later inputs (including negative user labels). -/
theorem C82_positive_labels_permanent (s : Rd) (i : Nat) (hi : 0 < s.labels i) : ∀ h : List (List Int × Int),
    (rdRun s h).labels i = s.labels i := by
  intro h
  induction h using List.reverseRecOn with
  | nil => rfl
  | append_singleton h x ih =>
    rw [rdRun_snoc, ← ih]
    rw [← ih] at hi
    generalize rdRun s h = r at hi ⊢
    have hw : (rdWinner r x.1).1.labels i = r.labels i := by
      unfold rdWinner
      split
      · dsimp only
        split
        · rename_i h0
          simp only [setAt]
          split
          · rename_i he; rw [← he] at h0; omega
          · rfl
        · rfl
      · rfl
    unfold rdStep
    dsimp only
    split
    · split
      · split <;> exact hw
      · split
        · rename_i hneg
          simp only [setAt]
          split
          · rename_i he; rw [← he, hw] at hneg; omega
          · exact hw
        · exact hw
    · exact hw

/-- A negative label of the user is taken for a pseudo label and silently replaced by the next one: without the restriction to
non-negative labels the claim fails. -/
theorem C82_witness_negative_label : (rdRun Rd.init [([1], 0), ([0], -5), ([0], 7)]).labels 0 = 7 := by decide

/-- Two prototypes win, the first one is named 3; later the user names the second one 4, then disagrees about the first. -/
example : (rdRun Rd.init [([0, 1], 0), ([0, 0], 3), ([1, 0], 4)]).labels 1 = 3 := by decide
example : (rdStep (rdRun Rd.init [([0, 1], 0), ([0, 0], 3), ([1, 0], 4)]) [0, 1] 9).2 = { label := 3, feedback := -1, trigger := 1 } := by
  decide

/-! ## Allocator and PrototypeLIF -/

/-- Number of triggers among the first `t` steps. -/
def triggers (x : Nat → Bool) (t : Nat) : Nat := ((List.range t).filter x).length

theorem triggers_succ (x : Nat → Bool) (t : Nat) : triggers x (t + 1) = triggers x t + if x t then 1 else 0 := by
  unfold triggers
  rw [List.range_succ, List.filter_append, List.length_append]
  cases h : x t <;> simp [h]

/-- State of the allocator before step `t`. -/
def allocAt (next : Int) (x : Nat → Int) : Nat → Int
  | 0 => next
  | t + 1 => (allocStep (allocAt next x t) (x t)).1

theorem allocAt_eq (next : Int) (x : Nat → Int) (t : Nat) : allocAt next x t = next + triggers (fun t => x t != 0) t := by
  induction t with
  | zero => simp [allocAt, triggers]
  | succ t ih =>
    rw [allocAt, ih, triggers_succ, allocStep]
    by_cases h : x t = 0
    · simp [h]
    · simp [h]; ring

/-- **C82.** The allocator sends a message exactly in the steps in which it is triggered; the `k`-th one is `next_alloc_id + k`, so no
prototype is allocated twice. -/
theorem C82_allocation_ids (next : Int) (x : Nat → Int) (t : Nat) :
    (allocStep (allocAt next x t) (x t)).2 = if x t = 0 then 0 else next + triggers (fun t => x t != 0) t := by
  rw [allocAt_eq, allocStep]
  by_cases h : x t = 0 <;> simp [h]

/-- The population before step `t`; `third t` is the message of the allocator. -/
def protoAt (n : Nat) (p : Verif.LIF.Par) (eff : Int) (s : Proto) (x : Nat → ProtoIn) : Nat → Option Proto
  | 0 => some s
  | t + 1 => (protoAt n p eff s x t).bind fun r => (protoStep n p eff r (x t)).map (·.1)

theorem bapOf_id (n k : Nat) (hk : k < n) : bapOf n ((k : Int) + 1) = some fun i => decide (i = k) := by
  have h0 : ((k : Int) + 1) ≠ 0 := by omega
  simp only [bapOf, if_pos h0, npIdx, Int.add_sub_cancel]
  rw [if_pos (by omega), if_pos (by omega)]
  simp

theorem bapOf_zero (n : Nat) : bapOf n 0 = some fun _ => false := by simp [bapOf]

/-- **C82.** Allocator, broadcast and a population of `n` prototypes together: as long as there were at most `n` triggers, the `k`-th trigger
makes exactly the `k`-th prototype send a back-propagating action potential, which is then the only output spike, and the learning trace
`y1` is 127 for the prototype allocated last and 0 for all others, until the next allocation. -/
theorem C82_trigger_allocates_next (n : Nat) (p : Verif.LIF.Par) (eff : Int) (st : Nat → Verif.LIF.St) (trig : Nat → Int)
    (x : Nat → ProtoIn) (hx : ∀ t, (x t).third = broadcast (allocStep (allocAt 1 trig t) (trig t)).2)
    (T : Nat) (hT : triggers (fun t => trig t != 0) T ≤ n) :
    ∀ t, t ≤ T → ∃ r, protoAt n p eff { st := st, y1 := fun _ => 0 } x t = some r ∧
      (∀ i, r.y1 i = if i + 1 = triggers (fun t => trig t != 0) t then 127 else 0) ∧
      (t < T → ∃ r' o, protoStep n p eff r (x t) = some (r', o) ∧
        (∀ i, o.bap i = decide (trig t ≠ 0 ∧ i = triggers (fun t => trig t != 0) t)) ∧
        (trig t ≠ 0 → o.spikes = o.bap) ∧
        (∀ i, o.y1 i = if i + 1 = triggers (fun t => trig t != 0) (t + 1) then 127 else 0) ∧
        (trig t = 0 → ∀ i, (x t).reset i ≤ 0 →
          (r'.st i, o.spikes i) = Verif.LIF.spikeReset eff (Verif.LIF.subthr p (r.st i) ((x t).a i)))) := by
  have mono : ∀ a b, a ≤ b → triggers (fun t => trig t != 0) a ≤ triggers (fun t => trig t != 0) b := by
    intro a b hab
    induction b with
    | zero => have : a = 0 := by omega
              rw [this]
    | succ b ih =>
      by_cases h : a = b + 1
      · rw [h]
      · have := ih (by omega)
        rw [triggers_succ]
        omega
  have hstep : ∀ t r, t < T → (∀ i, r.y1 i = if i + 1 = triggers (fun t => trig t != 0) t then 127 else 0) →
      ∃ r' o, protoStep n p eff r (x t) = some (r', o) ∧ r'.y1 = o.y1 ∧
        (∀ i, o.bap i = decide (trig t ≠ 0 ∧ i = triggers (fun t => trig t != 0) t)) ∧
        (trig t ≠ 0 → o.spikes = o.bap) ∧
        (∀ i, o.y1 i = if i + 1 = triggers (fun t => trig t != 0) (t + 1) then 127 else 0) ∧
        (trig t = 0 → ∀ i, (x t).reset i ≤ 0 →
          (r'.st i, o.spikes i) = Verif.LIF.spikeReset eff (Verif.LIF.subthr p (r.st i) ((x t).a i))) := by
    intro t r ht hy
    have hthird := hx t
    rw [C82_allocation_ids, broadcast] at hthird
    by_cases h0 : trig t = 0
    · rw [if_pos h0] at hthird
      unfold protoStep
      rw [hthird, bapOf_zero]
      have hany : (List.range n).any (fun _ => false) = false := by simp
      refine ⟨_, _, rfl, rfl, ?_, ?_, ?_, ?_⟩
      · intro i; simp [h0]
      · intro h; exact absurd h0 h
      · intro i
        simp only [hany, Bool.false_eq_true, if_false]
        rw [hy i, triggers_succ]
        simp [h0]
      · intro _ i hr
        have hr' : ¬ ((x t).reset i > 0) := by omega
        simp only [hany, Bool.false_eq_true, if_false, hr', Verif.LIF.spikeReset]
    · rw [if_neg h0] at hthird
      have hle : triggers (fun t => trig t != 0) (t + 1) ≤ n := le_trans (mono _ _ (by omega)) hT
      rw [triggers_succ] at hle
      simp only [bne_iff_ne, ne_eq, h0, not_false_eq_true, if_true] at hle
      have hb := bapOf_id n (triggers (fun t => trig t != 0) t) (by omega)
      have hthird' : (x t).third = ((triggers (fun t => trig t != 0) t : Nat) : Int) + 1 := by rw [hthird]; ring
      unfold protoStep
      rw [hthird', hb]
      have hany : (List.range n).any (fun i => decide (i = triggers (fun t => trig t != 0) t)) = true := by
        rw [List.any_eq_true]
        exact ⟨triggers (fun t => trig t != 0) t, List.mem_range.2 (by omega), by simp⟩
      refine ⟨_, _, rfl, rfl, ?_, ?_, ?_, ?_⟩
      · intro i; simp [h0]
      · intro _; simp only [hany, if_true]
      · intro i
        simp only [hany, if_true]
        rw [triggers_succ]
        simp [h0]
      · intro h; exact absurd h h0
  have hat : ∀ t, t ≤ T → ∃ r, protoAt n p eff { st := st, y1 := fun _ => 0 } x t = some r ∧
      (∀ i, r.y1 i = if i + 1 = triggers (fun t => trig t != 0) t then 127 else 0) := by
    intro t
    induction t with
    | zero => intro _; exact ⟨_, rfl, fun i => by simp [triggers]⟩
    | succ t ih =>
      intro ht
      obtain ⟨r, hr, hy⟩ := ih (by omega)
      obtain ⟨r', o, h1, h2, _, _, h5, _⟩ := hstep t r (by omega) hy
      refine ⟨r', ?_, ?_⟩
      · rw [protoAt, hr, Option.bind_some, h1]; rfl
      · intro i; rw [h2]; exact h5 i
  intro t ht
  obtain ⟨r, hr, hy⟩ := hat t ht
  refine ⟨r, hr, hy, fun hlt => ?_⟩
  obtain ⟨r', o, h1, _, h3⟩ := hstep t r hlt hy
  exact ⟨r', o, h1, h3⟩

/-- The allocator does not look at `n_protos`: trigger number `n + 1` makes a population of `n` prototypes raise an IndexError. -/
theorem C82_witness_too_many_allocations (n : Nat) (p : Verif.LIF.Par) (eff : Int) (s : Proto) (a reset : Nat → Int) :
    protoStep n p eff s { a := a, third := broadcast (allocStep (1 + n) 1).2, reset := reset } = none := by
  have h0 : ((1 : Int) + n) ≠ 0 := by omega
  simp only [protoStep, broadcast, allocStep, ne_eq, one_ne_zero, not_false_eq_true, if_true, bapOf, h0, npIdx]
  rw [if_pos (by omega), if_neg (by omega)]
  rfl

/-- A prototype that crosses its threshold in the step of an allocation of another one neither spikes nor is reset. -/
theorem C82_witness_spike_suppressed : ∃ r o,
    protoStep 2 { du := 0, dv := 0, biasMant := 0, biasExp := 0 } 640 { st := fun _ => { u := 0, v := 0 }, y1 := fun _ => 0 }
      { a := fun i => if i = 0 then 100 else 0, third := 2, reset := fun _ => 0 } = some (r, o) ∧
    o.spikes 0 = false ∧ (r.st 0).v = 6400 := by
  refine ⟨_, _, rfl, ?_, ?_⟩ <;> decide

/-- Three triggers, four prototypes: the learning trace before step 5 marks the third prototype. -/
example (p : Verif.LIF.Par) : ∃ r, protoAt 4 p 640 { st := fun _ => { u := 0, v := 0 }, y1 := fun _ => 0 }
    (fun t => { a := fun _ => 0, reset := fun _ => 0,
                third := broadcast (allocStep (allocAt 1 (fun t => if t % 2 = 0 then 1 else 0) t) (if t % 2 = 0 then 1 else 0)).2 }) 5 =
      some r ∧ r.y1 2 = 127 ∧ r.y1 1 = 0 := by
  obtain ⟨r, h1, h2, _⟩ := C82_trigger_allocates_next 4 p 640 (fun _ => { u := 0, v := 0 }) (fun t => if t % 2 = 0 then 1 else 0)
    (fun t => { a := fun _ => 0, reset := fun _ => 0,
                third := broadcast (allocStep (allocAt 1 (fun t => if t % 2 = 0 then 1 else 0) t) (if t % 2 = 0 then 1 else 0)).2 })
    (fun _ => rfl) 5 (by decide) 5 (le_refl _)
  refine ⟨r, h1, ?_, ?_⟩
  · rw [h2]; decide
  · rw [h2]; decide

end Verif.CLP
