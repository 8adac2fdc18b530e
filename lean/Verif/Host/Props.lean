import Verif.Host.Spec
import Mathlib.Algebra.BigOperators.Group.Finset.Basic
import Mathlib.Algebra.Order.BigOperators.Group.Finset
import Mathlib.Data.Finset.Card
import Mathlib.Tactic.Ring
import Mathlib.Tactic.Linarith

/-!
# C80: calls of the runtime behave sequentially
-/

namespace Verif.Host

open Finset

variable {D : Type}

@[simp] theorem upd_self {α : Type} (f : Nat → α) (i : Nat) (x : α) : upd f i x i = x := by simp [upd]

theorem upd_ne {α : Type} (f : Nat → α) {i j : Nat} (h : j ≠ i) (x : α) : upd f i x j = f j := by simp [upd, h]

/-! ## What a service can be doing -/

/-- Nothing to do. -/
def Quiet (x : D) (s : Svc D) : Prop := s = { mode := .idle, inq := [], outq := [], d := x, stopping := false }

/-- In a run that will lead to `x`. -/
inductive RunPh (f : D → D) (x : D) (s : Svc D) : Prop where
  | todo (n d) : s = { mode := .idle, inq := [.run n], outq := [], d := d, stopping := false } → f^[n] d = x → RunPh f x s
  | busy (k d) : s = { mode := .busy k, inq := [], outq := [], d := d, stopping := false } → f^[k] d = x → RunPh f x s
  | done : s = { mode := .idle, inq := [], outq := [.done], d := x, stopping := false } → RunPh f x s

inductive ValPh (x : D) (s : Svc D) : Prop where
  | todo : s = { mode := .idle, inq := [.get], outq := [], d := x, stopping := false } → ValPh x s
  | done : s = { mode := .idle, inq := [], outq := [.val x], d := x, stopping := false } → ValPh x s

inductive SetPh (x : D) (s : Svc D) : Prop where
  | todo (d) : s = { mode := .idle, inq := [.set x], outq := [], d := d, stopping := false } → SetPh x s
  | done : s = { mode := .idle, inq := [], outq := [.setComplete], d := x, stopping := false } → SetPh x s

inductive StopPh (s : Svc D) : Prop where
  | todo (d) : s = { mode := .idle, inq := [.stop], outq := [], d := d, stopping := false } → StopPh s
  | done (d) : s = { mode := .dead, inq := [], outq := [.terminated], d := d, stopping := false } → StopPh s

def Dead (s : Svc D) : Prop := ∃ d, s = { mode := .dead, inq := [], outq := [], d := d, stopping := false }

/-- A kind of activity that services keep by their own steps. -/
def Stable (f : D → D) (F : Svc D → Prop) : Prop :=
  ∀ s y, F s → (svcStep f s = some y ∨ svcPeek s = some y) → F y

theorem stable_quiet (f : D → D) (x : D) : Stable f (Quiet x) := by
  rintro s y rfl h
  simp [svcStep, svcPeek] at h

theorem stable_run (f : D → D) (x : D) : Stable f (RunPh f x) := by
  intro s y h
  cases h with
  | todo n d hs hx =>
    subst hs
    simp only [svcStep, svcPeek, Option.some.injEq, reduceCtorEq, or_false]
    rintro rfl
    exact .busy n d rfl hx
  | busy k d hs hx =>
    subst hs
    cases k with
    | zero =>
      simp only [svcStep, svcPeek, Option.some.injEq, reduceCtorEq, or_false]
      rintro rfl
      simp at hx
      subst hx
      exact .done rfl
    | succ k =>
      simp only [svcStep, svcPeek, Option.some.injEq, reduceCtorEq, or_false]
      rintro rfl
      exact .busy k (f d) rfl hx
  | done hs => subst hs; simp [svcStep, svcPeek]

theorem stable_val (f : D → D) (x : D) : Stable f (ValPh x) := by
  intro s y h
  cases h with
  | todo hs =>
    subst hs
    simp only [svcStep, svcPeek, Option.some.injEq, reduceCtorEq, or_false]
    rintro rfl
    exact .done rfl
  | done hs => subst hs; simp [svcStep, svcPeek]

theorem stable_set (f : D → D) (x : D) : Stable f (SetPh x) := by
  intro s y h
  cases h with
  | todo d hs =>
    subst hs
    simp only [svcStep, svcPeek, Option.some.injEq, reduceCtorEq, or_false]
    rintro rfl
    exact .done rfl
  | done hs => subst hs; simp [svcStep, svcPeek]

theorem stable_stop (f : D → D) : Stable f (StopPh (D := D)) := by
  intro s y h
  cases h with
  | todo d hs =>
    subst hs
    simp only [svcStep, svcPeek, Option.some.injEq, reduceCtorEq, or_false]
    rintro rfl
    exact .done d rfl
  | done d hs => subst hs; simp [svcStep, svcPeek]

theorem stable_dead (f : D → D) : Stable f (Dead (D := D)) := by
  rintro s y ⟨d, rfl⟩ h
  simp [svcStep, svcPeek] at h

/-! ## Invariant -/

/-- What the services are doing, given the position of the host. -/
inductive HInv (S : Nat) (tick : Nat → D → D) (total : List (Res D)) :
    Pc D → List (Call D) → List (Res D) → Bool → Bool → (Nat → Svc D → Prop) → Prop where
  | idle (dv : Nat → D) ( p l st) : Proper S false st p → l ++ ref S tick dv false st p = total →
      HInv S tick total .ready p l false st (fun k => Quiet (dv k))
  | going (dv : Nat → D) ( p l) : Proper S true true p → l ++ ref S tick dv true true p = total →
      HInv S tick total .ready p l true true (fun k => RunPh (tick k) (dv k))
  | sendRun (dv : Nat → D) ( n b i p l) : i ≤ S → Proper S (!b) true p →
      l ++ (if b then .returned (vec S fun k => (tick k)^[n] (dv k)) else .started) ::
        ref S tick (fun k => (tick k)^[n] (dv k)) (!b) true p = total →
      HInv S tick total (.sendRun n b i) p l true true
        (fun k => if k < i then RunPh (tick k) ((tick k)^[n] (dv k)) else Quiet (dv k))
  | collect (dv : Nat → D) (C : Finset Nat) (p l) : C ⊆ range S → C.card < S → Proper S false true p →
      l ++ .returned (vec S dv) :: ref S tick dv false true p = total →
      HInv S tick total (.collect C.card) p l true true (fun k => if k ∈ C then Quiet (dv k) else RunPh (tick k) (dv k))
  | awaitVal (dv : Nat → D) ( i p l) : i < S → Proper S false true p → l ++ .value (dv i) :: ref S tick dv false true p = total →
      HInv S tick total (.awaitVal i) p l false true (fun k => if k = i then ValPh (dv k) else Quiet (dv k))
  | awaitSet (dv : Nat → D) ( i p l) : i < S → Proper S false true p → l ++ .setOk :: ref S tick dv false true p = total →
      HInv S tick total (.awaitSet i) p l false true (fun k => if k = i then SetPh (dv k) else Quiet (dv k))
  | sendStop (dv : Nat → D) ( i l) : i ≤ S → l ++ [.stopped] = total →
      HInv S tick total (.sendStop i) [] l false true (fun k => if k < i then StopPh else Quiet (dv k))
  | stopRecv (i l) : i ≤ S → l ++ [.stopped] = total →
      HInv S tick total (.stopRecv i) [] l false true (fun k => if k < i then Dead else StopPh)
  | joining (l) : l ++ [.stopped] = total → HInv S tick total .joining [] l false true (fun _ => Dead)
  | stopped (l) : l = total → HInv S tick total .ready [] l false false (fun _ => Dead)

theorem HInv.stable {S : Nat} {tick : Nat → D → D} {total : List (Res D)} {pc p l r st F}
    (h : HInv S tick total pc p l r st F) (k : Nat) : Stable (tick k) (F k) := by
  cases h with
  | idle dv => exact stable_quiet _ _
  | going dv => exact stable_run _ _
  | sendRun dv n b i => dsimp only; split; exacts [stable_run _ _, stable_quiet _ _]
  | collect dv C => dsimp only; split; exacts [stable_quiet _ _, stable_run _ _]
  | awaitVal dv i => dsimp only; split; exacts [stable_val _ _, stable_quiet _ _]
  | awaitSet dv i => dsimp only; split; exacts [stable_set _ _, stable_quiet _ _]
  | sendStop dv i => dsimp only; split; exacts [stable_stop _, stable_quiet _ _]
  | stopRecv i => dsimp only; split; exacts [stable_dead _, stable_stop _]
  | joining => exact stable_dead _
  | stopped => exact stable_dead _

/-- The invariant. -/
def Inv (S : Nat) (tick : Nat → D → D) (total : List (Res D)) (s : St D) : Prop :=
  ∃ F, HInv S tick total s.pc s.prog s.log s.running s.started F ∧ ∀ k, k < S → F k (s.svc k)

theorem inv_init (S : Nat) (tick : Nat → D → D) (d : Nat → D) (p : List (Call D)) (hp : Proper S false false p) :
    Inv S tick (ref S tick d false false p) (init d p) :=
  ⟨_, .idle d p [] false hp rfl, fun _ _ => rfl⟩

theorem datas_eq (S : Nat) (svc : Nat → Svc D) (dv : Nat → D) (h : ∀ k, k < S → Quiet (dv k) (svc k)) :
    datas S svc = vec S dv := by
  unfold datas vec
  apply List.map_congr_left
  intro k hk
  rw [h k (List.mem_range.1 hk)]

theorem inv_host (S : Nat) (hS : 0 < S) (tick : Nat → D → D) (total : List (Res D)) (s a : St D) (j : Nat)
    (hi : Inv S tick total s) (h : hostStep S s j = some a) : Inv S tick total a := by
  obtain ⟨svc, prog, pc, r, st, log⟩ := s
  obtain ⟨F, hH, hF⟩ := hi
  dsimp only at hH hF
  cases hH with
  | idle dv _ _ _ hp ht =>
    cases prog with
    | nil => simp [hostStep] at h
    | cons c p =>
      simp only [hostStep, Option.some.injEq] at h
      subst h
      cases c with
      | run n b =>
        obtain ⟨_, hp⟩ := hp
        exact ⟨_, .sendRun dv n b 0 p log (by omega) hp (by simpa [ref, call, St.ret] using ht), fun k hk => by simpa [call] using hF k hk⟩
      | wait =>
        exact ⟨_, .idle dv p _ st hp (by simpa [ref, call, St.ret] using ht), hF⟩
      | get i =>
        obtain ⟨hi, hp⟩ := hp
        cases st with
        | false => exact ⟨_, .idle dv p _ false hp (by simpa [ref, call, St.ret] using ht), hF⟩
        | true =>
          refine ⟨_, .awaitVal dv i p _ hi hp (by simpa [ref, call, St.ret] using ht), fun k hk => ?_⟩
          split
          · rename_i he
            subst he
            refine .todo ?_
            have := hF k hk
            simp only [Quiet] at this
            simp [call, push, this]
          · rename_i he
            have := hF k hk
            simpa [call, upd_ne _ he] using this
      | set i v =>
        obtain ⟨hi, hp⟩ := hp
        cases st with
        | false => exact ⟨_, .idle dv p _ false hp (by simpa [ref, call, St.ret] using ht), hF⟩
        | true =>
          refine ⟨_, .awaitSet (upd dv i v) i p _ hi hp (by simpa [ref, call, St.ret] using ht), fun k hk => ?_⟩
          split
          · rename_i he
            subst he
            refine .todo (dv k) ?_
            have := hF k hk
            simp only [Quiet] at this
            simp [call, push, this]
          · rename_i he
            have := hF k hk
            simpa [call, upd_ne _ he] using this
      | stop =>
        obtain ⟨_, rfl, rfl⟩ := hp
        exact ⟨_, .sendStop dv 0 _ (by omega) (by simpa [ref, call, St.ret] using ht), fun k hk => by simpa [call] using hF k hk⟩
  | going dv _ _ hp ht =>
    cases prog with
    | nil => simp [hostStep] at h
    | cons c p =>
      simp only [hostStep, Option.some.injEq] at h
      subst h
      cases c with
      | run n b => simp [Proper] at hp
      | wait =>
        refine ⟨_, .collect dv ∅ p _ (by simp) (by simpa using hS) hp (by simpa [ref, call, St.ret] using ht), fun k hk => ?_⟩
        simpa [call] using hF k hk
      | get i => exact ⟨_, .going dv p _ hp.2 (by simpa [ref, call, St.ret] using ht), hF⟩
      | set i v => exact ⟨_, .going dv p _ hp.2 (by simpa [ref, call, St.ret] using ht), hF⟩
      | stop => simp [Proper] at hp
  | sendRun dv n b i _ _ hi hp ht =>
    dsimp only at hF
    simp only [hostStep] at h
    split at h
    · rename_i hlt
      simp only [Option.some.injEq] at h
      subst h
      refine ⟨_, .sendRun dv n b (i + 1) prog log (by omega) hp ht, fun k hk => ?_⟩
      dsimp only
      have := hF k hk
      by_cases he : k = i
      · subst he
        rw [if_neg (by omega)] at this
        rw [if_pos (by omega)]
        refine .todo n (dv k) ?_ rfl
        simp only [Quiet] at this
        simp [push, this]
      · rw [upd_ne _ he]
        by_cases h1 : k < i
        · rw [if_pos h1] at this
          rw [if_pos (by omega)]
          exact this
        · rw [if_neg h1] at this
          rw [if_neg (by omega)]
          exact this
    · rename_i hlt
      have hR : ∀ k, k < S → RunPh (tick k) ((tick k)^[n] (dv k)) (svc k) := fun k hk => by
        have := hF k hk
        rwa [if_pos (by omega)] at this
      cases b with
      | true =>
        simp only [if_true, Option.some.injEq] at h
        subst h
        exact ⟨_, .collect _ ∅ prog log (by simp) (by simpa using hS) hp (by simpa using ht), fun k hk => by simpa using hR k hk⟩
      | false =>
        simp only [Bool.false_eq_true, if_false, Option.some.injEq] at h
        subst h
        exact ⟨_, .going _ prog _ hp (by simpa [St.ret] using ht), hR⟩
  | collect dv C _ _ hC hc hp ht =>
    dsimp only at hF
    simp only [hostStep] at h
    split at h
    · rename_i hj
      have hFj := hF j hj
      by_cases hjC : j ∈ C
      · rw [if_pos hjC] at hFj
        rw [hFj] at h
        simp at h
      · rw [if_neg hjC] at hFj
        cases hFj with
        | todo n d hs _ => rw [hs] at h; simp at h
        | busy n d hs _ => rw [hs] at h; simp at h
        | done hs =>
          rw [hs] at h
          dsimp only at h
          have hcard : (insert j C).card = C.card + 1 := Finset.card_insert_of_notMem hjC
          have hsub : insert j C ⊆ range S := by
            intro x hx
            rcases Finset.mem_insert.1 hx with rfl | hx
            · exact Finset.mem_range.2 hj
            · exact hC hx
          have hF' : ∀ k, k < S → if k ∈ insert j C then
              Quiet (dv k) (upd svc j { mode := Mode.idle, inq := [], outq := [], d := dv j, stopping := false } k)
              else RunPh (tick k) (dv k) (upd svc j { mode := Mode.idle, inq := [], outq := [], d := dv j, stopping := false } k) := by
            intro k hk
            by_cases he : k = j
            · subst he; simp [Quiet]
            · rw [upd_ne _ he]
              have := hF k hk
              by_cases hkC : k ∈ C
              · rw [if_pos hkC] at this; rw [if_pos (by simp [hkC])]; exact this
              · rw [if_neg hkC] at this; rw [if_neg (by simp [hkC, he])]; exact this
          split at h
          · rename_i hS'
            simp only [Option.some.injEq] at h
            subst h
            have hall : insert j C = range S := Finset.eq_of_subset_of_card_le hsub (by rw [hcard, Finset.card_range]; omega)
            have hQ : ∀ k, k < S →
                Quiet (dv k) (upd svc j { mode := Mode.idle, inq := [], outq := [], d := dv j, stopping := false } k) := by
              intro k hk
              have := hF' k hk
              rwa [if_pos (by rw [hall]; exact Finset.mem_range.2 hk)] at this
            refine ⟨_, .idle dv prog _ true hp ?_, hQ⟩
            simp only [St.ret]
            rw [datas_eq S _ dv hQ]
            simpa using ht
          · rename_i hS'
            simp only [Option.some.injEq] at h
            subst h
            refine ⟨fun k => if k ∈ insert j C then Quiet (dv k) else RunPh (tick k) (dv k), ?_, fun k hk => ?_⟩
            · rw [← hcard]
              exact .collect dv (insert j C) prog log hsub (by omega) hp ht
            · have := hF' k hk
              dsimp only
              split
              · rename_i hm; rw [if_pos hm] at this; exact this
              · rename_i hm; rw [if_neg hm] at this; exact this
    · simp at h
  | awaitVal dv i _ _ hi hp ht =>
    dsimp only at hF
    have hFi := hF i hi
    simp only [if_true] at hFi
    simp only [hostStep] at h
    cases hFi with
    | todo hs => rw [hs] at h; simp at h
    | done hs =>
      rw [hs] at h
      simp only [Option.some.injEq] at h
      subst h
      refine ⟨_, .idle dv prog _ true hp (by simpa [St.ret] using ht), fun k hk => ?_⟩
      by_cases he : k = i
      · subst he; simp [Quiet, St.ret]
      · have := hF k hk
        rw [if_neg he] at this
        simpa [St.ret, upd_ne _ he] using this
  | awaitSet dv i _ _ hi hp ht =>
    dsimp only at hF
    have hFi := hF i hi
    simp only [if_true] at hFi
    simp only [hostStep] at h
    cases hFi with
    | todo d hs => rw [hs] at h; simp at h
    | done hs =>
      rw [hs] at h
      simp only [Option.some.injEq] at h
      subst h
      refine ⟨_, .idle dv prog _ true hp (by simpa [St.ret] using ht), fun k hk => ?_⟩
      by_cases he : k = i
      · subst he; simp [Quiet, St.ret]
      · have := hF k hk
        rw [if_neg he] at this
        simpa [St.ret, upd_ne _ he] using this
  | sendStop dv i _ hi ht =>
    dsimp only at hF
    simp only [hostStep] at h
    split at h
    · rename_i hlt
      simp only [Option.some.injEq] at h
      subst h
      refine ⟨_, .sendStop dv (i + 1) log (by omega) ht, fun k hk => ?_⟩
      dsimp only
      have := hF k hk
      by_cases he : k = i
      · subst he
        rw [if_neg (by omega)] at this
        rw [if_pos (by omega)]
        refine .todo (dv k) ?_
        simp only [Quiet] at this
        simp [push, this]
      · rw [upd_ne _ he]
        by_cases h1 : k < i
        · rw [if_pos h1] at this
          rw [if_pos (by omega)]
          exact this
        · rw [if_neg h1] at this
          rw [if_neg (by omega)]
          exact this
    · rename_i hlt
      simp only [Option.some.injEq] at h
      subst h
      refine ⟨_, .stopRecv 0 log (by omega) ht, fun k hk => ?_⟩
      have := hF k hk
      rw [if_pos (by omega)] at this
      simpa using this
  | stopRecv i _ hi ht =>
    dsimp only at hF
    simp only [hostStep] at h
    split at h
    · rename_i hlt
      have hFi := hF i hlt
      rw [if_neg (by omega)] at hFi
      cases hFi with
      | todo d hs => rw [hs] at h; simp at h
      | done d hs =>
        rw [hs] at h
        simp only [Option.some.injEq] at h
        subst h
        refine ⟨_, .stopRecv (i + 1) log (by omega) ht, fun k hk => ?_⟩
        dsimp only
        have := hF k hk
        by_cases he : k = i
        · subst he
          rw [if_pos (by omega)]
          exact ⟨d, by simp⟩
        · rw [upd_ne _ he]
          by_cases h1 : k < i
          · rw [if_pos h1] at this
            rw [if_pos (by omega)]
            exact this
          · rw [if_neg h1] at this
            rw [if_neg (by omega)]
            exact this
    · rename_i hlt
      simp only [Option.some.injEq] at h
      subst h
      refine ⟨_, .joining log ht, fun k hk => ?_⟩
      have := hF k hk
      rw [if_pos (by omega)] at this
      exact this
  | joining _ ht =>
    simp only [hostStep] at h
    split at h
    · simp only [Option.some.injEq] at h
      subst h
      exact ⟨_, .stopped _ (by simpa [St.ret] using ht), hF⟩
    · simp at h
  | stopped _ ht => simp [hostStep] at h

theorem inv_step (S : Nat) (hS : 0 < S) (tick : Nat → D → D) (total : List (Res D)) (s a : St D) (l : Lbl)
    (hi : Inv S tick total s) (h : step S tick s l = some a) : Inv S tick total a := by
  have key : ∀ (i : Nat) (y : Svc D), (svcStep (tick i) (s.svc i) = some y ∨ svcPeek (s.svc i) = some y) → i < S →
      Inv S tick total { s with svc := upd s.svc i y } := by
    intro i y hy hiS
    obtain ⟨F, hH, hF⟩ := hi
    refine ⟨F, hH, fun k hk => ?_⟩
    by_cases he : k = i
    · subst he
      simp only [upd_self]
      exact hH.stable k _ _ (hF k hk) hy
    · simp only [upd_ne _ he]
      exact hF k hk
  cases l with
  | host j => exact inv_host S hS tick total s a j hi h
  | svc i =>
    simp only [step] at h
    split at h
    · rename_i hiS
      cases hy : svcStep (tick i) (s.svc i) with
      | none => rw [hy] at h; simp at h
      | some y =>
        rw [hy] at h
        simp only [Option.map_some, Option.some.injEq] at h
        subst h
        exact key i y (Or.inl hy) hiS
    · simp at h
  | peek i =>
    simp only [step] at h
    split at h
    · rename_i hiS
      cases hy : svcPeek (s.svc i) with
      | none => rw [hy] at h; simp at h
      | some y =>
        rw [hy] at h
        simp only [Option.map_some, Option.some.injEq] at h
        subst h
        exact key i y (Or.inr hy) hiS
    · simp at h

theorem inv_exec (S : Nat) (hS : 0 < S) (tick : Nat → D → D) (total : List (Res D)) : ∀ (ls : List Lbl) (s : St D),
    Inv S tick total s → Inv S tick total (exec S tick s ls)
  | [], _, h => h
  | l :: ls, s, h => by
    rw [exec]
    apply inv_exec S hS tick total ls
    cases hl : step S tick s l with
    | none => exact h
    | some a => exact inv_step S hS tick total s a l h hl

/-- **C80.** Under every schedule, what the calls of a properly used runtime have returned so far is a prefix of what the sequential
machine returns; no call raises. -/
theorem C80_results_sequential (S : Nat) (hS : 0 < S) (tick : Nat → D → D) (d : Nat → D) (p : List (Call D))
    (hp : Proper S false false p) (ls : List Lbl) :
    (exec S tick (init d p) ls).log <+: ref S tick d false false p ∧ (exec S tick (init d p) ls).pc ≠ .failed := by
  have h := inv_exec S hS tick _ ls _ (inv_init S tick d p hp)
  generalize exec S tick (init d p) ls = s at h ⊢
  obtain ⟨svc, prog, pc, r, st, log⟩ := s
  obtain ⟨F, hH, hF⟩ := h
  dsimp only at hH ⊢
  cases hH <;> refine ⟨?_, by simp⟩
  case idle ht => exact ⟨_, ht⟩
  case going ht => exact ⟨_, ht⟩
  case sendRun ht => exact ⟨_, ht⟩
  case collect ht => exact ⟨_, ht⟩
  case awaitVal ht => exact ⟨_, ht⟩
  case awaitSet ht => exact ⟨_, ht⟩
  case sendStop ht => exact ⟨_, ht⟩
  case stopRecv ht => exact ⟨_, ht⟩
  case joining ht => exact ⟨_, ht⟩
  case stopped ht => exact ⟨[], by simpa using ht⟩

end Verif.Host
