import Verif.Pause.Spec
import Mathlib.Data.Finset.Card
import Mathlib.Order.Interval.Finset.Nat
import Mathlib.Tactic.Ring

/-!
# C89: continuous runs can be paused, resumed and stopped
-/

namespace Verif.Pause

open Finset

variable {D : Type}

@[simp] theorem upd_self {α : Type} (f : Nat → α) (i : Nat) (x : α) : upd f i x i = x := by simp [upd]

theorem upd_ne {α : Type} (f : Nat → α) {i j : Nat} (h : j ≠ i) (x : α) : upd f i x j = f j := by simp [upd, h]

/-! ## What a service can be doing -/

/-- Nothing to do; `pz` is the attribute `pausing`. -/
def Quiet (pz : Bool) (x : D) (s : Svc D) : Prop := s = ⟨.idle, [], [], x, pz, false, false, false⟩

/-- In a run that will lead to `x`. -/
inductive RunPh (f : D → D) (x : D) (s : Svc D) : Prop where
  | todo (n d) : s = ⟨.idle, [.run (some n)], [], d, false, false, false, false⟩ → f^[n] d = x → RunPh f x s
  | busy (k d) : s = ⟨.busy (some k), [], [], d, false, false, false, false⟩ → f^[k] d = x → RunPh f x s
  | done : s = ⟨.idle, [], [.done], x, false, false, false, false⟩ → RunPh f x s

/-- In a continuous run that started with `x`. -/
inductive ContPh (f : D → D) (x : D) (pz : Bool) (s : Svc D) : Prop where
  | todo : s = ⟨.idle, [.run none], [], x, pz, false, false, false⟩ → ContPh f x pz s
  | busy (m) : s = ⟨.busy none, [], [], f^[m] x, pz, false, false, false⟩ → ContPh f x pz s

/-- On the way from a continuous run to a pause. -/
inductive PausePh (f : D → D) (x : D) (pz : Bool) (s : Svc D) : Prop where
  | todo : s = ⟨.idle, [.run none, .pause], [], x, pz, false, false, false⟩ → PausePh f x pz s
  | busy (m) : s = ⟨.busy none, [.pause], [], f^[m] x, pz, false, false, false⟩ → PausePh f x pz s
  | seen (m) : s = ⟨.busy none, [.pause], [], f^[m + 1] x, true, false, true, false⟩ → PausePh f x pz s
  | left (m) : s = ⟨.idle, [.pause], [], f^[m + 1] x, true, false, false, false⟩ → PausePh f x pz s
  | done (m) : s = ⟨.idle, [], [.paused], f^[m + 1] x, true, false, false, false⟩ → PausePh f x pz s

/-- Paused after one step or more from `x`. -/
def PausedAt (f : D → D) (x : D) (s : Svc D) : Prop := ∃ m, Quiet true (f^[m + 1] x) s

inductive ValPh (pz : Bool) (x : D) (s : Svc D) : Prop where
  | todo : s = ⟨.idle, [.get], [], x, pz, false, false, false⟩ → ValPh pz x s
  | done : s = ⟨.idle, [], [.val x], x, pz, false, false, false⟩ → ValPh pz x s

inductive SetPh (pz : Bool) (x : D) (s : Svc D) : Prop where
  | todo (d) : s = ⟨.idle, [.set x], [], d, pz, false, false, false⟩ → SetPh pz x s
  | done : s = ⟨.idle, [], [.setComplete], x, pz, false, false, false⟩ → SetPh pz x s

inductive StopPh (s : Svc D) : Prop where
  | todo (d pz) : s = ⟨.idle, [.run none, .stop], [], d, pz, false, false, false⟩ → StopPh s
  | busy (d pz) : s = ⟨.busy none, [.stop], [], d, pz, false, false, false⟩ → StopPh s
  | seen (d pz) : s = ⟨.busy none, [.stop], [], d, pz, true, false, true⟩ → StopPh s
  | left (d pz st) : s = ⟨.idle, [.stop], [], d, pz, st, false, false⟩ → StopPh s
  | done (d pz st) : s = ⟨.dead, [], [.terminated], d, pz, st, false, false⟩ → StopPh s

def Dead (s : Svc D) : Prop := ∃ d pz st, s = ⟨.dead, [], [], d, pz, st, false, false⟩

/-- Quiet or in a continuous run. -/
def StopPre (f : D → D) (x : D) (pz : Bool) (s : Svc D) : Prop := Quiet pz x s ∨ ContPh f x pz s

/-- A kind of activity that services keep by their own steps. -/
def Stable (f : D → D) (F : Svc D → Prop) : Prop := ∀ s y, F s → svcStep f s = some y → F y

theorem stable_quiet (f : D → D) (pz : Bool) (x : D) : Stable f (Quiet pz x) := by
  rintro s y rfl h
  simp [svcStep] at h

theorem stable_run (f : D → D) (x : D) : Stable f (RunPh f x) := by
  intro s y h
  cases h with
  | todo n d hs hx =>
    subst hs
    simp only [svcStep, Option.some.injEq]
    rintro rfl
    exact .busy n d rfl hx
  | busy k d hs hx =>
    subst hs
    cases k with
    | zero =>
      simp only [svcStep, probe, Bool.false_eq_true, if_false, Bool.or_self, Option.some.injEq]
      rintro rfl
      simp at hx
      subst hx
      exact .done rfl
    | succ k =>
      simp only [svcStep, probe, Bool.false_eq_true, if_false, Option.some.injEq]
      rintro rfl
      exact .busy k (f d) rfl hx
  | done hs => subst hs; simp [svcStep]

theorem stable_cont (f : D → D) (x : D) (pz : Bool) : Stable f (ContPh f x pz) := by
  intro s y h
  cases h with
  | todo hs =>
    subst hs
    simp only [svcStep, Option.some.injEq]
    rintro rfl
    exact .busy 0 rfl
  | busy m hs =>
    subst hs
    simp only [svcStep, probe, Bool.false_eq_true, if_false, Option.some.injEq]
    rintro rfl
    exact .busy (m + 1) (by rw [Function.iterate_succ_apply'])

theorem stable_pause (f : D → D) (x : D) (pz : Bool) : Stable f (PausePh f x pz) := by
  intro s y h
  cases h with
  | todo hs =>
    subst hs
    simp only [svcStep, Option.some.injEq]
    rintro rfl
    exact .busy 0 rfl
  | busy m hs =>
    subst hs
    simp only [svcStep, probe, Bool.false_eq_true, if_false, Option.some.injEq]
    rintro rfl
    exact .seen m (by rw [Function.iterate_succ_apply'])
  | seen m hs =>
    subst hs
    simp only [svcStep, if_true, Option.some.injEq]
    rintro rfl
    exact .left m rfl
  | left m hs =>
    subst hs
    simp only [svcStep, Option.some.injEq]
    rintro rfl
    exact .done m rfl
  | done m hs => subst hs; simp [svcStep]

theorem stable_pausedAt (f : D → D) (x : D) : Stable f (PausedAt f x) := by
  rintro s y ⟨m, hm⟩ h
  exact absurd h (by rw [hm]; simp [svcStep])

theorem stable_val (f : D → D) (pz : Bool) (x : D) : Stable f (ValPh pz x) := by
  intro s y h
  cases h with
  | todo hs =>
    subst hs
    simp only [svcStep, Option.some.injEq]
    rintro rfl
    exact .done rfl
  | done hs => subst hs; simp [svcStep]

theorem stable_set (f : D → D) (pz : Bool) (x : D) : Stable f (SetPh pz x) := by
  intro s y h
  cases h with
  | todo d hs =>
    subst hs
    simp only [svcStep, Option.some.injEq]
    rintro rfl
    exact .done rfl
  | done hs => subst hs; simp [svcStep]

theorem stable_stop (f : D → D) : Stable f (StopPh (D := D)) := by
  intro s y h
  cases h with
  | todo d pz hs =>
    subst hs
    simp only [svcStep, Option.some.injEq]
    rintro rfl
    exact .busy d pz rfl
  | busy d pz hs =>
    subst hs
    simp only [svcStep, probe, Bool.false_eq_true, if_false, Option.some.injEq]
    rintro rfl
    exact .seen _ pz rfl
  | seen d pz hs =>
    subst hs
    simp only [svcStep, Bool.false_eq_true, if_false, if_true, Option.some.injEq]
    rintro rfl
    exact .left d pz true rfl
  | left d pz st hs =>
    subst hs
    simp only [svcStep, Option.some.injEq]
    rintro rfl
    exact .done d pz st rfl
  | done d pz st hs => subst hs; simp [svcStep]

theorem stable_dead (f : D → D) : Stable f (Dead (D := D)) := by
  rintro s y ⟨d, pz, st, rfl⟩ h
  simp [svcStep] at h

theorem stable_stopPre (f : D → D) (x : D) (pz : Bool) : Stable f (StopPre f x pz) := by
  rintro s y (h | h) hs
  · exact Or.inl (stable_quiet f pz x s y h hs)
  · exact Or.inr (stable_cont f x pz s y h hs)

/-! ## Invariant -/

/-- What the services are doing, given the position of the host. `ok` tells which results are allowed. -/
inductive HInv (S : Nat) (tick : Nat → D → D) (E : Going → Bool → Prop) (ok : List (Res D) → Prop) :
    Pc → List (Call D) → List (Res D) → Bool → Bool → (Nat → Svc D → Prop) → Prop where
  | idle (dv : Nat → D) (pz p l st) : ProperTo S E .off pz st p → (∀ rest, Ref S tick dv .off st p rest → ok (l ++ rest)) →
      HInv S tick E ok .ready p l false st (fun k => Quiet pz (dv k))
  | going (dv : Nat → D) (p l) : ProperTo S E .steps false true p → (∀ rest, Ref S tick dv .steps true p rest → ok (l ++ rest)) →
      HInv S tick E ok .ready p l true true (fun k => RunPh (tick k) (dv k))
  | goingC (dv : Nat → D) (pz p l) : ProperTo S E .cont pz true p → (∀ rest, Ref S tick dv .cont true p rest → ok (l ++ rest)) →
      HInv S tick E ok .ready p l true true (fun k => ContPh (tick k) (dv k) pz)
  | sendRun (dv : Nat → D) (n b i p l) : i ≤ S → ProperTo S E (if b then .off else .steps) false true p →
      (∀ rest, Ref S tick (fun k => (tick k)^[n] (dv k)) (if b then .off else .steps) true p rest →
        ok (l ++ (if b then .returned (vec S fun k => (tick k)^[n] (dv k)) else .started) :: rest)) →
      HInv S tick E ok (.sendRun (some n) b i) p l true true
        (fun k => if k < i then RunPh (tick k) ((tick k)^[n] (dv k)) else Quiet false (dv k))
  | sendCont (dv : Nat → D) (pz i p l) : i ≤ S → ProperTo S E .cont pz true p → (∀ rest, Ref S tick dv .cont true p rest → ok (l ++ .started :: rest)) →
      HInv S tick E ok (.sendRun none false i) p l true true (fun k => if k < i then ContPh (tick k) (dv k) pz else Quiet pz (dv k))
  | collect (dv : Nat → D) (C : Finset Nat) (p l) : C ⊆ range S → C.card < S → ProperTo S E .off false true p →
      (∀ rest, Ref S tick dv .off true p rest → ok (l ++ .returned (vec S dv) :: rest)) →
      HInv S tick E ok (.collect C.card) p l true true (fun k => if k ∈ C then Quiet false (dv k) else RunPh (tick k) (dv k))
  | awaitVal (dv : Nat → D) (pz i p l) : i < S → ProperTo S E .off pz true p → (∀ rest, Ref S tick dv .off true p rest → ok (l ++ .value (dv i) :: rest)) →
      HInv S tick E ok (.awaitVal i) p l false true (fun k => if k = i then ValPh pz (dv k) else Quiet pz (dv k))
  | awaitSet (dv : Nat → D) (pz i p l) : i < S → ProperTo S E .off pz true p → (∀ rest, Ref S tick dv .off true p rest → ok (l ++ .setOk :: rest)) →
      HInv S tick E ok (.awaitSet i) p l false true (fun k => if k = i then SetPh pz (dv k) else Quiet pz (dv k))
  | sendPause (dv : Nat → D) (pz i p l) : i ≤ S → ProperTo S E .off true true p →
      (∀ c : Nat → Nat, (∀ k, 1 ≤ c k) → ∀ rest, Ref S tick (fun k => (tick k)^[c k] (dv k)) .off true p rest →
        ok (l ++ .paused (vec S fun k => (tick k)^[c k] (dv k)) :: rest)) →
      HInv S tick E ok (.sendPause i) p l true true (fun k => if k < i then PausePh (tick k) (dv k) pz else ContPh (tick k) (dv k) pz)
  | pauseRecv (dv : Nat → D) (pz i p l) : i ≤ S → ProperTo S E .off true true p →
      (∀ c : Nat → Nat, (∀ k, 1 ≤ c k) → ∀ rest, Ref S tick (fun k => (tick k)^[c k] (dv k)) .off true p rest →
        ok (l ++ .paused (vec S fun k => (tick k)^[c k] (dv k)) :: rest)) →
      HInv S tick E ok (.pauseRecv i) p l true true (fun k => if k < i then PausedAt (tick k) (dv k) else PausePh (tick k) (dv k) pz)
  | sendStop (dv : Nat → D) (pz i l r) : i ≤ S → ok (l ++ [.stopped]) →
      HInv S tick E ok (.sendStop i) [] l r true (fun k => if k < i then StopPh else StopPre (tick k) (dv k) pz)
  | stopRecv (i l r) : i ≤ S → ok (l ++ [.stopped]) →
      HInv S tick E ok (.stopRecv i) [] l r true (fun k => if k < i then Dead else StopPh)
  | joining (l r) : ok (l ++ [.stopped]) → HInv S tick E ok .joining [] l r true (fun _ => Dead)
  | stopped (l) : ok (l ++ [.stopped]) → HInv S tick E ok .ready [] (l ++ [.stopped]) false false (fun _ => Dead)

theorem HInv.stable {S : Nat} {tick : Nat → D → D} {E : Going → Bool → Prop} {ok : List (Res D) → Prop} {pc p l r st F}
    (h : HInv S tick E ok pc p l r st F) (k : Nat) : Stable (tick k) (F k) := by
  cases h with
  | idle dv => exact stable_quiet _ _ _
  | going dv => exact stable_run _ _
  | goingC dv => exact stable_cont _ _ _
  | sendRun dv n b i => dsimp only; split; exacts [stable_run _ _, stable_quiet _ _ _]
  | sendCont dv pz i => dsimp only; split; exacts [stable_cont _ _ _, stable_quiet _ _ _]
  | collect dv C => dsimp only; split; exacts [stable_quiet _ _ _, stable_run _ _]
  | awaitVal dv pz i => dsimp only; split; exacts [stable_val _ _ _, stable_quiet _ _ _]
  | awaitSet dv pz i => dsimp only; split; exacts [stable_set _ _ _, stable_quiet _ _ _]
  | sendPause dv pz i => dsimp only; split; exacts [stable_pause _ _ _, stable_cont _ _ _]
  | pauseRecv dv pz i => dsimp only; split; exacts [stable_pausedAt _ _, stable_pause _ _ _]
  | sendStop dv pz i => dsimp only; split; exacts [stable_stop _, stable_stopPre _ _ _]
  | stopRecv i => dsimp only; split; exacts [stable_dead _, stable_stop _]
  | joining => exact stable_dead _
  | stopped => exact stable_dead _

/-- The invariant. -/
def Inv (S : Nat) (tick : Nat → D → D) (E : Going → Bool → Prop) (ok : List (Res D) → Prop) (s : St D) : Prop :=
  ∃ F, HInv S tick E ok s.pc s.prog s.log s.running s.started F ∧ ∀ k, k < S → F k (s.svc k)

theorem inv_init (S : Nat) (tick : Nat → D → D) (d : Nat → D) (p : List (Call D)) (hp : Proper S p) :
    Inv S tick (fun _ _ => True) (Ref S tick d .off false p) (init d p) :=
  ⟨_, .idle d false p [] false hp (fun _ h => h), fun _ _ => rfl⟩

theorem datas_eq (S : Nat) (svc : Nat → Svc D) (pz : Bool) (dv : Nat → D) (h : ∀ k, k < S → Quiet pz (dv k) (svc k)) : datas S svc = vec S dv := by
  unfold datas vec
  apply List.map_congr_left
  intro k hk
  rw [h k (List.mem_range.1 hk)]

/-- The send loops: service `i` gets a command, which takes it from `A` to `B`. -/
theorem send_next {S i : Nat} (svc : Nat → Svc D) (c : Cmd D) (A B : Nat → Svc D → Prop) (hF : ∀ k, k < S → (if k < i then B k else A k) (svc k)) (hi : i < S)
    (hAB : A i (svc i) → B i (push (svc i) c)) : ∀ k, k < S → (if k < i + 1 then B k else A k) (upd svc i (push (svc i) c) k) := by
  intro k hk
  have h := hF k hk
  by_cases he : k = i
  · subst he
    rw [if_neg (by omega)] at h
    rw [if_pos (by omega), upd_self]
    exact hAB h
  · rw [upd_ne _ he]
    by_cases h1 : k < i
    · rw [if_pos h1] at h; rw [if_pos (by omega)]; exact h
    · rw [if_neg h1] at h; rw [if_neg (by omega)]; exact h

/-- The receive loops. -/
theorem recv_next {S i : Nat} (svc : Nat → Svc D) (x : Svc D) (A B : Nat → Svc D → Prop) (hF : ∀ k, k < S → (if k < i then B k else A k) (svc k))
    (hB : B i x) : ∀ k, k < S → (if k < i + 1 then B k else A k) (upd svc i x k) := by
  intro k hk
  have h := hF k hk
  by_cases he : k = i
  · subst he
    rw [if_pos (by omega), upd_self]
    exact hB
  · rw [upd_ne _ he]
    by_cases h1 : k < i
    · rw [if_pos h1] at h; rw [if_pos (by omega)]; exact h
    · rw [if_neg h1] at h; rw [if_neg (by omega)]; exact h

theorem inv_call (S : Nat) (hS : 0 < S) (tick : Nat → D → D) (E : Going → Bool → Prop) (ok : List (Res D) → Prop) (svc : Nat → Svc D) (c : Call D) (p : List (Call D)) (r st : Bool)
    (log : List (Res D)) (hi : Inv S tick E ok ⟨svc, c :: p, .ready, r, st, log⟩) : Inv S tick E ok (call c ⟨svc, p, .ready, r, st, log⟩) := by
  obtain ⟨F, hH, hF⟩ := hi
  dsimp only at hH hF
  cases hH with
  | idle dv pz _ _ _ hp ht =>
    cases c with
    | run n b =>
      obtain ⟨_, rfl, hp⟩ := hp
      exact ⟨_, .sendRun dv n b 0 p log (by omega) hp (fun rest h => ht _ (.run dv .off st n b p rest h)), fun k hk => by simpa [call] using hF k hk⟩
    | cont =>
      obtain ⟨_, hp⟩ := hp
      exact ⟨_, .sendCont dv pz 0 p log (by omega) hp (fun rest h => ht _ (.cont dv .off st p rest h)), fun k hk => by simpa [call] using hF k hk⟩
    | wait =>
      exact ⟨_, .idle dv pz p _ st hp.2 (fun rest h => by simpa [call, St.ret] using ht _ (.wait dv .off st p rest h)), hF⟩
    | pause =>
      refine ⟨_, .idle dv pz p _ st (by simpa using hp.2) (fun rest h => by simpa [call, St.ret] using ht _ (.pauseOff dv st p rest h)), hF⟩
    | get i =>
      obtain ⟨hi, hp⟩ := hp
      cases st with
      | false => exact ⟨_, .idle dv pz p _ false hp (fun rest h => by simpa [call, St.ret] using ht _ (.get dv .off false i p rest h)), hF⟩
      | true =>
        refine ⟨_, .awaitVal dv pz i p _ hi hp (fun rest h => by simpa [call, St.ret] using ht _ (.get dv .off true i p rest h)), fun k hk => ?_⟩
        have := hF k hk
        split
        · rename_i he
          subst he
          simp only [Quiet] at this
          refine .todo ?_
          simp [call, push, this]
        · rename_i he
          simpa [call, upd_ne _ he] using this
    | set i v =>
      obtain ⟨hi, hp⟩ := hp
      cases st with
      | false => exact ⟨_, .idle dv pz p _ false hp (fun rest h => by simpa [call, St.ret] using ht _ (.set dv .off false i v p rest (by simpa using h))), hF⟩
      | true =>
        refine ⟨_, .awaitSet (upd dv i v) pz i p _ hi hp
          (fun rest h => by simpa [call, St.ret] using ht _ (.set dv .off true i v p rest (by simpa using h))), fun k hk => ?_⟩
        have := hF k hk
        split
        · rename_i he
          subst he
          simp only [Quiet] at this
          refine .todo (dv k) ?_
          simp [call, push, this]
        · rename_i he
          simpa [call, upd_ne _ he] using this
    | stop =>
      obtain ⟨_, rfl, rfl⟩ := hp
      exact ⟨_, .sendStop dv pz 0 _ _ (by omega) (ht _ (.stop dv .off true [])), fun k hk => by simpa [call, StopPre] using Or.inl (hF k hk)⟩
  | going dv _ _ hp ht =>
    cases c with
    | run n b => simp [ProperTo] at hp
    | cont => simp [ProperTo] at hp
    | wait =>
      refine ⟨_, .collect dv ∅ p _ (by simp) (by simpa using hS) hp.2 (fun rest h => by simpa [call, St.ret] using ht _ (.wait dv .steps true p rest h)), fun k hk => ?_⟩
      simpa [call] using hF k hk
    | pause => simp [ProperTo] at hp
    | get i => exact ⟨_, .going dv p _ hp.2 (fun rest h => by simpa [call, St.ret] using ht _ (.get dv .steps true i p rest h)), hF⟩
    | set i v => exact ⟨_, .going dv p _ hp.2 (fun rest h => by simpa [call, St.ret] using ht _ (.set dv .steps true i v p rest (by simpa using h))), hF⟩
    | stop => simp [ProperTo] at hp
  | goingC dv pz _ _ hp ht =>
    cases c with
    | run n b => simp [ProperTo] at hp
    | cont => simp [ProperTo] at hp
    | wait => simp [ProperTo] at hp
    | pause =>
      refine ⟨_, .sendPause dv pz 0 p _ (by omega) (by simpa using hp.2) (fun k hk rest h => ht _ (.pauseCont dv true p rest k hk h)), fun k hk => ?_⟩
      simpa [call] using hF k hk
    | get i => exact ⟨_, .goingC dv pz p _ hp.2 (fun rest h => by simpa [call, St.ret] using ht _ (.get dv .cont true i p rest h)), hF⟩
    | set i v => exact ⟨_, .goingC dv pz p _ hp.2 (fun rest h => by simpa [call, St.ret] using ht _ (.set dv .cont true i v p rest (by simpa using h))), hF⟩
    | stop =>
      obtain ⟨_, _, rfl⟩ := hp
      exact ⟨_, .sendStop dv pz 0 _ _ (by omega) (ht _ (.stop dv .cont true [])), fun k hk => by simpa [call, StopPre] using Or.inr (hF k hk)⟩

theorem inv_collect (S : Nat) (tick : Nat → D → D) (E : Going → Bool → Prop) (ok : List (Res D) → Prop) (svc : Nat → Svc D) (p : List (Call D)) (a : St D) (j : Nat)
    (log : List (Res D)) (dv : Nat → D) (C : Finset Nat) (hC : C ⊆ range S) (hc : C.card < S) (hp : ProperTo S E .off false true p)
    (ht : ∀ rest, Ref S tick dv .off true p rest → ok (log ++ .returned (vec S dv) :: rest))
    (hF : ∀ k, k < S → (if k ∈ C then Quiet false (dv k) else RunPh (tick k) (dv k)) (svc k))
    (h : hostStep S ⟨svc, p, .collect C.card, true, true, log⟩ j = some a) : Inv S tick E ok a := by
  simp only [hostStep] at h
  split at h
  · rename_i hj
    have hFj := hF j hj
    by_cases hjC : j ∈ C
    · rw [if_pos hjC] at hFj
      rw [hFj] at h
      simp at h
    · rw [if_neg hjC] at hFj
      cases hFj with
      | todo n d hs _ => rw [hs] at h; simp at h
      | busy n d hs _ => rw [hs] at h; simp at h
      | done hs =>
        have ho : (svc j).outq = [.done] := by rw [hs]
        rw [ho] at h
        dsimp only [pop] at h
        have hcard : (insert j C).card = C.card + 1 := Finset.card_insert_of_notMem hjC
        have hsub : insert j C ⊆ range S := by
          intro x hx
          rcases Finset.mem_insert.1 hx with rfl | hx
          · exact Finset.mem_range.2 hj
          · exact hC hx
        have hF' : ∀ k, k < S → (if k ∈ insert j C then Quiet false (dv k) else RunPh (tick k) (dv k)) (upd svc j { svc j with outq := [] } k) := by
          intro k hk
          by_cases he : k = j
          · subst he; rw [if_pos (by simp), upd_self, hs]; rfl
          · rw [upd_ne _ he]
            have := hF k hk
            by_cases hkC : k ∈ C
            · rw [if_pos hkC] at this; rw [if_pos (by simp [hkC])]; exact this
            · rw [if_neg hkC] at this; rw [if_neg (by simp [hkC, he])]; exact this
        split at h
        · rename_i hS'
          simp only [Option.some.injEq] at h
          subst h
          have hall : insert j C = range S := Finset.eq_of_subset_of_card_le hsub (by rw [hcard, Finset.card_range]; omega)
          have hQ : ∀ k, k < S → Quiet false (dv k) (upd svc j { svc j with outq := [] } k) := by
            intro k hk
            have := hF' k hk
            rwa [if_pos (by rw [hall]; exact Finset.mem_range.2 hk)] at this
          refine ⟨_, .idle dv false p _ true hp ?_, hQ⟩
          intro rest hr
          simp only [St.ret]
          rw [datas_eq S _ false dv hQ]
          simpa using ht rest hr
        · rename_i hS'
          simp only [Option.some.injEq] at h
          subst h
          refine ⟨fun k => if k ∈ insert j C then Quiet false (dv k) else RunPh (tick k) (dv k), ?_, fun k hk => hF' k hk⟩
          rw [← hcard]
          exact .collect dv (insert j C) p log hsub (by omega) hp ht
  · simp at h

theorem inv_host (S : Nat) (hS : 0 < S) (tick : Nat → D → D) (E : Going → Bool → Prop) (ok : List (Res D) → Prop) (s a : St D) (j : Nat)
    (hi : Inv S tick E ok s) (h : hostStep S s j = some a) : Inv S tick E ok a := by
  obtain ⟨svc, prog, pc, r, st, log⟩ := s
  have hready : pc = .ready → Inv S tick E ok a := by
    intro hpc
    subst hpc
    cases prog with
    | nil => simp [hostStep] at h
    | cons c p =>
      simp only [hostStep, Option.some.injEq] at h
      subst h
      exact inv_call S hS tick E ok svc c p r st log hi
  obtain ⟨F, hH, hF⟩ := hi
  dsimp only at hH hF
  cases hH with
  | idle => exact hready rfl
  | going => exact hready rfl
  | goingC => exact hready rfl
  | sendRun dv n b i _ _ hi hp ht =>
    dsimp only at hF
    simp only [hostStep] at h
    split at h
    · rename_i hlt
      simp only [Option.some.injEq] at h
      subst h
      refine ⟨_, .sendRun dv n b (i + 1) prog log (by omega) hp ht, send_next svc (.run (some n)) (fun k => Quiet false (dv k)) _ hF hlt fun hA => ?_⟩
      simp only [Quiet] at hA
      exact .todo n (dv i) (by simp [push, hA]) rfl
    · rename_i hlt
      have hR : ∀ k, k < S → RunPh (tick k) ((tick k)^[n] (dv k)) (svc k) := fun k hk => by
        have := hF k hk
        rwa [if_pos (by omega)] at this
      cases b with
      | true =>
        simp only [if_true, Option.some.injEq] at h
        subst h
        exact ⟨_, .collect _ ∅ prog log (by simp) (by simpa using hS) hp (by simpa using ht), fun k hk => by simpa using hR k hk⟩
      | false =>
        simp only [Bool.false_eq_true, if_false, Option.some.injEq] at h
        subst h
        exact ⟨_, .going _ prog _ hp (by simpa [St.ret] using ht), hR⟩
  | sendCont dv pz i _ _ hi hp ht =>
    dsimp only at hF
    simp only [hostStep] at h
    split at h
    · rename_i hlt
      simp only [Option.some.injEq] at h
      subst h
      refine ⟨_, .sendCont dv pz (i + 1) prog log (by omega) hp ht, send_next svc (.run none) (fun k => Quiet pz (dv k)) _ hF hlt fun hA => ?_⟩
      simp only [Quiet] at hA
      exact .todo (by simp [push, hA])
    · rename_i hlt
      have hR : ∀ k, k < S → ContPh (tick k) (dv k) pz (svc k) := fun k hk => by
        have := hF k hk
        rwa [if_pos (by omega)] at this
      simp only [Bool.false_eq_true, if_false, Option.some.injEq] at h
      subst h
      exact ⟨_, .goingC dv pz prog _ hp (by simpa [St.ret] using ht), hR⟩
  | collect dv C _ _ hC hc hp ht => exact inv_collect S tick E ok svc prog a j log dv C hC hc hp ht hF h
  | awaitVal dv pz i _ _ hi hp ht =>
    dsimp only at hF
    have hFi := hF i hi
    rw [if_pos rfl] at hFi
    simp only [hostStep] at h
    cases hFi with
    | todo hs => rw [hs] at h; simp at h
    | done hs =>
      have ho : (svc i).outq = [.val (dv i)] := by rw [hs]
      rw [ho] at h
      simp only [Option.some.injEq] at h
      subst h
      refine ⟨_, .idle dv pz prog _ true hp (by simpa [St.ret, pop] using ht), fun k hk => ?_⟩
      by_cases he : k = i
      · subst he; simp [Quiet, St.ret, pop, hs]
      · have := hF k hk
        rw [if_neg he] at this
        simpa [St.ret, pop, upd_ne _ he] using this
  | awaitSet dv pz i _ _ hi hp ht =>
    dsimp only at hF
    have hFi := hF i hi
    rw [if_pos rfl] at hFi
    simp only [hostStep] at h
    cases hFi with
    | todo d hs => rw [hs] at h; simp at h
    | done hs =>
      have ho : (svc i).outq = [.setComplete] := by rw [hs]
      rw [ho] at h
      simp only [Option.some.injEq] at h
      subst h
      refine ⟨_, .idle dv pz prog _ true hp (by simpa [St.ret, pop] using ht), fun k hk => ?_⟩
      by_cases he : k = i
      · subst he; simp [Quiet, St.ret, pop, hs]
      · have := hF k hk
        rw [if_neg he] at this
        simpa [St.ret, pop, upd_ne _ he] using this
  | sendPause dv pz i _ _ hi hp ht =>
    dsimp only at hF
    simp only [hostStep] at h
    split at h
    · rename_i hlt
      simp only [Option.some.injEq] at h
      subst h
      refine ⟨_, .sendPause dv pz (i + 1) prog log (by omega) hp ht, send_next svc .pause (fun k => ContPh (tick k) (dv k) pz) _ hF hlt fun hA => ?_⟩
      cases hA with
      | todo hs => exact .todo (by simp [push, hs])
      | busy m hs => exact .busy m (by simp [push, hs])
    · rename_i hlt
      simp only [Option.some.injEq] at h
      subst h
      refine ⟨_, .pauseRecv dv pz 0 prog log (by omega) hp ht, fun k hk => ?_⟩
      have := hF k hk
      rw [if_pos (by omega)] at this
      simpa using this
  | pauseRecv dv pz i _ _ hi hp ht =>
    dsimp only at hF
    simp only [hostStep] at h
    split at h
    · rename_i hlt
      have hFi := hF i hlt
      rw [if_neg (by omega)] at hFi
      cases hFi with
      | todo hs => rw [hs] at h; simp at h
      | busy m hs => rw [hs] at h; simp at h
      | seen m hs => rw [hs] at h; simp at h
      | left m hs => rw [hs] at h; simp at h
      | done m hs =>
        have ho : (svc i).outq = [.paused] := by rw [hs]
        rw [ho] at h
        simp only [Option.some.injEq] at h
        subst h
        exact ⟨_, .pauseRecv dv pz (i + 1) prog log (by omega) hp ht,
          recv_next svc _ (fun k => PausePh (tick k) (dv k) pz) (fun k => PausedAt (tick k) (dv k)) hF ⟨m, by simp [Quiet, hs]⟩⟩
    · rename_i hlt
      simp only [Option.some.injEq] at h
      subst h
      have hA : ∀ k, ∃ m, k < S → Quiet true ((tick k)^[m + 1] (dv k)) (svc k) := by
        intro k
        by_cases hk : k < S
        · have := hF k hk
          rw [if_pos (by omega)] at this
          obtain ⟨m, hm⟩ := this
          exact ⟨m, fun _ => hm⟩
        · exact ⟨0, fun h => absurd h hk⟩
      obtain ⟨c, hc⟩ := Classical.axiom_of_choice hA
      refine ⟨_, .idle (fun k => (tick k)^[c k + 1] (dv k)) true prog _ true hp ?_, hc⟩
      intro rest hr
      simp only [St.ret]
      rw [datas_eq S svc true _ hc]
      simpa using ht (fun k => c k + 1) (fun _ => by omega) rest hr
  | sendStop dv pz i _ _ hi ht =>
    dsimp only at hF
    simp only [hostStep] at h
    split at h
    · rename_i hlt
      simp only [Option.some.injEq] at h
      subst h
      refine ⟨_, .sendStop dv pz (i + 1) log r (by omega) ht, send_next svc .stop (fun k => StopPre (tick k) (dv k) pz) (fun _ => StopPh) hF hlt fun hA => ?_⟩
      rcases hA with hs | hA
      · simp only [Quiet] at hs
        exact .left (dv i) pz false (by simp [push, hs])
      · cases hA with
        | todo hs => exact .todo _ _ (by simp [push, hs]; exact ⟨rfl, rfl⟩)
        | busy m hs => exact .busy _ _ (by simp [push, hs]; exact ⟨rfl, rfl⟩)
    · rename_i hlt
      simp only [Option.some.injEq] at h
      subst h
      refine ⟨_, .stopRecv 0 log r (by omega) ht, fun k hk => ?_⟩
      have := hF k hk
      rw [if_pos (by omega)] at this
      simpa using this
  | stopRecv i _ _ hi ht =>
    dsimp only at hF
    simp only [hostStep] at h
    split at h
    · rename_i hlt
      have hFi := hF i hlt
      rw [if_neg (by omega)] at hFi
      cases hFi with
      | todo d pz hs => rw [hs] at h; simp at h
      | busy d pz hs => rw [hs] at h; simp at h
      | seen d pz hs => rw [hs] at h; simp at h
      | left d pz st hs => rw [hs] at h; simp at h
      | done d pz st hs =>
        have ho : (svc i).outq = [.terminated] := by rw [hs]
        rw [ho] at h
        simp only [Option.some.injEq] at h
        subst h
        exact ⟨_, .stopRecv (i + 1) log r (by omega) ht, recv_next svc _ (fun _ => StopPh) (fun _ => Dead) hF ⟨d, pz, st, by simp [hs]⟩⟩
    · rename_i hlt
      simp only [Option.some.injEq] at h
      subst h
      refine ⟨_, .joining log r ht, fun k hk => ?_⟩
      have := hF k hk
      rw [if_pos (by omega)] at this
      exact this
  | joining _ _ ht =>
    simp only [hostStep] at h
    split at h
    · simp only [Option.some.injEq] at h
      subst h
      exact ⟨_, .stopped _ (by simpa [St.ret] using ht), hF⟩
    · simp at h
  | stopped _ ht => simp [hostStep] at h

theorem inv_step (S : Nat) (hS : 0 < S) (tick : Nat → D → D) (E : Going → Bool → Prop) (ok : List (Res D) → Prop) (s a : St D) (l : Lbl)
    (hi : Inv S tick E ok s) (h : step S tick s l = some a) : Inv S tick E ok a := by
  cases l with
  | host j => exact inv_host S hS tick E ok s a j hi h
  | svc i =>
    simp only [step] at h
    split at h
    · rename_i hiS
      obtain ⟨y, hy, rfl⟩ := Option.map_eq_some_iff.1 h
      obtain ⟨F, hH, hF⟩ := hi
      refine ⟨F, hH, fun k hk => ?_⟩
      by_cases he : k = i
      · subst he
        simp only [upd_self]
        exact hH.stable k _ _ (hF k hk) hy
      · simp only [upd_ne _ he]
        exact hF k hk
    · simp at h

theorem inv_exec (S : Nat) (hS : 0 < S) (tick : Nat → D → D) (E : Going → Bool → Prop) (ok : List (Res D) → Prop) : ∀ (ls : List Lbl) (s : St D),
    Inv S tick E ok s → Inv S tick E ok (exec S tick s ls)
  | [], _, h => h
  | l :: ls, s, h => by
    rw [exec]
    apply inv_exec S hS tick E ok ls
    cases hl : step S tick s l with
    | none => exact h
    | some a => exact inv_step S hS tick E ok s a l h hl

/-- Proper programs have results. -/
theorem ref_exists (S : Nat) (E : Going → Bool → Prop) (tick : Nat → D → D) : ∀ (p : List (Call D)) (d : Nat → D) (g : Going) (pz st : Bool), ProperTo S E g pz st p → ∃ rs, Ref S tick d g st p rs
  | [], d, g, _, st, _ => ⟨[], .nil d g st⟩
  | .run n b :: p, d, g, _, st, h => by
    obtain ⟨rs, hr⟩ := ref_exists S E tick p (fun i => (tick i)^[n] (d i)) _ _ _ h.2.2
    exact ⟨_, .run d g st n b p rs hr⟩
  | .cont :: p, d, g, _, st, h => by
    obtain ⟨rs, hr⟩ := ref_exists S E tick p d _ _ _ h.2
    exact ⟨_, .cont d g st p rs hr⟩
  | .wait :: p, d, g, _, st, h => by
    obtain ⟨rs, hr⟩ := ref_exists S E tick p d _ _ _ h.2
    exact ⟨_, .wait d g st p rs hr⟩
  | .pause :: p, d, .off, _, st, h => by
    obtain ⟨rs, hr⟩ := ref_exists S E tick p d _ _ _ h.2
    exact ⟨_, .pauseOff d st p rs hr⟩
  | .pause :: p, d, .steps, _, st, h => absurd rfl h.1
  | .pause :: p, d, .cont, _, st, h => by
    obtain ⟨rs, hr⟩ := ref_exists S E tick p (fun i => (tick i)^[1] (d i)) _ _ _ h.2
    exact ⟨_, .pauseCont d st p rs (fun _ => 1) (fun _ => Nat.le_refl 1) hr⟩
  | .get i :: p, d, g, _, st, h => by
    obtain ⟨rs, hr⟩ := ref_exists S E tick p d _ _ _ h.2
    exact ⟨_, .get d g st i p rs hr⟩
  | .set i v :: p, d, g, _, st, h => by
    obtain ⟨rs, hr⟩ := ref_exists S E tick p (if g ≠ .off then d else if st then upd d i v else d) _ _ _ h.2
    exact ⟨_, .set d g st i v p rs hr⟩
  | .stop :: p, d, g, _, st, _ => ⟨_, .stop d g st p⟩

/-- **C89.** Under every schedule, what the calls of a properly used runtime have returned so far is a prefix of what the specification allows: a continuous run that is
paused has done some number of whole time steps in every service, at least one; later reads see exactly this data, the next run continues from it; no call raises. -/
theorem C89_results (S : Nat) (hS : 0 < S) (tick : Nat → D → D) (d : Nat → D) (p : List (Call D)) (hp : Proper S p) (ls : List Lbl) :
    (∃ rs, Ref S tick d .off false p rs ∧ (exec S tick (init d p) ls).log <+: rs) ∧ (exec S tick (init d p) ls).pc ≠ .failed := by
  have h := inv_exec S hS tick _ _ ls _ (inv_init S tick d p hp)
  generalize exec S tick (init d p) ls = s at h ⊢
  obtain ⟨svc, prog, pc, r, st, log⟩ := s
  obtain ⟨F, hH, hF⟩ := h
  dsimp only at hH ⊢
  cases hH <;> refine ⟨?_, by simp⟩
  case idle dv pz hp ht =>
    obtain ⟨rs, hr⟩ := ref_exists S _ tick prog dv _ _ _ hp
    exact ⟨_, ht rs hr, ⟨_, rfl⟩⟩
  case going dv hp ht =>
    obtain ⟨rs, hr⟩ := ref_exists S _ tick prog dv _ _ _ hp
    exact ⟨_, ht rs hr, ⟨_, rfl⟩⟩
  case goingC dv pz hp ht =>
    obtain ⟨rs, hr⟩ := ref_exists S _ tick prog dv _ _ _ hp
    exact ⟨_, ht rs hr, ⟨_, rfl⟩⟩
  case sendRun dv n b i hi hp ht =>
    obtain ⟨rs, hr⟩ := ref_exists S _ tick prog (fun k => (tick k)^[n] (dv k)) _ _ _ hp
    exact ⟨_, ht rs hr, ⟨_, rfl⟩⟩
  case sendCont dv pz i hi hp ht =>
    obtain ⟨rs, hr⟩ := ref_exists S _ tick prog dv _ _ _ hp
    exact ⟨_, ht rs hr, ⟨_, rfl⟩⟩
  case collect dv C hC hc hp ht =>
    obtain ⟨rs, hr⟩ := ref_exists S _ tick prog dv _ _ _ hp
    exact ⟨_, ht rs hr, ⟨_, rfl⟩⟩
  case awaitVal dv pz i hi hp ht =>
    obtain ⟨rs, hr⟩ := ref_exists S _ tick prog dv _ _ _ hp
    exact ⟨_, ht rs hr, ⟨_, rfl⟩⟩
  case awaitSet dv pz i hi hp ht =>
    obtain ⟨rs, hr⟩ := ref_exists S _ tick prog dv _ _ _ hp
    exact ⟨_, ht rs hr, ⟨_, rfl⟩⟩
  case sendPause dv pz i hi hp ht =>
    obtain ⟨rs, hr⟩ := ref_exists S _ tick prog (fun k => (tick k)^[1] (dv k)) _ _ _ hp
    exact ⟨_, ht (fun _ => 1) (fun _ => Nat.le_refl 1) rs hr, ⟨_, rfl⟩⟩
  case pauseRecv dv pz i hi hp ht =>
    obtain ⟨rs, hr⟩ := ref_exists S _ tick prog (fun k => (tick k)^[1] (dv k)) _ _ _ hp
    exact ⟨_, ht (fun _ => 1) (fun _ => Nat.le_refl 1) rs hr, ⟨_, rfl⟩⟩
  case sendStop ht => exact ⟨_, ht, ⟨_, rfl⟩⟩
  case stopRecv ht => exact ⟨_, ht, ⟨_, rfl⟩⟩
  case joining ht => exact ⟨_, ht, ⟨_, rfl⟩⟩
  case stopped ht => exact ⟨_, ht, ⟨[], by simp⟩⟩

end Verif.Pause
