import Verif.RefAccess.Spec

/-!
# Transitions of the network, and what holds in every reachable state
-/

namespace Verif.RefAccess

open Verif.EndToEnd (Phase Flags noFlags nextPhase)

variable {S V : Type}

theorem duty_eq (y : Sys S V) (ph : Phase) (i : Nat) (s : S) : duty y ph i s = y.body i ph s := by
  cases ph with
  | spk => rfl
  | host => rfl
  | pre => simp only [duty, Sys.body]; cases y.preGuard i s <;> rfl
  | lrn => simp only [duty, Sys.body]; cases y.lrnGuard i s <;> rfl
  | post => simp only [duty, Sys.body]; cases y.postGuard i s <;> rfl

theorem Tidy.own' {y : Sys S V} {cs cd : Nat → Nat} {W : Nat → Prop} (h : Tidy y cs cd W) (i : Nat) (ph : Phase) (s : S) :
    (y.body i ph s).Own y cs cd W i := duty_eq y ph i s ▸ h.own i ph s

theorem Tidy.waits' {y : Sys S V} {cs cd : Nat → Nat} {W : Nat → Prop} (h : Tidy y cs cd W) (i : Nat) (ph : Phase) (s : S) :
    (y.body i ph s).Waits (fun _ => False) := duty_eq y ph i s ▸ h.waits i ph s

/-- The state of the network in readable form. -/
def At (s : St Ch (Proc S V) (Msg V)) (x : Svc) (m : Nat → Mdl S V) : Prop := s.q 0 = .svc x ∧ ∀ i, s.q (i + 1) = .mdl (m i)

/-- Channel contents. -/
abbrev Chans (V : Type) := Ch → List (Msg V)

/-- All transitions. -/
inductive Trans (y : Sys S V) (x : Svc) (m : Nat → Mdl S V) (ch : Chans V) : Nat × Nat → Svc → (Nat → Mdl S V) → Chans V → Prop where
  | start {t ts} : x.pc = .idle → x.runs = t :: ts → Trans y x m ch (0, 0) ⟨.top t 0, x.f, ts⟩ m ch
  | top {t cur} : x.pc = .top t cur → Trans y x m ch (0, 0)
      ⟨.sendPh (nextPhase x.f (cur == t)).1 (List.range y.n) t (if (nextPhase x.f (cur == t)).1 = .spk then cur + 1 else cur),
        (nextPhase x.f (cur == t)).2, x.runs⟩ m ch
  | tell {ph i rest t cur} : x.pc = .sendPh ph (i :: rest) t cur → (ch (.cmd i)).length < y.cap (.cmd i) →
      Trans y x m ch (0, 0) { x with pc := .sendPh ph rest t cur } m (put ch (.cmd i) (ch (.cmd i) ++ [.phase ph]))
  | told {ph t cur} : x.pc = .sendPh ph [] t cur →
      Trans y x m ch (0, 0) { x with pc := if ph = .host then .idle else .collect ph (List.range y.n) t cur } m ch
  | hear {ph i rest t cur r rs} : x.pc = .collect ph (i :: rest) t cur → ch (.rsp i) = r :: rs →
      Trans y x m ch (0, 0) ⟨.collect ph rest t cur, addReq x.f r, x.runs⟩ m (put ch (.rsp i) rs)
  | heard {ph t cur} : x.pc = .collect ph [] t cur → Trans y x m ch (0, 0) { x with pc := .top t cur } m ch
  | host {i rs} : i < y.n → (m i).pc = .idle → ch (.cmd i) = .phase .host :: rs →
      Trans y x m ch (i + 1, 0) x (put m i ⟨(m i).s, .host, .idle⟩) (put ch (.cmd i) rs)
  | phase {i ph rs} : i < y.n → (m i).pc = .idle → ch (.cmd i) = .phase ph :: rs → ph ≠ .host →
      Trans y x m ch (i + 1, 0) x (put m i ⟨(m i).s, ph, .run (y.body i ph (m i).s)⟩) (put ch (.cmd i) rs)
  | badCmd {i r rs} : i < y.n → (m i).pc = .idle → ch (.cmd i) = r :: rs → (∀ ph, r ≠ .phase ph) →
      Trans y x m ch (i + 1, 0) x (put m i ⟨(m i).s, (m i).ph, .failed⟩) (put ch (.cmd i) rs)
  | get {i e rs} : i < y.n → e < y.ne → y.dst e = i → polled (m i).ph = true → (m i).pc = .idle → ch (.req e) = .get :: rs →
      (ch (.rep e)).length < y.cap (.rep e) →
      Trans y x m ch (i + 1, e + 1) x m (put (put ch (.req e) rs) (.rep e) (ch (.rep e) ++ [.data (y.rd e (m i).s)]))
  | set {i e v rs} : i < y.n → e < y.ne → y.dst e = i → polled (m i).ph = true → (m i).pc = .idle → ch (.req e) = .set v :: rs →
      Trans y x m ch (i + 1, e + 1) x (put m i ⟨y.wr e v (m i).s, (m i).ph, .idle⟩) (put ch (.req e) rs)
  | badReq {i e r rs} : i < y.n → e < y.ne → y.dst e = i → polled (m i).ph = true → (m i).pc = .idle → ch (.req e) = r :: rs →
      r ≠ .get → (∀ v, r ≠ .set v) → Trans y x m ch (i + 1, e + 1) x (put m i ⟨(m i).s, (m i).ph, .failed⟩) (put ch (.req e) rs)
  | ret {i s} : i < y.n → (m i).pc = .run (.ret s) → (ch (.rsp i)).length < y.cap (.rsp i) →
      Trans y x m ch (i + 1, 0) x (put m i ⟨s, (m i).ph, .idle⟩) (put ch (.rsp i) (ch (.rsp i) ++ [y.respOf i (m i).ph s]))
  | read {i e k} : i < y.n → (m i).pc = .run (.read e k) → (ch (.req e)).length < y.cap (.req e) →
      Trans y x m ch (i + 1, 0) x (put m i ⟨(m i).s, (m i).ph, .await e k⟩) (put ch (.req e) (ch (.req e) ++ [.get]))
  | write {i e v k} : i < y.n → (m i).pc = .run (.write e v k) → (ch (.req e)).length < y.cap (.req e) →
      Trans y x m ch (i + 1, 0) x (put m i ⟨(m i).s, (m i).ph, .run k⟩) (put ch (.req e) (ch (.req e) ++ [.set v]))
  | send {i c v k} : i < y.n → (m i).pc = .run (.send c v k) → (ch (.data c)).length < y.cap (.data c) →
      Trans y x m ch (i + 1, 0) x (put m i ⟨(m i).s, (m i).ph, .run k⟩) (put ch (.data c) (ch (.data c) ++ [.data v]))
  | recv {i c v k rs} : i < y.n → (m i).pc = .run (.recv c k) → ch (.data c) = .data v :: rs →
      Trans y x m ch (i + 1, 0) x (put m i ⟨(m i).s, (m i).ph, .run (k v)⟩) (put ch (.data c) rs)
  | badRecv {i c k r rs} : i < y.n → (m i).pc = .run (.recv c k) → ch (.data c) = r :: rs → (∀ v, r ≠ .data v) →
      Trans y x m ch (i + 1, 0) x (put m i ⟨(m i).s, (m i).ph, .failed⟩) (put ch (.data c) rs)
  | reply {i e v k rs} : i < y.n → (m i).pc = .await e k → ch (.rep e) = .data v :: rs →
      Trans y x m ch (i + 1, 0) x (put m i ⟨(m i).s, (m i).ph, .run (k v)⟩) (put ch (.rep e) rs)
  | badReply {i e k r rs} : i < y.n → (m i).pc = .await e k → ch (.rep e) = r :: rs → (∀ v, r ≠ .data v) →
      Trans y x m ch (i + 1, 0) x (put m i ⟨(m i).s, (m i).ph, .failed⟩) (put ch (.rep e) rs)

theorem At.put_svc {s : St Ch (Proc S V) (Msg V)} {x : Svc} {m : Nat → Mdl S V} (h : At s x m) (x' : Svc) (ch : Chans V) :
    At ⟨put s.q 0 (.svc x'), ch⟩ x' m :=
  ⟨by simp, fun i => by show put s.q 0 (.svc x') (i + 1) = .mdl (m i); rw [put_ne _ (by omega)]; exact h.2 i⟩

theorem At.put_mdl {s : St Ch (Proc S V) (Msg V)} {x : Svc} {m : Nat → Mdl S V} (h : At s x m) (i : Nat) (m' : Mdl S V) (ch : Chans V) :
    At ⟨put s.q (i + 1) (.mdl m'), ch⟩ x (put m i m') := by
  refine ⟨?_, fun j => ?_⟩
  · show put s.q (i + 1) (.mdl m') 0 = .svc x
    rw [put_ne _ (by omega)]; exact h.1
  · show put s.q (i + 1) (.mdl m') (j + 1) = .mdl (put m i m' j)
    by_cases hj : j = i
    · subst hj; simp
    · rw [put_ne _ (by omega), put_ne _ hj]; exact h.2 j

theorem At.keep_mdl {s : St Ch (Proc S V) (Msg V)} {x : Svc} {m : Nat → Mdl S V} (h : At s x m) (i : Nat) (ch : Chans V) :
    At ⟨put s.q (i + 1) (.mdl (m i)), ch⟩ x m := by
  have := h.put_mdl i (m i) ch
  rwa [put_eq] at this

/-- Steps of the network are transitions. -/
theorem step_trans {y : Sys S V} {s t : St Ch (Proc S V) (Msg V)} {x : Svc} {m : Nat → Mdl S V} {l : Nat × Nat} (h : At s x m)
    (hs : step (net y) s l = some t) : ∃ x' m', At t x' m' ∧ Trans y x m s.chan l x' m' t.chan := by
  obtain ⟨p, a⟩ := l
  cases p with
  | zero =>
    obtain ⟨q, ch⟩ := s
    have hv : (net y).view 0 (q 0) a = if a = 0 then mapAct .svc (svcView y x) else .none := by rw [show q 0 = _ from h.1]; rfl
    by_cases ha : a = 0
    · subst ha
      rw [if_pos rfl] at hv
      unfold step at hs
      dsimp only at hs
      rw [hv] at hs
      unfold svcView at hs
      cases hpc : x.pc with
      | idle =>
        simp only [hpc] at hs
        cases hr : x.runs with
        | nil => simp only [hr] at hs; cases hs
        | cons u us =>
          simp only [hr, mapAct] at hs
          obtain ⟨-, rfl⟩ := finish_some.1 hs
          exact ⟨_, _, h.put_svc _ _, .start hpc hr⟩
      | top u cur =>
        simp only [hpc, mapAct] at hs
        obtain ⟨-, rfl⟩ := finish_some.1 hs
        exact ⟨_, _, h.put_svc _ _, .top hpc⟩
      | sendPh ph rest u cur =>
        cases rest with
        | nil =>
          simp only [hpc, mapAct] at hs
          obtain ⟨-, rfl⟩ := finish_some.1 hs
          exact ⟨_, _, h.put_svc _ _, .told hpc⟩
        | cons i rest =>
          simp only [hpc, mapAct] at hs
          obtain ⟨hr, rfl⟩ := finish_some.1 hs
          exact ⟨_, _, h.put_svc _ _, .tell hpc hr⟩
      | collect ph rest u cur =>
        cases rest with
        | nil =>
          simp only [hpc, mapAct] at hs
          obtain ⟨-, rfl⟩ := finish_some.1 hs
          exact ⟨_, _, h.put_svc _ _, .heard hpc⟩
        | cons i rest =>
          simp only [hpc, mapAct] at hs
          cases hc : ch (.rsp i) with
          | nil => simp only [hc] at hs; cases hs
          | cons r rs =>
            simp only [hc] at hs
            obtain ⟨-, rfl⟩ := finish_some.1 hs
            exact ⟨_, _, h.put_svc _ _, .hear hpc hc⟩
    · rw [if_neg ha] at hv
      unfold step at hs
      dsimp only at hs
      rw [hv] at hs
      cases hs
  | succ i =>
    obtain ⟨q, ch⟩ := s
    have hv : (net y).view (i + 1) (q (i + 1)) a = if i < y.n then mapAct .mdl (mdlView y i (m i) a) else .none := by
      rw [show q (i + 1) = _ from h.2 i]; rfl
    unfold step at hs
    dsimp only at hs
    rw [hv] at hs
    by_cases hi : i < y.n
    · rw [if_pos hi] at hs
      unfold mdlView at hs
      cases hpc : (m i).pc with
      | idle =>
        cases a with
        | zero =>
          simp only [hpc, mapAct] at hs
          cases hc : ch (.cmd i) with
          | nil => simp only [hc] at hs; cases hs
          | cons r rs =>
            simp only [hc] at hs
            cases r with
            | phase ph =>
              cases ph with
              | host =>
                obtain ⟨-, rfl⟩ := finish_some.1 hs
                exact ⟨_, _, h.put_mdl _ _ _, .host hi hpc hc⟩
              | _ =>
                obtain ⟨-, rfl⟩ := finish_some.1 hs
                exact ⟨_, _, h.put_mdl _ _ _, .phase hi hpc hc (by decide)⟩
            | _ =>
              obtain ⟨-, rfl⟩ := finish_some.1 hs
              exact ⟨_, _, h.put_mdl _ _ _, .badCmd hi hpc hc (by intro ph; simp)⟩
        | succ e =>
          simp only [hpc] at hs
          by_cases hp : e < y.ne ∧ y.dst e = i ∧ polled (m i).ph = true
          · rw [if_pos hp] at hs
            simp only [mapAct] at hs
            cases hc : ch (.req e) with
            | nil => simp only [hc] at hs; cases hs
            | cons r rs =>
              simp only [hc] at hs
              cases r with
              | get =>
                obtain ⟨hr, rfl⟩ := finish_some.1 hs
                refine ⟨_, _, h.keep_mdl _ _, ?_⟩
                simp only [Room, put_ne _ (show Ch.rep e ≠ .req e by simp)] at hr
                simp only [pushed, put_ne _ (show Ch.rep e ≠ .req e by simp)]
                exact .get hi hp.1 hp.2.1 hp.2.2 hpc hc hr
              | set v =>
                obtain ⟨-, rfl⟩ := finish_some.1 hs
                have := h.put_mdl i ⟨y.wr e v (m i).s, (m i).ph, .idle⟩ (pushed (put ch (.req e) rs) none)
                refine ⟨_, _, ?_, .set hi hp.1 hp.2.1 hp.2.2 hpc hc⟩
                rwa [← hpc] at this ⊢
              | _ =>
                obtain ⟨-, rfl⟩ := finish_some.1 hs
                exact ⟨_, _, h.put_mdl _ _ _, .badReq hi hp.1 hp.2.1 hp.2.2 hpc hc (by simp) (by intro v; simp)⟩
          · rw [if_neg hp] at hs
            cases hs
      | failed => cases a <;> simp only [hpc, mapAct] at hs <;> cases hs
      | await e k =>
        cases a with
        | succ a => simp only [hpc, mapAct] at hs; cases hs
        | zero =>
          simp only [hpc, mapAct] at hs
          cases hc : ch (.rep e) with
          | nil => simp only [hc] at hs; cases hs
          | cons r rs =>
            simp only [hc] at hs
            cases r with
            | data v =>
              obtain ⟨-, rfl⟩ := finish_some.1 hs
              exact ⟨_, _, h.put_mdl _ _ _, .reply hi hpc hc⟩
            | _ =>
              obtain ⟨-, rfl⟩ := finish_some.1 hs
              exact ⟨_, _, h.put_mdl _ _ _, .badReply hi hpc hc (by intro v; simp)⟩
      | run P =>
        cases a with
        | succ a => cases P <;> simp only [hpc, mapAct] at hs <;> cases hs
        | zero =>
          cases P with
          | ret u =>
            simp only [hpc, mapAct] at hs
            obtain ⟨hr, rfl⟩ := finish_some.1 hs
            exact ⟨_, _, h.put_mdl _ _ _, .ret hi hpc hr⟩
          | read e k =>
            simp only [hpc, mapAct] at hs
            obtain ⟨hr, rfl⟩ := finish_some.1 hs
            exact ⟨_, _, h.put_mdl _ _ _, .read hi hpc hr⟩
          | write e v k =>
            simp only [hpc, mapAct] at hs
            obtain ⟨hr, rfl⟩ := finish_some.1 hs
            exact ⟨_, _, h.put_mdl _ _ _, .write hi hpc hr⟩
          | send c v k =>
            simp only [hpc, mapAct] at hs
            obtain ⟨hr, rfl⟩ := finish_some.1 hs
            exact ⟨_, _, h.put_mdl _ _ _, .send hi hpc hr⟩
          | recv c k =>
            simp only [hpc, mapAct] at hs
            cases hc : ch (.data c) with
            | nil => simp only [hc] at hs; cases hs
            | cons r rs =>
              simp only [hc] at hs
              cases r with
              | data v =>
                obtain ⟨-, rfl⟩ := finish_some.1 hs
                exact ⟨_, _, h.put_mdl _ _ _, .recv hi hpc hc⟩
              | _ =>
                obtain ⟨-, rfl⟩ := finish_some.1 hs
                exact ⟨_, _, h.put_mdl _ _ _, .badRecv hi hpc hc (by intro v; simp)⟩
    · rw [if_neg hi] at hs
      cases hs

/-- The readable form determines the state. -/
theorem At.ext {s t : St Ch (Proc S V) (Msg V)} {x : Svc} {m : Nat → Mdl S V} (h : At s x m) (h' : At t x m) (hc : s.chan = t.chan) : s = t := by
  obtain ⟨q, c⟩ := s
  obtain ⟨q', c'⟩ := t
  have : q = q' := by
    funext p
    cases p with
    | zero => exact h.1.trans h'.1.symm
    | succ i => exact (h.2 i).trans (h'.2 i).symm
  subst this
  cases hc
  rfl

/-- A state in readable form. -/
def mk (x : Svc) (m : Nat → Mdl S V) (ch : Chans V) : St Ch (Proc S V) (Msg V) where
  q p := match p with
    | 0 => .svc x
    | i + 1 => .mdl (m i)
  chan := ch

theorem at_mk (x : Svc) (m : Nat → Mdl S V) (ch : Chans V) : At (mk x m ch) x m := ⟨rfl, fun _ => rfl⟩

theorem At.eq_mk {s : St Ch (Proc S V) (Msg V)} {x : Svc} {m : Nat → Mdl S V} (h : At s x m) : s = mk x m s.chan :=
  h.ext (at_mk _ _ _) rfl

/-- Transitions are steps. -/
theorem trans_step {y : Sys S V} {x x' : Svc} {m m' : Nat → Mdl S V} {ch ch' : Chans V} {l : Nat × Nat}
    (h : Trans y x m ch l x' m' ch') : step (net y) (mk x m ch) l = some (mk x' m' ch') := by
  have key : ∀ t, step (net y) (mk x m ch) l = some t → At t x' m' → t.chan = ch' → step (net y) (mk x m ch) l = some (mk x' m' ch') := by
    intro t ht ha hc
    rw [ht, ha.eq_mk, hc]
  have A := at_mk x m ch
  have vs : (net y).view 0 ((mk x m ch).q 0) 0 = mapAct .svc (svcView y x) := rfl
  have vm : ∀ i a, i < y.n → (net y).view (i + 1) ((mk x m ch).q (i + 1)) a = mapAct .mdl (mdlView y i (m i) a) :=
    fun i a hi => if_pos hi
  have hch : (mk x m ch).chan = ch := rfl
  cases h with
  | start hpc hr =>
    refine key _ ?_ (A.put_svc _ ch) rfl
    simp only [step, vs, svcView, hpc, hr, mapAct]
    exact finish_some.2 ⟨trivial, rfl⟩
  | top hpc =>
    refine key _ ?_ (A.put_svc _ ch) rfl
    simp only [step, vs, svcView, hpc, mapAct]
    exact finish_some.2 ⟨trivial, rfl⟩
  | tell hpc hr =>
    refine key _ ?_ (A.put_svc _ _) rfl
    simp only [step, vs, svcView, hpc, mapAct]
    exact finish_some.2 ⟨hr, rfl⟩
  | told hpc =>
    refine key _ ?_ (A.put_svc _ ch) rfl
    simp only [step, vs, svcView, hpc, mapAct]
    exact finish_some.2 ⟨trivial, rfl⟩
  | hear hpc hc =>
    refine key _ ?_ (A.put_svc _ _) rfl
    simp only [step, vs, svcView, hpc, mapAct, hch, hc]
    exact finish_some.2 ⟨trivial, rfl⟩
  | heard hpc =>
    refine key _ ?_ (A.put_svc _ ch) rfl
    simp only [step, vs, svcView, hpc, mapAct]
    exact finish_some.2 ⟨trivial, rfl⟩
  | host hi hpc hc =>
    refine key _ ?_ (A.put_mdl _ _ _) rfl
    simp only [step, vm _ _ hi, mdlView, hpc, mapAct, hch, hc]
    exact finish_some.2 ⟨trivial, rfl⟩
  | @phase i ph rs hi hpc hc hne =>
    refine key _ ?_ (A.put_mdl _ _ _) rfl
    simp only [step, vm _ _ hi, mdlView, hpc, mapAct, hch, hc]
    cases ph <;> exact finish_some.2 ⟨trivial, rfl⟩
  | @badCmd i r rs hi hpc hc hne =>
    refine key _ ?_ (A.put_mdl _ _ _) rfl
    simp only [step, vm _ _ hi, mdlView, hpc, mapAct, hch, hc]
    cases r <;> first | exact finish_some.2 ⟨trivial, rfl⟩ | exact absurd rfl (hne _)
  | @get i e rs hi he hd hp hpc hc hr =>
    refine key _ ?_ (A.keep_mdl i (put (put ch (.req e) rs) (.rep e) (ch (.rep e) ++ [.data (y.rd e (m i).s)]))) rfl
    simp only [step, vm _ _ hi, mdlView, hpc]
    rw [if_pos ⟨he, hd, hp⟩]
    simp only [mapAct, hch, hc]
    refine finish_some.2 ⟨?_, ?_⟩
    · show (put ch (.req e) rs (.rep e)).length < y.cap (.rep e)
      rwa [put_ne _ (show Ch.rep e ≠ .req e by simp)]
    · simp only [pushed, put_ne _ (show Ch.rep e ≠ .req e by simp)]
  | @set i e v rs hi he hd hp hpc hc =>
    refine key _ ?_ (A.put_mdl i _ _) rfl
    simp only [step, vm _ _ hi, mdlView, hpc]
    rw [if_pos ⟨he, hd, hp⟩]
    simp only [mapAct, hch, hc]
    exact finish_some.2 ⟨trivial, rfl⟩
  | @badReq i e r rs hi he hd hp hpc hc h1 h2 =>
    refine key _ ?_ (A.put_mdl i _ _) rfl
    simp only [step, vm _ _ hi, mdlView, hpc]
    rw [if_pos ⟨he, hd, hp⟩]
    simp only [mapAct, hch, hc]
    cases r <;> exact finish_some.2 ⟨trivial, rfl⟩
  | ret hi hpc hr =>
    refine key _ ?_ (A.put_mdl _ _ _) rfl
    simp only [step, vm _ _ hi, mdlView, hpc, mapAct]
    exact finish_some.2 ⟨hr, rfl⟩
  | read hi hpc hr =>
    refine key _ ?_ (A.put_mdl _ _ _) rfl
    simp only [step, vm _ _ hi, mdlView, hpc, mapAct]
    exact finish_some.2 ⟨hr, rfl⟩
  | write hi hpc hr =>
    refine key _ ?_ (A.put_mdl _ _ _) rfl
    simp only [step, vm _ _ hi, mdlView, hpc, mapAct]
    exact finish_some.2 ⟨hr, rfl⟩
  | send hi hpc hr =>
    refine key _ ?_ (A.put_mdl _ _ _) rfl
    simp only [step, vm _ _ hi, mdlView, hpc, mapAct]
    exact finish_some.2 ⟨hr, rfl⟩
  | recv hi hpc hc =>
    refine key _ ?_ (A.put_mdl _ _ _) rfl
    simp only [step, vm _ _ hi, mdlView, hpc, mapAct, hch, hc]
    exact finish_some.2 ⟨trivial, rfl⟩
  | @badRecv i c k r rs hi hpc hc hne =>
    refine key _ ?_ (A.put_mdl _ _ _) rfl
    simp only [step, vm _ _ hi, mdlView, hpc, mapAct, hch, hc]
    cases r <;> exact finish_some.2 ⟨trivial, rfl⟩
  | reply hi hpc hc =>
    refine key _ ?_ (A.put_mdl _ _ _) rfl
    simp only [step, vm _ _ hi, mdlView, hpc, mapAct, hch, hc]
    exact finish_some.2 ⟨trivial, rfl⟩
  | @badReply i c k r rs hi hpc hc hne =>
    refine key _ ?_ (A.put_mdl _ _ _) rfl
    simp only [step, vm _ _ hi, mdlView, hpc, mapAct, hch, hc]
    cases r <;> exact finish_some.2 ⟨trivial, rfl⟩

end Verif.RefAccess
