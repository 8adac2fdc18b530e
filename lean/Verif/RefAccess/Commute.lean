import Verif.RefAccess.Keep

/-!
# Disciplined systems commute
-/

namespace Verif.RefAccess

open Verif.EndToEnd (Phase Flags noFlags nextPhase)

variable {S V : Type}

/-- Sender of a channel. -/
def writer (y : Sys S V) (cs : Nat → Nat) : Ch → Nat
  | .data c => cs c + 1
  | .req e => y.src e + 1
  | .rep e => y.dst e + 1
  | .cmd _ => 0
  | .rsp i => i + 1

/-- Receiver of a channel. -/
def reader (y : Sys S V) (cd : Nat → Nat) : Ch → Nat
  | .data c => cd c + 1
  | .req e => y.dst e + 1
  | .rep e => y.src e + 1
  | .cmd i => i + 1
  | .rsp _ => 0

/-- Reachable states have this. -/
def Inv (y : Sys S V) (cs cd : Nat → Nat) (W : Nat → Prop) (s : St Ch (Proc S V) (Msg V)) : Prop :=
  ∃ x m, At s x m ∧ Good y cs cd W x m s.chan

variable {y : Sys S V} {cs cd : Nat → Nat} {W : Nat → Prop}

theorem inv_initial (runs : List Nat) : Inv y cs cd W (initial y runs) := by
  refine ⟨⟨.idle, noFlags, runs⟩, fun i => ⟨y.init i, .spk, .idle⟩, ⟨rfl, fun _ => rfl⟩, ⟨rfl, fun i _ => ⟨rfl, rfl, AllHost.nil⟩⟩, fun i _ => ?_, ?_⟩
  · intro e _ _; exact ⟨rfl, rfl⟩
  · intro c r hr; cases hr

theorem Inv.step (hy : Tidy y cs cd W) {s t : St Ch (Proc S V) (Msg V)} {l : Nat × Nat} (h : Inv y cs cd W s) (hs : step (net y) s l = some t) :
    Inv y cs cd W t := by
  obtain ⟨x, m, ha, hg⟩ := h
  obtain ⟨x', m', ha', ht⟩ := step_trans ha hs
  exact ⟨x', m', ha', hg.step hy ht⟩

theorem Inv.owned {s : St Ch (Proc S V) (Msg V)} (h : Inv y cs cd W s) : OwnedAt (net y) (writer y cs) (reader y cd) s := by
  obtain ⟨x, m, ha, hg⟩ := h
  have vs : ∀ a, (net y).view 0 (s.q 0) a = if a = 0 then mapAct .svc (svcView y x) else .none := fun a => by rw [ha.1]; rfl
  have vm : ∀ i a, (net y).view (i + 1) (s.q (i + 1)) a = if i < y.n then mapAct .mdl (mdlView y i (m i) a) else .none :=
    fun i a => by rw [ha.2 i]; rfl
  refine ⟨fun p a z c v hv => ?_, fun p a c k hv => ?_, fun p a c k v z c' v' hv hk => ?_⟩
  · cases p with
    | zero =>
      rw [vs] at hv
      split at hv
      · unfold svcView at hv
        cases hpc : x.pc with
        | idle => cases hr : x.runs <;> simp [hpc, hr, mapAct] at hv
        | top t cur => simp [hpc, mapAct] at hv
        | sendPh ph rest t cur =>
          cases rest with
          | nil => simp [hpc, mapAct] at hv
          | cons i rest => simp [hpc, mapAct] at hv; rw [← hv.2.1]; rfl
        | collect ph rest t cur => cases rest <;> simp [hpc, mapAct] at hv
      · cases hv
    | succ i =>
      rw [vm] at hv
      split at hv
      · rename_i hi
        unfold mdlView at hv
        cases hpc : (m i).pc with
        | idle =>
          cases a with
          | zero => simp [hpc, mapAct] at hv
          | succ e =>
            simp only [hpc] at hv
            split at hv <;> simp [mapAct] at hv
        | failed => simp [hpc, mapAct] at hv
        | await e k => cases a <;> simp [hpc, mapAct] at hv
        | run P =>
          have ho := ((hg.edge i hi).run hpc).1
          cases a with
          | succ a => cases P <;> simp [hpc, mapAct] at hv
          | zero =>
            cases P with
            | ret u => simp [hpc, mapAct] at hv; rw [← hv.2.1]; rfl
            | read e k => simp [hpc, mapAct] at hv; rw [← hv.2.1]; exact congrArg (· + 1) ho.2.1
            | write e u k => simp [hpc, mapAct] at hv; rw [← hv.2.1]; exact congrArg (· + 1) ho.2.1
            | send e u k => simp [hpc, mapAct] at hv; rw [← hv.2.1]; exact congrArg (· + 1) ho.1
            | recv e k => simp [hpc, mapAct] at hv
      · cases hv
  · cases p with
    | zero =>
      rw [vs] at hv
      split at hv
      · unfold svcView at hv
        cases hpc : x.pc with
        | idle => cases hr : x.runs <;> simp [hpc, hr, mapAct] at hv
        | top t cur => simp [hpc, mapAct] at hv
        | sendPh ph rest t cur => cases rest <;> simp [hpc, mapAct] at hv
        | collect ph rest t cur =>
          cases rest with
          | nil => simp [hpc, mapAct] at hv
          | cons i rest => simp [hpc, mapAct] at hv; rw [← hv.1]; rfl
      · cases hv
    | succ i =>
      rw [vm] at hv
      split at hv
      · rename_i hi
        unfold mdlView at hv
        cases hpc : (m i).pc with
        | idle =>
          cases a with
          | zero => simp [hpc, mapAct] at hv; rw [← hv.1]; rfl
          | succ e =>
            simp only [hpc] at hv
            split at hv
            · rename_i hp
              simp [mapAct] at hv; rw [← hv.1]; exact congrArg (· + 1) hp.2.1
            · cases hv
        | failed => simp [hpc, mapAct] at hv
        | await e k' =>
          have ho := (hg.edge i hi).await hpc
          cases a with
          | zero => simp [hpc, mapAct] at hv; rw [← hv.1]; exact congrArg (· + 1) ho.2.1
          | succ a => simp [hpc, mapAct] at hv
        | run P =>
          have ho := ((hg.edge i hi).run hpc).1
          cases a with
          | succ a => cases P <;> simp [hpc, mapAct] at hv
          | zero =>
            cases P with
            | recv e k' => simp [hpc, mapAct] at hv; rw [← hv.1]; exact congrArg (· + 1) ho.1
            | _ => simp [hpc, mapAct] at hv
      · cases hv
  · cases p with
    | zero =>
      rw [vs] at hv
      split at hv
      · unfold svcView at hv
        cases hpc : x.pc with
        | idle => cases hr : x.runs <;> simp [hpc, hr, mapAct] at hv
        | top t cur => simp [hpc, mapAct] at hv
        | sendPh ph rest t cur => cases rest <;> simp [hpc, mapAct] at hv
        | collect ph rest t cur =>
          cases rest with
          | nil => simp [hpc, mapAct] at hv
          | cons i rest => simp [hpc, mapAct] at hv; rw [← hv.2] at hk; simp at hk
      · cases hv
    | succ i =>
      rw [vm] at hv
      split at hv
      · rename_i hi
        unfold mdlView at hv
        cases hpc : (m i).pc with
        | idle =>
          cases a with
          | zero =>
            simp only [hpc, mapAct, Act.recv.injEq] at hv
            rw [← hv.2] at hk
            cases v with
            | phase ph => cases ph <;> simp at hk
            | _ => simp at hk
          | succ e =>
            simp only [hpc] at hv
            split at hv
            · rename_i hp
              simp only [mapAct, Act.recv.injEq] at hv
              rw [← hv.2] at hk
              cases v with
              | get => simp at hk; rw [← hk.2.1]; exact congrArg (· + 1) hp.2.1
              | _ => simp at hk
            · cases hv
        | failed => simp [hpc, mapAct] at hv
        | await e k' =>
          cases a with
          | zero => simp only [hpc, mapAct, Act.recv.injEq] at hv; rw [← hv.2] at hk; cases v <;> simp at hk
          | succ a => simp [hpc, mapAct] at hv
        | run P =>
          cases a with
          | succ a => cases P <;> simp [hpc, mapAct] at hv
          | zero =>
            cases P with
            | recv e k' => simp only [hpc, mapAct, Act.recv.injEq] at hv; rw [← hv.2] at hk; cases v <;> simp at hk
            | _ => simp [hpc, mapAct] at hv
      · cases hv

/-- What serving a VarPort needs. -/
theorem Trans.served {x x' : Svc} {m m' : Nat → Mdl S V} {ch ch' : Chans V} {i e : Nat} (h : Trans y x m ch (i + 1, e + 1) x' m' ch') :
    i < y.n ∧ e < y.ne ∧ y.dst e = i ∧ polled (m i).ph = true ∧ (m i).pc = .idle ∧ ch (.req e) ≠ [] := by
  generalize hl : (i + 1, e + 1) = l at h
  cases h <;> simp only [Prod.mk.injEq, Nat.add_right_cancel_iff] at hl <;> obtain ⟨h1, h2⟩ := hl <;> try omega
  all_goals
    subst h1 h2
    exact ⟨by assumption, by assumption, by assumption, by assumption, by assumption, by simp_all⟩

/-- A model that waits takes a command, if it does not serve. -/
theorem Trans.commanded {x x' : Svc} {m m' : Nat → Mdl S V} {ch ch' : Chans V} {i : Nat} (h : Trans y x m ch (i + 1, 0) x' m' ch')
    (hpc : (m i).pc = .idle) : ch (.cmd i) ≠ [] := by
  generalize hl : (i + 1, 0) = l at h
  cases h <;> simp only [Prod.mk.injEq, Nat.add_right_cancel_iff] at hl <;> obtain ⟨h1, h2⟩ := hl <;> try omega
  all_goals (subst h1; simp_all)

theorem put4 {α β : Type} [DecidableEq α] (f : α → β) {a b c d : α} (h1 : a ≠ c) (h2 : a ≠ d) (h3 : b ≠ c) (h4 : b ≠ d) (u v w z : β) :
    put (put (put (put f a u) b v) c w) d z = put (put (put (put f c w) d z) a u) b v := by
  rw [put_comm _ h3, put_comm _ h4, put_comm _ h1, put_comm _ h2]

/-- Serving two VarPorts: either order. -/
theorem serve_serve (hy : Tidy y cs cd W) {x : Svc} {m : Nat → Mdl S V} {ch : Chans V} (hg : Good y cs cd W x m ch) {i e e' : Nat} (hee : e ≠ e')
    {x1 x2 : Svc} {m1 m2 : Nat → Mdl S V} {ch1 ch2 : Chans V} (h1 : Trans y x m ch (i + 1, e + 1) x1 m1 ch1)
    (h2 : Trans y x m ch (i + 1, e' + 1) x2 m2 ch2) :
    ∃ x3 m3 ch3, Trans y x1 m1 ch1 (i + 1, e' + 1) x3 m3 ch3 ∧ Trans y x2 m2 ch2 (i + 1, e + 1) x3 m3 ch3 := by
  have nb : ∀ {e r rs}, e < y.ne → ch (.req e) = r :: rs → (r = .get ∨ ∃ v, r = .set v ∧ W e) := fun he hc =>
    ((hg.edge _ (hy.src_lt _ he)).pending he hc).2.2
  generalize hl : (i + 1, e + 1) = l at h1
  generalize hl' : (i + 1, e' + 1) = l' at h2
  have hrr : Ch.req e ≠ .req e' := by simpa using hee
  have hpp : Ch.rep e ≠ .rep e' := by simpa using hee
  cases h1 with
  | @get i1 e1 rs hi he hd hp hpc hc hr =>
    simp only [Prod.mk.injEq, Nat.add_right_cancel_iff] at hl
    obtain ⟨rfl, rfl⟩ := hl
    cases h2 with
    | @get i2 e2 rs' hi' he' hd' hp' hpc' hc' hr' =>
      simp only [Prod.mk.injEq, Nat.add_right_cancel_iff] at hl'
      obtain ⟨rfl, rfl⟩ := hl'
      refine ⟨x, m, _, Trans.get (rs := rs') hi he' hd' hp hpc ?_ ?_, ?_⟩
      · rw [put_ne _ (by simp), put_ne _ hrr.symm]; exact hc'
      · rw [put_ne _ hpp.symm, put_ne _ (by simp)]; exact hr'
      · have := Trans.get (y := y) (x := x) (m := m)
          (ch := put (put ch (.req e') rs') (.rep e') (ch (.rep e') ++ [.data (y.rd e' (m i).s)])) (rs := rs) hi he hd hp hpc
          (by rw [put_ne _ (by simp), put_ne _ hrr]; exact hc) (by rw [put_ne _ hpp, put_ne _ (by simp)]; exact hr)
        rw [put_ne _ hpp, put_ne _ (by simp)] at this
        rw [put_ne _ hpp.symm, put_ne _ (by simp), put4 _ hrr (by simp) (by simp) hpp]
        exact this
    | @set i2 e2 v rs' hi' he' hd' hp' hpc' hc' =>
      simp only [Prod.mk.injEq, Nat.add_right_cancel_iff] at hl'
      obtain ⟨rfl, rfl⟩ := hl'
      have hw : W e' := by rcases nb he' hc' with h | ⟨v', h, hw⟩ <;> first | exact hw | cases h
      refine ⟨x, _, _, Trans.set (rs := rs') (v := v) hi he' hd' hp hpc ?_, ?_⟩
      · rw [put_ne _ (by simp), put_ne _ hrr.symm]; exact hc'
      · have := Trans.get (y := y) (x := x) (m := put m i ⟨y.wr e' v (m i).s, (m i).ph, .idle⟩)
          (ch := put ch (.req e') rs') (rs := rs) hi he hd (by rw [put_self]; exact hp) (by rw [put_self])
          (by rw [put_ne _ hrr]; exact hc) (by rw [put_ne _ (by simp)]; exact hr)
        rw [put_self, put_ne _ (by simp), hy.alone_read e' e v _ he' he hw hee (hd.trans hd'.symm)] at this
        rw [put_comm _ (show Ch.rep e ≠ .req e' by simp), put_comm _ hrr]
        exact this
    | badReq hi' he' hd' hp' hpc' hc' h1 h2 =>
      rcases nb he' hc' with h | ⟨v', h, hw⟩
      · exact absurd h h1
      · exact absurd h (h2 _)
    | _ => simp at hl'
  | @set i1 e1 v rs hi he hd hp hpc hc =>
    simp only [Prod.mk.injEq, Nat.add_right_cancel_iff] at hl
    obtain ⟨rfl, rfl⟩ := hl
    have hw : W e := by rcases nb he hc with h | ⟨v', h, hw⟩ <;> first | exact hw | cases h
    cases h2 with
    | @get i2 e2 rs' hi' he' hd' hp' hpc' hc' hr' =>
      simp only [Prod.mk.injEq, Nat.add_right_cancel_iff] at hl'
      obtain ⟨rfl, rfl⟩ := hl'
      refine ⟨x, _, _, ?_, Trans.set (rs := rs) (v := v) hi he hd hp hpc ?_⟩
      · have := Trans.get (y := y) (x := x) (m := put m i ⟨y.wr e v (m i).s, (m i).ph, .idle⟩)
          (ch := put ch (.req e) rs) (rs := rs') hi he' hd' (by rw [put_self]; exact hp) (by rw [put_self])
          (by rw [put_ne _ hrr.symm]; exact hc') (by rw [put_ne _ (by simp)]; exact hr')
        rw [put_self, put_ne _ (by simp), hy.alone_read e e' v _ he he' hw hee.symm (hd'.trans hd.symm)] at this
        rw [put_comm _ (show Ch.rep e' ≠ .req e by simp), put_comm _ hrr.symm]
        exact this
      · rw [put_ne _ (by simp), put_ne _ hrr]; exact hc
    | @set i2 e2 v' rs' hi' he' hd' hp' hpc' hc' =>
      simp only [Prod.mk.injEq, Nat.add_right_cancel_iff] at hl'
      obtain ⟨rfl, rfl⟩ := hl'
      have hw' : W e' := by rcases nb he' hc' with h | ⟨v', h, hw⟩ <;> first | exact hw | cases h
      refine ⟨x, _, _, Trans.set (rs := rs') (v := v') hi he' hd' ?_ ?_ ?_, ?_⟩
      · rw [put_self]; exact hp
      · rw [put_self]
      · rw [put_ne _ hrr.symm]; exact hc'
      · have := Trans.set (y := y) (x := x) (m := put m i ⟨y.wr e' v' (m i).s, (m i).ph, .idle⟩) (ch := put ch (.req e') rs') (rs := rs) (v := v)
          hi he hd (by rw [put_self]; exact hp) (by rw [put_self]) (by rw [put_ne _ hrr]; exact hc)
        rw [put_self, put_put] at this ⊢
        rw [put_comm _ hrr, ← hy.alone_write e e' v v' _ he he' hw hw' hee.symm (hd'.trans hd.symm)]
        exact this
    | badReq hi' he' hd' hp' hpc' hc' h1 h2 =>
      rcases nb he' hc' with h | ⟨v', h, hw⟩
      · exact absurd h h1
      · exact absurd h (h2 _)
    | _ => simp at hl'
  | badReq hi' he' hd' hp' hpc' hc' h1 h2 =>
    rcases nb he' hc' with h | ⟨v', h, hw⟩
    · exact absurd h h1
    · exact absurd h (h2 _)
  | _ => simp at hl

/-- A model does not have the choice between a command and a request. -/
theorem no_choice (hy : Tidy y cs cd W) {x : Svc} {m : Nat → Mdl S V} {ch : Chans V} (hg : Good y cs cd W x m ch) {i e : Nat}
    {x1 x2 : Svc} {m1 m2 : Nat → Mdl S V} {ch1 ch2 : Chans V} (h1 : Trans y x m ch (i + 1, 0) x1 m1 ch1)
    (h2 : Trans y x m ch (i + 1, e + 1) x2 m2 ch2) : False := by
  obtain ⟨hi, he, hd, hp, hpc, hc⟩ := h2.served
  obtain ⟨r, rs, hr⟩ := List.exists_cons_of_ne_nil hc
  obtain ⟨a, b, _⟩ := (hg.edge _ (hy.src_lt e he)).pending he hr
  exact h1.commanded hpc (hg.round.quiet (i := y.src e) (j := i) (hy.src_lt e he) hi a b (isIdle_iff.2 hpc) hp).1

theorem commutes (hy : Tidy y cs cd W) : Commutes (net y) (Inv y cs cd W) where
  keep _ _ _ h hs := h.step hy hs
  swap s l l' a b h hne ha hb := by
    by_cases hl : l.1 = l'.1
    · obtain ⟨x, m, hat, hg⟩ := h
      obtain ⟨p, c⟩ := l
      obtain ⟨p', c'⟩ := l'
      obtain rfl : p = p' := hl
      obtain ⟨x1, m1, hat1, t1⟩ := step_trans hat ha
      obtain ⟨x2, m2, hat2, t2⟩ := step_trans hat hb
      cases p with
      | zero =>
        have z : ∀ {c x' m' ch'}, Trans y x m s.chan (0, c) x' m' ch' → c = 0 := by
          intro c x' m' ch' h
          cases h <;> rfl
        exact absurd (by rw [z t1, z t2]) hne
      | succ i =>
        cases c with
        | zero =>
          cases c' with
          | zero => exact absurd rfl hne
          | succ e' => exact (no_choice hy hg t1 t2).elim
        | succ e =>
          cases c' with
          | zero => exact (no_choice hy hg t2 t1).elim
          | succ e' =>
            obtain ⟨x3, m3, ch3, t3, t4⟩ := serve_serve hy hg (e := e) (e' := e') (fun h => hne (by rw [h])) t1 t2
            refine ⟨mk x3 m3 ch3, ?_, ?_⟩
            · rw [hat1.eq_mk]; exact trans_step t3
            · rw [hat2.eq_mk]; exact trans_step t4
    · exact diamond h.owned hl ha hb

end Verif.RefAccess
