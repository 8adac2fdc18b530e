import Verif.RefAccess.Runs

/-!
# Models that wait for each other
-/

namespace Verif.RefAccess

open Verif.EndToEnd (Phase Flags noFlags nextPhase)

variable {S V : Type} {y : Sys S V} {cs cd : Nat → Nat} {W : Nat → Prop}

/-- A program that does not return before it has read through RefPort `e`. -/
def MustRead (e : Nat) : Prog S V → Prop
  | .ret _ => False
  | .read e' k => e' = e ∨ ∀ v, MustRead e (k v)
  | .write _ _ k => MustRead e k
  | .send _ _ k => MustRead e k
  | .recv _ k => ∀ v, MustRead e (k v)

theorem Prog.Waits.mustRead {e : Nat} (P : Prog S V) : ∀ {pend : Nat → Prop}, P.Waits pend → pend e → MustRead e P := by
  induction P with
  | ret s => intro pend h hp; exact h e hp
  | read e' k ih =>
    intro pend h hp
    by_cases he : e' = e
    · exact .inl he
    · exact .inr fun v => ih v (h v) ⟨hp, fun a => he a.symm⟩
  | write e' v k ih => intro pend h hp; exact ih h (.inl hp)
  | send c v k ih => intro pend h hp; exact ih h hp
  | recv c k ih => intro pend h hp v; exact ih v (h v) hp

/-- A model that has to read through RefPort `e` before it returns. -/
def Held (e : Nat) : Pc S V → Prop
  | .run P => MustRead e P
  | .await e' k => e' = e ∨ ∀ v, MustRead e (k v)
  | .failed => True
  | .idle => False

/-- The models of `C` wait for each other, and the service waits for them. -/
def Locked (y : Sys S V) (C : Nat → Prop) (i0 : Nat) (x : Svc) (m : Nat → Mdl S V) (ch : Chans V) : Prop :=
  (∃ ph rest t c, x.pc = .collect ph rest t c ∧ i0 ∈ rest) ∧ (∀ i, C i → ch (.rsp i) = []) ∧
  ∀ i, C i → ∃ e, e < y.ne ∧ C (y.dst e) ∧ ch (.rep e) = [] ∧ Held e (m i).pc

theorem Locked.step {C : Nat → Prop} {i0 : Nat} (h0 : C i0) {x x' : Svc} {m m' : Nat → Mdl S V} {ch ch' : Chans V} {l : Nat × Nat}
    (h : Locked y C i0 x m ch) (ht : Trans y x m ch l x' m' ch') : Locked y C i0 x' m' ch' := by
  obtain ⟨⟨ph, rest, t, c, hx, hi0⟩, hr, hC⟩ := h
  have nidle : ∀ i, C i → (m i).pc ≠ .idle := by
    intro i hi he
    obtain ⟨e, _, _, _, h⟩ := hC i hi
    rw [he] at h; exact h
  -- a model whose move keeps it from returning
  have mdl : ∀ (i : Nat) (a : Mdl S V) (ch' : Chans V), (∀ j, ch' (.rsp j) = ch (.rsp j)) → (∀ e, e < y.ne → C (y.dst e) → ch (.rep e) = [] → ch' (.rep e) = []) →
      (∀ e, e < y.ne → C (y.dst e) → ch (.rep e) = [] → Held e (m i).pc → Held e a.pc) → Locked y C i0 x (put m i a) ch' := by
    intro i a ch' h1 h2 h3
    refine ⟨⟨ph, rest, t, c, hx, hi0⟩, fun j hj => by rw [h1]; exact hr j hj, fun j hj => ?_⟩
    obtain ⟨e, he, hd, hp, hh⟩ := hC j hj
    refine ⟨e, he, hd, h2 e he hd hp, ?_⟩
    by_cases hji : j = i
    · subst hji; rw [put_self]; exact h3 e he hd hp hh
    · rw [put_ne _ hji]; exact hh
  cases ht with
  | start h1 => rw [hx] at h1; cases h1
  | top h1 => rw [hx] at h1; cases h1
  | tell h1 => rw [hx] at h1; cases h1
  | told h1 => rw [hx] at h1; cases h1
  | @hear ph' i rest' t' cur' r rs h1 h2 =>
    rw [hx] at h1
    cases h1
    have hne : i0 ≠ i := by rintro rfl; rw [hr i0 h0] at h2; cases h2
    refine ⟨⟨ph, rest', t, c, rfl, by simpa [hne] using hi0⟩, fun j hj => ?_, fun j hj => ?_⟩
    · by_cases hji : j = i
      · subst hji; rw [hr j hj] at h2; cases h2
      · rw [put_ne _ (by simpa using hji)]; exact hr j hj
    · obtain ⟨e, he, hd, hp, hh⟩ := hC j hj
      exact ⟨e, he, hd, by rw [put_ne _ (by simp)]; exact hp, hh⟩
  | heard h1 => rw [hx] at h1; cases h1; simp at hi0
  | @host i rs hi hpc hc =>
    refine mdl i _ _ (fun j => by rw [put_ne _ (by simp)]) (fun e _ _ hp => by rw [put_ne _ (by simp)]; exact hp) (fun e _ _ _ hh => ?_)
    rw [hpc] at hh; exact hh.elim
  | @phase i ph rs hi hpc hc =>
    refine mdl i _ _ (fun j => by rw [put_ne _ (by simp)]) (fun e _ _ hp => by rw [put_ne _ (by simp)]; exact hp) (fun e _ _ _ hh => ?_)
    rw [hpc] at hh; exact hh.elim
  | @badCmd i r rs hi hpc hc =>
    refine mdl i _ _ (fun j => by rw [put_ne _ (by simp)]) (fun e _ _ hp => by rw [put_ne _ (by simp)]; exact hp) (fun e _ _ _ hh => ?_)
    rw [hpc] at hh; exact hh.elim
  | @get i e rs hi he hd hp hpc hc hroom =>
    refine ⟨⟨ph, rest, t, c, hx, hi0⟩, fun j hj => ?_, fun j hj => ?_⟩
    · rw [put_ne _ (by simp), put_ne _ (by simp)]; exact hr j hj
    · obtain ⟨e', he', hd', hp', hh⟩ := hC j hj
      refine ⟨e', he', hd', ?_, hh⟩
      have : e' ≠ e := by
        rintro rfl
        rw [hd] at hd'
        exact nidle i hd' hpc
      rw [put_ne _ (by simpa using this), put_ne _ (by simp)]
      exact hp'
  | @set i e v rs hi he hd hp hpc hc =>
    refine mdl i _ _ (fun j => by rw [put_ne _ (by simp)]) (fun e _ _ hp => by rw [put_ne _ (by simp)]; exact hp) (fun e _ _ _ hh => ?_)
    rw [hpc] at hh; exact hh.elim
  | @badReq i e r rs hi he hd hp hpc hc =>
    refine mdl i _ _ (fun j => by rw [put_ne _ (by simp)]) (fun e _ _ hp => by rw [put_ne _ (by simp)]; exact hp) (fun e _ _ _ hh => ?_)
    rw [hpc] at hh; exact hh.elim
  | @ret i s hi hpc hc =>
    have hni : ¬ C i := by
      intro h
      obtain ⟨e, _, _, _, hh⟩ := hC i h
      rw [hpc] at hh; exact hh
    refine ⟨⟨ph, rest, t, c, hx, hi0⟩, fun j hj => ?_, fun j hj => ?_⟩
    · rw [put_ne _ (by simp; rintro rfl; exact hni hj)]; exact hr j hj
    · obtain ⟨e', he', hd', hp', hh⟩ := hC j hj
      refine ⟨e', he', hd', by rw [put_ne _ (by simp)]; exact hp', ?_⟩
      rw [put_ne _ (by rintro rfl; exact hni hj)]; exact hh
  | @read i e k hi hpc hc =>
    refine mdl i _ _ (fun j => by rw [put_ne _ (by simp)]) (fun e _ _ hp => by rw [put_ne _ (by simp)]; exact hp) (fun e _ _ _ hh => ?_)
    rw [hpc] at hh; exact hh
  | @write i e v k hi hpc hc =>
    refine mdl i _ _ (fun j => by rw [put_ne _ (by simp)]) (fun e _ _ hp => by rw [put_ne _ (by simp)]; exact hp) (fun e _ _ _ hh => ?_)
    rw [hpc] at hh; exact hh
  | @send i c v k hi hpc hc =>
    refine mdl i _ _ (fun j => by rw [put_ne _ (by simp)]) (fun e _ _ hp => by rw [put_ne _ (by simp)]; exact hp) (fun e _ _ _ hh => ?_)
    rw [hpc] at hh; exact hh
  | @recv i c v k rs hi hpc hc =>
    refine mdl i _ _ (fun j => by rw [put_ne _ (by simp)]) (fun e _ _ hp => by rw [put_ne _ (by simp)]; exact hp) (fun e _ _ _ hh => ?_)
    rw [hpc] at hh; exact hh v
  | @badRecv i c k r rs hi hpc hc hne =>
    exact mdl i _ _ (fun j => by rw [put_ne _ (by simp)]) (fun e _ _ hp => by rw [put_ne _ (by simp)]; exact hp) (fun e _ _ _ _ => trivial)
  | @reply i e v k rs hi hpc hc =>
    refine mdl i _ _ (fun j => by rw [put_ne _ (by simp)]) (fun e' _ _ hp => ?_) (fun e' _ _ hp hh => ?_)
    · by_cases he : e' = e
      · subst he; rw [hp] at hc; cases hc
      · rw [put_ne _ (by simpa using he)]; exact hp
    · rw [hpc] at hh
      rcases hh with rfl | hh
      · rw [hp] at hc; cases hc
      · exact hh v
  | @badReply i e k r rs hi hpc hc hne =>
    refine mdl i _ _ (fun j => by rw [put_ne _ (by simp)]) (fun e' _ _ hp => ?_) (fun e' _ _ _ _ => trivial)
    by_cases he : e' = e
    · subst he; rw [hp] at hc; cases hc
    · rw [put_ne _ (by simpa using he)]; exact hp

/-- It never ends. -/
theorem Locked.steps {C : Nat → Prop} {i0 : Nat} (h0 : C i0) {k : Nat} {s t : St Ch (Proc S V) (Msg V)} (h : Steps (net y) k s t) :
    ∀ {x m}, At s x m → Locked y C i0 x m s.chan → ∃ x m, At t x m ∧ Locked y C i0 x m t.chan := by
  induction h with
  | refl s => intro x m ha hl; exact ⟨x, m, ha, hl⟩
  | cons hs _ ih =>
    intro x m ha hl
    obtain ⟨x', m', ha', ht⟩ := step_trans ha hs
    exact ih ha' (hl.step h0 ht)

/-- What is left of methods still waits for what is written. -/
def Kept (w : World S V) : Prop := ∀ i P, w.todo i = some P → ∃ pend, P.Waits pend

theorem goOn_kept {i : Nat} (P : Prog S V) : ∀ (w : World S V) {pend : Nat → Prop}, P.Waits pend → Kept w → Kept (goOn y i P w) := by
  have blocked : ∀ (w : World S V) (P : Prog S V) {pend : Nat → Prop}, P.Waits pend → Kept w → Kept ⟨w.σ, put w.todo i (some P), w.d⟩ := by
    intro w P pend hP hw j Q hj
    by_cases e : j = i
    · subst e
      simp only [put_self, Option.some.injEq] at hj
      subst hj
      exact ⟨pend, hP⟩
    · simp only [put_ne _ e] at hj
      exact hw j Q hj
  induction P with
  | ret s =>
    intro w pend hP hw j Q hj
    unfold goOn at hj
    by_cases e : j = i
    · subst e; simp at hj
    · simp only [put_ne _ e] at hj; exact hw j Q hj
  | read e k ih =>
    intro w pend hP hw
    unfold goOn
    cases hd : w.todo (y.dst e) with
    | some P => exact blocked w _ hP hw
    | none => exact ih _ w (hP _) hw
  | write e v k ih =>
    intro w pend hP hw
    unfold goOn
    cases hd : w.todo (y.dst e) with
    | some P => exact blocked w _ hP hw
    | none => exact ih _ hP hw
  | send c v k ih =>
    intro w pend hP hw
    unfold goOn
    split
    · exact ih _ hP hw
    · exact blocked w _ hP hw
  | recv c k ih =>
    intro w pend hP hw
    unfold goOn
    cases hc : w.d c with
    | nil => exact blocked w _ hP hw
    | cons v r => exact ih v _ (hP v) hw

theorem turns_kept (l : List Nat) : ∀ (w : World S V), Kept w → Kept (l.foldl (turn y) w) := by
  induction l with
  | nil => intro w h; exact h
  | cons i l ih =>
    intro w h
    refine ih _ ?_
    unfold turn
    cases hi : w.todo i with
    | none => exact h
    | some P =>
      obtain ⟨pend, hp⟩ := h i P hi
      exact goOn_kept P w hp h

theorem called_kept (hy : Tidy y cs cd W) (ph : Phase) (r : Vals S V) : Kept (called y ph r) := by
  intro i P h
  rw [called_eq] at h
  dsimp only at h
  split at h
  · cases h; exact ⟨_, hy.waits' i ph _⟩
  · cases h

theorem locked_of_circle {C : Nat → Prop} {i0 : Nat} (h0 : C i0) {ph : Phase} {t c : Nat} {f : Flags} {rs : List Nat}
    {w : World S V} (hs : Sane y cs cd W ph w) (hk : Kept w) (hC : Circle y C w) :
    Locked y C i0 ⟨.collect ph (List.range y.n) t c, f, rs⟩ (mOf y ph w) (chOf w.d (rspOf y ph w)) := by
  refine ⟨⟨ph, _, t, c, rfl, ?_⟩, fun i hi => ?_, fun i hi => ?_⟩
  · obtain ⟨e, _, ⟨k, h⟩ | ⟨v, k, h⟩⟩ := hC i0 h0
    · simpa using (hs _ _ h).1
    · simpa using (hs _ _ h).1
  · obtain ⟨e, _, ⟨k, h⟩ | ⟨v, k, h⟩⟩ := hC i hi
    · exact rspOf_running h
    · exact rspOf_running h
  · obtain ⟨e, hd, ⟨k, h⟩ | ⟨v, k, h⟩⟩ := hC i hi
    · refine ⟨e, (hs _ _ h).2.1.1, hd, rfl, ?_⟩
      simp only [mOf, h, pcOf]
      exact .inl rfl
    · refine ⟨e, (hs _ _ h).2.1.1, hd, rfl, ?_⟩
      obtain ⟨pend, hp⟩ := hk _ _ h
      simp only [mOf, h, pcOf]
      exact Prog.Waits.mustRead k hp (.inr rfl)

theorem Trans.over {f : Flags} {x' : Svc} {m m' : Nat → Mdl S V} {ch ch' : Chans V} {l : Nat × Nat}
    (h : Trans y ⟨.idle, f, []⟩ m ch l x' m' ch') : x' = ⟨.idle, f, []⟩ := by
  cases h with
  | start _ h2 => cases h2
  | top h1 => cases h1
  | tell h1 => cases h1
  | told h1 => cases h1
  | hear h1 => cases h1
  | heard h1 => cases h1
  | _ => rfl

/-- A state from which the runs do not finish, on the way of all. -/
theorem never_finished (hy : Tidy y cs cd W) {C : Nat → Prop} {i0 : Nat} (h0 : C i0) {ph : Phase} {t c : Nat} {f : Flags} {rs : List Nat}
    {w : World S V} (hs : Sane y cs cd W ph w) (hk : Kept w) (hC : Circle y C w) {s : St Ch (Proc S V) (Msg V)} (hI : Inv y cs cd W s)
    (hr : Reach y s (during y ⟨.collect ph (List.range y.n) t c, f, rs⟩ ph w)) (ls : List (Nat × Nat)) : ¬ Finished (exec (net y) s ls) := by
  rintro ⟨f', hf⟩
  obtain ⟨k, hr⟩ := hr
  obtain ⟨k1, k2, z, h1, h2⟩ := (exec_steps (net y) s ls).join (commutes hy) hI hr
  obtain ⟨x, m, ha, hl⟩ := Locked.steps h0 h2 (at_mk _ _ _) (locked_of_circle h0 hs hk hC)
  have fin : ∀ {k : Nat} {a b : St Ch (Proc S V) (Msg V)}, Steps (net y) k a b → Inv y cs cd W a → a.q 0 = .svc ⟨.idle, f', []⟩ → b.q 0 = .svc ⟨.idle, f', []⟩ := by
    intro k a b h
    induction h with
    | refl => intro _ h; exact h
    | cons hs _ ih =>
      intro hI h
      refine ih (hI.step hy hs) ?_
      obtain ⟨xa, ma, hat, _⟩ := hI
      obtain ⟨x', m', hat', ht⟩ := step_trans hat hs
      have e : xa = ⟨.idle, f', []⟩ := by have := hat.1.symm.trans h; simpa using this
      subst e
      rw [hat'.1, ht.over]
  have := fin h1 ((exec_steps (net y) s ls).keep (commutes hy) hI) hf
  rw [ha.1] at this
  obtain ⟨⟨ph', rest, t', c', hx, _⟩, _⟩ := hl
  simp only [Proc.svc.injEq] at this
  rw [this] at hx
  cases hx

end Verif.RefAccess
