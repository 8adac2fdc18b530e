import Verif.RefAccess.Good

/-!
# The invariant is kept
-/

namespace Verif.RefAccess

open Verif.EndToEnd (Phase Flags noFlags nextPhase)

variable {S V : Type}

theorem Between.cmd {z : Stat V} (h : Between z) {r : Msg V} (hr : r ∈ z.cmd) : ∃ ph, r = .phase ph := ⟨_, h.2.2 r hr⟩

theorem During.cmd {p : Phase} {z : Stat V} (h : During p z) {r : Msg V} (hr : r ∈ z.cmd) : ∃ ph, r = .phase ph := by
  rcases h with ⟨hs, _, _, a, b, _⟩ | ⟨_, _, a, _⟩ | ⟨_, _, a, _⟩ | ⟨_, _, _, a⟩
  · rw [a] at hr
    rcases List.mem_append.1 hr with h | h
    · exact ⟨_, b r h⟩
    · exact ⟨p, by simpa using h⟩
  · rw [a] at hr; simp at hr
  · rw [a] at hr; simp at hr
  · exact ⟨_, a r hr⟩

/-- Commands are phases. -/
theorem RoundOK.cmd {y : Sys S V} {x : Svc} {z : Nat → Stat V} (h : RoundOK y x z) {i : Nat} (hi : i < y.n) {r : Msg V} (hr : r ∈ (z i).cmd) :
    ∃ ph, r = .phase ph := by
  unfold RoundOK at h
  cases hpc : x.pc with
  | idle => rw [hpc] at h; exact (h.2 i hi).cmd hr
  | top t cur =>
    rw [hpc] at h
    rcases h with h | ⟨lp, h1, h2⟩
    · exact (h.2 i hi).cmd hr
    · rw [(h2 i hi).2.2.1] at hr; simp at hr
  | sendPh ph rest t cur =>
    rw [hpc] at h
    obtain ⟨k, h1, h2, h3, h4, h5⟩ := h
    rcases Nat.lt_or_ge i k with h' | h'
    · exact (h4 i h').cmd hr
    · exact ⟨_, (h5 i h' hi).2.2.1 r hr⟩
  | collect ph rest t cur =>
    rw [hpc] at h
    obtain ⟨k, h1, h2, h3, h4, h5⟩ := h
    rcases Nat.lt_or_ge i k with h' | h'
    · rw [(h4 i h').2.2.1] at hr; simp at hr
    · exact (h5 i h' hi).cmd hr

theorem body_fits {y : Sys S V} {cs cd : Nat → Nat} {W : Nat → Prop} (hy : Tidy y cs cd W) (i : Nat) (ph : Phase) (s : S) :
    mgmt ph = true ∨ (y.body i ph s).NoRef := by
  cases ph with
  | spk => exact .inr (hy.noRef_spk i s)
  | pre => exact .inl rfl
  | lrn =>
    right
    unfold Sys.body
    dsimp only
    split
    · exact hy.noRef_lrn i s
    · trivial
  | post => exact .inl rfl
  | host => exact .inr trivial

theorem stat_put_ne {m : Nat → Mdl S V} {ch ch' : Chans V} {i j : Nat} {a : Mdl S V} (h : j ≠ i) (h1 : ch' (.cmd j) = ch (.cmd j))
    (h2 : ch' (.rsp j) = ch (.rsp j)) : stat (put m i a) ch' j = stat m ch j := by
  unfold stat
  rw [put_ne _ h, h1, h2]

/-- Model `i` changed its status by a `Move`, nobody else did. -/
theorem round_put {y : Sys S V} {x : Svc} {m : Nat → Mdl S V} {ch ch' : Chans V} {i : Nat} {a : Mdl S V} (h : RoundOK y x (stat m ch))
    (h1 : ∀ j, j ≠ i → ch' (.cmd j) = ch (.cmd j)) (h2 : ∀ j, j ≠ i → ch' (.rsp j) = ch (.rsp j))
    (hm : Move (stat m ch i) ⟨isIdle a.pc, a.ph, ch' (.cmd i), ch' (.rsp i)⟩) : RoundOK y x (stat (put m i a) ch') := by
  refine h.move (fun j => ?_)
  by_cases e : j = i
  · subst e
    have : stat (put m j a) ch' j = ⟨isIdle a.pc, a.ph, ch' (.cmd j), ch' (.rsp j)⟩ := by unfold stat; rw [put_self]
    rw [this]; exact hm
  · rw [stat_put_ne e (h1 j e) (h2 j e)]; exact .stay _

/-- The edges of the other models. -/
theorem edge_put {y : Sys S V} {cs cd : Nat → Nat} {W : Nat → Prop} {m : Nat → Mdl S V} {ch ch' : Chans V} {i : Nat} {a : Mdl S V}
    (h : ∀ j, j < y.n → EdgeOK y cs cd W ch j (m j))
    (hc : ∀ e, y.src e ≠ i → ch' (.req e) = ch (.req e) ∧ ch' (.rep e) = ch (.rep e)) (ha : EdgeOK y cs cd W ch' i a) :
    ∀ j, j < y.n → EdgeOK y cs cd W ch' j (put m i a j) := by
  intro j hj
  by_cases e : j = i
  · subst e; rw [put_self]; exact ha
  · rw [put_ne _ e]; exact (h j hj).congr (fun e' he' => hc e' (by rw [he']; exact e))

variable {y : Sys S V} {cs cd : Nat → Nat} {W : Nat → Prop} {x : Svc} {m : Nat → Mdl S V} {ch : Chans V}

theorem EdgeOK.idle {i : Nat} {z : Mdl S V} (h : EdgeOK y cs cd W ch i z) (hpc : z.pc = .idle) {e : Nat} (he : e < y.ne) (hs : y.src e = i) :
    ch (.req e) = [] ∧ ch (.rep e) = [] := by
  unfold EdgeOK at h; rw [hpc] at h; exact h e he hs

theorem EdgeOK.run {i : Nat} {z : Mdl S V} {P : Prog S V} (h : EdgeOK y cs cd W ch i z) (hpc : z.pc = .run P) :
    P.Own y cs cd W i ∧ (mgmt z.ph = true ∨ P.NoRef) ∧ ∃ pend : Nat → Prop, P.Waits pend ∧
      ∀ e, e < y.ne → y.src e = i → Writing W ch pend z.ph e := by
  unfold EdgeOK at h; rw [hpc] at h; exact h

theorem EdgeOK.await {i : Nat} {z : Mdl S V} {e : Nat} {k : V → Prog S V} (h : EdgeOK y cs cd W ch i z) (hpc : z.pc = .await e k) :
    e < y.ne ∧ y.src e = i ∧ mgmt z.ph = true ∧ (∀ v, (k v).Own y cs cd W i) ∧ (∃ pend : Nat → Prop, (∀ v, (k v).Waits pend) ∧
      ∀ e', e' < y.ne → y.src e' = i → e' ≠ e → Writing W ch pend z.ph e') ∧
      ((∃ ws, ch (.req e) = ws ++ [.get] ∧ (∀ r ∈ ws, ∃ v, r = .set v) ∧ (ws ≠ [] → W e) ∧ ch (.rep e) = []) ∨
        (ch (.req e) = [] ∧ ∃ v, ch (.rep e) = [.data v])) := by
  unfold EdgeOK at h; rw [hpc] at h; exact h

/-- A VarPort answers the `read` at the head of the queue. -/
theorem edge_get {e : Nat} (he : e < y.ne) {z : Mdl S V} (h : EdgeOK y cs cd W ch (y.src e) z) {rs : List (Msg V)} (hc : ch (.req e) = .get :: rs)
    (v : V) : EdgeOK y cs cd W (put (put ch (.req e) rs) (.rep e) (ch (.rep e) ++ [.data v])) (y.src e) z := by
  cases hpc : z.pc with
  | idle => rw [(h.idle hpc he rfl).1] at hc; cases hc
  | failed => unfold EdgeOK at h; rw [hpc] at h; exact h.elim
  | run P =>
    obtain ⟨_, _, pend, _, h4⟩ := h.run hpc
    obtain ⟨_, h5, _⟩ := h4 e he rfl
    obtain ⟨v, hv⟩ := h5 .get (by simp [hc])
    cases hv
  | await e0 k =>
    obtain ⟨h1, h2, h3, h4, ⟨pend, h5, h6⟩, h7⟩ := h.await hpc
    by_cases ee : e = e0
    · subst ee
      unfold EdgeOK
      rw [hpc]
      refine ⟨h1, h2, h3, h4, ⟨pend, h5, fun e' a b c => ?_⟩, ?_⟩
      · exact (h6 e' a b c).congr (by rw [put_ne _ (by simp), put_ne _ (by simpa using c)])
          (by rw [put_ne _ (by simpa using c), put_ne _ (by simp)])
      · rcases h7 with ⟨ws, a, b, c, d⟩ | ⟨a, _⟩
        · cases ws with
          | nil =>
            rw [hc] at a
            simp at a
            right
            refine ⟨?_, v, ?_⟩
            · rw [put_ne _ (by simp), put_self]; exact a
            · rw [put_self, d]; rfl
          | cons w ws =>
            rw [hc] at a
            simp only [List.cons_append, List.cons.injEq] at a
            obtain ⟨v, hv⟩ := b w (by simp)
            rw [← a.1] at hv; cases hv
        · rw [hc] at a; cases a
    · obtain ⟨_, h8, _⟩ := h6 e he rfl ee
      obtain ⟨v, hv⟩ := h8 .get (by simp [hc])
      cases hv

theorem Writing.pop {pend : Nat → Prop} {ph : Phase} {e : Nat} (h : Writing W ch pend ph e) {r : Msg V} {rs : List (Msg V)}
    (hc : ch (.req e) = r :: rs) : Writing W (put ch (.req e) rs) pend ph e := by
  obtain ⟨h1, h2, h3⟩ := h
  refine ⟨by rw [put_ne _ (by simp)]; exact h1, fun r' hr' => ?_, fun _ => h3 (by simp [hc])⟩
  rw [put_self] at hr'
  exact h2 r' (by rw [hc]; exact List.mem_cons_of_mem _ hr')

/-- A VarPort takes the `write` at the head of the queue. -/
theorem edge_set {e : Nat} (he : e < y.ne) {z : Mdl S V} (h : EdgeOK y cs cd W ch (y.src e) z) {rs : List (Msg V)} {v : V}
    (hc : ch (.req e) = .set v :: rs) : EdgeOK y cs cd W (put ch (.req e) rs) (y.src e) z := by
  have other : ∀ {pend ph e'}, e' ≠ e → Writing W ch pend ph e' → Writing W (put ch (.req e) rs) pend ph e' := fun c h =>
    h.congr (by rw [put_ne _ (by simpa using c)]) (by rw [put_ne _ (by simp)])
  cases hpc : z.pc with
  | idle => rw [(h.idle hpc he rfl).1] at hc; cases hc
  | failed => unfold EdgeOK at h; rw [hpc] at h; exact h.elim
  | run P =>
    obtain ⟨h1, h2, pend, h3, h4⟩ := h.run hpc
    unfold EdgeOK
    rw [hpc]
    refine ⟨h1, h2, pend, h3, fun e' a b => ?_⟩
    by_cases ee : e' = e
    · subst ee; exact (h4 e' a b).pop hc
    · exact other ee (h4 e' a b)
  | await e0 k =>
    obtain ⟨h1, h2, h3, h4, ⟨pend, h5, h6⟩, h7⟩ := h.await hpc
    unfold EdgeOK
    rw [hpc]
    refine ⟨h1, h2, h3, h4, ⟨pend, h5, fun e' a b c => ?_⟩, ?_⟩
    · by_cases ee : e' = e
      · subst ee; exact (h6 e' a b c).pop hc
      · exact other ee (h6 e' a b c)
    · by_cases ee : e0 = e
      · subst ee
        rcases h7 with ⟨ws, a, b, c, d⟩ | ⟨a, _⟩
        · cases ws with
          | nil => rw [hc] at a; simp at a
          | cons w ws =>
            rw [hc] at a
            simp only [List.cons_append, List.cons.injEq] at a
            left
            exact ⟨ws, by rw [put_self]; exact a.2, fun r hr => b r (by simp [hr]), fun _ => c (by simp), by rw [put_ne _ (by simp)]; exact d⟩
        · rw [hc] at a; cases a
      · rw [put_ne _ (by simpa using ee), put_ne _ (by simp)]
        exact h7

/-- Every step keeps the invariant. -/
theorem Good.step (hy : Tidy y cs cd W) (h : Good y cs cd W x m ch) {l : Nat × Nat} {x' : Svc} {m' : Nat → Mdl S V} {ch' : Chans V}
    (ht : Trans y x m ch l x' m' ch') : Good y cs cd W x' m' ch' := by
  have hst : ∀ {i}, (m i).pc = .idle → stat m ch i = ⟨true, (m i).ph, ch (.cmd i), ch (.rsp i)⟩ := fun h => by simp [stat, h, isIdle]
  have hst' : ∀ {i}, isIdle (m i).pc = false → stat m ch i = ⟨false, (m i).ph, ch (.cmd i), ch (.rsp i)⟩ := fun h => by simp [stat, h]
  have dput : ∀ {c : Ch} {l : List (Msg V)}, (∀ k, c ≠ .data k) → ∀ k, ∀ r ∈ put ch c l (.data k), ∃ v, r = .data v := by
    intro c l hc k r hr
    rw [put_ne _ (Ne.symm (hc k))] at hr
    exact h.data k r hr
  cases ht with
  | start hpc hr =>
    refine ⟨?_, h.edge, h.data⟩
    have := h.round
    unfold RoundOK at this ⊢
    rw [hpc] at this
    exact .inl this
  | top hpc => exact ⟨round_top hpc h.round _ _, h.edge, h.data⟩
  | @tell ph i rest t cur hpc hr =>
    refine ⟨round_tell hpc h.round (fun j hj => ?_) ?_, fun j hj => (h.edge j hj).congr (fun e _ => ⟨put_ne _ (by simp) _, put_ne _ (by simp) _⟩),
      dput (by simp)⟩
    · unfold stat; rw [put_ne _ (by simpa using hj), put_ne _ (by simp)]
    · unfold stat; rw [put_self, put_ne _ (by simp)]
  | told hpc => exact ⟨round_told hpc h.round, h.edge, h.data⟩
  | @hear ph i rest t cur r rs hpc hc =>
    refine ⟨round_hear hpc h.round (fun j hj => ?_) hc ?_, fun j hj => (h.edge j hj).congr (fun e _ => ⟨put_ne _ (by simp) _, put_ne _ (by simp) _⟩),
      dput (by simp)⟩
    · unfold stat; rw [put_ne _ (by simp), put_ne _ (by simpa using hj)]
    · unfold stat; rw [put_self, put_ne _ (by simp)]
  | heard hpc => exact ⟨round_heard hy.some_model hpc h.round, h.edge, h.data⟩
  | @host i rs hi hpc hc =>
    refine ⟨round_put h.round (fun j hj => put_ne _ (by simpa using hj) _) (fun j _ => put_ne _ (by simp) _) ?_,
      edge_put h.edge (fun e _ => ⟨put_ne _ (by simp) _, put_ne _ (by simp) _⟩) ?_, dput (by simp)⟩
    · rw [hst hpc, hc, put_self, put_ne _ (by simp)]; exact .host
    · intro e he hs
      rw [put_ne _ (by simp), put_ne _ (by simp)]
      exact (h.edge i hi).idle hpc he hs
  | @phase i ph rs hi hpc hc hne =>
    refine ⟨round_put h.round (fun j hj => put_ne _ (by simpa using hj) _) (fun j _ => put_ne _ (by simp) _) ?_,
      edge_put h.edge (fun e _ => ⟨put_ne _ (by simp) _, put_ne _ (by simp) _⟩) ?_, dput (by simp)⟩
    · rw [hst hpc, hc, put_self, put_ne _ (by simp)]; exact .phase hne
    · refine ⟨hy.own' i ph _, body_fits hy i ph _, fun _ => False, hy.waits' i ph _, fun e he hs => ?_⟩
      obtain ⟨a, b⟩ := (h.edge i hi).idle hpc he hs
      refine Writing.congr (ch := ch) ⟨b, ?_, ?_⟩ (put_ne _ (by simp) _) (put_ne _ (by simp) _)
      · rw [a]; intro r hr; simp at hr
      · intro hh; exact absurd a hh
  | @badCmd i r rs hi hpc hc hne =>
    obtain ⟨ph, hph⟩ := h.round.cmd hi (r := r) (show r ∈ ch (.cmd i) by rw [hc]; simp)
    exact absurd hph (hne ph)
  | @get i e rs hi he hd hp hpc hc hr =>
    refine ⟨?_, fun j hj => ?_, fun k r hr => ?_⟩
    · have : stat m (put (put ch (.req e) rs) (.rep e) (ch (.rep e) ++ [.data (y.rd e (m i).s)])) = stat m ch := by
        funext j; unfold stat
        rw [put_ne _ (by simp), put_ne _ (by simp), put_ne _ (by simp), put_ne _ (by simp)]
      rw [this]; exact h.round
    · by_cases ee : j = y.src e
      · subst ee; exact edge_get he (h.edge _ hj) hc _
      · refine (h.edge j hj).congr (fun e' hs => ?_)
        have : e' ≠ e := by rintro rfl; exact ee hs.symm
        exact ⟨by rw [put_ne _ (by simp), put_ne _ (by simpa using this)], by rw [put_ne _ (by simpa using this), put_ne _ (by simp)]⟩
    · rw [put_ne _ (by simp), put_ne _ (by simp)] at hr
      exact h.data k r hr
  | @set i e v rs hi he hd hp hpc hc =>
    have hne : y.src e ≠ i := by
      intro hs
      rw [((h.edge i hi).idle hpc he hs).1] at hc; cases hc
    refine ⟨round_put h.round (fun j hj => put_ne _ (by simp) _) (fun j _ => put_ne _ (by simp) _) ?_, fun j hj => ?_, dput (by simp)⟩
    · rw [hst hpc, put_ne _ (by simp), put_ne _ (by simp)]; exact .stay _
    · by_cases ej : j = i
      · subst ej
        rw [put_self]
        intro e' he' hs
        rw [put_ne _ (by simp; rintro rfl; exact hne hs), put_ne _ (by simp)]
        exact (h.edge j hi).idle hpc he' hs
      · rw [put_ne _ ej]
        by_cases ee : j = y.src e
        · subst ee; exact edge_set he (h.edge _ hj) hc
        · refine (h.edge j hj).congr (fun e' hs => ?_)
          have : e' ≠ e := by rintro rfl; exact ee hs.symm
          exact ⟨put_ne _ (by simpa using this) _, put_ne _ (by simp) _⟩
  | @badReq i e r rs hi he hd hp hpc hc h1 h2 =>
    rcases ((h.edge _ (hy.src_lt e he)).pending he hc).2.2 with rfl | ⟨v, rfl, _⟩
    · exact absurd rfl h1
    · exact absurd rfl (h2 v)
  | @ret i s hi hpc hr =>
    obtain ⟨h1, h2, pend, h3, h4⟩ := (h.edge i hi).run hpc
    refine ⟨round_put h.round (fun j hj => put_ne _ (by simp) _) (fun j hj => put_ne _ (by simpa using hj) _) ?_,
      edge_put h.edge (fun e _ => ⟨put_ne _ (by simp) _, put_ne _ (by simp) _⟩) ?_, dput (by simp)⟩
    · rw [hst' (by rw [hpc]; rfl), put_self, put_ne _ (by simp)]
      exact .ret (respOK _ _ _ _)
    · intro e he hs
      obtain ⟨a, b, c⟩ := h4 e he hs
      rw [put_ne _ (by simp), put_ne _ (by simp)]
      refine ⟨Classical.byContradiction fun hh => h3 e (c hh).1, a⟩
  | @read i e k hi hpc hr =>
    obtain ⟨⟨o1, o2, o3⟩, h2, pend, h3, h4⟩ := (h.edge i hi).run hpc
    have hm : mgmt (m i).ph = true := h2.resolve_right (fun a => a)
    refine ⟨round_put h.round (fun j hj => put_ne _ (by simp) _) (fun j hj => put_ne _ (by simp) _) ?_,
      edge_put h.edge (fun e' hs => ⟨put_ne _ (by simp; rintro rfl; exact hs o2) _, put_ne _ (by simp) _⟩) ?_, dput (by simp)⟩
    · rw [hst' (by rw [hpc]; rfl), put_ne _ (by simp), put_ne _ (by simp)]
      exact .stay _
    · refine ⟨o1, o2, hm, o3, ⟨_, h3, fun e' he' hs hne => ?_⟩, .inl ⟨ch (.req e), ?_, ?_, ?_, ?_⟩⟩
      · obtain ⟨a, b, c⟩ := h4 e' he' hs
        refine Writing.congr (ch := ch) ⟨a, b, fun hh => ⟨⟨(c hh).1, hne⟩, (c hh).2⟩⟩ (put_ne _ (by simpa using hne) _) (put_ne _ (by simp) _)
      · rw [put_self]
      · exact (h4 e o1 o2).2.1
      · intro hh; exact ((h4 e o1 o2).2.2 hh).2.1
      · rw [put_ne _ (by simp)]; exact (h4 e o1 o2).1
  | @write i e v k hi hpc hr =>
    obtain ⟨⟨o1, o2, o3, o4⟩, h2, pend, h3, h4⟩ := (h.edge i hi).run hpc
    have hm : mgmt (m i).ph = true := h2.resolve_right (fun a => a)
    refine ⟨round_put h.round (fun j hj => put_ne _ (by simp) _) (fun j hj => put_ne _ (by simp) _) ?_,
      edge_put h.edge (fun e' hs => ⟨put_ne _ (by simp; rintro rfl; exact hs o2) _, put_ne _ (by simp) _⟩) ?_, dput (by simp)⟩
    · rw [hst' (by rw [hpc]; rfl), put_ne _ (by simp), put_ne _ (by simp)]
      exact .stay _
    · refine ⟨o4, .inl hm, _, h3, fun e' he' hs => ?_⟩
      obtain ⟨a, b, c⟩ := h4 e' he' hs
      by_cases ee : e' = e
      · subst ee
        refine ⟨by rw [put_ne _ (by simp)]; exact a, ?_, fun _ => ⟨.inr rfl, o3, hm⟩⟩
        rw [put_self]
        intro r hr
        rcases List.mem_append.1 hr with hr | hr
        · exact b r hr
        · exact ⟨v, by simpa using hr⟩
      · exact Writing.congr (ch := ch) ⟨a, b, fun hh => ⟨.inl (c hh).1, (c hh).2⟩⟩ (put_ne _ (by simpa using ee) _) (put_ne _ (by simp) _)
  | @send i c v k hi hpc hr =>
    obtain ⟨⟨o1, o2⟩, h2, pend, h3, h4⟩ := (h.edge i hi).run hpc
    refine ⟨round_put h.round (fun j hj => put_ne _ (by simp) _) (fun j hj => put_ne _ (by simp) _) ?_,
      edge_put h.edge (fun e' hs => ⟨put_ne _ (by simp) _, put_ne _ (by simp) _⟩) ?_, fun c' r hr => ?_⟩
    · rw [hst' (by rw [hpc]; rfl), put_ne _ (by simp), put_ne _ (by simp)]
      exact .stay _
    · exact ⟨o2, h2, pend, h3, fun e he hs => (h4 e he hs).congr (put_ne _ (by simp) _) (put_ne _ (by simp) _)⟩
    · by_cases ee : c' = c
      · subst ee
        rw [put_self] at hr
        rcases List.mem_append.1 hr with hr | hr
        · exact h.data c' r hr
        · exact ⟨v, by simpa using hr⟩
      · rw [put_ne _ (by simpa using ee)] at hr; exact h.data c' r hr
  | @recv i c v k rs hi hpc hc =>
    obtain ⟨⟨o1, o2⟩, h2, pend, h3, h4⟩ := (h.edge i hi).run hpc
    refine ⟨round_put h.round (fun j hj => put_ne _ (by simp) _) (fun j hj => put_ne _ (by simp) _) ?_,
      edge_put h.edge (fun e' hs => ⟨put_ne _ (by simp) _, put_ne _ (by simp) _⟩) ?_, fun c' r hr => ?_⟩
    · rw [hst' (by rw [hpc]; rfl), put_ne _ (by simp), put_ne _ (by simp)]
      exact .stay _
    · exact ⟨o2 v, h2.imp_right (fun a => a v), pend, h3 v, fun e he hs => (h4 e he hs).congr (put_ne _ (by simp) _) (put_ne _ (by simp) _)⟩
    · by_cases ee : c' = c
      · subst ee
        rw [put_self] at hr
        exact h.data c' r (by rw [hc]; exact List.mem_cons_of_mem _ hr)
      · rw [put_ne _ (by simpa using ee)] at hr; exact h.data c' r hr
  | @badRecv i c k r rs hi hpc hc hne =>
    obtain ⟨v, hv⟩ := h.data c r (by rw [hc]; simp)
    exact absurd hv (hne v)
  | @reply i e v k rs hi hpc hc =>
    obtain ⟨h1, h2, h3, h4, ⟨pend, h5, h6⟩, h7⟩ := (h.edge i hi).await hpc
    obtain ⟨a, w, b⟩ := h7.resolve_left (by rintro ⟨ws, _, _, _, d⟩; rw [hc] at d; cases d)
    rw [hc] at b
    cases b
    refine ⟨round_put h.round (fun j hj => put_ne _ (by simp) _) (fun j hj => put_ne _ (by simp) _) ?_,
      edge_put h.edge (fun e' hs => ⟨put_ne _ (by simp) _, put_ne _ (by simp; rintro rfl; exact hs h2) _⟩) ?_, dput (by simp)⟩
    · rw [hst' (by rw [hpc]; rfl), put_ne _ (by simp), put_ne _ (by simp)]
      exact .stay _
    · refine ⟨h4 v, .inl h3, pend, h5 v, fun e' he hs => ?_⟩
      by_cases ee : e' = e
      · subst ee
        refine ⟨by rw [put_self], ?_, ?_⟩
        · rw [put_ne _ (by simp), a]; intro r hr; simp at hr
        · rw [put_ne _ (by simp), a]; intro hh; exact absurd rfl hh
      · exact (h6 e' he hs ee).congr (put_ne _ (by simp) _) (put_ne _ (by simpa using ee) _)
  | @badReply i e k r rs hi hpc hc hne =>
    obtain ⟨h1, h2, h3, h4, _, h7⟩ := (h.edge i hi).await hpc
    obtain ⟨a, w, b⟩ := h7.resolve_left (by rintro ⟨ws, _, _, _, d⟩; rw [hc] at d; cases d)
    rw [hc] at b
    cases b
    exact absurd rfl (hne w)

end Verif.RefAccess
