import Verif.RefAccess.Commute

/-!
# One schedule that does what the reference does
-/

namespace Verif.RefAccess

open Verif.EndToEnd (Phase Flags noFlags nextPhase)

variable {S V : Type}

/-- Some schedule leads from one state to the other. -/
def Reach (y : Sys S V) (s t : St Ch (Proc S V) (Msg V)) : Prop := ∃ k, Steps (net y) k s t

theorem Reach.refl {y : Sys S V} (s : St Ch (Proc S V) (Msg V)) : Reach y s s := ⟨0, .refl s⟩
theorem Reach.of_eq {y : Sys S V} {s t : St Ch (Proc S V) (Msg V)} (h : s = t) : Reach y s t := h ▸ .refl s
theorem Reach.trans {y : Sys S V} {a b c : St Ch (Proc S V) (Msg V)} (h : Reach y a b) (h' : Reach y b c) : Reach y a c := by
  obtain ⟨k, hk⟩ := h
  obtain ⟨k', hk'⟩ := h'
  exact ⟨_, hk.trans hk'⟩
theorem Reach.one {y : Sys S V} {x x' : Svc} {m m' : Nat → Mdl S V} {ch ch' : Chans V} {l : Nat × Nat} (h : Trans y x m ch l x' m' ch') :
    Reach y (mk x m ch) (mk x' m' ch') := ⟨1, .cons (trans_step h) (.refl _)⟩

def pcOf : Option (Prog S V) → Pc S V
  | none => .idle
  | some P => .run P

/-- The models in a phase, according to the reference. -/
def mOf (y : Sys S V) (ph : Phase) (w : World S V) (i : Nat) : Mdl S V := ⟨w.σ i, if i < y.n then ph else .spk, pcOf (w.todo i)⟩

/-- Responses on the way. -/
def rspOf (y : Sys S V) (ph : Phase) (w : World S V) (i : Nat) : List (Msg V) :=
  match w.todo i with
  | none => if i < y.n then [y.respOf i ph (w.σ i)] else []
  | some _ => []

/-- Channels with data and responses only. -/
def chOf (d : Nat → List V) (rsp : Nat → List (Msg V)) : Chans V
  | .data c => (d c).map .data
  | .rsp i => rsp i
  | _ => []

theorem mOf_put {y : Sys S V} (ph : Phase) (w : World S V) {i : Nat} (hi : i < y.n) (s : S) (t : Option (Prog S V)) (d : Nat → List V) :
    mOf y ph ⟨put w.σ i s, put w.todo i t, d⟩ = put (mOf y ph w) i ⟨s, ph, pcOf t⟩ := by
  funext j
  by_cases h : j = i
  · subst h; simp [mOf, hi]
  · rw [put_ne _ h]; simp only [mOf, put_ne _ h]

theorem chOf_rsp (d : Nat → List V) (rsp : Nat → List (Msg V)) (i : Nat) (l : List (Msg V)) :
    put (chOf d rsp) (.rsp i) l = chOf d (put rsp i l) := by
  funext c
  by_cases h : c = .rsp i
  · subst h; simp [chOf]
  · rw [put_ne _ h]
    cases c with
    | rsp j => simp only [chOf]; rw [put_ne _ (by simpa using h)]
    | _ => rfl

theorem chOf_data (d : Nat → List V) (rsp : Nat → List (Msg V)) (i : Nat) (l : List V) :
    put (chOf d rsp) (.data i) (l.map .data) = chOf (put d i l) rsp := by
  funext c
  by_cases h : c = .data i
  · subst h; simp [chOf]
  · rw [put_ne _ h]
    cases c with
    | data j => simp only [chOf]; rw [put_ne _ (by simpa using h)]
    | _ => rfl

theorem respOf_mgmt (y : Sys S V) (i : Nat) {ph : Phase} (h : mgmt ph = true) (s s' : S) : y.respOf i ph s = y.respOf i ph s' := by
  cases ph <;> simp_all [mgmt, Sys.respOf]

theorem polled_of_mgmt {ph : Phase} (h : mgmt ph = true) : polled ph = true := by
  cases ph <;> simp_all [mgmt, polled]

variable {y : Sys S V} {cs cd : Nat → Nat} {W : Nat → Prop}

/-- The state of the network when the models execute their methods. -/
def during (y : Sys S V) (x : Svc) (ph : Phase) (w : World S V) : St Ch (Proc S V) (Msg V) := mk x (mOf y ph w) (chOf w.d (rspOf y ph w))

theorem rspOf_running {ph : Phase} {w : World S V} {i : Nat} {P : Prog S V} (h : w.todo i = some P) : rspOf y ph w i = [] := by
  unfold rspOf; rw [h]

theorem goOn_reach (hy : Tidy y cs cd W) (x : Svc) (ph : Phase) {i : Nat} (hi : i < y.n) (P : Prog S V) : ∀ (w : World S V),
    (∃ Q, w.todo i = some Q) → P.Own y cs cd W i → (mgmt ph = true ∨ P.NoRef) →
    Reach y (mk x (put (mOf y ph w) i ⟨w.σ i, ph, .run P⟩) (chOf w.d (rspOf y ph w))) (during y x ph (goOn y i P w)) := by
  -- blocked: nothing happens
  have blocked : ∀ (w : World S V) (P : Prog S V), (∃ Q, w.todo i = some Q) →
      Reach y (mk x (put (mOf y ph w) i ⟨w.σ i, ph, .run P⟩) (chOf w.d (rspOf y ph w))) (during y x ph ⟨w.σ, put w.todo i (some P), w.d⟩) := by
    rintro w P ⟨Q, hQ⟩
    refine .of_eq ?_
    unfold during
    have h1 := mOf_put ph w hi (w.σ i) (some P) w.d
    rw [put_eq] at h1
    rw [h1]
    have h2 : rspOf y ph ⟨w.σ, put w.todo i (some P), w.d⟩ = rspOf y ph w := by
      funext j
      by_cases h : j = i
      · subst h; rw [rspOf_running (P := P) (by simp), rspOf_running hQ]
      · unfold rspOf; simp only [put_ne _ h]
    rw [h2]
    rfl
  induction P with
  | ret s =>
    rintro w ⟨Q, hQ⟩ ho hm
    have hr : chOf w.d (rspOf y ph w) (.rsp i) = [] := rspOf_running hQ
    have hpc : (put (mOf y ph w) i ⟨w.σ i, ph, .run (.ret s)⟩ i).pc = .run (.ret s) := by rw [put_self]
    have := Reach.one (Trans.ret (x := x) (ch := chOf w.d (rspOf y ph w)) hi hpc (by rw [hr]; exact hy.room _))
    refine this.trans (.of_eq ?_)
    unfold during goOn
    rw [mOf_put ph w hi, put_put, hr, chOf_rsp, put_self]
    have h2 : put (rspOf y ph w) i ([] ++ [y.respOf i ph s]) = rspOf y ph ⟨put w.σ i s, put w.todo i none, w.d⟩ := by
      funext j
      by_cases h : j = i
      · subst h; simp [rspOf, hi]
      · rw [put_ne _ h]; unfold rspOf; simp only [put_ne _ h]
    rw [h2]
    rfl
  | read e k ih =>
    rintro w ⟨Q, hQ⟩ ⟨o1, o2, o3⟩ hm
    have hm : mgmt ph = true := hm.resolve_right (fun a => a)
    unfold goOn
    cases hd : w.todo (y.dst e) with
    | some P => exact blocked w _ ⟨Q, hQ⟩
    | none =>
      dsimp only
      have hne : y.dst e ≠ i := fun h => by rw [h, hQ] at hd; cases hd
      have hdl := hy.dst_lt e o1
      refine Reach.trans ?_ (ih (y.rd e (w.σ (y.dst e))) w ⟨Q, hQ⟩ (o3 _) (.inl hm))
      generalize hch : chOf w.d (rspOf y ph w) = ch
      have hq : ch (.req e) = [] := by rw [← hch]; rfl
      have hp : ch (.rep e) = [] := by rw [← hch]; rfl
      have s1 := Reach.one (Trans.read (y := y) (x := x) (m := put (mOf y ph w) i ⟨w.σ i, ph, .run (.read e k)⟩) (ch := ch) (e := e) (k := k) hi
        (by rw [put_self]) (by rw [hq]; exact hy.room _))
      rw [put_put, put_self, hq] at s1
      have md : put (mOf y ph w) i ⟨w.σ i, ph, .await e k⟩ (y.dst e) = ⟨w.σ (y.dst e), ph, .idle⟩ := by
        rw [put_ne _ hne]; simp [mOf, hd, pcOf, hdl]
      have s2 := Reach.one (Trans.get (y := y) (x := x) (m := put (mOf y ph w) i ⟨w.σ i, ph, .await e k⟩) (ch := put ch (.req e) ([] ++ [.get])) (rs := [])
        hdl o1 rfl (by rw [md]; exact polled_of_mgmt hm) (by rw [md]) (by rw [put_self]; rfl)
        (by rw [put_ne _ (by simp), hp]; exact hy.room _))
      rw [put_put, put_ne _ (show Ch.rep e ≠ .req e by simp), hp, md] at s2
      have s3 := Reach.one (Trans.reply (y := y) (x := x) (m := put (mOf y ph w) i ⟨w.σ i, ph, .await e k⟩)
        (ch := put (put ch (.req e) []) (.rep e) ([] ++ [.data (y.rd e (w.σ (y.dst e)))])) (v := y.rd e (w.σ (y.dst e))) (rs := []) hi
        (by rw [put_self]) (by rw [put_self]; rfl))
      rw [put_put, put_self, put_put] at s3
      have hback : put (put ch (.req e) []) (.rep e) [] = ch := by
        have h1 : put ch (.req e) [] = ch := by rw [← hq, put_eq]
        rw [h1, ← hp, put_eq]
      rw [hback] at s3
      exact (s1.trans s2).trans s3
  | write e v k ih =>
    rintro w ⟨Q, hQ⟩ ⟨o1, o2, o3, o4⟩ hm
    have hm : mgmt ph = true := hm.resolve_right (fun a => a)
    unfold goOn
    cases hd : w.todo (y.dst e) with
    | some P => exact blocked w _ ⟨Q, hQ⟩
    | none =>
      dsimp only
      have hne : y.dst e ≠ i := fun h => by rw [h, hQ] at hd; cases hd
      have hdl := hy.dst_lt e o1
      refine Reach.trans ?_ (ih ⟨put w.σ (y.dst e) (y.wr e v (w.σ (y.dst e))), w.todo, w.d⟩ ⟨Q, hQ⟩ o4 (.inl hm))
      have hrsp : rspOf y ph ⟨put w.σ (y.dst e) (y.wr e v (w.σ (y.dst e))), w.todo, w.d⟩ = rspOf y ph w := by
        funext j
        unfold rspOf
        cases hj : w.todo j with
        | some P => rfl
        | none => simp only [respOf_mgmt y j hm _ (w.σ j)]
      have hmo : mOf y ph ⟨put w.σ (y.dst e) (y.wr e v (w.σ (y.dst e))), w.todo, w.d⟩ =
          put (mOf y ph w) (y.dst e) ⟨y.wr e v (w.σ (y.dst e)), ph, .idle⟩ := by
        have := mOf_put ph w hdl (y.wr e v (w.σ (y.dst e))) none w.d
        rw [← hd, put_eq] at this
        rw [this, hd]; rfl
      rw [hrsp, hmo]
      generalize hch : chOf w.d (rspOf y ph w) = ch
      have hq : ch (.req e) = [] := by rw [← hch]; rfl
      have s1 := Reach.one (Trans.write (y := y) (x := x) (m := put (mOf y ph w) i ⟨w.σ i, ph, .run (.write e v k)⟩) (ch := ch) (e := e) (v := v) (k := k)
        hi (by rw [put_self]) (by rw [hq]; exact hy.room _))
      rw [put_put, put_self, hq] at s1
      have md : put (mOf y ph w) i ⟨w.σ i, ph, .run k⟩ (y.dst e) = ⟨w.σ (y.dst e), ph, .idle⟩ := by
        rw [put_ne _ hne]; simp [mOf, hd, pcOf, hdl]
      have s2 := Reach.one (Trans.set (y := y) (x := x) (m := put (mOf y ph w) i ⟨w.σ i, ph, .run k⟩) (ch := put ch (.req e) ([] ++ [.set v])) (v := v) (rs := [])
        hdl o1 rfl (by rw [md]; exact polled_of_mgmt hm) (by rw [md]) (by rw [put_self]; rfl))
      rw [put_put, md] at s2
      have hback : put ch (.req e) [] = ch := by rw [← hq, put_eq]
      rw [hback, put_comm _ hne.symm] at s2
      refine (s1.trans s2).trans (.of_eq ?_)
      congr 1
      dsimp only
      rw [put_ne _ hne.symm]
  | send c v k ih =>
    rintro w ⟨Q, hQ⟩ ⟨o1, o2⟩ hm
    unfold goOn
    by_cases hc : (w.d c).length < y.cap (.data c)
    · rw [if_pos hc]
      refine Reach.trans ?_ (ih ⟨w.σ, w.todo, put w.d c (w.d c ++ [v])⟩ ⟨Q, hQ⟩ o2 hm)
      have s1 := Reach.one (Trans.send (y := y) (x := x) (m := put (mOf y ph w) i ⟨w.σ i, ph, .run (.send c v k)⟩) (ch := chOf w.d (rspOf y ph w))
        (c := c) (v := v) (k := k) hi (by rw [put_self]) (by simpa [chOf] using hc))
      rw [put_put, put_self] at s1
      have : chOf w.d (rspOf y ph w) (.data c) ++ [.data v] = (w.d c ++ [v]).map Msg.data := by simp [chOf]
      rw [this, chOf_data] at s1
      exact s1
    · rw [if_neg hc]; exact blocked w _ ⟨Q, hQ⟩
  | recv c k ih =>
    rintro w ⟨Q, hQ⟩ ⟨o1, o2⟩ hm
    unfold goOn
    cases hc : w.d c with
    | nil => exact blocked w _ ⟨Q, hQ⟩
    | cons v r =>
      dsimp only
      refine Reach.trans ?_ (ih v ⟨w.σ, w.todo, put w.d c r⟩ ⟨Q, hQ⟩ (o2 v) (hm.imp_right fun a => a v))
      have s1 := Reach.one (Trans.recv (y := y) (x := x) (m := put (mOf y ph w) i ⟨w.σ i, ph, .run (.recv c k)⟩) (ch := chOf w.d (rspOf y ph w))
        (c := c) (v := v) (k := k) (rs := r.map .data) hi (by rw [put_self]) (by simp [chOf, hc]))
      rw [put_put, put_self, chOf_data] at s1
      exact s1

/-- The methods being executed are those of the models, or what is left of them. -/
def Sane (y : Sys S V) (cs cd : Nat → Nat) (W : Nat → Prop) (ph : Phase) (w : World S V) : Prop :=
  ∀ i P, w.todo i = some P → i < y.n ∧ P.Own y cs cd W i ∧ (mgmt ph = true ∨ P.NoRef)

theorem goOn_sane {ph : Phase} {i : Nat} (hi : i < y.n) (P : Prog S V) : ∀ (w : World S V), P.Own y cs cd W i → (mgmt ph = true ∨ P.NoRef) →
    (∀ j Q, j ≠ i → w.todo j = some Q → j < y.n ∧ Q.Own y cs cd W j ∧ (mgmt ph = true ∨ Q.NoRef)) → Sane y cs cd W ph (goOn y i P w) := by
  have blocked : ∀ (w : World S V) (P : Prog S V), P.Own y cs cd W i → (mgmt ph = true ∨ P.NoRef) →
    (∀ j Q, j ≠ i → w.todo j = some Q → j < y.n ∧ Q.Own y cs cd W j ∧ (mgmt ph = true ∨ Q.NoRef)) →
      Sane y cs cd W ph ⟨w.σ, put w.todo i (some P), w.d⟩ := by
    intro w P h1 h2 h j Q hj
    by_cases e : j = i
    · subst e
      simp only [put_self, Option.some.injEq] at hj
      subst hj
      exact ⟨hi, h1, h2⟩
    · simp only [put_ne _ e] at hj
      exact h j Q e hj
  induction P with
  | ret s =>
    intro w h1 h2 h j Q hj
    unfold goOn at hj
    by_cases e : j = i
    · subst e; simp at hj
    · simp only [put_ne _ e] at hj; exact h j Q e hj
  | read e k ih =>
    intro w h1 h2 h
    unfold goOn
    cases hd : w.todo (y.dst e) with
    | some P => exact blocked w _ h1 h2 h
    | none => exact ih _ w (h1.2.2 _) (.inl (h2.resolve_right fun a => a)) h
  | write e v k ih =>
    intro w h1 h2 h
    unfold goOn
    cases hd : w.todo (y.dst e) with
    | some P => exact blocked w _ h1 h2 h
    | none => exact ih _ h1.2.2.2 (.inl (h2.resolve_right fun a => a)) h
  | send c v k ih =>
    intro w h1 h2 h
    unfold goOn
    split
    · exact ih _ h1.2 h2 h
    · exact blocked w _ h1 h2 h
  | recv c k ih =>
    intro w h1 h2 h
    unfold goOn
    cases hc : w.d c with
    | nil => exact blocked w _ h1 h2 h
    | cons v r => exact ih v _ (h1.2 v) (h2.imp_right fun a => a v) h

/-- A turn. -/
theorem turn_reach (hy : Tidy y cs cd W) (x : Svc) (ph : Phase) (w : World S V) (hs : Sane y cs cd W ph w) (i : Nat) :
    Reach y (during y x ph w) (during y x ph (turn y w i)) ∧ Sane y cs cd W ph (turn y w i) := by
  unfold turn
  cases hi : w.todo i with
  | none => exact ⟨.refl _, hs⟩
  | some P =>
    obtain ⟨h1, h2, h3⟩ := hs i P hi
    refine ⟨?_, goOn_sane h1 P w h2 h3 (fun j Q _ hj => hs j Q hj)⟩
    have := goOn_reach hy x ph h1 P w ⟨P, hi⟩ h2 h3
    refine Reach.trans (.of_eq ?_) this
    unfold during
    congr 1
    have h : mOf y ph w i = ⟨w.σ i, ph, .run P⟩ := by simp [mOf, hi, pcOf, h1]
    rw [← h, put_eq]

theorem turns_reach (hy : Tidy y cs cd W) (x : Svc) (ph : Phase) (l : List Nat) : ∀ (w : World S V), Sane y cs cd W ph w →
    Reach y (during y x ph w) (during y x ph (l.foldl (turn y) w)) := by
  induction l with
  | nil => intro w _; exact .refl _
  | cons i l ih =>
    intro w hs
    obtain ⟨h1, h2⟩ := turn_reach hy x ph w hs i
    exact h1.trans (ih _ h2)

end Verif.RefAccess
