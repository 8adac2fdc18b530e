import Verif.RefAccess.Net

/-!
# Steps of different processes commute; networks that commute have one result
-/

namespace Verif.RefAccess

section puts
variable {α β : Type} [DecidableEq α]

@[simp] theorem put_self (f : α → β) (a : α) (b : β) : put f a b a = b := by simp [put]
theorem put_ne (f : α → β) {a x : α} (h : x ≠ a) (b : β) : put f a b x = f x := by simp [put, h]
theorem put_comm (f : α → β) {a b : α} (h : a ≠ b) (x y : β) : put (put f a x) b y = put (put f b y) a x := by
  funext k; unfold put; split <;> split <;> simp_all
theorem put_put (f : α → β) (a : α) (x y : β) : put (put f a x) a y = put f a y := by
  funext k; unfold put; split <;> simp_all
theorem put_eq (f : α → β) (a : α) : put f a (f a) = f := by
  funext k; unfold put; split <;> simp_all
end puts

variable {C Q M : Type} [DecidableEq C]

/-- The channels after a message was taken. -/
def popped (ch : C → List M) : Option C → C → List M
  | .none => ch
  | .some c => put ch c (ch c).tail

/-- The channels after a message was sent. -/
def pushed (ch : C → List M) : Option (C × M) → C → List M
  | .none => ch
  | .some (c, v) => put ch c (ch c ++ [v])

/-- There is room for the message. -/
def Room (n : Net C Q M) (ch : C → List M) : Option (C × M) → Prop
  | .none => True
  | .some (c, _) => (ch c).length < n.cap c

/-- What an action takes, sends and leads to, if the message to be taken is there. -/
inductive Fires (n : Net C Q M) (s : St C Q M) (l : Nat × Nat) : Option C → Option (C × M) → Q → Prop where
  | go {x o} : n.view l.1 (s.q l.1) l.2 = .go (x, o) → Fires n s l .none o x
  | recv {c k v rest x o} : n.view l.1 (s.q l.1) l.2 = .recv c k → s.chan c = v :: rest → k v = (x, o) → Fires n s l (.some c) o x

theorem finish_some {n : Net C Q M} {s t : St C Q M} {p : Nat} {x : Q} {o : Option (C × M)} :
    finish n s p (x, o) = some t ↔ Room n s.chan o ∧ t = ⟨put s.q p x, pushed s.chan o⟩ := by
  cases o with
  | none => simp [finish, Room, pushed, eq_comm]
  | some cv =>
    obtain ⟨c, v⟩ := cv
    by_cases h : (s.chan c).length < n.cap c <;> simp [finish, Room, pushed, h, eq_comm]

theorem step_some {n : Net C Q M} {s t : St C Q M} {l : Nat × Nat} :
    step n s l = some t ↔ ∃ p o x, Fires n s l p o x ∧ Room n (popped s.chan p) o ∧
      t = ⟨put s.q l.1 x, pushed (popped s.chan p) o⟩ := by
  constructor
  · intro h
    unfold step at h
    cases hv : n.view l.1 (s.q l.1) l.2 with
    | none => rw [hv] at h; cases h
    | go r =>
      rw [hv] at h
      obtain ⟨x, o⟩ := r
      obtain ⟨h1, h2⟩ := finish_some.1 h
      exact ⟨_, _, _, .go hv, h1, h2⟩
    | recv c k =>
      rw [hv] at h
      dsimp only at h
      cases hc : s.chan c with
      | nil => rw [hc] at h; cases h
      | cons v rest =>
        rw [hc] at h
        dsimp only at h
        rcases hk : k v with ⟨x, o⟩
        rw [hk] at h
        obtain ⟨h1, h2⟩ := finish_some.1 h
        refine ⟨_, _, _, .recv hv hc hk, ?_, ?_⟩
        · simpa [popped, hc] using h1
        · simpa [popped, hc] using h2
  · rintro ⟨p, o, x, hf, hr, rfl⟩
    unfold step
    cases hf with
    | go hv => rw [hv]; exact finish_some.2 ⟨hr, rfl⟩
    | @recv c k v rest x o hv hc hk =>
      rw [hv]; dsimp only; rw [hc]; dsimp only; rw [hk]
      exact finish_some.2 ⟨by simpa [popped, hc] using hr, by simp [popped, hc]⟩

theorem length_popped (ch : C → List M) (p : Option C) (c : C) : (popped ch p c).length ≤ (ch c).length := by
  cases p with
  | none => exact Nat.le_refl _
  | some d =>
    by_cases h : c = d
    · subst h; simp [popped]
    · simp [popped, put_ne _ h]

theorem popped_ne (ch : C → List M) {p : Option C} {c : C} (h : p ≠ some c) : popped ch p c = ch c := by
  cases p with
  | none => rfl
  | some d => exact put_ne _ (fun e => h (by rw [e])) _

theorem pushed_ne (ch : C → List M) {o : Option (C × M)} {c : C} (h : ∀ v, o ≠ some (c, v)) : pushed ch o c = ch c := by
  cases o with
  | none => rfl
  | some d => exact put_ne _ (fun e => h d.2 (by rw [e])) _

theorem pushed_cons (ch : C → List M) (o : Option (C × M)) {c : C} {v : M} {rest : List M} (h : ch c = v :: rest) :
    ∃ r, pushed ch o c = v :: r := by
  cases o with
  | none => exact ⟨_, h⟩
  | some d =>
    by_cases e : c = d.1
    · subst e; exact ⟨rest ++ [d.2], by simp [pushed, h]⟩
    · exact ⟨rest, by simp only [pushed, put_ne _ e, h]⟩

theorem popped_popped (ch : C → List M) {p p' : Option C} (h : ∀ c, ¬ (p = some c ∧ p' = some c)) :
    popped (popped ch p) p' = popped (popped ch p') p := by
  cases p with
  | none => rfl
  | some c =>
    cases p' with
    | none => rfl
    | some d =>
      have : c ≠ d := by rintro rfl; exact h c ⟨rfl, rfl⟩
      simp only [popped, put_ne _ this, put_ne _ this.symm]
      exact put_comm _ this _ _

theorem pushed_pushed (ch : C → List M) {o o' : Option (C × M)} (h : ∀ c v v', ¬ (o = some (c, v) ∧ o' = some (c, v'))) :
    pushed (pushed ch o) o' = pushed (pushed ch o') o := by
  cases o with
  | none => rfl
  | some d =>
    cases o' with
    | none => rfl
    | some d' =>
      have : d.1 ≠ d'.1 := fun e => h d.1 d.2 d'.2 ⟨rfl, by rw [e]⟩
      simp only [pushed, put_ne _ this, put_ne _ this.symm]
      exact put_comm _ this _ _

theorem popped_pushed (ch : C → List M) (p : Option C) (o : Option (C × M)) (h : ∀ c, p = some c → ch c ≠ []) :
    popped (pushed ch o) p = pushed (popped ch p) o := by
  cases p with
  | none => rfl
  | some c =>
    cases o with
    | none => rfl
    | some d =>
      by_cases e : c = d.1
      · subst e
        simp only [popped, pushed, put_self, put_put, List.tail_append_of_ne_nil (h _ rfl)]
      · simp only [popped, pushed, put_ne _ e, put_ne _ (Ne.symm e)]
        exact put_comm _ (Ne.symm e) _ _

omit [DecidableEq C] in
theorem Fires.taken {n : Net C Q M} {s : St C Q M} {l : Nat × Nat} {c : C} {o : Option (C × M)} {x : Q}
    (h : Fires n s l (.some c) o x) : ∃ v rest, s.chan c = v :: rest := by
  cases h with
  | recv _ hc _ => exact ⟨_, _, hc⟩

omit [DecidableEq C] in
theorem Fires.reader {n : Net C Q M} {w r : C → Nat} {s : St C Q M} (ho : OwnedAt n w r s) {l : Nat × Nat} {c : C} {o : Option (C × M)} {x : Q}
    (h : Fires n s l (.some c) o x) : r c = l.1 := by
  cases h with
  | recv hv _ _ => exact ho.recv _ _ _ _ hv

omit [DecidableEq C] in
theorem Fires.writer {n : Net C Q M} {w r : C → Nat} {s : St C Q M} (ho : OwnedAt n w r s) {l : Nat × Nat} {p : Option C} {c : C} {v : M} {x : Q}
    (h : Fires n s l p (.some (c, v)) x) : w c = l.1 := by
  cases h with
  | go hv => exact ho.send _ _ _ _ _ hv
  | recv hv _ hk => exact ho.reply _ _ _ _ _ _ _ _ hv hk

/-- An action stays possible, with the same effect, when another process did something. -/
theorem Fires.keep {n : Net C Q M} {s : St C Q M} {l : Nat × Nat} {p : Option C} {o : Option (C × M)} {x : Q} (h : Fires n s l p o x)
    {q' : Nat → Q} {p' : Option C} {o' : Option (C × M)} (hq : q' l.1 = s.q l.1) (hp : ∀ c, ¬ (p = some c ∧ p' = some c)) :
    Fires n ⟨q', pushed (popped s.chan p') o'⟩ l p o x := by
  cases h with
  | go hv => exact .go (by rw [← hv, ← hq])
  | @recv c k v rest x o hv hc hk =>
    have h1 : popped s.chan p' c = v :: rest := by rw [popped_ne _ (fun e => hp c ⟨rfl, e⟩), hc]
    obtain ⟨r', hr'⟩ := pushed_cons _ o' h1
    exact .recv (by rw [← hv, ← hq]) hr' hk

theorem Room.keep {n : Net C Q M} {ch : C → List M} {p p' : Option C} {o o' : Option (C × M)} (h : Room n (popped ch p) o)
    (hp : ∀ c, p = some c → ch c ≠ []) (hpp : ∀ c, ¬ (p = some c ∧ p' = some c))
    (ho : ∀ c v v', ¬ (o = some (c, v) ∧ o' = some (c, v'))) : Room n (popped (pushed (popped ch p') o') p) o := by
  cases o with
  | none => trivial
  | some d =>
    have e : popped (pushed (popped ch p') o') p = pushed (popped (popped ch p') p) o' := by
      refine popped_pushed _ _ _ (fun c hc => ?_)
      rw [popped_ne _ (fun e => hpp c ⟨hc, e⟩)]
      exact hp c hc
    have h1 : pushed (popped (popped ch p') p) o' d.1 = popped (popped ch p') p d.1 :=
      pushed_ne _ (fun v hv => ho d.1 d.2 v ⟨rfl, hv⟩)
    show (popped (pushed (popped ch p') o') p d.1).length < n.cap d.1
    rw [e, h1, popped_popped _ (fun c ⟨a, b⟩ => hpp c ⟨b, a⟩)]
    exact Nat.lt_of_le_of_lt (length_popped _ _ _) h

/-- Two processes that can both do a step can do both in either order, with the same result. -/
theorem diamond {n : Net C Q M} {w r : C → Nat} {s a b : St C Q M} (ho : OwnedAt n w r s) {l l' : Nat × Nat} (hl : l.1 ≠ l'.1)
    (ha : step n s l = some a) (hb : step n s l' = some b) : ∃ c, step n a l' = some c ∧ step n b l = some c := by
  obtain ⟨p, o, x, hf, hr, rfl⟩ := step_some.1 ha
  obtain ⟨p', o', x', hf', hr', rfl⟩ := step_some.1 hb
  have hpp : ∀ c, ¬ (p = some c ∧ p' = some c) := by
    rintro c ⟨rfl, rfl⟩
    exact hl ((hf.reader ho).symm.trans (hf'.reader ho))
  have hoo : ∀ c v v', ¬ (o = some (c, v) ∧ o' = some (c, v')) := by
    rintro c v v' ⟨rfl, rfl⟩
    exact hl ((hf.writer ho).symm.trans (hf'.writer ho))
  have hne : ∀ c, p = some c → s.chan c ≠ [] := by
    rintro c rfl
    obtain ⟨v, rest, h⟩ := hf.taken
    simp [h]
  have hne' : ∀ c, p' = some c → s.chan c ≠ [] := by
    rintro c rfl
    obtain ⟨v, rest, h⟩ := hf'.taken
    simp [h]
  refine ⟨_, step_some.2 ⟨p', o', x', hf'.keep (put_ne _ hl.symm _) (fun c h => hpp c h.symm),
    Room.keep hr' hne' (fun c h => hpp c h.symm) (fun c v v' h => hoo c v' v h.symm), rfl⟩,
    step_some.2 ⟨p, o, x, hf.keep (put_ne _ hl _) hpp, Room.keep hr hne hpp hoo, ?_⟩⟩
  have e1 : popped (pushed (popped s.chan p) o) p' = pushed (popped (popped s.chan p) p') o :=
    popped_pushed _ _ _ (fun c hc => by rw [popped_ne _ (fun e => hpp c ⟨e, hc⟩)]; exact hne' c hc)
  have e2 : popped (pushed (popped s.chan p') o') p = pushed (popped (popped s.chan p') p) o' :=
    popped_pushed _ _ _ (fun c hc => by rw [popped_ne _ (fun e => hpp c ⟨hc, e⟩)]; exact hne c hc)
  rw [put_comm _ hl, e1, e2, popped_popped _ hpp, pushed_pushed _ hoo]

/-! ### Networks that commute -/

/-- Whatever can be done in a state of `I`, can be done in either order, and leads to a state of `I`. -/
structure Commutes (n : Net C Q M) (I : St C Q M → Prop) : Prop where
  keep : ∀ s l t, I s → step n s l = some t → I t
  swap : ∀ s l l' a b, I s → l ≠ l' → step n s l = some a → step n s l' = some b → ∃ c, step n a l' = some c ∧ step n b l = some c

/-- `k` effective steps lead from one state to another. -/
inductive Steps (n : Net C Q M) : Nat → St C Q M → St C Q M → Prop where
  | refl (s) : Steps n 0 s s
  | cons {k s a t l} : step n s l = some a → Steps n k a t → Steps n (k + 1) s t

theorem Steps.trans {n : Net C Q M} {j k : Nat} {a b c : St C Q M} (h : Steps n j a b) (h' : Steps n k b c) : Steps n (j + k) a c := by
  induction h with
  | refl => rw [Nat.zero_add]; exact h'
  | cons hs _ ih => rw [Nat.add_right_comm]; exact .cons hs (ih h')

theorem Steps.of_stuck {n : Net C Q M} {k : Nat} {s t : St C Q M} (h : Steps n k s t) (hs : Stuck n s) : k = 0 ∧ s = t := by
  cases h with
  | refl => exact ⟨rfl, rfl⟩
  | cons hp _ => rw [hs] at hp; cases hp

theorem Steps.keep {n : Net C Q M} {I : St C Q M → Prop} (hn : Commutes n I) {k : Nat} {s t : St C Q M} (h : Steps n k s t) (hs : I s) : I t := by
  induction h with
  | refl => exact hs
  | cons hp _ ih => exact ih (hn.keep _ _ _ hs hp)

/-- The first step of a completed execution may be replaced by any other possible step. -/
theorem Steps.swap {n : Net C Q M} {I : St C Q M → Prop} (hn : Commutes n I) {k : Nat} {s t : St C Q M} (h : Steps n k s t) (hs : I s)
    (ht : Stuck n t) : ∀ {l : Nat × Nat} {a : St C Q M}, step n s l = some a → ∃ k', k = k' + 1 ∧ Steps n k' a t := by
  induction h with
  | refl s => intro l a ha; rw [ht l] at ha; cases ha
  | @cons k s b t l' hb hr ih =>
    intro l a ha
    by_cases hl : l = l'
    · subst hl
      rw [ha] at hb
      cases hb
      exact ⟨k, rfl, hr⟩
    · obtain ⟨c, h1, h2⟩ := hn.swap _ _ _ _ _ hs hl ha hb
      obtain ⟨k', rfl, h3⟩ := ih (hn.keep _ _ _ hs hb) ht h2
      exact ⟨k' + 1, rfl, .cons h1 h3⟩

/-- Any partial execution extends to the completed one. -/
theorem Steps.extend {n : Net C Q M} {I : St C Q M → Prop} (hn : Commutes n I) {j : Nat} {s a : St C Q M} (h : Steps n j s a) (hs : I s) :
    ∀ {k : Nat} {t : St C Q M}, Steps n k s t → Stuck n t → ∃ k', k = j + k' ∧ Steps n k' a t := by
  induction h with
  | refl s => intro k t hk _; exact ⟨k, by omega, hk⟩
  | @cons j s b a l hb hr ih =>
    intro k t hk ht
    obtain ⟨k1, rfl, h1⟩ := hk.swap hn hs ht hb
    obtain ⟨k2, rfl, h2⟩ := ih (hn.keep _ _ _ hs hb) h1 ht
    exact ⟨k2, by omega, h2⟩

/-- Two executions can be continued so that they meet. -/
theorem Steps.join1 {n : Net C Q M} {I : St C Q M → Prop} (hn : Commutes n I) {k : Nat} {s b : St C Q M} (h : Steps n k s b) (hs : I s) :
    ∀ {l : Nat × Nat} {a : St C Q M}, step n s l = some a → ∃ k' k'' c, Steps n k' a c ∧ Steps n k'' b c := by
  induction h with
  | refl s => intro l a ha; exact ⟨0, 1, a, .refl _, .cons ha (.refl _)⟩
  | @cons k s b t l' hb hr ih =>
    intro l a ha
    by_cases hl : l = l'
    · subst hl
      rw [ha] at hb
      cases hb
      exact ⟨k, 0, t, hr, .refl _⟩
    · obtain ⟨c, h1, h2⟩ := hn.swap _ _ _ _ _ hs hl ha hb
      obtain ⟨k', k'', d, h3, h4⟩ := ih (hn.keep _ _ _ hs hb) h2
      exact ⟨k' + 1, k'', d, .cons h1 h3, h4⟩

theorem Steps.join {n : Net C Q M} {I : St C Q M → Prop} (hn : Commutes n I) {j : Nat} {s a : St C Q M} (h : Steps n j s a) (hs : I s) :
    ∀ {k : Nat} {b : St C Q M}, Steps n k s b → ∃ k' k'' c, Steps n k' a c ∧ Steps n k'' b c := by
  induction h with
  | refl s => intro k b hb; exact ⟨k, 0, b, hb, .refl _⟩
  | @cons j s a' a l ha hr ih =>
    intro k b hb
    obtain ⟨k1, k2, c, h1, h2⟩ := hb.join1 hn hs ha
    obtain ⟨k3, k4, d, h3, h4⟩ := ih (hn.keep _ _ _ hs ha) h1
    exact ⟨k3, k2 + k4, d, h3, h2.trans h4⟩

/-- Number of effective steps of a schedule. -/
def effective (n : Net C Q M) (s : St C Q M) : List (Nat × Nat) → Nat
  | [] => 0
  | l :: ls =>
    match step n s l with
    | .none => effective n s ls
    | .some a => effective n a ls + 1

/-- A schedule as effective steps. -/
theorem exec_steps (n : Net C Q M) (s : St C Q M) (ls : List (Nat × Nat)) : Steps n (effective n s ls) s (exec n s ls) := by
  induction ls generalizing s with
  | nil => exact .refl _
  | cons l ls ih =>
    rw [exec, effective]
    cases h : step n s l with
    | none => simpa using ih s
    | some a => exact .cons h (by simpa using ih a)

theorem Steps.exec {n : Net C Q M} {k : Nat} {s t : St C Q M} (h : Steps n k s t) : ∃ ls, RefAccess.exec n s ls = t ∧ ls.length = k := by
  induction h with
  | refl => exact ⟨[], rfl, rfl⟩
  | @cons k s a t l hl _ ih =>
    obtain ⟨ls, h1, h2⟩ := ih
    exact ⟨l :: ls, by simp [RefAccess.exec, hl, h1], by simp [h2]⟩

end Verif.RefAccess
