import Verif.Watchdog.Lemmas

namespace Verif.Watchdog

/-- An operation of `w` is under way at the end of `l`, since `d` ticks. -/
def Under (w d : Nat) (l : List Act) : Prop :=
  ∃ a b, l = a ++ .clear w :: b ∧ .clear w ∉ b ∧ .exit w ∉ b ∧ ticks b = d

theorem ticks_append (a b : List Act) : ticks (a ++ b) = ticks a + ticks b := by simp [ticks]

theorem ticks_le (l m : List Act) : ticks l ≤ ticks (l ++ m) := by rw [ticks_append]; omega

theorem Under.long {w d : Nat} {l : List Act} (h : Under w d l) : LongOp w d l := by
  obtain ⟨a, b, rfl, h1, h2, h3⟩ := h
  exact ⟨a, b, [], by simp, h1, h2, by omega⟩

theorem LongOp.snoc {w d : Nat} {l : List Act} (x : Act) (h : LongOp w d l) : LongOp w d (l ++ [x]) := by
  obtain ⟨a, b, c, rfl, h1, h2, h3⟩ := h
  exact ⟨a, b, c ++ [x], by simp, h1, h2, h3⟩

theorem LongOp.mono {w d e : Nat} {l : List Act} (h : LongOp w d l) (he : e ≤ d) : LongOp w e l := by
  obtain ⟨a, b, c, h0, h1, h2, h3⟩ := h
  exact ⟨a, b, c, h0, h1, h2, by omega⟩

theorem Under.snoc {w d : Nat} {l : List Act} {x : Act} (h : Under w d l) (h1 : x ≠ .clear w) (h2 : x ≠ .exit w) (h3 : x ≠ .tick) :
    Under w d (l ++ [x]) := by
  obtain ⟨a, b, rfl, e1, e2, e3⟩ := h
  refine ⟨a, b ++ [x], by simp, ?_, ?_, ?_⟩
  · simp only [List.mem_append, List.mem_singleton, not_or]; exact ⟨e1, fun e => h1 e.symm⟩
  · simp only [List.mem_append, List.mem_singleton, not_or]; exact ⟨e2, fun e => h2 e.symm⟩
  · rw [ticks_append, e3]
    have : ticks [x] = 0 := by simp [ticks, List.count_cons, h3]
    omega

theorem Under.tick {w d : Nat} {l : List Act} (h : Under w d l) : Under w (d + 1) (l ++ [.tick]) := by
  obtain ⟨a, b, rfl, e1, e2, e3⟩ := h
  refine ⟨a, b ++ [.tick], by simp, ?_, ?_, ?_⟩
  · simp only [List.mem_append, List.mem_singleton, not_or]; exact ⟨e1, by simp⟩
  · simp only [List.mem_append, List.mem_singleton, not_or]; exact ⟨e2, by simp⟩
  · rw [ticks_append, e3]; rfl

/-- What is true of the state after every execution. -/
structure Inv (T : Nat) (l : List Act) (s : St) : Prop where
  /-- the clock counts ticks -/
  clock : s.now = ticks l
  /-- an operation is under way where the state says so -/
  under : ∀ w, s.op w ≠ .idle → ∃ d, Under w d l
  /-- an event is unset while an operation is under way -/
  unset : ∀ w, s.op w ≠ .idle → s.flag w = false
  /-- and set when none is, if there was one -/
  set : ∀ w, (some w ∈ s.queue ∨ ∃ st, (w, st) ∈ s.threads) → s.op w = .idle → s.flag w = true
  /-- a thread waits only while one operation is under way -/
  waiting : ∀ w t, (w, .waiting t) ∈ s.threads → s.op w ≠ .idle ∧ t ≤ s.now ∧ ∃ d, Under w d l ∧ s.now ≤ t + d
  expired : ∀ w, (w, .expired) ∈ s.threads → LongOp w T l

theorem op_upd_ne {s : St} {w v : Nat} {o : Op} (h : upd s.op w o v ≠ .idle) (hv : v ≠ w) : s.op v ≠ .idle := by
  rwa [upd_ne _ _ hv] at h

theorem inv_holds (T : Nat) : ∀ l s, exec T init l = some s → Inv T l s := by
  apply exec_ind
  · refine ⟨rfl, ?_, ?_, ?_, ?_, ?_⟩
    · intro w h; exact absurd rfl h
    · intro w h; exact absurd rfl h
    · intro w h; rcases h with h | ⟨_, h⟩ <;> cases h
    · intro w t h; cases h
    · intro w h; cases h
  · intro l s a s' _ I hs
    rw [step_iff] at hs
    obtain ⟨c, u, n, f, wt, e⟩ := I
    cases hs with
    | clear w h =>
      refine ⟨by rw [ticks_append]; exact c, ?_, ?_, ?_, ?_, fun v hv => (e v hv).snoc _⟩
      · intro v hv
        by_cases hw : v = w
        · subst hw; exact ⟨0, l, [], rfl, by simp, by simp, rfl⟩
        · obtain ⟨d, hd⟩ := u v (op_upd_ne hv hw)
          exact ⟨d, hd.snoc (by simp; exact fun e => hw e.symm) (by simp) (by simp)⟩
      · intro v hv
        by_cases hw : v = w
        · subst hw; exact upd_self _ _ _
        · show upd s.flag w false v = false
          rw [upd_ne _ _ hw]; exact n v (op_upd_ne hv hw)
      · intro v hv ho
        by_cases hw : v = w
        · subst hw
          have ho' : upd s.op v .cleared v = .idle := ho
          rw [upd_self] at ho'; cases ho'
        · have ho' : upd s.op w .cleared v = .idle := ho
          rw [upd_ne _ _ hw] at ho'
          show upd s.flag w false v = true
          rw [upd_ne _ _ hw]; exact f v hv ho'
      · intro v t hv
        obtain ⟨h1, h2, d, h3, h4⟩ := wt v t hv
        have hw : v ≠ w := by rintro rfl; exact h1 h
        refine ⟨?_, h2, d, h3.snoc (by simp; exact fun e => hw e.symm) (by simp) (by simp), h4⟩
        show upd s.op w .cleared v ≠ .idle
        rw [upd_ne _ _ hw]; exact h1
    | put w h =>
      have hid : ∀ v, upd s.op w .running v ≠ .idle → s.op v ≠ .idle := by
        intro v hv
        by_cases hw : v = w
        · subst hw; rw [h]; simp
        · exact op_upd_ne hv hw
      have hid' : ∀ v, s.op v ≠ .idle → upd s.op w .running v ≠ .idle := by
        intro v hv
        by_cases hw : v = w
        · subst hw; rw [upd_self]; simp
        · rw [upd_ne _ _ hw]; exact hv
      refine ⟨by rw [ticks_append]; exact c, ?_, fun v hv => n v (hid v hv), ?_, ?_, fun v hv => (e v hv).snoc _⟩
      · intro v hv
        obtain ⟨d, hd⟩ := u v (hid v hv)
        exact ⟨d, hd.snoc (by simp) (by simp) (by simp)⟩
      · intro v hv ho
        have ho' : upd s.op w .running v = .idle := ho
        have hw : v ≠ w := by rintro rfl; rw [upd_self] at ho'; cases ho'
        rw [upd_ne _ _ hw] at ho'
        refine f v ?_ ho'
        rcases hv with hv | hv
        · rcases List.mem_append.1 hv with hv | hv
          · exact .inl hv
          · simp at hv; exact absurd hv hw
        · exact .inr hv
      · intro v t hv
        obtain ⟨h1, h2, d, h3, h4⟩ := wt v t hv
        exact ⟨hid' v h1, h2, d, h3.snoc (by simp) (by simp) (by simp), h4⟩
    | exit w h =>
      refine ⟨by rw [ticks_append]; exact c, ?_, ?_, ?_, ?_, ?_⟩
      · intro v hv
        by_cases hw : v = w
        · subst hw
          have hv' : upd s.op v .idle v ≠ .idle := hv
          rw [upd_self] at hv'; exact absurd rfl hv'
        · obtain ⟨d, hd⟩ := u v (op_upd_ne hv hw)
          exact ⟨d, hd.snoc (by simp) (by simp; exact fun e => hw e.symm) (by simp)⟩
      · intro v hv
        by_cases hw : v = w
        · subst hw
          have hv' : upd s.op v .idle v ≠ .idle := hv
          rw [upd_self] at hv'; exact absurd rfl hv'
        · show upd s.flag w true v = false
          rw [upd_ne _ _ hw]; exact n v (op_upd_ne hv hw)
      · intro v hv ho
        by_cases hw : v = w
        · subst hw; exact upd_self _ _ _
        · have ho' : upd s.op w .idle v = .idle := ho
          rw [upd_ne _ _ hw] at ho'
          show upd s.flag w true v = true
          rw [upd_ne _ _ hw]
          refine f v ?_ ho'
          rcases hv with hv | ⟨st, hv⟩
          · exact .inl hv
          · rcases mem_wake hv with h1 | ⟨_, _, t, h1⟩
            · exact .inr ⟨_, h1.1⟩
            · exact .inr ⟨_, h1⟩
      · intro v t hv
        rcases mem_wake hv with ⟨h1, h2⟩ | h1
        · rcases h2 with h2 | h2
          · obtain ⟨e1, e2, d, e3, e4⟩ := wt v t h1
            refine ⟨?_, e2, d, e3.snoc (by simp) (by simp; exact fun e => h2 e.symm) (by simp), e4⟩
            show upd s.op w .idle v ≠ .idle
            rw [upd_ne _ _ h2]; exact e1
          · exact absurd rfl (h2 t)
        · cases h1.1
      · intro v hv
        rcases mem_wake hv with ⟨h1, h2⟩ | h1
        · exact (e v h1).snoc _
        · cases h1.1
    | takeStop q hm hq =>
      refine ⟨by rw [ticks_append]; exact c, ?_, n, ?_, ?_, fun v hv => (e v hv).snoc _⟩
      · intro v hv
        obtain ⟨d, hd⟩ := u v hv
        exact ⟨d, hd.snoc (by simp) (by simp) (by simp)⟩
      · intro v hv ho
        refine f v ?_ ho
        rcases hv with hv | hv
        · exact .inl (by rw [hq]; exact List.mem_cons_of_mem _ hv)
        · exact .inr hv
      · intro v t hv
        obtain ⟨e1, e2, d, e3, e4⟩ := wt v t hv
        exact ⟨e1, e2, d, e3.snoc (by simp) (by simp) (by simp), e4⟩
    | takeSome w q hm hq =>
      refine ⟨by rw [ticks_append]; exact c, ?_, n, ?_, ?_, ?_⟩
      · intro v hv
        obtain ⟨d, hd⟩ := u v hv
        exact ⟨d, hd.snoc (by simp) (by simp) (by simp)⟩
      · intro v hv ho
        refine f v ?_ ho
        rcases hv with hv | ⟨st, hv⟩
        · exact .inl (by rw [hq]; exact List.mem_cons_of_mem _ hv)
        · rcases List.mem_append.1 hv with hv | hv
          · exact .inr ⟨_, hv⟩
          · simp at hv; exact .inl (by rw [hq, hv.1]; simp)
      · intro v t hv
        rcases List.mem_append.1 hv with hv | hv
        · obtain ⟨e1, e2, d, e3, e4⟩ := wt v t hv
          exact ⟨e1, e2, d, e3.snoc (by simp) (by simp) (by simp), e4⟩
        · simp at hv
      · intro v hv
        rcases List.mem_append.1 hv with hv | hv
        · exact (e v hv).snoc _
        · simp at hv
    | wait i w h =>
      have hmem := List.mem_of_getElem? h
      refine ⟨by rw [ticks_append]; exact c, ?_, n, ?_, ?_, ?_⟩
      · intro v hv
        obtain ⟨d, hd⟩ := u v hv
        exact ⟨d, hd.snoc (by simp) (by simp) (by simp)⟩
      · intro v hv ho
        refine f v ?_ ho
        rcases hv with hv | ⟨st, hv⟩
        · exact .inl hv
        · rcases mem_set_cases hv with hv | hv
          · cases hv; exact .inr ⟨_, hmem⟩
          · exact .inr ⟨_, hv⟩
      · intro v t hv
        rcases mem_set_cases hv with hv | hv
        · have h1 : v = w := congrArg Prod.fst hv
          have h2 : Stage.waiting t = if s.flag w then Stage.done else .waiting s.now := congrArg Prod.snd hv
          subst h1
          cases hf : s.flag v with
          | true => rw [hf] at h2; simp at h2
          | false =>
            rw [hf] at h2
            simp at h2
            subst h2
            have ho : s.op v ≠ .idle := by
              intro ho
              have := f v (.inr ⟨_, hmem⟩) ho
              rw [hf] at this; cases this
            obtain ⟨d, hd⟩ := u v ho
            exact ⟨ho, Nat.le_refl _, d, hd.snoc (by simp) (by simp) (by simp), Nat.le_add_right _ _⟩
        · obtain ⟨e1, e2, d, e3, e4⟩ := wt v t hv
          exact ⟨e1, e2, d, e3.snoc (by simp) (by simp) (by simp), e4⟩
      · intro v hv
        rcases mem_set_cases hv with hv | hv
        · have h2 : Stage.expired = if s.flag w then Stage.done else .waiting s.now := congrArg Prod.snd hv
          split at h2 <;> cases h2
        · exact (e v hv).snoc _
    | expire i w t h ht =>
      have hmem := List.mem_of_getElem? h
      refine ⟨by rw [ticks_append]; exact c, ?_, n, ?_, ?_, ?_⟩
      · intro v hv
        obtain ⟨d, hd⟩ := u v hv
        exact ⟨d, hd.snoc (by simp) (by simp) (by simp)⟩
      · intro v hv ho
        refine f v ?_ ho
        rcases hv with hv | ⟨st, hv⟩
        · exact .inl hv
        · rcases mem_set_cases hv with hv | hv
          · cases hv; exact .inr ⟨_, hmem⟩
          · exact .inr ⟨_, hv⟩
      · intro v t hv
        rcases mem_set_cases hv with hv | hv
        · cases hv
        · obtain ⟨e1, e2, d, e3, e4⟩ := wt v t hv
          exact ⟨e1, e2, d, e3.snoc (by simp) (by simp) (by simp), e4⟩
      · intro v hv
        rcases mem_set_cases hv with hv | hv
        · cases hv
          obtain ⟨e1, e2, d, e3, e4⟩ := wt _ _ hmem
          exact (e3.long.mono (by omega)).snoc _
        · exact (e v hv).snoc _
    | print i w h =>
      have hmem := List.mem_of_getElem? h
      refine ⟨by rw [ticks_append]; exact c, ?_, n, ?_, ?_, ?_⟩
      · intro v hv
        obtain ⟨d, hd⟩ := u v hv
        exact ⟨d, hd.snoc (by simp) (by simp) (by simp)⟩
      · intro v hv ho
        refine f v ?_ ho
        rcases hv with hv | ⟨st, hv⟩
        · exact .inl hv
        · rcases mem_set_cases hv with hv | hv
          · cases hv; exact .inr ⟨_, hmem⟩
          · exact .inr ⟨_, hv⟩
      · intro v t hv
        rcases mem_set_cases hv with hv | hv
        · cases hv
        · obtain ⟨e1, e2, d, e3, e4⟩ := wt v t hv
          exact ⟨e1, e2, d, e3.snoc (by simp) (by simp) (by simp), e4⟩
      · intro v hv
        rcases mem_set_cases hv with hv | hv
        · cases hv
        · exact (e v hv).snoc _
    | join hm h =>
      refine ⟨by rw [ticks_append]; exact c, ?_, n, f, ?_, fun v hv => (e v hv).snoc _⟩
      · intro v hv
        obtain ⟨d, hd⟩ := u v hv
        exact ⟨d, hd.snoc (by simp) (by simp) (by simp)⟩
      · intro v t hv
        obtain ⟨e1, e2, d, e3, e4⟩ := wt v t hv
        exact ⟨e1, e2, d, e3.snoc (by simp) (by simp) (by simp), e4⟩
    | stop h =>
      refine ⟨by rw [ticks_append]; exact c, ?_, n, ?_, ?_, fun v hv => (e v hv).snoc _⟩
      · intro v hv
        obtain ⟨d, hd⟩ := u v hv
        exact ⟨d, hd.snoc (by simp) (by simp) (by simp)⟩
      · intro v hv ho
        refine f v ?_ ho
        rcases hv with hv | hv
        · rcases List.mem_append.1 hv with hv | hv
          · exact .inl hv
          · simp at hv
        · exact .inr hv
      · intro v t hv
        obtain ⟨e1, e2, d, e3, e4⟩ := wt v t hv
        exact ⟨e1, e2, d, e3.snoc (by simp) (by simp) (by simp), e4⟩
    | tick =>
      refine ⟨?_, ?_, n, f, ?_, fun v hv => (e v hv).snoc _⟩
      · rw [ticks_append]
        show s.now + 1 = ticks l + 1
        rw [c]
      · intro v hv
        obtain ⟨d, hd⟩ := u v hv
        exact ⟨d + 1, hd.tick⟩
      · intro v t hv
        obtain ⟨e1, e2, d, e3, e4⟩ := wt v t hv
        refine ⟨e1, ?_, d + 1, e3.tick, ?_⟩
        · show t ≤ s.now + 1; omega
        · show s.now + 1 ≤ t + (d + 1); omega

end Verif.Watchdog
