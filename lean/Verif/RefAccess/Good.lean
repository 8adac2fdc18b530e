import Verif.RefAccess.Inv

/-!
# What holds in every reachable state
-/

namespace Verif.RefAccess

open Verif.EndToEnd (Phase Flags noFlags nextPhase)

variable {S V : Type}

/-! ### Commands and responses -/

/-- What the service can see of a model: is it waiting, its phase, commands on the way, responses on the way. -/
structure Stat (V : Type) where
  idle : Bool
  ph : Phase
  cmd : List (Msg V)
  rsp : List (Msg V)

def isIdle : Pc S V → Bool
  | .idle => true
  | _ => false

theorem isIdle_iff {p : Pc S V} : isIdle p = true ↔ p = .idle := by cases p <;> simp [isIdle]

def stat (m : Nat → Mdl S V) (ch : Chans V) (i : Nat) : Stat V := ⟨isIdle (m i).pc, (m i).ph, ch (.cmd i), ch (.rsp i)⟩

def AllHost (l : List (Msg V)) : Prop := ∀ z ∈ l, z = .phase .host

/-- Between two runs. -/
def Between (z : Stat V) : Prop := z.idle = true ∧ z.rsp = [] ∧ AllHost z.cmd

/-- Before the command `ph` is sent. -/
def Before (ph : Phase) (z : Stat V) : Prop :=
  z.idle = true ∧ z.rsp = [] ∧ AllHost z.cmd ∧ (ph ≠ .spk → ph ≠ .host → z.cmd = []) ∧ (mgmt ph = true → polled z.ph = false)

/-- Responses in a phase. -/
def RespOK (ph : Phase) (r : Msg V) : Prop :=
  match ph with
  | .spk => True
  | .pre => r = .reqLrn
  | .lrn => r = .reqPost ∨ r = .done
  | .post => r = .done
  | .host => False

/-- After the command `ph` was sent and before the response was received. -/
def During (ph : Phase) (z : Stat V) : Prop :=
  (∃ hs, z.idle = true ∧ z.rsp = [] ∧ z.cmd = hs ++ [.phase ph] ∧ AllHost hs ∧ (ph ≠ .spk → ph ≠ .host → hs = []) ∧
    (mgmt ph = true → polled z.ph = false)) ∨
  (z.idle = false ∧ z.ph = ph ∧ z.cmd = [] ∧ z.rsp = [] ∧ ph ≠ .host) ∨
  (z.idle = true ∧ z.ph = ph ∧ z.cmd = [] ∧ ph ≠ .host ∧ ∃ r, z.rsp = [r] ∧ RespOK ph r) ∨
  (ph = .host ∧ z.idle = true ∧ z.rsp = [] ∧ AllHost z.cmd)

/-- After the response. -/
def After (ph : Phase) (z : Stat V) : Prop := z.idle = true ∧ z.ph = ph ∧ z.cmd = [] ∧ z.rsp = []

/-- Flags when all responses of phase `ph` have been received. -/
def FlagsOK (ph : Phase) (f : Flags) : Prop :=
  match ph with
  | .spk => True
  | .pre => f.pre = false ∧ f.lrn = true
  | .lrn => f.pre = false ∧ f.lrn = false
  | .post => f = noFlags
  | .host => False

/-- Flags when phase `ph` was chosen. -/
def SentOK (ph : Phase) (f : Flags) : Prop :=
  match ph with
  | .spk => f = noFlags
  | .pre => f.pre = false
  | .lrn => f.pre = false ∧ f.lrn = false
  | .post => f = noFlags
  | .host => f = noFlags

/-- Flags when `k` responses have been received. -/
def CollOK (ph : Phase) (f : Flags) (k : Nat) : Prop :=
  match ph with
  | .spk => True
  | .pre => f.pre = false ∧ (f.lrn = true ∨ k = 0)
  | .lrn => f.pre = false ∧ f.lrn = false
  | .post => f = noFlags
  | .host => False

/-- Service and models fit together. -/
def RoundOK (y : Sys S V) (x : Svc) (z : Nat → Stat V) : Prop :=
  match x.pc with
  | .idle => x.f = noFlags ∧ ∀ i, i < y.n → Between (z i)
  | .top _ _ => (x.f = noFlags ∧ ∀ i, i < y.n → Between (z i)) ∨ ∃ lp, FlagsOK lp x.f ∧ ∀ i, i < y.n → After lp (z i)
  | .sendPh ph rest _ _ => ∃ k, k ≤ y.n ∧ rest = (List.range y.n).drop k ∧ SentOK ph x.f ∧ (∀ i, i < k → During ph (z i)) ∧
      ∀ i, k ≤ i → i < y.n → Before ph (z i)
  | .collect ph rest _ _ => ∃ k, k ≤ y.n ∧ rest = (List.range y.n).drop k ∧ CollOK ph x.f k ∧ (∀ i, i < k → After ph (z i)) ∧
      ∀ i, k ≤ i → i < y.n → During ph (z i)

/-- What a model can do to its status. -/
inductive Move : Stat V → Stat V → Prop where
  | stay (z) : Move z z
  | host {p cs r} : Move ⟨true, p, .phase .host :: cs, r⟩ ⟨true, .host, cs, r⟩
  | phase {p ph cs r} : ph ≠ .host → Move ⟨true, p, .phase ph :: cs, r⟩ ⟨false, ph, cs, r⟩
  | ret {p cs r v} : RespOK p v ∨ p = .host → Move ⟨false, p, cs, r⟩ ⟨true, p, cs, r ++ [v]⟩

theorem AllHost.tail {a : Msg V} {l : List (Msg V)} (h : AllHost (a :: l)) : AllHost l := fun z hz => h z (List.mem_cons_of_mem _ hz)
theorem AllHost.nil : AllHost ([] : List (Msg V)) := fun _ h => by simp at h
theorem AllHost.head {ph : Phase} {l : List (Msg V)} (h : AllHost (.phase ph :: l)) : ph = .host := by
  have := h (.phase ph) (by simp)
  simpa using this
theorem AllHost.snoc {l : List (Msg V)} (h : AllHost l) : AllHost (l ++ [.phase .host]) := by
  intro z hz
  rcases List.mem_append.1 hz with h' | h'
  · exact h z h'
  · simpa using h'

theorem Move.between {z z' : Stat V} (h : Move z z') (hz : Between z) : Between z' := by
  cases h with
  | stay => exact hz
  | host => exact ⟨rfl, hz.2.1, hz.2.2.tail⟩
  | phase hne => exact absurd hz.2.2.head hne
  | ret => exact absurd hz.1 (by simp)

theorem Move.before {ph : Phase} {z z' : Stat V} (h : Move z z') (hz : Before ph z) : Before ph z' := by
  obtain ⟨h1, h2, h3, h4, h5⟩ := hz
  cases h with
  | stay => exact ⟨h1, h2, h3, h4, h5⟩
  | host =>
    refine ⟨rfl, h2, h3.tail, fun a b => absurd (h4 a b) (by simp), fun a => ?_⟩
    have : ph ≠ .spk ∧ ph ≠ .host := by cases ph <;> simp_all [mgmt]
    exact absurd (h4 this.1 this.2) (by simp)
  | phase hne => exact absurd h3.head hne
  | ret => exact absurd h1 (by simp)

theorem Move.after {ph : Phase} {z z' : Stat V} (h : Move z z') (hz : After ph z) : After ph z' := by
  obtain ⟨h1, h2, h3, h4⟩ := hz
  cases h with
  | stay => exact ⟨h1, h2, h3, h4⟩
  | host => exact absurd h3 (by simp)
  | phase hne => exact absurd h3 (by simp)
  | ret => exact absurd h1 (by simp)

theorem Move.during {ph : Phase} {z z' : Stat V} (h : Move z z') (hz : During ph z) : During ph z' := by
  rcases hz with ⟨hs, h1, h2, h3, h4, h5, h6⟩ | ⟨h1, h2, h3, h4, h5⟩ | ⟨h1, h2, h3, h4, r, h5, h6⟩ | ⟨h1, h2, h3, h4⟩
  · cases h with
    | stay => exact .inl ⟨hs, h1, h2, h3, h4, h5, h6⟩
    | @host p cs r =>
      cases hs with
      | nil =>
        simp only [List.nil_append, List.cons.injEq, Msg.phase.injEq] at h3
        exact .inr (.inr (.inr ⟨h3.1.symm, rfl, h2, by rw [h3.2]; exact AllHost.nil⟩))
      | cons a hs =>
        simp only [List.cons_append, List.cons.injEq] at h3
        refine .inl ⟨hs, rfl, h2, h3.2, h4.tail, fun a b => absurd (h5 a b) (by simp), fun a => ?_⟩
        have : ph ≠ .spk ∧ ph ≠ .host := by cases ph <;> simp_all [mgmt]
        exact absurd (h5 this.1 this.2) (by simp)
    | @phase p ph' cs r hne =>
      cases hs with
      | nil =>
        simp only [List.nil_append, List.cons.injEq, Msg.phase.injEq] at h3
        exact .inr (.inl ⟨rfl, h3.1, h3.2, h2, h3.1 ▸ hne⟩)
      | cons a hs =>
        simp only [List.cons_append, List.cons.injEq] at h3
        rw [← h3.1] at h4
        exact absurd h4.head hne
    | ret => exact absurd h1 (by simp)
  · cases h with
    | stay => exact .inr (.inl ⟨h1, h2, h3, h4, h5⟩)
    | host => exact absurd h1 (by simp)
    | phase hne => exact absurd h1 (by simp)
    | @ret p cs r v hv =>
      dsimp only at h2 h3 h4
      subst h2
      exact .inr (.inr (.inl ⟨rfl, rfl, h3, h5, v, by rw [h4]; rfl, hv.resolve_right h5⟩))
  · cases h with
    | stay => exact .inr (.inr (.inl ⟨h1, h2, h3, h4, r, h5, h6⟩))
    | host => exact absurd h3 (by simp)
    | phase hne => exact absurd h3 (by simp)
    | ret => exact absurd h1 (by simp)
  · cases h with
    | stay => exact .inr (.inr (.inr ⟨h1, h2, h3, h4⟩))
    | host => exact .inr (.inr (.inr ⟨h1, rfl, h3, h4.tail⟩))
    | phase hne => exact absurd h4.head hne
    | ret => exact absurd h2 (by simp)

/-- Steps of a model keep `RoundOK`. -/
theorem RoundOK.move {y : Sys S V} {x : Svc} {z z' : Nat → Stat V} (h : RoundOK y x z) (hm : ∀ i, Move (z i) (z' i)) : RoundOK y x z' := by
  unfold RoundOK at h ⊢
  cases hpc : x.pc with
  | idle => rw [hpc] at h; exact ⟨h.1, fun i hi => (hm i).between (h.2 i hi)⟩
  | top t cur =>
    rw [hpc] at h
    rcases h with h | ⟨lp, h1, h2⟩
    · exact .inl ⟨h.1, fun i hi => (hm i).between (h.2 i hi)⟩
    · exact .inr ⟨lp, h1, fun i hi => (hm i).after (h2 i hi)⟩
  | sendPh ph rest t cur =>
    rw [hpc] at h
    obtain ⟨k, h1, h2, h3, h4, h5⟩ := h
    exact ⟨k, h1, h2, h3, fun i hi => (hm i).during (h4 i hi), fun i a b => (hm i).before (h5 i a b)⟩
  | collect ph rest t cur =>
    rw [hpc] at h
    obtain ⟨k, h1, h2, h3, h4, h5⟩ := h
    exact ⟨k, h1, h2, h3, fun i hi => (hm i).after (h4 i hi), fun i a b => (hm i).during (h5 i a b)⟩

theorem nextPhase_fresh (last : Bool) : nextPhase noFlags last = (if last then .host else .spk, noFlags) := by
  cases last <;> rfl

theorem nextPhase_sentOK {f : Flags} (last : Bool) : SentOK (nextPhase f last).1 (nextPhase f last).2 := by
  obtain ⟨a, b, c⟩ := f
  cases a <;> cases b <;> cases c <;> cases last <;> simp [nextPhase, SentOK, noFlags]

theorem nextPhase_mgmt {lp : Phase} {f : Flags} (last : Bool) (h : FlagsOK lp f) (hm : mgmt (nextPhase f last).1 = true) :
    polled lp = false := by
  obtain ⟨a, b, c⟩ := f
  cases lp <;> cases a <;> cases b <;> cases c <;> cases last <;> simp_all [nextPhase, FlagsOK, mgmt, polled, noFlags]

theorem collOK_add {ph : Phase} {f : Flags} {k : Nat} {r : Msg V} (h : CollOK ph f k) (hr : RespOK ph r) : CollOK ph (addReq f r) (k + 1) := by
  cases ph with
  | spk => trivial
  | pre => cases hr; exact ⟨h.1, .inl rfl⟩
  | lrn => rcases hr with rfl | rfl <;> exact h
  | post => cases hr; exact h
  | host => exact hr.elim

theorem respOK (y : Sys S V) (i : Nat) (ph : Phase) (s : S) : RespOK ph (y.respOf i ph s) ∨ ph = .host := by
  cases ph with
  | spk => exact .inl trivial
  | pre => exact .inl rfl
  | lrn => left; unfold Sys.respOf; dsimp only; split
           · exact .inl rfl
           · exact .inr rfl
  | post => exact .inl rfl
  | host => exact .inr rfl

theorem drop_range_cons {n k i : Nat} {rest : List Nat} (h : i :: rest = (List.range n).drop k) : i = k ∧ k < n ∧ rest = (List.range n).drop (k + 1) := by
  have hk : k < n := by
    rcases Nat.lt_or_ge k n with h' | h'
    · exact h'
    · rw [List.drop_of_length_le (by simpa using h')] at h; cases h
  rw [List.drop_eq_getElem_cons (by simpa using hk)] at h
  simp only [List.getElem_range, List.cons.injEq] at h
  exact ⟨h.1, hk, h.2⟩

theorem drop_range_nil {n k : Nat} (hk : k ≤ n) (h : [] = (List.range n).drop k) : k = n := by
  have := congrArg List.length h
  simp at this
  omega

/-! Steps of the service. -/

theorem Before.of_after {lp ph : Phase} {z : Stat V} (h : After lp z) (hm : mgmt ph = true → polled lp = false) : Before ph z := by
  obtain ⟨h1, h2, h3, h4⟩ := h
  exact ⟨h1, h4, by rw [h3]; exact AllHost.nil, fun _ _ => h3, fun a => by rw [h2]; exact hm a⟩

theorem round_top {y : Sys S V} {x : Svc} {z : Nat → Stat V} {t cur cur' : Nat} (hpc : x.pc = .top t cur) (h : RoundOK y x z) (last : Bool)
    (rs : List Nat) : RoundOK y ⟨.sendPh (nextPhase x.f last).1 (List.range y.n) t cur', (nextPhase x.f last).2, rs⟩ z := by
  unfold RoundOK at h ⊢
  rw [hpc] at h
  refine ⟨0, Nat.zero_le _, rfl, nextPhase_sentOK _, fun i hi => absurd hi (by omega), fun i _ hi => ?_⟩
  rcases h with ⟨h1, h2⟩ | ⟨lp, h1, h2⟩
  · obtain ⟨a, b, c⟩ := h2 i hi
    rw [h1, nextPhase_fresh]
    refine ⟨a, b, c, ?_, ?_⟩
    · intro h3 h4; cases last <;> simp at h3 h4
    · intro h3; cases last <;> simp [mgmt] at h3
  · exact .of_after (h2 i hi) (nextPhase_mgmt _ h1)

theorem round_tell {y : Sys S V} {x : Svc} {z z' : Nat → Stat V} {ph : Phase} {i : Nat} {rest : List Nat} {t cur : Nat}
    (hpc : x.pc = .sendPh ph (i :: rest) t cur) (h : RoundOK y x z) (hz : ∀ j, j ≠ i → z' j = z j)
    (hi : z' i = ⟨(z i).idle, (z i).ph, (z i).cmd ++ [.phase ph], (z i).rsp⟩) : RoundOK y { x with pc := .sendPh ph rest t cur } z' := by
  unfold RoundOK at h ⊢
  rw [hpc] at h
  obtain ⟨k, h1, h2, h3, h4, h5⟩ := h
  obtain ⟨rfl, hk, hr⟩ := drop_range_cons h2
  refine ⟨i + 1, hk, hr, h3, fun j hj => ?_, fun j hj hjn => ?_⟩
  · by_cases e : j = i
    · subst e
      rw [hi]
      obtain ⟨a, b, c, d, f⟩ := h5 j (Nat.le_refl _) hk
      exact .inl ⟨_, a, b, rfl, c, d, f⟩
    · rw [hz j e]; exact h4 j (by omega)
  · rw [hz j (by omega)]; exact h5 j (by omega) hjn

theorem round_told {y : Sys S V} {x : Svc} {z : Nat → Stat V} {ph : Phase} {t cur : Nat}
    (hpc : x.pc = .sendPh ph [] t cur) (h : RoundOK y x z) :
    RoundOK y { x with pc := if ph = .host then .idle else .collect ph (List.range y.n) t cur } z := by
  unfold RoundOK at h ⊢
  rw [hpc] at h
  obtain ⟨k, h1, h2, h3, h4, h5⟩ := h
  obtain rfl := drop_range_nil h1 h2
  by_cases e : ph = .host
  · subst e
    rw [if_pos rfl]
    refine ⟨h3, fun i hi => ?_⟩
    rcases h4 i hi with ⟨hs, a, b, c, d, _⟩ | ⟨_, _, _, _, a⟩ | ⟨_, _, _, a, _⟩ | ⟨_, a, b, c⟩
    · exact ⟨a, b, by rw [c]; exact d.snoc⟩
    · exact absurd rfl a
    · exact absurd rfl a
    · exact ⟨a, b, c⟩
  · rw [if_neg e]
    refine ⟨0, Nat.zero_le _, rfl, ?_, fun i hi => absurd hi (by omega), fun i _ hi => h4 i hi⟩
    cases ph with
    | spk => trivial
    | pre => exact ⟨h3, .inr rfl⟩
    | lrn => exact h3
    | post => exact h3
    | host => exact absurd rfl e

theorem round_hear {y : Sys S V} {x : Svc} {z z' : Nat → Stat V} {ph : Phase} {i : Nat} {rest : List Nat} {t cur : Nat} {r : Msg V}
    {rs : List (Msg V)} (hpc : x.pc = .collect ph (i :: rest) t cur) (h : RoundOK y x z) (hz : ∀ j, j ≠ i → z' j = z j)
    (hr : (z i).rsp = r :: rs) (hi : z' i = ⟨(z i).idle, (z i).ph, (z i).cmd, rs⟩) :
    RoundOK y ⟨.collect ph rest t cur, addReq x.f r, x.runs⟩ z' := by
  unfold RoundOK at h ⊢
  rw [hpc] at h
  obtain ⟨k, h1, h2, h3, h4, h5⟩ := h
  obtain ⟨rfl, hk, hrr⟩ := drop_range_cons h2
  rcases h5 i (Nat.le_refl _) hk with ⟨hs, a, b, _⟩ | ⟨_, _, _, b, _⟩ | ⟨a, b, c, d, r', e, f⟩ | ⟨_, _, b, _⟩
  · rw [hr] at b; cases b
  · rw [hr] at b; cases b
  · rw [hr] at e
    cases e
    refine ⟨i + 1, hk, hrr, collOK_add h3 f, fun j hj => ?_, fun j hj hjn => ?_⟩
    · by_cases e : j = i
      · subst e; rw [hi]; exact ⟨a, b, c, rfl⟩
      · rw [hz j e]; exact h4 j (by omega)
    · rw [hz j (by omega)]; exact h5 j (by omega) hjn
  · rw [hr] at b; cases b

theorem round_heard {y : Sys S V} (hn : 0 < y.n) {x : Svc} {z : Nat → Stat V} {ph : Phase} {t cur : Nat}
    (hpc : x.pc = .collect ph [] t cur) (h : RoundOK y x z) : RoundOK y { x with pc := .top t cur } z := by
  unfold RoundOK at h ⊢
  rw [hpc] at h
  obtain ⟨k, h1, h2, h3, h4, h5⟩ := h
  obtain rfl := drop_range_nil h1 h2
  refine .inr ⟨ph, ?_, fun i hi => h4 i hi⟩
  cases ph with
  | spk => trivial
  | pre => exact ⟨h3.1, h3.2.resolve_right (by omega)⟩
  | lrn => exact h3
  | post => exact h3
  | host => exact h3

/-- Who executes a method of a management phase: the command was sent, nobody who waits for a command polls. -/
theorem RoundOK.quiet {y : Sys S V} {x : Svc} {z : Nat → Stat V} (h : RoundOK y x z) {i j : Nat} (hi : i < y.n) (hj : j < y.n)
    (hb : (z i).idle = false) (hm : mgmt (z i).ph = true) (hidle : (z j).idle = true) (hp : polled (z j).ph = true) :
    (z j).cmd = [] ∧ (z j).ph = (z i).ph := by
  unfold RoundOK at h
  cases hpc : x.pc with
  | idle => rw [hpc] at h; rw [(h.2 i hi).1] at hb; cases hb
  | top t cur =>
    rw [hpc] at h
    rcases h with h | ⟨lp, h1, h2⟩
    · rw [(h.2 i hi).1] at hb; cases hb
    · rw [(h2 i hi).1] at hb; cases hb
  | sendPh ph rest t cur =>
    rw [hpc] at h
    obtain ⟨k, h1, h2, h3, h4, h5⟩ := h
    have hik : i < k := by
      rcases Nat.lt_or_ge i k with h' | h'
      · exact h'
      · rw [(h5 i h' hi).1] at hb; cases hb
    have hph : (z i).ph = ph := by
      rcases h4 i hik with ⟨hs, a, _⟩ | ⟨_, a, _⟩ | ⟨a, _⟩ | ⟨_, a, _⟩
      · rw [a] at hb; cases hb
      · exact a
      · rw [a] at hb; cases hb
      · rw [a] at hb; cases hb
    rw [hph] at hm ⊢
    rcases Nat.lt_or_ge j k with h' | h'
    · rcases h4 j h' with ⟨hs, _, _, _, _, _, a⟩ | ⟨a, _⟩ | ⟨_, a, b, _⟩ | ⟨a, _⟩
      · rw [a hm] at hp; cases hp
      · rw [a] at hidle; cases hidle
      · exact ⟨b, a⟩
      · rw [a] at hm; cases hm
    · rw [(h5 j h' hj).2.2.2.2 hm] at hp; cases hp
  | collect ph rest t cur =>
    rw [hpc] at h
    obtain ⟨k, h1, h2, h3, h4, h5⟩ := h
    have hik : k ≤ i := by
      rcases Nat.lt_or_ge i k with h' | h'
      · rw [(h4 i h').1] at hb; cases hb
      · exact h'
    have hph : (z i).ph = ph := by
      rcases h5 i hik hi with ⟨hs, a, _⟩ | ⟨_, a, _⟩ | ⟨a, _⟩ | ⟨_, a, _⟩
      · rw [a] at hb; cases hb
      · exact a
      · rw [a] at hb; cases hb
      · rw [a] at hb; cases hb
    rw [hph] at hm ⊢
    rcases Nat.lt_or_ge j k with h' | h'
    · exact ⟨(h4 j h').2.2.1, (h4 j h').2.1⟩
    · rcases h5 j h' hj with ⟨hs, _, _, _, _, _, a⟩ | ⟨a, _⟩ | ⟨_, a, b, _⟩ | ⟨a, _⟩
      · rw [a hm] at hp; cases hp
      · rw [a] at hidle; cases hidle
      · exact ⟨b, a⟩
      · rw [a] at hm; cases hm

/-! ### RefPorts -/

/-- Only writes on the way, for whom `pend` holds. -/
def Writing (W : Nat → Prop) (ch : Chans V) (pend : Nat → Prop) (ph : Phase) (e : Nat) : Prop :=
  ch (.rep e) = [] ∧ (∀ r ∈ ch (.req e), ∃ v, r = .set v) ∧ (ch (.req e) ≠ [] → pend e ∧ W e ∧ mgmt ph = true)

/-- Requests and replies on the way fit the state of the model that has the RefPorts. -/
def EdgeOK (y : Sys S V) (cs cd : Nat → Nat) (W : Nat → Prop) (ch : Chans V) (i : Nat) (m : Mdl S V) : Prop :=
  match m.pc with
  | .idle => ∀ e, e < y.ne → y.src e = i → ch (.req e) = [] ∧ ch (.rep e) = []
  | .run P => P.Own y cs cd W i ∧ (mgmt m.ph = true ∨ P.NoRef) ∧ ∃ pend : Nat → Prop, P.Waits pend ∧
      ∀ e, e < y.ne → y.src e = i → Writing W ch pend m.ph e
  | .await e k => e < y.ne ∧ y.src e = i ∧ mgmt m.ph = true ∧ (∀ v, (k v).Own y cs cd W i) ∧ (∃ pend : Nat → Prop, (∀ v, (k v).Waits pend) ∧
      ∀ e', e' < y.ne → y.src e' = i → e' ≠ e → Writing W ch pend m.ph e') ∧
      ((∃ ws, ch (.req e) = ws ++ [.get] ∧ (∀ r ∈ ws, ∃ v, r = .set v) ∧ (ws ≠ [] → W e) ∧ ch (.rep e) = []) ∨
        (ch (.req e) = [] ∧ ∃ v, ch (.rep e) = [.data v]))
  | .failed => False

theorem Writing.congr {W : Nat → Prop} {ch ch' : Chans V} {pend : Nat → Prop} {ph : Phase} {e : Nat} (h : Writing W ch pend ph e)
    (h1 : ch' (.req e) = ch (.req e)) (h2 : ch' (.rep e) = ch (.rep e)) : Writing W ch' pend ph e := by
  unfold Writing at h ⊢
  rwa [h1, h2]

theorem EdgeOK.congr {y : Sys S V} {cs cd : Nat → Nat} {W : Nat → Prop} {ch ch' : Chans V} {i : Nat} {m : Mdl S V}
    (h : EdgeOK y cs cd W ch i m) (hc : ∀ e, y.src e = i → ch' (.req e) = ch (.req e) ∧ ch' (.rep e) = ch (.rep e)) :
    EdgeOK y cs cd W ch' i m := by
  unfold EdgeOK at h ⊢
  cases hpc : m.pc with
  | idle =>
    rw [hpc] at h
    intro e he hs
    rw [(hc e hs).1, (hc e hs).2]
    exact h e he hs
  | run P =>
    rw [hpc] at h
    obtain ⟨h1, h2, pend, h3, h4⟩ := h
    exact ⟨h1, h2, pend, h3, fun e he hs => (h4 e he hs).congr (hc e hs).1 (hc e hs).2⟩
  | await e k =>
    rw [hpc] at h
    obtain ⟨h1, h2, h3, h4, ⟨pend, h5, h6⟩, h7⟩ := h
    refine ⟨h1, h2, h3, h4, ⟨pend, h5, fun e' he hs hne => (h6 e' he hs hne).congr (hc e' hs).1 (hc e' hs).2⟩, ?_⟩
    rw [(hc e h2).1, (hc e h2).2]
    exact h7
  | failed => rw [hpc] at h; exact h

/-- A pending request: its sender is in a method of a management phase. -/
theorem EdgeOK.pending {y : Sys S V} {cs cd : Nat → Nat} {W : Nat → Prop} {ch : Chans V} {m : Mdl S V} {e : Nat}
    (h : EdgeOK y cs cd W ch (y.src e) m) (he : e < y.ne) {r : Msg V} {rs : List (Msg V)} (hr : ch (.req e) = r :: rs) :
    isIdle m.pc = false ∧ mgmt m.ph = true ∧ (r = .get ∨ ∃ v, r = .set v ∧ W e) := by
  unfold EdgeOK at h
  cases hpc : m.pc with
  | idle => rw [hpc] at h; rw [(h e he rfl).1] at hr; cases hr
  | run P =>
    rw [hpc] at h
    obtain ⟨_, _, pend, _, h4⟩ := h
    obtain ⟨_, h5, h6⟩ := h4 e he rfl
    obtain ⟨_, hw, hm⟩ := h6 (by simp [hr])
    obtain ⟨v, hv⟩ := h5 r (by simp [hr])
    exact ⟨rfl, hm, .inr ⟨v, hv, hw⟩⟩
  | await e0 k =>
    rw [hpc] at h
    obtain ⟨_, _, h3, _, ⟨pend, _, h6⟩, h7⟩ := h
    refine ⟨rfl, h3, ?_⟩
    by_cases ee : e = e0
    · subst ee
      rcases h7 with ⟨ws, a, b, c, _⟩ | ⟨a, _⟩
      · cases ws with
        | nil => rw [hr] at a; simp at a; exact .inl a.1
        | cons w ws =>
          rw [hr] at a
          simp only [List.cons_append, List.cons.injEq] at a
          obtain ⟨v, hv⟩ := b w (by simp)
          exact .inr ⟨v, a.1.trans hv, c (by simp)⟩
      · rw [hr] at a; cases a
    · obtain ⟨_, h5, h8⟩ := h6 e he rfl ee
      obtain ⟨_, hw, _⟩ := h8 (by simp [hr])
      obtain ⟨v, hv⟩ := h5 r (by simp [hr])
      exact .inr ⟨v, hv, hw⟩
  | failed => rw [hpc] at h; exact h.elim

/-! ### The invariant -/

structure Good (y : Sys S V) (cs cd : Nat → Nat) (W : Nat → Prop) (x : Svc) (m : Nat → Mdl S V) (ch : Chans V) : Prop where
  round : RoundOK y x (stat m ch)
  edge : ∀ i, i < y.n → EdgeOK y cs cd W ch i (m i)
  data : ∀ c, ∀ r ∈ ch (.data c), ∃ v, r = .data v

end Verif.RefAccess
