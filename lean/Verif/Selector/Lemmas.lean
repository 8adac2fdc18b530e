import Verif.Selector.Model

namespace Verif.Selector

@[simp] theorem upd_same (f : Nat → Chan) (i : Nat) (c : Chan) : upd f i c i = c := by simp [upd]
theorem upd_ne (f : Nat → Chan) {i j : Nat} (c : Chan) (h : j ≠ i) : upd f i c j = f j := by
  simp [upd, h]

/-- Safety invariant: a chosen channel has data. -/
structure Safe (c : Cfg) (s : St) : Prop where
  chosen : ∀ k i, s.sel = .unset k i → i < c.n ∧ 0 < (s.chan i).queue

theorem safe_step {c : Cfg} {s : St} (h : Safe c s) (l : Lbl) : Safe c (step c s l) := by
  have key : ∀ (f : Nat → Chan), (∀ i, (s.chan i).queue ≤ (f i).queue) →
      ∀ k i, s.sel = .unset k i → i < c.n ∧ 0 < (f i).queue := by
    intro f hf k i hs
    have := h.chosen k i hs
    exact ⟨this.1, Nat.lt_of_lt_of_le this.2 (hf i)⟩
  cases l with
  | arrive i =>
    simp only [step]
    constructor
    refine key _ ?_
    intro j; by_cases e : j = i
    · subst e; simp
    · simp [upd_ne _ _ e]
  | cb i =>
    simp only [step, cbStep]
    constructor
    split <;> repeat' split
    all_goals first
      | exact h.chosen
      | (refine key _ ?_
         intro j; by_cases e : j = i
         · subst e; simp
         · simp [upd_ne _ _ e])
      | (intro k i' hs; simp at hs; done)
      | skip
    all_goals
      intro k i' hs
      refine key _ ?_ k i' hs
      intro j; by_cases e : j = i
      · subst e; simp
      · simp [upd_ne _ _ e]
  | select =>
    simp only [step]; split
    · constructor; intro k i hs; simp at hs
    · exact h
  | sel =>
    simp only [step, selStep]
    split
    · exact h
    · split <;> constructor <;> intro k i hs <;> simp at hs
    · rename_i k hk
      split
      · rename_i hkn
        split
        · constructor; intro k' i hs; simp at hs; obtain ⟨_, rfl⟩ := hs; exact ⟨hkn, by assumption⟩
        · constructor; intro k' i hs; simp at hs
      · constructor; intro k' i hs; simp at hs
    · rename_i k i hk
      have hc := h.chosen k i hk
      split
      · constructor; intro k' i' hs; simp at hs; obtain ⟨_, rfl⟩ := hs
        refine ⟨hc.1, ?_⟩
        by_cases e : i = k
        · subst e; simp [hc.2]
        · simp [upd_ne _ _ e, hc.2]
      · constructor; intro k' i' hs; simp at hs
    · exact h
    · constructor; intro k' i' hs; simp at hs
  | recv i =>
    simp only [step]; split
    · rename_i hp
      constructor; intro k i' hs; simp [hp.1] at hs
    · exact h

theorem safe_run (c : Cfg) : ∀ (sched : List Lbl) (s : St), Safe c s → Safe c (runFrom c s sched) := by
  intro sched
  induction sched with
  | nil => intro s h; exact h
  | cons l ls ih => intro s h; exact ih _ (safe_step h l)

/-- Some callback will wake up the waiting thread. -/
def Wake (s : St) : Prop := ∃ j, (s.chan j).cb = .notify

/-- Channel `i` cannot be missed by a thread that has just found it empty. -/
def Watch (s : St) (i : Nat) : Prop :=
  (s.chan i).queue = 0 ∨ (s.chan i).cb = .check false ∨ Wake s

/-- Channels already found empty in the current scan. -/
def Scanned : SPc → Nat → Prop
  | .scan k, i => i < k
  | .waiting, _ => True
  | _, _ => False

/-- Channels whose observer is set. -/
def Observed : SPc → Nat → Prop
  | .setObs k, i => i < k
  | .scan _, _ => True
  | .waiting, _ => True
  | .woken, _ => True
  | _, _ => False

def CbOk : CPc → Prop
  | .wait => True
  | .taken => True
  | .check _ => True
  | .notify => True
  | _ => False

/-- Invariant of the machine with both fused steps. -/
structure Live (c : Cfg) (s : St) : Prop where
  cbs : ∀ i, CbOk (s.chan i).cb
  obs : ∀ i, i < c.n → Observed s.sel i → (s.chan i).obs = true
  watch : ∀ i, i < c.n → Scanned s.sel i → Watch s i

theorem live_init (c : Cfg) : Live c init := by
  constructor <;> simp [init, CbOk, Observed, Scanned]

theorem scanned_observed {p : SPc} {i : Nat} (h : Scanned p i) : Observed p i := by
  cases p <;> simp_all [Scanned, Observed]

theorem live_upd {c : Cfg} {s : St} (h : Live c s) (i : Nat) (ch : Chan)
    (ho : ch.obs = (s.chan i).obs) (hc : CbOk ch.cb) (hn : (s.chan i).cb ≠ .notify)
    (hw : i < c.n → (s.chan i).obs = true → Watch s i →
      ch.queue = 0 ∨ ch.cb = .check false ∨ ch.cb = .notify ∨ Wake s) :
    Live c { s with chan := upd s.chan i ch } := by
  have wk : Wake s → Wake { s with chan := upd s.chan i ch } := by
    rintro ⟨j, hj⟩
    refine ⟨j, ?_⟩
    have : j ≠ i := by intro e; subst e; exact hn hj
    simp only [upd_ne _ _ this]; exact hj
  constructor
  · intro j
    by_cases e : j = i
    · subst e; simp [hc]
    · simp only [upd_ne _ _ e]; exact h.cbs j
  · intro j hj hob
    by_cases e : j = i
    · subst e; simp [ho, h.obs j hj hob]
    · simp only [upd_ne _ _ e]; exact h.obs j hj hob
  · intro j hj hsc
    have hwj := h.watch j hj hsc
    by_cases e : j = i
    · subst e
      simp only [Watch, upd_same]
      rcases hw hj (h.obs j hj (scanned_observed hsc)) hwj with a | a | a | a
      · exact Or.inl a
      · exact Or.inr (Or.inl a)
      · exact Or.inr (Or.inr ⟨j, by simp [a]⟩)
      · exact Or.inr (Or.inr (wk a))
    · simp only [Watch, upd_ne _ _ e]
      rcases hwj with a | a | a
      · exact Or.inl a
      · exact Or.inr (Or.inl a)
      · exact Or.inr (Or.inr (wk a))

theorem live_sel {c : Cfg} {s : St} (h : Live c s) (p : SPc) (r : List Nat)
    (ho : ∀ i, i < c.n → Observed p i → (s.chan i).obs = true)
    (hw : ∀ i, i < c.n → Scanned p i → Watch s i) :
    Live c { s with sel := p, results := r } := by
  constructor
  · exact h.cbs
  · exact ho
  · exact hw

theorem live_step {c : Cfg} (hp : c.atomicPut = true) (hc : c.atomicCall = true) {s : St}
    (h : Live c s) (l : Lbl) : Live c (step c s l) := by
  cases l with
  | arrive i =>
    simp only [step]
    constructor
    · intro j
      by_cases e : j = i
      · subst e; simp [h.cbs j]
      · simp only [upd_ne _ _ e]; exact h.cbs j
    · intro j hj hob
      have := h.obs j hj hob
      by_cases e : j = i
      · subst e; simp [this]
      · simp only [upd_ne _ _ e]; exact this
    · intro j hj hsc
      have wk : Wake s → Wake { s with chan := upd s.chan i { s.chan i with req := (s.chan i).req + 1 } } := by
        rintro ⟨j', hj'⟩
        refine ⟨j', ?_⟩
        by_cases e : j' = i
        · subst e; simp [hj']
        · simp only [upd_ne _ _ e]; exact hj'
      rcases h.watch j hj hsc with a | a | a
      · left
        by_cases e : j = i
        · subst e; simp [a]
        · simp only [upd_ne _ _ e]; exact a
      · right; left
        by_cases e : j = i
        · subst e; simp [a]
        · simp only [upd_ne _ _ e]; exact a
      · exact Or.inr (Or.inr (wk a))
  | cb i =>
    simp only [step, cbStep, hp, hc, if_true]
    split
    · rename_i hcb
      split
      · refine live_upd h i _ rfl trivial (by simp [hcb]) ?_
        intro _ _ hw
        rcases hw with a | a | a
        · exact Or.inl a
        · simp [hcb] at a
        · exact Or.inr (Or.inr (Or.inr a))
      · exact h
    · rename_i hcb
      refine live_upd h i _ rfl trivial (by simp [hcb]) ?_
      intro _ _ hw
      rcases hw with a | a | a
      · right; left; simp [a]
      · simp [hcb] at a
      · exact Or.inr (Or.inr (Or.inr a))
    · rename_i b hcb
      have := h.cbs i; simp [hcb, CbOk] at this
    · rename_i b hcb
      split
      · refine live_upd h i _ rfl trivial (by simp [hcb]) ?_
        intro _ _ _
        exact Or.inr (Or.inr (Or.inl rfl))
      · rename_i hb
        refine live_upd h i _ rfl trivial (by simp [hcb]) ?_
        intro _ ho hw
        rcases hw with a | a | a
        · exact Or.inl a
        · rw [hcb] at a; injection a with a; simp [ho, a] at hb
        · exact Or.inr (Or.inr (Or.inr a))
    · rename_i hcb
      have := h.cbs i; simp [hcb, CbOk] at this
    · rename_i hcb
      split
      · exact h
      · rename_i hl
        have hns : ∀ j, ¬ Scanned (if s.sel = .waiting then .woken else s.sel) j := by
          intro j hsc
          cases hs : s.sel <;> simp [hs, SPc.locked] at hl <;> simp [hs, Scanned] at hsc
        have hob : ∀ j, Observed (if s.sel = .waiting then .woken else s.sel) j → Observed s.sel j := by
          intro j hsc
          cases hs : s.sel <;> simp [hs, Observed] at hsc <;> simp_all [Observed]
        constructor
        · intro j
          by_cases e : j = i
          · subst e; simp [CbOk]
          · simp only [upd_ne _ _ e]; exact h.cbs j
        · intro j hj ho
          have := h.obs j hj (hob j ho)
          by_cases e : j = i
          · subst e; simp [this]
          · simp only [upd_ne _ _ e]; exact this
        · intro j hj hsc; exact absurd hsc (hns j)
    · rename_i hcb
      have := h.cbs i; simp [hcb, CbOk] at this
  | select =>
    simp only [step]; split
    · exact live_sel h (.setObs 0) _ (by simp [Observed]) (by simp [Scanned])
    · exact h
  | sel =>
    simp only [step, selStep]
    split
    · exact h
    · rename_i k hk
      have ho := h.obs
      rw [hk] at ho
      split
      · constructor
        · intro j
          by_cases e : j = k
          · subst e; simp [h.cbs j]
          · simp only [upd_ne _ _ e]; exact h.cbs j
        · intro j hj hob
          simp only [Observed] at hob
          by_cases e : j = k
          · subst e; simp
          · simp only [upd_ne _ _ e]; exact ho j hj (show j < k by omega)
        · intro j hj hsc; simp [Scanned] at hsc
      · refine live_sel h (.scan 0) _ ?_ (by simp [Scanned])
        intro j hj _
        exact ho j hj (show j < k by omega)
    · rename_i k hk
      have ho := h.obs
      have hw := h.watch
      rw [hk] at ho hw
      split
      · split
        · exact live_sel h _ _ (by simp [Observed]) (by simp [Scanned])
        · refine live_sel h (.scan (k + 1)) _ (fun j hj _ => ho j hj trivial) ?_
          intro j hj hsc
          simp only [Scanned] at hsc
          by_cases e : j = k
          · subst e; left; omega
          · exact hw j hj (show j < k by omega)
      · refine live_sel h .waiting _ (fun j hj _ => ho j hj trivial) ?_
        intro j hj _
        exact hw j hj (show j < k by omega)
    · rename_i k i hk
      split
      · constructor
        · intro j
          by_cases e : j = k
          · subst e; simp [h.cbs j]
          · simp only [upd_ne _ _ e]; exact h.cbs j
        · intro j hj hob; simp [Observed] at hob
        · intro j hj hsc; simp [Scanned] at hsc
      · exact live_sel h _ _ (by simp [Observed]) (by simp [Scanned])
    · exact h
    · rename_i hk
      have ho := h.obs
      rw [hk] at ho
      exact live_sel h (.scan 0) _ (fun j hj _ => ho j hj trivial) (by simp [Scanned])
  | recv i =>
    simp only [step]; split
    · rename_i hh
      constructor
      · intro j
        by_cases e : j = i
        · subst e; simp [h.cbs j]
        · simp only [upd_ne _ _ e]; exact h.cbs j
      · intro j hj hob; simp [hh.1, Observed] at hob
      · intro j hj hsc; simp [hh.1, Scanned] at hsc
    · exact h

theorem live_run {c : Cfg} (hp : c.atomicPut = true) (hc : c.atomicCall = true) :
    ∀ (sched : List Lbl) (s : St), Live c s → Live c (runFrom c s sched) := by
  intro sched
  induction sched with
  | nil => intro s h; exact h
  | cons l ls ih => intro s h; exact ih _ (live_step hp hc h l)

/-- The scan, run alone, finds the first channel with data. -/
theorem scan_alone (c : Cfg) (i : Nat) :
    ∀ (m : Nat) (s : St) (k : Nat), i - k = m → k ≤ i → i < c.n → s.sel = .scan k →
      0 < (s.chan i).queue → (∀ j, j < i → (s.chan j).queue = 0) →
      runFrom c s (List.replicate (m + 1) .sel) = { s with sel := .unset 0 i } := by
  intro m
  induction m with
  | zero =>
    intro s k h1 h2 h3 h4 h5 h6
    have : k = i := by omega
    subst this
    simp [runFrom, step, selStep, h4, h3, h5]
  | succ m ih =>
    intro s k h1 h2 h3 h4 h5 h6
    have hk : (s.chan k).queue = 0 := h6 k (by omega)
    have hst : step c s .sel = { s with sel := .scan (k + 1) } := by
      have : k < c.n := by omega
      simp [step, selStep, h4, this, hk]
    rw [List.replicate_succ]
    simp only [runFrom, List.foldl_cons, hst]
    exact ih { s with sel := .scan (k + 1) } (k + 1) (by omega) (by omega) h3 rfl h5 h6

theorem unset_alone (c : Cfg) (i : Nat) :
    ∀ (m : Nat) (s : St) (k : Nat), c.n - k = m → k ≤ c.n → s.sel = .unset k i →
      let t := runFrom c s (List.replicate (m + 1) .sel)
      t.sel = .idle ∧ t.results = i :: s.results ∧ ∀ j, (t.chan j).queue = (s.chan j).queue := by
  intro m
  induction m with
  | zero =>
    intro s k h1 h2 h3
    have : ¬ k < c.n := by omega
    simp [runFrom, step, selStep, h3, this]
  | succ m ih =>
    intro s k h1 h2 h3
    have hk : k < c.n := by omega
    have hst : step c s .sel =
        { s with chan := upd s.chan k { s.chan k with obs := false }, sel := .unset (k + 1) i } := by
      simp [step, selStep, h3, hk]
    rw [List.replicate_succ]
    simp only [runFrom, List.foldl_cons, hst]
    have := ih { s with chan := upd s.chan k { s.chan k with obs := false }, sel := .unset (k + 1) i }
      (k + 1) (by omega) (by omega) rfl
    refine ⟨this.1, this.2.1, ?_⟩
    intro j
    have h4 := this.2.2 j
    simp only [runFrom] at h4
    rw [h4]
    by_cases e : j = k
    · subst e; simp
    · simp only [upd_ne _ _ e]

theorem set_alone (c : Cfg) :
    ∀ (m : Nat) (s : St) (k : Nat), c.n - k = m → k ≤ c.n → s.sel = .setObs k →
      let t := runFrom c s (List.replicate (m + 1) .sel)
      t.sel = .scan 0 ∧ t.results = s.results ∧ ∀ j, (t.chan j).queue = (s.chan j).queue := by
  intro m
  induction m with
  | zero =>
    intro s k h1 h2 h3
    have : ¬ k < c.n := by omega
    simp [runFrom, step, selStep, h3, this]
  | succ m ih =>
    intro s k h1 h2 h3
    have hk : k < c.n := by omega
    have hst : step c s .sel =
        { s with chan := upd s.chan k { s.chan k with obs := true }, sel := .setObs (k + 1) } := by
      simp [step, selStep, h3, hk]
    rw [List.replicate_succ]
    simp only [runFrom, List.foldl_cons, hst]
    have := ih { s with chan := upd s.chan k { s.chan k with obs := true }, sel := .setObs (k + 1) }
      (k + 1) (by omega) (by omega) rfl
    refine ⟨this.1, this.2.1, ?_⟩
    intro j
    have h4 := this.2.2 j
    simp only [runFrom] at h4
    rw [h4]
    by_cases e : j = k
    · subst e; simp
    · simp only [upd_ne _ _ e]

theorem runFrom_append (c : Cfg) (s : St) (a b : List Lbl) :
    runFrom c s (a ++ b) = runFrom c (runFrom c s a) b := by simp [runFrom]

end Verif.Selector
