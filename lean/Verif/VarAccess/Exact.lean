import Verif.VarAccess.Props

/-!
# C12: exactly which histories of sparse sets work
-/

namespace Verif.VarAccess

/-- The sets of a history, one after the other; the first failure ends it. -/
def setHistory (mid vid : Nat) (init : Csr) (dom : Domain) : List Csr → Res Domain
  | [] => .ok dom
  | v :: vals =>
    match sparseSet dom mid vid init v with
    | .ok (d, _) => setHistory mid vid init d vals
    | .blocked => .blocked
    | .failed => .failed

theorem noZeros_or (m : Csr) : m.NoZeros ∨ ∃ x ∈ m.entries, x.2 = 0 := by
  by_cases h : ∃ x ∈ m.entries, x.2 = 0
  · exact Or.inr h
  · left
    intro x hx h0
    exact h ⟨x, hx, h0⟩

/-- A set on a value with a stored zero fails. -/
theorem sparseSet_poisoned (dom : Domain) (mid vid : Nat) (vs : Vars) (init cur next : Csr)
    (hd : dom mid = some vs) (hv : vs vid = some (.csr cur)) (hpc : cur.pattern = init.pattern) (hz : ∃ x ∈ cur.entries, x.2 = 0) :
    sparseSet dom mid vid init next = .failed := by
  by_cases hn : next.pattern = init.pattern
  · have h1 : sparseSetCheck init next = some (next.entries.map (·.2)) := by
      unfold sparseSetCheck
      rw [if_pos]
      · rfl
      · exact hn.symm
    simp only [sparseSet, h1]
    rw [varSet_eq hd hv]
    simp only [setVar, Int.toNat_natCast, takeN_self]
    have hlen : (cur.findNz.map (·.1)).length ≠ (next.entries.map (·.2)).length := by
      have e1 : cur.entries.length = init.entries.length := by
        have := congrArg List.length hpc; simpa [Csr.pattern] using this
      have e2 : next.entries.length = init.entries.length := by
        have := congrArg List.length hn; simpa [Csr.pattern] using this
      obtain ⟨x, hx, hx0⟩ := hz
      have := filter_length_lt (fun x : (Nat × Nat) × Tok => decide (x.2 ≠ 0)) cur.entries x hx (by simp [hx0])
      simp only [List.length_map, Csr.findNz]
      omega
    simp only [mkCsr, hlen, if_false]
  · exact C12_pattern_rejected _ _ _ _ _ hn

/-- **C12, exact.** A history of sets, starting from a value on the pattern of the initial value, succeeds if and only if every value set has that pattern
and no value that is *overwritten* (the current one and every set but the last) has a stored zero; and then, if the initial value has no stored zero, the
last value is read back. -/
theorem C12_history_exact (mid vid : Nat) (init : Csr) : ∀ (vals : List Csr) (dom : Domain) (vs : Vars) (cur : Csr),
    dom mid = some vs → vs vid = some (.csr cur) → cur.pattern = init.pattern →
    ((∃ dom', setHistory mid vid init dom vals = .ok dom') ↔
      (∀ v ∈ vals, v.pattern = init.pattern) ∧ (∀ v ∈ (cur :: vals).dropLast, v.NoZeros)) ∧
    ∀ dom', setHistory mid vid init dom vals = .ok dom' → init.NoZeros →
      sparseGet dom' mid vid init = .ok ((cur :: vals).getLast (by simp))
  | [], dom, vs, cur, hd, hv, hpc => by
    refine ⟨by simp [setHistory], ?_⟩
    intro dom' h hi
    simp only [setHistory, Res.ok.injEq] at h
    subst h
    exact sparseGet_ok dom mid vid vs init cur hd hv hi hpc
  | v :: vals, dom, vs, cur, hd, hv, hpc => by
    rw [setHistory, List.dropLast_cons_of_ne_nil (by simp), List.getLast_cons (by simp)]
    rcases noZeros_or cur with hc | hz
    · by_cases hp : v.pattern = init.pattern
      · rw [sparseSet_ok dom mid vid vs init cur v hd hv hc hpc hp]
        obtain ⟨ih1, ih2⟩ := C12_history_exact mid vid init vals (dom.upd mid (vs.upd vid (.csr v))) (vs.upd vid (.csr v)) v
          (by simp [Domain.upd]) (by simp [Vars.upd]) hp
        refine ⟨?_, ih2⟩
        simp only
        rw [ih1]
        constructor
        · rintro ⟨a, b⟩
          refine ⟨?_, ?_⟩
          · intro w hw
            rcases List.mem_cons.1 hw with h | h
            · rw [h]; exact hp
            · exact a w h
          · intro w hw
            rcases List.mem_cons.1 hw with h | h
            · rw [h]; exact hc
            · exact b w h
        · rintro ⟨a, b⟩
          exact ⟨fun w hw => a w (by simp [hw]), fun w hw => b w (by simp [hw])⟩
      · rw [C12_pattern_rejected dom mid vid init v hp]
        refine ⟨⟨?_, ?_⟩, ?_⟩
        · rintro ⟨_, h⟩; cases h
        · rintro ⟨h, _⟩; exact absurd (h v (by simp)) hp
        · intro _ h; cases h
    · rw [sparseSet_poisoned dom mid vid vs init cur v hd hv hpc hz]
      refine ⟨⟨?_, ?_⟩, ?_⟩
      · rintro ⟨_, h⟩; cases h
      · rintro ⟨_, h⟩
        obtain ⟨x, hx, h0⟩ := hz
        exact absurd h0 (h cur (by simp) x hx)
      · intro _ h; cases h

/-- Both cases occur. -/
theorem C12_example_history :
    (∃ d, setHistory 0 0 exInit exSparse [⟨[((0, 0), 1), ((1, 1), 2)]⟩, ⟨[((0, 0), 0), ((1, 1), 7)]⟩] = .ok d) ∧
    ¬ ∃ d, setHistory 0 0 exInit exSparse [⟨[((0, 0), 0), ((1, 1), 2)]⟩, ⟨[((0, 0), 3), ((1, 1), 7)]⟩] = .ok d := by
  have h := fun vals => (C12_history_exact 0 0 exInit vals exSparse _ exInit rfl rfl rfl).1
  rw [h, h]
  constructor
  · refine ⟨by decide, ?_⟩
    intro v hv x hx
    simp [exInit] at hv
    rcases hv with rfl | rfl <;> simp at hx <;> rcases hx with rfl | rfl <;> decide
  · rintro ⟨_, h2⟩
    exact h2 ⟨[((0, 0), 0), ((1, 1), 2)]⟩ (by simp) ((0, 0), 0) (by simp) rfl

end Verif.VarAccess
