import Verif.Lifecycle.Model

/-! # Lemmas about `Verif.Lifecycle.Model` -/

namespace Verif.Lifecycle

open Verif.Graphs (findProcs mapProcs Sel Conn Inside HasSub C25_find_processes_exact C83_leaves_exact C25_find_processes_nodup)
open Verif.Compiler (dictGet)

theorem mark_mono (l : List Nat) : ∀ (c : Nat → Bool) (q : Nat), c q = true → (mark c l).1 q = true := by
  induction l with
  | nil => intro c q h; exact h
  | cons p l ih =>
    intro c q h
    rw [mark]
    split
    · exact h
    · exact ih _ q (by simp [h])

theorem mark_some (l : List Nat) : ∀ (c : Nat → Bool) (q : Nat), l.Nodup → (mark c l).2 = some q → q ∈ l ∧ c q = true := by
  induction l with
  | nil => intro c q _ h; simp [mark] at h
  | cons p l ih =>
    intro c q hn h
    rw [mark] at h
    split at h
    · rename_i hc; simp at h; subst h; exact ⟨by simp, hc⟩
    · rename_i hc
      have := ih _ q (List.nodup_cons.1 hn).2 h
      have hne : q ≠ p := fun e => (List.nodup_cons.1 hn).1 (e ▸ this.1)
      exact ⟨by simp [this.1], by simpa [hne] using this.2⟩

theorem mark_none (l : List Nat) : ∀ (c : Nat → Bool), (mark c l).2 = none →
    (∀ q ∈ l, c q = false) ∧ ∀ q, (mark c l).1 q = true ↔ c q = true ∨ q ∈ l := by
  induction l with
  | nil => intro c _; simp [mark]
  | cons p l ih =>
    intro c h
    rw [mark] at h ⊢
    split at h
    · simp at h
    · rename_i hc
      simp only [Bool.not_eq_true] at hc
      rw [if_neg (by simp [hc])]
      obtain ⟨h1, h2⟩ := ih _ h
      refine ⟨?_, ?_⟩
      · intro q hq
        rcases List.mem_cons.1 hq with rfl | hq
        · exact hc
        · have := h1 q hq
          by_cases e : q = p
          · simp [e] at this
          · simpa [e] using this
      · intro q
        rw [h2]
        by_cases e : q = p
        · simp [e]
        · simp [e]

theorem mark_ok (l : List Nat) (c : Nat → Bool) (hn : l.Nodup) (h : ∀ q ∈ l, c q = false) : (mark c l).2 = none := by
  cases e : (mark c l).2 with
  | none => rfl
  | some q =>
    have := mark_some l c q hn e
    rw [h q this.1] at this
    simp at this

/-- The networks of the specification: `q` is a leaf process of the network of `p` under `cfg`. -/
def Leaf (nbrs : Nat → List Nat) (cfg : Cfg) (p q : Nat) : Prop :=
  ∃ x, Conn nbrs p x ∧ Inside cfg.cls cfg.sel x q ∧ ∃ m, cfg.sel q = .leaf m

/-- `ord` enumerates a Python set. -/
structure Enum (ord : List Nat → List Nat) : Prop where
  mem : ∀ l x, x ∈ ord l ↔ x ∈ l
  nodup : ∀ l, (ord l).Nodup

variable {ord : List Nat → List Nat} {lim : Nat}

theorem compile_rt (w : W) (p : Nat) (cfg : Cfg) : (compile ord lim w p cfg).1.rt = w.rt ∧ (compile ord lim w p cfg).1.rts = w.rts := by
  unfold compile
  split
  · simp
  · split
    · simp
    · split
      · simp
      · dsimp only; split <;> simp

theorem compile_mono (w : W) (p : Nat) (cfg : Cfg) (q : Nat) (h : w.compiled q = true) : (compile ord lim w p cfg).1.compiled q = true := by
  unfold compile
  split
  · exact h
  · rename_i s found hf
    have hm := mark_mono found w.compiled q h
    split
    · rename_i c y hk; rw [hk] at hm; exact hm
    · rename_i c hk
      rw [hk] at hm
      split
      · exact hm
      · dsimp only; split <;> exact hm

theorem compile_ok (ho : Enum ord) (w w' : W) (p : Nat) (cfg : Cfg) (leaves : List Nat)
    (h : compile ord lim w p cfg = (w', .inr leaves)) :
    (∀ q, Conn w.nbrs p q → w.compiled q = false) ∧ (∀ q, w'.compiled q = true ↔ w.compiled q = true ∨ Conn w.nbrs p q) ∧
    (∀ q, q ∈ leaves ↔ Leaf w.nbrs cfg p q) := by
  unfold compile at h
  split at h
  · simp at h
  · rename_i s found hf
    have hc := C25_find_processes_exact w.nbrs ord ho.mem lim p s found hf
    split at h
    · simp at h
    · rename_i c hk
      have hk1 : (mark w.compiled found).1 = c := by rw [hk]
      have hk2 : (mark w.compiled found).2 = none := by rw [hk]
      obtain ⟨h1, h2⟩ := mark_none found w.compiled hk2
      split at h
      · simp at h
      · rename_i e he
        dsimp only at h
        split at h
        · simp only [Prod.mk.injEq, Sum.inr.injEq] at h
          obtain ⟨rfl, rfl⟩ := h
          refine ⟨fun q hq => h1 q ((hc q).2 hq), ?_, ?_⟩
          · intro q
            show c q = true ↔ _
            rw [← hk1, h2, hc]
          · intro q
            obtain ⟨hn, hl⟩ := C83_leaves_exact cfg.cls cfg.sel lim found _ e he
            rw [Verif.Graphs.dictGet_isSome]
            constructor
            · rintro ⟨m, hm⟩
              obtain ⟨h3, x, h4, h5⟩ := (hl q m).1 hm
              exact ⟨x, (hc x).1 h4, h5, m, h3⟩
            · rintro ⟨x, h4, h5, m, h3⟩
              exact ⟨m, (hl q m).2 ⟨h3, x, (hc x).2 h4, h5⟩⟩
        · simp at h

/-- What `compile` does when the network has a compiled process. -/
theorem compile_already (ho : Enum ord) (w : W) (p : Nat) (cfg : Cfg) (q : Nat) (hq : Conn w.nbrs p q) (hc : w.compiled q = true) :
    (compile ord lim w p cfg).2 = .inl .compileError ∧ findProcs w.nbrs ord lim p [] = none ∨
    ∃ x, Conn w.nbrs p x ∧ w.compiled x = true ∧ (compile ord lim w p cfg).2 = .inl (.already x) := by
  unfold compile
  split
  · rename_i hf; exact Or.inl ⟨rfl, hf⟩
  · rename_i s found hf
    have he := C25_find_processes_exact w.nbrs ord ho.mem lim p s found hf
    have hn := C25_find_processes_nodup w.nbrs ord ho.nodup lim p s found hf
    right
    cases hm : (mark w.compiled found).2 with
    | none =>
      obtain ⟨h1, _⟩ := mark_none found w.compiled hm
      rw [h1 q ((he q).2 hq)] at hc
      simp at hc
    | some x =>
      have := mark_some found w.compiled x hn hm
      refine ⟨x, (he x).1 this.1, this.2, ?_⟩
      have : mark w.compiled found = ((mark w.compiled found).1, some x) := by rw [← hm]
      rw [this]

/-- A compilation that fails after the network has been found and was not compiled leaves every process marked. -/
theorem compile_marks (ho : Enum ord) (w : W) (p : Nat) (cfg : Cfg) (s found : List Nat)
    (hf : findProcs w.nbrs ord lim p [] = some (s, found)) (hu : ∀ q, Conn w.nbrs p q → w.compiled q = false) :
    ∀ q, Conn w.nbrs p q → (compile ord lim w p cfg).1.compiled q = true := by
  intro q hq
  have he := C25_find_processes_exact w.nbrs ord ho.mem lim p s found hf
  have hn := C25_find_processes_nodup w.nbrs ord ho.nodup lim p s found hf
  have hm := mark_ok found w.compiled hn (fun x hx => hu x ((he x).1 hx))
  obtain ⟨_, h2⟩ := mark_none found w.compiled hm
  have e : mark w.compiled found = ((mark w.compiled found).1, none) := by rw [← hm]
  have hq' : (mark w.compiled found).1 q = true := (h2 q).2 (Or.inr ((he q).2 hq))
  unfold compile
  rw [hf]
  dsimp only
  rw [e]
  dsimp only
  split
  · exact hq'
  · split <;> exact hq'

theorem tell_frame (w : W) (r : Nat) (c : Cmd) : (tell w r c).1.rt = w.rt ∧ (tell w r c).1.compiled = w.compiled ∧
    (tell w r c).1.nbrs = w.nbrs := by
  unfold tell
  split
  · simp
  · split <;> simp

theorem tell_rts (w : W) (r : Nat) (c : Cmd) (i : Nat) :
    ((tell w r c).1.rts[i]?).map (fun x => (x.members, x.ready)) = (w.rts[i]?).map (fun x => (x.members, x.ready)) := by
  unfold tell
  split
  · rfl
  · rename_i x hx
    split
    · rfl
    · by_cases e : r = i
      · subst e
        have hl : r < w.rts.length := by
          rcases Nat.lt_or_ge r w.rts.length with h | h
          · exact h
          · rw [List.getElem?_eq_none h] at hx; simp at hx
        simp [List.getElem?_set_self hl, hx]
      · simp [List.getElem?_set_ne e]

theorem create_ok (ho : Enum ord) (w : W) (p : Nat) (cfg : Cfg) :
    (∃ e, (createRuntime ord lim w p cfg).2 = some e ∧ (compile ord lim w p cfg).2 = .inl e ∧
        (createRuntime ord lim w p cfg).1 = (compile ord lim w p cfg).1) ∨
    ∃ w' leaves, createRuntime ord lim w p cfg = (w', if cfg.builds then none else some .buildError) ∧
      w'.rts = w.rts ++ [{ members := leaves, ready := cfg.builds, cmds := [] }] ∧
      (∀ q, q ∈ leaves ↔ Leaf w.nbrs cfg p q) ∧
      (∀ q, w'.rt q = if q = p ∨ q ∈ leaves then some w.rts.length else w.rt q) ∧
      (∀ q, Conn w.nbrs p q → w.compiled q = false) ∧ (∀ q, w'.compiled q = true ↔ w.compiled q = true ∨ Conn w.nbrs p q) := by
  have hrt := compile_rt (ord := ord) (lim := lim) w p cfg
  unfold createRuntime
  cases hc : compile ord lim w p cfg with
  | mk w1 res =>
    rw [hc] at hrt
    replace hrt : w1.rt = w.rt ∧ w1.rts = w.rts := hrt
    cases res with
    | inl e => exact Or.inl ⟨e, rfl, rfl, rfl⟩
    | inr leaves =>
      obtain ⟨h1, h2, h3⟩ := compile_ok ho w w1 p cfg leaves hc
      refine Or.inr ⟨_, leaves, rfl, ?_, h3, ?_, h1, h2⟩
      · simp [hrt.2]
      · intro q; simp [hrt.1, hrt.2]

/-- The process and the command of a call; `connect` has none. -/
def Call.cmd : Call → Option (Nat × Cmd)
  | .run p cond _ => some (p, .run cond)
  | .wait p => some (p, .wait)
  | .pause p => some (p, .pause)
  | .stop p => some (p, .stop)
  | .connect _ _ => none

/-- The three kinds of step. -/
theorem call_cases (ho : Enum ord) (w : W) (c : Call) :
    (∃ p r k, c.cmd = some (p, k) ∧ w.rt p = some r ∧ call ord lim w c = tell w r k) ∨
    ((call ord lim w c).1.rt = w.rt ∧ (call ord lim w c).1.rts = w.rts ∧
      (∀ q, w.compiled q = true → (call ord lim w c).1.compiled q = true) ∧ (∀ p k, c.cmd = some (p, k) → w.rt p = none)) ∨
    (∃ p cond cfg w' leaves, c = .run p cond (some cfg) ∧ w.rt p = none ∧
      w'.rts = w.rts ++ [{ members := leaves, ready := cfg.builds, cmds := [] }] ∧
      (∀ q, q ∈ leaves ↔ Leaf w.nbrs cfg p q) ∧
      (∀ q, w'.rt q = if q = p ∨ q ∈ leaves then some w.rts.length else w.rt q) ∧
      (∀ q, Conn w.nbrs p q → w.compiled q = false) ∧ (∀ q, w'.compiled q = true ↔ w.compiled q = true ∨ Conn w.nbrs p q) ∧
      call ord lim w c = if cfg.builds then tell w' w.rts.length (.run cond) else (w', .buildError)) := by
  cases c with
  | run p cond cfg =>
    cases hr : w.rt p with
    | some r => exact Or.inl ⟨p, r, _, rfl, hr, by simp [call, hr]⟩
    | none =>
      cases cfg with
      | none =>
        refine Or.inr (Or.inl ?_)
        simp only [call, hr]
        refine ⟨trivial, trivial, fun q h => h, ?_⟩
        intro p' k h; simp [Call.cmd] at h; rw [← h.1]; exact hr
      | some cfg =>
        rcases create_ok (lim := lim) ho w p cfg with ⟨e, h1, h2, h3⟩ | ⟨w', leaves, h1, h2, h3, h4, h5, h6⟩
        · refine Or.inr (Or.inl ?_)
          have hE : call ord lim w (.run p cond (some cfg)) = ((createRuntime ord lim w p cfg).1, e) := by
            unfold call
            simp only [hr]
            have : createRuntime ord lim w p cfg = ((createRuntime ord lim w p cfg).1, some e) := by rw [← h1]
            rw [this]
          rw [hE, h3]
          refine ⟨(compile_rt w p cfg).1, (compile_rt w p cfg).2, fun q h => compile_mono w p cfg q h, ?_⟩
          intro p' k h; simp [Call.cmd] at h; rw [← h.1]; exact hr
        · refine Or.inr (Or.inr ⟨p, cond, cfg, w', leaves, rfl, hr, h2, h3, h4, h5, h6, ?_⟩)
          unfold call
          simp only [hr]
          rw [h1]
          cases cfg.builds with
          | false => simp
          | true =>
            have : w'.rt p = some w.rts.length := by rw [h4]; simp
            simp [this]
  | wait p =>
    cases hr : w.rt p with
    | some r => exact Or.inl ⟨p, r, _, rfl, hr, by simp [call, hr]⟩
    | none =>
      refine Or.inr (Or.inl ?_)
      simp only [call, hr]
      refine ⟨trivial, trivial, fun q h => h, ?_⟩
      intro p' k h; simp [Call.cmd] at h; rw [← h.1]; exact hr
  | pause p =>
    cases hr : w.rt p with
    | some r => exact Or.inl ⟨p, r, _, rfl, hr, by simp [call, hr]⟩
    | none =>
      refine Or.inr (Or.inl ?_)
      simp only [call, hr]
      refine ⟨trivial, trivial, fun q h => h, ?_⟩
      intro p' k h; simp [Call.cmd] at h; rw [← h.1]; exact hr
  | stop p =>
    cases hr : w.rt p with
    | some r => exact Or.inl ⟨p, r, _, rfl, hr, by simp [call, hr]⟩
    | none =>
      refine Or.inr (Or.inl ?_)
      simp only [call, hr]
      refine ⟨trivial, trivial, fun q h => h, ?_⟩
      intro p' k h; simp [Call.cmd] at h; rw [← h.1]; exact hr
  | connect a b =>
    refine Or.inr (Or.inl ⟨rfl, rfl, fun q h => h, ?_⟩)
    intro p k h; simp [Call.cmd] at h

end Verif.Lifecycle
