import Mathlib.Data.List.Dedup
import Verif.Lifecycle.Lemmas

/-!
# C93: every process of a network controls the same run, and a network is compiled once

The histories are arbitrary sequences of calls on arbitrarily many networks; a call that raises is followed by further calls.
-/

namespace Verif.Lifecycle

open Verif.Graphs (findProcs mapProcs Sel Conn Inside HasSub inside_last)

variable {ord : List Nat → List Nat} {lim : Nat}

/-- `top` are the processes the user created. SubProcessModels construct their sub processes themselves, so none of these is one. -/
def Owned (top : Nat → Prop) : Call → Prop
  | .run _ _ (some cfg) => ∀ a b, HasSub cfg.cls cfg.sel a b → ¬ top b
  | _ => True

/-- The commands of those calls that were made on a process in `net`. -/
def commands (net : List Nat) (h : List Call) : List Cmd :=
  h.filterMap fun c => match c.cmd with
    | some (q, k) => if q ∈ net then some k else none
    | none => none

theorem leaf_top {top : Nat → Prop} {cfg : Cfg} (hown : ∀ a b, HasSub cfg.cls cfg.sel a b → ¬ top b) {nbrs : Nat → List Nat} {p q : Nat}
    (hq : top q) (h : Leaf nbrs cfg p q) : Conn nbrs p q ∧ ∃ m, cfg.sel q = .leaf m := by
  obtain ⟨x, h1, h2, h3⟩ := h
  rcases inside_last cfg.cls cfg.sel h2 with e | ⟨y, _, hy⟩
  · subst e; exact ⟨h1, h3⟩
  · exact absurd hq (hown _ _ hy)

theorem call_compiled (ho : Enum ord) (w : W) (c : Call) (q : Nat) (h : w.compiled q = true) : (call ord lim w c).1.compiled q = true := by
  rcases call_cases (lim := lim) ho w c with ⟨p, r, k, _, _, h3⟩ | ⟨_, _, h3, _⟩ | ⟨p, cond, cfg, w', leaves, _, _, _, _, _, _, h7, h8⟩
  · rw [h3, (tell_frame w r k).2.1]; exact h
  · exact h3 q h
  · have : w'.compiled q = true := (h7 q).2 (Or.inl h)
    rw [h8]; split
    · rw [(tell_frame w' _ _).2.1]; exact this
    · exact this

/-- A compiled process that the user created keeps the runtime it has. -/
theorem call_keeps (ho : Enum ord) {top : Nat → Prop} (w : W) (c : Call) (hown : Owned top c) (q : Nat) (ht : top q)
    (h : w.compiled q = true) : (call ord lim w c).1.rt q = w.rt q := by
  rcases call_cases (lim := lim) ho w c with ⟨p, r, k, _, _, h3⟩ | ⟨h1, _, _, _⟩ | ⟨p, cond, cfg, w', leaves, rfl, _, _, h4, h5, h6, _, h8⟩
  · rw [h3, (tell_frame w r k).1]
  · rw [h1]
  · have : w'.rt q = w.rt q := by
      rw [h5, if_neg]
      rintro (rfl | hl)
      · rw [h6 q (.refl q)] at h; simp at h
      · have := leaf_top hown ht ((h4 q).1 hl)
        rw [h6 q this.1] at h; simp at h
    rw [h8]; split
    · rw [(tell_frame w' _ _).1]; exact this
    · exact this

theorem after_keeps (ho : Enum ord) {top : Nat → Prop} (h : List Call) : ∀ (w : W), (∀ c ∈ h, Owned top c) → ∀ q, top q → w.compiled q = true →
    (after ord lim w h).rt q = w.rt q ∧ (after ord lim w h).compiled q = true := by
  induction h with
  | nil => intro w _ q _ hc; exact ⟨rfl, hc⟩
  | cons c h ih =>
    intro w hown q ht hc
    have := ih (call ord lim w c).1 (fun d hd => hown d (by simp [hd])) q ht (call_compiled ho w c q hc)
    rw [call_keeps ho w c (hown c (by simp)) q ht hc] at this
    exact this

/-- Every runtime exists, and what the user created and has a runtime is compiled. -/
structure Sane (top : Nat → Prop) (w : W) : Prop where
  ex : ∀ q r, w.rt q = some r → r < w.rts.length
  comp : ∀ q r, top q → w.rt q = some r → w.compiled q = true
  mem : ∀ (r : Nat) (x : Rt), w.rts[r]? = some x → ∀ q ∈ x.members, top q → w.rt q = some r

theorem tell_sane {top : Nat → Prop} (w : W) (r : Nat) (k : Cmd) (h : Sane top w) : Sane top (tell w r k).1 := by
  have hf := tell_frame w r k
  have hl : (tell w r k).1.rts.length = w.rts.length := by
    unfold tell; split
    · rfl
    · split <;> simp
  refine ⟨?_, ?_, ?_⟩
  · rw [hf.1, hl]; exact h.ex
  · rw [hf.1, hf.2.1]; exact h.comp
  · intro i x hx q hq ht
    rw [hf.1]
    have := tell_rts w r k i
    rw [hx] at this
    cases hy : w.rts[i]? with
    | none => rw [hy] at this; simp at this
    | some y =>
      rw [hy] at this
      simp at this
      exact h.mem i y hy q (this.1 ▸ hq) ht

theorem call_sane (ho : Enum ord) {top : Nat → Prop} (w : W) (c : Call) (hown : Owned top c) (h : Sane top w) : Sane top (call ord lim w c).1 := by
  rcases call_cases (lim := lim) ho w c with ⟨p, r, k, _, _, h3⟩ | ⟨h1, h2, h3, _⟩ | ⟨p, cond, cfg, w', leaves, rfl, hp, h3, h4, h5, h6, h7, h8⟩
  · rw [h3]; exact tell_sane w r k h
  · refine ⟨?_, ?_, ?_⟩
    · rw [h1, h2]; exact h.ex
    · rw [h1]; intro q r ht hr; exact h3 q (h.comp q r ht hr)
    · rw [h1, h2]; exact h.mem
  · have hs : Sane top w' := by
      refine ⟨?_, ?_, ?_⟩
      · intro q r hr
        rw [h5] at hr; rw [h3]
        simp only [List.length_append, List.length_singleton]
        split at hr
        · simp at hr; omega
        · have := h.ex q r hr; omega
      · intro q r ht hr
        rw [h5] at hr
        rw [h7]
        split at hr
        · rename_i hc
          rcases hc with rfl | hl
          · exact Or.inr (.refl q)
          · exact Or.inr (leaf_top hown ht ((h4 q).1 hl)).1
        · exact Or.inl (h.comp q r ht hr)
      · intro r x hx q hq ht
        rw [h5]
        rw [h3] at hx
        rcases Nat.lt_trichotomy r w.rts.length with hr | rfl | hr
        · rw [List.getElem?_append_left hr] at hx
          have hm := h.mem r x hx q hq ht
          have hc := h.comp q r ht hm
          rw [if_neg]
          · exact hm
          · rintro (rfl | hl)
            · rw [hp] at hm; simp at hm
            · rw [h6 q (leaf_top hown ht ((h4 q).1 hl)).1] at hc; simp at hc
        · simp at hx; subst hx
          rw [if_pos (Or.inr hq)]
        · rw [List.getElem?_eq_none (by simp; omega)] at hx; simp at hx
    rw [h8]; split
    · exact tell_sane _ _ _ hs
    · exact hs

theorem after_sane (ho : Enum ord) {top : Nat → Prop} (h : List Call) : ∀ (w : W), (∀ c ∈ h, Owned top c) → Sane top w →
    Sane top (after ord lim w h) := by
  induction h with
  | nil => intro w _ hs; exact hs
  | cons c h ih =>
    intro w hown hs
    exact ih _ (fun d hd => hown d (by simp [hd])) (call_sane ho w c (hown c (by simp)) hs)

theorem fresh_sane (top : Nat → Prop) (nbrs : Nat → List Nat) : Sane top (fresh nbrs) :=
  ⟨by simp [fresh], by simp [fresh], by simp [fresh]⟩

/-! ## Main theorems -/

/-- **C93.** In every history, no process that the user created is executed by two runtimes: if it is among the leaf processes of a runtime,
that is the runtime its methods reach, and no other runtime has it. -/
theorem C93_never_in_two_runs (ho : Enum ord) (top : Nat → Prop) (nbrs : Nat → List Nat) (h : List Call) (hown : ∀ c ∈ h, Owned top c)
    (i j : Nat) (x y : Rt) (hx : (after ord lim (fresh nbrs) h).rts[i]? = some x) (hy : (after ord lim (fresh nbrs) h).rts[j]? = some y)
    (q : Nat) (hq : top q) (hi : q ∈ x.members) : (after ord lim (fresh nbrs) h).rt q = some i ∧ (q ∈ y.members → i = j) := by
  have hs := after_sane (lim := lim) ho h (fresh nbrs) hown (fresh_sane top nbrs)
  have h1 := hs.mem i x hx q hi hq
  refine ⟨h1, fun hj => ?_⟩
  have h2 := hs.mem j y hy q hj hq
  rw [h1] at h2; exact Option.some.inj h2

theorem tell_ready (w : W) (r : Nat) (c : Cmd) (m : List Nat) (k : List Cmd) (h : w.rts[r]? = some { members := m, ready := true, cmds := k }) :
    tell w r c = ({ w with rts := w.rts.set r { members := m, ready := true, cmds := k ++ [c] } }, .told r) := by
  unfold tell; rw [h]; cases c <;> rfl

/-- What holds of the new runtime `r` when it is told something. -/
theorem tell_new (w' : W) (n cond : Nat) (leaves : List Nat) (l : List Rt) (hn : l.length = n)
    (h : w'.rts = l ++ [{ members := leaves, ready := true, cmds := [] }]) :
    tell w' n (.run cond) = ({ w' with rts := l ++ [{ members := leaves, ready := true, cmds := [.run cond] }] }, .told n) := by
  subst hn
  have e : w'.rts[l.length]? = some { members := leaves, ready := true, cmds := [] } := by rw [h]; simp
  unfold tell
  rw [e]
  simp [h]

/-- The first `run` that succeeds. -/
theorem first_run (ho : Enum ord) (w : W) (p cond r : Nat) (cfg : Cfg) (hp : w.rt p = none)
    (hrun : (call ord lim w (.run p cond (some cfg))).2 = .told r) :
    r = w.rts.length ∧ ∃ w' leaves, (call ord lim w (.run p cond (some cfg))).1 = w' ∧
      w'.rts = w.rts ++ [{ members := leaves, ready := true, cmds := [.run cond] }] ∧
      (∀ q, q ∈ leaves ↔ Leaf w.nbrs cfg p q) ∧
      (∀ q, w'.rt q = if q = p ∨ q ∈ leaves then some w.rts.length else w.rt q) ∧
      (∀ q, Conn w.nbrs p q → w.compiled q = false) ∧ (∀ q, w'.compiled q = true ↔ w.compiled q = true ∨ Conn w.nbrs p q) := by
  rcases call_cases (lim := lim) ho w (.run p cond (some cfg)) with ⟨p', r', k, h1, h2, _⟩ | ⟨h1, h2, h3, h4⟩ | ⟨p', cond', cfg', w', leaves, he, _, h3, h4, h5, h6, h7, h8⟩
  · simp [Call.cmd] at h1; rw [← h1.1, hp] at h2; simp at h2
  · exfalso
    rcases create_ok (lim := lim) ho w p cfg with ⟨e, g1, g2, g3⟩ | ⟨w', leaves, g1, g2, g3, g4, g5, g6⟩
    · have hE : (call ord lim w (.run p cond (some cfg))).2 = e := by
        unfold call
        simp only [hp]
        have : createRuntime ord lim w p cfg = ((createRuntime ord lim w p cfg).1, some e) := by rw [← g1]
        rw [this]
      rw [hrun] at hE
      subst hE
      unfold compile at g2
      split at g2
      · simp at g2
      · split at g2
        · simp at g2
        · split at g2
          · simp at g2
          · dsimp only at g2; split at g2 <;> simp at g2
    · have : (call ord lim w (.run p cond (some cfg))).1.rt p = some w.rts.length := by
        unfold call
        simp only [hp]
        rw [g1]
        have hw : w'.rt p = some w.rts.length := by rw [g4]; simp
        cases cfg.builds with
        | false => simpa using hw
        | true => simp only [if_true, hw]; rw [(tell_frame w' _ _).1]; exact hw
      rw [h1, hp] at this; simp at this
  · injection he with e1 e2 e3
    injection e3 with e3
    subst e1; subst e2; subst e3
    rw [h8] at hrun ⊢
    cases hb : cfg.builds with
    | false => rw [hb] at hrun; simp at hrun
    | true =>
      rw [hb] at hrun
      rw [hb] at h3
      simp only [if_true] at hrun ⊢
      rw [tell_new w' _ cond leaves w.rts rfl h3] at hrun ⊢
      simp at hrun
      exact ⟨hrun.symm, _, leaves, rfl, rfl, h4, h5, h6, h7⟩

/-- Facts about runtime `r` that hold from its first run on. -/
structure Runs (top : Nat → Prop) (net : List Nat) (r : Nat) (k : List Cmd) (w : W) : Prop where
  sane : Sane top w
  rt : ∀ q, w.rt q = some r ↔ q ∈ net
  top : ∀ q ∈ net, top q
  rts : ∃ m, w.rts[r]? = some { members := m, ready := true, cmds := k }

theorem tell_runs {top : Nat → Prop} (net : List Nat) (r : Nat) (k : List Cmd) (w : W) (h : Runs top net r k w) (p r' : Nat) (c : Cmd)
    (hp : w.rt p = some r') : Runs top net r (k ++ if p ∈ net then [c] else []) (tell w r' c).1 := by
  refine ⟨tell_sane _ _ _ h.sane, ?_, h.top, ?_⟩
  · rw [(tell_frame w r' c).1]; exact h.rt
  · obtain ⟨m, hm⟩ := h.rts
    by_cases e : p ∈ net
    · have := (h.rt p).2 e
      rw [hp] at this
      have e' : r' = r := Option.some.inj this
      subst e'
      rw [if_pos e]
      have hl := h.sane.ex p r' hp
      refine ⟨m, ?_⟩
      rw [tell_ready w r' c m k hm]
      exact List.getElem?_set_self hl
    · have e' : r' ≠ r := fun e' => e ((h.rt p).1 (e' ▸ hp))
      rw [if_neg e]
      refine ⟨m, ?_⟩
      unfold tell
      split
      · simpa using hm
      · split
        · simpa using hm
        · rw [List.getElem?_set_ne e']; simpa using hm

theorem commands_cons (net : List Nat) (c : Call) (h : List Call) : commands net (c :: h) =
    (match c.cmd with | some (q, k) => (if q ∈ net then [k] else []) | none => []) ++ commands net h := by
  unfold commands
  rw [List.filterMap_cons]
  rcases hc : c.cmd with _ | ⟨q, k⟩
  · simp
  · by_cases e : q ∈ net <;> simp [e]

theorem call_runs (ho : Enum ord) {top : Nat → Prop} (net : List Nat) (r : Nat) (k : List Cmd) (w : W) (h : Runs top net r k w) (c : Call)
    (hown : Owned top c) : Runs top net r (k ++ commands net [c]) (call ord lim w c).1 := by
  rcases call_cases (lim := lim) ho w c with ⟨p, r', k', h1, h2, h3⟩ | ⟨h1, h2, h3, h4⟩ | ⟨p, cond, cfg, w', leaves, rfl, hp, h3, h4, h5, h6, h7, h8⟩
  · rw [h3, commands_cons, h1]
    have := tell_runs net r k w h p r' k' h2
    simpa [commands] using this
  · have e : commands net [c] = [] := by
      rw [commands_cons]
      rcases hc : c.cmd with _ | ⟨q, k'⟩
      · simp [commands]
      · have := h4 q k' hc
        have hq : q ∉ net := fun hq => by rw [(h.rt q).2 hq] at this; simp at this
        simp [hq, commands]
    rw [e, List.append_nil]
    exact ⟨call_sane ho w c hown h.sane, by rw [h1]; exact h.rt, h.top, by rw [h2]; exact h.rts⟩
  · have hpn : p ∉ net := fun hq => by rw [(h.rt p).2 hq] at hp; simp at hp
    have e : commands net [.run p cond (some cfg)] = [] := by
      rw [commands_cons]
      simp [Call.cmd, hpn, commands]
    rw [e, List.append_nil]
    obtain ⟨m, hm⟩ := h.rts
    have hlt : r < w.rts.length := by
      rcases Nat.lt_or_ge r w.rts.length with h | h
      · exact h
      · rw [List.getElem?_eq_none h] at hm; simp at hm
    have hs := call_sane (lim := lim) ho w _ hown h.sane
    rw [h8] at hs ⊢
    have hr' : ∀ q, w'.rt q = some r ↔ q ∈ net := by
      intro q
      rw [h5]
      split
      · rename_i hc
        constructor
        · intro hh; simp at hh; omega
        · intro hq
          exfalso
          have hco := h.sane.comp q r (h.top q hq) ((h.rt q).2 hq)
          rcases hc with rfl | hl
          · exact hpn hq
          · rw [h6 q (leaf_top hown (h.top q hq) ((h4 q).1 hl)).1] at hco; simp at hco
      · exact h.rt q
    have hm' : w'.rts[r]? = some { members := m, ready := true, cmds := k } := by
      rw [h3, List.getElem?_append_left hlt]; exact hm
    cases hb : cfg.builds with
    | false =>
      rw [hb] at hs
      exact ⟨by simpa using hs, hr', h.top, m, hm'⟩
    | true =>
      rw [hb] at hs h3
      simp only [if_true] at hs ⊢
      refine ⟨hs, ?_, h.top, m, ?_⟩
      · rw [(tell_frame w' _ _).1]; exact hr'
      · rw [tell_new w' _ cond leaves w.rts rfl h3]
        show (w.rts ++ _)[r]? = _
        rw [List.getElem?_append_left hlt]; exact hm

theorem after_runs (ho : Enum ord) {top : Nat → Prop} (net : List Nat) (r : Nat) (h : List Call) : ∀ (k : List Cmd) (w : W),
    Runs top net r k w → (∀ c ∈ h, Owned top c) → Runs top net r (k ++ commands net h) (after ord lim w h) := by
  induction h with
  | nil => intro k w hr _; simpa [commands, after] using hr
  | cons c h ih =>
    intro k w hr hown
    have h1 := call_runs (lim := lim) ho net r k w hr c (hown c (by simp))
    have h2 := ih _ _ h1 (fun d hd => hown d (by simp [hd]))
    have e : commands net (c :: h) = commands net [c] ++ commands net h := by
      rw [commands_cons net c h, commands_cons net c []]
      simp [commands]
    rw [e, ← List.append_assoc]
    exact h2

/-- **C93.** If, after any history, `run` of process `p` compiles and starts a network all of whose processes have leaf models, then from
then on exactly the calls made on any process of that network reach this run, in the order in which they are made, whatever is done with
other networks in between. -/
theorem C93_calls_reach_one_run (ho : Enum ord) (top : Nat → Prop) (nbrs : Nat → List Nat) (h1 h2 : List Call)
    (hown1 : ∀ c ∈ h1, Owned top c) (hown2 : ∀ c ∈ h2, Owned top c) (p cond r : Nat) (cfg : Cfg)
    (hown : ∀ a b, HasSub cfg.cls cfg.sel a b → ¬ top b) (w : W) (hw : w = after ord lim (fresh nbrs) h1) (hp : w.rt p = none)
    (hrun : (call ord lim w (.run p cond (some cfg))).2 = .told r)
    (net : List Nat) (hnet : ∀ q, q ∈ net ↔ Conn w.nbrs p q) (hflat : ∀ q ∈ net, top q ∧ ∃ m, cfg.sel q = .leaf m) :
    ∃ x, (after ord lim w (.run p cond (some cfg) :: h2)).rts[r]? = some x ∧ x.cmds = .run cond :: commands net h2 := by
  have hs : Sane top w := hw ▸ after_sane ho h1 _ hown1 (fresh_sane top nbrs)
  obtain ⟨rfl, w', leaves, e1, e2, e3, e4, e5, e6⟩ := first_run (lim := lim) ho w p cond r cfg hp hrun
  have hsame : ∀ q, q ∈ leaves ↔ q ∈ net := by
    intro q
    rw [e3, hnet]
    constructor
    · rintro ⟨x, hx1, hx2, _⟩
      obtain ⟨m, hm⟩ := (hflat x ((hnet x).2 hx1)).2
      cases hx2 with
      | refl => exact hx1
      | step hs' _ =>
        obtain ⟨at', ha, _⟩ := hs'
        rw [hm] at ha; simp at ha
    · intro hc
      exact ⟨q, hc, .refl q, (hflat q ((hnet q).2 hc)).2⟩
  have hpn : p ∈ net := (hnet p).2 (.refl p)
  have hr : Runs top net w.rts.length [.run cond] (call ord lim w (.run p cond (some cfg))).1 := by
    refine ⟨call_sane ho w _ hown hs, ?_, fun q hq => (hflat q hq).1, leaves, ?_⟩
    · intro q
      rw [e1, e4, ← hsame]
      constructor
      · intro hh
        split at hh
        · rename_i hc
          rcases hc with rfl | hc
          · exact (hsame _).2 hpn
          · exact hc
        · have := hs.ex q _ hh; omega
      · intro hq; rw [if_pos (Or.inr hq)]
    · rw [e1, e2]; simp
  obtain ⟨m, hm⟩ := (after_runs (lim := lim) ho net _ h2 _ _ hr hown2).rts
  exact ⟨_, hm, rfl⟩

/-- **C93.** With hierarchical processes: the calls that are made on `p` and on the leaf processes, at any depth, all reach the run, as
long as no process outside is called. -/
theorem C93_hierarchical_calls_reach_one_run (ho : Enum ord) (h2 : List Call)
    (p cond r : Nat) (cfg : Cfg) (w : W) (hp : w.rt p = none)
    (hrun : (call ord lim w (.run p cond (some cfg))).2 = .told r)
    (net : List Nat) (hnet : ∀ q, q ∈ net ↔ q = p ∨ Leaf w.nbrs cfg p q)
    (hin : ∀ c ∈ h2, ∃ q k, c.cmd = some (q, k) ∧ q ∈ net) :
    ∃ x, (after ord lim w (.run p cond (some cfg) :: h2)).rts[r]? = some x ∧ x.cmds = .run cond :: commands net h2 := by
  obtain ⟨rfl, w', leaves, e1, e2, e3, e4, e5, e6⟩ := first_run (lim := lim) ho w p cond r cfg hp hrun
  have hstart : ∀ q ∈ net, w'.rt q = some w.rts.length := by
    intro q hq; rw [e4, if_pos (((hnet q).1 hq).imp id (e3 q).2)]
  have key : ∀ (h : List Call) (k : List Cmd) (v : W), (∀ q ∈ net, v.rt q = some w.rts.length) →
      (∃ m, v.rts[w.rts.length]? = some { members := m, ready := true, cmds := k }) →
      (∀ c ∈ h, ∃ q k, c.cmd = some (q, k) ∧ q ∈ net) →
      ∃ x, (after ord lim v h).rts[w.rts.length]? = some x ∧ x.cmds = k ++ commands net h := by
    intro h
    induction h with
    | nil => rintro k v _ ⟨m, hm⟩ _; exact ⟨_, hm, by simp [commands]⟩
    | cons c h ih =>
      rintro k v hv ⟨m, hm⟩ hc
      obtain ⟨q, k', hq1, hq2⟩ := hc c (by simp)
      have hcall : call ord lim v c = tell v w.rts.length k' := by
        rcases call_cases (lim := lim) ho v c with ⟨p', r', k'', g1, g2, g3⟩ | ⟨_, _, _, g4⟩ | ⟨p', cond', cfg', w'', leaves', rfl, g2, _⟩
        · rw [hq1] at g1
          simp at g1
          obtain ⟨rfl, rfl⟩ := g1
          rw [hv q hq2] at g2
          rw [g3, Option.some.inj g2]
        · have := g4 q k' hq1
          rw [hv q hq2] at this; simp at this
        · simp [Call.cmd] at hq1
          rw [hq1.1, hv q hq2] at g2; simp at g2
      have hl : w.rts.length < v.rts.length := by
        rcases Nat.lt_or_ge w.rts.length v.rts.length with h | h
        · exact h
        · rw [List.getElem?_eq_none h] at hm; simp at hm
      have := ih (k ++ [k']) (call ord lim v c).1 (by rw [hcall, (tell_frame v _ _).1]; exact hv)
        ⟨m, by
          rw [hcall, tell_ready v _ k' m k hm]
          exact List.getElem?_set_self hl⟩ (fun d hd => hc d (by simp [hd]))
      obtain ⟨x, hx1, hx2⟩ := this
      refine ⟨x, hx1, ?_⟩
      rw [hx2, commands_cons, hq1]
      simp [hq2]
  have hk := key h2 [.run cond] w' hstart ⟨leaves, by rw [e2]; simp⟩ hin
  rw [← e1] at hk
  exact hk

/-! ## Concrete cases -/

/-- An enumeration of sets. -/
theorem dedup_enum : Enum (fun l : List Nat => l.dedup) := ⟨fun _ _ => List.mem_dedup, fun l => List.nodup_dedup l⟩

/-- 0 - 1 - 2 and, apart from them, 3. -/
def exNbrs : Nat → List Nat := fun p => match p with
  | 0 => [1]
  | 1 => [0, 2]
  | 2 => [1]
  | _ => []

/-- Leaf models only. -/
def exFlat : Cfg := { cls := fun _ => "LIF", sel := fun p => .leaf p, wire := fun _ => [], compiles := true, builds := true }

/-- Process 1 is hierarchical with sub processes 10 and 11, of which 11 is not connected to the ports of 1. -/
def exHier : Cfg :=
  { cls := fun _ => "LIF", sel := fun p => if p = 1 then .sub [("a", .proc 10), ("b", .proc 11)] else .leaf p,
    wire := fun p => if p = 10 then [1] else if p = 1 then [10] else [], compiles := true, builds := true }

theorem exConn (q : Nat) : q ∈ [0, 1, 2] ↔ Conn exNbrs 0 q := by
  constructor
  · have h0 : Conn exNbrs 0 0 := .refl 0
    have h1 : Conn exNbrs 0 1 := .step h0 (by decide)
    have h2 : Conn exNbrs 0 2 := .step h1 (by decide)
    intro h
    simp at h
    rcases h with rfl | rfl | rfl <;> assumption
  · intro h
    induction h with
    | refl => simp
    | @step q r _ hr ih =>
      simp at ih
      rcases ih with rfl | rfl | rfl <;> simp [exNbrs] at hr <;> simp [hr]
      · rcases hr with h | h <;> simp [h]

/-- The hypotheses of `C93_calls_reach_one_run` are met by running the network of 0, 1, 2 after a failed attempt without configuration and
the run of another network; two runtimes exist in the end. -/
theorem C93_example :
    (let w := after (fun l => l.dedup) 5 (fresh exNbrs) [.run 1 5 none, .run 3 7 (some exFlat)]
     w.rt 0 = none ∧ (call (fun l => l.dedup) 5 w (.run 0 9 (some exFlat))).2 = .told 1 ∧
     (after (fun l => l.dedup) 5 w [.run 0 9 (some exFlat), .wait 2, .stop 3, .run 1 4 none, .stop 0]).rts =
       [{ members := [3], ready := true, cmds := [.run 7, .stop] }, { members := [0, 2, 1], ready := true, cmds := [.run 9, .wait, .run 4, .stop] }]) ∧
    (∀ q, q ∈ [0, 1, 2] ↔ Conn exNbrs 0 q) ∧ (∀ a b, ¬ HasSub exFlat.cls exFlat.sel a b) := by
  refine ⟨by decide +kernel, exConn, ?_⟩
  rintro a b ⟨l, h, _⟩
  simp [exFlat] at h

/-- With a hierarchical process: 10 and 11 reach the run of 0, 1 does not. -/
theorem C93_example_hierarchical :
    (after (fun l => l.dedup) 5 (fresh exNbrs) [.run 0 9 (some exHier), .wait 10, .stop 11]).rts.map Rt.cmds = [[.run 9, .wait, .stop]] ∧
    (call (fun l => l.dedup) 5 (after (fun l => l.dedup) 5 (fresh exNbrs) [.run 0 9 (some exHier)]) (.run 1 4 none)).2 = .noConfig ∧
    (call (fun l => l.dedup) 5 (after (fun l => l.dedup) 5 (fresh exNbrs) [.run 0 9 (some exHier)]) (.run 1 4 (some exHier))).2 = .already 0 ∧
    (∀ a b, HasSub exHier.cls exHier.sel a b → ¬ b < 10) := by
  refine ⟨by decide +kernel, by decide +kernel, by decide +kernel, ?_⟩
  rintro a b ⟨l, h, hb⟩
  by_cases e : a = 1
  · simp [exHier, e] at h
    subst h
    have : b ∈ [10, 11] := by simpa [Verif.Graphs.subs, Verif.Graphs.findSub, Verif.Graphs.addAttr, Verif.Compiler.dictSet] using hb
    simp at this
    omega
  · simp [exHier, e] at h

/-- **C93, witness.** `C93_never_in_two_runs` is about processes the user created, because it is false of sub processes: only the processes
found before expansion are marked as compiled, so a process that is connected to sub process 11 later and run puts 11 into a second
runtime, and calls on 11 no longer reach the first. -/
theorem C93_witness_sub_process_in_two_runs :
    (after (fun l => l.dedup) 5 (fresh exNbrs) [.run 0 9 (some exHier), .connect 11 3, .run 3 5 (some exFlat), .stop 11]).rts.map
      (fun x => (decide (11 ∈ x.members), x.cmds)) = [(true, [.run 9]), (true, [.run 5, .stop])] := by decide +kernel

/-- **C93, witness.** An attempt to run a process that is connected to a compiled network raises, and yet marks processes as compiled: here
process 3, which never gets a runtime. -/
theorem C93_witness_refused_run_marks :
    let w := after (fun l => l.dedup) 6 (fresh exNbrs) [.run 0 9 (some exFlat), .connect 3 2]
    (call (fun l => l.dedup) 6 w (.run 3 5 (some exFlat))).2 = .already 2 ∧
    (call (fun l => l.dedup) 6 w (.run 3 5 (some exFlat))).1.compiled 3 = true ∧
    (call (fun l => l.dedup) 6 w (.run 3 5 (some exFlat))).1.rt 3 = none := by
  decide +kernel

/-! ## What is false of the code -/

/-- **C93, the English property is false for hierarchical processes.** Another process `q` of the network that has no leaf model gets no
runtime: in every continuation `wait`, `pause`, `stop` on it return without doing anything and `run` raises. -/
theorem C93_hierarchical_neighbour_has_no_control (ho : Enum ord) (top : Nat → Prop) (nbrs : Nat → List Nat) (h1 h2 : List Call)
    (hown1 : ∀ c ∈ h1, Owned top c) (hown2 : ∀ c ∈ h2, Owned top c) (p cond r : Nat) (cfg : Cfg)
    (hown : ∀ a b, HasSub cfg.cls cfg.sel a b → ¬ top b) (w : W) (hw : w = after ord lim (fresh nbrs) h1) (hp : w.rt p = none)
    (hrun : (call ord lim w (.run p cond (some cfg))).2 = .told r)
    (q : Nat) (hq : Conn w.nbrs p q) (ht : top q) (hne : q ≠ p) (hh : ∀ m, cfg.sel q ≠ .leaf m) (v : W)
    (hv : v = after ord lim w (.run p cond (some cfg) :: h2)) :
    call ord lim v (.wait q) = (v, .ignored) ∧ call ord lim v (.pause q) = (v, .ignored) ∧ call ord lim v (.stop q) = (v, .ignored) ∧
    (∀ n, call ord lim v (.run q n none) = (v, .noConfig)) ∧
    ∀ n c, (call ord lim v (.run q n (some c))).2 = .compileError ∨ ∃ x, (call ord lim v (.run q n (some c))).2 = .already x := by
  have hs : Sane top w := hw ▸ after_sane ho h1 _ hown1 (fresh_sane top nbrs)
  obtain ⟨rfl, w', leaves, e1, e2, e3, e4, e5, e6⟩ := first_run (lim := lim) ho w p cond r cfg hp hrun
  have hc : w'.compiled q = true := (e6 q).2 (Or.inr hq)
  have hn : w'.rt q = none := by
    rw [e4, if_neg]
    · cases hr : w.rt q with
      | none => rfl
      | some i => have := hs.comp q i ht hr; rw [e5 q hq] at this; simp at this
    · rintro (h | h)
      · exact hne h
      · obtain ⟨m, hm⟩ := (leaf_top hown ht ((e3 q).1 h)).2
        exact hh m hm
  have hk := after_keeps (lim := lim) ho h2 w' hown2 q ht hc
  have hv' : v = after ord lim w' h2 := by rw [hv, ← e1]; rfl
  rw [← hv', hn] at hk
  refine ⟨by simp [call, hk.1], by simp [call, hk.1], by simp [call, hk.1], by simp [call, hk.1], ?_⟩
  intro n c
  have hE : ∀ e, (compile ord lim v q c).2 = .inl e → (call ord lim v (.run q n (some c))).2 = e := by
    intro e he
    have h1 : createRuntime ord lim v q c = ((compile ord lim v q c).1, some e) := by
      unfold createRuntime
      have : compile ord lim v q c = ((compile ord lim v q c).1, .inl e) := by rw [← he]
      rw [this]
    simp only [call, hk.1, h1]
  rcases compile_already (lim := lim) ho v q c q (.refl q) hk.2 with ⟨h, _⟩ | ⟨x, _, _, h⟩
  · exact Or.inl (hE _ h)
  · exact Or.inr ⟨x, hE _ h⟩

/-- **C93.** If compilation of a network fails after its processes have been found (no process model, for example), then no process of it
can ever be run again, under any run configuration: `run` always raises. -/
theorem C93_failed_compile_is_final (ho : Enum ord) (top : Nat → Prop) (nbrs : Nat → List Nat) (h1 h2 : List Call)
    (hown1 : ∀ c ∈ h1, Owned top c) (hown2 : ∀ c ∈ h2, Owned top c) (p cond : Nat) (cfg : Cfg) (w : W)
    (hw : w = after ord lim (fresh nbrs) h1) (hp : w.rt p = none) (hu : ∀ q, Conn w.nbrs p q → w.compiled q = false)
    (hfind : ∃ f, findProcs w.nbrs ord lim p [] = some f)
    (hrun : (call ord lim w (.run p cond (some cfg))).2 = .compileError) (q : Nat) (hq : Conn w.nbrs p q) (ht : top q) (v : W)
    (hv : v = after ord lim w (.run p cond (some cfg) :: h2)) (n : Nat) :
    (call ord lim v (.run q n none)).2 = .noConfig ∧
    ∀ c, (call ord lim v (.run q n (some c))).2 = .compileError ∨ ∃ x, (call ord lim v (.run q n (some c))).2 = .already x := by
  have hs : Sane top w := hw ▸ after_sane ho h1 _ hown1 (fresh_sane top nbrs)
  obtain ⟨⟨s, found⟩, hf⟩ := hfind
  have hcall : (call ord lim w (.run p cond (some cfg))).1 = (compile ord lim w p cfg).1 := by
    rcases create_ok (lim := lim) ho w p cfg with ⟨e, g1, g2, g3⟩ | ⟨w', leaves, g1, g2, g3, g4, g5, g6⟩
    · have : createRuntime ord lim w p cfg = ((compile ord lim w p cfg).1, some e) := by rw [← g1, ← g3]
      simp only [call, hp, this]
    · exfalso
      have hw' : w'.rt p = some w.rts.length := by rw [g4]; simp
      simp only [call, hp, g1] at hrun
      cases hb : cfg.builds with
      | false => rw [hb] at hrun; simp at hrun
      | true =>
        rw [hb] at g2
        rw [hb] at hrun
        simp only [if_true, hw'] at hrun
        rw [tell_new w' _ cond leaves w.rts rfl g2] at hrun
        simp at hrun
  have hc := compile_marks (lim := lim) ho w p cfg s found hf hu q hq
  have hn : (compile ord lim w p cfg).1.rt q = none := by
    rw [(compile_rt w p cfg).1]
    cases hr : w.rt q with
    | none => rfl
    | some i => have := hs.comp q i ht hr; rw [hu q hq] at this; simp at this
  have hk := after_keeps (lim := lim) ho h2 _ hown2 q ht hc
  have hv' : v = after ord lim (compile ord lim w p cfg).1 h2 := by rw [hv, ← hcall]; rfl
  rw [← hv', hn] at hk
  refine ⟨by simp [call, hk.1], ?_⟩
  intro c
  have hE : ∀ e, (compile ord lim v q c).2 = .inl e → (call ord lim v (.run q n (some c))).2 = e := by
    intro e he
    have h1 : createRuntime ord lim v q c = ((compile ord lim v q c).1, some e) := by
      unfold createRuntime
      have : compile ord lim v q c = ((compile ord lim v q c).1, .inl e) := by rw [← he]
      rw [this]
    simp only [call, hk.1, h1]
  rcases compile_already (lim := lim) ho v q c q (.refl q) hk.2 with ⟨h, _⟩ | ⟨x, _, _, h⟩
  · exact Or.inl (hE _ h)
  · exact Or.inr ⟨x, hE _ h⟩

theorem tell_unready (w : W) (r n : Nat) (h : ∀ x, w.rts[r]? = some x → x.ready = false) : tell w r (.run n) = (w, .ignored) := by
  unfold tell
  split
  · rfl
  · rename_i x hx; rw [h x hx]

theorem call_unready (ho : Enum ord) (w : W) (c : Call) (r : Nat) (hl : r < w.rts.length) (h : ∀ x, w.rts[r]? = some x → x.ready = false) :
    r < (call ord lim w c).1.rts.length ∧ ∀ x, (call ord lim w c).1.rts[r]? = some x → x.ready = false := by
  have ht : ∀ (w : W) (i : Nat) (k : Cmd), r < w.rts.length → (∀ x, w.rts[r]? = some x → x.ready = false) →
      r < (tell w i k).1.rts.length ∧ ∀ x, (tell w i k).1.rts[r]? = some x → x.ready = false := by
    intro w i k hl h
    have := tell_rts w i k r
    have hy : w.rts[r]? = some w.rts[r] := List.getElem?_eq_getElem hl
    rw [hy] at this
    cases hx : (tell w i k).1.rts[r]? with
    | none => rw [hx] at this; simp at this
    | some x =>
      rw [hx] at this
      simp at this
      refine ⟨?_, ?_⟩
      · rcases Nat.lt_or_ge r (tell w i k).1.rts.length with h | h
        · exact h
        · rw [List.getElem?_eq_none h] at hx; simp at hx
      · intro x' hx'
        simp at hx'; subst hx'
        rw [this.2]; exact h _ hy
  rcases call_cases (lim := lim) ho w c with ⟨p, i, k, _, _, h3⟩ | ⟨_, h2, _, _⟩ | ⟨p, cond, cfg, w', leaves, _, _, h3, _, _, _, _, h8⟩
  · rw [h3]; exact ht w i k hl h
  · rw [h2]; exact ⟨hl, h⟩
  · have h' : r < w'.rts.length ∧ ∀ x, w'.rts[r]? = some x → x.ready = false := by
      rw [h3]
      refine ⟨by simp; omega, ?_⟩
      rw [List.getElem?_append_left hl]; exact h
    rw [h8]; split
    · exact ht _ _ _ h'.1 h'.2
    · exact h'

/-- **C93.** If the first `run` raises because a process model cannot be built, every later `run` of that process, or of any leaf process
of the network that the user created, returns normally without doing anything. -/
theorem C93_failed_build_makes_run_silent (ho : Enum ord) (top : Nat → Prop) (w : W) (h2 : List Call)
    (hown2 : ∀ c ∈ h2, Owned top c) (p cond : Nat) (cfg : Cfg) (hp : w.rt p = none)
    (hown : ∀ a b, HasSub cfg.cls cfg.sel a b → ¬ top b)
    (hrun : (call ord lim w (.run p cond (some cfg))).2 = .buildError)
    (q : Nat) (ht : top q) (hq : q = p ∨ Leaf w.nbrs cfg p q) (v : W)
    (hv : v = after ord lim w (.run p cond (some cfg) :: h2)) (n : Nat) (c : Option Cfg) :
    call ord lim v (.run q n c) = (v, .ignored) := by
  rcases create_ok (lim := lim) ho w p cfg with ⟨e, g1, g2, g3⟩ | ⟨w', leaves, g1, g2, g3, g4, g5, g6⟩
  · exfalso
    have : createRuntime ord lim w p cfg = ((compile ord lim w p cfg).1, some e) := by rw [← g1, ← g3]
    simp only [call, hp, this] at hrun
    subst hrun
    unfold compile at g2
    split at g2
    · simp at g2
    · split at g2
      · simp at g2
      · split at g2
        · simp at g2
        · dsimp only at g2; split at g2 <;> simp at g2
  · have hw' : w'.rt p = some w.rts.length := by rw [g4]; simp
    cases hb : cfg.builds with
    | true =>
      exfalso
      simp only [call, hp, g1, hb, if_true, hw'] at hrun
      rw [hb] at g2
      rw [tell_new w' _ cond leaves w.rts rfl g2] at hrun
      simp at hrun
    | false =>
      have hcall : (call ord lim w (.run p cond (some cfg))).1 = w' := by
        simp [call, hp, g1, hb]
      have hqr : w'.rt q = some w.rts.length := by rw [g4, if_pos (hq.imp id (g3 q).2)]
      have hqc : w'.compiled q = true := by
        rw [g6]
        rcases hq with rfl | hq
        · exact Or.inr (.refl _)
        · exact Or.inr (leaf_top hown ht hq).1
      have hk := after_keeps (lim := lim) ho h2 w' hown2 q ht hqc
      have hv' : v = after ord lim w' h2 := by rw [hv, ← hcall]; rfl
      rw [← hv', hqr] at hk
      have hun : ∀ (h : List Call) (u : W), w.rts.length < u.rts.length → (∀ x, u.rts[w.rts.length]? = some x → x.ready = false) →
          ∀ x, (after ord lim u h).rts[w.rts.length]? = some x → x.ready = false := by
        intro h
        induction h with
        | nil => intro u _ hu; exact hu
        | cons c h ih =>
          intro u hl hu
          have := call_unready (lim := lim) ho u c _ hl hu
          exact ih _ this.1 this.2
      have := hun h2 w' (by rw [g2]; simp) (by rw [g2]; simp [hb])
      rw [← hv'] at this
      simp only [call, hk.1]
      exact tell_unready v _ n this

end Verif.Lifecycle
