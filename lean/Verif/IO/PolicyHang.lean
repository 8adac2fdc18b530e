import Verif.IO.PolicyProps

/-! # C126: what an application may wait for -/

namespace Verif.IO.PolicyNet

variable {D X Y : Type} [AddMonoid X] [AddMonoid Y]

theorem take_none {Z : Type} [AddMonoid Z] {p : Pol} {w : Bool} {q : Pipe Z} (h : q.take p w = none) : q.vis = [] ∧ (p.zeros = false ∨ w = true) := by
  unfold Pipe.take at h
  split at h
  · rename_i hv
    refine ⟨hv, ?_⟩
    cases hz : p.zeros with
    | false => exact .inl rfl
    | true => cases w with
      | true => exact .inr rfl
      | false => simp [hz] at h
  · split at h <;> cases h

theorem emit_none {n : Net D X Y} {s : St D X Y} {y : Y} (h : emit n s y = none) : s.pout.free n.capOut = false ∧ n.ext.drop = false := by
  unfold emit at h
  split at h
  · cases h
  · rename_i hf
    split at h
    · cases h
    · rename_i hd
      exact ⟨by simpa using hf, by simpa using hd⟩

/-- Why nobody can do a step. -/
theorem stuck_reasons (n : Net D X Y) (p0 : List (Op X)) (s : St D X Y) (h : Inv n p0 s) (hs : Stuck n s) :
    (s.prog = [] ∨ (∃ x p, s.prog = .send x :: p ∧ n.inj.drop = false ∧ n.capIn ≤ s.pin.vis.length) ∨
      (∃ p, s.prog = .recv :: p ∧ n.ext.zeros = false ∧ s.pout.vis = []) ∨
      (∃ p, s.prog = .wait :: p ∧ (s.ends.length ≤ s.waits ∨ s.k < s.total))) ∧
    (s.k = s.total ∨ (s.k < s.total ∧ s.cur = none ∧ n.inj.zeros = false ∧ s.pin.vis = []) ∨
      (s.k < s.total ∧ s.ext = false ∧ n.ext.drop = false ∧ n.capOut ≤ s.pout.vis.length)) := by
  obtain ⟨p1, p2, p3, p4⟩ := stuck_pipes n s hs
  constructor
  · have ha := hs .app
    cases hpr : s.prog with
    | nil => exact .inl rfl
    | cons o p =>
      right
      simp only [step, hpr] at ha
      cases o with
      | send x =>
        left
        simp only at ha
        split at ha
        · cases ha
        · rename_i hf
          split at ha
          · cases ha
          · rename_i hd
            refine ⟨x, p, rfl, by simpa using hd, ?_⟩
            simp only [Pipe.free, p1, p2, List.length_nil, Nat.add_zero, decide_eq_true_eq] at hf
            omega
      | recv =>
        right; left
        simp only at ha
        cases ht : s.pout.take n.ext s.wApp with
        | some yq => rw [ht] at ha; cases ha
        | none =>
          rw [ht] at ha
          obtain ⟨hv, hz⟩ := take_none ht
          refine ⟨p, rfl, ?_, hv⟩
          rcases hz with hz | hz
          · exact hz
          · exact h.wA hz
      | start m => cases ha
      | wait =>
        right; right
        refine ⟨p, rfl, ?_⟩
        simp only at ha
        by_cases hlt : s.waits < s.ends.length
        · rw [List.getElem?_eq_getElem hlt] at ha
          simp only at ha
          have := h.ends _ (List.getElem_mem hlt)
          split at ha
          · cases ha
          · right; omega
        · left; omega
  · have hk := h.kT
    by_cases hlt : s.k < s.total
    · right
      have hemit : ∀ y, emit n s y = none → n.ext.drop = false ∧ n.capOut ≤ s.pout.vis.length := by
        intro y hy
        obtain ⟨hf, hd⟩ := emit_none hy
        refine ⟨hd, ?_⟩
        simp only [Pipe.free, p3, p4, List.length_nil, Nat.add_zero, decide_eq_false_iff_not] at hf
        omega
      cases hc : s.cur with
      | none =>
        left
        have hi := hs .inj
        simp only [step, hc, hlt, and_self, if_true] at hi
        cases ht : s.pin.take n.inj s.wInj with
        | some xq => rw [ht] at hi; cases hi
        | none =>
          obtain ⟨hv, hz⟩ := take_none ht
          refine ⟨hlt, rfl, ?_, hv⟩
          rcases hz with hz | hz
          · exact hz
          · exact h.wI hz
      | some x =>
        right
        have he := hs .ext
        have hy := hs .sync
        cases hx : s.ext with
        | true => simp [step, hc, hx] at hy
        | false =>
          simp only [step, hlt, hx, and_self, if_true, hc] at he
          split at he
          · exact ⟨hlt, rfl, hemit _ he⟩
          · exact ⟨hlt, rfl, hemit _ he⟩
    · left; omega

/-- **C126.** What can be waited for for ever. Whatever the configuration and the program: when, after enough rounds, nobody can go on, the application has ended, or it waits in `send` with a blocking
configuration and a full buffer, or in `receive` with a blocking configuration and everything received that the pipe took, or in `wait` without a run to wait for or for a run that has not ended. And every run
has ended, or the network waits for an input, with a blocking configuration of the Injector and everything used that was sent, or for a place for its output, with a blocking configuration of the Extractor and a
full buffer. -/
theorem C126_reasons_to_wait (n : Net D X Y) (p : List (Op X)) (rounds : List (List Who)) (hr : ∀ rd ∈ rounds, ∀ w, w ∈ rd) (hlen : (p.map opLoad).sum + 8 < rounds.length) :
    let s := exec n (init n p) rounds.flatten
    (s.prog = [] ∨ (∃ x p, s.prog = .send x :: p ∧ n.inj.drop = false ∧ n.capIn ≤ s.pin.vis.length) ∨
      (∃ p, s.prog = .recv :: p ∧ n.ext.zeros = false ∧ s.log.sum = (taken s.emits).sum ∧ s.pout.vis = []) ∨
      (∃ p, s.prog = .wait :: p ∧ (s.ends.length ≤ s.waits ∨ s.k < s.total))) ∧
    (s.k = s.total ∨ (s.k < s.total ∧ s.cur = none ∧ n.inj.zeros = false ∧ s.pin.vis = []) ∨
      (s.k < s.total ∧ s.ext = false ∧ n.ext.drop = false ∧ n.capOut ≤ s.pout.vis.length)) := by
  intro s
  have hi := inv_init n p
  have hinv : Inv n p s := inv_exec n p _ _ hi
  have hst : Stuck n s := C126_no_endless_loop n p rounds hr hlen
  obtain ⟨h1, h2⟩ := stuck_reasons n p s hinv hst
  refine ⟨?_, h2⟩
  rcases h1 with h | h | ⟨q, h3, h4, h5⟩ | h
  · exact .inl h
  · exact .inr (.inl h)
  · refine .inr (.inr (.inl ⟨q, h3, h4, ?_, h5⟩))
    have := grouped_sum hinv.pout.grp
    rw [h5, (stuck_pipes n s hst).2.2.1] at this
    simpa using this
  · exact .inr (.inr (.inr h))

/-! ### Blocking calls -/

/-- The number of `receive` calls of a program. -/
def recvs : List (Op X) → Nat
  | [] => 0
  | .recv :: p => recvs p + 1
  | _ :: p => recvs p

/-- The default configuration (io/utils.py:194-199) on both sides. -/
def Blocking (n : Net D X Y) : Prop := n.inj = ⟨false, false, false⟩ ∧ n.ext = ⟨false, false, false⟩

/-- After `a` sends, `t` time steps started, `r` receives, with the runs that end at the time steps `es` not waited for, the calls of the program find what they need when everybody else has done what can be done:
a network that needs an item for every time step and a slot for every output does `min a (min t (r + capOut))` time steps. `send` needs a slot: items that have not been taken are in the pipe; one more may
be taken by a time step that cannot send its output. `receive` needs an output: of a time step that was started, whose input was sent (or the input before it if the output does not depend on the input of its
step). `wait` needs the end of the oldest run that was not waited for. -/
def Reasonable (n : Net D X Y) (a t r : Nat) (es : List Nat) : List (Op X) → Prop
  | [] => True
  | .send _ :: p => a < n.capIn + min a (min t (r + n.capOut + 1)) ∧ Reasonable n (a + 1) t r es p
  | .start m :: p => Reasonable n a (t + m) r (es ++ [t + m]) p
  | .recv :: p => r < t ∧ (if n.instant then r < a else r < a + 1) ∧ 0 < n.capOut ∧ Reasonable n a t (r + 1) es p
  | .wait :: p =>
    match es with
    | [] => False
    | e :: es => e ≤ a ∧ e ≤ r + n.capOut ∧ Reasonable n a t r es p

/-- Where the program is. -/
def Prog (n : Net D X Y) (p0 : List (Op X)) (s : St D X Y) : Prop :=
  (Reasonable n 0 0 0 [] p0 ↔ Reasonable n s.offers.length s.total s.log.length (s.ends.drop s.waits) s.prog) ∧ recvs p0 = s.log.length + recvs s.prog

/-- The counts of a system that only blocks. -/
structure Counts (n : Net D X Y) (s : St D X Y) : Prop where
  inp : s.offers.length = s.fed.length + s.pin.vis.length + s.pin.flight.length
  out : s.emits.length = s.log.length + s.pout.vis.length + s.pout.flight.length

theorem counts {n : Net D X Y} {p0 : List (Op X)} {s : St D X Y} (hb : Blocking n) (h : Inv n p0 s) : Counts n s := by
  have g1 := grouped_fifo h.pin.grp (by rw [hb.1]) (by rw [hb.1])
  rw [taken_all _ (h.offB (by rw [hb.1]))] at g1
  have g2 := grouped_fifo h.pout.grp (by rw [hb.2]) (by rw [hb.2])
  rw [taken_all _ (h.emB (by rw [hb.2]))] at g2
  have l1 := congrArg List.length g1
  have l2 := congrArg List.length g2
  simp only [List.length_append, List.length_map] at l1 l2
  exact ⟨by omega, by omega⟩

theorem prog_step (n : Net D X Y) (p0 : List (Op X)) (s a : St D X Y) (hb : Blocking n) (hi : Inv n p0 s) (h : Prog n p0 s) (w : Who) (ha : step n s w = some a) : Prog n p0 a := by
  obtain ⟨h1, h2⟩ := h
  obtain ⟨c1, c2⟩ := counts hb hi
  have hfed := hi.fedL
  have hem := hi.emL
  have hkT := hi.kT
  have hcap1 := hi.pin.cap
  have hcap2 := hi.pout.cap
  have hft : s.fed.length ≤ s.total ∧ s.fed.length ≤ s.k + 1 := by
    cases hc : s.cur.isSome with
    | false => rw [hc] at hfed; simp at hfed; omega
    | true => rw [hc] at hfed; have := hi.busy (.inl hc); simp at hfed; omega
  have het : s.emits.length ≤ s.total ∧ s.emits.length ≤ s.k + 1 ∧ s.k ≤ s.emits.length ∧ s.k ≤ s.fed.length := by
    cases hc : s.ext with
    | false => rw [hc] at hem; simp at hem; omega
    | true => rw [hc] at hem; have := hi.busy (.inr hc); simp at hem; omega
  have hins : n.instant = true → s.emits.length ≤ s.fed.length := by
    intro hn
    cases hc : s.ext with
    | false => rw [hc] at hem; simp at hem; omega
    | true => rw [hc] at hem; rw [hi.emI hn hc] at hfed; simp at hem hfed; omega
  cases w with
  | app =>
    simp only [step] at ha
    cases hp : s.prog with
    | nil => rw [hp] at ha; cases ha
    | cons o p =>
      rw [hp] at ha h1 h2
      cases o with
      | send x =>
        simp only at ha
        split at ha
        · rename_i hf
          cases ha
          refine ⟨h1.trans ?_, h2⟩
          simp only [Pipe.free, decide_eq_true_eq] at hf
          show (_ ∧ _) ↔ Reasonable n (s.offers ++ [(x, true)]).length _ _ _ _
          rw [List.length_append]
          exact ⟨fun h => h.2, fun h => ⟨by omega, h⟩⟩
        · split at ha
          · rename_i hd
            rw [hb.1] at hd; cases hd
          · cases ha
      | recv =>
        simp only at ha
        split at ha
        · rename_i y q ht
          cases ha
          have hv : 0 < s.pout.vis.length := by
            unfold Pipe.take at ht
            split at ht
            · rw [hb.2] at ht; simp at ht
            · rename_i hv; rw [hv]; simp
          refine ⟨h1.trans ?_, ?_⟩
          · show (_ ∧ _) ↔ Reasonable n _ _ (s.log ++ [y]).length _ _
            rw [List.length_append]
            refine ⟨fun h => h.2.2.2, fun h => ⟨by omega, ?_, by omega, h⟩⟩
            split
            · rename_i hn; have := hins hn; omega
            · omega
          · simp only [recvs] at h2
            simp only [List.length_append, List.length_cons, List.length_nil]
            omega
        · split at ha
          · cases ha
          · cases ha
            exact ⟨h1, h2⟩
      | start m =>
        cases ha
        refine ⟨h1.trans ?_, h2⟩
        have e : (s.ends ++ [s.total + m]).drop s.waits = s.ends.drop s.waits ++ [s.total + m] := by
          rw [List.drop_append_of_le_length hi.wE]
        show _ ↔ Reasonable n _ _ _ ((s.ends ++ [s.total + m]).drop s.waits) p
        rw [e]
        rfl
      | wait =>
        simp only at ha
        split at ha
        · cases ha
        · rename_i e he
          split at ha
          · rename_i hle
            cases ha
            refine ⟨h1.trans ?_, h2⟩
            obtain ⟨hlt, hE⟩ := List.getElem?_eq_some_iff.1 he
            rw [List.drop_eq_getElem_cons hlt, hE]
            show (_ ∧ _ ∧ _) ↔ Reasonable n _ _ _ (s.ends.drop (s.waits + 1)) p
            exact ⟨fun h => h.2.2, fun h => ⟨by omega, by omega, h⟩⟩
          · cases ha
  | inj =>
    simp only [step] at ha
    split at ha
    · split at ha
      · cases ha; exact ⟨h1, h2⟩
      · split at ha
        · cases ha
        · cases ha; exact ⟨h1, h2⟩
    · cases ha
  | ext =>
    have he : ∀ y, emit n s y = some a → Prog n p0 a := by
      intro y hy
      unfold emit at hy
      split at hy
      · cases hy; exact ⟨h1, h2⟩
      · split at hy
        · cases hy; exact ⟨h1, h2⟩
        · cases hy
    simp only [step] at ha
    split at ha
    · split at ha
      · split at ha
        · exact he _ ha
        · cases ha
      · exact he _ ha
    · cases ha
  | sync =>
    simp only [step] at ha
    split at ha
    · split at ha
      · cases ha; exact ⟨h1, h2⟩
      · cases ha
    · cases ha
  | inAnn => simp only [step, Option.map_eq_some_iff] at ha; obtain ⟨q, _, rfl⟩ := ha; exact ⟨h1, h2⟩
  | inBack => simp only [step, Option.map_eq_some_iff] at ha; obtain ⟨q, _, rfl⟩ := ha; exact ⟨h1, h2⟩
  | outAnn => simp only [step, Option.map_eq_some_iff] at ha; obtain ⟨q, _, rfl⟩ := ha; exact ⟨h1, h2⟩
  | outBack => simp only [step, Option.map_eq_some_iff] at ha; obtain ⟨q, _, rfl⟩ := ha; exact ⟨h1, h2⟩

theorem prog_exec (n : Net D X Y) (p0 : List (Op X)) (hb : Blocking n) : ∀ (l : List Who) (s : St D X Y), Inv n p0 s → Prog n p0 s → Prog n p0 (exec n s l)
  | [], _, _, h => h
  | w :: l, s, hi, h => by
    show Prog n p0 (exec n ((step n s w).getD s) l)
    cases hs : step n s w with
    | none => exact prog_exec n p0 hb l _ hi h
    | some a => exact prog_exec n p0 hb l _ (inv_step n p0 s a hi w hs) (prog_step n p0 s a hb hi h w hs)

/-- How far everybody gets if nobody can go on. -/
theorem stuck_counts (n : Net D X Y) (p0 : List (Op X)) (s : St D X Y) (hb : Blocking n) (h : Inv n p0 s) (hs : Stuck n s) :
    s.k = min s.offers.length (min s.total (s.log.length + n.capOut)) ∧ min s.offers.length (min s.total (s.log.length + n.capOut + 1)) ≤ s.fed.length ∧
      (if n.instant then min s.offers.length (min s.total (s.log.length + n.capOut)) else min (s.offers.length + 1) (min s.total (s.log.length + n.capOut))) ≤ s.emits.length := by
  obtain ⟨f1, f2, f3, f4⟩ := stuck_pipes n s hs
  obtain ⟨c1, c2⟩ := counts hb h
  rw [f1] at c1
  rw [f3] at c2
  simp only [List.length_nil, Nat.add_zero] at c1 c2
  have hcap2 := h.pout.cap
  have l5 := h.fedL
  have l6 := h.emL
  have hk := h.kT
  have hkf : s.k ≤ s.fed.length := by omega
  have hke : s.k ≤ s.emits.length := by omega
  have full : ∀ y, emit n s y = none → n.capOut ≤ s.pout.vis.length := by
    intro y hy
    obtain ⟨hf, _⟩ := emit_none hy
    simp only [Pipe.free, f3, f4, List.length_nil, Nat.add_zero, decide_eq_false_iff_not] at hf
    omega
  rcases (stuck_reasons n p0 s h hs).2 with h1 | ⟨h1, hc, _, hv⟩ | ⟨h1, hx, _, hv⟩
  · refine ⟨by omega, by omega, ?_⟩
    split <;> omega
  · rw [hc] at l5
    rw [hv] at c1
    simp only [Option.isSome_none, Bool.false_eq_true, if_false, List.length_nil, Nat.add_zero] at l5 c1
    refine ⟨by omega, by omega, ?_⟩
    split
    · omega
    · rename_i hn
      cases hx : s.ext with
      | true => rw [hx] at l6; simp at l6; omega
      | false =>
        have := hs .ext
        simp only [step, h1, hx, and_self, if_true, hn, Bool.false_eq_true, if_false] at this
        have := full _ this
        omega
  · rw [hx] at l6
    simp only [Bool.false_eq_true, if_false, Nat.add_zero] at l6
    refine ⟨by omega, ?_, ?_⟩
    · cases hc : s.cur with
      | some x => rw [hc] at l5; simp at l5; omega
      | none =>
        have := hs .inj
        simp only [step, h1, hc, and_self, if_true] at this
        split at this
        · cases this
        · rename_i ht
          have hv := (take_none ht).1
          rw [hv] at c1
          simp at c1
          omega
    · split <;> omega

/-- **C126.** Exactly which programs end with the default configuration of both sides (everything blocks, FIFO), whatever the schedule in which everybody gets enough turns: those in which every call finds what it
needs (`Reasonable`); the others wait for ever. -/
theorem C126_blocking_ends_iff (n : Net D X Y) (p : List (Op X)) (hb : Blocking n) (rounds : List (List Who)) (hr : ∀ rd ∈ rounds, ∀ w, w ∈ rd) (hlen : (p.map opLoad).sum + 8 < rounds.length) :
    (exec n (init n p) rounds.flatten).prog = [] ↔ Reasonable n 0 0 0 [] p := by
  generalize hS : exec n (init n p) rounds.flatten = s
  have hi0 := inv_init n p
  have hinv : Inv n p s := by rw [← hS]; exact inv_exec n p _ _ hi0
  have hst : Stuck n s := by rw [← hS]; exact C126_no_endless_loop n p rounds hr hlen
  have hprog : Prog n p s := by rw [← hS]; exact prog_exec n p hb _ _ hi0 ⟨Iff.rfl, by simp [init]⟩
  obtain ⟨d1, d2, d3⟩ := stuck_counts n p s hb hinv hst
  obtain ⟨f1, f2, f3, f4⟩ := stuck_pipes n s hst
  obtain ⟨c1, c2⟩ := counts hb hinv
  rw [f1] at c1
  rw [f3] at c2
  simp only [List.length_nil, Nat.add_zero] at c1 c2
  rw [hprog.1]
  constructor
  · intro h
    rw [h]
    trivial
  · intro h
    rcases (stuck_reasons n p s hinv hst).1 with h1 | ⟨x, q, h1, _, h2⟩ | ⟨q, h1, _, h2⟩ | ⟨q, h1, h2⟩
    · exact h1
    · rw [h1] at h
      have h := h.1
      omega
    · rw [h1] at h
      obtain ⟨h3, h4, h5, _⟩ := h
      rw [h2] at c2
      simp only [List.length_nil, Nat.add_zero] at c2
      split at h4
      · rename_i hn; rw [if_pos hn] at d3; omega
      · rename_i hn; rw [if_neg hn] at d3; omega
    · exfalso
      have ha := hst .app
      rw [h1] at h
      simp only [step, h1] at ha
      by_cases hlt : s.waits < s.ends.length
      · rw [List.drop_eq_getElem_cons hlt] at h
        obtain ⟨h3, h4, _⟩ := h
        rw [List.getElem?_eq_getElem hlt] at ha
        simp only at ha
        have := hinv.ends _ (List.getElem_mem hlt)
        rw [if_pos (by omega)] at ha
        cases ha
      · rw [List.drop_eq_nil_of_le (by omega)] at h
        exact h

/-- **C126.** And what they show: the `t`-th `receive` has returned the output of the network in time step `t` when it is given the items sent, one per time step; as many time steps are done as were started,
have an item, and can send their output. -/
theorem C126_blocking_completes (n : Net D X Y) (p : List (Op X)) (hb : Blocking n) (hp : Reasonable n 0 0 0 [] p) (rounds : List (List Who)) (hr : ∀ rd ∈ rounds, ∀ w, w ∈ rd)
    (hlen : (p.map opLoad).sum + 8 < rounds.length) :
    let s := exec n (init n p) rounds.flatten
    s.prog = [] ∧ s.k = min (sends p).length (min (stepsIn p) (recvs p + n.capOut)) ∧ s.log = (List.range (recvs p)).map (output n (sends p)) := by
  intro s
  have hend : s.prog = [] := (C126_blocking_ends_iff n p hb rounds hr hlen).2 hp
  have hi0 := inv_init n p
  have hinv : Inv n p s := inv_exec n p _ _ hi0
  have hst : Stuck n s := C126_no_endless_loop n p rounds hr hlen
  have hprog : Prog n p s := prog_exec n p hb _ _ hi0 ⟨Iff.rfl, by simp [init]⟩
  obtain ⟨d1, _, _⟩ := stuck_counts n p s hb hinv hst
  have l3 := congrArg List.length hinv.sends
  simp only [List.length_append, List.length_map] at l3
  have l4 := hinv.steps
  have c2 := hprog.2
  rw [hend] at l3 l4 c2
  simp only [sends, stepsIn, recvs, List.length_nil, Nat.add_zero] at l3 l4 c2
  refine ⟨hend, by rw [d1, l3, l4, c2], ?_⟩
  apply List.ext_getElem?
  intro t
  by_cases ht : t < s.log.length
  · have e := C126_default n p hb.1 hb.2 rounds.flatten t _ (List.getElem?_eq_getElem (show t < s.log.length from ht))
    rw [List.getElem?_eq_getElem ht, List.getElem?_map, List.getElem?_range (by omega)]
    exact congrArg some e
  · rw [List.getElem?_eq_none (by omega), List.getElem?_eq_none (by simp; omega)]

/-- The network of the examples with the default configuration and buffers with one slot. -/
def exOne : Net Int Int Int := { capIn := 1, capOut := 1, inj := ⟨false, false, false⟩, ext := ⟨false, false, false⟩, F := fun d x => d + x, G := fun d => d, d0 := 0, instant := true }

/-- One-slot buffers are enough to send, run, receive and wait in turn; also to run first. -/
theorem C126_example_one_slot : Blocking exOne ∧ Reasonable exOne 0 0 0 [] [.send 1, .start 2, .recv, .send 2, .recv, .wait, .start 1, .send 3, .wait, .recv] := by
  simp [Blocking, exOne, Reasonable]

/-- Two sends before the run do not fit; three time steps before the first `receive` do not either. -/
theorem C126_example_hangs : ¬ Reasonable exOne 0 0 0 [] [.send 1, .send 2, .start 2, .recv, .recv] ∧
    ¬ Reasonable exOne 0 0 0 [] [.start 2, .send 1, .send 2, .wait, .recv, .recv] ∧ ¬ Reasonable exOne 0 0 0 [] [.start 1, .recv, .send 1] := by
  simp [exOne, Reasonable]

end Verif.IO.PolicyNet
