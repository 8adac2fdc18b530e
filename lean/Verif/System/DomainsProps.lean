import Verif.System.Domains

/-! # C127: how a program is divided into synchronization domains does not matter -/

namespace Verif.System

variable {D V : Type}

/-- In a network every history is the beginning of the solution. -/
theorem hist_of_solution {P : Prog D V} {w r : Nat → Nat} (hw : Wired P w r) {H : Nat → Nat → V} (hH : Solves P w H) (l : List Nat)
    {c : Nat} (hc : P.Used c) :
    (exec P.net P.init l).hist c = (List.range ((exec P.net P.init l).hist c).length).map (H c) := by
  apply List.ext_getElem?
  intro k
  rcases Nat.lt_or_ge k ((exec P.net P.init l).hist c).length with hk | hk
  · rw [(C79_executions_follow_equations P w r hw H hH l).1 c hc k hk]
    simp [hk]
  · rw [List.getElem?_eq_none hk, List.getElem?_eq_none (by simpa using hk)]

variable [Inhabited V]

theorem used_under {P : Prog D V} {m : Nat} (a : Domains) (hb : P.Below m) {c : Nat} (hc : P.Used c) : (P.under m a).Used c := by
  obtain ⟨p, hp, h⟩ := hc
  refine ⟨p, Nat.lt_of_lt_of_le hp (Nat.le_add_right _ _), ?_⟩
  exact h.imp (fun h => mem_of_old a hb hp h) fun h => mem_of_old a hb hp h

/-- **C127.** A program without circular wait has one result, whatever the division of its processes into domains – all in lockstep with
one service, several services, all asynchronous, or a mixture – and whatever the schedule: the messages sent so far on a channel of
the program are the first messages `H c 0, H c 1, ...`, and a process that has completed `t` time steps (and not begun the next) has the
values `R p t` of its variables; the program itself (no services at all) has the same result. -/
theorem C127_one_result (P : Prog D V) (m : Nat) (w r : Nat → Nat) (hw : Wired P w r) (hb : P.Below m) (hK : ¬ ∃ K, CircularWait P w K) :
    ∃ (H : Nat → Nat → V) (R : Nat → Nat → D),
      (∀ l, (∀ c, P.Used c → (exec P.net P.init l).hist c = (List.range ((exec P.net P.init l).hist c).length).map (H c)) ∧
        ∀ p, p < P.n → ((exec P.net P.init l).q p).rest = P.body p →
          ((exec P.net P.init l).q p).data = R p ((exec P.net P.init l).q p).t) ∧
      ∀ a : Domains, a.OK P.n → ∀ l,
        let s := exec (P.under m a).net (P.under m a).init l
        (∀ c, P.Used c → s.hist c = (List.range (s.hist c).length).map (H c)) ∧
        ∀ p, p < P.n → (s.q p).rest = (P.under m a).body p → (s.q p).data = R p (s.q p).t := by
  obtain ⟨H, hH, _⟩ := C79_unique_solution P w r hw hK
  refine ⟨H, fun p => stateAt P p H, ?_, ?_⟩
  · intro l
    exact ⟨fun c hc => hist_of_solution hw hH l hc, fun p _ h => (C79_executions_follow_equations P w r hw H hH l).2 p h⟩
  · intro a ha l
    have hW := under_wired P m a w r hw hb ha
    have hS := solves_under P m a w hb H hH
    refine ⟨fun c hc => ?_, fun p hp h => ?_⟩
    · have := hist_of_solution hW hS l (used_under a hb hc)
      rw [this]
      simp only [List.length_map, List.length_range]
      apply List.map_congr_left
      intro t _
      rw [extend, if_pos (hb c hc)]
    · rw [(C79_executions_follow_equations _ _ _ hW _ hS l).2 p h, stateAt_under P m a hb hp]

/-- **C127.** So two divisions into domains can be compared at any time of any two executions: on every channel one has sent a beginning of
what the other has sent. -/
theorem C127_prefix (P : Prog D V) (m : Nat) (w r : Nat → Nat) (hw : Wired P w r) (hb : P.Below m) (hK : ¬ ∃ K, CircularWait P w K)
    (a b : Domains) (ha : a.OK P.n) (hb' : b.OK P.n) (l l' : List Nat) (c : Nat) (hc : P.Used c) :
    (exec (P.under m a).net (P.under m a).init l).hist c <+: (exec (P.under m b).net (P.under m b).init l').hist c ∨
    (exec (P.under m b).net (P.under m b).init l').hist c <+: (exec (P.under m a).net (P.under m a).init l).hist c := by
  obtain ⟨H, R, _, h⟩ := C127_one_result P m w r hw hb hK
  have h1 := (h a ha l).1 c hc
  have h2 := (h b hb' l').1 c hc
  have key : ∀ i j : Nat, i ≤ j → (List.range i).map (H c) <+: (List.range j).map (H c) := by
    intro i j hij
    obtain ⟨d, rfl⟩ := Nat.exists_eq_add_of_le hij
    rw [List.range_add, List.map_append]
    exact List.prefix_append _ _
  rw [h1, h2]
  rcases Nat.le_total ((exec (P.under m a).net (P.under m a).init l).hist c).length
    ((exec (P.under m b).net (P.under m b).init l').hist c).length with h | h
  · exact .inl (key _ _ h)
  · exact .inr (key _ _ h)

/-- A circular wait stays one. -/
theorem circle_under (P : Prog D V) (m : Nat) (a : Domains) (w : Nat → Nat) (hb : P.Below m)
    (hwn : ∀ c, P.Used c → w c < P.n) {K : Nat → Prop} (hK : CircularWait P w K) : CircularWait (P.under m a) (a.writer m P.n w) K := by
  refine ⟨hK.1, ?_⟩
  intro c hc
  obtain ⟨hu, c', hc', x, y, z, h⟩ := hK.2 c hc
  refine ⟨used_under a hb hu, c', hc', ?_⟩
  rw [Domains.writer, if_pos (hb c hu)]
  show Precedes (a.body m P.n P.body (w c)) _ _
  rw [Domains.body, if_pos (hwn c hu)]
  cases a.dom (w c) with
  | none => exact ⟨x, y, z, h⟩
  | some j => exact ⟨.rcv (cmdCh m (w c)) :: x, y, z ++ [.snd (respCh m (w c))], by simp [h]⟩

/-- **C127.** Divided into domains a program ends exactly if it ends on its own (and exactly if it has no circular wait): a program that
hangs when its processes run asynchronously also hangs in lockstep, and conversely. -/
theorem C127_ends_iff (P : Prog D V) (m : Nat) (w r : Nat → Nat) (hw : Wired P w r) (hb : P.Below m) (hT : 0 < P.T) (a : Domains)
    (ha : a.OK P.n) :
    (∀ rounds : List (List Nat), (∀ rd ∈ rounds, ∀ p, p < P.n + a.k → p ∈ rd) → work (P.under m a) ≤ rounds.length →
      ∀ p, p < P.n + a.k → ((exec (P.under m a).net (P.under m a).init rounds.flatten).q p).t = P.T) ↔
    (∀ rounds : List (List Nat), (∀ rd ∈ rounds, ∀ p, p < P.n → p ∈ rd) → work P ≤ rounds.length →
      ∀ p, p < P.n → ((exec P.net P.init rounds.flatten).q p).t = P.T) := by
  rw [C77_deadlock_iff P w r hw hT]
  have h := C77_deadlock_iff (P.under m a) _ _ (under_wired P m a w r hw hb ha) hT
  refine Iff.trans h (not_congr ⟨fun hk => ?_, fun ⟨K, hK⟩ => ?_⟩)
  · exact Classical.byContradiction fun hn => under_no_circle P m a w r hw hb ha hn hk
  · exact ⟨K, circle_under P m a w hb (fun c hu => (hw.both c hu).1) hK⟩

/-- **C127.** At the end (every process and service has had enough turns; nothing is assumed about their order) every process has
completed all time steps, with the same values of its variables and the same messages under every division into domains. -/
theorem C127_same_end (P : Prog D V) (m : Nat) (w r : Nat → Nat) (hw : Wired P w r) (hb : P.Below m) (hK : ¬ ∃ K, CircularWait P w K)
    (a b : Domains) (ha : a.OK P.n) (hb' : b.OK P.n) (l l' : List (List Nat))
    (hl : ∀ rd ∈ l, ∀ p, p < P.n + a.k → p ∈ rd) (hl' : ∀ rd ∈ l', ∀ p, p < P.n + b.k → p ∈ rd)
    (hn : work (P.under m a) ≤ l.length) (hn' : work (P.under m b) ≤ l'.length) :
    let s := exec (P.under m a).net (P.under m a).init l.flatten
    let s' := exec (P.under m b).net (P.under m b).init l'.flatten
    (∀ p, p < P.n → (s.q p).t = P.T ∧ (s'.q p).t = P.T ∧ (s.q p).data = (s'.q p).data) ∧
    ∀ c, P.Used c → (s.hist c).length = P.T ∧ s.hist c = s'.hist c := by
  obtain ⟨H, R, _, h⟩ := C127_one_result P m w r hw hb hK
  have key : ∀ (a : Domains), a.OK P.n → ∀ l : List (List Nat), (∀ rd ∈ l, ∀ p, p < P.n + a.k → p ∈ rd) →
      work (P.under m a) ≤ l.length →
      (∀ p, p < P.n → ((exec (P.under m a).net (P.under m a).init l.flatten).q p).t = P.T ∧
        ((exec (P.under m a).net (P.under m a).init l.flatten).q p).data = R p P.T) ∧
      ∀ c, P.Used c → (exec (P.under m a).net (P.under m a).init l.flatten).hist c = (List.range P.T).map (H c) := by
    intro a ha l hl hn
    have hW := under_wired P m a w r hw hb ha
    have hdone := (C77_no_deadlock _ _ _ hW (under_no_circle P m a w r hw hb ha hK)).2 l hl hn
    have hi := inv_exec _ _ _ hW l.flatten
    constructor
    · intro p hp
      have ht := hdone p (Nat.lt_of_lt_of_le hp (Nat.le_add_right _ _))
      have := (h a ha l.flatten).2 p hp (hi.top p ht)
      rw [ht] at this
      exact ⟨ht, this⟩
    · intro c hc
      have hu := used_under a hb hc
      have hbt := hW.both c hu
      have ht := hdone _ hbt.1
      have h1 := hi.sent c hu
      unfold sentBy at h1
      rw [hi.top _ ht, if_pos hbt.2.2.1, ht] at h1
      rw [(h a ha l.flatten).1 c hc, h1]
      rfl
  obtain ⟨h1, h2⟩ := key a ha l hl hn
  obtain ⟨h3, h4⟩ := key b hb' l' hl' hn'
  refine ⟨fun p hp => ⟨(h1 p hp).1, (h3 p hp).1, by rw [(h1 p hp).2, (h3 p hp).2]⟩, fun c hc => ⟨?_, ?_⟩⟩
  · rw [h2 c hc]; simp
  · rw [h2 c hc, h4 c hc]

/-! ### How far processes can run apart -/

omit [Inhabited V] in
theorem chan_le_cap (P : Prog D V) : ∀ (l : List Nat) (s : St (PS D) V), (∀ c, (s.chan c).length ≤ P.cap c) →
    ∀ c, ((exec P.net s l).chan c).length ≤ P.cap c := by
  intro l
  induction l with
  | nil => intro s h; exact h
  | cons p l ih =>
    intro s h
    rw [exec]
    cases hp : step P.net s p with
    | none => exact ih s h
    | some a =>
      refine ih a ?_
      intro c
      cases step_kind P hp with
      | tick _ _ _ ha => subst ha; exact h c
      | send _ _ c0 _ _ hc ha =>
        subst ha
        by_cases hcc : c = c0
        · subst hcc
          simp only [upd_self, List.length_append, List.length_singleton]
          omega
        · simp only [upd_ne _ hcc]; exact h c
      | recv _ _ c0 _ _ v r hc ha =>
        subst ha
        by_cases hcc : c = c0
        · subst hcc
          simp only [upd_self]
          have := h c
          rw [hc, List.length_cons] at this
          omega
        · simp only [upd_ne _ hcc]; exact h c

omit [Inhabited V] in
/-- **C127.** In every execution, the receiver of a channel is at most one time step ahead of the sender, and the sender at most the size
of the buffer and one more time step ahead of the receiver. -/
theorem C127_run_ahead (P : Prog D V) (w r : Nat → Nat) (hw : Wired P w r) (l : List Nat) (c : Nat) (hc : P.Used c) :
    ((exec P.net P.init l).q (r c)).t ≤ ((exec P.net P.init l).q (w c)).t + 1 ∧
    ((exec P.net P.init l).q (w c)).t ≤ ((exec P.net P.init l).q (r c)).t + P.cap c + 1 := by
  have hi := inv_exec P w r hw l
  have hcap := chan_le_cap P l P.init (fun c => Nat.zero_le _) c
  have h1 := hi.sent c hc
  have h2 := hi.rcvd c hc
  have h3 := congrArg List.length (hi.chan c hc)
  rw [List.length_drop] at h3
  unfold sentBy at h1
  unfold rcvdBy at h2 h3
  have h4 : (if Op.snd c ∈ ((exec P.net P.init l).q (w c)).rest then 0 else 1) ≤ 1 := by split <;> omega
  have h5 : (if Op.rcv c ∈ ((exec P.net P.init l).q (r c)).rest then 0 else 1) ≤ 1 := by split <;> omega
  omega

/-- **C127.** Processes of the same service stay in lockstep: in every execution, when one of them has received its command number `i + 2`,
every other has answered command number `i + 1`. -/
theorem C127_lockstep (P : Prog D V) (m : Nat) (w r : Nat → Nat) (hw : Wired P w r) (hb : P.Below m) (a : Domains) (ha : a.OK P.n)
    (l : List Nat) (p p' j : Nat) (hp : p < P.n) (hp' : p' < P.n) (hj : a.dom p = some j) (hj' : a.dom p' = some j) :
    let s := exec (P.under m a).net (P.under m a).init l
    (s.hist (cmdCh m p)).length ≤ (s.chan (cmdCh m p)).length + (s.hist (respCh m p')).length + 1 := by
  have hW := under_wired P m a w r hw hb ha
  have hi := inv_exec _ _ _ hW l
  generalize hs : exec (P.under m a).net (P.under m a).init l = s at hi
  have hjk := ha.1 p j hp hj
  have e0 : P.n + j - P.n = j := by omega
  have hcs : Op.snd (cmdCh m p) ∈ (P.under m a).body (P.n + j) :=
    (mem_sync hb (by unfold cmdCh; omega)).2.2 (.inr ⟨by omega, by omega, p, hp, by rw [e0]; exact hj, rfl⟩)
  have hcr : Op.rcv (cmdCh m p) ∈ (P.under m a).body p :=
    (mem_sync hb (by unfold cmdCh; omega)).1.2 (.inl ⟨hp, rfl, j, hj⟩)
  have hrs : Op.snd (respCh m p') ∈ (P.under m a).body p' :=
    (mem_sync hb (by unfold respCh; omega)).2.2 (.inl ⟨hp', rfl, j, hj'⟩)
  have hrr : Op.rcv (respCh m p') ∈ (P.under m a).body (P.n + j) :=
    (mem_sync hb (by unfold respCh; omega)).1.2 (.inr ⟨by omega, by omega, p', hp', by rw [e0]; exact hj', rfl⟩)
  have hn : (P.under m a).n = P.n + a.k := rfl
  have hu1 : (P.under m a).Used (cmdCh m p) := ⟨p, by omega, .inr hcr⟩
  have hu2 : (P.under m a).Used (respCh m p') := ⟨p', by omega, .inl hrs⟩
  have h1 := hi.sent _ hu1
  rw [hW.snd _ _ hcs] at h1
  have h2 := hi.chan _ hu1
  rw [hW.rcv _ _ hcr] at h2
  have h3 := hi.rcvd _ hu2
  rw [hW.rcv _ _ hrr] at h3
  have h4 := congrArg List.length h2
  rw [List.length_drop] at h4
  have h5 := hi.rcvd _ hu1
  rw [hW.rcv _ _ hcr] at h5
  unfold sentBy at h1
  unfold rcvdBy at h3
  have h6 : (if Op.snd (cmdCh m p) ∈ (s.q (P.n + j)).rest then 0 else 1) ≤ 1 := by split <;> omega
  dsimp only
  omega

end Verif.System
