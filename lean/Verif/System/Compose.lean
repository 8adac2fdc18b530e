import Verif.System.Blocks

/-!
# C112: what a network computes depends only on the network

Listeners (probes, sinks, a second network behind it), the order in which ports were connected, the sizes of the channel buffers, the
number of time steps and everything about the schedule do not change what the processes of a block diagram compute.
-/

namespace Verif.System

variable {S V : Type}

/-- `d'` contains the network `d`: the same processes with the same code and the same channels between them, possibly in another order,
with other buffer sizes, and a run that is at least as long. What `d'` has in addition - processes and channels - sends nothing to the
processes of `d`, but may receive from them. -/
structure Contains (d' d : Diagram S V) : Prop where
  n : d.n ≤ d'.n
  m : d.m ≤ d'.m
  T : d.T ≤ d'.T
  chan : ∀ c, c < d.m → d'.src c = d.src c ∧ d'.outPort c = d.outPort c ∧ d'.dst c = d.dst c ∧ d'.inPort c = d.inPort c
  proc : ∀ p, p < d.n → d'.sendFirst p = d.sendFirst p ∧ d'.init p = d.init p ∧ d'.absorb p = d.absorb p ∧ d'.emit p = d.emit p ∧
    d'.tick p = d.tick p
  listens : ∀ c, d.m ≤ c → c < d'.m → d.n ≤ d'.dst c

/-- What a process does with messages does not depend on the order in which it takes them from its channels, for example because it adds
them up (`PyInPortVectorDense.recv`, core/model/py/ports.py:333-351) or stores them per port. -/
def OrderFree (d : Diagram S V) : Prop :=
  ∀ p s i v j w, d.absorb p (d.absorb p s i v) j w = d.absorb p (d.absorb p s j w) i v

theorem ins_perm {d d' : Diagram S V} (hc : Contains d' d) (h : d.WF) (h' : d'.WF) (p : Nat) (hp : p < d.n) : (d'.ins p).Perm (d.ins p) := by
  rw [List.perm_ext_iff_of_nodup (h'.ins p).1 (h.ins p).1]
  intro c
  rw [(h'.ins p).2, (h.ins p).2]
  constructor
  · rintro ⟨h1, h2⟩
    by_cases hm : c < d.m
    · exact ⟨hm, by rw [← (hc.chan c hm).2.2.1]; exact h2⟩
    · have := hc.listens c (by omega) h1
      omega
  · rintro ⟨h1, h2⟩
    have := hc.m
    exact ⟨by omega, by rw [(hc.chan c h1).2.2.1]; exact h2⟩

theorem feed_same {d d' : Diagram S V} (hc : Contains d' d) (h : d.WF) (h' : d'.WF) (ho : OrderFree d) (p : Nat) (hp : p < d.n)
    (H : Nat → Nat → V) (t : Nat) (s : S) : d'.feed p H t (d'.ins p) s = d.feed p H t (d.ins p) s := by
  unfold Diagram.feed
  have hin : ∀ c ∈ d'.ins p, c < d.m := fun c hcm => ((h.ins p).2 c).1 ((ins_perm hc h h' p hp).mem_iff.1 hcm) |>.1
  have e : ∀ (l : List Nat) (s : S), (∀ c ∈ l, c < d.m) →
      l.foldl (fun s c => d'.absorb p s (d'.inPort c) (H c t)) s = l.foldl (fun s c => d.absorb p s (d.inPort c) (H c t)) s := by
    intro l
    induction l with
    | nil => intro s _; rfl
    | cons c l ih =>
      intro s hl
      simp only [List.foldl_cons]
      rw [(hc.proc p hp).2.2.1, (hc.chan c (hl c (by simp))).2.2.2]
      rw [show (fun s c => d.absorb p s (d'.inPort c) (H c t)) = (fun s c => d'.absorb p s (d'.inPort c) (H c t)) by
        rw [(hc.proc p hp).2.2.1]]
      exact ih _ fun c hc => hl c (by simp [hc])
  rw [e _ _ hin]
  exact (ins_perm hc h h' p hp).foldl_eq' (fun x _ y _ z => ho p z _ _ _ _) s

theorem state_same {d d' : Diagram S V} (hc : Contains d' d) (h : d.WF) (h' : d'.WF) (ho : OrderFree d) (p : Nat) (hp : p < d.n)
    (H : Nat → Nat → V) : ∀ t, d'.state p H t = d.state p H t
  | 0 => (hc.proc p hp).2.1
  | t + 1 => by
    rw [Diagram.state, Diagram.state, feed_same hc h h' ho p hp, state_same hc h h' ho p hp H t, (hc.proc p hp).2.2.2.2]

theorem meets_restrict {d d' : Diagram S V} (hc : Contains d' d) (h : d.WF) (h' : d'.WF) (ho : OrderFree d) (H : Nat → Nat → V)
    (hM : d'.Meets H) : d.Meets H := by
  intro c t hcm ht
  have hm := hc.m
  have hT := hc.T
  have := hM c t (by omega) (by omega)
  have hp := h.src c hcm
  rw [this, (hc.chan c hcm).1, (hc.chan c hcm).2.1, (hc.proc _ hp).2.2.2.1]
  congr 1
  unfold Diagram.input
  rw [(hc.proc _ hp).1, state_same hc h h' ho _ hp, feed_same hc h h' ho _ hp]

/-- Executions of a block diagram and its equations: messages and states. -/
theorem follows [Inhabited V] (d : Diagram S V) (h : d.WF) (H : Nat → Nat → V) (hM : d.Meets H) (l : List Nat) :
    (∀ c, c < d.m → ∀ k, k < (d.sent l c).length → (d.sent l c)[k]? = some (H c k)) ∧
    ∀ p, ((exec d.prog.net d.prog.init l).q p).rest = d.prog.body p →
      ((exec d.prog.net d.prog.init l).q p).data = d.state p H ((exec d.prog.net d.prog.init l).q p).t := by
  have hw := diagram_wired d h
  have hS : Solves d.prog d.src H := by
    intro c hu t ht x y hxy
    rw [runOps_prefix d h c H t x y hxy]
    exact hM c t ((used_iff d h c).1 hu) ht
  obtain ⟨h1, h2⟩ := C79_executions_follow_equations _ _ _ hw H hS l
  refine ⟨fun c hc k hk => h1 c ((used_iff d h c).2 hc) k hk, ?_⟩
  intro p hp
  rw [h2 p hp, stateAt_state]

/-- **C112.** A network inside a larger one: whatever listens to it, in whatever order it was connected and with whatever buffer sizes, under
any two schedules, the `k`-th message on each of its channels is the same in both networks, and after `t` completed time steps each of its
processes is in the same state in both. -/
theorem C112_same_results [Inhabited V] (d d' : Diagram S V) (hc : Contains d' d) (h : d.WF) (h' : d'.WF) (ho : OrderFree d)
    (hl' : d'.LoopsHaveConnections) (l l' : List Nat) :
    (∀ c, c < d.m → ∀ k, k < (d.sent l c).length → k < (d'.sent l' c).length → (d.sent l c)[k]? = (d'.sent l' c)[k]?) ∧
    ∀ p, p < d.n → ((exec d.prog.net d.prog.init l).q p).rest = d.prog.body p →
      ((exec d'.prog.net d'.prog.init l').q p).rest = d'.prog.body p →
      ((exec d.prog.net d.prog.init l).q p).t = ((exec d'.prog.net d'.prog.init l').q p).t →
      ((exec d.prog.net d.prog.init l).q p).data = ((exec d'.prog.net d'.prog.init l').q p).data := by
  obtain ⟨H, hM, _⟩ := C79_block_diagrams d' h' hl'
  obtain ⟨a1, a2⟩ := follows d h H (meets_restrict hc h h' ho H hM) l
  obtain ⟨b1, b2⟩ := follows d' h' H hM l'
  have hm := hc.m
  refine ⟨fun c hcm k hk hk' => by rw [a1 c hcm k hk, b1 c (by omega) k hk'], ?_⟩
  intro p hp e1 e2 e3
  rw [a2 p e1, b2 p e2, state_same hc h h' ho p hp, e3]

/-- If the smaller network's loops go through connections and what is added has none of its own, the larger network cannot deadlock
either. -/
theorem loops_of_listeners (d d' : Diagram S V) (hc : Contains d' d) (h : d.WF) (hl : d.LoopsHaveConnections)
    (rank' : Nat → Nat)
    (hr : ∀ c, d.m ≤ c → c < d'.m → d.n ≤ d'.src c → d'.sendFirst (d'.src c) = false → d'.sendFirst (d'.dst c) = false →
      rank' (d'.src c) < rank' (d'.dst c)) : d'.LoopsHaveConnections := by
  obtain ⟨rank, hrank⟩ := hl
  have bound : ∃ B, ∀ p, p < d.n → rank p < B := by
    refine ⟨(Finset.range d.n).sup rank + 1, fun p hp => ?_⟩
    exact Nat.lt_succ_of_le (Finset.le_sup (f := rank) (Finset.mem_range.2 hp))
  obtain ⟨B, hB⟩ := bound
  refine ⟨fun p => if p < d.n then rank p else B + rank' p, ?_⟩
  intro c hcm h1 h2
  by_cases hm : c < d.m
  · obtain ⟨e1, _, e2, _⟩ := hc.chan c hm
    have hs := h.src c hm
    have hd := h.dst c hm
    rw [e1] at h1; rw [e2] at h2
    rw [(hc.proc _ hs).1] at h1
    rw [(hc.proc _ hd).1] at h2
    rw [e1, e2]
    simp only [hs, hd, if_true]
    exact hrank c hm h1 h2
  · have hd := hc.listens c (by omega) hcm
    have hd' : ¬ d'.dst c < d.n := by omega
    simp only [hd', if_false]
    by_cases hs : d'.src c < d.n
    · simp only [hs, if_true]
      have := hB _ hs
      omega
    · simp only [hs, if_false]
      have := hr c (by omega) hcm (by omega) h1 h2
      omega

/-- **C112 (probes).** Sinks behind a network - processes that only receive - neither make it deadlock nor change anything: under every
schedule that gives everybody enough turns, both networks complete all steps and have sent the same on every channel of the first one. -/
theorem C112_sinks [Inhabited V] (d d' : Diagram S V) (hc : Contains d' d) (hT : d'.T = d.T) (h : d.WF) (h' : d'.WF) (ho : OrderFree d)
    (hl : d.LoopsHaveConnections) (hsink : ∀ c, d.m ≤ c → c < d'.m → d'.src c < d.n)
    (rounds rounds' : List (List Nat)) (hr : ∀ rd ∈ rounds, ∀ p, p < d.n → p ∈ rd) (hr' : ∀ rd ∈ rounds', ∀ p, p < d'.n → p ∈ rd)
    (hw : work d.prog ≤ rounds.length) (hw' : work d'.prog ≤ rounds'.length) (c : Nat) (hcm : c < d.m) :
    d.sent rounds.flatten c = d'.sent rounds'.flatten c ∧ (d.sent rounds.flatten c).length = d.T := by
  have hl' := loops_of_listeners d d' hc h hl (fun _ => 0) (fun c h1 h2 h3 => by
    have := hsink c h1 h2; omega)
  have hm := hc.m
  obtain ⟨_, _, _, _, hd, _⟩ := C79_block_diagrams d h hl
  obtain ⟨_, _, _, _, hd', _⟩ := C79_block_diagrams d' h' hl'
  have e1 := hd rounds hr hw c hcm
  have e2 := hd' rounds' hr' hw' c (by omega)
  refine ⟨?_, e1⟩
  apply List.ext_getElem?
  intro k
  by_cases hk : k < d.T
  · exact (C112_same_results d d' hc h h' ho hl' rounds.flatten rounds'.flatten).1 c hcm k (by omega) (by omega)
  · rw [List.getElem?_eq_none (by omega), List.getElem?_eq_none (by omega)]

/-- **C112 (buffers and order of connections).** Networks that differ only in the sizes of their channel buffers and in the order in which
processes use their channels send the same. -/
theorem C112_buffers_and_order [Inhabited V] (d d' : Diagram S V) (h : d.WF) (h' : d'.WF) (ho : OrderFree d) (hl : d.LoopsHaveConnections)
    (same : d' = { d with cap := d'.cap, ins := d'.ins, outs := d'.outs }) (l l' : List Nat) (c : Nat) (hcm : c < d.m) (k : Nat)
    (hk : k < (d.sent l c).length) (hk' : k < (d'.sent l' c).length) : (d.sent l c)[k]? = (d'.sent l' c)[k]? := by
  have hc : Contains d' d := by
    rw [same]
    exact ⟨le_refl _, le_refl _, le_refl _, fun _ _ => ⟨rfl, rfl, rfl, rfl⟩, fun _ _ => ⟨rfl, rfl, rfl, rfl, rfl⟩, fun c h1 h2 => by
      have : c < d.m := h2
      omega⟩
  have hl' : d'.LoopsHaveConnections := by
    obtain ⟨rank, hr⟩ := hl
    rw [same]
    exact ⟨rank, hr⟩
  exact (C112_same_results d d' hc h h' ho hl' l l').1 c hcm k hk hk'

/-! ### Example: a loop with and without a sink -/

/-- A neuron (process 0) and a connection (process 1) in a loop; both add up what they get. -/
def exLoop : Diagram Nat Nat where
  n := 2
  m := 2
  T := 3
  cap := fun _ => 1
  src := fun c => c
  outPort := fun _ => 0
  dst := fun c => 1 - c
  inPort := fun _ => 0
  ins := fun p => if p = 0 then [1] else if p = 1 then [0] else []
  outs := fun p => if p = 0 then [0] else if p = 1 then [1] else []
  sendFirst := fun p => p == 1
  init := fun p => p
  absorb := fun _ s _ v => s + v
  emit := fun _ s _ => s + 1
  tick := fun _ s => s

/-- The same with a sink (process 2) that gets everything the neuron sends, twice, larger buffers, and other channel orders. -/
def exProbed : Diagram Nat Nat :=
  { exLoop with
    n := 3
    m := 4
    cap := fun c => c + 1
    src := fun c => if c < 2 then c else 0
    dst := fun c => if c < 2 then 1 - c else 2
    ins := fun p => if p = 0 then [1] else if p = 1 then [0] else if p = 2 then [3, 2] else []
    outs := fun p => if p = 0 then [2, 0, 3] else if p = 1 then [1] else [] }

theorem exLoop_wf : exLoop.WF := by
  refine ⟨fun p => ⟨?_, fun c => ?_⟩, fun p => ⟨?_, fun c => ?_⟩, ?_, ?_, ?_⟩
  · simp only [exLoop]; split <;> [simp; (split <;> simp)]
  · simp only [exLoop]; split <;> [(simp; omega); (split <;> simp <;> omega)]
  · simp only [exLoop]; split <;> [simp; (split <;> simp)]
  · simp only [exLoop]; split <;> [(simp; omega); (split <;> simp <;> omega)]
  · intro c hc; exact hc
  · intro c hc; show 1 - c < 2; omega
  · intro c _; exact le_refl _

theorem exProbed_wf : exProbed.WF := by
  refine ⟨fun p => ⟨?_, fun c => ?_⟩, fun p => ⟨?_, fun c => ?_⟩, ?_, ?_, ?_⟩
  · simp only [exProbed]; split <;> [simp; (split <;> [simp; (split <;> simp)])]
  · simp only [exProbed]; split <;> [(simp; split <;> omega); (split <;> [(simp; split <;> omega); (split <;> simp <;> split <;> omega)])]
  · simp only [exProbed]; split <;> [simp; (split <;> simp)]
  · simp only [exProbed]; split <;> [(simp; split <;> omega); (split <;> simp <;> split <;> omega)]
  · intro c hc; show (if c < 2 then c else 0) < 3; split <;> omega
  · intro c hc; show (if c < 2 then 1 - c else 2) < 3; split <;> omega
  · intro c _; show 1 ≤ c + 1; omega

theorem exProbed_contains : Contains exProbed exLoop := by
  refine ⟨by decide, by decide, le_refl _, ?_, fun _ _ => ⟨rfl, rfl, rfl, rfl, rfl⟩, ?_⟩
  · intro c hc
    have hc : c < 2 := hc
    simp [exProbed, exLoop, hc]
  · intro c h1 h2
    have h1 : ¬ c < 2 := not_lt.mpr h1
    simp [exProbed, exLoop, h1]

example (rounds rounds' : List (List Nat)) (hr : ∀ rd ∈ rounds, ∀ p, p < 2 → p ∈ rd) (hr' : ∀ rd ∈ rounds', ∀ p, p < 3 → p ∈ rd)
    (hw : work exLoop.prog ≤ rounds.length) (hw' : work exProbed.prog ≤ rounds'.length) (c : Nat) (hc : c < 2) :
    exLoop.sent rounds.flatten c = exProbed.sent rounds'.flatten c ∧ (exLoop.sent rounds.flatten c).length = 3 := by
  refine C112_sinks exLoop exProbed exProbed_contains rfl exLoop_wf exProbed_wf ?_ ?_ ?_ rounds rounds' hr hr' hw hw' c hc
  · intro p s i v j w; show s + v + w = s + w + v; omega
  · refine ⟨fun _ => 0, fun c hc h1 h2 => ?_⟩
    have hc : c < 2 := hc
    have h1 : (c == 1) = false := h1
    have h2 : (1 - c == 1) = false := h2
    simp at h1 h2
    omega
  · intro c h1 h2
    have h1 : ¬ c < 2 := not_lt.mpr h1
    simp [exProbed, exLoop, h1]

end Verif.System
