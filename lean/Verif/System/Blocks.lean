import Verif.System.Dataflow

/-!
# Block diagrams

A network of processes of the two shapes that occur in the library: a *neuron* reads all its in-ports, computes and then writes its
out-ports (proc/lif/models.py:58-69, proc/graded/models.py:27-40); a *connection* first writes what it computed in the step before
and then reads (proc/dense/models.py:77-107, proc/sparse/models.py:77-107). If every loop of the wiring goes through a connection, the
network cannot deadlock and what it computes is given by the obvious synchronous equations, whatever the schedule. This file derives
that from C77 and C79 once for all wirings.
-/

namespace Verif.System

variable {S V : Type}

/-- `n` processes and `m` channels. `src c`, `outPort c`: sender and its out-port; `dst c`, `inPort c`: receiver and its in-port;
`ins p`, `outs p`: the channels of a process in the order in which its code uses them (core/model/py/ports.py:333-351, 486-497). -/
structure Diagram (S V : Type) where
  n : Nat
  m : Nat
  T : Nat
  cap : Nat → Nat
  src : Nat → Nat
  outPort : Nat → Nat
  dst : Nat → Nat
  inPort : Nat → Nat
  ins : Nat → List Nat
  outs : Nat → List Nat
  /-- connections send first -/
  sendFirst : Nat → Bool
  init : Nat → S
  absorb : Nat → S → Nat → V → S
  emit : Nat → S → Nat → V
  tick : Nat → S → S

/-- Every channel joins two processes, appears once in the code of each of them, and holds at least one message. -/
structure Diagram.WF (d : Diagram S V) : Prop where
  ins : ∀ p, (d.ins p).Nodup ∧ ∀ c, c ∈ d.ins p ↔ c < d.m ∧ d.dst c = p
  outs : ∀ p, (d.outs p).Nodup ∧ ∀ c, c ∈ d.outs p ↔ c < d.m ∧ d.src c = p
  src : ∀ c, c < d.m → d.src c < d.n
  dst : ∀ c, c < d.m → d.dst c < d.n
  cap : ∀ c, c < d.m → 1 ≤ d.cap c

/-- Every loop goes through a connection: neurons that feed each other directly can be ranked. -/
def Diagram.LoopsHaveConnections (d : Diagram S V) : Prop :=
  ∃ rank : Nat → Nat, ∀ c, c < d.m → d.sendFirst (d.src c) = false → d.sendFirst (d.dst c) = false →
    rank (d.src c) < rank (d.dst c)

/-- The program of the processes. -/
def Diagram.prog (d : Diagram S V) : Prog S V where
  n := d.n
  T := d.T
  body := fun p => if d.sendFirst p then (d.outs p).map .snd ++ (d.ins p).map .rcv
    else (d.ins p).map .rcv ++ (d.outs p).map .snd
  d0 := d.init
  emit := fun p s c => d.emit p s (d.outPort c)
  absorb := fun p s c v => d.absorb p s (d.inPort c) v
  tick := d.tick
  cap := d.cap

/-! ### The equations -/

/-- The state of process `p` after it has read step `t` of the channels `cs`. -/
def Diagram.feed (d : Diagram S V) (p : Nat) (H : Nat → Nat → V) (t : Nat) (cs : List Nat) (s : S) : S :=
  cs.foldl (fun s c => d.absorb p s (d.inPort c) (H c t)) s

/-- The state of process `p` before step `t`, if `H c t` is the message of channel `c` in step `t`. -/
def Diagram.state (d : Diagram S V) (p : Nat) (H : Nat → Nat → V) : Nat → S
  | 0 => d.init p
  | t + 1 => d.tick p (d.feed p H t (d.ins p) (d.state p H t))

/-- What process `p` computes from: a connection from its state, a neuron from its state and what it read in this step. -/
def Diagram.input (d : Diagram S V) (p : Nat) (H : Nat → Nat → V) (t : Nat) : S :=
  if d.sendFirst p then d.state p H t else d.feed p H t (d.ins p) (d.state p H t)

/-- The synchronous equations. -/
def Diagram.Meets (d : Diagram S V) (H : Nat → Nat → V) : Prop :=
  ∀ c t, c < d.m → t < d.T → H c t = d.emit (d.src c) (d.input (d.src c) H t) (d.outPort c)

/-! ### Executions -/

/-- Everything sent on channel `c` under a schedule. -/
def Diagram.sent (d : Diagram S V) (schedule : List Nat) (c : Nat) : List V := (exec d.prog.net d.prog.init schedule).hist c

theorem mem_body (d : Diagram S V) (p : Nat) (o : Op) :
    o ∈ d.prog.body p ↔ (∃ c ∈ d.ins p, o = .rcv c) ∨ (∃ c ∈ d.outs p, o = .snd c) := by
  simp only [Diagram.prog]
  split
  · simp only [List.mem_append, List.mem_map]
    constructor
    · rintro (⟨c, h, rfl⟩ | ⟨c, h, rfl⟩)
      · exact Or.inr ⟨c, h, rfl⟩
      · exact Or.inl ⟨c, h, rfl⟩
    · rintro (⟨c, h, rfl⟩ | ⟨c, h, rfl⟩)
      · exact Or.inr ⟨c, h, rfl⟩
      · exact Or.inl ⟨c, h, rfl⟩
  · simp only [List.mem_append, List.mem_map]
    constructor
    · rintro (⟨c, h, rfl⟩ | ⟨c, h, rfl⟩)
      · exact Or.inl ⟨c, h, rfl⟩
      · exact Or.inr ⟨c, h, rfl⟩
    · rintro (⟨c, h, rfl⟩ | ⟨c, h, rfl⟩)
      · exact Or.inl ⟨c, h, rfl⟩
      · exact Or.inr ⟨c, h, rfl⟩

theorem snd_mem_body (d : Diagram S V) (p c : Nat) : Op.snd c ∈ d.prog.body p ↔ c ∈ d.outs p := by
  rw [mem_body]; simp

theorem rcv_mem_body (d : Diagram S V) (p c : Nat) : Op.rcv c ∈ d.prog.body p ↔ c ∈ d.ins p := by
  rw [mem_body]; simp

theorem used_iff (d : Diagram S V) (h : d.WF) (c : Nat) : d.prog.Used c ↔ c < d.m := by
  unfold Prog.Used
  constructor
  · rintro ⟨p, _, hp | hp⟩
    · exact ((h.outs p).2 c).1 ((snd_mem_body d p c).1 hp) |>.1
    · exact ((h.ins p).2 c).1 ((rcv_mem_body d p c).1 hp) |>.1
  · intro hc
    exact ⟨d.src c, h.src c hc, Or.inl ((snd_mem_body d _ c).2 (((h.outs _).2 c).2 ⟨hc, rfl⟩))⟩

theorem diagram_wired (d : Diagram S V) (h : d.WF) : Wired d.prog d.src d.dst where
  nodup := fun p => by
    have hi : ((d.ins p).map Op.rcv).Nodup := (h.ins p).1.map (fun a b hab => by cases hab; rfl)
    have ho : ((d.outs p).map Op.snd).Nodup := (h.outs p).1.map (fun a b hab => by cases hab; rfl)
    simp only [Diagram.prog]
    split
    · refine List.Nodup.append ho hi ?_
      intro x hx hy
      simp only [List.mem_map] at hx hy
      obtain ⟨a, _, rfl⟩ := hx
      obtain ⟨b, _, hb⟩ := hy
      cases hb
    · refine List.Nodup.append hi ho ?_
      intro x hx hy
      simp only [List.mem_map] at hx hy
      obtain ⟨a, _, rfl⟩ := hx
      obtain ⟨b, _, hb⟩ := hy
      cases hb
  snd := fun p c hc => (((h.outs p).2 c).1 ((snd_mem_body d p c).1 hc)).2
  rcv := fun p c hc => (((h.ins p).2 c).1 ((rcv_mem_body d p c).1 hc)).2
  both := fun c hc => by
    have hc := (used_iff d h c).1 hc
    exact ⟨h.src c hc, h.dst c hc, (snd_mem_body d _ c).2 (((h.outs _).2 c).2 ⟨hc, rfl⟩),
      (rcv_mem_body d _ c).2 (((h.ins _).2 c).2 ⟨hc, rfl⟩)⟩
  cap := fun c hc => h.cap c ((used_iff d h c).1 hc)

theorem diagram_no_circle (d : Diagram S V) (h : d.WF) (hl : d.LoopsHaveConnections) :
    ¬ ∃ K, CircularWait d.prog d.src K := by
  obtain ⟨rank, hr⟩ := hl
  refine C77_send_first_breaks_cycles _ _ _ (diagram_wired d h) (fun p => d.sendFirst p = true) ?_ rank ?_
  · intro p hp c c' hpre
    have hb : d.prog.body p = (d.outs p).map .snd ++ (d.ins p).map .rcv := by simp only [Diagram.prog]; rw [if_pos hp]
    rw [hb] at hpre
    obtain ⟨x, y, z, he⟩ := hpre
    rcases List.append_eq_append_iff.1 he with ⟨as, h5, h6⟩ | ⟨bs, h5, h6⟩
    · have : Op.snd c ∈ (d.ins p).map Op.rcv := by rw [h6]; simp
      simp at this
    · cases bs with
      | nil =>
        have : Op.snd c ∈ (d.ins p).map Op.rcv := by
          simp only [List.nil_append] at h6; rw [← h6]; simp
        simp at this
      | cons e bs =>
        simp only [List.cons_append, List.cons.injEq] at h6
        have : Op.rcv c' ∈ (d.outs p).map Op.snd := by rw [h5, ← h6.1]; simp
        simp at this
  · intro c hu h1 h2
    exact hr c ((used_iff d h c).1 hu) (by simpa using h1) (by simpa using h2)

theorem runOps_rcv (d : Diagram S V) (p : Nat) (H : Nat → Nat → V) (t : Nat) (cs : List Nat) : ∀ s,
    runOps d.prog p H t (cs.map .rcv) s = d.feed p H t cs s := by
  induction cs with
  | nil => intro s; rfl
  | cons c cs ih => intro s; simp only [List.map_cons, runOps]; rw [ih]; rfl

theorem runOps_snd (d : Diagram S V) (p : Nat) (H : Nat → Nat → V) (t : Nat) (cs : List Nat) : ∀ s,
    runOps d.prog p H t (cs.map .snd) s = s := by
  induction cs with
  | nil => intro s; rfl
  | cons c cs ih => intro s; simp only [List.map_cons, runOps]; rw [ih]

theorem stateAt_state (d : Diagram S V) (p : Nat) (H : Nat → Nat → V) : ∀ t, stateAt d.prog p H t = d.state p H t
  | 0 => rfl
  | t + 1 => by
    have hb : d.prog.body p = if d.sendFirst p then (d.outs p).map .snd ++ (d.ins p).map .rcv
      else (d.ins p).map .rcv ++ (d.outs p).map .snd := rfl
    show d.prog.tick p (runOps d.prog p H t (d.prog.body p) (stateAt d.prog p H t)) = _
    rw [stateAt_state d p H t, hb]
    split
    · rw [runOps_append, runOps_snd, runOps_rcv]; rfl
    · rw [runOps_append, runOps_rcv, runOps_snd]; rfl

theorem runOps_prefix (d : Diagram S V) (h : d.WF) (c : Nat) (H : Nat → Nat → V) (t : Nat) (x y : List Op)
    (hb : d.prog.body (d.src c) = x ++ .snd c :: y) :
    runOps d.prog (d.src c) H t x (stateAt d.prog (d.src c) H t) = d.input (d.src c) H t := by
  have hnd := (diagram_wired d h).nodup (d.src c)
  rw [stateAt_state]
  unfold Diagram.input
  have hbody : d.prog.body (d.src c) = if d.sendFirst (d.src c) then (d.outs (d.src c)).map .snd ++ (d.ins (d.src c)).map .rcv
      else (d.ins (d.src c)).map .rcv ++ (d.outs (d.src c)).map .snd := rfl
  rw [hb] at hbody
  by_cases hs : d.sendFirst (d.src c) = true
  · rw [if_pos hs] at hbody ⊢
    rcases List.append_eq_append_iff.1 hbody with ⟨as, h5, h6⟩ | ⟨bs, h5, h6⟩
    · -- x is a prefix of the sends
      have : ∃ cs : List Nat, x = cs.map Op.snd := by
        rw [List.map_eq_append_iff] at h5
        obtain ⟨l1, l2, _, h7, _⟩ := h5
        exact ⟨l1, h7.symm⟩
      obtain ⟨cs, rfl⟩ := this
      rw [runOps_snd]
    · cases bs with
      | nil =>
        simp only [List.append_nil] at h5
        rw [h5, runOps_snd]
      | cons e bs =>
        exfalso
        have : Op.snd c ∈ (d.ins (d.src c)).map Op.rcv := by rw [h6]; simp
        simp at this
  · rw [if_neg hs] at hbody ⊢
    rcases List.append_eq_append_iff.1 hbody with ⟨as, h5, h6⟩ | ⟨bs, h5, h6⟩
    · cases as with
      | nil =>
        simp only [List.append_nil] at h5
        rw [← h5, runOps_rcv]
      | cons e as =>
        exfalso
        simp only [List.cons_append, List.cons.injEq] at h6
        have : Op.snd c ∈ (d.ins (d.src c)).map Op.rcv := by rw [h5, h6.1]; simp
        simp at this
    · have : ∃ cs : List Nat, bs = cs.map Op.snd := by
        rw [List.map_eq_append_iff] at h6
        obtain ⟨l1, l2, _, h7, _⟩ := h6
        exact ⟨l1, h7.symm⟩
      obtain ⟨cs, rfl⟩ := this
      rw [h5, runOps_append, runOps_rcv, runOps_snd]

/-- **C79.** Every block diagram whose loops go through connections computes its synchronous equations: they have a solution, under
*every* schedule the `k`-th message of every channel is the one the solution gives, every schedule that gives everybody enough turns
completes all `T` steps, and the solution is unique. -/
theorem C79_block_diagrams [Inhabited V] (d : Diagram S V) (h : d.WF) (hl : d.LoopsHaveConnections) :
    ∃ H : Nat → Nat → V, d.Meets H ∧
      (∀ schedule c k, c < d.m → k < (d.sent schedule c).length → (d.sent schedule c)[k]? = some (H c k)) ∧
      (∀ schedule, Stuck d.prog.net (exec d.prog.net d.prog.init schedule) →
        AllHalted d.prog.net (exec d.prog.net d.prog.init schedule)) ∧
      (∀ rounds : List (List Nat), (∀ rd ∈ rounds, ∀ p, p < d.n → p ∈ rd) → work d.prog ≤ rounds.length →
        ∀ c, c < d.m → (d.sent rounds.flatten c).length = d.T) ∧
      (∀ H', d.Meets H' → ∀ c t, c < d.m → t < d.T → H' c t = H c t) := by
  have hw := diagram_wired d h
  have hK := diagram_no_circle d h hl
  obtain ⟨H, hH, huniq⟩ := C79_unique_solution _ _ _ hw hK
  have toMeets : ∀ H, Solves d.prog d.src H → d.Meets H := by
    intro H hH c t hc ht
    have hu := (used_iff d h c).2 hc
    have hm : Op.snd c ∈ d.prog.body (d.src c) := (hw.both c hu).2.2.1
    obtain ⟨x, y, hxy⟩ := List.append_of_mem hm
    rw [hH c hu t ht x y hxy, runOps_prefix d h c H t x y hxy]
    rfl
  have ofMeets : ∀ H, d.Meets H → Solves d.prog d.src H := by
    intro H hM c hu t ht x y hxy
    rw [runOps_prefix d h c H t x y hxy]
    exact hM c t ((used_iff d h c).1 hu) ht
  refine ⟨H, toMeets H hH, ?_, (C77_no_deadlock _ _ _ hw hK).1, ?_, ?_⟩
  · intro l c k hc hk
    exact (C79_executions_follow_equations _ _ _ hw H hH l).1 c ((used_iff d h c).2 hc) k hk
  · intro rounds hr hlen c hc
    have hdone := (C77_no_deadlock _ _ _ hw hK).2 rounds hr hlen
    have hi := inv_exec _ _ _ hw rounds.flatten
    have hu := (used_iff d h c).2 hc
    have h1 := hi.sent c hu
    have hb := hw.both c hu
    have h2 := hdone (d.src c) hb.1
    have h3 := hi.top (d.src c) h2
    unfold Diagram.sent
    rw [h1]
    unfold sentBy
    rw [h3, if_pos hb.2.2.1, h2]
    rfl
  · intro H' hH' c t hc ht
    exact huniq H' (ofMeets H' hH') c ((used_iff d h c).2 hc) t ht

end Verif.System
