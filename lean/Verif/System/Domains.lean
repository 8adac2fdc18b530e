import Verif.System.Lockstep
import Verif.System.Dataflow

/-!
# C127: synchronization domains

The compiler divides the processes of a program into synchronization domains. A domain on the Loihi protocol has a runtime service that
keeps its process models in lockstep with commands and responses (runtime_services/runtime_service.py:206-236, 330-388); the models of a
domain on the asynchronous protocol get one command for the whole run and use no further synchronization (runtime_service.py:485-492;
core/model/py/model.py:752-765, `run_async` of a model converted by `PyLoihiModelToPyAsyncModel`). Here: the same processes under a
division into domains. As in `Verif.System.Lockstep` one phase is one time step (no management or learning phases), and the commands of the
runtime to the services (one per run) are left out.
-/

namespace Verif.System

variable {D V : Type}

/-- A division of processes into domains: `k` services, the service of each process (`none`: asynchronous), and the capacities of the
command and response channels. -/
structure Domains where
  k : Nat
  dom : Nat → Option Nat
  cap : Nat → Nat

/-- Every process of a program of `n` processes belongs to an existing service or to none, and channels hold at least one message. -/
def Domains.OK (a : Domains) (n : Nat) : Prop := (∀ p j, p < n → a.dom p = some j → j < a.k) ∧ ∀ c, 1 ≤ a.cap c

/-- The channel with the commands for a process, and that with its responses (`service_to_process`, `process_to_service`): after the `m`
channels of the program. -/
def cmdCh (m p : Nat) : Nat := m + 2 * p
def respCh (m p : Nat) : Nat := m + 2 * p + 1

/-- The process models of a service. -/
def Domains.members (a : Domains) (n j : Nat) : List Nat := (List.range n).filter fun p => decide (a.dom p = some j)

/-- The code of a time step: a process with a service waits for the command, runs and responds (model.py:207-238, 381-407); a service
sends the commands and collects the responses (runtime_service.py:206-236). -/
def Domains.body (a : Domains) (m n : Nat) (body : Nat → List Op) (p : Nat) : List Op :=
  if p < n then
    match a.dom p with
    | none => body p
    | some _ => .rcv (cmdCh m p) :: (body p ++ [.snd (respCh m p)])
  else if p < n + a.k then
    (a.members n (p - n)).map (fun q => .snd (cmdCh m q)) ++ (a.members n (p - n)).map (fun q => .rcv (respCh m q))
  else []

/-- The program `P` with channels `0, ..., m - 1`, divided into domains. Commands and responses do not touch the variables of a process. -/
def Prog.under [Inhabited V] (P : Prog D V) (m : Nat) (a : Domains) : Prog D V where
  n := P.n + a.k
  T := P.T
  body := a.body m P.n P.body
  d0 := P.d0
  emit := fun p d c => if c < m then P.emit p d c else default
  absorb := fun p d c v => if c < m then P.absorb p d c v else d
  tick := P.tick
  cap := fun c => if c < m then P.cap c else a.cap c

/-- Sender and receiver of a channel. -/
def Domains.writer (a : Domains) (m n : Nat) (w : Nat → Nat) (c : Nat) : Nat :=
  if c < m then w c else if (c - m) % 2 = 0 then n + (a.dom ((c - m) / 2)).getD 0 else (c - m) / 2
def Domains.reader (a : Domains) (m n : Nat) (r : Nat → Nat) (c : Nat) : Nat :=
  if c < m then r c else if (c - m) % 2 = 0 then (c - m) / 2 else n + (a.dom ((c - m) / 2)).getD 0

/-- A channel of the program. -/
def Op.old (m : Nat) : Op → Bool
  | .snd c => decide (c < m)
  | .rcv c => decide (c < m)

theorem old_snd {m c : Nat} (h : c < m) : Op.old m (.snd c) = true := decide_eq_true h
theorem old_rcv {m c : Nat} (h : c < m) : Op.old m (.rcv c) = true := decide_eq_true h

variable [Inhabited V] (P : Prog D V) (m : Nat) (a : Domains)

/-- The program only has channels below `m`. -/
def Prog.Below (P : Prog D V) (m : Nat) : Prop := ∀ c, P.Used c → c < m

omit [Inhabited V] in
theorem Prog.Below.old {P : Prog D V} {m : Nat} (h : P.Below m) {p : Nat} (hp : p < P.n) : ∀ o ∈ P.body p, o.old m = true := by
  intro o ho
  cases o with
  | snd c => exact decide_eq_true (h c ⟨p, hp, .inl ho⟩)
  | rcv c => exact decide_eq_true (h c ⟨p, hp, .inr ho⟩)

theorem mem_members {n j p : Nat} : p ∈ a.members n j ↔ p < n ∧ a.dom p = some j := by
  simp [Domains.members]

/-- The operations on the channels of the program are those of the program. -/
theorem body_old {P : Prog D V} {m : Nat} (hb : P.Below m) {p : Nat} (hp : p < P.n) :
    ((P.under m a).body p).filter (Op.old m) = P.body p := by
  have h1 : (P.body p).filter (Op.old m) = P.body p := List.filter_eq_self.2 (hb.old hp)
  simp only [Prog.under, Domains.body, if_pos hp]
  cases a.dom p with
  | none => exact h1
  | some j => simp [Op.old, cmdCh, respCh, h1, List.filter_cons]; omega

theorem body_svc {p : Nat} (h1 : ¬ p < P.n) (h2 : p < P.n + a.k) : (P.under m a).body p =
    (a.members P.n (p - P.n)).map (fun q => .snd (cmdCh m q)) ++ (a.members P.n (p - P.n)).map (fun q => .rcv (respCh m q)) := by
  show a.body m P.n P.body p = _
  rw [Domains.body, if_neg h1, if_pos h2]

theorem body_none {p : Nat} (h1 : ¬ p < P.n) (h2 : ¬ p < P.n + a.k) : (P.under m a).body p = [] := by
  show a.body m P.n P.body p = _
  rw [Domains.body, if_neg h1, if_neg h2]

theorem body_service (p : Nat) (hp : ¬ p < P.n) : ∀ o ∈ (P.under m a).body p, o.old m = false := by
  intro o ho
  by_cases h2 : p < P.n + a.k
  · rw [body_svc P m a hp h2, List.mem_append, List.mem_map, List.mem_map] at ho
    rcases ho with ⟨q, _, rfl⟩ | ⟨q, _, rfl⟩
    · exact decide_eq_false (by unfold cmdCh; omega)
    · exact decide_eq_false (by unfold respCh; omega)
  · rw [body_none P m a hp h2] at ho
    cases ho

theorem mem_old {P : Prog D V} {m : Nat} {a : Domains} (hb : P.Below m) {p : Nat} {o : Op} (ho : o.old m = true)
    (h : o ∈ (P.under m a).body p) : p < P.n ∧ o ∈ P.body p := by
  rcases Nat.lt_or_ge p P.n with hp | hp
  · refine ⟨hp, ?_⟩
    rw [← body_old a hb hp]
    exact List.mem_filter.2 ⟨h, ho⟩
  · rw [body_service P m a p (Nat.not_lt.2 hp) o h] at ho
    cases ho

theorem mem_of_old {P : Prog D V} {m : Nat} (hb : P.Below m) {p : Nat} (hp : p < P.n) {o : Op} (h : o ∈ P.body p) :
    o ∈ (P.under m a).body p := by
  rw [← body_old a hb hp] at h
  exact (List.mem_filter.1 h).1

/-- Who uses a command or a response channel. -/
theorem mem_sync {P : Prog D V} {m : Nat} {a : Domains} (hb : P.Below m) {p c : Nat} (hc : m ≤ c) :
    (Op.rcv c ∈ (P.under m a).body p ↔
      (p < P.n ∧ c = cmdCh m p ∧ ∃ j, a.dom p = some j) ∨
      (P.n ≤ p ∧ p < P.n + a.k ∧ ∃ q, q < P.n ∧ a.dom q = some (p - P.n) ∧ c = respCh m q)) ∧
    (Op.snd c ∈ (P.under m a).body p ↔
      (p < P.n ∧ c = respCh m p ∧ ∃ j, a.dom p = some j) ∨
      (P.n ≤ p ∧ p < P.n + a.k ∧ ∃ q, q < P.n ∧ a.dom q = some (p - P.n) ∧ c = cmdCh m q)) := by
  rcases Nat.lt_or_ge p P.n with hp | hp
  · have h1 : Op.rcv c ∉ P.body p := fun h => by have := hb c ⟨p, hp, .inr h⟩; omega
    have h2 : Op.snd c ∉ P.body p := fun h => by have := hb c ⟨p, hp, .inl h⟩; omega
    simp only [Prog.under, Domains.body, if_pos hp]
    have h3 : ¬ P.n ≤ p := by omega
    cases hd : a.dom p with
    | none => simp [h1, h2, h3]
    | some j => simp [h1, h2, h3, hp]
  · have hp' : ¬ p < P.n := by omega
    simp only [hp', false_and, false_or, hp, true_and]
    by_cases hk : p < P.n + a.k
    · rw [body_svc P m a hp' hk]
      simp only [hk, true_and, List.mem_append, List.mem_map, mem_members]
      constructor
      · constructor
        · rintro (⟨q, _, h⟩ | ⟨q, ⟨h1, h2⟩, h⟩)
          · cases h
          · cases h; exact ⟨q, h1, h2, rfl⟩
        · rintro ⟨q, h1, h2, rfl⟩
          exact .inr ⟨q, ⟨h1, h2⟩, rfl⟩
      · constructor
        · rintro (⟨q, ⟨h1, h2⟩, h⟩ | ⟨q, _, h⟩)
          · cases h; exact ⟨q, h1, h2, rfl⟩
          · cases h
        · rintro ⟨q, h1, h2, rfl⟩
          exact .inl ⟨q, ⟨h1, h2⟩, rfl⟩
    · rw [body_none P m a hp' hk]
      simp [hk]

theorem nodup_map_of_inj {f : Nat → Op} (hf : ∀ x y, f x = f y → x = y) {l : List Nat} (h : l.Nodup) : (l.map f).Nodup := by
  induction l with
  | nil => exact List.nodup_nil
  | cons x l ih =>
    rw [List.nodup_cons] at h
    rw [List.map_cons, List.nodup_cons]
    refine ⟨?_, ih h.2⟩
    intro hm
    obtain ⟨y, hy, he⟩ := List.mem_map.1 hm
    exact h.1 (hf _ _ he ▸ hy)

/-- Dividing a program into domains keeps it well wired. -/
theorem under_wired (w r : Nat → Nat) (hw : Wired P w r) (hb : P.Below m) (ha : a.OK P.n) :
    Wired (P.under m a) (a.writer m P.n w) (a.reader m P.n r) where
  nodup := by
    intro p
    simp only [Prog.under, Domains.body]
    split
    · rename_i hp
      cases a.dom p with
      | none => exact hw.nodup p
      | some j =>
        have h1 : Op.rcv (cmdCh m p) ∉ P.body p := fun h => by
          have := hb _ ⟨p, hp, .inr h⟩; unfold cmdCh at this; omega
        have h2 : Op.snd (respCh m p) ∉ P.body p := fun h => by
          have := hb _ ⟨p, hp, .inl h⟩; unfold respCh at this; omega
        rw [List.nodup_cons, List.nodup_append]
        refine ⟨by simp [h1], hw.nodup p, by simp, ?_⟩
        intro x hx y hy he
        rw [List.mem_singleton] at hy
        subst hy; subst he
        exact h2 hx
    · split
      · have hn : (a.members P.n (p - P.n)).Nodup := List.Nodup.filter _ List.nodup_range
        rw [List.nodup_append]
        refine ⟨nodup_map_of_inj (fun x y h => ?_) hn, nodup_map_of_inj (fun x y h => ?_) hn, ?_⟩
        · simp only [cmdCh, Op.snd.injEq] at h; omega
        · simp only [respCh, Op.rcv.injEq] at h; omega
        · intro x hx y hy he
          obtain ⟨_, _, rfl⟩ := List.mem_map.1 hx
          obtain ⟨_, _, rfl⟩ := List.mem_map.1 hy
          cases he
      · exact List.nodup_nil
  snd := by
    intro p c h
    by_cases hc : c < m
    · rw [Domains.writer, if_pos hc]
      exact hw.snd p c (mem_old hb (old_snd hc) h).2
    · rw [Domains.writer, if_neg hc]
      rcases (mem_sync hb (Nat.not_lt.1 hc)).2.1 h with ⟨_, rfl, j, hj⟩ | ⟨h1, _, q, _, hq, rfl⟩
      · rw [if_neg (by unfold respCh; omega)]; unfold respCh; omega
      · have : (cmdCh m q - m) / 2 = q := by unfold cmdCh; omega
        rw [if_pos (by unfold cmdCh; omega), this, hq, Option.getD_some]; omega
  rcv := by
    intro p c h
    by_cases hc : c < m
    · rw [Domains.reader, if_pos hc]
      exact hw.rcv p c (mem_old hb (old_rcv hc) h).2
    · rw [Domains.reader, if_neg hc]
      rcases (mem_sync hb (Nat.not_lt.1 hc)).1.1 h with ⟨_, rfl, j, hj⟩ | ⟨h1, _, q, _, hq, rfl⟩
      · rw [if_pos (by unfold cmdCh; omega)]; unfold cmdCh; omega
      · have : (respCh m q - m) / 2 = q := by unfold respCh; omega
        rw [if_neg (by unfold respCh; omega), this, hq, Option.getD_some]; omega
  both := by
    intro c hu
    by_cases hc : c < m
    · have hu' : P.Used c := by
        obtain ⟨p, hp, h | h⟩ := hu
        · have := mem_old hb (old_snd hc) h; exact ⟨p, this.1, .inl this.2⟩
        · have := mem_old hb (old_rcv hc) h; exact ⟨p, this.1, .inr this.2⟩
      obtain ⟨h1, h2, h3, h4⟩ := hw.both c hu'
      rw [Domains.writer, Domains.reader, if_pos hc, if_pos hc]
      exact ⟨Nat.lt_of_lt_of_le h1 (Nat.le_add_right _ _), Nat.lt_of_lt_of_le h2 (Nat.le_add_right _ _), mem_of_old a hb h1 h3,
        mem_of_old a hb h2 h4⟩
    · have hc' := Nat.not_lt.1 hc
      -- the channel belongs to a process with a service
      have key : ∃ q j, q < P.n ∧ a.dom q = some j ∧ (c = cmdCh m q ∨ c = respCh m q) := by
        obtain ⟨p, hp, h | h⟩ := hu
        · rcases (mem_sync hb hc').2.1 h with ⟨h1, h2, j, hj⟩ | ⟨_, _, q, h1, hq, h2⟩
          · exact ⟨p, j, h1, hj, .inr h2⟩
          · exact ⟨q, _, h1, hq, .inl h2⟩
        · rcases (mem_sync hb hc').1.1 h with ⟨h1, h2, j, hj⟩ | ⟨_, _, q, h1, hq, h2⟩
          · exact ⟨p, j, h1, hj, .inl h2⟩
          · exact ⟨q, _, h1, hq, .inr h2⟩
      obtain ⟨q, j, hq, hj, h⟩ := key
      have hjk := ha.1 q j hq hj
      have hn : (P.under m a).n = P.n + a.k := rfl
      have hsub : P.n + j - P.n = j := by omega
      rcases h with rfl | rfl
      · have e : (cmdCh m q - m) / 2 = q := by unfold cmdCh; omega
        have e0 : (cmdCh m q - m) % 2 = 0 := by unfold cmdCh; omega
        rw [Domains.writer, Domains.reader, if_neg hc, if_neg hc, if_pos e0, if_pos e0, e, hj, Option.getD_some, hn]
        refine ⟨by omega, by omega, ?_, ?_⟩
        · exact (mem_sync hb hc').2.2 (.inr ⟨by omega, by omega, q, hq, by rw [hsub]; exact hj, rfl⟩)
        · exact (mem_sync hb hc').1.2 (.inl ⟨hq, rfl, j, hj⟩)
      · have e : (respCh m q - m) / 2 = q := by unfold respCh; omega
        have e0 : ¬ (respCh m q - m) % 2 = 0 := by unfold respCh; omega
        rw [Domains.writer, Domains.reader, if_neg hc, if_neg hc, if_neg e0, if_neg e0, e, hj, Option.getD_some, hn]
        refine ⟨by omega, by omega, ?_, ?_⟩
        · exact (mem_sync hb hc').2.2 (.inl ⟨hq, rfl, j, hj⟩)
        · exact (mem_sync hb hc').1.2 (.inr ⟨by omega, by omega, q, hq, by rw [hsub]; exact hj, rfl⟩)
  cap := by
    intro c hu
    show 1 ≤ if c < m then P.cap c else a.cap c
    split
    · rename_i hc
      apply hw.cap c
      obtain ⟨p, hp, h | h⟩ := hu
      · have := mem_old hb (old_snd hc) h; exact ⟨p, this.1, .inl this.2⟩
      · have := mem_old hb (old_rcv hc) h; exact ⟨p, this.1, .inr this.2⟩
    · exact ha.2 c

theorem precedes_filter {l : List Op} {x y : Op} (f : Op → Bool) (h : Precedes l x y) (hx : f x = true) (hy : f y = true) :
    Precedes (l.filter f) x y := by
  obtain ⟨u, v, z, rfl⟩ := h
  exact ⟨u.filter f, v.filter f, z.filter f, by simp [List.filter_append, hx, hy]⟩

/-- Dividing a program into domains cannot introduce a circular wait. -/
theorem under_no_circle (w r : Nat → Nat) (hw : Wired P w r) (hb : P.Below m) (ha : a.OK P.n) (hK : ¬ ∃ K, CircularWait P w K) :
    ¬ ∃ K, CircularWait (P.under m a) (a.writer m P.n w) K := by
  have hW := under_wired P m a w r hw hb ha
  rintro ⟨K, ⟨c0, hc0⟩, hcirc⟩
  have hne : ∀ {l : List Op} {x y : Op}, Precedes l x y → x ∈ l ∧ y ∈ l := by
    rintro l x y ⟨u, v, z, rfl⟩; simp
  -- a service waits for nothing before it has sent all its commands
  have hsvc : ∀ c, K c → a.writer m P.n w c < P.n := by
    intro c hc
    obtain ⟨hu, c', _, hpre⟩ := hcirc c hc
    apply Classical.byContradiction
    intro hp
    have hlt := (hW.both c hu).1
    generalize a.writer m P.n w c = p at hp hpre hlt
    have hlt' : p < P.n + a.k := hlt
    simp only [Prog.under, Domains.body, if_neg hp, if_pos hlt'] at hpre
    generalize hl : a.members P.n (p - P.n) = l at hpre
    have hnot : ∀ (l1 l2 : List Nat) (x y z : List Op),
        l1.map (fun q => Op.snd (cmdCh m q)) ++ l2.map (fun q => Op.rcv (respCh m q)) ≠ x ++ Op.rcv c' :: (y ++ Op.snd c :: z) := by
      intro l1
      induction l1 with
      | nil =>
        intro l2 x y z h
        have : Op.snd c ∈ l2.map (fun q => Op.rcv (respCh m q)) := by
          rw [List.map_nil, List.nil_append] at h
          rw [h]; simp
        simp at this
      | cons e l1 ih =>
        intro l2 x y z h
        cases x with
        | nil => simp at h
        | cons f x =>
          simp only [List.map_cons, List.cons_append, List.cons.injEq] at h
          exact ih l2 x y z h.2
    obtain ⟨x, y, z, h⟩ := hpre
    exact hnot _ _ x y z h
  -- hence commands are not part of it
  have hcmd : ∀ c, K c → ∀ q, c ≠ cmdCh m q := by
    rintro c hc q rfl
    have hu := (hcirc _ hc).1
    have h1 := (hW.both _ hu).2.2.1
    rcases (mem_sync hb (by unfold cmdCh; omega)).2.1 h1 with ⟨_, h, _⟩ | ⟨h, _⟩
    · unfold cmdCh respCh at h; omega
    · have := hsvc _ hc; omega
  have hold : ∀ c, K c → ∃ c', K c' ∧ c' < m ∧ Precedes ((P.under m a).body (a.writer m P.n w c)) (.rcv c') (.snd c) := by
    intro c hc
    obtain ⟨_, c', hc', hpre⟩ := hcirc c hc
    refine ⟨c', hc', ?_, hpre⟩
    apply Classical.byContradiction
    intro hm
    rcases (mem_sync hb (Nat.not_lt.1 hm)).1.1 (hne hpre).1 with ⟨_, h, _⟩ | ⟨h, _⟩
    · exact hcmd c' hc' _ h
    · have := hsvc c hc; omega
  apply hK
  refine ⟨fun c => K c ∧ c < m, ?_, ?_⟩
  · obtain ⟨c', h1, h2, _⟩ := hold c0 hc0
    exact ⟨c', h1, h2⟩
  · rintro c ⟨hc, hm⟩
    obtain ⟨c', h1, h2, hpre⟩ := hold c hc
    have hp := hsvc c hc
    have hwc : a.writer m P.n w c = w c := by rw [Domains.writer, if_pos hm]
    rw [hwc] at hpre hp
    have hpre' := precedes_filter (Op.old m) hpre (old_rcv h2) (old_snd hm)
    rw [body_old a hb hp] at hpre'
    exact ⟨⟨w c, hp, .inl (hne hpre').2⟩, c', ⟨h1, h2⟩, hpre'⟩

/-- The messages of the program and, on all other channels, commands and responses. -/
def extend (m : Nat) (H : Nat → Nat → V) (c t : Nat) : V := if c < m then H c t else default

theorem runOps_under (p : Nat) (H : Nat → Nat → V) (t : Nat) : ∀ (l : List Op) (d : D),
    runOps (P.under m a) p (extend m H) t l d = runOps P p H t (l.filter (Op.old m)) d := by
  intro l
  induction l with
  | nil => intro d; rfl
  | cons o l ih =>
    intro d
    cases o with
    | snd c =>
      simp only [runOps, ih, List.filter_cons]
      split <;> rfl
    | rcv c =>
      simp only [runOps, ih, List.filter_cons]
      by_cases hc : c < m
      · simp [Op.old, hc, runOps, Prog.under, extend]
      · simp [Op.old, hc, Prog.under]

theorem stateAt_under (hb : P.Below m) {p : Nat} (hp : p < P.n) (H : Nat → Nat → V) : ∀ t,
    stateAt (P.under m a) p (extend m H) t = stateAt P p H t := by
  intro t
  induction t with
  | zero => rfl
  | succ t ih =>
    rw [stateAt, ih, runOps_under, body_old a hb hp]
    rfl

/-- The equations of the program are those of the program divided into domains. -/
theorem solves_under (w : Nat → Nat) (hb : P.Below m) (H : Nat → Nat → V) (hH : Solves P w H) :
    Solves (P.under m a) (a.writer m P.n w) (extend m H) := by
  intro c hu t ht x y hxy
  by_cases hc : c < m
  · have hwc : a.writer m P.n w c = w c := by rw [Domains.writer, if_pos hc]
    rw [hwc] at hxy ⊢
    have hmem := mem_old hb (old_snd hc) (show Op.snd c ∈ (P.under m a).body (w c) by rw [hxy]; simp)
    have hf := body_old a hb hmem.1
    have hco : Op.old m (.snd c) = true := old_snd hc
    rw [hxy, List.filter_append, List.filter_cons, if_pos hco] at hf
    have := hH c ⟨w c, hmem.1, .inl hmem.2⟩ t ht _ _ hf.symm
    rw [extend, if_pos hc, this, runOps_under, stateAt_under P m a hb hmem.1]
    simp [Prog.under, hc]
  · rw [extend, if_neg hc]
    simp [Prog.under, hc]

end Verif.System
