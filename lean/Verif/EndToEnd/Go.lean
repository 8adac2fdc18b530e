import Verif.EndToEnd.Spec
import Verif.System.Dataflow

/-!
# Executions in which channels are empty between exchanges

`Go y c c'`: some schedule leads from configuration `c` with empty channels to configuration `c'` with empty channels.
-/

namespace Verif.EndToEnd

open Verif.System

variable {S V W : Type}

/-- States of all processes, by kind. -/
structure Cfg (S V W : Type) where
  h : HostSt V W
  sv : Nat → SvcSt V W
  md : Nat → MdlSt S V W

def Cfg.q (c : Cfg S V W) (a : Nat) : Proc S V W :=
  if a = 0 then .host c.h else if a % 2 = 1 then .svc (c.sv (a / 2)) else .mdl (c.md (a / 2 - 1))

def Cfg.st (c : Cfg S V W) (hist : Nat → List (Msg V W)) : St (Proc S V W) (Msg V W) := ⟨c.q, fun _ => [], hist⟩

theorem q_host (c : Cfg S V W) : c.q 0 = .host c.h := rfl

theorem q_svc (c : Cfg S V W) (i : Nat) : c.q (2 * i + 1) = .svc (c.sv i) := by
  unfold Cfg.q
  rw [if_neg (by omega), if_pos (by omega)]
  congr 2; omega

theorem q_mdl (c : Cfg S V W) (p : Nat) : c.q (2 * p + 2) = .mdl (c.md p) := by
  unfold Cfg.q
  rw [if_neg (by omega), if_neg (by omega)]
  congr 2; omega

theorem upd_q_host (c : Cfg S V W) (h' : HostSt V W) : upd c.q 0 (.host h') = Cfg.q ⟨h', c.sv, c.md⟩ := by
  funext a
  unfold upd
  by_cases ha : a = 0
  · rw [if_pos ha, ha]; rfl
  · rw [if_neg ha]; unfold Cfg.q; rw [if_neg ha, if_neg ha]

theorem upd_q_svc (c : Cfg S V W) (i : Nat) (s' : SvcSt V W) :
    upd c.q (2 * i + 1) (.svc s') = Cfg.q ⟨c.h, upd c.sv i s', c.md⟩ := by
  funext a
  unfold upd
  by_cases ha : a = 2 * i + 1
  · rw [if_pos ha, ha, q_svc]; simp
  · rw [if_neg ha]
    unfold Cfg.q
    by_cases h0 : a = 0
    · rw [if_pos h0, if_pos h0]
    · rw [if_neg h0, if_neg h0]
      by_cases h1 : a % 2 = 1
      · rw [if_pos h1, if_pos h1]
        dsimp only
        rw [if_neg (by omega)]
      · rw [if_neg h1, if_neg h1]

theorem upd_q_mdl (c : Cfg S V W) (p : Nat) (m' : MdlSt S V W) :
    upd c.q (2 * p + 2) (.mdl m') = Cfg.q ⟨c.h, c.sv, upd c.md p m'⟩ := by
  funext a
  unfold upd
  by_cases ha : a = 2 * p + 2
  · rw [if_pos ha, ha, q_mdl]; simp
  · rw [if_neg ha]
    unfold Cfg.q
    by_cases h0 : a = 0
    · rw [if_pos h0, if_pos h0]
    · rw [if_neg h0, if_neg h0]
      by_cases h1 : a % 2 = 1
      · rw [if_pos h1, if_pos h1]
      · rw [if_neg h1, if_neg h1]
        dsimp only
        rw [if_neg (by omega)]

theorem view_host (y : Sys S V W) (h : HostSt V W) : view y 0 (.host h) = mapAct .host (hostView y h) := rfl

theorem view_svc (y : Sys S V W) {i : Nat} (hi : i < y.k) (s : SvcSt V W) :
    view y (2 * i + 1) (.svc s) = mapAct .svc (svcView y i s) := by
  unfold view
  have h2 : (2 * i + 1) / 2 = i := by omega
  dsimp only
  rw [h2, if_pos ⟨by omega, hi⟩]

theorem view_mdl (y : Sys S V W) {p : Nat} (hp : p < y.n) (m : MdlSt S V W) :
    view y (2 * p + 2) (.mdl m) = mapAct .mdl (mdlView y p m) := by
  unfold view
  have h2 : (2 * p + 2) / 2 - 1 = p := by omega
  dsimp only
  rw [h2, if_pos ⟨by omega, by omega, hp⟩]

/-- Some schedule leads from one configuration to the other. -/
def Go (y : Sys S V W) (c c' : Cfg S V W) : Prop :=
  ∀ hist, ∃ l hist', exec (net y) (c.st hist) l = c'.st hist'

theorem exec_append (n : Net (Proc S V W) (Msg V W)) (a b : List Nat) : ∀ s, exec n s (a ++ b) = exec n (exec n s a) b := by
  induction a with
  | nil => intro s; rfl
  | cons p a ih => intro s; simp only [List.cons_append, exec]; exact ih _

theorem Go.refl (y : Sys S V W) (c : Cfg S V W) : Go y c c := fun hist => ⟨[], hist, rfl⟩

theorem Go.trans {y : Sys S V W} {a b c : Cfg S V W} (h1 : Go y a b) (h2 : Go y b c) : Go y a c := by
  intro hist
  obtain ⟨l, h', e⟩ := h1 hist
  obtain ⟨l2, h'', e2⟩ := h2 h'
  exact ⟨l ++ l2, h'', by rw [exec_append, e, e2]⟩

theorem Go.of_eq {y : Sys S V W} {a b : Cfg S V W} (h : a = b) : Go y a b := h ▸ Go.refl y a

/-- A local computation of one process. -/
theorem go_tau_raw {y : Sys S V W} {c c' : Cfg S V W} (a : Nat) (q' : Proc S V W)
    (hv : view y a (c.q a) = .tau q') (hc : upd c.q a q' = c'.q) : Go y c c' := by
  intro hist
  refine ⟨[a], hist, ?_⟩
  have h1 : step (net y) (c.st hist) a = some ⟨upd c.q a q', fun _ => [], hist⟩ := by
    unfold step
    have : (net y).view a ((c.st hist).q a) = .tau q' := hv
    rw [this]
    rfl
  simp only [exec, h1, Option.getD_some]
  rw [hc]
  rfl

/-- One process sends, another one receives. -/
theorem go_comm_raw {y : Sys S V W} {c c' : Cfg S V W} (a b ch : Nat) (v : Msg V W) (q' : Proc S V W)
    (k : Msg V W → Proc S V W) (hab : a ≠ b) (hcap : 1 ≤ y.cap ch)
    (hs : view y a (c.q a) = .send ch v q') (hr : view y b (c.q b) = .recv ch k)
    (hc : upd (upd c.q a q') b (k v) = c'.q) : Go y c c' := by
  intro hist
  refine ⟨[a, b], upd hist ch (hist ch ++ [v]), ?_⟩
  have h1 : step (net y) (c.st hist) a =
      some ⟨upd c.q a q', upd (fun _ => []) ch [v], upd hist ch (hist ch ++ [v])⟩ := by
    unfold step
    have : (net y).view a ((c.st hist).q a) = .send ch v q' := hs
    rw [this]
    dsimp only
    rw [if_pos (by show ([] : List (Msg V W)).length < y.cap ch; exact hcap)]
    rfl
  have h2 : step (net y) ⟨upd c.q a q', upd (fun _ => []) ch [v], upd hist ch (hist ch ++ [v])⟩ b =
      some ⟨upd (upd c.q a q') b (k v), fun _ => [], upd hist ch (hist ch ++ [v])⟩ := by
    unfold step
    have : (net y).view b (upd c.q a q' b) = .recv ch k := by rw [upd_ne _ hab.symm]; exact hr
    dsimp only
    rw [this]
    dsimp only
    rw [upd_self]
    dsimp only
    rw [upd_upd]
    congr 2
    funext j
    unfold upd
    split <;> rfl
  simp only [exec, h1, h2, Option.getD_some]
  rw [hc]
  rfl

theorem go_host {y : Sys S V W} {c : Cfg S V W} {h' : HostSt V W} (hv : hostView y c.h = .tau h') :
    Go y c ⟨h', c.sv, c.md⟩ :=
  go_tau_raw 0 (.host h') (by rw [q_host, view_host, hv]; rfl) (upd_q_host c h')

theorem go_svc {y : Sys S V W} {c : Cfg S V W} {i : Nat} (hi : i < y.k) {s' : SvcSt V W}
    (hv : svcView y i (c.sv i) = .tau s') : Go y c ⟨c.h, upd c.sv i s', c.md⟩ :=
  go_tau_raw (2 * i + 1) (.svc s') (by rw [q_svc, view_svc y hi, hv]; rfl) (upd_q_svc c i s')

theorem go_mdl {y : Sys S V W} {c : Cfg S V W} {p : Nat} (hp : p < y.n) {m' : MdlSt S V W}
    (hv : mdlView y p (c.md p) = .tau m') : Go y c ⟨c.h, c.sv, upd c.md p m'⟩ :=
  go_tau_raw (2 * p + 2) (.mdl m') (by rw [q_mdl, view_mdl y hp, hv]; rfl) (upd_q_mdl c p m')

theorem go_host_svc {y : Sys S V W} {c : Cfg S V W} {i : Nat} (hi : i < y.k) {h' : HostSt V W} {ch : Nat} {v : Msg V W}
    {k : Msg V W → SvcSt V W} (hcap : 1 ≤ y.cap ch) (hs : hostView y c.h = .send ch v h')
    (hr : svcView y i (c.sv i) = .recv ch k) : Go y c ⟨h', upd c.sv i (k v), c.md⟩ :=
  go_comm_raw 0 (2 * i + 1) ch v (.host h') (fun v => .svc (k v)) (by omega) hcap
    (by rw [q_host, view_host, hs]; rfl) (by rw [q_svc, view_svc y hi, hr]; rfl)
    (by rw [upd_q_host]; exact upd_q_svc ⟨h', c.sv, c.md⟩ i (k v))

theorem go_svc_host {y : Sys S V W} {c : Cfg S V W} {i : Nat} (hi : i < y.k) {s' : SvcSt V W} {ch : Nat} {v : Msg V W}
    {k : Msg V W → HostSt V W} (hcap : 1 ≤ y.cap ch) (hs : svcView y i (c.sv i) = .send ch v s')
    (hr : hostView y c.h = .recv ch k) : Go y c ⟨k v, upd c.sv i s', c.md⟩ :=
  go_comm_raw (2 * i + 1) 0 ch v (.svc s') (fun v => .host (k v)) (by omega) hcap
    (by rw [q_svc, view_svc y hi, hs]; rfl) (by rw [q_host, view_host, hr]; rfl)
    (by rw [upd_q_svc]; exact upd_q_host ⟨c.h, upd c.sv i s', c.md⟩ (k v))

theorem go_svc_mdl {y : Sys S V W} {c : Cfg S V W} {i p : Nat} (hi : i < y.k) (hp : p < y.n) {s' : SvcSt V W} {ch : Nat}
    {v : Msg V W} {k : Msg V W → MdlSt S V W} (hcap : 1 ≤ y.cap ch) (hs : svcView y i (c.sv i) = .send ch v s')
    (hr : mdlView y p (c.md p) = .recv ch k) : Go y c ⟨c.h, upd c.sv i s', upd c.md p (k v)⟩ :=
  go_comm_raw (2 * i + 1) (2 * p + 2) ch v (.svc s') (fun v => .mdl (k v)) (by omega) hcap
    (by rw [q_svc, view_svc y hi, hs]; rfl) (by rw [q_mdl, view_mdl y hp, hr]; rfl)
    (by rw [upd_q_svc]; exact upd_q_mdl ⟨c.h, upd c.sv i s', c.md⟩ p (k v))

theorem go_mdl_svc {y : Sys S V W} {c : Cfg S V W} {i p : Nat} (hi : i < y.k) (hp : p < y.n) {m' : MdlSt S V W} {ch : Nat}
    {v : Msg V W} {k : Msg V W → SvcSt V W} (hcap : 1 ≤ y.cap ch) (hs : mdlView y p (c.md p) = .send ch v m')
    (hr : svcView y i (c.sv i) = .recv ch k) : Go y c ⟨c.h, upd c.sv i (k v), upd c.md p m'⟩ :=
  go_comm_raw (2 * p + 2) (2 * i + 1) ch v (.mdl m') (fun v => .svc (k v)) (by omega) hcap
    (by rw [q_mdl, view_mdl y hp, hs]; rfl) (by rw [q_svc, view_svc y hi, hr]; rfl)
    (by rw [upd_q_mdl]; exact upd_q_svc ⟨c.h, c.sv, upd c.md p m'⟩ i (k v))

/-! ### Everybody in turn -/

/-- The configuration in which the service `i` is in state `b` and its models are as in `B`. -/
def Cfg.put (y : Sys S V W) (c : Cfg S V W) (i : Nat) (b : SvcSt V W) (B : Nat → MdlSt S V W) : Cfg S V W :=
  ⟨c.h, upd c.sv i b, fun p => if p ∈ y.pms i then B p else c.md p⟩

/-- All services, one after the other. -/
theorem go_services {y : Sys S V W} {src dst : Nat → Nat} (hw : WF y src dst) (h : HostSt V W) (a b : Nat → SvcSt V W)
    (A B : Nat → MdlSt S V W)
    (one : ∀ i, i < y.k → ∀ c : Cfg S V W, c.h = h → c.sv i = a i → (∀ p ∈ y.pms i, c.md p = A p) → Go y c (c.put y i (b i) B))
    (c : Cfg S V W) (hh : c.h = h) (hs : ∀ i, i < y.k → c.sv i = a i) (hm : ∀ p, p < y.n → c.md p = A p) :
    Go y c ⟨h, fun i => if i < y.k then b i else c.sv i, fun p => if p < y.n then B p else c.md p⟩ := by
  have key : ∀ j, j ≤ y.k → Go y c ⟨h, fun i => if i < j then b i else c.sv i,
      fun p => if p < y.n ∧ y.svc p < j then B p else c.md p⟩ := by
    intro j
    induction j with
    | zero =>
      intro _
      refine Go.of_eq ?_
      obtain ⟨ch, cs, cm⟩ := c
      subst hh
      simp
    | succ j ih =>
      intro hj
      refine (ih (by omega)).trans ?_
      have := one j (by omega) ⟨h, fun i => if i < j then b i else c.sv i,
        fun p => if p < y.n ∧ y.svc p < j then B p else c.md p⟩ rfl (by simp; exact hs j (by omega)) (by
          intro p hp
          obtain ⟨h1, h2⟩ := ((hw.pms j).2 p).1 hp
          dsimp only
          rw [if_neg (by omega)]
          exact hm p h1)
      refine this.trans (Go.of_eq ?_)
      unfold Cfg.put
      congr 1
      · funext i
        unfold upd
        by_cases hi : i = j
        · subst hi; simp
        · rw [if_neg hi]
          dsimp only
          by_cases hi2 : i < j
          · rw [if_pos hi2, if_pos (by omega)]
          · rw [if_neg hi2, if_neg (by omega)]
      · funext p
        have hp := (hw.pms j).2 p
        by_cases h1 : p ∈ y.pms j
        · rw [if_pos h1]
          obtain ⟨h2, h3⟩ := hp.1 h1
          rw [if_pos ⟨h2, by omega⟩]
        · rw [if_neg h1]
          dsimp only
          by_cases h2 : p < y.n ∧ y.svc p < j
          · rw [if_pos h2, if_pos ⟨h2.1, by omega⟩]
          · rw [if_neg h2, if_neg]
            rintro ⟨h3, h4⟩
            apply h2
            refine ⟨h3, ?_⟩
            rcases Nat.lt_or_ge (y.svc p) j with h | h
            · exact h
            · exact absurd (hp.2 ⟨h3, by omega⟩) h1
  refine (key y.k (Nat.le_refl _)).trans (Go.of_eq ?_)
  congr 1
  funext p
  by_cases h1 : p < y.n
  · rw [if_pos ⟨h1, hw.svc p h1⟩, if_pos h1]
  · rw [if_neg (fun h => h1 h.1), if_neg h1]

/-- The host deals with all services, one after the other. -/
theorem go_host_services {y : Sys S V W} (X : List Nat → HostSt V W) (a b : Nat → SvcSt V W)
    (one : ∀ i rest, i < y.k → ∀ c : Cfg S V W, c.h = X (i :: rest) → c.sv i = a i → Go y c ⟨X rest, upd c.sv i (b i), c.md⟩) :
    ∀ (l : List Nat), l.Nodup → (∀ i ∈ l, i < y.k) → ∀ c : Cfg S V W, c.h = X l → (∀ i ∈ l, c.sv i = a i) →
      Go y c ⟨X [], fun i => if i ∈ l then b i else c.sv i, c.md⟩ := by
  intro l
  induction l with
  | nil =>
    intro _ _ c hh _
    refine Go.of_eq ?_
    obtain ⟨ch, cs, cm⟩ := c
    subst hh
    simp
  | cons i l ih =>
    intro hnd hlt c hh hs
    have h1 := one i l (hlt i (by simp)) c hh (hs i (by simp))
    have h2 := ih (List.nodup_cons.1 hnd).2 (fun j hj => hlt j (by simp [hj])) ⟨X l, upd c.sv i (b i), c.md⟩ rfl (by
      intro j hj
      have : j ≠ i := by rintro rfl; exact (List.nodup_cons.1 hnd).1 hj
      show upd c.sv i (b i) j = a j
      rw [upd_ne _ this]
      exact hs j (by simp [hj]))
    refine (h1.trans h2).trans (Go.of_eq ?_)
    congr 1
    funext j
    by_cases hj : j ∈ l
    · simp [hj]
    · simp only [hj, if_false, List.mem_cons, or_false]
      by_cases hji : j = i
      · subst hji; simp
      · rw [upd_ne _ hji, if_neg hji]

theorem go_host_all {y : Sys S V W} (X : List Nat → HostSt V W) (a b : Nat → SvcSt V W)
    (one : ∀ i rest, i < y.k → ∀ c : Cfg S V W, c.h = X (i :: rest) → c.sv i = a i → Go y c ⟨X rest, upd c.sv i (b i), c.md⟩)
    (c : Cfg S V W) (hh : c.h = X (List.range y.k)) (hs : ∀ i, i < y.k → c.sv i = a i) :
    Go y c ⟨X [], fun i => if i < y.k then b i else c.sv i, c.md⟩ := by
  have := go_host_services X a b one (List.range y.k) List.nodup_range (fun i hi => List.mem_range.1 hi) c hh
    (fun i hi => hs i (List.mem_range.1 hi))
  simpa using this

/-- A service deals with its models, one after the other. `G` is the state of the service, given the models left and a value that is
accumulated. -/
theorem go_models {y : Sys S V W} {i : Nat} (hi : i < y.k) {F : Type} (X : List Nat → F → SvcSt V W) (acc : F → Nat → F)
    (A B : Nat → MdlSt S V W)
    (one : ∀ p rest f, p ∈ y.pms i → ∀ c : Cfg S V W, c.sv i = X (p :: rest) f → c.md p = A p →
      Go y c ⟨c.h, upd c.sv i (X rest (acc f p)), upd c.md p (B p)⟩) :
    ∀ (l : List Nat), l.Nodup → (∀ p ∈ l, p ∈ y.pms i) → ∀ (f : F) (c : Cfg S V W), c.sv i = X l f → (∀ p ∈ l, c.md p = A p) →
      Go y c ⟨c.h, upd c.sv i (X [] (l.foldl acc f)), fun p => if p ∈ l then B p else c.md p⟩ := by
  intro l
  induction l with
  | nil =>
    intro _ _ f c hs _
    refine Go.of_eq ?_
    obtain ⟨ch, cs, cm⟩ := c
    dsimp only at hs
    simp only [List.foldl_nil, List.not_mem_nil, if_false, Cfg.mk.injEq, true_and, and_true]
    funext j
    unfold upd
    split
    · rename_i h; rw [h, hs]
    · rfl
  | cons p l ih =>
    intro hnd hmem f c hs hm
    have h1 := one p l f (hmem p (by simp)) c hs (hm p (by simp))
    have h2 := ih (List.nodup_cons.1 hnd).2 (fun j hj => hmem j (by simp [hj])) (acc f p)
      ⟨c.h, upd c.sv i (X l (acc f p)), upd c.md p (B p)⟩ (by simp) (by
        intro j hj
        have : j ≠ p := by rintro rfl; exact (List.nodup_cons.1 hnd).1 hj
        show upd c.md p (B p) j = A j
        rw [upd_ne _ this]
        exact hm j (by simp [hj]))
    refine (h1.trans h2).trans (Go.of_eq ?_)
    simp only [upd_upd, List.foldl_cons, Cfg.mk.injEq, true_and]
    funext j
    by_cases hj : j ∈ l
    · simp [hj]
    · simp only [hj, if_false, List.mem_cons, or_false]
      by_cases hji : j = p
      · subst hji; simp
      · rw [upd_ne _ hji, if_neg hji]

end Verif.EndToEnd
