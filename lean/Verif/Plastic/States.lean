import Verif.Plastic.Props
import Verif.Plastic.Law
import Verif.Learning.FloatRule

/-!
# C116: the states of the simulation
-/

namespace Verif.Plastic

open Verif.Wired (PM POp Platform)
open Verif.Wired.Spec (linkedSum Linked Script)
open Verif.Wiring (Port)
open Verif.PortGraph (G)
open Verif.Snn (linkedSum_congr accumFlt)
open Verif.Snn.Spec (Feeds)
open Verif.Neurons (FLSt flStep)
open Verif.Learning (FArr FSt FInp fRun fStep fRecv fPre fPost fLrn)
open Spec

section general
variable {X V W : Type} [AddCommMonoid V] {g : G} {n : Nat} {own : Nat → Nat} {name : Nat → String} {P : Nat → Proc X V W} {outs : Nat → List Nat}

omit [AddCommMonoid V] in
theorem mem_outs {Q : Proc X V W} {y : String} (h : POp.send y ∈ Q.ops) : y ∈ Q.outs := by
  unfold Proc.ops at h
  split at h <;> simpa using h

/-- If processes have one OutPort, sums over linked ports are sums over processes. -/
theorem linkedSum_feeds (hi : PortGraph.Inv g) (hs : Script g n own name outs fun p => (P p).pm) (h1 : ∀ p, (P p).outs.length ≤ 1) (w : Nat → V) {p : Nat} {x : String} {l : List Nat} (hl : l.Nodup)
    (hm : ∀ q, q ∈ l ↔ Feeds g n own name q p x) : linkedSum g n own name (fun o => w o.proc) p x = (l.map w).sum := by
  classical
  unfold linkedSum
  have hperm : (((List.range g.next).filter fun o => Linked g n own name o p x).map own).Perm l := by
    rw [List.perm_ext_iff_of_nodup]
    · intro q
      rw [hm]
      simp only [List.mem_map, List.mem_filter, List.mem_range, decide_eq_true_eq]
      constructor
      · rintro ⟨o, ⟨h1, h2⟩, h3⟩; exact ⟨o, h1, h3, h2⟩
      · rintro ⟨o, h1, h3, h2⟩; exact ⟨o, ⟨h1, h2⟩, h3⟩
    · refine List.Nodup.map_on ?_ (List.nodup_range.filter _)
      intro o m1 o' m2 he
      simp only [List.mem_filter, List.mem_range, decide_eq_true_eq] at m1 m2
      obtain ⟨ho, a1, a2, i, _, _, _, ar⟩ := m1
      obtain ⟨ho', b1, b2, j, _, _, _, br⟩ := m2
      have u := mem_outs (hs.usesOut o ho a1 a2 (Wired.reaches_ends hi ar).2.2.1)
      have u' := mem_outs (hs.usesOut o' ho' b1 b2 (Wired.reaches_ends hi br).2.2.1)
      refine hs.names o o' ho ho' he ?_
      rw [he] at u
      have h := h1 (own o')
      generalize (P (own o')).outs = L at *
      rcases L with _ | ⟨y, _ | ⟨z, L⟩⟩
      · simp at u
      · simp at u u'; rw [u, u']
      · simp at h
    · exact hl
  rw [← (hperm.map w).sum_eq, List.map_map]
  rfl

/-- What is sent, in terms of the state after receiving. -/
theorem sent_eq (hf : Fed g n own name P) (σ : Nat → X) (o : Port) (ho : o.proc < n) :
    sent g n own name P σ o = if (P o.proc).late = true then (P o.proc).out (informed g n own name P σ o.proc) o.name else (P o.proc).out ((P o.proc).begin_ (σ o.proc)) o.name := by
  by_cases h : (P o.proc).late = true
  · rw [if_pos h]
    conv_lhs => unfold sent
    rw [if_pos h]
    congr 1
    unfold informed
    apply received_congr
    intro x _
    apply linkedSum_congr
    intro o' _ hl
    have hk := hf o.proc o' x ho h hl
    unfold sent
    rw [if_neg (by rw [hk]; decide)]
  · rw [if_neg h]
    unfold sent
    rw [if_neg h]
    unfold early
    rw [if_neg h]

end general

section procs
variable {net : PNet} {np : Nat} {size : Nat → Nat} {len buf : Nat} {data : Nat → Nat → Nat → ℚ}

theorem procs_pop {q : Nat} (h : q < np) : procs net np size len buf data q = lifProc (size q) (net.lif q) := by unfold procs; rw [if_pos h]

theorem procs_conn {c : Nat} (h : c < net.conns.length) : procs net np size len buf data (np + c) = connOf size net.conns[c] := by
  unfold procs connAt
  rw [if_neg (by omega), if_pos (by omega), show np + c - np = c by omega, List.getElem?_eq_getElem h]

theorem procs_src {q : Nat} (h : q < np) : procs net np size len buf data (np + net.conns.length + q) = sourceProc (size q) len (data q) := by
  unfold procs
  rw [if_neg (by omega), if_neg (by omega), if_pos (by omega), show np + net.conns.length + q - (np + net.conns.length) = q by omega]

theorem procs_snk {q : Nat} (h : q < np) : procs net np size len buf data (np + net.conns.length + np + q) = sinkProc (size q) buf := by
  unfold procs
  rw [if_neg (by omega), if_neg (by omega), if_neg (by omega), if_pos (by omega), show np + net.conns.length + np + q - (np + net.conns.length + np) = q by omega]

theorem connOf_late (k : PConn) : (connOf size k).late = false := by unfold connOf; cases k.rule <;> rfl

theorem procs_cases (p : Nat) : (p < np ∧ procs net np size len buf data p = lifProc (size p) (net.lif p)) ∨ (np ≤ p ∧
    ((∃ k, procs net np size len buf data p = connOf size k) ∨ (∃ r d, procs net np size len buf data p = sourceProc r len d) ∨
    (∃ r, procs net np size len buf data p = sinkProc r buf) ∨ procs net np size len buf data p = noProc)) := by
  by_cases h : p < np
  · exact .inl ⟨h, procs_pop h⟩
  · refine .inr ⟨by omega, ?_⟩
    unfold procs
    rw [if_neg h]
    split
    · unfold connAt
      cases net.conns[p - np]? with
      | none => exact .inr (.inr (.inr rfl))
      | some k => exact .inl ⟨k, rfl⟩
    · split
      · exact .inr (.inl ⟨_, _, rfl⟩)
      · split
        · exact .inr (.inr (.inl ⟨_, rfl⟩))
        · exact .inr (.inr (.inr rfl))

theorem procs_late {p : Nat} (h : (procs net np size len buf data p).late = true) : p < np := by
  rcases procs_cases (net := net) (np := np) (size := size) (len := len) (buf := buf) (data := data) p with ⟨h1, _⟩ | ⟨_, ⟨k, e⟩ | ⟨r, d, e⟩ | ⟨r, e⟩ | e⟩
  · exact h1
  · rw [e, connOf_late] at h; cases h
  · rw [e] at h; cases h
  · rw [e] at h; cases h
  · rw [e] at h; cases h

theorem procs_outs (p : Nat) : (procs net np size len buf data p).outs.length ≤ 1 := by
  rcases procs_cases (net := net) (np := np) (size := size) (len := len) (buf := buf) (data := data) p with ⟨_, e⟩ | ⟨_, ⟨k, e⟩ | ⟨r, d, e⟩ | ⟨r, e⟩ | e⟩ <;> rw [e]
  · exact Nat.le_refl 1
  · unfold connOf; cases k.rule <;> exact Nat.le_refl 1
  · exact Nat.le_refl 1
  · exact Nat.zero_le 1
  · exact Nat.zero_le 1

theorem procs_out (p : Nat) (s : Vars) (y y' : String) : (procs net np size len buf data p).out s y = (procs net np size len buf data p).out s y' := by
  rcases procs_cases (net := net) (np := np) (size := size) (len := len) (buf := buf) (data := data) p with ⟨_, e⟩ | ⟨_, ⟨k, e⟩ | ⟨r, d, e⟩ | ⟨r, e⟩ | e⟩ <;> rw [e]
  · rfl
  · unfold connOf; cases k.rule <;> rfl
  · rfl
  · rfl
  · rfl

theorem fed_procs {g : G} {own : Nat → Nat} {name : Nat → String} (hi : PortGraph.Inv g) {outs : Nat → List Nat} (ha : Arrangement g own name np net.conns)
    (hs : Script g (np + net.conns.length + np + np) own name outs fun p => (procs net np size len buf data p).pm) :
    Fed g (np + net.conns.length + np + np) own name (procs net np size len buf data) := by
  intro p o x hp hk hl
  have hpn := procs_late hk
  have hl' := hl
  obtain ⟨h1, h2, i, e1, e2, h3, hr⟩ := hl
  have ho := (Wired.reaches_ends hi hr).1
  have hx : x = "a_in" := by
    have hu := hs.usesIn i (Wired.reaches_ends hi hr).2.1 (by rw [e1]; exact hp) h3 (Wired.reaches_ends hi hr).2.2.2
    have hu : POp.recv (name i) ∈ (procs net np size len buf data (own i)).ops := hu
    rw [e1, procs_pop hpn, e2] at hu
    simpa [lifProc, Proc.ops] using hu
  subst hx
  rcases (ha.pops p hpn (own o)).1 ⟨o, ho, rfl, hl'⟩ with h | ⟨c, hc, _, h⟩
  · rw [h, procs_src hpn]; rfl
  · rw [h, procs_conn hc, connOf_late]

end procs

/-! ## Learning connections -/

/-- What a synapse sees of the network. -/
def synInp (spk : Nat → Nat → Nat → Bool) (k : PConn) (i j t : Nat) : FInp ℚ := ⟨if spk k.src j t then 1 else 0, spk k.dst i t, 0, 0, 0⟩

/-- A synapse at the beginning. -/
def synInit (w : ℚ) : FSt ℚ := ⟨some 0, some 0, some 0, some 0, some 0, 0, 0, some w, some 0, some 0⟩

theorem preSpk_synInp (spk : Nat → Nat → Nat → Bool) (k : PConn) (i j : Nat) : Learning.preSpk (synInp spk k i j) = spk k.src j := by
  funext t
  unfold Learning.preSpk synInp
  cases spk k.src j t <;> simp

theorem postSpk_synInp (spk : Nat → Nat → Nat → Bool) (k : PConn) (i j : Nat) : Learning.postSpk (synInp spk k i j) = spk k.dst i := rfl

/-- The weight of a synapse is the one of the reference. -/
theorem synapse_weight {k : PConn} {r : Rule} (hr : k.rule = some r) (hok : Rule.Ok r) (spk : Nat → Nat → Nat → Bool) (i j t : Nat) :
    (fRun r.cfg (synInit (k.w0 i j)) (synInp spk k i j) t).w = some (weight k spk t i j) := by
  obtain ⟨ps, hps⟩ := Option.ne_none_iff_exists'.1 hok.parses
  obtain ⟨m1, e1, m2, e2, rfl, hc1, hc2⟩ := Learning.C86_stdp_text (K := ℚ) _ _ _ ps (hok.dw.symm.trans hps)
  rw [Learning.C86_weight_between_epochs r.cfg hok.epoch, Learning.C86_stdp_weight_law r.cfg hok.epoch hok.graded hok.two hok.mode m1 e1 m2 e2 hps r.dx r.dy hok.dx hok.dy _
    ⟨rfl, rfl, rfl, rfl, rfl, rfl, rfl⟩ (k.w0 i j) rfl, hc1, hc2, preSpk_synInp, postSpk_synInp]
  unfold weight
  rw [hr]
  rfl

/-- What a connection has in its buffer after `t` steps. -/
def buffer (spk : Nat → Nat → Nat → Bool) (k : PConn) (t i : Nat) : ℚ := ∑ j ∈ (Finset.range k.nIn).filter (fun j => spk k.src j t = true), weight k spk (t - 1) i j

theorem accum_spikes (nIn : Nat) (w : Nat → Nat → ℚ) (s : Nat → Bool) :
    accumFlt nIn false w (fun j => if s j then 1 else 0) = fun i => ∑ j ∈ (Finset.range nIn).filter (fun j => s j = true), w i j := by
  funext i
  unfold accumFlt
  simp only [Bool.false_eq_true, if_false]
  apply Finset.sum_congr _ (fun _ _ => rfl)
  apply Finset.filter_congr
  intro j _
  cases s j <;> simp

/-- State of a connection after `t` steps. -/
def ConnState (spk : Nat → Nat → Nat → Bool) (k : PConn) (t : Nat) (s : Vars) : Prop :=
  match k.rule with
  | none => s = .dense (buffer spk k t)
  | some r => ∃ a : FArr ℚ, s = .learn t (buffer spk k t) a ∧ ∀ i j, a.syn i j = fRun r.cfg (synInit (k.w0 i j)) (synInp spk k i j) t

theorem conn_out {size : Nat → Nat} {spk : Nat → Nat → Nat → Bool} {k : PConn} {t : Nat} {s : Vars} (h : ConnState spk k t s) (y : String) :
    (connOf size k).out ((connOf size k).begin_ s) y = buffer spk k t := by
  unfold ConnState at h
  unfold connOf
  cases hr : k.rule with
  | none => rw [hr] at h; dsimp only at h; rw [h]; rfl
  | some r =>
    rw [hr] at h
    obtain ⟨a, h, _⟩ := h
    rw [h]
    rfl

theorem conn_init {size : Nat → Nat} (spk : Nat → Nat → Nat → Bool) (h0 : ∀ q i, spk q i 0 = false) (k : PConn) : ConnState spk k 0 (connOf size k).init := by
  have hb : buffer spk k 0 = fun _ => 0 := by funext i; unfold buffer; simp [h0]
  unfold ConnState connOf
  rw [hb]
  cases k.rule with
  | none => rfl
  | some r => exact ⟨_, rfl, fun _ _ => rfl⟩

theorem conn_next {size : Nat → Nat} {spk : Nat → Nat → Nat → Bool} {k : PConn} {t : Nat} {s : Vars} (h : ConnState spk k t s) (hok : ∀ r, k.rule = some r → Rule.Ok r) (inp : String → Nat → ℚ)
    (h1 : inp "s_in" = fun j => if spk k.src j (t + 1) then 1 else 0) (h2 : k.rule ≠ none → inp "s_in_bap" = fun i => if spk k.dst i (t + 1) then 1 else 0) :
    ConnState spk k (t + 1)
      (if (connOf size k).guard (received (connOf size k) inp ((connOf size k).begin_ s)) = true then (connOf size k).learn (received (connOf size k) inp ((connOf size k).begin_ s))
        else received (connOf size k) inp ((connOf size k).begin_ s)) := by
  unfold ConnState at h ⊢
  cases hr : k.rule with
  | none =>
    rw [hr] at h
    dsimp only at h ⊢
    have e : connOf size k = denseProc (size k.dst) k.nIn k.w0 := by unfold connOf; rw [hr]
    rw [e, h]
    show Vars.dense (accumFlt k.nIn false k.w0 (inp "s_in")) = _
    rw [h1, accum_spikes]
    congr 1
    funext i
    unfold buffer
    apply Finset.sum_congr rfl
    intro j _
    unfold weight
    rw [hr]
  | some r =>
    rw [hr] at h
    obtain ⟨a, h, hs⟩ := h
    dsimp only
    have hk := hok r hr
    have h2 := h2 (by rw [hr]; simp)
    have e : connOf size k = learnProc (size k.dst) k.nIn k.w0 r.cfg := by unfold connOf; rw [hr]
    have hb : accumFlt k.nIn false (fun i j => (a.w i j).getD 0) (inp "s_in") = buffer spk k (t + 1) := by
      rw [h1, accum_spikes]
      funext i
      unfold buffer
      apply Finset.sum_congr rfl
      intro j _
      have hw := synapse_weight hr hk spk i j t
      rw [← hs i j] at hw
      have hw : a.w i j = some (weight k spk t i j) := hw
      rw [hw]
      rfl
    have hrec : received (connOf size k) inp ((connOf size k).begin_ s) = .learn (t + 1) (buffer spk k (t + 1))
        (Learning.fPostA r.cfg (t + 1) (Learning.fPreA r.cfg (t + 1) a fun j => if inp "s_in" j ≠ 0 then 1 else 0) fun i => decide (inp "s_in_bap" i ≠ 0)) := by
      rw [e, h, ← hb]
      unfold received
      have hi : (learnProc (size k.dst) k.nIn k.w0 r.cfg).ins = ["s_in", "s_in_bap"] := by unfold learnProc; dsimp only; rw [hk.two, if_pos rfl]
      rw [hi]
      rfl
    have hsyn : ∀ i j, (Learning.fPostA r.cfg (t + 1) (Learning.fPreA r.cfg (t + 1) a fun j => if inp "s_in" j ≠ 0 then 1 else 0) fun i => decide (inp "s_in_bap" i ≠ 0)).syn i j =
        fRecv r.cfg (t + 1) (fRun r.cfg (synInit (k.w0 i j)) (synInp spk k i j) t) (synInp spk k i j (t + 1)) := by
      intro i j
      rw [Learning.syn_post, Learning.syn_pre, hs i j]
      unfold fRecv
      rw [hk.two, if_pos rfl, h1, h2]
      dsimp only [synInp]
      congr 1
      · congr 1
        by_cases hb : spk k.src j (t + 1) = true <;> simp [hb]
      · by_cases hb : spk k.dst i (t + 1) = true <;> simp [hb]
    rw [hrec, e]
    show ∃ a', (if Learning.lrnGuard r.cfg.tEpoch (t + 1) = true then Vars.learn (t + 1) (buffer spk k (t + 1)) (Learning.fLrnA r.cfg (t + 1) _) else Vars.learn (t + 1) (buffer spk k (t + 1)) _) = _ ∧ _
    by_cases hg : Learning.lrnGuard r.cfg.tEpoch (t + 1) = true
    · rw [if_pos hg]
      refine ⟨_, rfl, fun i j => ?_⟩
      rw [Learning.syn_lrn, hsyn]
      show _ = fStep r.cfg (t + 1) _ _
      unfold fStep
      rw [if_pos hg]
    · rw [if_neg hg]
      refine ⟨_, rfl, fun i j => ?_⟩
      rw [hsyn]
      show _ = fStep r.cfg (t + 1) _ _
      unfold fStep
      rw [if_neg hg]

end Verif.Plastic
