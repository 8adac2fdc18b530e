import Verif.Snn.Props
import Verif.Snn.Loihi
import Verif.SpikeNet.Props
import Verif.IO.Props
import Mathlib.Algebra.BigOperators.Pi
import Mathlib.Data.List.Perm.Basic

/-!
# C115: a network of LIF populations and Dense connections records the spikes of its equations
-/

namespace Verif.Snn

open Verif.Wired (PM POp Platform sys connections written)
open Verif.Wired.Spec (linkedSum Linked Script Hosted Proper)
open Verif.Wiring (Port Builders buildChannels)
open Verif.EndToEnd (Call Res net initial seen)
open Verif.System (exec Stuck AllHalted)
open Verif.PortGraph (G run dstPorts Reaches)
open Verif.SpikeNet (Net Conn fixAt fixSpike fltAt fltSpike)

namespace Spec

/-- An OutPort of process `p` is linked to InPort `x` of process `q`. -/
def Feeds (g : G) (n : Nat) (own : Nat → Nat) (name : Nat → String) (p q : Nat) (x : String) : Prop := ∃ o, o < g.next ∧ own o = p ∧ Linked g n own name o q x

/-- The connections of a network of `np` populations: processes `0 ..< np` are the populations, then come the connections, a source for each population and a sink for each population. -/
structure Arrangement (g : G) (own : Nat → Nat) (name : Nat → String) (np : Nat) (conns : List Conn) : Prop where
  pops : ∀ q, q < np → ∀ p, Feeds g (np + conns.length + np + np) own name p q "a_in" ↔
    p = np + conns.length + q ∨ ∃ c, ∃ h : c < conns.length, conns[c].dst = q ∧ p = np + c
  links : ∀ c (h : c < conns.length), conns[c].src < np ∧ ∀ p, Feeds g (np + conns.length + np + np) own name p (np + c) "s_in" ↔ p = conns[c].src
  sinks : ∀ q, q < np → ∀ p, Feeds g (np + conns.length + np + np) own name p (np + conns.length + np + q) "a_in" ↔ p = q

end Spec

open Spec

section
variable {X V W : Type} [AddCommMonoid V] {g : G} {n : Nat} {own : Nat → Nat} {name : Nat → String} {P : Nat → Proc X V W} {outs : Nat → List Nat}

/-- Processes have one OutPort: sums over linked ports are sums over processes. -/
theorem linkedSum_feeds (hi : PortGraph.Inv g) (hs : Script g n own name outs fun p => (P p).pm) (w : Nat → V) {p : Nat} {x : String} {l : List Nat} (hl : l.Nodup)
    (hm : ∀ q, q ∈ l ↔ Feeds g n own name q p x) : linkedSum g n own name (fun o => w o.proc) p x = (l.map w).sum := by
  classical
  unfold linkedSum
  have hperm : (((List.range g.next).filter fun o => Linked g n own name o p x).map own).Perm l := by
    rw [List.perm_ext_iff_of_nodup]
    · intro q
      rw [hm]
      simp only [List.mem_map, List.mem_filter, List.mem_range, decide_eq_true_eq]
      constructor
      · rintro ⟨o, ⟨h1, h2⟩, h3⟩; exact ⟨o, h1, h3, h2⟩
      · rintro ⟨o, h1, h3, h2⟩; exact ⟨o, ⟨h1, h2⟩, h3⟩
    · refine List.Nodup.map_on ?_ (List.nodup_range.filter _)
      intro o h1 o' h2 he
      simp only [List.mem_filter, List.mem_range, decide_eq_true_eq] at h1 h2
      obtain ⟨ho, a1, a2, i, _, _, _, ar⟩ := h1
      obtain ⟨ho', b1, b2, j, _, _, _, br⟩ := h2
      have u := hs.usesOut o ho a1 a2 (Wired.reaches_ends hi ar).2.2.1
      have u' := hs.usesOut o' ho' b1 b2 (Wired.reaches_ends hi br).2.2.1
      refine hs.names o o' ho ho' he ?_
      rw [he] at u
      rcases out_name (k := (P (own o')).kind) u with ⟨a, b⟩ | ⟨a, b⟩ | ⟨a, b⟩ <;>
        rcases out_name (k := (P (own o')).kind) u' with ⟨c, d⟩ | ⟨c, d⟩ | ⟨c, d⟩ <;>
          first | (rw [b, d]; done) | (rw [a] at c; cases c)
    · exact hl
  rw [← (hperm.map w).sum_eq, List.map_map]
  rfl

end

section
variable {N C R : Type} [AddCommMonoid R] {g : G} {own : Nat → Nat} {name : Nat → String} {outs : Nat → List Nat}
  {np : Nat} {conns : List Conn} {pop conn src snk : Nat → Proc (Vars N C R) (Nat → R) R}

theorem arr_pop {nc q : Nat} (h : q < np) : arranged np nc pop conn src snk q = pop q := by unfold arranged; rw [if_pos h]

theorem arr_conn {nc c : Nat} (h : c < nc) : arranged np nc pop conn src snk (np + c) = conn c := by
  unfold arranged; rw [if_neg (by omega), if_pos (by omega)]; congr 1; omega

theorem arr_src {nc q : Nat} (h : q < np) : arranged np nc pop conn src snk (np + nc + q) = src q := by
  unfold arranged; rw [if_neg (by omega), if_neg (by omega), if_pos (by omega)]; congr 1; omega

theorem arr_snk {nc q : Nat} (h : q < np) : arranged np nc pop conn src snk (np + nc + np + q) = snk q := by
  unfold arranged; rw [if_neg (by omega), if_neg (by omega), if_neg (by omega), if_pos (by omega)]; congr 1; omega

/-- What population `q` receives in a step from state `σ`. -/
def popIn (np : Nat) (conns : List Conn) (conn src : Nat → Proc (Vars N C R) (Nat → R) R) (σ : Nat → Vars N C R) (q : Nat) : Nat → R :=
  (src q).out ((src q).begin_ (σ (np + conns.length + q))) +
    (((List.range conns.length).filter fun c => (conns[c]?.map Conn.dst) = some q).map fun c => (conn c).out ((conn c).begin_ (σ (np + c)))).sum

variable (hpop : ∀ q, (pop q).kind = .neuron) (hconn : ∀ c, c < conns.length → (conn c).kind = .synapse) (hsrc : ∀ q, (src q).kind = .source) (hsnk : ∀ q, (snk q).kind = .sink)

include hconn hsrc hsnk in
theorem fed_arranged (hi : PortGraph.Inv g) (ha : Arrangement g own name np conns) :
    Fed g (np + conns.length + np + np) own name (arranged np conns.length pop conn src snk) := by
  intro p o hp hk hl
  have hpn : p < np := by
    apply Classical.byContradiction
    intro hnp
    rcases Nat.lt_or_ge p (np + conns.length) with h | h
    · obtain ⟨c, rfl⟩ : ∃ c, p = np + c := ⟨p - np, by omega⟩
      rw [arr_conn (by omega), hconn c (by omega)] at hk; cases hk
    · rcases Nat.lt_or_ge p (np + conns.length + np) with h' | h'
      · obtain ⟨c, rfl⟩ : ∃ c, p = np + conns.length + c := ⟨p - (np + conns.length), by omega⟩
        rw [arr_src (by omega), hsrc] at hk; cases hk
      · obtain ⟨c, rfl⟩ : ∃ c, p = np + conns.length + np + c := ⟨p - (np + conns.length + np), by omega⟩
        rw [arr_snk (by omega), hsnk] at hk; cases hk
  have ho : o < g.next := by
    obtain ⟨_, _, i, _, _, _, hr⟩ := hl
    exact (Wired.reaches_ends hi hr).1
  rcases (ha.pops p hpn (own o)).1 ⟨o, ho, rfl, hl⟩ with h | ⟨c, hc, _, h⟩
  · rw [h, arr_src hpn, hsrc]; decide
  · rw [h, arr_conn hc, hconn c hc]; decide

variable (hi : PortGraph.Inv g) (ha : Arrangement g own name np conns)
  (hs : Script g (np + conns.length + np + np) own name outs fun p => (arranged np conns.length pop conn src snk p).pm) (σ : Nat → Vars N C R)

include hconn hsrc hi ha hs in
/-- A population in a step. -/
theorem fired_pop {q : Nat} (hq : q < np) : fired g (np + conns.length + np + np) own name (arranged np conns.length pop conn src snk) σ q =
    (pop q).fire ((pop q).begin_ (σ q)) (popIn np conns conn src σ q) := by
  unfold fired
  rw [arr_pop hq]
  congr 1
  have e := linkedSum_feeds hi hs (fun p => early (arranged np conns.length pop conn src snk) σ ⟨p, "", .out⟩) (p := q) (x := "a_in")
    (l := (np + conns.length + q) :: ((List.range conns.length).filter fun c => (conns[c]?.map Conn.dst) = some q).map fun c => np + c) ?_ ?_
  · rw [show early (arranged np conns.length pop conn src snk) σ = fun o => early (arranged np conns.length pop conn src snk) σ ⟨o.proc, "", .out⟩ from rfl, e]
    rw [List.map_cons, List.sum_cons, List.map_map]
    unfold popIn
    congr 1
    · unfold early
      dsimp only
      rw [arr_src hq, if_neg (by rw [hsrc]; decide)]
    · congr 1
      apply List.map_congr_left
      intro c hc
      simp only [List.mem_filter, List.mem_range] at hc
      unfold early
      dsimp only [Function.comp]
      rw [arr_conn hc.1, if_neg (by rw [hconn c hc.1]; decide)]
  · rw [List.nodup_cons]
    refine ⟨?_, List.Nodup.map_on (fun a _ b _ h => by omega) (List.nodup_range.filter _)⟩
    simp only [List.mem_map, List.mem_filter, List.mem_range, not_exists, not_and]
    intro c hc h
    omega
  · intro p
    rw [ha.pops q hq, List.mem_cons]
    apply or_congr Iff.rfl
    simp only [List.mem_map, List.mem_filter, List.mem_range, decide_eq_true_eq]
    constructor
    · rintro ⟨c, ⟨hc, h⟩, rfl⟩
      rw [List.getElem?_eq_getElem hc] at h
      exact ⟨c, hc, by simpa using h, rfl⟩
    · rintro ⟨c, hc, h, rfl⟩
      exact ⟨c, ⟨hc, by rw [List.getElem?_eq_getElem hc]; simpa using h⟩, rfl⟩

include hpop hconn hsrc hi ha hs in
/-- What arrives at a process that is fed by population `q` only. -/
theorem sum_sent {p q : Nat} {x : String} (hq : q < np) (hx : ∀ r, Feeds g (np + conns.length + np + np) own name r p x ↔ r = q) :
    linkedSum g (np + conns.length + np + np) own name (sent g (np + conns.length + np + np) own name (arranged np conns.length pop conn src snk) σ) p x =
      ((pop q).fire ((pop q).begin_ (σ q)) (popIn np conns conn src σ q)).2 := by
  have e := linkedSum_feeds hi hs (fun r => sent g (np + conns.length + np + np) own name (arranged np conns.length pop conn src snk) σ ⟨r, "", .out⟩) (p := p) (x := x)
    (l := [q]) (by simp) (by intro r; rw [hx]; simp)
  refine Eq.trans e ?_
  simp only [List.map_cons, List.map_nil, List.sum_cons, List.sum_nil, add_zero]
  unfold sent
  dsimp only
  rw [arr_pop hq, if_pos (hpop q), fired_pop hconn hsrc hi ha hs σ hq]

include hpop hconn hsrc hi ha hs in
theorem next_pop {q : Nat} (hq : q < np) : next g (np + conns.length + np + np) own name (arranged np conns.length pop conn src snk) σ q =
    ((pop q).fire ((pop q).begin_ (σ q)) (popIn np conns conn src σ q)).1 := by
  unfold next
  rw [if_pos (by omega), arr_pop hq, hpop]
  dsimp only
  rw [fired_pop hconn hsrc hi ha hs σ hq]

include hpop hconn hsrc hi ha hs in
theorem next_conn {c : Nat} (hc : c < conns.length) : next g (np + conns.length + np + np) own name (arranged np conns.length pop conn src snk) σ (np + c) =
    (conn c).absorb ((conn c).begin_ (σ (np + c))) ((pop conns[c].src).fire ((pop conns[c].src).begin_ (σ conns[c].src)) (popIn np conns conn src σ conns[c].src)).2 := by
  unfold next
  rw [if_pos (by omega), arr_conn hc, hconn c hc]
  dsimp only
  rw [sum_sent hpop hconn hsrc hi ha hs σ (ha.links c hc).1 (ha.links c hc).2]

include hsrc in
theorem next_src {q : Nat} (hq : q < np) : next g (np + conns.length + np + np) own name (arranged np conns.length pop conn src snk) σ (np + conns.length + q) =
    (src q).begin_ (σ (np + conns.length + q)) := by
  unfold next
  rw [if_pos (by omega), arr_src hq, hsrc]

include hpop hconn hsrc hsnk hi ha hs in
theorem next_snk {q : Nat} (hq : q < np) : next g (np + conns.length + np + np) own name (arranged np conns.length pop conn src snk) σ (np + conns.length + np + q) =
    (snk q).absorb ((snk q).begin_ (σ (np + conns.length + np + q))) ((pop q).fire ((pop q).begin_ (σ q)) (popIn np conns conn src σ q)).2 := by
  unfold next
  rw [if_pos (by omega), arr_snk hq, hsnk]
  dsimp only
  rw [sum_sent hpop hconn hsrc hi ha hs σ hq (ha.sinks q hq)]

end
end Verif.Snn
