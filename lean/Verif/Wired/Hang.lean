import Verif.Wired.Theorems
import Verif.EndToEnd.Hang

/-!
# C117: the first `run` of a network returns exactly if no processes wait for each other in a circle
-/

namespace Verif.Wired

open Verif.Wiring (Port Builders buildChannels PKind)
open Verif.System (Op Precedes exec)
open Verif.EndToEnd (Call Res net initial seen)
open Verif.PortGraph (G Reaches dstPorts run Kind)
open Spec

variable {S V W : Type}

section
variable [Add V] [Zero V] {x : Platform S V W} {conns : List (Port × Port)} {kd : Nat → String → PKind} {has : Nat → String → Bool} {b : Builders}
  (funcs : Port → List (List Char × List (V → V)))

/-- Port operations in an order are channel operations in this order. -/
theorem precedes_of_before (hr : Regular x.n x.pm conns kd) (hb : buildChannels has conns = some b) {p c c' : Nat} {n m : String} {o q : Port}
    (h : Before (x.pm p) n m) (hc' : conns[c']? = some (o, ⟨p, n, .inp⟩)) (hc : conns[c]? = some (⟨p, m, .out⟩, q)) :
    Precedes ((sys x b funcs).body p) (.rcv c') (.snd c) := by
  obtain ⟨A, B, C, e⟩ := h
  rw [body_pieces]
  have h1 : POp.recv n ∈ (x.pm p).ops := by rw [e]; simp
  have h2 : POp.send m ∈ (x.pm p).ops := by rw [e]; simp
  obtain ⟨r1, r2, hr'⟩ := List.append_of_mem ((mem_piece_rcv hr hb h1 c').2 ⟨n, o, rfl, hc'⟩)
  obtain ⟨s1, s2, hs'⟩ := List.append_of_mem ((mem_piece_snd hr hb h2 c).2 ⟨m, q, rfl, hc⟩)
  refine ⟨A.flatMap (piece b p) ++ r1, r2 ++ B.flatMap (piece b p) ++ s1, s2 ++ C.flatMap (piece b p), ?_⟩
  rw [e, List.flatMap_append, List.flatMap_cons, List.flatMap_append, List.flatMap_cons, hr', hs']
  simp

theorem circle (hr : Regular x.n x.pm conns kd) (hb : buildChannels has conns = some b) (hc : ¬ Spec.NoCircle x.pm conns) :
    ¬ EndToEnd.NoCircle (sys x b funcs) (srcOf conns) := by
  intro hn
  apply hc
  rintro ⟨K, ⟨z0, h0⟩, hK⟩
  apply hn
  refine ⟨fun c => ∃ z, K z ∧ conns[c]? = some z, ?_, ?_⟩
  · obtain ⟨i, hi⟩ := List.mem_iff_getElem?.1 (hK z0 h0).1
    exact ⟨i, z0, h0, hi⟩
  · rintro c ⟨⟨⟨op, on, ok⟩, q⟩, hk, hcz⟩
    obtain ⟨hm, ⟨o', ⟨qp, qn, qk⟩⟩, hk', he, hbef⟩ := hK _ hk
    obtain ⟨e1, _, e3, _, e5, _⟩ := hr.conn _ _ hm
    obtain ⟨_, f2, _⟩ := hr.conn _ _ (hK _ hk').1
    dsimp only at e1 e3 e5 f2 he hbef
    subst e1 f2 he
    obtain ⟨c', hc'⟩ := List.mem_iff_getElem?.1 (hK _ hk').1
    have hsrc : srcOf conns c = qp := by simp [srcOf, hcz]
    rw [hsrc]
    refine ⟨e3, (snd_body funcs hr hb qp c).2 ⟨on, q, e5, hcz⟩, c', ⟨_, hk', hc'⟩, ?_⟩
    exact precedes_of_before funcs hr hb hbef hc' hcz

end

/-- **C117.** If the senders of some connections each want a message of another of these connections first, the first `run` of at least one time step never returns, whatever the schedule. -/
theorem C117_circle_hangs [Add V] [Zero V] (x : Platform S V W) (conns : List (Port × Port)) (kd : Nat → String → PKind) (funcs : Port → List (List Char × List (V → V)))
    (has : Nat → String → Bool) (b : Builders) (hb : buildChannels has conns = some b) (hr : Regular x.n x.pm conns kd) (hc : ¬ Spec.NoCircle x.pm conns) (hh : Hosted x)
    (pre post : List (Call W)) (hpre : ∀ n, .run n ∉ pre) (k : Nat) (l : List Nat) :
    seen (exec (net (sys x b funcs)) (initial (sys x b funcs) (pre ++ .run (k + 1) :: post)) l) <+: List.replicate pre.length .notStarted :=
  EndToEnd.C117_circle_hangs _ _ _ (wf funcs hr hb hh) (circle funcs hr hb hc) pre post hpre k l

theorem shows_length {N : Network S V W} {st : Bool} {σ : Nat → S} {prog : List (Call W)} {log : List (Res W)} (h : Shows N st σ prog log) : log.length = prog.length + 1 := by
  induction h with
  | stop => rfl
  | run _ _ ih => simp [ih]
  | get _ ih => simp [ih]
  | set _ ih => simp [ih]
  | getEarly _ ih => simp [ih]
  | setEarly _ ih => simp [ih]

/-- **C117.** The first `run` returns under some schedule if and only if no connections wait for each other in a circle. -/
theorem C117_returns_iff_no_circle [AddCommMonoid V] (x : Platform S V W) (conns : List (Port × Port)) (kd : Nat → String → PKind) (funcs : Port → List (List Char × List (V → V)))
    (has : Nat → String → Bool) (b : Builders) (hb : buildChannels has conns = some b) (hr : Regular x.n x.pm conns kd) (hh : Hosted x)
    (pre post : List (Call W)) (hpre : ∀ n, .run n ∉ pre) (k : Nat) (hp : Proper x.n x.pm (pre ++ .run (k + 1) :: post)) :
    (∃ l, pre.length < (seen (exec (net (sys x b funcs)) (initial (sys x b funcs) (pre ++ .run (k + 1) :: post)) l)).length) ↔ Spec.NoCircle x.pm conns := by
  constructor
  · rintro ⟨l, hl⟩
    refine Classical.byContradiction fun hc => ?_
    have h := (C117_circle_hangs x conns kd funcs has b hb hr hc hh pre post hpre k l).length_le
    rw [List.length_replicate] at h
    omega
  · intro hc
    obtain ⟨log, h1, _, _, N, h2⟩ := C114_results x conns kd funcs has b hb hr hc hh _ hp
    refine ⟨(List.replicate N (List.range (2 * (x.n + x.k) + 1))).flatten, ?_⟩
    rw [(h2 _ (fun rd hrd a ha => by rw [List.eq_of_mem_replicate hrd]; exact List.mem_range.2 (by omega)) (by simp)).1, shows_length h1]
    simp

/-! ## In terms of ports -/

section
variable {g : G} {lim n : Nat} {own : Nat → Nat} {name : Nat → String} {outs : Nat → List Nat} {pm : Nat → PM S V W} {procs : List Nat}

theorem connections_circle (hi : PortGraph.Inv g) (hs : Script g n own name outs pm) (hprocs : ∀ p, p ∈ procs ↔ p < n)
    (hret : ∀ p, p < n → ∀ s ∈ outs p, ∃ l, dstPorts g false lim s = some l) (hc : ¬ NoCircleOfPorts g n own name pm) :
    ¬ Spec.NoCircle pm (connections g lim procs outs own name) := by
  intro hn
  apply hc
  rintro ⟨K, ⟨o0, h0⟩, hK⟩
  apply hn
  refine ⟨fun z => ∃ o o' d, K o ∧ K o' ∧ own o' < n ∧ (g.port o').kind = .out ∧ own d = own o ∧ (g.port d).kind = .inp ∧ Reaches g o' d ∧ Before (pm (own o)) (name d) (name o) ∧
    z = (⟨own o', name o', .out⟩, ⟨own d, name d, .inp⟩), ?_, ?_⟩
  · obtain ⟨_, _, o', _, ho', ⟨a1, a2, d, a3, rfl, a4, a5⟩, hbef⟩ := hK o0 h0
    exact ⟨_, o0, o', d, h0, ho', a1, a2, a3, a4, a5, hbef, rfl⟩
  · rintro _ ⟨o, o', d, ho, ho', a1, a2, a3, a4, a5, hbef, rfl⟩
    refine ⟨(mem_connections hi hs hprocs hret _ _).2 ⟨o', d, a1, a2, by rw [a3]; exact (hK o ho).2.1, a4, a5, rfl, rfl⟩, ?_⟩
    obtain ⟨_, _, o2, _, ho2, ⟨b1, b2, d2, b3, rfl, b4, b5⟩, hbef2⟩ := hK o' ho'
    exact ⟨_, ⟨o', o2, d2, ho', ho2, b1, b2, b3, b4, b5, hbef2, rfl⟩, b3, hbef2⟩

end

/-- **C117.** From `connect` calls: the first `run` of at least one time step returns under some schedule (and then, by `C114_from_connect_calls`, under every fair one) if and only if there is no set of
OutPorts such that before each of them is sent to, something has to be received that comes from another one. Otherwise the user sees nothing but the errors of earlier `get` and `set` calls, whatever the
schedule. -/
theorem C117_run_returns_iff [AddCommMonoid V] (x : Platform S V W) (lim : Nat) (calls : List PortGraph.Op) (hgood : ∀ op ∈ calls, op.Good)
    (own : Nat → Nat) (name : Nat → String) (outs : Nat → List Nat) (procs : List Nat) (hprocs : ∀ p, p ∈ procs ↔ p < x.n)
    (hs : Script (run lim G.empty calls) x.n own name outs x.pm)
    (hret : ∀ p, p < x.n → ∀ s ∈ outs p, ∃ l, dstPorts (run lim G.empty calls) false lim s = some l) (hh : Hosted x)
    (has : Nat → String → Bool) (b : Builders) (hb : buildChannels has (connections (run lim G.empty calls) lim procs outs own name) = some b)
    (pre post : List (Call W)) (hpre : ∀ n, .run n ∉ pre) (k : Nat) (hp : Proper x.n x.pm (pre ++ .run (k + 1) :: post)) :
    ((∃ l, pre.length < (seen (exec (net (sys x b fun _ => [])) (initial (sys x b fun _ => []) (pre ++ .run (k + 1) :: post)) l)).length) ↔
      NoCircleOfPorts (run lim G.empty calls) x.n own name x.pm) ∧
    (¬ NoCircleOfPorts (run lim G.empty calls) x.n own name x.pm → ∀ l,
      seen (exec (net (sys x b fun _ => [])) (initial (sys x b fun _ => []) (pre ++ .run (k + 1) :: post)) l) <+: List.replicate pre.length .notStarted) := by
  have hi := PortGraph.inv_run PortGraph.inv_empty lim calls hgood
  have hr := connections_regular hi hs hprocs hret
  refine ⟨?_, fun hc l => C117_circle_hangs x _ _ _ has b hb hr (connections_circle hi hs hprocs hret hc) hh pre post hpre k l⟩
  rw [C117_returns_iff_no_circle x _ _ _ has b hb hr hh pre post hpre k hp]
  exact ⟨fun h => Classical.byContradiction fun hc => connections_circle hi hs hprocs hret hc h, connections_noCircle hi hs hprocs hret⟩

end Verif.Wired
