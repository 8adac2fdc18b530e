import Verif.Wiring.Lemmas
import Mathlib.Algebra.BigOperators.Group.List.Basic

/-!
# C88: ports are wired as the network says
-/

namespace Verif.Wiring

open Verif.Compiler

/-! ## Specification -/

namespace Spec

/-- Connections of leaf ports as C22-C24 and C31 leave them: each pair once, OutPort to InPort or RefPort to VarPort; a process has one port of a name. -/
structure Ok (kd : Nat → String → PKind) (pairs : List (Port × Port)) : Prop where
  nodup : pairs.Nodup
  named : ∀ x ∈ pairs, x.1.kind = kd x.1.proc x.1.name ∧ x.2.kind = kd x.2.proc x.2.name
  kinds : ∀ x ∈ pairs, (x.1.kind = .out ∧ x.2.kind = .inp) ∨ (x.1.kind = .ref ∧ x.2.kind = .var)

/-- `p` is the port of its name. -/
def Named (kd : Nat → String → PKind) (p : Port) : Prop := p.kind = kd p.proc p.name

/-- Ports connected to `q`. -/
def sources (pairs : List (Port × Port)) (q : Port) : List Port := (pairs.filter fun x => x.2 = q).map Prod.fst

/-- What port `p` sent. -/
def sent {V : Type} (p : Port) : List (Op V) → List V
  | [] => []
  | .send p' v :: ops => if p' = p then v :: sent p ops else sent p ops
  | .recv _ :: ops => sent p ops

/-- Process models send on OutPorts and receive on InPorts. -/
def OpOk {V : Type} (kd : Nat → String → PKind) : Op V → Prop
  | .send p _ => p.kind = .out ∧ Named kd p
  | .recv q => q.kind = .inp ∧ Named kd q

/-- Effect of the virtual ports between `p` and `q`. -/
def transform {V : Type} (funcs : Port → List (List Char × List (V → V))) (p q : Port) (v : V) : V :=
  ((dictGet (portId p.proc p.name) (funcs q)).getD []).foldl (fun v f => f v) v

end Spec

open Spec

/-- What the transformer of `q` does to data received on `e`. -/
def trOf {V : Type} (s : Builders) (funcs : Port → List (List Char × List (V → V))) (q : Port) (e : End) (v : V) : V :=
  match transformers s q (funcs q) e with
  | some fs => fs.foldl (fun v f => f v) v
  | none => v

theorem named_eq {kd : Nat → String → PKind} {p q : Port} (hp : Named kd p) (hq : Named kd q) (h1 : p.proc = q.proc) (h2 : p.name = q.name) : p = q := by
  obtain ⟨a, b, c⟩ := p
  obtain ⟨a', b', c'⟩ := q
  simp only [Named] at hp hq h1 h2
  subst h1 h2
  rw [hp, hq]

theorem builders_mem {pairs : List (Port × Port)} {c : CB} : c ∈ builders pairs ↔
    (c.src, c.dst) ∈ pairs ∨ (c.src.kind = .var ∧ (c.dst, c.src) ∈ pairs) := by
  unfold builders
  simp only [List.mem_flatMap, List.mem_cons]
  constructor
  · rintro ⟨x, hx, rfl | h⟩
    · exact Or.inl hx
    · split at h
      · rename_i hv
        simp only [List.mem_singleton] at h
        subst h
        exact Or.inr ⟨hv, hx⟩
      · simp at h
  · rintro (h | ⟨hv, h⟩)
    · exact ⟨(c.src, c.dst), h, Or.inl rfl⟩
    · exact ⟨(c.dst, c.src), h, Or.inr (by simp [hv])⟩

section
variable {kd : Nat → String → PKind} {pairs : List (Port × Port)}

theorem builders_named (hok : Ok kd pairs) {c : CB} (hc : c ∈ builders pairs) : Named kd c.src ∧ Named kd c.dst := by
  rcases builders_mem.1 hc with h | ⟨_, h⟩
  · exact hok.named _ h
  · exact (hok.named _ h).symm

theorem builders_kinds (hok : Ok kd pairs) {c : CB} (hc : c ∈ builders pairs) :
    (c.src.kind = .out ∧ c.dst.kind = .inp) ∨ (c.src.kind = .ref ∧ c.dst.kind = .var) ∨ (c.src.kind = .var ∧ c.dst.kind = .ref) := by
  rcases builders_mem.1 hc with h | ⟨hv, h⟩
  · rcases hok.kinds _ h with h | h
    · exact Or.inl h
    · exact Or.inr (Or.inl h)
  · rcases hok.kinds _ h with h | h
    · rw [hv] at h; simp at h
    · exact Or.inr (Or.inr ⟨h.2, h.1⟩)

theorem builders_nodup (hok : Ok kd pairs) : (builders pairs).Nodup := by
  unfold builders
  rw [List.nodup_flatMap]
  constructor
  · intro x hx
    split
    · rename_i hv
      simp only [List.nodup_cons, List.mem_singleton, List.not_mem_nil, not_false_eq_true, List.nodup_nil, and_true, CB.mk.injEq]
      rintro ⟨h1, _⟩
      rcases hok.kinds x hx with h | h
      · rw [h1] at h; rw [h.1] at hv; simp at hv
      · rw [h1, hv] at h; simp at h
    · simp
  · refine hok.nodup.imp_of_mem ?_
    intro x y hx hy hne c h1 h2
    simp only [List.mem_cons] at h1 h2
    have hkx := hok.kinds x hx
    have hky := hok.kinds y hy
    rcases h1 with rfl | h1 <;> rcases h2 with h2 | h2
    · apply hne
      simp only [CB.mk.injEq] at h2
      exact Prod.ext h2.1 h2.2
    · split at h2
      · rename_i hv
        simp only [List.mem_singleton, CB.mk.injEq] at h2
        rw [h2.1, hv] at hkx
        simp at hkx
      · simp at h2
    · split at h1
      · rename_i hv
        simp only [List.mem_singleton] at h1
        subst h1
        simp only [CB.mk.injEq] at h2
        rw [← h2.1, hv] at hky
        simp at hky
      · simp at h1
    · split at h1
      · split at h2
        · simp only [List.mem_singleton] at h1 h2
          subst h1
          simp only [CB.mk.injEq] at h2
          exact hne (Prod.ext h2.2 h2.1)
        · simp at h2
      · simp at h1

theorem builders_distinct (hok : Ok kd pairs) : Distinct (builders pairs) := by
  refine (builders_nodup hok).imp_of_mem ?_
  rintro a b ha hb hne ⟨h1, h2, h3, h4⟩
  apply hne
  have e1 := named_eq (builders_named hok ha).1 (builders_named hok hb).1 h1 h2
  have e2 := named_eq (builders_named hok ha).2 (builders_named hok hb).2 h3 h4
  cases a; cases b
  simp only at e1 e2
  rw [e1, e2]

/-- The CSP ports of a port. -/
theorem ends_exact (hok : Ok kd pairs) {has : Nat → String → Bool} {s : Builders} (hb : buildChannels has pairs = some s) {p : Port} (hp : Named kd p) :
    ioEnds s p = ((builders pairs).zipIdx).flatMap fun x =>
      (if x.1.src = p then [⟨x.2, true, p.name⟩] else []) ++ (if x.1.dst = p then [⟨x.2, false, p.name⟩] else []) := by
  have h := buildFrom_ends has p.proc p.name 0 _ _ _ hb
  have h0 : endsAt empty p.proc p.name = [] := rfl
  rw [h0, List.nil_append] at h
  show endsAt s p.proc p.name = _
  rw [h]
  apply List.flatMap_congr
  intro x hx
  have hc : x.1 ∈ builders pairs := List.fst_mem_of_mem_zipIdx hx
  obtain ⟨n1, n2⟩ := builders_named hok hc
  unfold touch
  congr 1
  · by_cases he : x.1.src = p
    · rw [if_pos he, if_pos ⟨by rw [he], by rw [he]⟩]
    · rw [if_neg he, if_neg (fun h => he (named_eq n1 hp h.1 h.2))]
  · by_cases he : x.1.dst = p
    · rw [if_pos he, if_pos ⟨by rw [he], by rw [he]⟩]
    · rw [if_neg he, if_neg (fun h => he (named_eq n2 hp h.1 h.2))]

theorem ends_out (hok : Ok kd pairs) {has : Nat → String → Bool} {s : Builders} (hb : buildChannels has pairs = some s) {p : Port} (hp : Named kd p)
    (hk : p.kind = .out) : ioEnds s p = ((builders pairs).zipIdx).flatMap fun x => if x.1.src = p then [⟨x.2, true, p.name⟩] else [] := by
  rw [ends_exact hok hb hp]
  apply List.flatMap_congr
  intro x hx
  have hc : x.1 ∈ builders pairs := List.fst_mem_of_mem_zipIdx hx
  have hkk := builders_kinds hok hc
  rw [if_neg (c := x.1.dst = p), List.append_nil]
  intro h
  rw [h, hk] at hkk
  simp at hkk

theorem ends_inp (hok : Ok kd pairs) {has : Nat → String → Bool} {s : Builders} (hb : buildChannels has pairs = some s) {q : Port} (hq : Named kd q)
    (hk : q.kind = .inp) : ioEnds s q = ((builders pairs).zipIdx).flatMap fun x => if x.1.dst = q then [⟨x.2, false, q.name⟩] else [] := by
  rw [ends_exact hok hb hq]
  apply List.flatMap_congr
  intro x hx
  have hc : x.1 ∈ builders pairs := List.fst_mem_of_mem_zipIdx hx
  have hkk := builders_kinds hok hc
  rw [if_neg (c := x.1.src = q), List.nil_append]
  intro h
  rw [h, hk] at hkk
  simp at hkk

end

/-! ## Selected channels -/

/-- Ends of the channels whose builder satisfies `P`. -/
def sel (P : CB → Bool) (b : Bool) (n : String) (l : List (CB × Nat)) : List End := l.flatMap fun x => if P x.1 then [⟨x.2, b, n⟩] else []

theorem sel_mem (P : CB → Bool) (b : Bool) (n : String) (cs : List CB) (e : End) :
    e ∈ sel P b n cs.zipIdx ↔ ∃ c, cs[e.chan]? = some c ∧ P c = true ∧ e.send = b ∧ e.name = n := by
  unfold sel
  simp only [List.mem_flatMap]
  constructor
  · rintro ⟨⟨c, k⟩, hx, he⟩
    split at he
    · rename_i hP
      simp only [List.mem_singleton] at he
      subst he
      have := List.mem_zipIdx_iff_getElem?.1 hx
      exact ⟨c, this, hP, rfl, rfl⟩
    · simp at he
  · rintro ⟨c, h1, h2, h3, h4⟩
    refine ⟨(c, e.chan), List.mem_zipIdx_iff_getElem?.2 h1, ?_⟩
    simp only [h2, if_true, List.mem_singleton]
    cases e
    simp only at h3 h4
    rw [h3, h4]

theorem sel_nodup (P : CB → Bool) (b : Bool) (n : String) (cs : List CB) : ∀ k, ((sel P b n (cs.zipIdx k)).map End.chan).Nodup ∧
    ∀ e ∈ sel P b n (cs.zipIdx k), k ≤ e.chan := by
  induction cs with
  | nil => intro k; simp [sel]
  | cons c cs ih =>
    intro k
    obtain ⟨h1, h2⟩ := ih (k + 1)
    have hc : sel P b n ((c :: cs).zipIdx k) = (if P c then [⟨k, b, n⟩] else []) ++ sel P b n (cs.zipIdx (k + 1)) := by
      simp [sel, List.zipIdx_cons]
    rw [hc]
    constructor
    · split
      · simp only [List.cons_append, List.nil_append, List.map_cons, List.nodup_cons]
        refine ⟨?_, h1⟩
        intro hm
        obtain ⟨e, he, hek⟩ := List.mem_map.1 hm
        have := h2 e he
        omega
      · simpa using h1
    · intro e he
      rcases List.mem_append.1 he with h | h
      · split at h
        · simp only [List.mem_singleton] at h; rw [h]
        · simp at h
      · have := h2 e h; omega

theorem sel_map {β : Type} (P : CB → Bool) (b : Bool) (n : String) (f : End → β) (g : CB → β) (cs : List CB) : ∀ k,
    (∀ i c, cs[i]? = some c → P c = true → f ⟨k + i, b, n⟩ = g c) → (sel P b n (cs.zipIdx k)).map f = (cs.filter P).map g := by
  induction cs with
  | nil => intro k _; rfl
  | cons c cs ih =>
    intro k h
    have hc : sel P b n ((c :: cs).zipIdx k) = (if P c then [⟨k, b, n⟩] else []) ++ sel P b n (cs.zipIdx (k + 1)) := by
      simp [sel, List.zipIdx_cons]
    have ih' := ih (k + 1) (fun i c' hi hP => by rw [← h (i + 1) c' (by simpa using hi) hP]; congr 2; omega)
    rw [hc, List.map_append, ih', List.filter_cons]
    by_cases hP : P c = true
    · have := h 0 c (by simp) hP
      rw [Nat.add_zero] at this
      simp [hP, this]
    · simp [hP]

/-! ## Messages -/

section
variable {V : Type}

theorem sendAll_get (v : V) : ∀ (es : List End) (qs : Queues V), (es.map End.chan).Nodup →
    sendAll v es qs = fun k => if k ∈ es.map End.chan then qs k ++ [v] else qs k
  | [], qs, _ => by simp [sendAll]
  | e :: es, qs, h => by
    have h' := List.nodup_cons.1 h
    have ih := sendAll_get v es (fun k => if k = e.chan then qs k ++ [v] else qs k) h'.2
    show sendAll v es _ = _
    rw [ih]
    funext k
    simp only [List.map_cons, List.mem_cons]
    by_cases hk : k = e.chan
    · subst hk
      simp [h'.1]
    · simp [hk]

theorem recvAll_get [Add V] [Inhabited V] (tr : End → V → V) : ∀ (es : List End) (z : V) (qs : Queues V), (es.map End.chan).Nodup →
    recvAll tr es z qs = if ∀ e ∈ es, qs e.chan ≠ [] then
      some ((es.map fun e => tr e ((qs e.chan).head?.getD default)).foldl (· + ·) z, fun k => if k ∈ es.map End.chan then (qs k).tail else qs k) else none
  | [], z, qs, _ => by simp [recvAll]
  | e :: es, z, qs, h => by
    have h' := List.nodup_cons.1 h
    cases hq : qs e.chan with
    | nil =>
      rw [if_neg (fun hh => hh e (by simp) hq)]
      simp [recvAll, hq]
    | cons v r =>
      have ih := recvAll_get tr es (z + tr e v) (fun k => if k = e.chan then r else qs k) h'.2
      have hstep : recvAll tr (e :: es) z qs = recvAll tr es (z + tr e v) (fun k => if k = e.chan then r else qs k) := by
        simp only [recvAll, List.foldlM_cons, hq]
        rfl
      rw [hstep, ih]
      have hne : ∀ e' ∈ es, e'.chan ≠ e.chan := fun e' he' hc => h'.1 (List.mem_map.2 ⟨e', he', hc⟩)
      have hiff : (∀ e' ∈ es, (if e'.chan = e.chan then r else qs e'.chan) ≠ []) ↔ ∀ e' ∈ e :: es, qs e'.chan ≠ [] := by
        constructor
        · intro hh e' he'
          rcases List.mem_cons.1 he' with rfl | he'
          · rw [hq]; simp
          · have := hh e' he'; rwa [if_neg (hne e' he')] at this
        · intro hh e' he'
          rw [if_neg (hne e' he')]
          exact hh e' (by simp [he'])
      by_cases hall : ∀ e' ∈ e :: es, qs e'.chan ≠ []
      · rw [if_pos (hiff.2 hall), if_pos hall]
        congr 2
        · simp only [List.map_cons, List.foldl_cons, hq, List.head?_cons, Option.getD_some]
          congr 1
          apply List.map_congr_left
          intro e' he'
          rw [if_neg (hne e' he')]
        · funext k
          simp only [List.map_cons, List.mem_cons]
          by_cases hk : k = e.chan
          · subst hk; simp [h'.1, hq]
          · simp [hk]
      · rw [if_neg (fun hh => hall (hiff.1 hh)), if_neg hall]

theorem sent_append (p : Port) : ∀ (a b : List (Op V)), sent p (a ++ b) = sent p a ++ sent p b
  | [], b => rfl
  | .send p' v :: a, b => by
    simp only [List.cons_append, sent]
    split
    · simp [sent_append p a b]
    · exact sent_append p a b
  | .recv _ :: a, b => by
    simp only [List.cons_append, sent]
    exact sent_append p a b

end

section
variable {kd : Nat → String → PKind} {pairs : List (Port × Port)} {V : Type}

/-- **C88.** Data that arrive from port `p` at an InPort are transformed by the functions of the virtual ports between them; no channel of the port is unknown to
the transformer. -/
theorem C88_transformer (hok : Ok kd pairs) {has : Nat → String → Bool} {s : Builders} (hb : buildChannels has pairs = some s) {F : Type}
    {q : Port} (hq : Named kd q) (funcs : List (List Char × List F)) {k : Nat} {c : CB} (hc : (builders pairs)[k]? = some c) (hd : c.dst = q)
    : transformers s q funcs ⟨k, false, q.name⟩ = some ((dictGet (portId c.src.proc c.src.name) funcs).getD []) := by
  unfold transformers
  cases funcs with
  | nil => rfl
  | cons f fs =>
    rw [if_neg (by simp)]
    have hm := buildFrom_map has q.proc q.name 0 _ _ _ hb (builders_distinct hok) (by intro c _ _; show _ ∉ ([] : List _); simp)
    have h0 : mapAt empty q.proc q.name = [] := rfl
    rw [h0, List.nil_append] at hm
    show Option.map _ (List.find? _ (mapAt s q.proc q.name).reverse) = _
    rw [hm]
    have hmem : (portId c.src.proc c.src.name, (⟨k, false, q.name⟩ : End)) ∈ (((builders pairs).zipIdx).flatMap (mapEntry q.proc q.name)).reverse := by
      rw [List.mem_reverse, List.mem_flatMap]
      refine ⟨(c, k), List.mem_zipIdx_iff_getElem?.2 hc, ?_⟩
      unfold mapEntry
      simp [hd]
    have hall : ∀ x ∈ (((builders pairs).zipIdx).flatMap (mapEntry q.proc q.name)).reverse, x.2 = (⟨k, false, q.name⟩ : End) → x.1 = portId c.src.proc c.src.name := by
      intro x hx he
      rw [List.mem_reverse, List.mem_flatMap] at hx
      obtain ⟨⟨c', k'⟩, hz, hx⟩ := hx
      unfold mapEntry at hx
      split at hx
      · simp only [List.mem_singleton] at hx
        subst hx
        simp only [End.mk.injEq, and_true] at he
        subst he
        have h1 := List.mem_zipIdx_iff_getElem?.1 hz
        simp only at h1
        rw [hc] at h1
        simp only [Option.some.injEq] at h1
        rw [← h1]
      · simp at hx
    cases hf : List.find? (fun x => decide (x.2 = (⟨k, false, q.name⟩ : End))) (((builders pairs).zipIdx).flatMap (mapEntry q.proc q.name)).reverse with
    | none =>
      have := List.find?_eq_none.1 hf _ hmem
      simp at this
    | some x =>
      have h1 := List.find?_some hf
      have h2 := List.mem_of_find?_eq_some hf
      simp only [decide_eq_true_eq] at h1
      rw [Option.map_some, hall x h2 h1]

theorem trOf_eq (hok : Ok kd pairs) {has : Nat → String → Bool} {s : Builders} (hb : buildChannels has pairs = some s)
    (funcs : Port → List (List Char × List (V → V))) {q : Port} (hq : Named kd q) {k : Nat} {c : CB} (hc : (builders pairs)[k]? = some c) (hd : c.dst = q)
    (v : V) : trOf s funcs q ⟨k, false, q.name⟩ v = transform funcs c.src q v := by
  unfold trOf
  rw [C88_transformer hok hb hq (funcs q) hc hd]
  rfl

/-- The pairs into an InPort and the builders into it are the same. -/
theorem sources_builders (hok : Ok kd pairs) {q : Port} (hk : q.kind = .inp) {β : Type} (g : Port → β) :
    ((builders pairs).filter fun c => c.dst = q).map (fun c => g c.src) = (sources pairs q).map g := by
  unfold builders sources
  have hkinds := hok.kinds
  clear hok
  induction pairs with
  | nil => rfl
  | cons x l ih =>
    have ih' := ih (fun y hy => hkinds y (by simp [hy]))
    have hx := hkinds x (by simp)
    rw [List.flatMap_cons, List.filter_append, List.map_append, ih', List.filter_cons (x := x)]
    by_cases hd : x.2 = q
    · have hv : ¬ x.2.kind = .var := by rw [hd, hk]; simp
      simp [hd, hk]
    · by_cases hv : x.2.kind = .var
      · have h1 : ¬ x.1 = q := by
          intro h
          rw [h, hk] at hx
          simp at hx
        simp [hd, hv, h1]
      · simp [hd, hv]

/-- State of the queues between operations. -/
def QInv (pairs : List (Port × Port)) (ops : List (Op V)) (m : MSt V) : Prop :=
  ∀ k c, (builders pairs)[k]? = some c → c.dst.kind = .inp →
    (m.got c.dst).length ≤ (sent c.src ops).length ∧ m.qs k = (sent c.src ops).drop (m.got c.dst).length

variable [AddCommMonoid V]

/-- What an InPort should have received. -/
def GInv (pairs : List (Port × Port)) (funcs : Port → List (List Char × List (V → V))) (q : Port) (ops : List (Op V)) (got : List V) : Prop :=
  (∀ p ∈ sources pairs q, got.length ≤ (sent p ops).length) ∧
    got = (List.range got.length).map fun t => ((sources pairs q).map fun p => transform funcs p q ((sent p ops).getD t 0)).sum

theorem getD_append_left' (l r : List V) (t : Nat) (h : t < l.length) : (l ++ r).getD t 0 = l.getD t 0 := by
  simp [List.getD_eq_getElem?_getD, List.getElem?_append_left h]

theorem GInv_grow (funcs : Port → List (List Char × List (V → V))) {q : Port} {ops : List (Op V)} {got : List V} (h : GInv pairs funcs q ops got) (ops' : List (Op V)) :
    GInv pairs funcs q (ops ++ ops') got := by
  obtain ⟨h1, h2⟩ := h
  refine ⟨fun p hp => by rw [sent_append, List.length_append]; have := h1 p hp; omega, ?_⟩
  conv_lhs => rw [h2]
  apply List.map_congr_left
  intro t ht
  have ht' := List.mem_range.1 ht
  congr 1
  apply List.map_congr_left
  intro p hp
  rw [sent_append, getD_append_left' _ _ _ (by have := h1 p hp; omega)]

/-- The two invariants hold after every history. -/
theorem run_inv (hok : Ok kd pairs) {has : Nat → String → Bool} {s : Builders} (hb : buildChannels has pairs = some s)
    (funcs : Port → List (List Char × List (V → V))) (ops : List (Op V)) : (∀ o ∈ ops, OpOk kd o) →
    QInv pairs ops (mRun s (trOf s funcs) ops) ∧
      (∀ q, q.kind = .inp → Named kd q → GInv pairs funcs q ops ((mRun s (trOf s funcs) ops).got q)) ∧
      ∀ q, q.kind = .inp → Named kd q → ((recvAll (trOf s funcs q) (ioEnds s q) 0 (mRun s (trOf s funcs) ops).qs).isSome = true ↔
        ∀ p ∈ sources pairs q, ((mRun s (trOf s funcs) ops).got q).length < (sent p ops).length) := by
  letI : Inhabited V := ⟨0⟩
  have hsel : ∀ q, q.kind = .inp → Named kd q → ioEnds s q = sel (fun c => c.dst = q) false q.name (builders pairs).zipIdx := by
    intro q hk hq
    rw [ends_inp hok hb hq hk]
    unfold sel
    apply List.flatMap_congr
    intro x _
    simp
  have hqc : ∀ q, q.kind = .inp → Named kd q → ∀ k, k ∈ (ioEnds s q).map End.chan ↔ ∃ c, (builders pairs)[k]? = some c ∧ c.dst = q := by
    intro q hk hq k
    rw [hsel q hk hq]
    constructor
    · intro h
      obtain ⟨e, he, rfl⟩ := List.mem_map.1 h
      obtain ⟨c, h1, h2, _⟩ := (sel_mem _ _ _ _ _).1 he
      exact ⟨c, h1, by simpa using h2⟩
    · rintro ⟨c, h1, h2⟩
      exact List.mem_map.2 ⟨⟨k, false, q.name⟩, (sel_mem _ _ _ _ _).2 ⟨c, h1, by simpa using h2, rfl, rfl⟩, rfl⟩
  have hnd : ∀ q, q.kind = .inp → Named kd q → ((ioEnds s q).map End.chan).Nodup := by
    intro q hk hq
    rw [hsel q hk hq]
    exact (sel_nodup _ _ _ _ _).1
  have hen : ∀ q, q.kind = .inp → Named kd q → ∀ (m : MSt V) (ops : List (Op V)), QInv pairs ops m →
      ((∀ e ∈ ioEnds s q, m.qs e.chan ≠ []) ↔ ∀ p ∈ sources pairs q, (m.got q).length < (sent p ops).length) := by
    intro q hk hq m ops hQ
    have h1 : ∀ k c, (builders pairs)[k]? = some c → c.dst = q → (m.qs k ≠ [] ↔ (m.got q).length < (sent c.src ops).length) := by
      intro k c hc hd
      obtain ⟨a, b⟩ := hQ k c hc (by rw [hd, hk])
      rw [b, hd]
      rw [hd] at a
      rw [Ne, List.drop_eq_nil_iff]
      omega
    constructor
    · intro h p hp
      have hmem : p ∈ ((builders pairs).filter fun c => c.dst = q).map (fun c => c.src) := by
        have := sources_builders hok hk (fun p => p)
        rw [this]
        simpa using hp
      obtain ⟨c, hc, rfl⟩ := List.mem_map.1 hmem
      obtain ⟨hc1, hc2⟩ := List.mem_filter.1 hc
      obtain ⟨k, hk'⟩ := List.mem_iff_getElem?.1 hc1
      have hd : c.dst = q := by simpa using hc2
      have hke : k ∈ (ioEnds s q).map End.chan := (hqc q hk hq k).2 ⟨c, hk', hd⟩
      obtain ⟨e, he, rfl⟩ := List.mem_map.1 hke
      exact (h1 _ c hk' hd).1 (h e he)
    · intro h e he
      obtain ⟨c, hc, hd⟩ := (hqc q hk hq e.chan).1 (List.mem_map.2 ⟨e, he, rfl⟩)
      rw [h1 _ c hc hd]
      apply h
      have hmem : c.src ∈ ((builders pairs).filter fun c => c.dst = q).map (fun c => c.src) :=
        List.mem_map.2 ⟨c, List.mem_filter.2 ⟨List.mem_of_getElem? hc, by simpa using hd⟩, rfl⟩
      rw [sources_builders hok hk (fun p => p)] at hmem
      simpa using hmem
  have main : (∀ o ∈ ops, OpOk kd o) → QInv pairs ops (mRun s (trOf s funcs) ops) ∧
      ∀ q, q.kind = .inp → Named kd q → GInv pairs funcs q ops ((mRun s (trOf s funcs) ops).got q) := by
    induction ops using List.reverseRecOn with
    | nil =>
      intro _
      refine ⟨fun k c _ _ => by simp [mRun, sent], fun q _ _ => ⟨fun p _ => by simp [mRun], by simp [mRun]⟩⟩
    | append_singleton ops o ih =>
      intro hops
      obtain ⟨hQ, hG⟩ := ih (fun o' ho' => hops o' (by simp [ho']))
      have ho := hops o (by simp)
      have hrun : mRun s (trOf s funcs) (ops ++ [o]) = mStep s (trOf s funcs) (mRun s (trOf s funcs) ops) o := by
        simp [mRun]
      rw [hrun]
      generalize mRun s (trOf s funcs) ops = m at *
      cases o with
      | send p v =>
        obtain ⟨hk, hp⟩ := ho
        have hs : ioEnds s p = sel (fun c => c.src = p) true p.name (builders pairs).zipIdx := by
          rw [ends_out hok hb hp hk]
          unfold sel
          apply List.flatMap_congr
          intro x _
          simp
        constructor
        · intro k c hc hd
          obtain ⟨a, b⟩ := hQ k c hc hd
          have hmem : k ∈ (ioEnds s p).map End.chan ↔ c.src = p := by
            rw [hs]
            constructor
            · intro h
              obtain ⟨e, he, rfl⟩ := List.mem_map.1 h
              obtain ⟨c', h1, h2, _⟩ := (sel_mem _ _ _ _ _).1 he
              rw [hc] at h1
              simp only [Option.some.injEq] at h1
              rw [h1]; simpa using h2
            · intro h
              exact List.mem_map.2 ⟨⟨k, true, p.name⟩, (sel_mem _ _ _ _ _).2 ⟨c, hc, by simpa using h, rfl, rfl⟩, rfl⟩
          have hq' : (mStep s (trOf s funcs) m (.send p v)).qs k = if k ∈ (ioEnds s p).map End.chan then m.qs k ++ [v] else m.qs k := by
            show sendAll v (ioEnds s p) m.qs k = _
            rw [sendAll_get v _ _ (by rw [hs]; exact (sel_nodup _ _ _ _ _).1)]
          rw [sent_append]
          by_cases hsp : c.src = p
          · have e1 : sent c.src [Op.send p v] = [v] := by simp [sent, hsp]
            rw [hq', if_pos (hmem.2 hsp), e1]
            refine ⟨by rw [List.length_append]; exact Nat.le_add_right_of_le a, ?_⟩
            rw [b]
            exact (List.drop_append_of_le_length a).symm
          · have e1 : sent c.src [Op.send p v] = [] := by
              have : ¬ p = c.src := fun h => hsp h.symm
              simp [sent, this]
            rw [hq', if_neg (fun h => hsp (hmem.1 h)), e1, List.append_nil]
            exact ⟨a, b⟩
        · intro q hkq hq
          exact GInv_grow funcs (hG q hkq hq) _
      | recv q =>
        obtain ⟨hk, hq⟩ := ho
        have hsent : ∀ p, sent p (ops ++ [Op.recv q]) = sent p ops := by
          intro p; rw [sent_append]; simp [sent]
        have hrec := recvAll_get (trOf s funcs q) (ioEnds s q) 0 m.qs (hnd q hk hq)
        by_cases hall : ∀ e ∈ ioEnds s q, m.qs e.chan ≠ []
        · rw [if_pos hall] at hrec
          have hst : mStep s (trOf s funcs) m (.recv q) = MSt.mk (fun k => if k ∈ (ioEnds s q).map End.chan then (m.qs k).tail else m.qs k)
              (fun r => if r = q then m.got r ++ [((ioEnds s q).map fun e => trOf s funcs q e ((m.qs e.chan).head?.getD default)).foldl (· + ·) 0] else m.got r) := by
            simp only [mStep, hrec]
          have hlt := (hen q hk hq m ops hQ).1 hall
          rw [hst]
          constructor
          · intro k c hc hd
            obtain ⟨a, b⟩ := hQ k c hc hd
            rw [hsent]
            simp only
            by_cases hcq : c.dst = q
            · have hkm := (hqc q hk hq k).2 ⟨c, hc, hcq⟩
              obtain ⟨e, he, hek⟩ := List.mem_map.1 hkm
              have hne := hall e he
              rw [hek, b, Ne, List.drop_eq_nil_iff] at hne
              rw [if_pos hkm, if_pos hcq, b, List.length_append, List.length_singleton, List.tail_drop]
              exact ⟨by omega, rfl⟩
            · have hkm : ¬ k ∈ (ioEnds s q).map End.chan := by
                intro h
                obtain ⟨c', h1, h2⟩ := (hqc q hk hq k).1 h
                rw [hc] at h1
                simp only [Option.some.injEq] at h1
                rw [h1] at hcq
                exact hcq h2
              rw [if_neg hkm, if_neg hcq]
              exact ⟨a, b⟩
          · intro q' hk' hq'
            simp only
            by_cases hqq : q' = q
            · subst hqq
              rw [if_pos rfl]
              obtain ⟨h1, h2⟩ := hG q' hk hq
              refine ⟨fun p hp => by rw [hsent, List.length_append, List.length_singleton]; exact hlt p hp, ?_⟩
              rw [List.length_append, List.length_singleton, List.range_succ, List.map_append]
              congr 1
              · conv_lhs => rw [h2]
                apply List.map_congr_left
                intro t _
                simp only [hsent]
              · simp only [List.map_cons, List.map_nil, List.cons.injEq, and_true, hsent]
                rw [← List.sum_eq_foldl, hsel q' hk hq]
                rw [sel_map (fun c => c.dst = q') false q'.name (fun e => trOf s funcs q' e ((m.qs e.chan).head?.getD default))
                  (fun c => transform funcs c.src q' ((sent c.src ops).getD (m.got q').length 0)) (builders pairs) 0]
                · rw [sources_builders hok hk (fun p => transform funcs p q' ((sent p ops).getD (m.got q').length 0))]
                · intro i c hi hP
                  have hd : c.dst = q' := by simpa using hP
                  rw [Nat.zero_add]
                  simp only
                  obtain ⟨a, b⟩ := hQ i c hi (by rw [hd, hk])
                  rw [trOf_eq hok hb funcs hq hi hd, b, hd, List.head?_drop, List.getD_eq_getElem?_getD]
                  rfl
            · rw [if_neg hqq]
              exact GInv_grow funcs (hG q' hk' hq') _
        · rw [if_neg hall] at hrec
          have hst : mStep s (trOf s funcs) m (.recv q) = m := by simp only [mStep, hrec]
          rw [hst]
          refine ⟨fun k c hc hd => by rw [hsent]; exact hQ k c hc hd, fun q' hk' hq' => GInv_grow funcs (hG q' hk' hq') _⟩
  intro hops
  obtain ⟨hQ, hG⟩ := main hops
  refine ⟨hQ, hG, ?_⟩
  intro q hk hq
  rw [← hen q hk hq _ ops hQ, recvAll_get _ _ _ _ (hnd q hk hq)]
  split
  · rename_i h; simp only [Option.isSome_some, true_iff]; exact h
  · rename_i h; simp [h]

/-- **C88.** For every network and every history of sends and receives of all process models: the `t`-th value received on an InPort is the sum of the `t`-th values
sent on the OutPorts connected to it, each transformed by the virtual ports between the two, and nothing is received before all of them have sent. -/
theorem C88_messages (hok : Ok kd pairs) {has : Nat → String → Bool} {s : Builders} (hb : buildChannels has pairs = some s)
    (funcs : Port → List (List Char × List (V → V))) (ops : List (Op V)) (hops : ∀ o ∈ ops, OpOk kd o) (q : Port) (hk : q.kind = .inp) (hq : Named kd q) :
    let got := (mRun s (trOf s funcs) ops).got q
    (∀ p ∈ sources pairs q, got.length ≤ (sent p ops).length) ∧
      ∀ t, t < got.length → got[t]? = some (((sources pairs q).map fun p => transform funcs p q ((sent p ops).getD t 0)).sum) := by
  obtain ⟨h1, h2⟩ := (run_inv hok hb funcs ops hops).2.1 q hk hq
  refine ⟨h1, ?_⟩
  intro t ht
  rw [h2, List.getElem?_map, List.getElem?_range ht]
  rfl

/-- **C88.** A receive returns as soon as every connected OutPort has sent its next value, whatever all the other ports did. -/
theorem C88_receive_enabled (hok : Ok kd pairs) {has : Nat → String → Bool} {s : Builders} (hb : buildChannels has pairs = some s)
    (funcs : Port → List (List Char × List (V → V))) (ops : List (Op V)) (hops : ∀ o ∈ ops, OpOk kd o) (q : Port) (hk : q.kind = .inp) (hq : Named kd q) :
    ((mRun s (trOf s funcs) (ops ++ [.recv q])).got q).length =
      ((mRun s (trOf s funcs) ops).got q).length + if ∀ p ∈ sources pairs q, ((mRun s (trOf s funcs) ops).got q).length < (sent p ops).length then 1 else 0 := by
  have h := (run_inv hok hb funcs ops hops).2.2 q hk hq
  have hrun : mRun s (trOf s funcs) (ops ++ [.recv q]) = mStep s (trOf s funcs) (mRun s (trOf s funcs) ops) (.recv q) := by
    simp [mRun]
  rw [hrun]
  generalize mRun s (trOf s funcs) ops = m at *
  cases hr : recvAll (trOf s funcs q) (ioEnds s q) 0 m.qs with
  | none =>
    rw [hr] at h
    have : ¬ ∀ p ∈ sources pairs q, (m.got q).length < (sent p ops).length := fun hh => by simpa using h.2 hh
    rw [if_neg this]
    simp only [mStep, hr, Nat.add_zero]
  | some x =>
    rw [hr] at h
    rw [if_pos (h.1 rfl)]
    simp only [mStep, hr, if_true, List.length_append, List.length_singleton]

end

/-! ## C88: building succeeds, channels are private -/

section
variable {kd : Nat → String → PKind} {pairs : List (Port × Port)}

/-- **C88.** Wiring succeeds exactly if the process models have an attribute for every connected port. -/
theorem C88_built_iff (has : Nat → String → Bool) : (∃ s, buildChannels has pairs = some s) ↔
    ∀ x ∈ pairs, has x.1.proc x.1.name = true ∧ has x.2.proc x.2.name = true := by
  unfold buildChannels
  rw [buildFrom_ok_iff]
  constructor
  · intro h x hx
    exact h ⟨x.1, x.2⟩ (builders_mem.2 (Or.inl hx))
  · intro h c hc
    rcases builders_mem.1 hc with h1 | ⟨_, h1⟩
    · exact h _ h1
    · exact (h _ h1).symm

/-- **C88.** No channel end is shared: an end handed to two ports means they are one port. -/
theorem C88_private (hok : Ok kd pairs) {has : Nat → String → Bool} {s : Builders} (hb : buildChannels has pairs = some s) {p q : Port} (hp : Named kd p)
    (hq : Named kd q) {e e' : End} (h1 : e ∈ ioEnds s p) (h2 : e' ∈ ioEnds s q) (hc : e.chan = e'.chan) (hs : e.send = e'.send) : p = q := by
  have key : ∀ {p : Port} {e : End}, Named kd p → e ∈ ioEnds s p → ∃ c, (builders pairs)[e.chan]? = some c ∧ (if e.send then c.src = p else c.dst = p) := by
    intro p e hp he
    rw [ends_exact hok hb hp, List.mem_flatMap] at he
    obtain ⟨⟨c, k⟩, hz, he⟩ := he
    have hz' := List.mem_zipIdx_iff_getElem?.1 hz
    rcases List.mem_append.1 he with h | h
    · split at h
      · rename_i hcs
        simp only [List.mem_singleton] at h
        subst h
        exact ⟨c, hz', by simpa using hcs⟩
      · simp at h
    · split at h
      · rename_i hcs
        simp only [List.mem_singleton] at h
        subst h
        exact ⟨c, hz', by simpa using hcs⟩
      · simp at h
  obtain ⟨c1, a1, b1⟩ := key hp h1
  obtain ⟨c2, a2, b2⟩ := key hq h2
  rw [hc, a2] at a1
  simp only [Option.some.injEq] at a1
  subst a1
  rw [hs] at b1
  split at b1 <;> split at b2 <;> simp_all

/-! ## C88: RefPorts and VarPorts -/

theorem builders_append (a b : List (Port × Port)) : builders (a ++ b) = builders a ++ builders b := by
  unfold builders
  rw [List.flatMap_append]

/-- Ends of a port that no earlier connection mentions. -/
theorem first_ends (hok : Ok kd pairs) {has : Nat → String → Bool} {s : Builders} (hb : buildChannels has pairs = some s) {A B : List (Port × Port)} {r v : Port}
    (hpairs : pairs = A ++ (r, v) :: B) (hv : v.kind = .var) :
    ((∀ x ∈ A, x.1 ≠ r ∧ x.2 ≠ r) → rvEnds s r = some (⟨(builders A).length, true, r.name⟩, ⟨(builders A).length + 1, false, r.name⟩)) ∧
    ((∀ x ∈ A, x.1 ≠ v ∧ x.2 ≠ v) → rvEnds s v = some (⟨(builders A).length + 1, true, v.name⟩, ⟨(builders A).length, false, v.name⟩)) := by
  have hrv : (r, v) ∈ pairs := by rw [hpairs]; simp
  have hn := hok.named _ hrv
  have hkk := hok.kinds _ hrv
  simp only at hn hkk
  have hne : r ≠ v := by
    intro h
    rw [h, hv] at hkk
    simp at hkk
  have hcs : builders pairs = builders A ++ (⟨r, v⟩ :: ⟨v, r⟩ :: builders B) := by
    rw [hpairs, builders_append]
    congr 1
    simp [builders, hv]
  have hA : ∀ p : Port, (∀ x ∈ A, x.1 ≠ p ∧ x.2 ≠ p) → ∀ x ∈ (builders A).zipIdx,
      (if x.1.src = p then [(⟨x.2, true, p.name⟩ : End)] else []) ++ (if x.1.dst = p then [⟨x.2, false, p.name⟩] else []) = [] := by
    intro p hp x hx
    have hc : x.1 ∈ builders A := List.fst_mem_of_mem_zipIdx hx
    rcases builders_mem.1 hc with h | ⟨_, h⟩
    · have := hp _ h
      rw [if_neg this.1, if_neg this.2]; rfl
    · have := hp _ h
      rw [if_neg this.2, if_neg this.1]; rfl
  have hends : ∀ p : Port, Named kd p → (∀ x ∈ A, x.1 ≠ p ∧ x.2 ≠ p) → ∃ rest, ioEnds s p =
      ((if r = p then [(⟨(builders A).length, true, p.name⟩ : End)] else []) ++ (if v = p then [⟨(builders A).length, false, p.name⟩] else [])) ++
      (((if v = p then [(⟨(builders A).length + 1, true, p.name⟩ : End)] else []) ++ (if r = p then [⟨(builders A).length + 1, false, p.name⟩] else [])) ++ rest) := by
    intro p hp hpA
    rw [ends_exact hok hb hp, hcs, List.zipIdx_append, List.flatMap_append, List.flatMap_eq_nil_iff.2 (hA p hpA), List.nil_append, Nat.zero_add, List.zipIdx_cons,
      List.zipIdx_cons, List.flatMap_cons, List.flatMap_cons]
    exact ⟨_, rfl⟩
  constructor
  · intro h
    obtain ⟨rest, he⟩ := hends r hn.1 h
    have hvr : ¬ v = r := fun h => hne h.symm
    simp only [if_true, hvr, if_false, List.nil_append, List.append_nil, List.cons_append] at he
    have hd : dictGet r.name (s r.proc).csp = some (⟨(builders A).length, true, r.name⟩ :: ⟨(builders A).length + 1, false, r.name⟩ :: rest) := by
      unfold ioEnds at he
      cases hg : dictGet r.name (s r.proc).csp with
      | none => rw [hg] at he; simp at he
      | some l => rw [hg] at he; simpa using he
    unfold rvEnds
    rw [hd]
    rfl
  · intro h
    obtain ⟨rest, he⟩ := hends v hn.2 h
    simp only [if_true, hne, if_false, List.nil_append, List.append_nil, List.cons_append] at he
    have hd : dictGet v.name (s v.proc).csp = some (⟨(builders A).length, false, v.name⟩ :: ⟨(builders A).length + 1, true, v.name⟩ :: rest) := by
      unfold ioEnds at he
      cases hg : dictGet v.name (s v.proc).csp with
      | none => rw [hg] at he; simp at he
      | some l => rw [hg] at he; simpa using he
    unfold rvEnds
    rw [hd]
    rfl

/-- **C88.** RefPort and VarPort that are connected to nobody else: the RefPort's requests arrive at its VarPort and the answers come back, on two channels. -/
theorem C88_ref_var (hok : Ok kd pairs) {has : Nat → String → Bool} {s : Builders} (hb : buildChannels has pairs = some s) {r v : Port} (h : (r, v) ∈ pairs)
    (hv : v.kind = .var) (h1 : ∀ x ∈ pairs, x.1 = r → x = (r, v)) (h2 : ∀ x ∈ pairs, x.2 = v → x = (r, v)) :
    ∃ a b, a ≠ b ∧ rvEnds s r = some (⟨a, true, r.name⟩, ⟨b, false, r.name⟩) ∧ rvEnds s v = some (⟨b, true, v.name⟩, ⟨a, false, v.name⟩) := by
  obtain ⟨A, B, hAB⟩ := List.append_of_mem h
  have hnd := hok.nodup
  rw [hAB] at hnd
  have hA : (r, v) ∉ A := by
    have := List.nodup_append.1 hnd
    intro hm
    exact this.2.2 _ hm _ (by simp) rfl
  have hk := hok.kinds _ h
  simp only [hv] at hk
  have hr : r.kind = .ref := by simpa using hk
  have hsub : ∀ x ∈ A, x ∈ pairs := fun x hx => by rw [hAB]; simp [hx]
  obtain ⟨f1, f2⟩ := first_ends hok hb hAB hv
  refine ⟨(builders A).length, (builders A).length + 1, by omega, f1 ?_, f2 ?_⟩
  · intro x hx
    refine ⟨fun e => hA (by rw [← h1 x (hsub x hx) e]; exact hx), fun e => ?_⟩
    have := hok.kinds x (hsub x hx)
    rw [e, hr] at this
    simp at this
  · intro x hx
    refine ⟨fun e => ?_, fun e => hA (by rw [← h2 x (hsub x hx) e]; exact hx)⟩
    have := hok.kinds x (hsub x hx)
    rw [e, hv] at this
    simp at this

end

/-! ## Findings and examples -/

def exKd : Nat → String → PKind
  | 0, "s_out" => .out
  | 1, "s_out" => .out
  | 2, "s_in" => .inp
  | 0, "ref" => .ref
  | 1, "ref" => .ref
  | _, _ => .var

def exA : Port := ⟨0, "s_out", .out⟩
def exB : Port := ⟨1, "s_out", .out⟩
def exIn : Port := ⟨2, "s_in", .inp⟩
def exR0 : Port := ⟨0, "ref", .ref⟩
def exR1 : Port := ⟨1, "ref", .ref⟩
def exV : Port := ⟨2, "var", .var⟩

/-- A network with fan-in and a RefPort. -/
def exPairs : List (Port × Port) := [(exA, exIn), (exR0, exV), (exB, exIn)]

theorem exPairs_ok : Ok exKd exPairs := by
  refine ⟨by decide, ?_, ?_⟩ <;> decide

/-- The hypotheses are met, and the sums arrive. -/
theorem C88_example : Ok exKd exPairs ∧
    ((buildChannels (fun _ _ => true) exPairs).map fun s =>
      ((mRun s (trOf s (fun _ => [])) [.send exA (3 : Int), .send exA 4, .recv exIn, .send exB 10, .recv exIn, .recv exIn]).got exIn,
        (rvEnds s exR0).map fun x => (x.1.chan, x.2.chan), (rvEnds s exV).map fun x => (x.1.chan, x.2.chan))) = some ([13], some (1, 2), some (2, 1)) :=
  ⟨exPairs_ok, by decide +kernel⟩

/-- **C88, finding.** If two RefPorts refer to one VarPort, the VarPort serves only the first: it holds no end of the channels of the second, whose reads block. -/
theorem C88_witness_second_ref_port_unserved :
    ((buildChannels (fun _ _ => true) [(exR0, exV), (exR1, exV)]).map fun s =>
      ((rvEnds s exR1).map fun x => (x.1.chan, x.2.chan), (rvEnds s exV).map fun x => (x.2.chan, x.1.chan))) = some (some (2, 3), some (0, 1)) := by
  decide +kernel

/-- **C88, finding.** A sparse InPort reads the first of its channels only: with two connected OutPorts the second is never read. -/
theorem C88_witness_sparse_fan_in_ignored :
    ((buildChannels (fun _ _ => true) exPairs).map fun s => ((ioEnds s exIn).map End.chan, (sparseSources s exIn).map End.chan)) = some ([0, 3], [0]) := by
  decide +kernel

end Verif.Wiring
