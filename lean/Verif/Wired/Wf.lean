import Verif.Wired.Lemmas

/-!
# The built network is well formed
-/

namespace Verif.Wired

open Verif.Wiring (Port End Builders CB ioEnds trOf builders sel buildChannels PKind)
open Verif.System (Op Precedes)
open Spec

variable {S V W : Type} [Add V] [Zero V]

/-! ## Channels and connections -/

omit [Add V] [Zero V] in
theorem regular_ok {n : Nat} {pm : Nat → PM S V W} {conns : List (Port × Port)} {kd : Nat → String → PKind} (hr : Regular n pm conns kd) :
    Wiring.Spec.Ok kd conns where
  nodup := hr.nodup
  named := by
    rintro ⟨o, q⟩ hx
    obtain ⟨h1, h2, _, _, h5, h6⟩ := hr.conn o q hx
    exact ⟨by rw [h1, hr.sends _ _ h5], by rw [h2, hr.recvs _ _ h6]⟩
  kinds := by
    rintro ⟨o, q⟩ hx
    obtain ⟨h1, h2, _⟩ := hr.conn o q hx
    exact Or.inl ⟨h1, h2⟩

omit [Add V] [Zero V] in
theorem builders_plain {n : Nat} {pm : Nat → PM S V W} {conns : List (Port × Port)} {kd : Nat → String → PKind} (hr : Regular n pm conns kd) :
    builders conns = conns.map fun x => (⟨x.1, x.2⟩ : CB) := by
  have h : ∀ x ∈ conns, x.2.kind ≠ .var := by
    rintro ⟨o, q⟩ hx
    obtain ⟨_, h2, _⟩ := hr.conn o q hx
    show q.kind ≠ _
    rw [h2]; simp
  clear hr
  unfold builders
  induction conns with
  | nil => rfl
  | cons x l ih =>
    rw [List.flatMap_cons, ih (fun y hy => h y (List.mem_cons_of_mem _ hy)), if_neg (h x List.mem_cons_self)]
    rfl

omit [Add V] [Zero V] in
theorem chan_iff {n : Nat} {pm : Nat → PM S V W} {conns : List (Port × Port)} {kd : Nat → String → PKind} (hr : Regular n pm conns kd) {k : Nat} {c : CB} :
    (builders conns)[k]? = some c ↔ conns[k]? = some (c.src, c.dst) := by
  rw [builders_plain hr, List.getElem?_map]
  cases conns[k]? with
  | none => simp
  | some x =>
    simp only [Option.map_some, Option.some.injEq]
    constructor
    · rintro rfl; rfl
    · rintro rfl; rfl

section
variable {n : Nat} {pm : Nat → PM S V W} {conns : List (Port × Port)} {kd : Nat → String → PKind} {has : Nat → String → Bool} {b : Builders}

omit [Add V] [Zero V] in
theorem ends_out_sel (hr : Regular n pm conns kd) (hb : buildChannels has conns = some b) {p : Nat} {y : String} (hy : POp.send y ∈ (pm p).ops) :
    ioEnds b ⟨p, y, .out⟩ = sel (fun c => c.src = ⟨p, y, .out⟩) true y (builders conns).zipIdx := by
  rw [Wiring.ends_out (regular_ok hr) hb (p := ⟨p, y, .out⟩) (hr.sends p y hy).symm rfl]
  unfold sel
  simp

omit [Add V] [Zero V] in
theorem ends_inp_sel (hr : Regular n pm conns kd) (hb : buildChannels has conns = some b) {p : Nat} {x : String} (hx : POp.recv x ∈ (pm p).ops) :
    ioEnds b ⟨p, x, .inp⟩ = sel (fun c => c.dst = ⟨p, x, .inp⟩) false x (builders conns).zipIdx := by
  rw [Wiring.ends_inp (regular_ok hr) hb (q := ⟨p, x, .inp⟩) (hr.recvs p x hx).symm rfl]
  unfold sel
  simp

omit [Add V] [Zero V] in
/-- Ends of an OutPort: one for each of its connections. -/
theorem mem_ends_out (hr : Regular n pm conns kd) (hb : buildChannels has conns = some b) {p : Nat} {y : String} (hy : POp.send y ∈ (pm p).ops) (e : End) :
    e ∈ ioEnds b ⟨p, y, .out⟩ ↔ e.send = true ∧ e.name = y ∧ ∃ q, conns[e.chan]? = some (⟨p, y, .out⟩, q) := by
  rw [ends_out_sel hr hb hy, Wiring.sel_mem]
  constructor
  · rintro ⟨c, h1, h2, h3, h4⟩
    refine ⟨h3, h4, c.dst, ?_⟩
    rw [(chan_iff hr).1 h1, of_decide_eq_true h2]
  · rintro ⟨h1, h2, q, h3⟩
    exact ⟨⟨⟨p, y, .out⟩, q⟩, (chan_iff hr).2 h3, by simp, h1, h2⟩

omit [Add V] [Zero V] in
theorem mem_ends_inp (hr : Regular n pm conns kd) (hb : buildChannels has conns = some b) {p : Nat} {x : String} (hx : POp.recv x ∈ (pm p).ops) (e : End) :
    e ∈ ioEnds b ⟨p, x, .inp⟩ ↔ e.send = false ∧ e.name = x ∧ ∃ o, conns[e.chan]? = some (o, ⟨p, x, .inp⟩) := by
  rw [ends_inp_sel hr hb hx, Wiring.sel_mem]
  constructor
  · rintro ⟨c, h1, h2, h3, h4⟩
    refine ⟨h3, h4, c.src, ?_⟩
    rw [(chan_iff hr).1 h1, of_decide_eq_true h2]
  · rintro ⟨h1, h2, q, h3⟩
    exact ⟨⟨q, ⟨p, x, .inp⟩⟩, (chan_iff hr).2 h3, by simp, h1, h2⟩

omit [Add V] [Zero V] in
theorem nodup_ends_out (hr : Regular n pm conns kd) (hb : buildChannels has conns = some b) {p : Nat} {y : String} (hy : POp.send y ∈ (pm p).ops) :
    ((ioEnds b ⟨p, y, .out⟩).map End.chan).Nodup := by
  rw [ends_out_sel hr hb hy]
  exact (Wiring.sel_nodup _ _ _ _ 0).1

omit [Add V] [Zero V] in
theorem nodup_ends_inp (hr : Regular n pm conns kd) (hb : buildChannels has conns = some b) {p : Nat} {x : String} (hx : POp.recv x ∈ (pm p).ops) :
    ((ioEnds b ⟨p, x, .inp⟩).map End.chan).Nodup := by
  rw [ends_inp_sel hr hb hx]
  exact (Wiring.sel_nodup _ _ _ _ 0).1

/-! ## Bodies -/

/-- Channel operations of a port operation. -/
def piece (b : Builders) (p : Nat) (o : POp) : List Op := (unfoldOp b p o).flatMap chanOp

theorem piece_recv (b : Builders) (p : Nat) (x : String) : piece b p (.recv x) = (ioEnds b ⟨p, x, .inp⟩).map fun e => .rcv e.chan := by
  unfold piece unfoldOp
  rw [List.flatMap_append, List.flatMap_cons, List.flatMap_map]
  simp only [chanOp, List.nil_append, List.flatMap_cons, List.flatMap_nil, List.append_nil]
  induction ioEnds b ⟨p, x, .inp⟩ with
  | nil => rfl
  | cons e es ih => simp [List.flatMap_cons, ih]

theorem piece_send (b : Builders) (p : Nat) (y : String) : piece b p (.send y) = (ioEnds b ⟨p, y, .out⟩).map fun e => .snd e.chan := by
  unfold piece unfoldOp
  rw [List.flatMap_map]
  simp only [chanOp]
  induction ioEnds b ⟨p, y, .out⟩ with
  | nil => rfl
  | cons e es ih => simp [List.flatMap_cons, ih]

theorem body_pieces (x : Platform S V W) (b : Builders) (funcs : Port → List (List Char × List (V → V))) (p : Nat) :
    (sys x b funcs).body p = (x.pm p).ops.flatMap (piece b p) := by
  show (micros b p (x.pm p).ops).flatMap chanOp = _
  unfold micros
  rw [List.flatMap_assoc]
  rfl

omit [Add V] [Zero V] in
theorem mem_piece_snd (hr : Regular n pm conns kd) (hb : buildChannels has conns = some b) {p : Nat} {o : POp} (ho : o ∈ (pm p).ops) (c : Nat) :
    Op.snd c ∈ piece b p o ↔ ∃ y q, o = .send y ∧ conns[c]? = some (⟨p, y, .out⟩, q) := by
  cases o with
  | recv x => rw [piece_recv]; simp
  | send y =>
    rw [piece_send, List.mem_map]
    constructor
    · rintro ⟨e, he, h⟩
      obtain ⟨_, _, q, hq⟩ := (mem_ends_out hr hb ho e).1 he
      simp only [Op.snd.injEq] at h
      rw [h] at hq
      exact ⟨y, q, rfl, hq⟩
    · rintro ⟨y', q, h, hq⟩
      cases h
      exact ⟨⟨c, true, y⟩, (mem_ends_out hr hb ho _).2 ⟨rfl, rfl, q, hq⟩, rfl⟩

omit [Add V] [Zero V] in
theorem mem_piece_rcv (hr : Regular n pm conns kd) (hb : buildChannels has conns = some b) {p : Nat} {o : POp} (ho : o ∈ (pm p).ops) (c : Nat) :
    Op.rcv c ∈ piece b p o ↔ ∃ x q, o = .recv x ∧ conns[c]? = some (q, ⟨p, x, .inp⟩) := by
  cases o with
  | send x => rw [piece_send]; simp
  | recv y =>
    rw [piece_recv, List.mem_map]
    constructor
    · rintro ⟨e, he, h⟩
      obtain ⟨_, _, q, hq⟩ := (mem_ends_inp hr hb ho e).1 he
      simp only [Op.rcv.injEq] at h
      rw [h] at hq
      exact ⟨y, q, rfl, hq⟩
    · rintro ⟨y', q, h, hq⟩
      cases h
      exact ⟨⟨c, false, y⟩, (mem_ends_inp hr hb ho _).2 ⟨rfl, rfl, q, hq⟩, rfl⟩

omit [Add V] [Zero V] in
theorem pieces_nodup (hr : Regular n pm conns kd) (hb : buildChannels has conns = some b) (p : Nat) : ((pm p).ops.flatMap (piece b p)).Nodup := by
  rw [List.nodup_flatMap]
  constructor
  · intro o ho
    cases o with
    | recv x =>
      rw [piece_recv]
      have := nodup_ends_inp hr hb ho
      refine List.Nodup.of_map (fun o : Op => match o with | .rcv c => c | .snd c => c) ?_
      rw [List.map_map]
      exact this
    | send x =>
      rw [piece_send]
      have := nodup_ends_out hr hb ho
      refine List.Nodup.of_map (fun o : Op => match o with | .rcv c => c | .snd c => c) ?_
      rw [List.map_map]
      exact this
  · refine List.Pairwise.imp_of_mem ?_ (hr.once p)
    intro o o' ho ho' hne c h1 h2
    apply hne
    cases c with
    | snd c =>
      obtain ⟨y, q, e1, e2⟩ := (mem_piece_snd hr hb ho c).1 h1
      obtain ⟨y', q', e1', e2'⟩ := (mem_piece_snd hr hb ho' c).1 h2
      rw [e2] at e2'
      simp only [Option.some.injEq, Prod.mk.injEq, Port.mk.injEq] at e2'
      rw [e1, e1', e2'.1.2.1]
    | rcv c =>
      obtain ⟨y, q, e1, e2⟩ := (mem_piece_rcv hr hb ho c).1 h1
      obtain ⟨y', q', e1', e2'⟩ := (mem_piece_rcv hr hb ho' c).1 h2
      rw [e2] at e2'
      simp only [Option.some.injEq, Prod.mk.injEq, Port.mk.injEq] at e2'
      rw [e1, e1', e2'.2.2.1]

end

/-- Sender and receiver of a channel. -/
def srcOf (conns : List (Port × Port)) (c : Nat) : Nat := (conns[c]?.map fun x => x.1.proc).getD 0
def dstOf (conns : List (Port × Port)) (c : Nat) : Nat := (conns[c]?.map fun x => x.2.proc).getD 0

variable {x : Platform S V W} {conns : List (Port × Port)} {kd : Nat → String → PKind} {has : Nat → String → Bool} {b : Builders}
  (funcs : Port → List (List Char × List (V → V)))

theorem snd_body (hr : Regular x.n x.pm conns kd) (hb : buildChannels has conns = some b) (p c : Nat) : Op.snd c ∈ (sys x b funcs).body p ↔
    ∃ y q, POp.send y ∈ (x.pm p).ops ∧ conns[c]? = some (⟨p, y, .out⟩, q) := by
  rw [body_pieces, List.mem_flatMap]
  constructor
  · rintro ⟨o, ho, h⟩
    obtain ⟨y, q, rfl, h2⟩ := (mem_piece_snd hr hb ho c).1 h
    exact ⟨y, q, ho, h2⟩
  · rintro ⟨y, q, ho, h⟩
    exact ⟨_, ho, (mem_piece_snd hr hb ho c).2 ⟨y, q, rfl, h⟩⟩

theorem rcv_body (hr : Regular x.n x.pm conns kd) (hb : buildChannels has conns = some b) (p c : Nat) : Op.rcv c ∈ (sys x b funcs).body p ↔
    ∃ y q, POp.recv y ∈ (x.pm p).ops ∧ conns[c]? = some (q, ⟨p, y, .inp⟩) := by
  rw [body_pieces, List.mem_flatMap]
  constructor
  · rintro ⟨o, ho, h⟩
    obtain ⟨y, q, rfl, h2⟩ := (mem_piece_rcv hr hb ho c).1 h
    exact ⟨y, q, ho, h2⟩
  · rintro ⟨y, q, ho, h⟩
    exact ⟨_, ho, (mem_piece_rcv hr hb ho c).2 ⟨y, q, rfl, h⟩⟩

theorem wf (hr : Regular x.n x.pm conns kd) (hb : buildChannels has conns = some b) (hh : Hosted x) :
    EndToEnd.WF (sys x b funcs) (srcOf conns) (dstOf conns) where
  nodup p := by rw [body_pieces]; exact pieces_nodup hr hb p
  snd p c hp hc := by
    obtain ⟨y, q, _, h⟩ := (snd_body funcs hr hb p c).1 hc
    obtain ⟨_, h2, _, h4, _, h6⟩ := hr.conn _ _ (List.mem_of_getElem? h)
    refine ⟨by simp [srcOf, h], by show dstOf conns c < x.n; simpa [dstOf, h] using h4, ?_⟩
    rw [rcv_body funcs hr hb]
    obtain ⟨a, d, e⟩ := q
    simp only at h2 h6
    subst h2
    refine ⟨d, ⟨p, y, .out⟩, ?_, ?_⟩
    · simpa [dstOf, h] using h6
    · rw [h]; simp [dstOf, h]
  rcv p c hp hc := by
    obtain ⟨y, q, _, h⟩ := (rcv_body funcs hr hb p c).1 hc
    obtain ⟨h1, _, h3, _, h5, _⟩ := hr.conn _ _ (List.mem_of_getElem? h)
    refine ⟨by simp [dstOf, h], by show srcOf conns c < x.n; simpa [srcOf, h] using h3, ?_⟩
    rw [snd_body funcs hr hb]
    obtain ⟨a, d, e⟩ := q
    simp only at h1 h5
    subst h1
    refine ⟨d, ⟨p, y, .inp⟩, ?_, ?_⟩
    · simpa [srcOf, h] using h5
    · rw [h]; simp [srcOf, h]
  cap := hh.cap
  svc := hh.svc
  pms := hh.pms

theorem before_of_precedes (hr : Regular x.n x.pm conns kd) (hb : buildChannels has conns = some b) {p c c' : Nat}
    (h : Precedes ((sys x b funcs).body p) (.rcv c') (.snd c)) : ∃ n y o q, Before (x.pm p) n y ∧ conns[c']? = some (o, ⟨p, n, .inp⟩) ∧
      conns[c]? = some (⟨p, y, .out⟩, q) := by
  obtain ⟨X, Y, Z, h⟩ := h
  rw [body_pieces] at h
  obtain ⟨l, o, r, X', R', e1, e2, _, e4⟩ := flatMap_split _ _ _ _ _ h
  have ho : o ∈ (x.pm p).ops := by rw [e1]; simp
  obtain ⟨n, o', rfl, hc'⟩ := (mem_piece_rcv hr hb ho c').1 (by rw [e2]; simp)
  have hs : Op.snd c ∈ R' ++ r.flatMap (piece b p) := by rw [← e4]; simp
  rcases List.mem_append.1 hs with hs | hs
  · exfalso
    have : Op.snd c ∈ piece b p (.recv n) := by rw [e2]; simp [hs]
    obtain ⟨_, _, h', _⟩ := (mem_piece_snd hr hb ho c).1 this
    cases h'
  · obtain ⟨o2, ho2, hs⟩ := List.mem_flatMap.1 hs
    have ho2' : o2 ∈ (x.pm p).ops := by rw [e1]; simp [ho2]
    obtain ⟨y, q, rfl, hc⟩ := (mem_piece_snd hr hb ho2' c).1 hs
    obtain ⟨r1, r2, e5⟩ := List.append_of_mem ho2
    exact ⟨n, y, o', q, ⟨l, r1, r2, by rw [e1, e5]⟩, hc', hc⟩

theorem noCircle (hr : Regular x.n x.pm conns kd) (hb : buildChannels has conns = some b) (hc : Spec.NoCircle x.pm conns) :
    EndToEnd.NoCircle (sys x b funcs) (srcOf conns) := by
  rintro ⟨K, ⟨c0, hc0⟩, hK⟩
  apply hc
  have key : ∀ c, K c → ∃ o q, conns[c]? = some (o, q) ∧ o.proc = srcOf conns c := by
    intro c hk
    obtain ⟨_, h2, _⟩ := hK c hk
    obtain ⟨y, q, _, h⟩ := (snd_body funcs hr hb _ c).1 h2
    exact ⟨_, q, h, rfl⟩
  refine ⟨fun z => ∃ c, K c ∧ conns[c]? = some z, ?_, ?_⟩
  · obtain ⟨o, q, h, _⟩ := key c0 hc0
    exact ⟨_, c0, hc0, h⟩
  · rintro ⟨o, q⟩ ⟨c, hk, hcq⟩
    refine ⟨List.mem_of_getElem? hcq, ?_⟩
    obtain ⟨_, _, c', hk', hp⟩ := hK c hk
    obtain ⟨n, y, o', q', h1, h2, h3⟩ := before_of_precedes funcs hr hb hp
    rw [hcq] at h3
    simp only [Option.some.injEq, Prod.mk.injEq] at h3
    obtain ⟨rfl, rfl⟩ := h3
    exact ⟨_, ⟨c', hk', h2⟩, rfl, h1⟩

end Verif.Wired
