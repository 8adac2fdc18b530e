import Verif.PyPorts.Model

/-! # C15-C18: in-ports, sparse ports, RefPorts and VarPorts -/

namespace Verif.PyPorts

/-! ## C15 -/

/-- The item of port `p` that `recv` takes, transformed by the port's functions in order. -/
def contribution (p : In) : Vec :=
  match p.queue with
  | [] => fun _ => 0
  | x :: _ => p.funcs.foldl (fun v f => f v) x

theorem compose_apply (fs : List (Vec → Vec)) (x : Vec) : compose fs x = fs.foldl (fun v f => f v) x := by
  have key : ∀ (fs : List (Vec → Vec)) (g : Vec → Vec),
      fs.foldl (fun f g => fun data => g (f data)) g x = fs.foldl (fun v f => f v) (g x) := by
    intro fs
    induction fs with
    | nil => intro g; rfl
    | cons f fs ih => intro g; simp only [List.foldl_cons]; rw [ih]
  exact key fs _

theorem recvFrom_ok : ∀ (ps : List In) (acc : Vec), (∀ p ∈ ps, p.queue ≠ []) →
    recvFrom acc ps = some (fun i => acc i + (ps.map fun p => contribution p i).sum,
      ps.map fun p => { p with queue := p.queue.tail }) := by
  intro ps
  induction ps with
  | nil => intro acc _; simp [recvFrom]
  | cons p ps ih =>
    intro acc h
    have hp := h p (by simp)
    cases hq : p.queue with
    | nil => exact absurd hq hp
    | cons x q =>
      simp only [recvFrom, hq]
      rw [ih _ (fun p' h' => h p' (by simp [h']))]
      simp only [List.map_cons, List.sum_cons, hq, List.tail_cons, contribution, compose_apply]
      congr 2
      funext i; omega

/-- **C15.** If every connected channel has an item, `recv` returns the element-wise sum of the first item of
every channel (each transformed by the virtual ports on its way), and takes exactly one item from each. -/
theorem C15_sum (ps : List In) (h : ∀ p ∈ ps, p.queue ≠ []) :
    recv ps = some (fun i => (ps.map fun p => contribution p i).sum,
      ps.map fun p => { p with queue := p.queue.tail }) := by
  rw [recv, recvFrom_ok ps _ h]
  congr 2
  funext i; omega

theorem perm_sum {a b : List Int} (h : a.Perm b) : a.sum = b.sum := by
  induction h with
  | nil => rfl
  | cons x _ ih => simp [ih]
  | swap x y l => simp only [List.sum_cons]; omega
  | trans _ _ h1 h2 => rw [h1, h2]

/-- **C15.** The result does not depend on the order of the connections. -/
theorem C15_order_irrelevant (ps qs : List In) (hp : ps.Perm qs) (h : ∀ p ∈ ps, p.queue ≠ []) :
    (recv ps).map (·.1) = (recv qs).map (·.1) := by
  rw [C15_sum ps h, C15_sum qs (fun p hq => h p (hp.mem_iff.mpr hq))]
  simp only [Option.map_some, Option.some.injEq]
  funext i
  exact perm_sum (hp.map _)

/-- **C15.** If some connected channel is empty, `recv` blocks; it never returns a partial sum. -/
theorem C15_blocks (ps : List In) (p : In) (hp : p ∈ ps) (h : p.queue = []) : recv ps = none := by
  have key : ∀ (ps : List In) (acc : Vec), p ∈ ps → recvFrom acc ps = none := by
    intro ps
    induction ps with
    | nil => intro _ h; simp at h
    | cons q ps ih =>
      intro acc hm
      simp only [recvFrom]
      rcases List.mem_cons.mp hm with rfl | hm
      · rw [h]
      · cases q.queue with
        | nil => rfl
        | cons x q => simp [ih _ hm]
  exact key ps _ hp

/-- **C15.** `probe` is true exactly if `recv` would not block. -/
theorem C15_probe (ps : List In) : probe ps = true ↔ (recv ps).isSome = true := by
  have key : ∀ (ps : List In) (b : Bool), ps.foldl (fun acc p => acc && !p.queue.isEmpty) b =
      (b && ps.all fun p => !p.queue.isEmpty) := by
    intro ps
    induction ps with
    | nil => intro b; simp
    | cons p ps ih => intro b; simp only [List.foldl_cons, ih, List.all_cons, Bool.and_assoc]
  have h1 : probe ps = ps.all fun p => !p.queue.isEmpty := by simp [probe, key]
  rw [h1]
  by_cases h : ∀ p ∈ ps, p.queue ≠ []
  · rw [C15_sum ps h]
    simpa using h
  · have : ∃ p ∈ ps, p.queue = [] := by
      apply Classical.byContradiction; intro hc; apply h; intro p hp he; exact hc ⟨p, hp, he⟩
    obtain ⟨p, hp, he⟩ := this
    rw [C15_blocks ps p hp he]
    simp only [Option.isSome_none, Bool.false_eq_true, iff_false, List.all_eq_true]
    intro hall
    have := hall p hp
    simp [he] at this

/-- Non-vacuity: three sources, one through a transform; the first has two items. -/
def exPorts : List In :=
  [⟨[fun i => i, fun _ => 7], []⟩, ⟨[fun _ => 10], [fun v i => 2 * v i, fun v i => v i + 1]⟩, ⟨[fun i => -i], []⟩]

example : (∀ p ∈ exPorts, p.queue ≠ []) ∧ (recv exPorts).map (fun r => r.1 5) = some 21 ∧
    (recv exPorts).map (fun r => r.2.map fun p => p.queue.length) = some [1, 0, 0] := by
  refine ⟨by intro p hp; simp [exPorts] at hp; rcases hp with rfl | rfl | rfl <;> simp, by decide, by decide⟩

/-! ## C16 -/

/-- **C16 (partial: the value).** `peek` returns what `recv` would return at that moment. -/
theorem C16_peek_value_partial (ps : List In) : (peek ps).map (·.1) = (recv ps).map (·.1) := rfl

/-- **C16 fails (finding).** `peek` consumes: the `recv` after it returns the sum of the *second* items; the
items peeked at are lost. For every fan-in with at least two items on each channel. -/
theorem C16_peek_consumes (ps : List In) (h : ∀ p ∈ ps, 2 ≤ p.queue.length) :
    ∃ v ps', peek ps = some (v, ps') ∧
      (recv ps').map (·.1) =
        some (fun i => (ps.map fun p => contribution { p with queue := p.queue.tail } i).sum) := by
  have h1 : ∀ p ∈ ps, p.queue ≠ [] := by
    intro p hp he; have := h p hp; rw [he] at this; simp at this
  refine ⟨_, _, C15_sum ps h1, ?_⟩
  rw [C15_sum]
  · simp [List.map_map, Function.comp_def]
  · intro p hp
    simp only [List.mem_map] at hp
    obtain ⟨q, hq, rfl⟩ := hp
    have := h q hq
    intro he
    have h3 : q.queue.tail.length = 0 := by rw [show q.queue.tail = [] from he]; rfl
    simp at h3; omega

/-- **C16 fails (finding).** With one item on the channel, the `recv` after a `peek` blocks. -/
theorem C16_peek_then_recv_blocks (x : Vec) (fs : List (Vec → Vec)) :
    ∃ v ps', peek [⟨[x], fs⟩] = some (v, ps') ∧ recv ps' = none := ⟨_, _, rfl, rfl⟩

/-! ## C17 -/

theorem resize_take (k : Nat) (l : List Int) (h : l.length ≤ k) : (resize k l).take l.length = l := by
  unfold resize
  rw [List.take_of_length_le h]
  simp

theorem resize_length (k : Nat) (l : List Int) : (resize k l).length = k := by
  simp [resize]; omega

theorem resize_get (k : Nat) (l : List Int) (i : Nat) (hi : i < k) : (resize k l)[i]? = some (l[i]?.getD 0) := by
  unfold resize
  by_cases h : i < l.length
  · rw [List.getElem?_append_left (by simp; omega), List.getElem?_take_of_lt hi]
    simp [h]
  · rw [List.getElem?_append_right (by simp; omega), List.getElem?_replicate]
    have : i - (l.take k).length < k - l.length := by simp; omega
    simp only [this, if_true]
    rw [List.getElem?_eq_none (by omega)]; rfl

theorem resize_take_eq (k m : Nat) (l : List Int) (n : Nat) (hn : n ≤ k) (hm : n ≤ m) :
    (resize k l).take n = (resize m l).take n := by
  apply List.ext_getElem?
  intro i
  by_cases h : i < n
  · rw [List.getElem?_take_of_lt h, List.getElem?_take_of_lt h, resize_get _ _ _ (by omega),
      resize_get _ _ _ (by omega)]
  · rw [List.getElem?_eq_none (by simp; omega), List.getElem?_eq_none (by simp; omega)]

theorem resize_resize_take (k m : Nat) (l : List Int) (n : Nat) (hn : n ≤ k) (hm : n ≤ m) :
    (resize k (resize m l)).take n = (resize k l).take n := by
  apply List.ext_getElem?
  intro i
  by_cases h : i < n
  · rw [List.getElem?_take_of_lt h, List.getElem?_take_of_lt h, resize_get _ _ _ (by omega),
      resize_get _ _ _ (by omega), resize_get _ _ _ (by omega)]
    rfl
  · rw [List.getElem?_eq_none (by simp; omega), List.getElem?_eq_none (by simp; omega)]

/-- What an in-port of size `k` (anywhere in the list of ports) sees of a send, if it and all ports before
it are large enough. -/
theorem sparse_port (n : Nat) : ∀ (sizes : List Nat) (len data idx : List Int) (j k : Nat) (msg : List (List Int)),
    (∀ i, i ≤ j → ∀ m, sizes[i]? = some m → n ≤ m ∧ 1 ≤ m) → sizes[j]? = some k →
    (sparseSend len data idx sizes)[j]? = some msg → len.head? = some (n : Int) →
    ∃ l d i, msg = [l, d, i] ∧ l.head? = some (n : Int) ∧ d.take n = (resize k data).take n ∧
      i.take n = (resize k idx).take n := by
  intro sizes
  induction sizes with
  | nil => intro len data idx j k msg _ h; simp at h
  | cons m sizes ih =>
    intro len data idx j k msg hs hk hmsg hlen
    have hm := hs 0 (by omega) m rfl
    have hlen' : (resize m len).head? = some (n : Int) := by
      cases len with
      | nil => simp at hlen
      | cons a l =>
        simp at hlen; subst hlen
        obtain ⟨m', rfl⟩ : ∃ q, m = q + 1 := ⟨m - 1, by omega⟩
        simp [resize]
    cases j with
    | zero =>
      simp only [List.getElem?_cons_zero, Option.some.injEq] at hk
      subst hk
      simp only [sparseSend, List.getElem?_cons_zero, Option.some.injEq] at hmsg
      exact ⟨_, _, _, hmsg.symm, hlen', rfl, rfl⟩
    | succ j =>
      simp only [List.getElem?_cons_succ] at hk
      simp only [sparseSend, List.getElem?_cons_succ] at hmsg
      obtain ⟨l, d, i, h1, h2, h3, h4⟩ := ih _ _ _ j k msg
        (fun i hi q hq => hs (i + 1) (by omega) q (by simpa using hq)) hk hmsg hlen'
      have hkn := hs (j + 1) (by omega) k (by simpa using hk)
      refine ⟨l, d, i, h1, h2, ?_, ?_⟩
      · rw [h3, resize_resize_take _ _ _ _ hkn.1 hm.1]
      · rw [h4, resize_resize_take _ _ _ _ hkn.1 hm.1]

/-- **C17 (partial: payload fits in the ports).** Data and indices of a send arrive unchanged on the `j`-th connected
in-port, whatever follows on the channel, provided the payload fits in that port's shape and in the shape of
every port connected before it. -/
theorem C17_roundtrip_partial (data idx : List Int) (hl : idx.length = data.length) (sizes : List Nat) (j k : Nat)
    (msg rest : List (List Int)) (hk : sizes[j]? = some k)
    (hs : ∀ i, i ≤ j → ∀ m, sizes[i]? = some m → data.length ≤ m ∧ 1 ≤ m)
    (hmsg : (sparseSendAll data idx sizes)[j]? = some msg) :
    sparseRecv (msg ++ rest) = some ((data, idx), rest) := by
  obtain ⟨l, d, i, h1, h2, h3, h4⟩ := sparse_port data.length sizes _ data idx j k msg hs hk hmsg rfl
  subst h1
  cases l with
  | nil => simp at h2
  | cons a l =>
    simp at h2; subst h2
    have hkn := hs j (by omega) k hk
    simp only [sparseRecv, List.cons_append, List.nil_append, Int.toNat_natCast]
    rw [h3, h4, resize_take k data hkn.1, ← hl, resize_take k idx (by omega)]

/-- **C17 (partial).** Any sequence of sends on one connection arrives in order, whatever the lengths. -/
theorem C17_history_partial (k : Nat) (hk : 1 ≤ k) : ∀ (sends : List (List Int × List Int)),
    (∀ s ∈ sends, s.2.length = s.1.length ∧ s.1.length ≤ k) →
    ∀ (n : Nat), n ≤ sends.length →
    ∃ rest, (List.range n).foldl (fun (acc : Option (List (List Int × List Int) × List (List Int))) _ =>
        acc.bind fun a => (sparseRecv a.2).map fun r => (a.1 ++ [r.1], r.2))
        (some ([], (sends.map fun s => ((sparseSendAll s.1 s.2 [k])[0]?.getD [])).flatten)) =
      some (sends.take n, rest) ∧
      rest = ((sends.drop n).map fun s => ((sparseSendAll s.1 s.2 [k])[0]?.getD [])).flatten := by
  intro sends h n
  induction n with
  | zero => intro _; exact ⟨_, rfl, rfl⟩
  | succ n ih =>
    intro hn
    obtain ⟨rest, h1, h2⟩ := ih (by omega)
    refine ⟨_, ?_, rfl⟩
    rw [List.range_succ, List.foldl_append, h1]
    simp only [List.foldl_cons, List.foldl_nil, Option.bind_some]
    have hlt : n < sends.length := by omega
    have hd : sends.drop n = sends[n] :: sends.drop (n + 1) := List.drop_eq_getElem_cons hlt
    have hs := h sends[n] (List.getElem_mem hlt)
    have hr := C17_roundtrip_partial sends[n].1 sends[n].2 hs.1 [k] 0 k
      ((sparseSendAll sends[n].1 sends[n].2 [k])[0]?.getD [])
      (((sends.drop (n + 1)).map fun s => ((sparseSendAll s.1 s.2 [k])[0]?.getD [])).flatten) rfl
      (by intro i hi m hm; have : i = 0 := by omega
          subst this; simp at hm; subst hm; exact ⟨hs.2, hk⟩)
      (by simp [sparseSendAll, sparseSend])
    rw [h2, hd, List.map_cons, List.flatten_cons, hr]
    simp only [Option.map_some]
    rw [List.take_add_one, List.getElem?_eq_getElem hlt]
    rfl

/-- **C17 fails (finding).** A payload longer than the port's shape is cut silently: the receiver gets the
first `k` entries only. -/
theorem C17_truncated (data idx : List Int) (k : Nat) (hk : 1 ≤ k) (hd : k ≤ data.length) (hi : idx.length = data.length)
    (rest : List (List Int)) :
    ∃ msg, (sparseSendAll data idx [k])[0]? = some msg ∧
      sparseRecv (msg ++ rest) = some ((data.take k, idx.take k), rest) := by
  obtain ⟨k, rfl⟩ : ∃ q, k = q + 1 := ⟨k - 1, by omega⟩
  refine ⟨_, rfl, ?_⟩
  have e1 : k + 1 - data.length = 0 := by omega
  have e2 : k + 1 - idx.length = 0 := by omega
  simp only [resize, List.take_succ_cons, List.take_nil, List.cons_append, List.nil_append, sparseRecv,
    Int.toNat_natCast, e1, e2, List.replicate_zero, List.append_nil, List.take_take]
  rw [Nat.min_eq_right hd]

/-- **C17 fails (finding).** A small port connected *before* a large one destroys the payload of the large one. -/
theorem C17_earlier_port_truncates :
    ∃ msg, (sparseSendAll [5, 6, 7] [1, 2, 3] [1, 4])[1]? = some msg ∧
      sparseRecv msg = some (([5, 0, 0], [1, 0, 0]), []) := ⟨_, rfl, by decide⟩

example : ∃ msg, (sparseSendAll [5, 6, 7] [1, 2, 3] [3, 4])[1]? = some msg ∧
    sparseRecv msg = some (([5, 6, 7], [1, 2, 3]), []) := ⟨_, rfl, by decide⟩

/-! ## C18 -/

variable {V : Type} (fwd bwd : V → V)

/-- Effect of the pending requests on the variable. -/
def pendVar : V → List (Msg V) → V
  | cur, [] => cur
  | _, .data v :: ms => pendVar (fwd v) ms
  | cur, _ :: ms => pendVar cur ms

/-- The request channel is a sequence of complete requests. -/
inductive WfReq : List (Msg V) → Prop where
  | nil : WfReq []
  | get {ms} : WfReq ms → WfReq (.get :: ms)
  | set {v ms} : WfReq ms → WfReq (.set :: .data v :: ms)

/-- A request channel whose last request may be an incomplete write. -/
inductive WfPart : List (Msg V) → Prop where
  | last : WfPart [.set]
  | get {ms} : WfPart ms → WfPart (.get :: ms)
  | set {v ms} : WfPart ms → WfPart (.set :: .data v :: ms)

def noGet : List (Msg V) → Prop := fun ms => ∀ m ∈ ms, m ≠ .get

structure Inv (prog : List (Op V)) (v0 : V) (s : St V) : Prop where
  ok : s.failed = false
  /-- executed part of the program -/
  done : ∃ ds, prog = ds ++ s.prog ∧
    match s.pc with
    | .idle => s.results = specReads fwd bwd v0 ds ∧ pendVar fwd s.var s.req = specVar fwd v0 ds ∧
        s.rsp = [] ∧ noGet s.req ∧ (if s.setting then ∃ v ms, s.req = .data v :: ms ∧ WfReq ms else WfReq s.req)
    | .writing v => ∃ ds', ds = ds' ++ [.write v] ∧ s.results = specReads fwd bwd v0 ds' ∧
        s.rsp = [] ∧ noGet s.req ∧
        (if s.setting then s.req = [] ∨ ∃ v ms, s.req = .data v :: ms ∧ WfPart ms else WfPart s.req)
    | .reading => ∃ ds', ds = ds' ++ [.read] ∧ s.results = specReads fwd bwd v0 ds' ∧
        ((s.rsp = [] ∧ (∃ r, s.req = r ++ [.get] ∧ noGet r ∧ pendVar fwd s.var r = specVar fwd v0 ds' ∧
            (if s.setting then ∃ v ms, r = .data v :: ms ∧ WfReq ms else WfReq r))) ∨
         (s.req = [] ∧ s.setting = false ∧ s.var = specVar fwd v0 ds' ∧ s.rsp = [specVar fwd v0 ds']))

variable {fwd bwd}

theorem pendVar_append (a b : List (Msg V)) : ∀ cur, pendVar fwd cur (a ++ b) = pendVar fwd (pendVar fwd cur a) b := by
  induction a with
  | nil => intro cur; rfl
  | cons m a ih => intro cur; cases m <;> simp [pendVar, ih]

theorem wfReq_append_part {a : List (Msg V)} (h : WfReq a) : WfPart (a ++ [.set]) := by
  induction h with
  | nil => exact .last
  | get _ ih => exact .get ih
  | set _ ih => exact .set ih

theorem wfPart_append {a : List (Msg V)} (h : WfPart a) (v : V) : WfReq (a ++ [.data v]) := by
  induction h with
  | last => exact .set .nil
  | get _ ih => exact .get ih
  | set _ ih => exact .set ih

theorem specReads_append (a b : List (Op V)) : ∀ cur,
    specReads fwd bwd cur (a ++ b) = specReads fwd bwd cur a ++ specReads fwd bwd (specVar fwd cur a) b := by
  induction a with
  | nil => intro cur; rfl
  | cons o a ih => intro cur; cases o <;> simp [specReads, specVar, ih]

theorem specVar_append (a b : List (Op V)) : ∀ cur, specVar fwd cur (a ++ b) = specVar fwd (specVar fwd cur a) b := by
  induction a with
  | nil => intro cur; rfl
  | cons o a ih => intro cur; cases o <;> simp [specVar, ih]

theorem inv_start (prog : List (Op V)) (v0 : V) : Inv fwd bwd prog v0 (start prog v0) := by
  refine ⟨rfl, [], by simp [start], ?_⟩
  simp only [start]
  refine ⟨rfl, rfl, trivial, by intro m hm; simp at hm, ?_⟩
  simp; exact .nil

/-- Executed operations up to and including the last complete write, when the data message is complete. -/
theorem pend_last {v0 : V} (ds' : List (Op V)) (v : V) : specVar fwd v0 (ds' ++ [.write v]) = fwd v := by
  rw [specVar_append]; rfl

theorem pendVar_data (cur : V) (a : List (Msg V)) (v : V) : pendVar fwd cur (a ++ [.data v]) = fwd v := by
  rw [pendVar_append]; rfl

theorem noGet_append {a b : List (Msg V)} (ha : noGet a) (hb : noGet b) : noGet (a ++ b) := by
  intro m hm; rcases List.mem_append.mp hm with h | h
  · exact ha m h
  · exact hb m h

theorem noGet_cons {m : Msg V} {a : List (Msg V)} (h : noGet (m :: a)) : noGet a :=
  fun x hx => h x (by simp [hx])

theorem inv_step {prog : List (Op V)} {v0 : V} {s t : St V} (h : Inv fwd bwd prog v0 s)
    (hs : Step fwd bwd s t) : Inv fwd bwd prog v0 t := by
  obtain ⟨hok, ds, hprog, hm⟩ := h
  cases hs with
  | @writeHeader ops v hp hpc =>
    rw [hpc] at hm
    obtain ⟨h1, h2, h3, h4, h5⟩ := hm
    refine ⟨hok, ds ++ [.write v], by simp [hprog, hp], ?_⟩
    refine ⟨ds, rfl, h1, h3, noGet_append h4 (by intro m hm; simp at hm; subst hm; simp), ?_⟩
    cases hset : s.setting with
    | true =>
      rw [hset] at h5; simp only [if_true] at h5
      obtain ⟨w, ms, e, hw⟩ := h5
      simp only [if_true]
      right
      exact ⟨w, ms ++ [.set], by simp [e], wfReq_append_part hw⟩
    | false =>
      rw [hset] at h5; simp only [Bool.false_eq_true, if_false] at h5 ⊢
      exact wfReq_append_part h5
  | @writeData v hpc =>
    rw [hpc] at hm
    obtain ⟨ds', h0, h1, h3, h4, h5⟩ := hm
    refine ⟨hok, ds, hprog, ?_⟩
    refine ⟨?_, ?_, h3, noGet_append h4 (by intro m hm; simp at hm; subst hm; simp), ?_⟩
    · rw [h1, h0, specReads_append]; simp [specReads]
    · rw [h0, pend_last, pendVar_data]
    · cases hset : s.setting with
      | true =>
        rw [hset] at h5; simp only [if_true] at h5 ⊢
        rcases h5 with h5 | ⟨w, ms, e, hw⟩
        · exact ⟨v, [], by simp [h5], .nil⟩
        · exact ⟨w, ms ++ [.data v], by simp [e], wfPart_append hw v⟩
      | false =>
        rw [hset] at h5; simp only [Bool.false_eq_true, if_false] at h5 ⊢
        exact wfPart_append h5 v
  | @readHeader ops hp hpc =>
    rw [hpc] at hm
    obtain ⟨h1, h2, h3, h4, h5⟩ := hm
    refine ⟨hok, ds ++ [.read], by simp [hprog, hp], ?_⟩
    exact ⟨ds, rfl, h1, Or.inl ⟨h3, s.req, rfl, h4, h2, h5⟩⟩
  | @readAnswer v rest hpc hr =>
    rw [hpc] at hm
    obtain ⟨ds', h0, h1, h2 | h2⟩ := hm
    · rw [hr] at h2; simp at h2
    · obtain ⟨e1, e2, e3, e4⟩ := h2
      rw [hr] at e4
      simp only [List.cons.injEq] at e4
      obtain ⟨e4, rfl⟩ := e4
      refine ⟨hok, ds, hprog, ?_⟩
      refine ⟨?_, ?_, rfl, ?_, ?_⟩
      · simp only [h1, h0, specReads_append, specReads, e4]
      · simp only [e1, pendVar, e3, h0, specVar_append, specVar]
      · intro m hm; rw [e1] at hm; simp at hm
      · simp only [e2, Bool.false_eq_true, if_false, e1]; exact .nil
  | @serveGet rest hset hr =>
    refine ⟨hok, ds, hprog, ?_⟩
    cases hpc : s.pc with
    | idle =>
      rw [hpc] at hm
      exact absurd rfl (hm.2.2.2.1 .get (by rw [hr]; simp))
    | writing v =>
      rw [hpc] at hm
      obtain ⟨ds', h0, h1, h3, h4, h5⟩ := hm
      exact absurd rfl (h4 .get (by rw [hr]; simp))
    | reading =>
      rw [hpc] at hm
      obtain ⟨ds', h0, h1, h2 | h2⟩ := hm
      · obtain ⟨e1, r, e2, e3, e4, e5⟩ := h2
        cases r with
        | nil =>
          rw [hr] at e2; simp only [List.nil_append, List.cons.injEq, true_and] at e2
          refine ⟨ds', h0, h1, Or.inr ⟨by simp [e2], hset, by simpa [pendVar] using e4, ?_⟩⟩
          simp only [e1, List.nil_append]
          simp only [pendVar] at e4; rw [e4]
        | cons m r =>
          rw [hr] at e2; simp only [List.cons_append, List.cons.injEq] at e2
          exact absurd e2.1.symm (e3 m (by simp))
      · rw [hr] at h2; simp at h2
  | @serveSet rest hset hr =>
    refine ⟨hok, ds, hprog, ?_⟩
    cases hpc : s.pc with
    | idle =>
      rw [hpc] at hm
      obtain ⟨h1, h2, h3, h4, h5⟩ := hm
      rw [hset, hr] at h5; simp only [Bool.false_eq_true, if_false] at h5
      cases h5 with
      | @set w ms hw =>
        refine ⟨h1, ?_, h3, ?_, ?_⟩
        · rw [hr] at h2; exact h2
        · rw [hr] at h4; exact noGet_cons h4
        · exact ⟨w, ms, rfl, hw⟩
    | writing v =>
      rw [hpc] at hm
      obtain ⟨ds', h0, h1, h3, h4, h5⟩ := hm
      rw [hset, hr] at h5; simp only [Bool.false_eq_true, if_false] at h5
      refine ⟨ds', h0, h1, h3, ?_, ?_⟩
      · rw [hr] at h4; exact noGet_cons h4
      · cases h5 with
        | last => exact Or.inl rfl
        | @set w ms hw => exact Or.inr ⟨w, ms, rfl, hw⟩
    | reading =>
      rw [hpc] at hm
      obtain ⟨ds', h0, h1, h2 | h2⟩ := hm
      · obtain ⟨e1, r, e2, e3, e4, e5⟩ := h2
        rw [hset] at e5; simp only [Bool.false_eq_true, if_false] at e5
        refine ⟨ds', h0, h1, Or.inl ⟨e1, ?_⟩⟩
        cases e5 with
        | nil => rw [hr] at e2; simp at e2
        | get _ => exact absurd rfl (e3 .get (by simp))
        | @set w ms hw =>
          rw [hr] at e2; simp only [List.cons_append, List.cons.injEq, true_and] at e2
          exact ⟨.data w :: ms, by simp [e2], noGet_cons e3, e4, ⟨w, ms, rfl, hw⟩⟩
      · rw [hr] at h2; simp at h2
  | @serveData v rest hset hr =>
    refine ⟨hok, ds, hprog, ?_⟩
    cases hpc : s.pc with
    | idle =>
      rw [hpc] at hm
      obtain ⟨h1, h2, h3, h4, h5⟩ := hm
      rw [hset, hr] at h5; simp only [if_true] at h5
      obtain ⟨w, ms, e, hw⟩ := h5
      simp only [List.cons.injEq, Msg.data.injEq] at e
      obtain ⟨rfl, rfl⟩ := e
      refine ⟨h1, ?_, h3, ?_, ?_⟩
      · rw [hr] at h2; exact h2
      · rw [hr] at h4; exact noGet_cons h4
      · simpa using hw
    | writing w =>
      rw [hpc] at hm
      obtain ⟨ds', h0, h1, h3, h4, h5⟩ := hm
      rw [hset, hr] at h5; simp only [if_true] at h5
      refine ⟨ds', h0, h1, h3, ?_, ?_⟩
      · rw [hr] at h4; exact noGet_cons h4
      · rcases h5 with h5 | ⟨w, ms, e, hw⟩
        · simp at h5
        · simp only [List.cons.injEq] at e
          simp only [Bool.false_eq_true, if_false]; rw [e.2]; exact hw
    | reading =>
      rw [hpc] at hm
      obtain ⟨ds', h0, h1, h2 | h2⟩ := hm
      · obtain ⟨e1, r, e2, e3, e4, e5⟩ := h2
        rw [hset] at e5; simp only [if_true] at e5
        obtain ⟨w, ms, e, hw⟩ := e5
        subst e
        rw [hr] at e2; simp only [List.cons_append, List.cons.injEq, Msg.data.injEq] at e2
        obtain ⟨rfl, rfl⟩ := e2
        refine ⟨ds', h0, h1, Or.inl ⟨e1, ms, rfl, noGet_cons e3, e4, ?_⟩⟩
        simpa using hw
      · rw [hr] at h2; simp at h2
  | @serveBad v rest hset hr =>
    exfalso
    cases hpc : s.pc with
    | idle =>
      rw [hpc] at hm
      have h5 := hm.2.2.2.2
      rw [hset, hr] at h5; simp only [Bool.false_eq_true, if_false] at h5
      cases h5
    | writing w =>
      rw [hpc] at hm
      obtain ⟨ds', h0, h1, h3, h4, h5⟩ := hm
      rw [hset, hr] at h5; simp only [Bool.false_eq_true, if_false] at h5
      cases h5
    | reading =>
      rw [hpc] at hm
      obtain ⟨ds', h0, h1, h2 | h2⟩ := hm
      · obtain ⟨e1, r, e2, e3, e4, e5⟩ := h2
        rw [hset] at e5; simp only [Bool.false_eq_true, if_false] at e5
        cases e5 <;> (rw [hr] at e2; simp at e2)
      · rw [hr] at h2; simp at h2
  | @serveBadHeader m rest hset hr hne =>
    exfalso
    cases hpc : s.pc with
    | idle =>
      rw [hpc] at hm
      have h5 := hm.2.2.2.2
      rw [hset, hr] at h5; simp only [if_true] at h5
      obtain ⟨w, ms, e, _⟩ := h5
      simp only [List.cons.injEq] at e
      exact hne w e.1
    | writing w =>
      rw [hpc] at hm
      obtain ⟨ds', h0, h1, h3, h4, h5⟩ := hm
      rw [hset, hr] at h5; simp only [if_true] at h5
      rcases h5 with h5 | ⟨w, ms, e, _⟩
      · simp at h5
      · simp only [List.cons.injEq] at e
        exact hne w e.1
    | reading =>
      rw [hpc] at hm
      obtain ⟨ds', h0, h1, h2 | h2⟩ := hm
      · obtain ⟨e1, r, e2, e3, e4, e5⟩ := h2
        rw [hset] at e5; simp only [if_true] at e5
        obtain ⟨w, ms, e, _⟩ := e5
        subst e
        rw [hr] at e2; simp only [List.cons_append, List.cons.injEq] at e2
        exact hne w e2.1
      · rw [hr] at h2; simp at h2

theorem inv_steps {prog : List (Op V)} {v0 : V} {s : St V} (h : Steps fwd bwd (start prog v0) s) :
    Inv fwd bwd prog v0 s := by
  generalize hs : start prog v0 = s0 at h
  induction h with
  | refl => subst hs; exact inv_start prog v0
  | tail _ h2 ih => exact inv_step ih h2

/-- **C18.** For every program of reads and writes and every schedule of the service: the reads completed so
far returned what the program executed directly on the variable would have read, i.e. each read returns the
last value written before it (transformed by the virtual ports), or the initial value; and the
service never meets a malformed request. -/
theorem C18_sequential (prog : List (Op V)) (v0 : V) (s : St V) (h : Steps fwd bwd (start prog v0) s) :
    s.failed = false ∧ ∃ rest, specReads fwd bwd v0 prog = s.results ++ rest := by
  obtain ⟨h1, ds, h2, h3⟩ := inv_steps h
  refine ⟨h1, ?_⟩
  rw [h2, specReads_append]
  cases hpc : s.pc with
  | idle => rw [hpc] at h3; rw [h3.1]; exact ⟨_, rfl⟩
  | writing v =>
    rw [hpc] at h3
    obtain ⟨ds', e1, e2, _⟩ := h3
    rw [e1, specReads_append, e2, List.append_assoc]; exact ⟨_, rfl⟩
  | reading =>
    rw [hpc] at h3
    obtain ⟨ds', e1, e2, _⟩ := h3
    rw [e1, specReads_append, e2, List.append_assoc]; exact ⟨_, rfl⟩

/-- **C18.** When the program is finished, all reads have their results and the variable, once the requests
still in the channel are served, has the value of the last write. -/
theorem C18_complete (prog : List (Op V)) (v0 : V) (s : St V) (h : Steps fwd bwd (start prog v0) s)
    (hp : s.prog = []) (hpc : s.pc = .idle) :
    s.results = specReads fwd bwd v0 prog ∧ (s.req = [] → s.var = specVar fwd v0 prog) := by
  obtain ⟨h1, ds, h2, h3⟩ := inv_steps h
  rw [hpc] at h3
  rw [hp, List.append_nil] at h2
  subst h2
  refine ⟨h3.1, fun hr => ?_⟩
  have := h3.2.1
  rw [hr] at this
  exact this

/-- **C18.** `wait` (a read): at the moment its answer has arrived, the variable itself has the value of the last
write of the executed part of the program; no write is still on its way. -/
theorem C18_wait (prog : List (Op V)) (v0 : V) (s : St V) (h : Steps fwd bwd (start prog v0) s)
    (hpc : s.pc = .reading) (hr : s.rsp ≠ []) :
    s.req = [] ∧ ∃ ds, prog = ds ++ s.prog ∧ s.var = specVar fwd v0 ds := by
  obtain ⟨h1, ds, h2, h3⟩ := inv_steps h
  rw [hpc] at h3
  obtain ⟨ds', e1, e2, e3 | e3⟩ := h3
  · exact absurd e3.1 hr
  · refine ⟨e3.1, ds, h2, ?_⟩
    rw [e3.2.2.1, e1, specVar_append]; rfl

/-- **C18.** No deadlock: unless the program is finished and all requests are served, some step is
possible. -/
theorem C18_progress (prog : List (Op V)) (v0 : V) (s : St V) (h : Steps fwd bwd (start prog v0) s)
    (hn : ¬(s.prog = [] ∧ s.pc = .idle ∧ s.req = [])) : ∃ t, Step fwd bwd s t := by
  obtain ⟨h1, ds, h2, h3⟩ := inv_steps h
  cases hreq : s.req with
  | cons m rest =>
    cases hset : s.setting with
    | false =>
      cases m with
      | get => exact ⟨_, .serveGet hset hreq⟩
      | set => exact ⟨_, .serveSet hset hreq⟩
      | data v => exact ⟨_, .serveBad hset hreq⟩
    | true =>
      cases m with
      | get => exact ⟨_, .serveBadHeader hset hreq (by simp)⟩
      | set => exact ⟨_, .serveBadHeader hset hreq (by simp)⟩
      | data v => exact ⟨_, .serveData hset hreq⟩
  | nil =>
    cases hpc : s.pc with
    | writing v => exact ⟨_, .writeData hpc⟩
    | idle =>
      cases hp : s.prog with
      | nil => exact absurd ⟨hp, hpc, hreq⟩ hn
      | cons o ops =>
        cases o with
        | read => exact ⟨_, .readHeader hp hpc⟩
        | write v => exact ⟨_, .writeHeader hp hpc⟩
    | reading =>
      rw [hpc] at h3
      obtain ⟨ds', e1, e2, e3 | e3⟩ := h3
      · obtain ⟨_, r, e4, _⟩ := e3
        rw [hreq] at e4; simp at e4
      · exact ⟨_, .readAnswer hpc e3.2.2.2⟩

/-- Work left: every step does one unit. -/
def work (s : St V) : Nat :=
  4 * s.prog.length + (match s.pc with | .idle => 0 | .writing _ => 2 | .reading => 1) + s.req.length + s.rsp.length

/-- **C18.** Every schedule ends: each step decreases the work left, unless it is the answer to a read being
put in the channel, which leaves it the same and shortens the request channel. -/
theorem C18_terminates (s t : St V) (h : Step fwd bwd s t) :
    work t < work s ∨ (work t = work s ∧ t.req.length < s.req.length) := by
  cases h with
  | writeHeader hp hpc => left; simp [work, hp, hpc]; omega
  | writeData hpc => left; simp [work, hpc]; omega
  | readHeader hp hpc => left; simp [work, hp, hpc]; omega
  | readAnswer hpc hr => left; simp [work, hpc, hr]; omega
  | serveGet hset hr => right; simp [work, hr]; omega
  | serveSet hset hr => left; simp [work, hr]
  | serveData hset hr => left; simp [work, hr]
  | serveBad hset hr => left; simp [work, hr]
  | serveBadHeader hset hr hne => left; simp [work, hr]

/-- Non-vacuity of C18: a schedule in which the write of 5 is served only after the read was issued. -/
example : ∃ s : St Int, Steps id id (start [.write 5, .read] 0) s ∧ s.results = [5] ∧ s.prog = [] := by
  refine ⟨_, .tail (.tail (.tail (.tail (.tail (.tail (.tail (.refl _) (.writeHeader rfl rfl)) (.writeData rfl))
    (.readHeader rfl rfl)) (.serveSet rfl rfl)) (.serveData rfl rfl)) (.serveGet rfl rfl)) (.readAnswer rfl rfl), rfl, rfl⟩

end Verif.PyPorts
