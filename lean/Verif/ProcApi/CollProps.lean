import Verif.ProcApi.Collection
import Mathlib.Data.List.Basic
import Mathlib.Data.List.Nodup
import Mathlib.Data.List.Range

/-
C59 iterating a collection, C60 unique identifiers, C61 process parameters.
-/

namespace Verif.ProcApi

/-! ### Dictionaries -/

theorem dictGet_set_self {α : Type} (d : List (String × α)) (k : String) (v : α) :
    dictGet (dictSet d k v) k = some v := by
  induction d with
  | nil => simp [dictSet, dictGet]
  | cons x xs ih =>
    obtain ⟨k', v'⟩ := x
    by_cases h : k' = k <;> simp [dictSet, dictGet, h, ih]

theorem dictGet_set_other {α : Type} (d : List (String × α)) (k k' : String) (v : α) (h : k' ≠ k) :
    dictGet (dictSet d k v) k' = dictGet d k' := by
  induction d with
  | nil => simp [dictSet, dictGet, Ne.symm h]
  | cons x xs ih =>
    obtain ⟨a, b⟩ := x
    by_cases h2 : a = k
    · simp [dictSet, dictGet, h2, Ne.symm h]
    · simp only [dictSet, h2, if_false, dictGet, ih]

theorem dictSet_keys {α : Type} (d : List (String × α)) (k : String) (v : α) :
    (dictSet d k v).map (·.1) = if k ∈ d.map (·.1) then d.map (·.1) else d.map (·.1) ++ [k] := by
  induction d with
  | nil => simp [dictSet]
  | cons x xs ih =>
    obtain ⟨a, b⟩ := x
    by_cases h2 : a = k
    · simp [dictSet, h2]
    · simp only [dictSet, h2, if_false, List.map_cons, ih, List.mem_cons]
      have : ¬ k = a := fun e => h2 e.symm
      by_cases h3 : k ∈ xs.map (·.1) <;> simp [this, h3]

/-- A dictionary keeps its keys pairwise distinct. -/
theorem dictSet_nodup {α : Type} (d : List (String × α)) (k : String) (v : α)
    (h : (d.map (·.1)).Nodup) : ((dictSet d k v).map (·.1)).Nodup := by
  rw [dictSet_keys]
  split
  · exact h
  · rename_i hk
    rw [List.nodup_append]
    refine ⟨h, by simp, ?_⟩
    intro a ha b hb
    simp only [List.mem_singleton] at hb
    subst hb
    exact fun e => hk (e ▸ ha)

theorem dictUpdate_nodup {α : Type} (new : List (String × α)) :
    ∀ d : List (String × α), (d.map (·.1)).Nodup → ((dictUpdate d new).map (·.1)).Nodup := by
  unfold dictUpdate
  induction new with
  | nil => intro d h; exact h
  | cons x xs ih => intro d h; exact ih _ (dictSet_nodup d x.1 x.2 h)

/-! ### C59: loops over a collection -/

/-- What the reader of a `for` loop expects: the members in dictionary order. -/
def Coll.values (c : Coll) : List Nat := c.members.map (·.2)

theorem next_lt (c : Coll) (k : Nat) (hit : c.it = (k : Int) - 1) (hk : k < c.members.length) :
    c.next = (some (c.values[k]'(by simpa [Coll.values] using hk)), { c with it := k }) := by
  unfold Coll.next
  have e : c.it + 1 = (k : Int) := by omega
  simp only [e, Int.toNat_natCast]
  rw [if_pos (by exact_mod_cast hk)]
  simp [Coll.values, hk]

theorem next_end (c : Coll) (hit : c.it = (c.members.length : Int) - 1) :
    c.next = (none, { c with it := -1 }) := by
  unfold Coll.next
  have e : c.it + 1 = (c.members.length : Int) := by omega
  simp only [e]
  rw [if_neg (by omega)]

theorem loop_from (n : Nat) : ∀ (c : Coll) (k fuel : Nat), c.it = (k : Int) - 1 →
    k ≤ c.members.length → c.members.length - k = n → n < fuel →
    Coll.loop fuel none c = (c.values.drop k, true, { c with it := -1 }) := by
  induction n with
  | zero =>
    intro c k fuel hit hk hn hf
    obtain ⟨fuel, rfl⟩ : ∃ f, fuel = f + 1 := ⟨fuel - 1, by omega⟩
    have hk' : k = c.members.length := by omega
    rw [Coll.loop, next_end c (by rw [hit, hk'])]
    simp [Coll.values, hk']
  | succ n ih =>
    intro c k fuel hit hk hn hf
    obtain ⟨fuel, rfl⟩ : ∃ f, fuel = f + 1 := ⟨fuel - 1, by omega⟩
    have hlt : k < c.members.length := by omega
    have hv : k < c.values.length := by simpa [Coll.values] using hlt
    rw [Coll.loop, next_lt c k hit hlt]
    simp only [Option.map_none, if_neg (show ¬ (none : Option Nat) = some 0 by simp)]
    rw [ih { c with it := (k : Int) } (k + 1) fuel (by simp) (by simp only; omega)
      (by simp only; omega) (by omega)]
    rw [List.drop_eq_getElem_cons hv]
    rfl

/-- One complete loop, started with no other loop in progress, visits every member exactly once, in
dictionary order, stops, and leaves the collection ready for the next loop. -/
theorem C59_complete_loop (c : Coll) (h : c.it = -1) (fuel : Nat) (hf : c.members.length < fuel) :
    Coll.loop fuel none c = (c.members.map (·.2), true, c) := by
  have := loop_from c.members.length c 0 fuel (by simp [h]) (by omega) (by omega) hf
  rw [this]
  simp only [List.drop_zero, Coll.values]
  rw [← h]

/-- Registering members keeps the order: new names are appended in the order given, a name that is already there keeps its
place and gets the new member; every other entry is untouched. -/
theorem C59_registration_order (c : Coll) (ms : List (String × Nat)) (k : String) (v : Nat) :
    ((ms.map (·.1)).Nodup → (∀ m ∈ ms, m.1 ∉ c.members.map (·.1)) → (c.add ms).members = c.members ++ ms) ∧
    (∀ pre post w, c.members = pre ++ (k, w) :: post → k ∉ pre.map (·.1) →
      (c.add [(k, v)]).members = pre ++ (k, v) :: post) := by
  have hnew : ∀ (d : List (String × Nat)) (k : String) (v : Nat), k ∉ d.map (·.1) → dictSet d k v = d ++ [(k, v)] := by
    intro d k v
    induction d with
    | nil => intro _; rfl
    | cons e d ih =>
      intro h
      simp only [List.map_cons, List.mem_cons, not_or] at h
      rw [dictSet, if_neg (fun he => h.1 he.symm), ih h.2]
      rfl
  constructor
  · have key : ∀ (ms : List (String × Nat)) (d : List (String × Nat)), (ms.map (·.1)).Nodup →
        (∀ m ∈ ms, m.1 ∉ d.map (·.1)) → dictUpdate d ms = d ++ ms := by
      intro ms
      induction ms with
      | nil => intro d _ _; simp [dictUpdate]
      | cons m ms ih =>
        intro d hn hd
        rw [List.map_cons] at hn
        have h1 : dictSet d m.1 m.2 = d ++ [m] := hnew d m.1 m.2 (hd m (by simp))
        have : dictUpdate d (m :: ms) = dictUpdate (dictSet d m.1 m.2) ms := rfl
        rw [this, h1, ih]
        · simp
        · exact (List.nodup_cons.1 hn).2
        · intro x hx
          rw [List.map_append, List.mem_append, not_or]
          refine ⟨hd x (by simp [hx]), ?_⟩
          simp only [List.map_cons, List.map_nil, List.mem_singleton]
          intro he
          have := (List.nodup_cons.1 hn).1
          exact this (he ▸ List.mem_map.2 ⟨x, hx, rfl⟩)
    exact key ms c.members
  · intro pre post w he hk
    show dictSet c.members k v = _
    rw [he]
    clear he
    induction pre with
    | nil => simp [dictSet]
    | cons e pre ih =>
      simp only [List.map_cons, List.mem_cons, not_or] at hk
      have hne : ¬ e.1 = k := fun he => hk.1 he.symm
      simp only [List.cons_append, dictSet, if_neg hne, ih hk.2]

example : (Coll.empty.add [("a", 1), ("b", 2)]).add [("a", 3)] = ⟨[("a", 3), ("b", 2)], -1⟩ := by decide

/-- What a user may do between loops. -/
inductive CollOp where
  | add (ms : List (String × Nat))
  | loop
deriving DecidableEq, Repr

/-- Visited members of each loop in a history of registrations and complete loops; each loop is
given `fuel` calls of `next`. -/
def collRun (fuel : Nat) : Coll → List CollOp → List (List Nat × Bool)
  | _, [] => []
  | c, .add ms :: ops => collRun fuel (c.add ms) ops
  | c, .loop :: ops =>
    let r := Coll.loop fuel none c
    (r.1, r.2.1) :: collRun fuel r.2.2 ops

/-- Specification: every loop sees exactly the dictionary built by the registrations before it. -/
def collSpec : List (String × Nat) → List CollOp → List (List Nat × Bool)
  | _, [] => []
  | d, .add ms :: ops => collSpec (dictUpdate d ms) ops
  | d, .loop :: ops => (d.map (·.2), true) :: collSpec d ops

theorem dictSet_length_le {α : Type} (d : List (String × α)) (k : String) (v : α) :
    (dictSet d k v).length ≤ d.length + 1 := by
  induction d with
  | nil => simp [dictSet]
  | cons x xs ih =>
    obtain ⟨a, b⟩ := x
    simp only [dictSet]
    split <;> simp <;> omega

theorem dictUpdate_length_le {α : Type} (new : List (String × α)) :
    ∀ d : List (String × α), (dictUpdate d new).length ≤ d.length + new.length := by
  unfold dictUpdate
  induction new with
  | nil => intro d; simp
  | cons x xs ih =>
    intro d
    have := ih (dictSet d x.1 x.2)
    have h2 := dictSet_length_le d x.1 x.2
    simp only [List.foldl_cons, List.length_cons]
    omega

/-- Number of registrations in a history. -/
def addCount : List CollOp → Nat
  | [] => 0
  | .add ms :: ops => ms.length + addCount ops
  | .loop :: ops => addCount ops

theorem collRun_eq (fuel : Nat) : ∀ (ops : List CollOp) (c : Coll), c.it = -1 →
    c.members.length + addCount ops < fuel → collRun fuel c ops = collSpec c.members ops := by
  intro ops
  induction ops with
  | nil => intros; rfl
  | cons op ops ih =>
    intro c hit hf
    cases op with
    | add ms =>
      simp only [collRun, collSpec, addCount] at *
      have h2 := dictUpdate_length_le ms c.members
      rw [ih (c.add ms) hit (by simp only [Coll.add]; omega)]
      rfl
    | loop =>
      simp only [collRun, collSpec, addCount] at *
      rw [C59_complete_loop c hit fuel (by omega)]
      simp only
      rw [ih c hit hf]

/-- **C59, for loops that run to their end and do not nest**: in every history of registrations and
loops every loop visits exactly the registered members, once each, in dictionary order.  Missing: an
interrupted loop and a nested loop break the property (`C59_after_break`, `C59_nested_never_ends`). -/
theorem C59_history_of_complete_loops_partial (ops : List CollOp) (fuel : Nat)
    (hf : addCount ops < fuel) :
    collRun fuel Coll.empty ops = collSpec [] ops ∧ ∀ r ∈ collRun fuel Coll.empty ops, r.2 = true := by
  have h := collRun_eq fuel ops Coll.empty rfl (by simpa [Coll.empty] using hf)
  refine ⟨h, ?_⟩
  rw [h]
  clear h hf
  generalize hd : Coll.empty.members = d
  clear hd
  induction ops generalizing d with
  | nil => intro r hr; simp [collSpec] at hr
  | cons op ops ih =>
    intro r hr
    cases op with
    | add ms => exact ih _ r hr
    | loop =>
      simp only [collSpec, List.mem_cons] at hr
      rcases hr with rfl | hr
      · rfl
      · exact ih _ r hr

/-- Two loops with a registration in between that overwrites one member and adds another. -/
example : collRun 10 Coll.empty [.add [("a", 1), ("b", 2)], .loop, .add [("a", 7), ("c", 3)], .loop, .loop]
    = [([1, 2], true), ([7, 2, 3], true), ([7, 2, 3], true)] := by decide

theorem loop_break (b : Nat) : ∀ (c : Coll) (k fuel : Nat), c.it = (k : Int) - 1 →
    k + b < c.members.length → b < fuel →
    Coll.loop fuel (some b) c = ((c.values.drop k).take (b + 1), true, { c with it := k + b }) := by
  induction b with
  | zero =>
    intro c k fuel hit hk hf
    obtain ⟨fuel, rfl⟩ : ∃ f, fuel = f + 1 := ⟨fuel - 1, by omega⟩
    have hv : k < c.values.length := by simpa [Coll.values] using hk
    rw [Coll.loop, next_lt c k hit hk]
    simp only [if_true]
    rw [List.drop_eq_getElem_cons hv]
    simp only [Nat.zero_add, List.take_succ_cons, List.take_zero, Int.natCast_zero, Int.add_zero]
  | succ b ih =>
    intro c k fuel hit hk hf
    obtain ⟨fuel, rfl⟩ : ∃ f, fuel = f + 1 := ⟨fuel - 1, by omega⟩
    have hlt : k < c.members.length := by omega
    have hv : k < c.values.length := by simpa [Coll.values] using hlt
    rw [Coll.loop, next_lt c k hit hlt]
    simp only [Option.map_some, if_neg (show ¬ (some (b + 1) : Option Nat) = some 0 by simp),
      Nat.add_sub_cancel]
    rw [ih { c with it := (k : Int) } (k + 1) fuel (by simp) (by simp only; omega) (by omega)]
    rw [List.drop_eq_getElem_cons hv]
    simp only [List.take_succ_cons, Prod.mk.injEq, true_and]
    refine ⟨rfl, ?_⟩
    congr 1
    push_cast
    omega

/-- **Finding.** After a loop was left at its `b+1`-th member (break, return, exception or a hit of
`in`), the next loop skips those members: it starts after the member where the first one stopped. -/
theorem C59_after_break (c : Coll) (h : c.it = -1) (b fuel : Nat) (hb : b < c.members.length)
    (hf : c.members.length < fuel) :
    (Coll.loop fuel none (Coll.loop fuel (some b) c).2.2).1 =
      (c.members.map (·.2)).drop (b + 1) := by
  rw [loop_break b c 0 fuel (by simp [h]) (by omega) (by omega)]
  simp only
  rw [loop_from (c.members.length - (b + 1)) { c with it := ((0 : Nat) : Int) + (b : Int) } (b + 1) fuel
    (by simp) (by simp only; omega) rfl (by omega)]
  rfl

/-- **Finding.** A loop whose body loops over the same (non-empty) collection never ends: the outer
loop sees the first member again and again, for every number of calls. -/
theorem C59_nested_never_ends (c : Coll) (h : c.it = -1) (m : Nat) (rest : List Nat)
    (hm : c.members.map (·.2) = m :: rest) (inner fuel : Nat) (hi : c.members.length < inner) :
    (Coll.nested inner fuel c).1 = List.replicate fuel m ∧ (Coll.nested inner fuel c).2.1 = false := by
  have hlen : 0 < c.members.length := by
    have := congrArg List.length hm
    simp at this
    omega
  induction fuel with
  | zero => exact ⟨rfl, rfl⟩
  | succ fuel ih =>
    rw [Coll.nested, next_lt c 0 (by simp [h]) hlen]
    simp only
    rw [loop_from (c.members.length - 1) { c with it := ((0 : Nat) : Int) } 1 inner (by simp)
      (by simp only; omega) (by simp) (by omega)]
    have hc : ({ c with it := -1 } : Coll) = c := by rw [← h]
    simp only [hc]
    refine ⟨?_, ih.2⟩
    rw [ih.1]
    have : c.values[0]'(by simpa [Coll.values] using hlen) = m := by
      simp only [Coll.values, hm, List.getElem_cons_zero]
    rw [this]
    rfl

/-- The hypotheses of the findings are met by a collection with two members. -/
example : (Coll.loop 9 none (Coll.loop 9 (some 0) ⟨[("a", 1), ("b", 2)], -1⟩).2.2).1 = [2] ∧
    (Coll.nested 9 4 ⟨[("a", 1), ("b", 2)], -1⟩).1 = [1, 1, 1, 1] := by decide

theorem mem_insName (a x : String × Nat) (l : List (String × Nat)) :
    x ∈ insName a l ↔ x = a ∨ x ∈ l := by
  induction l with
  | nil => simp [insName]
  | cons b rest ih =>
    unfold insName
    split
    · simp
    · simp only [List.mem_cons, ih]
      constructor
      · rintro (h | h | h) <;> simp [h]
      · rintro (h | h | h) <;> simp [h]

theorem insName_sorted (a : String × Nat) (l : List (String × Nat))
    (h : l.Pairwise (fun a b => a.1 ≤ b.1)) : (insName a l).Pairwise (fun a b => a.1 ≤ b.1) := by
  induction l with
  | nil => simp [insName]
  | cons b rest ih =>
    unfold insName
    rw [List.pairwise_cons] at h
    split
    · rename_i hab
      rw [List.pairwise_cons, List.pairwise_cons]
      refine ⟨?_, h⟩
      intro x hx
      rcases List.mem_cons.mp hx with rfl | hx
      · exact hab
      · exact String.le_trans hab (h.1 x hx)
    · rename_i hab
      rw [List.pairwise_cons]
      refine ⟨?_, ih h.2⟩
      intro x hx
      rcases (mem_insName a x rest).mp hx with rfl | hx
      · rcases String.le_total b.1 x.1 with h1 | h1
        · exact h1
        · exact absurd h1 hab
      · exact h.1 x hx

/-- The collection built when a process is constructed holds every attribute of the right kind,
under its own name, in alphabetical order of the names. -/
theorem C59_collection_holds_attributes (attrs : List (String × Nat)) (isKind : Nat → Bool) :
    (∀ a, a ∈ findAttrs attrs isKind ↔ a ∈ attrs ∧ isKind a.2 = true) ∧
    (findAttrs attrs isKind).Pairwise (fun a b => a.1 ≤ b.1) := by
  have hmem : ∀ l : List (String × Nat), ∀ x, x ∈ dirOf l ↔ x ∈ l := by
    intro l
    induction l with
    | nil => intro x; simp [dirOf]
    | cons y ys ih =>
      intro x
      have : dirOf (y :: ys) = insName y (dirOf ys) := rfl
      rw [this, mem_insName, ih, List.mem_cons]
  have hsort : ∀ l : List (String × Nat), (dirOf l).Pairwise (fun a b => a.1 ≤ b.1) := by
    intro l
    induction l with
    | nil => simp [dirOf]
    | cons y ys ih => exact insName_sorted y _ ih
  unfold findAttrs
  constructor
  · intro a
    rw [List.mem_filter, hmem]
  · exact List.Pairwise.sublist List.filter_sublist (hsort attrs)

/-- **Finding.** The order is alphabetical, not the order of declaration. -/
theorem C59_alphabetical_not_declaration :
    findAttrs [("weights", 0), ("a_buff", 1)] (fun _ => true) = [("a_buff", 1), ("weights", 0)] := by
  decide +kernel

/-- **Finding.** One object under two attribute names is visited twice and keeps the later name. -/
theorem C59_shared_member :
    let attrs := findAttrs [("b", 5), ("a", 5)] (fun _ => true)
    (Coll.empty.add attrs).members.map (·.2) = [5, 5] ∧ initNames attrs (fun _ => none) 5 = some "b" := by
  decide +kernel

/-! ### C60: identifiers -/

theorem srv_run_inv (ops : List SrvOp) : ∀ (s : Server) (ids : List Nat),
    ids = List.range s.next → s.objs.length = s.next →
    (Server.run (s, ids) ops).2 = List.range (Server.run (s, ids) ops).1.next ∧
    (Server.run (s, ids) ops).1.objs.length = (Server.run (s, ids) ops).1.next := by
  induction ops with
  | nil => intro s ids h1 h2; exact ⟨h1, h2⟩
  | cons op ops ih =>
    intro s ids h1 h2
    cases op with
    | register o =>
      simp only [Server.run]
      refine ih _ _ ?_ ?_
      · simp [Server.register, h1, List.range_succ]
      · simp [Server.register, h2]
    | reset => simpa only [Server.run, Server.reset] using ih {} [] rfl rfl

/-- Ids handed out since the last reset are pairwise distinct (they are `0, 1, 2, ...` in order of
registration), for every history. -/
theorem C60_ids_unique (ops : List SrvOp) :
    (Server.run ({}, []) ops).2.Nodup ∧
    (Server.run ({}, []) ops).2 = List.range (Server.run ({}, []) ops).1.objs.length := by
  have h := srv_run_inv ops {} [] rfl rfl
  rw [h.2, h.1]
  exact ⟨List.nodup_range, rfl⟩

example : (Server.run ({}, []) [.register 7, .reset, .register 3, .register 4, .register 3]).2 =
    [0, 1, 2] := by decide

/-- Default names are as unique as the ids. -/
theorem C60_default_names_unique (i j : Nat) (h : procName none i = procName none j) : i = j := by
  have h1 : ("Process_" ++ toString i).toList = ("Process_" ++ toString j).toList :=
    congrArg String.toList h
  rw [String.toList_append, String.toList_append, List.append_cancel_left_eq] at h1
  have h2 : Nat.toDigits 10 i = Nat.toDigits 10 j := by
    have e : ∀ n : Nat, (toString n).toList = Nat.toDigits 10 n := fun n => by
      rw [Nat.toString_eq_repr, Nat.toList_repr]
    rw [e, e] at h1
    exact h1
  have := congrArg (fun l => Nat.ofDigitChars 10 l 0) h2
  simpa using this

/-- **Finding.** Given names are not checked: a user name may equal another process' default name. -/
theorem C60_given_name_may_collide :
    procName (some "Process_1") 0 = procName none 1 ∧ procName (some "") 4 = procName none 4 := by
  decide +kernel

/-! ### C61: parameters -/

/-- Assigning an existing key raises. -/
theorem C61_set_existing_raises (p : Params) (k : String) (v w : Int) (h : p.getItem k = some w) :
    p.setItem k v = none ∧ p.step (.set k v) = p := by
  unfold Params.getItem at h
  have : p.setItem k v = none := by unfold Params.setItem; simp [h]
  exact ⟨this, by simp [Params.step, this]⟩

/-- Assigning a new key succeeds, makes exactly that key readable and leaves the others. -/
theorem C61_set_new (p : Params) (k : String) (v : Int) (h : p.getItem k = none) :
    ∃ p', p.setItem k v = some p' ∧ p'.getItem k = some v ∧
      ∀ k', k' ≠ k → p'.getItem k' = p.getItem k' := by
  unfold Params.getItem at *
  refine ⟨⟨dictSet p.d k v⟩, by simp [Params.setItem, h], dictGet_set_self _ _ _, ?_⟩
  intro k' hk
  exact dictGet_set_other _ _ _ _ hk

/-- `overwrite` replaces exactly that key. -/
theorem C61_overwrite (p : Params) (k : String) (v : Int) :
    (p.overwrite k v).getItem k = some v ∧
    ∀ k', k' ≠ k → (p.overwrite k v).getItem k' = p.getItem k' :=
  ⟨dictGet_set_self _ _ _, fun _ hk => dictGet_set_other _ _ _ _ hk⟩

/-- Specification of a history for one key, independent of the dictionary: the first assignment wins
until an `overwrite`. -/
def keySpec (k : String) : Option Int → List ParOp → Option Int
  | cur, [] => cur
  | cur, .set k' v :: ops =>
    keySpec k (if k' = k then (match cur with | none => some v | some w => some w) else cur) ops
  | cur, .over k' v :: ops => keySpec k (if k' = k then some v else cur) ops

/-- **C61 for every history**: the value of every key is that of the specification. -/
theorem C61_history (k : String) (ops : List ParOp) : ∀ p : Params,
    (ops.foldl Params.step p).getItem k = keySpec k (p.getItem k) ops := by
  induction ops with
  | nil => intro p; rfl
  | cons op ops ih =>
    intro p
    rw [List.foldl_cons, ih]
    cases op with
    | set k' v =>
      simp only [keySpec]
      congr 1
      cases hg : p.getItem k' with
      | some w =>
        rw [(C61_set_existing_raises p k' v w hg).2]
        by_cases e : k' = k
        · subst e; simp [hg]
        · simp [e]
      | none =>
        obtain ⟨p', h1, h2, h3⟩ := C61_set_new p k' v hg
        simp only [Params.step, h1, Option.getD_some]
        by_cases e : k' = k
        · subst e; simp [hg, h2]
        · simp [e, h3 k (fun h => e h.symm)]
    | over k' v =>
      simp only [keySpec, Params.step]
      congr 1
      by_cases e : k' = k
      · subst e; simp [(C61_overwrite p k' v).1]
      · simp [e, (C61_overwrite p k' v).2 k (fun h => e h.symm)]

/-- `get` returns the stored value, or the default for an unknown key. -/
theorem C61_get (p : Params) (k : String) (dflt : Int) :
    p.get k dflt = (p.getItem k).getD dflt := by
  unfold Params.get Params.getItem
  cases dictGet p.d k <;> rfl

example : ([ParOp.set "a" 1, .set "a" 2, .over "a" 3, .set "b" 4, .set "a" 5].foldl Params.step
    ⟨[("x", 0)]⟩).getItem "a" = some 3 := by decide

end Verif.ProcApi
