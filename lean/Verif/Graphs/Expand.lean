import Verif.Compiler.Lemmas

/-!
# Model of the expansion of hierarchical processes

`src/lava/magma/compiler/compiler_graphs.py:967-1053` (`_expand_sub_proc_model`, `_map_proc_to_model`),
`src/lava/magma/core/model/sub/model.py:58-71` (`find_sub_procs`), `src/lava/magma/core/process/process.py:290-312`
(`register_sub_procs`, `is_sub_proc_of`).

Processes are numbers. Which process model is selected for a process (C32), and which attributes the constructed SubProcessModel has, is
given by `sel`; a process that is expanded twice would in reality construct new sub processes the second time, which this ignores.
-/

namespace Verif.Graphs

open Verif.Compiler (dictSet dictGet dictSet_keys dictGet_set)

/-- An attribute of a SubProcessModel object. -/
inductive Attr where
  | proc (p : Nat)
  /-- a dataclass; the entries are its fields that are processes -/
  | data (fields : List Nat)
  | other
deriving DecidableEq, Repr

/-- The model class selected for a process: a leaf model, a SubProcessModel with its attributes in the order of `dir`, or none
(`model_cls` is None). -/
inductive Sel (M : Type) where
  | leaf (m : M)
  | sub (attrs : List (String × Attr))
  | nothing

/-- The loop body of `find_sub_procs` (sub/model.py:61-70); `cls p` is the name of the class of process `p`. -/
def addAttr (cls : Nat → String) (d : List (String × Nat)) (a : String × Attr) : List (String × Nat) :=
  match a.2 with
  | .proc p => dictSet a.1 p d
  | .data fs => fs.foldl (fun d p => dictSet (cls p) p d) d
  | .other => d

/-- `find_sub_procs` (sub/model.py:58-71). -/
def findSub (cls : Nat → String) (attrs : List (String × Attr)) : List (String × Nat) := attrs.foldl (addAttr cls) []

/-- `list(sub_procs.values())` (compiler_graphs.py:999). -/
def subs (cls : Nat → String) (attrs : List (String × Attr)) : List Nat := (findSub cls attrs).map (·.2)

/-- Result of the mapping: the dictionary of processes and models, `elab_procs`, and `parent_proc` of every process. -/
structure Elab (M : Type) where
  map : List (Nat × M)
  elab_ : List Nat
  parent : Nat → Option Nat

/-- `register_sub_procs` (core/process/process.py:290-296). -/
def register (par : Nat → Option Nat) (p : Nat) (qs : List Nat) : Nat → Option Nat := fun q => if q ∈ qs then some p else par q

variable {M : Type}

/-- One turn of the loop of `_map_proc_to_model` (compiler_graphs.py:1029-1051), `rec` is the recursive call. -/
def mapStep (cls : Nat → String) (sel : Nat → Sel M) (rec : List Nat → (Nat → Option Nat) → Option (Elab M)) (e : Elab M) (p : Nat) :
    Option (Elab M) :=
  match sel p with
  | .leaf m => some { e with map := dictSet p m e.map, elab_ := e.elab_ ++ [p] }
  | .nothing => some { e with elab_ := e.elab_ ++ [p] }
  | .sub attrs =>
    (rec (subs cls attrs) (register e.parent p (subs cls attrs))).map fun r =>
      { map := r.map.foldl (fun d x => dictSet x.1 x.2 d) e.map, elab_ := e.elab_ ++ r.elab_ ++ [p], parent := r.parent }

/-- `_map_proc_to_model` (compiler_graphs.py:1004-1053); `none` is RecursionError at the recursion limit. `elab_procs` is one list for all
recursive calls; here each call returns the part it appends. -/
def mapProcs (cls : Nat → String) (sel : Nat → Sel M) : Nat → List Nat → (Nat → Option Nat) → Option (Elab M)
  | 0, _, _ => none
  | lim + 1, procs, par => procs.foldlM (mapStep cls sel (mapProcs cls sel lim)) { map := [], elab_ := [], parent := par }

/-- `is_sub_proc_of` (core/process/process.py:304-312); `none` is RecursionError. -/
def isSubProcOf (par : Nat → Option Nat) : Nat → Nat → Nat → Option Bool
  | 0, _, _ => none
  | lim + 1, q, p =>
    match par q with
    | none => some false
    | some r => if r = p then some true else isSubProcOf par lim r p

/-! ## Specification -/

/-- `q` is among the sub processes that are found for `p`. -/
def HasSub (cls : Nat → String) (sel : Nat → Sel M) (p q : Nat) : Prop := ∃ attrs, sel p = .sub attrs ∧ q ∈ subs cls attrs

/-- `q` is `p` or inside `p`, at any depth. -/
inductive Inside (cls : Nat → String) (sel : Nat → Sel M) : Nat → Nat → Prop where
  | refl (p) : Inside cls sel p p
  | step {p q r} : HasSub cls sel p q → Inside cls sel q r → Inside cls sel p r

/-- `q` is an attribute or a field of a dataclass attribute. -/
def Occurs (q : Nat) (attrs : List (String × Attr)) : Prop := ∃ a ∈ attrs, a.2 = .proc q ∨ ∃ fs, a.2 = .data fs ∧ q ∈ fs

/-! ## Finding the sub processes -/

/-- The dictionary entries that `find_sub_procs` writes, in order. -/
def writes (cls : Nat → String) (attrs : List (String × Attr)) : List (String × Nat) := attrs.flatMap fun a => match a.2 with
  | .proc p => [(a.1, p)]
  | .data fs => fs.map fun p => (cls p, p)
  | .other => []

theorem findSub_writes (cls : Nat → String) (attrs : List (String × Attr)) :
    findSub cls attrs = (writes cls attrs).foldl (fun d x => dictSet x.1 x.2 d) [] := by
  have key : ∀ d, attrs.foldl (addAttr cls) d = (writes cls attrs).foldl (fun d x => dictSet x.1 x.2 d) d := by
    induction attrs with
    | nil => intro d; rfl
    | cons a attrs ih =>
      intro d
      obtain ⟨n, t⟩ := a
      simp only [List.foldl_cons, writes, List.flatMap_cons, List.foldl_append]
      rw [ih]
      congr 1
      cases t with
      | proc p => rfl
      | data fs => simp only [addAttr, List.foldl_map]
      | other => rfl
  exact key []

theorem occurs_writes (cls : Nat → String) (q : Nat) (attrs : List (String × Attr)) :
    Occurs q attrs ↔ ∃ k, (k, q) ∈ writes cls attrs := by
  unfold Occurs writes
  simp only [List.mem_flatMap]
  constructor
  · rintro ⟨⟨n, t⟩, ha, h | ⟨fs, h, hq⟩⟩
    · simp only at h; subst h; exact ⟨n, _, ha, by simp⟩
    · simp only at h; subst h; exact ⟨cls q, _, ha, by simp only [List.mem_map]; exact ⟨q, hq, rfl⟩⟩
  · rintro ⟨k, ⟨n, t⟩, ha, h⟩
    cases t with
    | proc p =>
      simp only [List.mem_singleton, Prod.mk.injEq] at h
      exact ⟨_, ha, Or.inl (by simp [h.2])⟩
    | data fs =>
      simp only [List.mem_map, Prod.mk.injEq] at h
      obtain ⟨p, hp, _, rfl⟩ := h
      exact ⟨_, ha, Or.inr ⟨fs, rfl, hp⟩⟩
    | other => simp at h

theorem foldl_dictSet_subset {κ β : Type} [DecidableEq κ] (w : List (κ × β)) : ∀ (d : List (κ × β)) (x : κ × β),
    x ∈ w.foldl (fun d x => dictSet x.1 x.2 d) d → x ∈ d ∨ x ∈ w := by
  have hset : ∀ (k : κ) (v : β) (d : List (κ × β)) (x : κ × β), x ∈ dictSet k v d → x ∈ d ∨ x = (k, v) := by
    intro k v d x
    induction d with
    | nil => simp [dictSet]
    | cons e d ih =>
      obtain ⟨a, b⟩ := e
      simp only [dictSet]
      split
      · rename_i h
        subst h
        simp only [List.mem_cons]
        rintro (h | h)
        · exact Or.inr h
        · exact Or.inl (Or.inr h)
      · simp only [List.mem_cons]
        rintro (h | h)
        · exact Or.inl (Or.inl h)
        · rcases ih h with h | h
          · exact Or.inl (Or.inr h)
          · exact Or.inr h
  induction w with
  | nil => intro d x h; exact Or.inl h
  | cons e w ih =>
    intro d x h
    rw [List.foldl_cons] at h
    rcases ih _ x h with h | h
    · rcases hset _ _ _ _ h with h | h
      · exact Or.inl h
      · exact Or.inr (by simp [h])
    · exact Or.inr (by simp [h])

theorem foldl_dictSet_append {κ β : Type} [DecidableEq κ] (w : List (κ × β)) : ∀ (d : List (κ × β)),
    ((d ++ w).map Prod.fst).Nodup → w.foldl (fun d x => dictSet x.1 x.2 d) d = d ++ w := by
  have hset : ∀ (k : κ) (v : β) (d : List (κ × β)), k ∉ d.map Prod.fst → dictSet k v d = d ++ [(k, v)] := by
    intro k v d
    induction d with
    | nil => simp [dictSet]
    | cons e d ih =>
      obtain ⟨a, b⟩ := e
      intro h
      simp only [List.map_cons, List.mem_cons, not_or] at h
      have hne : ¬ a = k := fun e => h.1 e.symm
      simp only [dictSet, if_neg hne, ih h.2, List.cons_append]
  induction w with
  | nil => intro d _; simp
  | cons e w ih =>
    intro d hnd
    rw [List.foldl_cons, hset]
    · rw [ih]
      · simp
      · simpa using hnd
    · simp only [List.map_append, List.map_cons, List.nodup_append, List.mem_cons] at hnd
      intro hmem
      exact hnd.2.2 _ hmem _ (Or.inl rfl) rfl

/-- **C83.** If the names of process attributes and the class names of the processes in dataclass attributes are all different, every
sub process is found. What is found is always an attribute or a field. -/
theorem C83_sub_procs_found (cls : Nat → String) (attrs : List (String × Attr)) (q : Nat) :
    (q ∈ subs cls attrs → Occurs q attrs) ∧
    (((writes cls attrs).map Prod.fst).Nodup → Occurs q attrs → q ∈ subs cls attrs) := by
  constructor
  · intro h
    simp only [subs, findSub_writes, List.mem_map] at h
    obtain ⟨⟨k, p⟩, h1, rfl⟩ := h
    rcases foldl_dictSet_subset _ _ _ h1 with h | h
    · simp at h
    · exact (occurs_writes cls _ _).2 ⟨k, h⟩
  · intro hnd ho
    obtain ⟨k, hk⟩ := (occurs_writes cls q attrs).1 ho
    simp only [subs, findSub_writes]
    rw [foldl_dictSet_append _ [] (by simpa using hnd)]
    exact List.mem_map.2 ⟨(k, q), by simpa using hk, rfl⟩

/-- Two processes of one class in a dataclass: the first one is lost, so it is neither compiled nor run. -/
theorem C83_witness_dataclass_loses_process :
    Occurs 1 [("parts", .data [1, 2])] ∧ 1 ∉ subs (fun _ => "LIF") [("parts", .data [1, 2])] := by
  refine ⟨⟨_, List.mem_singleton.2 rfl, Or.inr ⟨[1, 2], rfl, by simp⟩⟩, by decide⟩

/-! ## Lemmas -/

theorem foldl_dictSet_get (w : List (Nat × M)) : ∀ (d : List (Nat × M)) (q : Nat), (w.map Prod.fst).Nodup →
    dictGet q (w.foldl (fun d x => dictSet x.1 x.2 d) d) = if q ∈ w.map Prod.fst then dictGet q w else dictGet q d := by
  induction w with
  | nil => intro d q _; simp
  | cons e w ih =>
    intro d q hnd
    obtain ⟨k, v⟩ := e
    simp only [List.map_cons, List.nodup_cons] at hnd
    rw [List.foldl_cons, ih _ _ hnd.2, dictGet_set]
    simp only [List.map_cons, List.mem_cons]
    by_cases hq : q = k
    · subst hq
      simp [hnd.1, dictGet]
    · have hk : ¬ k = q := fun e => hq e.symm
      simp only [hq, if_false, false_or]
      split <;> simp [dictGet, hk]

theorem foldl_dictSet_nodup (w : List (Nat × M)) : ∀ (d : List (Nat × M)), (d.map Prod.fst).Nodup →
    ((w.foldl (fun d x => dictSet x.1 x.2 d) d).map Prod.fst).Nodup := by
  induction w with
  | nil => intro d h; exact h
  | cons e w ih =>
    intro d h
    rw [List.foldl_cons]
    apply ih
    rw [dictSet_keys]
    split
    · exact h
    · rename_i hk
      rw [List.nodup_append]
      refine ⟨h, by simp, ?_⟩
      intro a ha b hb
      simp only [List.mem_singleton] at hb
      rw [hb]
      rintro rfl
      exact hk ha

theorem dictGet_isSome (q : Nat) (d : List (Nat × M)) : q ∈ d.map Prod.fst ↔ ∃ m, dictGet q d = some m := by
  unfold dictGet
  simp only [Option.map_eq_some_iff]
  constructor
  · intro h
    obtain ⟨⟨a, b⟩, h1, rfl⟩ := List.mem_map.1 h
    cases hf : d.find? (fun e => decide (e.1 = a)) with
    | none =>
      have := List.find?_eq_none.1 hf _ h1
      simp at this
    | some x => exact ⟨x.2, x, rfl, rfl⟩
  · rintro ⟨m, x, hx, rfl⟩
    have h1 := List.mem_of_find?_eq_some hx
    have h2 := List.find?_some hx
    simp only [decide_eq_true_eq] at h2
    exact List.mem_map.2 ⟨x, h1, h2⟩

/-- `q` is one of `procs` or inside one of them. -/
def Under (cls : Nat → String) (sel : Nat → Sel M) (procs : List Nat) (q : Nat) : Prop := ∃ p ∈ procs, Inside cls sel p q

theorem inside_cases (cls : Nat → String) (sel : Nat → Sel M) (p q : Nat) :
    Inside cls sel p q ↔ q = p ∨ ∃ attrs, sel p = .sub attrs ∧ Under cls sel (subs cls attrs) q := by
  constructor
  · intro h
    cases h with
    | refl => exact Or.inl rfl
    | step h1 h2 =>
      obtain ⟨attrs, ha, hm⟩ := h1
      exact Or.inr ⟨attrs, ha, _, hm, h2⟩
  · rintro (rfl | ⟨attrs, ha, r, hr, h⟩)
    · exact .refl _
    · exact .step ⟨attrs, ha, hr⟩ h

/-- What one call guarantees. -/
structure ElabSpec (cls : Nat → String) (sel : Nat → Sel M) (procs : List Nat) (r : Elab M) : Prop where
  nodup : (r.map.map Prod.fst).Nodup
  get : ∀ q m, dictGet q r.map = some m ↔ sel q = .leaf m ∧ Under cls sel procs q
  elab_ : ∀ q, q ∈ r.elab_ ↔ Under cls sel procs q
  post : ∀ i p q : Nat, r.elab_[i]? = some p → HasSub cls sel p q → ∃ j, j < i ∧ r.elab_[j]? = some q

theorem elab_spec (cls : Nat → String) (sel : Nat → Sel M) (lim : Nat) : ∀ (procs : List Nat) (par : Nat → Option Nat) (r : Elab M),
    mapProcs cls sel lim procs par = some r → ElabSpec cls sel procs r := by
  induction lim with
  | zero => intro procs par r h; simp [mapProcs] at h
  | succ lim ih =>
    intro procs par r h
    rw [mapProcs] at h
    -- loop invariant
    have loop : ∀ (todo done : List Nat) (e r : Elab M), ElabSpec cls sel done e →
        todo.foldlM (mapStep cls sel (mapProcs cls sel lim)) e = some r → ElabSpec cls sel (done ++ todo) r := by
      intro todo
      induction todo with
      | nil => intro done e r he h; simp at h; subst h; simpa using he
      | cons p todo iht =>
        intro done e r he h
        rw [List.foldlM_cons] at h
        cases hs : mapStep cls sel (mapProcs cls sel lim) e p with
        | none => rw [hs] at h; simp at h
        | some e' =>
          rw [hs] at h
          simp only [Option.bind_eq_bind, Option.bind_some] at h
          have hunder : ∀ q, Under cls sel (done ++ [p]) q ↔ Under cls sel done q ∨ Inside cls sel p q := by
            intro q
            simp only [Under, List.mem_append, List.mem_singleton]
            constructor
            · rintro ⟨x, hx | rfl, hi⟩
              · exact Or.inl ⟨x, hx, hi⟩
              · exact Or.inr hi
            · rintro (⟨x, hx, hi⟩ | hi)
              · exact ⟨x, Or.inl hx, hi⟩
              · exact ⟨p, Or.inr rfl, hi⟩
          have he' : ElabSpec cls sel (done ++ [p]) e' := by
            unfold mapStep at hs
            cases hsel : sel p with
            | leaf m =>
              rw [hsel] at hs
              simp only [Option.some.injEq] at hs
              subst hs
              have hin : ∀ q, Inside cls sel p q ↔ q = p := by
                intro q; rw [inside_cases, hsel]; simp
              refine ⟨?_, ?_, ?_, ?_⟩
              · have := foldl_dictSet_nodup [(p, m)] e.map he.nodup
                simpa using this
              · intro q m'
                simp only
                rw [dictGet_set, hunder, hin]
                by_cases hq : q = p
                · subst hq; simp [hsel]
                · simp only [hq, if_false, or_false]; exact he.get q m'
              · intro q
                simp only [List.mem_append, List.mem_singleton]
                rw [hunder, hin, he.elab_ q]
              · intro i x q hi hsub
                simp only at hi ⊢
                by_cases hlt : i < e.elab_.length
                · rw [List.getElem?_append_left hlt] at hi
                  obtain ⟨j, hj, hq⟩ := he.post i x q hi hsub
                  exact ⟨j, hj, by rw [List.getElem?_append_left (by omega)]; exact hq⟩
                · rw [List.getElem?_append_right (by omega)] at hi
                  have : x = p := by
                    have := List.mem_of_getElem? hi
                    simpa using this
                  subst this
                  obtain ⟨attrs, ha, _⟩ := hsub
                  rw [hsel] at ha
                  simp at ha
            | nothing =>
              rw [hsel] at hs
              simp only [Option.some.injEq] at hs
              subst hs
              have hin : ∀ q, Inside cls sel p q ↔ q = p := by
                intro q; rw [inside_cases, hsel]; simp
              refine ⟨he.nodup, ?_, ?_, ?_⟩
              · intro q m'
                simp only
                rw [hunder, hin]
                by_cases hq : q = p
                · subst hq
                  rw [he.get]
                  simp [hsel]
                · simp only [hq, or_false]; exact he.get q m'
              · intro q
                simp only [List.mem_append, List.mem_singleton]
                rw [hunder, hin, he.elab_ q]
              · intro i x q hi hsub
                simp only at hi ⊢
                by_cases hlt : i < e.elab_.length
                · rw [List.getElem?_append_left hlt] at hi
                  obtain ⟨j, hj, hq⟩ := he.post i x q hi hsub
                  exact ⟨j, hj, by rw [List.getElem?_append_left (by omega)]; exact hq⟩
                · rw [List.getElem?_append_right (by omega)] at hi
                  have : x = p := by
                    have := List.mem_of_getElem? hi
                    simpa using this
                  subst this
                  obtain ⟨attrs, ha, _⟩ := hsub
                  rw [hsel] at ha
                  simp at ha
            | sub attrs =>
              rw [hsel] at hs
              simp only [Option.map_eq_some_iff] at hs
              obtain ⟨s, hs1, hs2⟩ := hs
              subst hs2
              have hS := ih _ _ _ hs1
              have hin : ∀ q, Inside cls sel p q ↔ q = p ∨ Under cls sel (subs cls attrs) q := by
                intro q; rw [inside_cases, hsel]; simp
              refine ⟨foldl_dictSet_nodup _ _ he.nodup, ?_, ?_, ?_⟩
              · intro q m'
                simp only
                rw [foldl_dictSet_get _ _ _ hS.nodup, hunder, hin]
                by_cases hq : q ∈ s.map.map Prod.fst
                · obtain ⟨m, hm⟩ := (dictGet_isSome q s.map).1 hq
                  rw [if_pos hq]
                  have h2 := (hS.get q m).1 hm
                  constructor
                  · intro h3
                    have := (hS.get q m').1 h3
                    exact ⟨this.1, Or.inr (Or.inr this.2)⟩
                  · rintro ⟨h3, _⟩
                    exact (hS.get q m').2 ⟨h3, h2.2⟩
                · rw [if_neg hq, he.get]
                  constructor
                  · rintro ⟨h1, h2⟩; exact ⟨h1, Or.inl h2⟩
                  · rintro ⟨h1, h2 | rfl | h2⟩
                    · exact ⟨h1, h2⟩
                    · rw [hsel] at h1; simp at h1
                    · exact absurd ((dictGet_isSome q s.map).2 ⟨m', (hS.get q m').2 ⟨h1, h2⟩⟩) hq
              · intro q
                simp only [List.mem_append, List.mem_singleton]
                rw [hunder, hin, he.elab_ q, hS.elab_ q]
                tauto
              · intro i x q hi hsub
                simp only at hi ⊢
                by_cases hlt : i < e.elab_.length
                · rw [List.append_assoc, List.getElem?_append_left hlt] at hi
                  obtain ⟨j, hj, hq⟩ := he.post i x q hi hsub
                  exact ⟨j, hj, by rw [List.append_assoc, List.getElem?_append_left (by omega)]; exact hq⟩
                · rw [List.append_assoc, List.getElem?_append_right (by omega)] at hi
                  by_cases hlt2 : i - e.elab_.length < s.elab_.length
                  · rw [List.getElem?_append_left hlt2] at hi
                    obtain ⟨j, hj, hq⟩ := hS.post _ x q hi hsub
                    refine ⟨e.elab_.length + j, by omega, ?_⟩
                    rw [List.append_assoc, List.getElem?_append_right (by omega), Nat.add_sub_cancel_left,
                      List.getElem?_append_left (by omega)]
                    exact hq
                  · rw [List.getElem?_append_right (by omega)] at hi
                    have hx : x = p := by
                      have := List.mem_of_getElem? hi
                      simpa using this
                    subst hx
                    obtain ⟨attrs', ha, hm⟩ := hsub
                    rw [hsel] at ha
                    simp only [Sel.sub.injEq] at ha
                    subst ha
                    have hmem : q ∈ s.elab_ := (hS.elab_ q).2 ⟨q, hm, .refl _⟩
                    obtain ⟨j, hj, hjq⟩ := List.mem_iff_getElem.1 hmem
                    refine ⟨e.elab_.length + j, by omega, ?_⟩
                    rw [List.append_assoc, List.getElem?_append_right (by omega), Nat.add_sub_cancel_left,
                      List.getElem?_append_left hj, List.getElem?_eq_getElem hj, hjq]
          have := iht (done ++ [p]) e' r he' h
          simpa using this
    have h0 : ElabSpec cls sel [] ({ map := [], elab_ := [], parent := par } : Elab M) :=
      ⟨by simp, by intro q m; simp [dictGet, Under], by intro q; simp [Under], by intro i p q hi; simp at hi⟩
    simpa using loop procs [] _ r h0 h

/-! ## Theorems -/

/-- **C83.** Whenever the mapping of processes to process models returns, it contains every process that is found at any depth inside the
given processes and has a leaf model, with that model, and nothing else: no hierarchical process, no process twice. -/
theorem C83_leaves_exact (cls : Nat → String) (sel : Nat → Sel M) (lim : Nat) (procs : List Nat) (par : Nat → Option Nat) (r : Elab M)
    (h : mapProcs cls sel lim procs par = some r) :
    (r.map.map Prod.fst).Nodup ∧
    ∀ q m, dictGet q r.map = some m ↔ sel q = .leaf m ∧ ∃ p ∈ procs, Inside cls sel p q :=
  ⟨(elab_spec cls sel lim procs par r h).nodup, (elab_spec cls sel lim procs par r h).get⟩

/-- **C83.** The list of elaborated processes has every process at every depth, sub processes before the process they belong to. -/
theorem C83_elaborated (cls : Nat → String) (sel : Nat → Sel M) (lim : Nat) (procs : List Nat) (par : Nat → Option Nat) (r : Elab M)
    (h : mapProcs cls sel lim procs par = some r) :
    (∀ q, q ∈ r.elab_ ↔ ∃ p ∈ procs, Inside cls sel p q) ∧
    ∀ i p q : Nat, r.elab_[i]? = some p → HasSub cls sel p q → ∃ j, j < i ∧ r.elab_[j]? = some q :=
  ⟨(elab_spec cls sel lim procs par r h).elab_, (elab_spec cls sel lim procs par r h).post⟩

/-- **C83.** The mapping returns if the nesting is well founded and below the recursion limit. -/
theorem C83_returns (cls : Nat → String) (sel : Nat → Sel M) (depth : Nat → Nat)
    (hd : ∀ p q, HasSub cls sel p q → depth q < depth p) : ∀ (lim : Nat) (procs : List Nat) (par : Nat → Option Nat),
    (∀ p ∈ procs, depth p + 1 < lim) → 0 < lim → ∃ r, mapProcs cls sel lim procs par = some r := by
  intro lim
  induction lim with
  | zero => intro _ _ _ h; omega
  | succ lim ih =>
    intro procs par hp _
    rw [mapProcs]
    generalize ({ map := [], elab_ := [], parent := par } : Elab M) = e
    induction procs generalizing e with
    | nil => exact ⟨e, rfl⟩
    | cons p procs ihp =>
      rw [List.foldlM_cons]
      have hstep : ∃ e', mapStep cls sel (mapProcs cls sel lim) e p = some e' := by
        unfold mapStep
        cases hsel : sel p with
        | leaf m => exact ⟨_, rfl⟩
        | nothing => exact ⟨_, rfl⟩
        | sub attrs =>
          have hdp := hp p (by simp)
          obtain ⟨s, hs⟩ := ih (subs cls attrs) (register e.parent p (subs cls attrs)) (by
              intro q hq
              have := hd p q ⟨attrs, hsel, hq⟩
              omega) (by omega)
          simp only [hs, Option.map_some]
          exact ⟨_, rfl⟩
      obtain ⟨e', he'⟩ := hstep
      rw [he']
      exact ihp (fun q hq => hp q (by simp [hq])) e'

/-- **C83.** If every process of a set has a sub process in the set, mapping a process of the set never returns, at any recursion limit. -/
theorem C83_endless_nesting_never_returns (cls : Nat → String) (sel : Nat → Sel M) (S : Nat → Prop)
    (hS : ∀ p, S p → ∃ q, HasSub cls sel p q ∧ S q) (lim : Nat) : ∀ (procs : List Nat) (par : Nat → Option Nat),
    (∃ p ∈ procs, S p) → mapProcs cls sel lim procs par = none := by
  induction lim with
  | zero => intro _ _ _; rfl
  | succ lim ih =>
    intro procs par
    rw [mapProcs]
    generalize ({ map := [], elab_ := [], parent := par } : Elab M) = e
    induction procs generalizing e with
    | nil => rintro ⟨p, hp, _⟩; simp at hp
    | cons a procs ihp =>
      rintro ⟨p, hp, hSp⟩
      rw [List.foldlM_cons]
      by_cases ha : S a
      · obtain ⟨q, ⟨attrs, hsel, hq⟩, hSq⟩ := hS a ha
        have hn : mapStep cls sel (mapProcs cls sel lim) e a = none := by
          unfold mapStep
          rw [hsel]
          simp only [ih (subs cls attrs) _ ⟨q, hq, hSq⟩, Option.map_none]
        rw [hn]
        rfl
      · cases hs : mapStep cls sel (mapProcs cls sel lim) e a with
        | none => rfl
        | some e' =>
          refine ihp e' ⟨p, ?_, hSp⟩
          simp only [List.mem_cons] at hp
          rcases hp with h | h
          · subst h; exact absurd hSp ha
          · exact h

/-- A SubProcessModel that keeps the process it implements as an attribute (`self.proc = proc`): the test against `implements_process`
(sub/model.py:62-63) compares an object with a class and never excludes it, so the expansion never ends. -/
theorem C83_witness_model_keeps_its_process (m : M) (lim : Nat) (par : Nat → Option Nat) :
    mapProcs (fun _ => "Net") (fun p => if p = 0 then .sub [("layer", .proc 1), ("proc", .proc 0)] else .leaf m) lim [0] par = none := by
  refine C83_endless_nesting_never_returns _ _ (fun p => p = 0) ?_ lim _ _ ⟨0, by simp, rfl⟩
  rintro p rfl
  exact ⟨0, ⟨_, rfl, by decide⟩, rfl⟩

/-! ### Parents -/

/-- What one call does to `parent_proc`. -/
structure ParSpec (cls : Nat → String) (sel : Nat → Sel M) (procs : List Nat) (par : Nat → Option Nat) (r : Elab M) : Prop where
  from_ : ∀ q, r.parent q = par q ∨ ∃ p, r.parent q = some p ∧ HasSub cls sel p q ∧ Under cls sel procs p
  set : ∀ p q, Under cls sel procs p → HasSub cls sel p q →
    ∃ p', r.parent q = some p' ∧ HasSub cls sel p' q ∧ Under cls sel procs p'

theorem par_spec (cls : Nat → String) (sel : Nat → Sel M) (lim : Nat) : ∀ (procs : List Nat) (par : Nat → Option Nat) (r : Elab M),
    mapProcs cls sel lim procs par = some r → ParSpec cls sel procs par r := by
  induction lim with
  | zero => intro procs par r h; simp [mapProcs] at h
  | succ lim ih =>
    intro procs par r h
    rw [mapProcs] at h
    have loop : ∀ (todo done : List Nat) (e r : Elab M), ParSpec cls sel done par e →
        todo.foldlM (mapStep cls sel (mapProcs cls sel lim)) e = some r → ParSpec cls sel (done ++ todo) par r := by
      intro todo
      induction todo with
      | nil => intro done e r he h; simp at h; subst h; simpa using he
      | cons p todo iht =>
        intro done e r he h
        rw [List.foldlM_cons] at h
        cases hs : mapStep cls sel (mapProcs cls sel lim) e p with
        | none => rw [hs] at h; simp at h
        | some e' =>
          rw [hs] at h
          simp only [Option.bind_eq_bind, Option.bind_some] at h
          have hl : ∀ q, Under cls sel done q → Under cls sel (done ++ [p]) q := by
            rintro q ⟨x, hx, hi⟩; exact ⟨x, by simp [hx], hi⟩
          have hr : ∀ q, Inside cls sel p q → Under cls sel (done ++ [p]) q := fun q hi => ⟨p, by simp, hi⟩
          have hcases : ∀ q, Under cls sel (done ++ [p]) q → Under cls sel done q ∨ Inside cls sel p q := by
            rintro q ⟨x, hx, hi⟩
            simp only [List.mem_append, List.mem_singleton] at hx
            rcases hx with hx | hx
            · exact Or.inl ⟨x, hx, hi⟩
            · subst hx; exact Or.inr hi
          have he' : ParSpec cls sel (done ++ [p]) par e' := by
            unfold mapStep at hs
            have same : (∀ attrs, sel p ≠ .sub attrs) → e'.parent = e.parent → ParSpec cls sel (done ++ [p]) par e' := by
              intro hns hpar
              refine ⟨?_, ?_⟩
              · intro q
                rw [hpar]
                rcases he.from_ q with h | ⟨x, h1, h2, h3⟩
                · exact Or.inl h
                · exact Or.inr ⟨x, h1, h2, hl _ h3⟩
              · intro x q hx hsub
                rw [hpar]
                have : Under cls sel done x := by
                  rcases hcases x hx with h | h
                  · exact h
                  · rw [inside_cases] at h
                    rcases h with rfl | ⟨attrs, ha, _⟩
                    · obtain ⟨attrs, ha, _⟩ := hsub; exact absurd ha (hns attrs)
                    · exact absurd ha (hns attrs)
                obtain ⟨p', h1, h2, h3⟩ := he.set x q this hsub
                exact ⟨p', h1, h2, hl _ h3⟩
            cases hsel : sel p with
            | leaf m =>
              rw [hsel] at hs
              simp only [Option.some.injEq] at hs
              exact same (by simp [hsel]) (by rw [← hs])
            | nothing =>
              rw [hsel] at hs
              simp only [Option.some.injEq] at hs
              exact same (by simp [hsel]) (by rw [← hs])
            | sub attrs =>
              rw [hsel] at hs
              simp only [Option.map_eq_some_iff] at hs
              obtain ⟨s, hs1, hs2⟩ := hs
              subst hs2
              have hS := ih _ _ _ hs1
              have hin : ∀ q, Under cls sel (subs cls attrs) q → Inside cls sel p q := by
                intro q hq; rw [inside_cases]; exact Or.inr ⟨attrs, hsel, hq⟩
              -- where the parent of `q` comes from
              have hfrom : ∀ q, s.parent q = e.parent q ∨
                  ∃ x, s.parent q = some x ∧ HasSub cls sel x q ∧ Under cls sel (done ++ [p]) x := by
                intro q
                rcases hS.from_ q with h1 | ⟨x, h1, h2, h3⟩
                · unfold register at h1
                  by_cases hq : q ∈ subs cls attrs
                  · rw [if_pos hq] at h1
                    exact Or.inr ⟨p, h1, ⟨attrs, hsel, hq⟩, hr _ (.refl _)⟩
                  · rw [if_neg hq] at h1; exact Or.inl h1
                · exact Or.inr ⟨x, h1, h2, hr _ (hin _ h3)⟩
              refine ⟨?_, ?_⟩
              · intro q
                simp only
                rcases hfrom q with h1 | h1
                · rw [h1]
                  rcases he.from_ q with h | ⟨x, h1, h2, h3⟩
                  · exact Or.inl h
                  · exact Or.inr ⟨x, h1, h2, hl _ h3⟩
                · exact Or.inr h1
              · intro x q hx hsub
                simp only
                rcases hcases x hx with h | h
                · obtain ⟨p', h1, h2, h3⟩ := he.set x q h hsub
                  rcases hfrom q with h4 | h4
                  · exact ⟨p', by rw [h4, h1], h2, hl _ h3⟩
                  · exact h4
                · rw [inside_cases] at h
                  rcases h with rfl | ⟨attrs', ha, hu⟩
                  · obtain ⟨attrs', ha, hq⟩ := hsub
                    rw [hsel] at ha
                    simp only [Sel.sub.injEq] at ha
                    subst ha
                    rcases hS.from_ q with h1 | ⟨y, h1, h2, h3⟩
                    · unfold register at h1
                      rw [if_pos hq] at h1
                      exact ⟨_, h1, ⟨attrs, hsel, hq⟩, hr _ (.refl _)⟩
                    · exact ⟨y, h1, h2, hr _ (hin _ h3)⟩
                  · rw [hsel] at ha
                    simp only [Sel.sub.injEq] at ha
                    subst ha
                    obtain ⟨p', h1, h2, h3⟩ := hS.set x q hu hsub
                    exact ⟨p', h1, h2, hr _ (hin _ h3)⟩
          have := iht (done ++ [p]) e' r he' h
          simpa using this
    have h0 : ParSpec cls sel [] par ({ map := [], elab_ := [], parent := par } : Elab M) :=
      ⟨fun q => Or.inl rfl, by rintro p q ⟨x, hx, _⟩; simp at hx⟩
    simpa using loop procs [] _ r h0 h

theorem inside_snoc (cls : Nat → String) (sel : Nat → Sel M) {p q r : Nat} (h : Inside cls sel p q) (h2 : HasSub cls sel q r) :
    Inside cls sel p r := by
  induction h with
  | refl p => exact .step h2 (.refl _)
  | step h1 _ ih => exact .step h1 (ih h2)

theorem inside_last (cls : Nat → String) (sel : Nat → Sel M) {p r : Nat} (h : Inside cls sel p r) :
    r = p ∨ ∃ q, Inside cls sel p q ∧ HasSub cls sel q r := by
  induction h with
  | refl p => exact Or.inl rfl
  | @step p q r h1 _ ih =>
    right
    rcases ih with h | ⟨x, hx, hx2⟩
    · subst h; exact ⟨p, .refl _, h1⟩
    · exact ⟨x, .step h1 hx, hx2⟩

theorem under_inside (cls : Nat → String) (sel : Nat → Sel M) {procs : List Nat} {p q : Nat} (h : Under cls sel procs p)
    (h2 : Inside cls sel p q) : Under cls sel procs q := by
  obtain ⟨x, hx, hi⟩ := h
  refine ⟨x, hx, ?_⟩
  induction h2 with
  | refl => exact hi
  | step h1 _ ih => exact ih (inside_snoc cls sel hi h1)

/-- **C83.** If no process is a sub process of two processes and nothing had a parent before, then after the expansion
`q.is_sub_proc_of(p)` is true exactly when `q` is strictly inside `p`, for all processes that were expanded. -/
theorem C83_is_sub_proc_of (cls : Nat → String) (sel : Nat → Sel M) (depth : Nat → Nat)
    (hd : ∀ p q, HasSub cls sel p q → depth q < depth p) (huniq : ∀ p p' q, HasSub cls sel p q → HasSub cls sel p' q → p = p')
    (lim : Nat) (procs : List Nat) (r : Elab M) (h : mapProcs cls sel lim procs (fun _ => none) = some r)
    (bound : Nat) (hb : ∀ p, Under cls sel procs p → depth p < bound) :
    ∀ (n q p : Nat), Under cls sel procs q → Under cls sel procs p → bound - depth q ≤ n →
      ∃ b, isSubProcOf r.parent n q p = some b ∧ (b = true ↔ q ≠ p ∧ Inside cls sel p q) := by
  have hP := par_spec cls sel lim procs _ r h
  intro n
  induction n with
  | zero => intro q p hq _ hn; have := hb q hq; omega
  | succ n ih =>
    intro q p hq hp hn
    unfold isSubProcOf
    cases hpar : r.parent q with
    | none =>
      refine ⟨false, rfl, ?_⟩
      simp only [Bool.false_eq_true, false_iff, not_and]
      intro hne hin
      rcases inside_last cls sel hin with h | ⟨x, hx, hx2⟩
      · exact hne h
      · obtain ⟨p', h1, _⟩ := hP.set x q (under_inside cls sel hp hx) hx2
        rw [hpar] at h1
        simp at h1
    | some y =>
      rcases hP.from_ q with h1 | ⟨x, h1, h2, h3⟩
      · rw [hpar] at h1; simp at h1
      · rw [hpar] at h1
        simp only [Option.some.injEq] at h1
        subst h1
        simp only
        by_cases hyp : y = p
        · subst hyp
          rw [if_pos rfl]
          refine ⟨true, rfl, ?_⟩
          simp only [true_iff]
          refine ⟨?_, .step h2 (.refl _)⟩
          rintro rfl
          have := hd _ _ h2
          omega
        · rw [if_neg hyp]
          have hdy := hd y q h2
          obtain ⟨b, hb1, hb2⟩ := ih y p h3 hp (by have := hb y h3; omega)
          refine ⟨b, hb1, hb2.trans ?_⟩
          constructor
          · rintro ⟨_, hin⟩
            refine ⟨?_, inside_snoc cls sel hin h2⟩
            rintro rfl
            -- `q` inside itself: its depth would decrease
            have hmono : ∀ a b, Inside cls sel a b → depth b ≤ depth a := by
              intro a b hab
              induction hab with
              | refl => exact Nat.le_refl _
              | step h1 _ ih => have := hd _ _ h1; omega
            have := hmono _ _ hin
            omega
          · rintro ⟨hne, hin⟩
            refine ⟨hyp, ?_⟩
            rcases inside_last cls sel hin with h | ⟨x, hx, hx2⟩
            · exact absurd h hne
            · rw [huniq y x q h2 hx2]; exact hx

/-! ### A non-trivial case -/

/-- Process 0 is a network of a leaf 1 and a network 2, which holds the leaves 3 and 4 in a dataclass. -/
def exSel : Nat → Sel String := fun p =>
  if p = 0 then .sub [("inner", .proc 2), ("layer", .proc 1), ("name", .other)]
  else if p = 2 then .sub [("parts", .data [3, 4])]
  else .leaf "PyModel"

/-- Class names of the example. -/
def exCls : Nat → String := fun p => if p = 3 then "Dense" else "LIF"

/-- The hypotheses of the theorems above hold of the example, and the result is not trivial. -/
theorem C83_example :
    (∃ r, mapProcs exCls exSel 4 [0] (fun _ => none) = some r ∧ r.map.map Prod.fst = [3, 4, 1] ∧ r.elab_ = [3, 4, 2, 1, 0]) ∧
    (∀ p q, HasSub exCls exSel p q → (if q = 0 then 2 else if q = 2 then 1 else 0) < (if p = 0 then 2 else if p = 2 then 1 else 0)) ∧
    (∀ p p' q, HasSub exCls exSel p q → HasSub exCls exSel p' q → p = p') := by
  have key : ∀ p q, HasSub exCls exSel p q ↔ (p = 0 ∧ (q = 2 ∨ q = 1)) ∨ (p = 2 ∧ (q = 3 ∨ q = 4)) := by
    intro p q
    unfold HasSub exSel
    by_cases h0 : p = 0
    · subst h0
      have : subs exCls [("inner", .proc 2), ("layer", .proc 1), ("name", .other)] = [2, 1] := by decide
      simp [this]
    · by_cases h2 : p = 2
      · subst h2
        have : subs exCls [("parts", .data [3, 4])] = [3, 4] := by decide
        simp [this]
      · simp [h0, h2]
  refine ⟨?_, ?_, ?_⟩
  · have h : (mapProcs exCls exSel 4 [0] (fun _ => none)).map (fun r => (r.map.map Prod.fst, r.elab_)) = some ([3, 4, 1], [3, 4, 2, 1, 0]) := by
      decide
    obtain ⟨r, h1, h2⟩ := Option.map_eq_some_iff.1 h
    simp only [Prod.mk.injEq] at h2
    exact ⟨r, h1, h2⟩
  · intro p q h
    rcases (key p q).1 h with ⟨rfl, rfl | rfl⟩ | ⟨rfl, rfl | rfl⟩ <;> decide
  · intro p p' q h h'
    rcases (key p q).1 h with ⟨rfl, rfl | rfl⟩ | ⟨rfl, rfl | rfl⟩ <;>
      rcases (key p' _).1 h' with ⟨rfl, h | h⟩ | ⟨rfl, h | h⟩ <;> first | rfl | omega

end Verif.Graphs
