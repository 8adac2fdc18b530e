import Verif.RunCfg.Model
import Mathlib.Data.List.Basic

/-!
# C32: the run configuration selects a compatible model
-/

namespace Verif.RunCfg

theorem idxs_cons (f : Pm → Bool) (a : Pm) (l : List Pm) :
    idxs f (a :: l) = (if f a then [0] else []) ++ (idxs f l).map (· + 1) := by
  simp only [idxs, List.length_cons, List.range_succ_eq_map, List.filter_cons, List.getElem?_cons_zero,
    Option.map_some, Option.getD_some]
  have : (List.map Nat.succ (List.range l.length)).filter (fun i => ((a :: l)[i]?.map f).getD false) =
      ((List.range l.length).filter fun i => (l[i]?.map f).getD false).map (· + 1) := by
    rw [List.filter_map]
    rfl
  rw [this]
  split <;> rfl

/-- The models at the selected indices. -/
theorem idxs_models (f : Pm → Bool) (l : List Pm) : (idxs f l).map (fun i => l[i]?) = (l.filter f).map some := by
  induction l with
  | nil => rfl
  | cons a l ih =>
    rw [idxs_cons, List.map_append, List.map_map]
    have : (fun i => (a :: l)[i]?) ∘ (· + 1) = fun i => l[i]? := by funext i; simp
    rw [this, ih, List.filter_cons]
    cases f a <;> simp

theorem idxs_mem {f : Pm → Bool} {l : List Pm} {i : Nat} (h : i ∈ idxs f l) : ∃ pm, l[i]? = some pm ∧ f pm = true := by
  simp only [idxs, List.mem_filter, List.mem_range] at h
  cases hl : l[i]? with
  | none => rw [hl] at h; simp at h
  | some pm => rw [hl] at h; exact ⟨pm, rfl, by simpa using h.2⟩

/-- Choice of the first acceptable index of a list of indices is the first acceptable model. -/
theorem first_of (l : List Pm) (ok : Pm → Bool) (ks : List Nat) (ms : List Pm)
    (h : ks.map (fun i => l[i]?) = ms.map some) :
    (ks.filter fun k => (l[k]?.map ok).getD false).head?.bind (fun k => l[k]?) = ms.find? ok := by
  induction ks generalizing ms with
  | nil => cases ms with
    | nil => rfl
    | cons => simp at h
  | cons k ks ih =>
    cases ms with
    | nil => simp at h
    | cons m ms =>
      simp only [List.map_cons, List.cons.injEq] at h
      rw [List.filter_cons, h.1]
      simp only [Option.map_some, Option.getD_some, List.find?_cons]
      by_cases hk : ok m = true
      · simp [hk, h.1]
      · have hk' : ok m = false := by simpa using hk
        simp only [hk', Bool.false_eq_true, if_false]
        exact ih ms h.2

/-- Models in order of preference. -/
def preferred (t : Target) (l : List Pm) : List Pm :=
  match t with
  | .sim => l.filter Pm.py
  | .hw => l.filter Pm.nc ++ l.filter Pm.c ++ l.filter Pm.py

theorem order_models (t : Target) (l : List Pm) : (order t l).map (fun i => l[i]?) = (preferred t l).map some := by
  cases t with
  | sim => exact idxs_models _ _
  | hw => simp only [order, preferred, List.map_append, idxs_models]

/-- Whether a model has the tag asked for, if any. -/
def tagOk (tag : Option String) (pm : Pm) : Bool :=
  match tag with
  | none => true
  | some t => decide (t ∈ pm.tags)

theorem selectLeaf_eq (cfg : Cfg) (l : List Pm) :
    (selectLeaf cfg l).toOption = (preferred cfg.target l).find? (tagOk cfg.tag) := by
  have h := order_models cfg.target l
  unfold selectLeaf
  cases ho : order cfg.target l with
  | nil =>
    rw [ho] at h
    have : preferred cfg.target l = [] := by simpa using h.symm
    rw [this]; rfl
  | cons i is =>
    rw [ho] at h
    cases htag : cfg.tag with
    | none =>
      cases hp : preferred cfg.target l with
      | nil => rw [hp] at h; simp at h
      | cons m ms =>
        rw [hp] at h
        simp only [List.map_cons, List.cons.injEq] at h
        simp only [pick, h.1]
        rfl
    | some t =>
      have hf := first_of l (tagOk (some t)) (i :: is) (preferred cfg.target l) h
      have hsame : ((i :: is).filter fun k => (l[k]?.map fun pm => decide (t ∈ pm.tags)).getD false) =
          ((i :: is).filter fun k => (l[k]?.map (tagOk (some t))).getD false) := rfl
      simp only [hsame]
      rw [← hf]
      cases hl : (i :: is).filter fun k => (l[k]?.map (tagOk (some t))).getD false with
      | nil => rfl
      | cons k ks =>
        have hk : k ∈ (i :: is).filter fun k => (l[k]?.map (tagOk (some t))).getD false := by rw [hl]; simp
        have hk2 := (List.mem_filter.1 hk).2
        simp only [List.head?_cons, Option.bind_some, pick]
        cases hlk : l[k]? with
        | none => rw [hlk] at hk2; simp at hk2
        | some pm => rfl

/-- **C32.** An exception given by the user decides, whatever the other settings. -/
theorem C32_exception_first (cfg : Cfg) (l : List Pm) (pm : Pm) (hl : l ≠ []) (h : cfg.exc = some pm) :
    select cfg l = .ok pm := by
  cases l with
  | nil => exact absurd rfl hl
  | cons a l => simp only [select, h]

/-- **C32.** With several models and no preference for SubProcessModels, the simulation configuration picks the first
Python model with the tag, and refuses if there is none. -/
theorem C32_simulation_choice (cfg : Cfg) (l : List Pm) (hl : 2 ≤ l.length) (he : cfg.exc = none)
    (ht : cfg.target = .sim) (hs : cfg.selectSub = false ∨ ∀ pm ∈ l, pm.sub = false) :
    (select cfg l).toOption = l.find? fun pm => pm.py && tagOk cfg.tag pm := by
  have hleaf : select cfg l = selectLeaf cfg l := by
    match l, hl with
    | a :: b :: l, _ =>
      simp only [select, he, List.cons_ne_nil, if_false]
      rw [if_neg]
      rintro ⟨h1, h2⟩
      rcases hs with h3 | h3
      · rw [h3] at h1; cases h1
      · obtain ⟨i, hi⟩ := List.exists_mem_of_length_pos h2
        obtain ⟨pm, h4, h5⟩ := idxs_mem hi
        rw [h3 pm (List.mem_of_getElem? h4)] at h5; cases h5
  rw [hleaf, selectLeaf_eq, ht]
  simp only [preferred]
  rw [List.find?_filter]
  congr 1
  funext pm
  cases pm.py <;> simp

/-- **C32.** The hardware configurations prefer Nc models, then C models, then Python models, in list order within each
kind, among those with the tag. -/
theorem C32_hardware_choice (cfg : Cfg) (l : List Pm) (hl : 2 ≤ l.length) (he : cfg.exc = none)
    (ht : cfg.target = .hw) (hs : cfg.selectSub = false ∨ ∀ pm ∈ l, pm.sub = false) :
    (select cfg l).toOption = ((l.find? fun pm => pm.nc && tagOk cfg.tag pm).or
      ((l.find? fun pm => pm.c && tagOk cfg.tag pm).or (l.find? fun pm => pm.py && tagOk cfg.tag pm))) := by
  have hleaf : select cfg l = selectLeaf cfg l := by
    match l, hl with
    | a :: b :: l, _ =>
      simp only [select, he, List.cons_ne_nil, if_false]
      rw [if_neg]
      rintro ⟨h1, h2⟩
      rcases hs with h3 | h3
      · rw [h3] at h1; cases h1
      · obtain ⟨i, hi⟩ := List.exists_mem_of_length_pos h2
        obtain ⟨pm, h4, h5⟩ := idxs_mem hi
        rw [h3 pm (List.mem_of_getElem? h4)] at h5; cases h5
  rw [hleaf, selectLeaf_eq, ht]
  simp only [preferred, List.find?_append, List.find?_filter, Option.or_assoc]
  congr 1
  · congr 1; funext pm; cases pm.nc <;> simp
  · congr 1
    · congr 1; funext pm; cases pm.c <;> simp
    · congr 1; funext pm; cases pm.py <;> simp

/-- **C32.** A single model is used exactly if it is a SubProcessModel or fits the backend, and has the tag or no tags at
all. -/
theorem C32_single_model (cfg : Cfg) (pm : Pm) (he : cfg.exc = none) :
    select cfg [pm] = .ok pm ↔
      (pm.sub = true ∨ supported cfg.target pm = true) ∧ (cfg.tag = none ∨ pm.tags = [] ∨ ∃ t, cfg.tag = some t ∧ t ∈ pm.tags) := by
  simp only [select, he, if_true, selectOne]
  by_cases h1 : pm.sub = true ∨ supported cfg.target pm = true
  · rw [if_neg (fun h => h h1)]
    cases htag : cfg.tag with
    | none => simp [h1]
    | some t =>
      by_cases h2 : pm.tags = []
      · simp [h1, h2]
      · have h3 : ¬ pm.tags.length = 0 := by simpa using h2
        by_cases h4 : t ∈ pm.tags <;> simp [h1, h2, h4]
  · rw [if_pos h1]
    simp [h1]

/-- **C32.** What is selected is one of the offered models, unless it is the exception. -/
theorem C32_selected_is_offered (cfg : Cfg) (l : List Pm) (pm : Pm) (he : cfg.exc = none)
    (h : select cfg l = .ok pm) : pm ∈ l := by
  have hpick : ∀ i, pick l i = .ok pm → pm ∈ l := by
    intro i hi
    simp only [pick] at hi
    split at hi
    · rename_i x hx; cases hi; exact List.mem_of_getElem? hx
    · cases hi
  cases l with
  | nil => simp [select] at h
  | cons a l =>
    simp only [select, he] at h
    split at h
    · simp only [selectOne] at h
      split at h
      · cases h
      · split at h
        · cases h; simp
        · split at h
          · cases h; simp
          · split at h
            · cases h; simp
            · cases h
    · split at h
      · simp only [selectSubs] at h
        split at h
        · exact hpick _ h
        · split at h
          · exact hpick _ h
          · split at h
            · cases h
            · cases h
            · exact hpick _ h
      · simp only [selectLeaf] at h
        split at h
        · cases h
        · split at h
          · exact hpick _ h
          · split at h
            · cases h
            · exact hpick _ h

/-- **C32.** Without a tag, or with a single one offered, the first SubProcessModel is selected. -/
theorem C32_sub_model (cfg : Cfg) (l : List Pm) (hl : 2 ≤ l.length) (he : cfg.exc = none)
    (hs : cfg.selectSub = true) (ht : cfg.tag = none ∨ (l.filter Pm.sub).length = 1) (hex : ∃ pm ∈ l, pm.sub = true) :
    (select cfg l).toOption = l.find? Pm.sub := by
  have hm := idxs_models Pm.sub l
  have hlen : (idxs Pm.sub l).length = (l.filter Pm.sub).length := by simpa using congrArg List.length hm
  have hpos : 0 < (idxs Pm.sub l).length := by
    rw [hlen]
    obtain ⟨pm, h1, h2⟩ := hex
    exact List.length_pos_of_mem (List.mem_filter.2 ⟨h1, h2⟩)
  have hsel : select cfg l = selectSubs cfg l := by
    match l, hl with
    | a :: b :: l, _ =>
      simp only [select, he, List.cons_ne_nil, if_false]
      rw [if_pos ⟨hs, hpos⟩]
  have hfst : (pick l ((idxs Pm.sub l).headD 0)).toOption = l.find? Pm.sub := by
    cases hi : idxs Pm.sub l with
    | nil => rw [hi] at hpos; simp at hpos
    | cons i is =>
      rw [hi] at hm
      cases hf : l.filter Pm.sub with
      | nil => rw [hf] at hm; simp at hm
      | cons m ms =>
        rw [hf] at hm
        simp only [List.map_cons, List.cons.injEq] at hm
        rw [← List.head?_filter, hf]
        simp only [List.headD_cons, pick, hm.1]; rfl
  rw [hsel]
  simp only [selectSubs]
  split
  · exact hfst
  · rename_i h1
    rcases ht with h2 | h2
    · rw [h2]; exact hfst
    · rw [← hlen] at h2; exact absurd h2 h1

theorem idxs_long {f : Pm → Bool} : ∀ {l : List Pm}, idxs f l ≠ [] → ∃ k ∈ idxs f l, (idxs f l).length ≤ k + 1
  | [], h => absurd rfl h
  | a :: l, h => by
    rw [idxs_cons] at h ⊢
    by_cases hl : idxs f l = []
    · rw [hl] at h ⊢
      cases ha : f a with
      | false => rw [ha] at h; simp at h
      | true => exact ⟨0, by simp, by simp⟩
    · obtain ⟨k, hk, hk2⟩ := idxs_long hl
      refine ⟨k + 1, by simp [hk], ?_⟩
      cases f a <;> simp <;> omega

theorem idxs_gap {f : Pm → Bool} : ∀ {l : List Pm} {i j : Nat} {a b : Pm}, i < j → l[i]? = some a → f a = false →
    l[j]? = some b → f b = true → ∃ k ∈ idxs f l, (idxs f l).length ≤ k
  | [], _, _, _, _, _, h, _, _, _ => by simp at h
  | c :: l, i, j, a, b, hij, hi, ha, hj, hb => by
    obtain ⟨j', rfl⟩ : ∃ j', j = j' + 1 := ⟨j - 1, by omega⟩
    simp only [List.getElem?_cons_succ] at hj
    rw [idxs_cons]
    cases i with
    | zero =>
      simp only [List.getElem?_cons_zero, Option.some.injEq] at hi
      subst hi
      have hne : idxs f l ≠ [] := by
        have hlt : j' < l.length := (List.getElem?_eq_some_iff.1 hj).1
        have : j' ∈ idxs f l := List.mem_filter.2 ⟨List.mem_range.2 hlt, by rw [hj]; exact hb⟩
        intro h0; rw [h0] at this; simp at this
      obtain ⟨k, hk, hk2⟩ := idxs_long hne
      exact ⟨k + 1, by simp [hk], by simp [ha]; omega⟩
    | succ i =>
      simp only [List.getElem?_cons_succ] at hi
      obtain ⟨k, hk, hk2⟩ := idxs_gap (by omega) hi ha hj hb
      refine ⟨k + 1, by simp [hk], ?_⟩
      cases f c <;> simp <;> omega

theorem validSubs_none (l : List Pm) (t : String) (subs : List Nat) : ∀ (ks : List Nat),
    (∃ k ∈ ks, subs.length ≤ k) → validSubs l t subs ks = none
  | [], h => by obtain ⟨k, h, _⟩ := h; cases h
  | x :: ks, h => by
    simp only [validSubs]
    cases hx : subs[x]? with
    | none => rfl
    | some j =>
      cases hj : l[j]? with
      | none => simp only [hj]
      | some pm =>
        have hlt : x < subs.length := (List.getElem?_eq_some_iff.1 hx).1
        obtain ⟨k, hk, hk2⟩ := h
        rcases List.mem_cons.1 hk with rfl | hk
        · omega
        · simp only [hj, validSubs_none l t subs ks ⟨k, hk, hk2⟩, Option.map_none]

theorem idxs_prefix {f : Pm → Bool} : ∀ {A B : List Pm}, (∀ a ∈ A, f a = true) → (∀ b ∈ B, f b = false) →
    idxs f (A ++ B) = List.range A.length
  | [], B, _, hB => by
    simp only [List.nil_append, List.length_nil, List.range_zero]
    rw [List.eq_nil_iff_forall_not_mem]
    intro k hk
    obtain ⟨pm, h1, h2⟩ := idxs_mem hk
    rw [hB pm (List.mem_of_getElem? h1)] at h2; cases h2
  | a :: A, B, hA, hB => by
    rw [List.cons_append, idxs_cons, idxs_prefix (fun x hx => hA x (by simp [hx])) hB, hA a (by simp)]
    simp [List.range_succ_eq_map]

theorem validSubs_range (l : List Pm) (t : String) (n : Nat) (hn : n ≤ l.length) : ∀ (ks : List Nat),
    (∀ k ∈ ks, k < n) → validSubs l t (List.range n) ks =
      some (ks.filter fun k => (l[k]?.map fun pm => decide (t ∈ pm.tags)).getD false)
  | [], _ => rfl
  | x :: ks, h => by
    have hx : x < n := h x (by simp)
    have hl : l[x]? = some (l[x]'(by omega)) := List.getElem?_eq_getElem _
    simp only [validSubs, List.getElem?_range hx, hl, validSubs_range l t n hn ks (fun k hk => h k (by simp [hk])),
      Option.map_some, List.filter_cons, Option.getD_some, decide_eq_true_eq]

/-- **C32.** Several SubProcessModels and a tag, the SubProcessModels listed first: the first one with the tag is
selected. -/
theorem C32_tagged_sub_model (cfg : Cfg) (A B : List Pm) (t : String) (he : cfg.exc = none) (hs : cfg.selectSub = true)
    (ht : cfg.tag = some t) (hA : ∀ a ∈ A, a.sub = true) (hB : ∀ b ∈ B, b.sub = false) (hl : 2 ≤ A.length) :
    (select cfg (A ++ B)).toOption = A.find? fun pm => decide (t ∈ pm.tags) := by
  have hi : idxs Pm.sub (A ++ B) = List.range A.length := idxs_prefix hA hB
  have hsel : select cfg (A ++ B) = selectSubs cfg (A ++ B) := by
    match A, hl, hi with
    | a :: b :: A, _, hi =>
      rw [List.cons_append] at hi ⊢
      simp only [select, he]
      rw [if_neg (by simp), if_pos ⟨hs, by rw [hi]; simp⟩]
  rw [hsel]
  simp only [selectSubs, hi, ht]
  rw [if_neg (by simp; omega), validSubs_range _ _ _ (by simp) _ (fun k hk => by simpa using hk)]
  have hf := first_of (A ++ B) (fun pm => decide (t ∈ pm.tags)) (List.range A.length) A (by
    apply List.ext_getElem?
    intro i
    by_cases h : i < A.length
    · simp [h, List.getElem?_append_left]
    · simp [h])
  rw [← hf]
  cases hk : (List.range A.length).filter fun k => ((A ++ B)[k]?.map fun pm => decide (t ∈ pm.tags)).getD false with
  | nil => simp only [List.head?_nil, Option.bind_none]; rfl
  | cons k ks =>
    simp only [List.head?_cons, Option.bind_some, pick]
    cases (A ++ B)[k]? <;> rfl

/-- **C32, finding.** Several SubProcessModels and a tag, but some other model listed before one of the SubProcessModels:
selection always dies with IndexError, even if a SubProcessModel with the tag is offered. -/
theorem C32_witness_tagged_sub_model_fails (cfg : Cfg) (l : List Pm) (t : String) (he : cfg.exc = none)
    (hs : cfg.selectSub = true) (ht : cfg.tag = some t) (h2 : 2 ≤ (l.filter Pm.sub).length) {i j : Nat} {a b : Pm}
    (hij : i < j) (hi : l[i]? = some a) (ha : a.sub = false) (hj : l[j]? = some b) (hb : b.sub = true) :
    select cfg l = .error .indexError := by
  have hm := idxs_models Pm.sub l
  have hlen : (idxs Pm.sub l).length = (l.filter Pm.sub).length := by simpa using congrArg List.length hm
  have hl2 : j < l.length := (List.getElem?_eq_some_iff.1 hj).1
  have hsel : select cfg l = selectSubs cfg l := by
    match l, hl2, hlen with
    | [x], h, _ => simp at h; omega
    | x :: y :: l, _, hlen =>
      simp only [select, he, List.cons_ne_nil, if_false]
      rw [if_pos ⟨hs, by omega⟩]
  rw [hsel]
  simp only [selectSubs, ht]
  rw [if_neg (by omega), validSubs_none _ _ _ _ (idxs_gap hij hi ha hj hb)]

def exPy : Pm := ⟨0, false, true, false, false, ["floating_pt"]⟩
def exFx : Pm := ⟨1, false, true, false, false, ["fixed_pt"]⟩
def exNc : Pm := ⟨2, false, false, true, false, ["fixed_pt"]⟩
def exSubA : Pm := ⟨3, true, false, false, false, ["a"]⟩
def exSubB : Pm := ⟨4, true, false, false, false, ["b"]⟩

example : (select ⟨.sim, some "fixed_pt", false, none⟩ [exPy, exFx, exNc]).toOption = some exFx := by decide
example : (select ⟨.hw, some "fixed_pt", false, none⟩ [exPy, exFx, exNc]).toOption = some exNc := by decide
example : (select ⟨.sim, none, true, none⟩ [exPy, exSubA, exSubB]).toOption = some exSubA := by decide

example : select ⟨.sim, some "b", true, none⟩ [exPy, exSubA, exSubB] = .error .indexError := by decide
example : (select ⟨.sim, some "b", true, none⟩ [exSubA, exSubB, exPy]).toOption = some exSubB := by decide

/-- **C32, finding.** Without any offered model the exception is not honoured. -/
theorem C32_witness_exception_ignored : select ⟨.sim, none, false, some exPy⟩ [] = .error .noModels := by decide

end Verif.RunCfg
