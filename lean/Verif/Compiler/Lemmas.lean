import Mathlib.Data.List.Nodup
import Mathlib.Data.List.Perm.Basic
import Mathlib.Data.List.Count
import Verif.Compiler.Model

namespace Verif.Compiler

/-! ### Dictionaries -/

theorem lookup_isSome {p : Proc} {m : List (Proc × String)} : (lookup p m).isSome = true ↔ p ∈ m.map Prod.fst := by
  simp only [lookup, Option.isSome_map, List.find?_isSome, decide_eq_true_eq, List.mem_map]

theorem lookup_eq {p : Proc} {m : List (Proc × String)} (hnd : (m.map Prod.fst).Nodup) {n : String} :
    lookup p m = some n ↔ (p, n) ∈ m := by
  induction m with
  | nil => simp [lookup]
  | cons e m ih =>
    obtain ⟨q, k⟩ := e
    simp only [List.map_cons, List.nodup_cons] at hnd
    by_cases h : q = p
    · subst h
      simp only [lookup, List.find?_cons, decide_true, Option.map_some, Option.some.injEq, List.mem_cons,
        Prod.mk.injEq, true_and]
      constructor
      · intro h; exact .inl h.symm
      · rintro (h | h)
        · exact h.symm
        · exact absurd (List.mem_map.2 ⟨_, h, rfl⟩) hnd.1
    · have : lookup p ((q, k) :: m) = lookup p m := by simp [lookup, List.find?_cons, h]
      rw [this, ih hnd.2]
      have : (p, n) ≠ (q, k) := by simp [Ne.symm h]
      simp [this]

section Dict
variable {κ β : Type} [DecidableEq κ]

theorem dictSet_keys (k : κ) (v : β) (d : List (κ × β)) :
    (dictSet k v d).map Prod.fst = if k ∈ d.map Prod.fst then d.map Prod.fst else d.map Prod.fst ++ [k] := by
  induction d with
  | nil => simp [dictSet]
  | cons e d ih =>
    obtain ⟨k', v'⟩ := e
    by_cases h : k' = k
    · subst h; simp [dictSet]
    · have h' : ¬ k = k' := fun e => h e.symm
      simp only [dictSet, h, if_false, List.map_cons, ih, List.mem_cons, h', false_or]
      split <;> simp

theorem dictGet_set (k k' : κ) (v : β) (d : List (κ × β)) :
    dictGet k' (dictSet k v d) = if k' = k then some v else dictGet k' d := by
  induction d with
  | nil =>
    by_cases h : k' = k
    · subst h; simp [dictSet, dictGet]
    · have : ¬ k = k' := fun e => h e.symm
      simp [dictSet, dictGet, h, this]
  | cons e d ih =>
    obtain ⟨a, b⟩ := e
    by_cases h1 : a = k
    · subst h1
      by_cases h2 : k' = a
      · subst h2; simp [dictSet, dictGet]
      · have : ¬ a = k' := fun e => h2 e.symm
        simp [dictSet, dictGet, h2, this]
    · simp only [dictSet, h1, if_false]
      by_cases h2 : a = k'
      · subst h2; simp [dictGet, h1]
      · have e1 : dictGet k' ((a, b) :: dictSet k v d) = dictGet k' (dictSet k v d) := by
          simp [dictGet, h2]
        have e2 : dictGet k' ((a, b) :: d) = dictGet k' d := by simp [dictGet, h2]
        rw [e1, e2, ih]

theorem dictGet_none {k : κ} {d : List (κ × β)} : dictGet k d = none ↔ k ∉ d.map Prod.fst := by
  simp only [dictGet, Option.map_eq_none_iff, List.find?_eq_none, decide_eq_true_eq, List.mem_map, not_exists,
    not_and]

/-- Value list at a key. -/
theorem dictAppend_get (k k' : κ) (v : β) (d : List (κ × List β)) :
    (dictGet k' (dictAppend k v d)).getD [] = (dictGet k' d).getD [] ++ (if k' = k then [v] else []) := by
  induction d with
  | nil =>
    by_cases h : k' = k
    · subst h; simp [dictAppend, dictGet]
    · have : ¬ k = k' := fun e => h e.symm
      simp [dictAppend, dictGet, h, this]
  | cons e d ih =>
    obtain ⟨a, b⟩ := e
    by_cases h1 : a = k
    · subst h1
      by_cases h2 : k' = a
      · subst h2; simp [dictAppend, dictGet]
      · have : ¬ a = k' := fun e => h2 e.symm
        simp [dictAppend, dictGet, h2, this]
    · simp only [dictAppend, h1, if_false]
      by_cases h2 : a = k'
      · subst h2; simp [dictGet, h1]
      · have e1 : dictGet k' ((a, b) :: dictAppend k v d) = dictGet k' (dictAppend k v d) := by
          simp [dictGet, h2]
        have e2 : dictGet k' ((a, b) :: d) = dictGet k' d := by simp [dictGet, h2]
        rw [e1, e2, ih]

theorem dictAppend_keys (k : κ) (v : β) (d : List (κ × List β)) :
    (dictAppend k v d).map Prod.fst = if k ∈ d.map Prod.fst then d.map Prod.fst else d.map Prod.fst ++ [k] := by
  induction d with
  | nil => simp [dictAppend]
  | cons e d ih =>
    obtain ⟨k', v'⟩ := e
    by_cases h : k' = k
    · subst h; simp [dictAppend]
    · have h' : ¬ k = k' := fun e => h e.symm
      simp only [dictAppend, h, if_false, List.map_cons, ih, List.mem_cons, h', false_or]
      split <;> simp

theorem dictAppend_keys_nodup (k : κ) (v : β) (d : List (κ × List β)) (h : (d.map Prod.fst).Nodup) :
    ((dictAppend k v d).map Prod.fst).Nodup := by
  rw [dictAppend_keys]
  split
  · exact h
  · rename_i hk
    rw [List.nodup_append]
    exact ⟨h, by simp, fun a ha b hb => by simp only [List.mem_singleton] at hb; subst hb; rintro rfl; exact hk ha⟩

theorem dictAppend_flat (k : κ) (v : β) (d : List (κ × List β)) :
    ((dictAppend k v d).flatMap Prod.snd).Perm (d.flatMap Prod.snd ++ [v]) := by
  induction d with
  | nil => simp [dictAppend]
  | cons e d ih =>
    obtain ⟨k', vs⟩ := e
    by_cases h : k' = k
    · subst h
      simp only [dictAppend, if_true, List.flatMap_cons, List.append_assoc]
      exact List.Perm.append_left _ List.perm_append_comm
    · simp only [dictAppend, h, if_false, List.flatMap_cons, List.append_assoc]
      exact ih.append_left _

theorem dictAppend_ne (k : κ) (v : β) (d : List (κ × List β)) (h : ∀ e ∈ d, e.2 ≠ []) :
    ∀ e ∈ dictAppend k v d, e.2 ≠ [] := by
  induction d with
  | nil => intro e he; simp [dictAppend] at he; subst he; simp
  | cons e d ih =>
    obtain ⟨k', vs⟩ := e
    by_cases hk : k' = k
    · intro e he
      simp only [dictAppend, hk, if_true, List.mem_cons] at he
      rcases he with rfl | he
      · simp
      · exact h e (by simp [he])
    · intro e he
      simp only [dictAppend, hk, if_false, List.mem_cons] at he
      rcases he with rfl | he
      · exact h _ (by simp)
      · exact ih (fun e he => h e (by simp [he])) e he

end Dict

/-! ### Sync domains -/

/-- Entries that the domains stand for. -/
def entries (ds : List Domain) : List (Proc × String) := ds.flatMap fun d => d.procs.map fun p => (p, d.name)

structure SdInv (s : SdState) : Prop where
  names : (s.domains.map Domain.name).Nodup
  keys : (s.map.map Prod.fst).Nodup
  same : s.map.Perm (entries s.domains)

theorem entries_keys (ds : List Domain) : (entries ds).map Prod.fst = ds.flatMap Domain.procs := by
  induction ds with
  | nil => rfl
  | cons d ds ih =>
    simp only [entries, List.flatMap_cons, List.map_append, List.map_map] at ih ⊢
    rw [ih]
    congr 1
    exact (List.map_congr_left (fun _ _ => rfl)).trans (List.map_id _)

theorem mapCustom_ok {pr : Protocols} {d : Domain} {ps : List Proc} {m m' : List (Proc × String)} :
    mapCustom pr d ps m = .ok m' ↔
      (∀ p ∈ ps, pr.sub d.protocol (p.protoOf pr) = true) ∧ ps.Nodup ∧ (∀ p ∈ ps, p ∉ m.map Prod.fst) ∧
      m' = m ++ ps.map fun p => (p, d.name) := by
  induction ps generalizing m with
  | nil =>
    simp only [mapCustom, List.not_mem_nil, false_implies, implies_true, List.nodup_nil, true_and, List.map_nil,
      List.append_nil, Except.ok.injEq]
    exact eq_comm
  | cons p ps ih =>
    rw [mapCustom]
    by_cases h1 : pr.sub d.protocol (p.protoOf pr) = false
    · rw [if_pos h1]
      simp only [reduceCtorEq, false_iff, not_and]
      intro h
      have := h p (by simp)
      rw [h1] at this; cases this
    · rw [if_neg h1]
      have h1' : pr.sub d.protocol (p.protoOf pr) = true := by simpa using h1
      by_cases h2 : (lookup p m).isSome = true
      · rw [if_pos h2]
        simp only [reduceCtorEq, false_iff, not_and]
        intro _ _ h
        exact absurd (lookup_isSome.1 h2) (h p (by simp))
      · rw [if_neg h2, ih]
        rw [lookup_isSome] at h2
        simp only [List.mem_cons, forall_eq_or_imp, h1', true_and, List.nodup_cons, List.map_append, List.map_cons,
          List.map_nil, List.mem_append, List.not_mem_nil, or_false, not_or, h2, not_false_eq_true, List.append_assoc,
          List.singleton_append]
        constructor
        · rintro ⟨h3, h4, h5, h6⟩
          exact ⟨h3, ⟨fun hp => (h5 p hp).2 rfl, h4⟩, fun q hq => (h5 q hq).1, h6⟩
        · rintro ⟨h3, ⟨h7, h4⟩, h5, h6⟩
          exact ⟨h3, h4, fun q hq => ⟨h5 q hq, fun e => h7 (e ▸ hq)⟩, h6⟩

theorem addCustom_ok {pr : Protocols} {cs : List Domain} {s s' : SdState}
    (hs : s.map.map Prod.fst = s.domains.flatMap Domain.procs) :
    addCustom pr cs s = .ok s' ↔
      (∀ d ∈ cs, ∀ p ∈ d.procs, pr.sub d.protocol (p.protoOf pr) = true) ∧
      (cs.map Domain.name).Nodup ∧ (∀ d ∈ cs, d.name ∉ s.domains.map Domain.name) ∧
      (cs.flatMap Domain.procs).Nodup ∧ (∀ p ∈ cs.flatMap Domain.procs, p ∉ s.domains.flatMap Domain.procs) ∧
      s' = { domains := s.domains ++ cs, map := s.map ++ entries cs } := by
  induction cs generalizing s with
  | nil =>
    simp only [addCustom, entries, List.not_mem_nil, false_implies, implies_true, List.nodup_nil, true_and, List.map_nil,
      List.append_nil, Except.ok.injEq, List.flatMap_nil]
    exact eq_comm
  | cons d cs ih =>
    rw [addCustom]
    by_cases h1 : d.name ∈ s.domains.map Domain.name
    · rw [if_pos h1]
      simp only [reduceCtorEq, false_iff, not_and]
      intro _ _ h
      exact absurd h1 (h d (by simp))
    · rw [if_neg h1]
      cases hm : mapCustom pr d d.procs s.map with
      | error e =>
        simp only [reduceCtorEq, false_iff, not_and]
        intro h2 _ _ h4 h5 _
        have : mapCustom pr d d.procs s.map = .ok (s.map ++ d.procs.map fun p => (p, d.name)) := by
          rw [mapCustom_ok]
          simp only [List.flatMap_cons, List.nodup_append] at h4
          refine ⟨h2 d (by simp), h4.1, ?_, rfl⟩
          intro p hp
          rw [hs]
          exact h5 p (by simp [hp])
        rw [hm] at this; cases this
      | ok m =>
        rw [mapCustom_ok] at hm
        obtain ⟨h2, h3, h4, rfl⟩ := hm
        simp only
        rw [ih (by
          simp only [List.map_append, List.flatMap_append, hs, List.flatMap_cons, List.flatMap_nil, List.append_nil,
            List.map_map]
          congr 1
          exact (List.map_congr_left (fun _ _ => rfl)).trans (List.map_id _))]
        rw [hs] at h4
        simp only [List.mem_cons, forall_eq_or_imp, List.map_cons, List.nodup_cons, List.flatMap_cons,
          List.nodup_append, List.map_append, List.map_nil, List.mem_append, List.not_mem_nil, or_false,
          List.flatMap_append, List.flatMap_nil, not_or, List.append_assoc, List.singleton_append]
        constructor
        · rintro ⟨a1, a2, a3, a4, a5, a6⟩
          refine ⟨⟨h2, a1⟩, ⟨?_, a2⟩, ⟨h1, fun e he => (a3 e he).1⟩, ⟨h3, a4, ?_⟩, ?_, ?_⟩
          · intro hd
            obtain ⟨e, he, hed⟩ := List.mem_map.1 hd
            exact (a3 e he).2 hed
          · intro a ha b hb hab
            exact (a5 b hb).2 (hab ▸ ha)
          · rintro p (hp | hp)
            · exact h4 p hp
            · exact (a5 p hp).1
          · rw [a6]; simp [entries]
        · rintro ⟨⟨_, a1⟩, ⟨a2, a3⟩, ⟨_, a4⟩, ⟨_, a5, a6⟩, a7, a8⟩
          refine ⟨a1, a3, ?_, a5, ?_, ?_⟩
          · intro e he
            exact ⟨a4 e he, fun h => a2 (List.mem_map.2 ⟨e, he, h⟩)⟩
          · intro p hp
            exact ⟨a7 p (.inr hp), fun h => a6 p h p hp rfl⟩
          · rw [a8]; simp [entries]

theorem custom_inv {pr : Protocols} {cs : List Domain} {s : SdState}
    (h : addCustom pr cs { domains := [], map := [] } = .ok s) : SdInv s ∧ s.domains = cs := by
  rw [addCustom_ok rfl] at h
  obtain ⟨_, h2, _, h4, _, rfl⟩ := h
  simp only [List.nil_append]
  exact ⟨⟨h2, by rw [entries_keys]; exact h4, .refl _⟩, trivial⟩

theorem addTo_names (n : String) (p : Proc) (ds : List Domain) :
    (addTo n p ds).map Domain.name = ds.map Domain.name := by
  simp only [addTo, List.map_map]
  apply List.map_congr_left
  intro d _
  simp only [Function.comp]
  split <;> rfl

theorem addTo_other (n : String) (p : Proc) (ds : List Domain) (h : n ∉ ds.map Domain.name) : addTo n p ds = ds := by
  induction ds with
  | nil => rfl
  | cons d ds ih =>
    simp only [List.map_cons, List.mem_cons, not_or] at h
    have h1 : ¬ d.name = n := fun e => h.1 e.symm
    simp only [addTo, List.map_cons, h1, if_false] at ih ⊢
    rw [ih h.2]

theorem addTo_entries (n : String) (p : Proc) (ds : List Domain) (hnd : (ds.map Domain.name).Nodup)
    (h : n ∈ ds.map Domain.name) : (entries (addTo n p ds)).Perm (entries ds ++ [(p, n)]) := by
  induction ds with
  | nil => simp at h
  | cons d ds ih =>
    simp only [List.map_cons, List.nodup_cons] at hnd
    by_cases hd : d.name = n
    · have : addTo n p (d :: ds) = { d with procs := d.procs ++ [p] } :: ds := by
        have e := addTo_other n p ds (hd ▸ hnd.1)
        simp only [addTo] at e
        simp only [addTo, List.map_cons, hd, if_true, e]
      rw [this]
      simp only [entries, List.flatMap_cons, List.map_append, List.map_cons, List.map_nil, hd, List.append_assoc]
      exact List.Perm.append_left _ List.perm_append_comm
    · have h' : n ∈ ds.map Domain.name := by
        simp only [List.map_cons, List.mem_cons] at h
        rcases h with h | h
        · exact absurd h.symm hd
        · exact h
      have : addTo n p (d :: ds) = d :: addTo n p ds := by simp [addTo, hd]
      rw [this]
      simp only [entries, List.flatMap_cons, List.append_assoc] at ih ⊢
      exact (ih hnd.2 h').append_left _

/-- The domains before a process is added: the default domain exists. -/
def withDefault (pr : Protocols) (ds : List Domain) (p : Proc) : List Domain :=
  if defaultName pr p ∈ ds.map Domain.name then ds
  else ds ++ [{ name := defaultName pr p, protocol := p.protoOf pr, procs := [] }]

theorem assign_new {pr : Protocols} {s : SdState} {p : Proc} (h : p ∉ s.map.map Prod.fst) :
    assign pr s p = { domains := addTo (defaultName pr p) p (withDefault pr s.domains p)
                      map := s.map ++ [(p, defaultName pr p)] } := by
  unfold assign
  rw [if_neg (by rw [lookup_isSome]; exact h)]
  rfl

theorem assign_old {pr : Protocols} {s : SdState} {p : Proc} (h : p ∈ s.map.map Prod.fst) : assign pr s p = s := by
  unfold assign
  rw [if_pos (lookup_isSome.2 h)]

theorem withDefault_mem (pr : Protocols) (ds : List Domain) (p : Proc) :
    defaultName pr p ∈ (withDefault pr ds p).map Domain.name := by
  unfold withDefault
  split
  · assumption
  · simp

theorem withDefault_nodup (pr : Protocols) (ds : List Domain) (p : Proc) (h : (ds.map Domain.name).Nodup) :
    ((withDefault pr ds p).map Domain.name).Nodup := by
  unfold withDefault
  split
  · exact h
  · rename_i hk
    rw [List.map_append, List.nodup_append]
    refine ⟨h, by simp, ?_⟩
    intro a ha b hb
    simp only [List.map_cons, List.map_nil, List.mem_singleton] at hb
    subst hb
    rintro rfl; exact hk ha

theorem withDefault_entries (pr : Protocols) (ds : List Domain) (p : Proc) :
    entries (withDefault pr ds p) = entries ds := by
  unfold withDefault
  split
  · rfl
  · simp [entries]

theorem assign_inv {pr : Protocols} {s : SdState} (h : SdInv s) (p : Proc) :
    SdInv (assign pr s p) ∧ p ∈ (assign pr s p).map.map Prod.fst ∧
    ∀ e ∈ s.map, e ∈ (assign pr s p).map := by
  by_cases hp : p ∈ s.map.map Prod.fst
  · rw [assign_old hp]; exact ⟨h, hp, fun e he => he⟩
  · rw [assign_new hp]
    refine ⟨⟨?_, ?_, ?_⟩, by simp, fun e he => by simp [he]⟩
    · rw [addTo_names]; exact withDefault_nodup pr _ p h.names
    · simp only [List.map_append, List.nodup_append]
      refine ⟨h.keys, by simp, ?_⟩
      intro a ha b hb
      simp only [List.map_cons, List.map_nil, List.mem_singleton] at hb
      subst hb
      rintro rfl; exact hp ha
    · have h1 := addTo_entries (defaultName pr p) p _ (withDefault_nodup pr _ p h.names) (withDefault_mem pr s.domains p)
      rw [withDefault_entries] at h1
      exact (h.same.append_right _).trans h1.symm

theorem fold_inv {pr : Protocols} (ps : List Proc) {s : SdState} (h : SdInv s) :
    SdInv (ps.foldl (assign pr) s) ∧ (∀ p ∈ ps, p ∈ (ps.foldl (assign pr) s).map.map Prod.fst) ∧
    (∀ e ∈ s.map, e ∈ (ps.foldl (assign pr) s).map) := by
  induction ps generalizing s with
  | nil => exact ⟨h, by simp, fun e he => he⟩
  | cons p ps ih =>
    obtain ⟨h1, h2, h3⟩ := assign_inv (pr := pr) h p
    obtain ⟨h4, h5, h6⟩ := ih h1
    refine ⟨h4, ?_, fun e he => h6 e (h3 e he)⟩
    intro q hq
    simp only [List.mem_cons] at hq
    rcases hq with rfl | hq
    · obtain ⟨e, he, heq⟩ := List.mem_map.1 h2
      exact List.mem_map.2 ⟨e, h6 e he, heq⟩
    · exact h5 q hq

/-- Keys after the fold: the custom processes and the processes of the network. -/
theorem fold_keys {pr : Protocols} (ps : List Proc) {s : SdState} (q : Proc)
    (h : q ∈ (ps.foldl (assign pr) s).map.map Prod.fst) : q ∈ s.map.map Prod.fst ∨ q ∈ ps := by
  induction ps generalizing s with
  | nil => exact .inl h
  | cons p ps ih =>
    rcases ih h with h1 | h1
    · by_cases hp : p ∈ s.map.map Prod.fst
      · rw [assign_old hp] at h1; exact .inl h1
      · rw [assign_new hp] at h1
        simp only [List.map_append, List.mem_append, List.map_cons, List.map_nil, List.mem_singleton] at h1
        rcases h1 with h1 | h1
        · exact .inl h1
        · right; simp [h1]
    · right; simp [h1]

/-- Which name a process gets. -/
theorem fold_default {pr : Protocols} (ps : List Proc) {s : SdState} (q : Proc) (n : String)
    (h : (q, n) ∈ (ps.foldl (assign pr) s).map) : (q, n) ∈ s.map ∨ (q ∈ ps ∧ n = defaultName pr q) := by
  induction ps generalizing s with
  | nil => exact .inl h
  | cons p ps ih =>
    rcases ih h with h1 | h1
    · by_cases hp : p ∈ s.map.map Prod.fst
      · rw [assign_old hp] at h1; exact .inl h1
      · rw [assign_new hp] at h1
        simp only [List.mem_append, List.mem_singleton, Prod.mk.injEq] at h1
        rcases h1 with h1 | h1
        · exact .inl h1
        · right; rw [h1.1, h1.2]; exact ⟨by simp, rfl⟩
    · exact .inr ⟨by simp [h1.1], h1.2⟩

/-- Protocols of the domains after the fold: those of the custom domains, and defaults. -/
theorem fold_protocol {pr : Protocols} (ps : List Proc) {s : SdState} (d : Domain)
    (h : d ∈ (ps.foldl (assign pr) s).domains) :
    (∃ c ∈ s.domains, c.name = d.name ∧ c.protocol = d.protocol) ∨
    (∃ p ∈ ps, d.name = defaultName pr p ∧ d.protocol = p.protoOf pr) := by
  induction ps generalizing s with
  | nil => exact .inl ⟨d, h, rfl, rfl⟩
  | cons p ps ih =>
    rcases ih h with ⟨c, hc, h1, h2⟩ | ⟨q, hq, h1⟩
    · by_cases hp : p ∈ s.map.map Prod.fst
      · rw [assign_old hp] at hc; exact .inl ⟨c, hc, h1, h2⟩
      · rw [assign_new hp] at hc
        simp only [addTo, List.mem_map] at hc
        obtain ⟨c', hc', rfl⟩ := hc
        have e1 : (if c'.name = defaultName pr p then { c' with procs := c'.procs ++ [p] } else c').name = c'.name := by
          split <;> rfl
        have e2 : (if c'.name = defaultName pr p then { c' with procs := c'.procs ++ [p] } else c').protocol =
            c'.protocol := by split <;> rfl
        rw [e1] at h1
        rw [e2] at h2
        unfold withDefault at hc'
        split at hc'
        · exact .inl ⟨c', hc', h1, h2⟩
        · simp only [List.mem_append, List.mem_singleton] at hc'
          rcases hc' with hc' | rfl
          · exact .inl ⟨c', hc', h1, h2⟩
          · right; exact ⟨p, by simp, h1.symm, h2.symm⟩
    · right; exact ⟨q, by simp [hq], h1⟩

end Verif.Compiler
