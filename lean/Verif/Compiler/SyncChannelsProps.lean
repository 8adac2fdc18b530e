import Verif.Compiler.SyncChannels

/-!
# C104: management messages reach the right process model
-/

namespace Verif.Compiler.Sync

/-- What C29 and C60 guarantee: the names of the domains are different, and so are the ids of all processes; printing a number is injective. -/
structure Legal (str : Nat → List Char) (ds : List SDom) : Prop where
  names : (ds.map SDom.name).Nodup
  ids : ((ds.flatMap SDom.procs).map SProc.id).Nodup
  str : ∀ a b, str a = str b → a = b

theorem ids_dom {str : Nat → List Char} {ds : List SDom} (h : Legal str ds) {d : SDom} (hd : d ∈ ds) : (d.procs.map SProc.id).Nodup := by
  have h0 := h.ids
  clear h
  induction ds with
  | nil => cases hd
  | cons e ds ih =>
    rw [List.flatMap_cons, List.map_append, List.nodup_append] at h0
    rcases List.mem_cons.1 hd with he | he
    · rw [he]; exact h0.1
    · exact ih he h0.2.1

theorem ids_off {str : Nat → List Char} {ds : List SDom} (h : Legal str ds) {d e : SDom} (hd : d ∈ ds) (he : e ∈ ds) (hne : e ≠ d)
    {p q : SProc} (hp : p ∈ d.procs) (hq : q ∈ e.procs) : q.id ≠ p.id := by
  have h0 := h.ids
  clear h
  induction ds with
  | nil => cases hd
  | cons a ds ih =>
    rw [List.flatMap_cons, List.map_append, List.nodup_append] at h0
    rcases List.mem_cons.1 hd with hd' | hd' <;> rcases List.mem_cons.1 he with he' | he'
    · exact absurd (he'.trans hd'.symm) hne
    · subst hd'
      intro hx
      exact h0.2.2 p.id (List.mem_map.2 ⟨p, hp, rfl⟩) q.id
        (List.mem_map.2 ⟨q, List.mem_flatMap.2 ⟨e, he', hq⟩, rfl⟩) hx.symm
    · subst he'
      intro hx
      exact h0.2.2 q.id (List.mem_map.2 ⟨q, hq, rfl⟩) p.id
        (List.mem_map.2 ⟨p, List.mem_flatMap.2 ⟨d, hd', hp⟩, rfl⟩) hx
    · exact ih hd' he' h0.2.1

theorem filter_id : ∀ (l : List SProc) (p : SProc), (l.map SProc.id).Nodup → p ∈ l → l.filter (fun q => decide (q.id = p.id)) = [p]
  | [], _, _, h => by cases h
  | q :: l, p, hn, hp => by
    rw [List.map_cons, List.nodup_cons] at hn
    rcases List.mem_cons.1 hp with hp | hp
    · subst hp
      have : l.filter (fun q => decide (q.id = p.id)) = [] := by
        rw [List.filter_eq_nil_iff]
        intro r hr hx
        exact hn.1 (List.mem_map.2 ⟨r, hr, by simpa using hx⟩)
      simp [this]
    · have hne : q.id ≠ p.id := fun hx => hn.1 (List.mem_map.2 ⟨p, hp, hx.symm⟩)
      rw [List.filter_cons_of_neg (by simpa using hne)]
      exact filter_id l p hn.2 hp

/-! ## Theorems -/

/-- **C104.** The ports of a service towards the process models: one for each Python process of its domain, in their order, and their other ends
are those very models. -/
theorem C104_service_ports (str : Nat → List Char) (ds : List SDom) (h : Legal str ds) (d : SDom) (hd : d ∈ ds) :
    svcToModels (chans str ds) d.name = (d.procs.filter (·.py)).map (toModel str d) ∧
    svcFromModels (chans str ds) d.name = (d.procs.filter (·.py)).map (fromModel str d) := by
  have hids : ((d.procs.filter (·.py)).map SProc.id).Nodup :=
    List.Nodup.sublist (List.Sublist.map _ List.filter_sublist) (ids_dom h hd)
  have hnd : (d.procs.filter (·.py)).Nodup := by
    have := hids
    exact List.Nodup.of_map _ this
  constructor
  · unfold svcToModels
    have e1 : (chans str ds).filter (fun c => decide (c.src = .service d.name) && !decide (c.dst = .runtime)) =
        (d.procs.filter (·.py)).map (toModel str d) := by
      rw [filter_chans str _ ds d h.names hd]
      · unfold domChans
        rw [List.filter_cons_of_neg (by simp [down]), List.filter_cons_of_neg (by simp [up])]
        exact filter_flatMap_pair _ _ _ _ (fun p => by simp [toModel]) (fun p => by simp [fromModel])
      · intro e he hne c hc
        have hnn : e.name ≠ d.name := fun hx => hne (name_inj h.names hd he hx)
        rcases (mem_domChans _ _ _).1 hc with rfl | rfl | ⟨p, _, _, rfl | rfl⟩ <;> simp [down, up, toModel, fromModel, hnn]
    rw [e1, portDict_values]
    · apply filter_contains_all
      intro c hc
      obtain ⟨p, _, rfl⟩ := List.mem_map.1 hc
      show contains _ (("service_to_process_".toList ++ str p.id) ++ "_src".toList) = true
      rw [show "service_to_process_".toList = "service_to_process".toList ++ ['_'] from by decide, List.append_assoc, List.append_assoc]
      exact contains_prefix _ _
    · rw [List.map_map]
      apply nodup_map_of_inj _ _ hnd
      intro a ha b hb hab
      simp only [Function.comp, srcName, toModel, List.append_cancel_right_eq, List.append_cancel_left_eq] at hab
      have := h.str _ _ hab
      have ha' := filter_id _ a hids ha
      have hb' := filter_id _ b hids hb
      rw [this, hb'] at ha'
      exact (List.cons.inj ha').1.symm
  · unfold svcFromModels
    have e1 : (chans str ds).filter (fun c => decide (c.dst = .service d.name) && !decide (c.src = .runtime)) =
        (d.procs.filter (·.py)).map (fromModel str d) := by
      rw [filter_chans str _ ds d h.names hd]
      · unfold domChans
        rw [List.filter_cons_of_neg (by simp [down]), List.filter_cons_of_neg (by simp [up])]
        exact filter_flatMap_pair' _ _ _ _ (fun p => by simp [toModel]) (fun p => by simp [fromModel])
      · intro e he hne c hc
        have hnn : e.name ≠ d.name := fun hx => hne (name_inj h.names hd he hx)
        rcases (mem_domChans _ _ _).1 hc with rfl | rfl | ⟨p, _, _, rfl | rfl⟩ <;> simp [down, up, toModel, fromModel, hnn]
    rw [e1, portDict_values]
    · apply filter_contains_all
      intro c hc
      obtain ⟨p, _, rfl⟩ := List.mem_map.1 hc
      show contains _ (("process_to_service_".toList ++ str p.id) ++ "_dst".toList) = true
      rw [show "process_to_service_".toList = "process_to_service".toList ++ ['_'] from by decide, List.append_assoc, List.append_assoc]
      exact contains_prefix _ _
    · rw [List.map_map]
      apply nodup_map_of_inj _ _ hnd
      intro a ha b hb hab
      simp only [Function.comp, dstName, fromModel, List.append_cancel_right_eq, List.append_cancel_left_eq] at hab
      have := h.str _ _ hab
      have ha' := filter_id _ a hids ha
      have hb' := filter_id _ b hids hb
      rw [this, hb'] at ha'
      exact (List.cons.inj ha').1.symm

/-- **C104.** The management ports of a process model are the other ends of the ports its own service has for it. -/
theorem C104_model_ports (str : Nat → List Char) (ds : List SDom) (h : Legal str ds) (d : SDom) (hd : d ∈ ds) (p : SProc)
    (hp : p ∈ d.procs) (hpy : p.py = true) :
    modelFromSvc (chans str ds) p.id = some (toModel str d p) ∧ modelToSvc (chans str ds) p.id = some (fromModel str d p) := by
  have hpm : p ∈ d.procs.filter (·.py) := List.mem_filter.2 ⟨hp, hpy⟩
  have hids : ((d.procs.filter (·.py)).map SProc.id).Nodup :=
    List.Nodup.sublist (List.Sublist.map _ List.filter_sublist) (ids_dom h hd)
  have hf := filter_id _ p hids hpm
  constructor
  · unfold modelFromSvc
    have e1 : (chans str ds).filter (fun c => decide (c.dst = .model p.id)) = [toModel str d p] := by
      rw [filter_chans str _ ds d h.names hd]
      · unfold domChans
        rw [List.filter_cons_of_neg (by simp [down]), List.filter_cons_of_neg (by simp [up])]
        rw [show [toModel str d p] = ((d.procs.filter (·.py)).filter (fun q => decide (q.id = p.id))).map (toModel str d) by rw [hf]; rfl]
        generalize d.procs.filter (·.py) = P
        induction P with
        | nil => rfl
        | cons q P ih =>
          rw [List.flatMap_cons, List.filter_append, ih]
          by_cases hq : q.id = p.id
          · simp [toModel, fromModel, hq]
          · simp [toModel, fromModel, hq]
      · intro e he hne c hc
        rcases (mem_domChans _ _ _).1 hc with rfl | rfl | ⟨q, hq, _, rfl | rfl⟩
        · simp [down]
        · simp [up]
        · have := ids_off h hd he hne hp hq
          simp [toModel, this]
        · simp [fromModel]
    rw [e1, portDict_values _ _ (by simp)]
    rw [filter_contains_all]
    · rfl
    · intro c hc
      rw [List.mem_singleton] at hc
      subst hc
      show contains _ (("service_to_process_".toList ++ str p.id) ++ "_dst".toList) = true
      rw [show "service_to_process_".toList = "service_to_process".toList ++ ['_'] from by decide, List.append_assoc, List.append_assoc]
      exact contains_prefix _ _
  · unfold modelToSvc
    have e1 : (chans str ds).filter (fun c => decide (c.src = .model p.id)) = [fromModel str d p] := by
      rw [filter_chans str _ ds d h.names hd]
      · unfold domChans
        rw [List.filter_cons_of_neg (by simp [down]), List.filter_cons_of_neg (by simp [up])]
        rw [show [fromModel str d p] = ((d.procs.filter (·.py)).filter (fun q => decide (q.id = p.id))).map (fromModel str d) by rw [hf]; rfl]
        generalize d.procs.filter (·.py) = P
        induction P with
        | nil => rfl
        | cons q P ih =>
          rw [List.flatMap_cons, List.filter_append, ih]
          by_cases hq : q.id = p.id
          · simp [toModel, fromModel, hq]
          · simp [toModel, fromModel, hq]
      · intro e he hne c hc
        rcases (mem_domChans _ _ _).1 hc with rfl | rfl | ⟨q, hq, _, rfl | rfl⟩
        · simp [down]
        · simp [up]
        · simp [toModel]
        · have := ids_off h hd he hne hp hq
          simp [fromModel, this]
    rw [e1, portDict_values _ _ (by simp)]
    rw [filter_contains_all]
    · rfl
    · intro c hc
      rw [List.mem_singleton] at hc
      subst hc
      show contains _ (("process_to_service_".toList ++ str p.id) ++ "_src".toList) = true
      rw [show "process_to_service_".toList = "process_to_service".toList ++ ['_'] from by decide, List.append_assoc, List.append_assoc]
      exact contains_prefix _ _

/-- **C104.** A request of a service for a process of its domain reaches the model of that process, and the answers come back on the port at the
same position, if all models of the domain are Python models. -/
theorem C104_requests_reach (str : Nat → List Char) (ds : List SDom) (h : Legal str ds) (d : SDom) (hd : d ∈ ds)
    (hall : ∀ q ∈ d.procs, q.py = true) (p : SProc) (hp : p ∈ d.procs) :
    requestChan (chans str ds) d p.id = modelFromSvc (chans str ds) p.id ∧
    (svcFromModels (chans str ds) d.name)[(modelIds d).idxOf p.id]? = modelToSvc (chans str ds) p.id ∧
    (modelFromSvc (chans str ds) p.id).isSome = true ∧ (modelToSvc (chans str ds) p.id).isSome = true := by
  obtain ⟨h1, h2⟩ := C104_service_ports str ds h d hd
  obtain ⟨h3, h4⟩ := C104_model_ports str ds h d hd p hp (hall p hp)
  have hfil : d.procs.filter (·.py) = d.procs := List.filter_eq_self.2 hall
  rw [hfil] at h1 h2
  have hmem : p.id ∈ modelIds d := List.mem_map.2 ⟨p, hp, rfl⟩
  have hget : ∀ l : List SProc, p ∈ l → (l.map SProc.id).Nodup → l[(l.map (·.id)).idxOf p.id]? = some p := by
    intro l
    induction l with
    | nil => intro hm; cases hm
    | cons q l ih =>
      intro hm hn
      rw [List.map_cons, List.nodup_cons] at hn
      rcases List.mem_cons.1 hm with hm | hm
      · rw [hm]; simp
      · have hne : q.id ≠ p.id := fun hx => hn.1 (List.mem_map.2 ⟨p, hm, hx.symm⟩)
        rw [List.map_cons, List.idxOf_cons_ne _ hne, List.getElem?_cons_succ]
        exact ih hm hn.2
  have hg := hget d.procs hp (ids_dom h hd)
  refine ⟨?_, ?_, by rw [h3]; rfl, by rw [h4]; rfl⟩
  · unfold requestChan
    rw [if_pos hmem, h1, h3, List.getElem?_map]
    unfold modelIds
    rw [hg]; rfl
  · rw [h2, h4, List.getElem?_map]
    unfold modelIds
    rw [hg]; rfl

/-- **C104, finding.** In a (custom) domain that mixes Python models with others, the ids count all processes but the ports only Python models: a
request for the Python process 1 is sent to process 2, one for process 2 raises. -/
theorem C104_witness_mixed_domain :
    requestChan (chans (fun n => List.replicate n 'i') [⟨['d'], [⟨0, false⟩, ⟨1, true⟩, ⟨2, true⟩]⟩])
      ⟨['d'], [⟨0, false⟩, ⟨1, true⟩, ⟨2, true⟩]⟩ 1 =
    modelFromSvc (chans (fun n => List.replicate n 'i') [⟨['d'], [⟨0, false⟩, ⟨1, true⟩, ⟨2, true⟩]⟩]) 2 ∧
    requestChan (chans (fun n => List.replicate n 'i') [⟨['d'], [⟨0, false⟩, ⟨1, true⟩, ⟨2, true⟩]⟩])
      ⟨['d'], [⟨0, false⟩, ⟨1, true⟩, ⟨2, true⟩]⟩ 2 = none := by decide +kernel

/-! ### Runtime and services -/

theorem contains_cons (pat : List Char) (c : Char) (l : List Char) :
    contains pat (c :: l) = (pat.isPrefixOf (c :: l) || contains pat l) := rfl

theorem contains_iff (pat : List Char) (hp : pat ≠ []) : ∀ l : List Char, contains pat l = true ↔ ∃ a b, l = a ++ pat ++ b
  | [] => by
    simp only [contains]
    constructor
    · intro h; exact absurd (List.isEmpty_iff.1 h) hp
    · rintro ⟨a, b, h⟩
      have := congrArg List.length h
      simp only [List.length_nil, List.length_append] at this
      have : pat.length = 0 := by omega
      exact absurd (List.length_eq_zero_iff.1 this) hp
  | c :: l => by
    rw [contains_cons, Bool.or_eq_true, contains_iff pat hp l, List.isPrefixOf_iff_prefix]
    constructor
    · rintro (⟨b, hb⟩ | ⟨a, b, hl⟩)
      · exact ⟨[], b, by simpa using hb.symm⟩
      · exact ⟨c :: a, b, by rw [hl]; rfl⟩
    · rintro ⟨a, b, h⟩
      cases a with
      | nil => exact Or.inl ⟨b, by simpa using h.symm⟩
      | cons x a =>
        simp only [List.cons_append, List.cons.injEq] at h
        exact Or.inr ⟨a, b, h.2⟩

/-- **C104.** The response channel of a domain is taken for a request channel exactly if the name of the domain starts with `to_service` or
contains `runtime_to_service`. -/
theorem C104_misrouted_iff (n : List Char) :
    contains "runtime_to_service".toList ("service_to_runtime_".toList ++ n ++ "_src".toList) = true ↔
      ("to_service".toList <+: n ∨ contains "runtime_to_service".toList n = true) := by
  have hpat : "runtime_to_service".toList = ['r', 'u', 'n', 't', 'i', 'm', 'e', '_', 't', 'o', '_', 's', 'e', 'r', 'v', 'i', 'c', 'e'] := by decide
  have hpre : "service_to_runtime_".toList =
    ['s', 'e', 'r', 'v', 'i', 'c', 'e', '_', 't', 'o', '_', 'r', 'u', 'n', 't', 'i', 'm', 'e', '_'] := by decide
  have hts : "to_service".toList = ['t', 'o', '_', 's', 'e', 'r', 'v', 'i', 'c', 'e'] := by decide
  have hsrc : "_src".toList = ['_', 's', 'r', 'c'] := by decide
  -- inside the name
  have hin : ∀ m : List Char, contains "runtime_to_service".toList (m ++ "_src".toList) = contains "runtime_to_service".toList m := by
    intro m
    rw [hpat, hsrc]
    induction m with
    | nil => decide
    | cons c m ih =>
      rw [List.cons_append, contains_cons, contains_cons, ih]
      congr 1
      rw [Bool.eq_iff_iff, List.isPrefixOf_iff_prefix, List.isPrefixOf_iff_prefix]
      constructor
      · rintro ⟨b, hb⟩
        have hb : ['r', 'u', 'n', 't', 'i', 'm', 'e', '_', 't', 'o', '_', 's', 'e', 'r', 'v', 'i', 'c', 'e'] ++ b = (c :: m) ++ ['_', 's', 'r', 'c'] := hb
        rcases List.append_eq_append_iff.1 hb with ⟨t, h1, h2⟩ | ⟨t, h1, h2⟩
        · exact ⟨t, h1.symm⟩
        · -- the pattern reaches into the suffix
          rcases t with _ | ⟨t1, t⟩
          · exact ⟨[], by simpa using h1⟩
          · exfalso
            have hlast : (t1 :: t).getLast? = some 'e' := by
              have := congrArg List.getLast? h1
              rw [List.getLast?_append_of_ne_nil _ (by simp)] at this
              rw [← this]; rfl
            have hmem : 'e' ∈ t1 :: t := List.mem_of_getLast? hlast
            have : 'e' ∈ ['_', 's', 'r', 'c'] := by rw [h2]; exact List.mem_append_left _ hmem
            revert this; decide
      · rintro ⟨b, hb⟩
        exact ⟨b ++ ['_', 's', 'r', 'c'], by rw [← List.append_assoc, hb]; rfl⟩
  rw [List.append_assoc]
  rw [← hin n]
  have hto : "to_service".toList <+: n ↔ "to_service".toList <+: n ++ "_src".toList := by
    rw [hts, hsrc]
    constructor
    · rintro ⟨b, rfl⟩; exact ⟨b ++ ['_', 's', 'r', 'c'], by rw [List.append_assoc]⟩
    · rintro ⟨b, hb⟩
      rcases List.append_eq_append_iff.1 hb with ⟨t, h1, h2⟩ | ⟨t, h1, h2⟩
      · exact ⟨t, h1.symm⟩
      · rcases t with _ | ⟨t1, t⟩
        · exact ⟨[], by simpa using h1⟩
        · exfalso
          have hlast : (t1 :: t).getLast? = some 'e' := by
            have := congrArg List.getLast? h1
            rw [List.getLast?_append_of_ne_nil _ (by simp)] at this
            rw [← this]; rfl
          have hmem : 'e' ∈ t1 :: t := List.mem_of_getLast? hlast
          have : 'e' ∈ ['_', 's', 'r', 'c'] := by rw [h2]; exact List.mem_append_left _ hmem
          revert this; decide
  rw [hto]
  generalize n ++ "_src".toList = m
  rw [hpre, hpat, hts]
  simp only [List.cons_append, List.nil_append, contains_cons, List.isPrefixOf_cons_cons, Bool.or_eq_true, Bool.and_eq_true]
  simp (decide := true) only [false_and, and_false, false_or, true_and, ← List.isPrefixOf_iff_prefix]

/-- The name of no domain is misread. -/
def GoodNames (ds : List SDom) : Prop :=
  ∀ d ∈ ds, ¬ "to_service".toList <+: d.name ∧ contains "runtime_to_service".toList d.name = false

/-- **C104.** Runtime and services: every service has the other ends of the two channels made for it, and the lists of the runtime hold the two
channels of the domains in the order of the domains. -/
theorem C104_runtime_ports (str : Nat → List Char) (ds : List SDom) (h : Legal str ds) (hg : GoodNames ds) :
    rtSend (chans str ds) = ds.map down ∧ rtRecv (chans str ds) = ds.map up ∧
    ∀ d ∈ ds, svcFromRt (chans str ds) d.name = some (down d) ∧ svcToRt (chans str ds) d.name = some (up d) := by
  have hdown : ∀ (d : SDom) (suf : List Char), contains "runtime_to_service".toList (("runtime_to_service_".toList ++ d.name) ++ suf) = true := by
    intro d suf
    rw [show "runtime_to_service_".toList = "runtime_to_service".toList ++ ['_'] from by decide, List.append_assoc, List.append_assoc]
    exact contains_prefix _ _
  have hup : ∀ (d : SDom) (suf : List Char), contains "service_to_runtime".toList (("service_to_runtime_".toList ++ d.name) ++ suf) = true := by
    intro d suf
    rw [show "service_to_runtime_".toList = "service_to_runtime".toList ++ ['_'] from by decide, List.append_assoc, List.append_assoc]
    exact contains_prefix _ _
  have hmis : ∀ d ∈ ds, contains "runtime_to_service".toList (srcName (up d)) = false := by
    intro d hd
    obtain ⟨h1, h2⟩ := hg d hd
    rw [Bool.eq_false_iff]
    intro hc
    rcases (C104_misrouted_iff d.name).1 hc with h | h
    · exact h1 h
    · rw [h2] at h; cases h
  have hmodels : ∀ (d : SDom) (f : Ch → Bool), (∀ p, f (toModel str d p) = false) → (∀ p, f (fromModel str d p) = false) →
      ((d.procs.filter (·.py)).flatMap fun p => [toModel str d p, fromModel str d p]).filter f = [] := by
    intro d f h1 h2
    rw [List.filter_eq_nil_iff]
    intro c hc
    obtain ⟨p, _, hc⟩ := List.mem_flatMap.1 hc
    simp only [List.mem_cons, List.not_mem_nil, or_false] at hc
    rcases hc with rfl | rfl
    · simp [h1]
    · simp [h2]
  have hgood : ∀ ds' : List SDom, (∀ d ∈ ds', d ∈ ds) →
      rtSend (chans str ds') = ds'.map down ∧ rtRecv (chans str ds') = ds'.map up := by
    intro ds'
    induction ds' with
    | nil => intro _; exact ⟨rfl, rfl⟩
    | cons d ds' ih =>
      intro hsub
      obtain ⟨i1, i2⟩ := ih (fun e he => hsub e (List.mem_cons_of_mem _ he))
      have hm := hmis d (hsub d (by simp))
      unfold rtSend at i1 ⊢
      unfold rtRecv at i2 ⊢
      unfold chans at i1 i2 ⊢
      rw [List.flatMap_cons, List.filter_append, List.filter_append, i1, i2]
      unfold domChans
      constructor
      · rw [List.filter_cons_of_pos (by simp [down]; exact hdown d _), List.filter_cons_of_neg (by rw [hm]; simp),
          hmodels d _ (fun p => by simp [toModel]) (fun p => by simp [fromModel])]
        rfl
      · rw [List.filter_cons_of_neg (by
            have : contains "runtime_to_service".toList (srcName (down d)) = true := hdown d _
            rw [this]; simp), List.filter_cons_of_pos (by
            have : contains "service_to_runtime".toList (srcName (up d)) = true := hup d _
            rw [hm, this]; simp [up]),
          hmodels d _ (fun p => by simp [toModel]) (fun p => by simp [fromModel])]
        rfl
  refine ⟨(hgood ds (fun _ h => h)).1, (hgood ds (fun _ h => h)).2, fun d hd => ⟨?_, ?_⟩⟩
  · unfold svcFromRt
    have e1 : (chans str ds).filter (fun c => decide (c.src = .runtime) && decide (c.dst = .service d.name)) = [down d] := by
      rw [filter_chans str _ ds d h.names hd]
      · unfold domChans
        rw [List.filter_cons_of_pos (by simp [down]), List.filter_cons_of_neg (by simp [up]),
          hmodels d _ (fun p => by simp [toModel]) (fun p => by simp [fromModel])]
      · intro e he hne c hc
        have hnn : e.name ≠ d.name := fun hx => hne (name_inj h.names hd he hx)
        rcases (mem_domChans _ _ _).1 hc with rfl | rfl | ⟨p, _, _, rfl | rfl⟩ <;> simp [down, up, toModel, fromModel, hnn]
    rw [e1, portDict_values _ _ (by simp), filter_contains_all]
    · rfl
    · intro c hc
      rw [List.mem_singleton] at hc
      subst hc
      exact hdown d _
  · unfold svcToRt
    have e1 : (chans str ds).filter (fun c => decide (c.dst = .runtime) && decide (c.src = .service d.name)) = [up d] := by
      rw [filter_chans str _ ds d h.names hd]
      · unfold domChans
        rw [List.filter_cons_of_neg (by simp [down]), List.filter_cons_of_pos (by simp [up]),
          hmodels d _ (fun p => by simp [toModel]) (fun p => by simp [fromModel])]
      · intro e he hne c hc
        have hnn : e.name ≠ d.name := fun hx => hne (name_inj h.names hd he hx)
        rcases (mem_domChans _ _ _).1 hc with rfl | rfl | ⟨p, _, _, rfl | rfl⟩ <;> simp [down, up, toModel, fromModel, hnn]
    rw [e1, portDict_values _ _ (by simp), filter_contains_all]
    · rfl
    · intro c hc
      rw [List.mem_singleton] at hc
      subst hc
      exact hup d _

/-- **C104.** All channels are different: no two connections share one. -/
theorem C104_no_channel_shared (str : Nat → List Char) (ds : List SDom) (h : Legal str ds) : (chans str ds).Nodup := by
  have key : ∀ ds' : List SDom, (∀ d ∈ ds', d ∈ ds) → ds'.Nodup → (chans str ds').Nodup := by
    intro ds'
    induction ds' with
    | nil => intro _ _; exact List.nodup_nil
    | cons d ds' ih =>
      intro hsub hnd
      rw [List.nodup_cons] at hnd
      have hrec := ih (fun e he => hsub e (List.mem_cons_of_mem _ he)) hnd.2
      have hd := hsub d (by simp)
      unfold chans at hrec ⊢
      rw [List.flatMap_cons, List.nodup_append]
      refine ⟨?_, hrec, ?_⟩
      · have hids : ((d.procs.filter (·.py)).map SProc.id).Nodup :=
          List.Nodup.sublist (List.Sublist.map _ List.filter_sublist) (ids_dom h hd)
        unfold domChans
        generalize d.procs.filter (·.py) = P at hids
        have hrest : ∀ P : List SProc, (P.map SProc.id).Nodup →
            (P.flatMap fun p => [toModel str d p, fromModel str d p]).Nodup := by
          intro P
          induction P with
          | nil => intro _; exact List.nodup_nil
          | cons p P ihP =>
            intro hn
            rw [List.map_cons, List.nodup_cons] at hn
            rw [List.flatMap_cons, List.nodup_append]
            refine ⟨by simp [toModel, fromModel], ihP hn.2, ?_⟩
            intro a ha b hb hab
            subst hab
            obtain ⟨q, hq, hb⟩ := List.mem_flatMap.1 hb
            have hne : q.id ≠ p.id := fun hx => hn.1 (List.mem_map.2 ⟨q, hq, hx⟩)
            simp only [List.mem_cons, List.not_mem_nil, or_false] at ha hb
            rcases ha with rfl | rfl <;> rcases hb with hb | hb <;> simp [toModel, fromModel] at hb
            · exact hne hb.1.symm
            · exact hne hb.1.symm
        rw [List.nodup_cons, List.nodup_cons]
        refine ⟨?_, ?_, hrest P hids⟩
        · intro hm
          rcases List.mem_cons.1 hm with hm | hm
          · simp [down, up] at hm
          · obtain ⟨q, _, hm⟩ := List.mem_flatMap.1 hm
            simp [down, toModel, fromModel] at hm
        · intro hm
          obtain ⟨q, _, hm⟩ := List.mem_flatMap.1 hm
          simp [up, toModel, fromModel] at hm
      · intro a ha b hb hab
        subst hab
        obtain ⟨e, he, hb⟩ := List.mem_flatMap.1 hb
        have hne : e.name ≠ d.name := by
          intro hx
          have := name_inj h.names hd (hsub e (List.mem_cons_of_mem _ he)) hx
          rw [this] at he
          exact hnd.1 he
        have hown : ∀ (e : SDom) (c : Ch), c ∈ domChans str e → c.src = .service e.name ∨ c.dst = .service e.name := by
          intro e c hc
          rcases (mem_domChans _ _ _).1 hc with rfl | rfl | ⟨p, _, _, rfl | rfl⟩ <;> simp [down, up, toModel, fromModel]
        have honly : ∀ (e : SDom) (c : Ch) (n : List Char), c ∈ domChans str e → c.src = .service n ∨ c.dst = .service n → n = e.name := by
          intro e c n hc
          rcases (mem_domChans _ _ _).1 hc with rfl | rfl | ⟨p, _, _, rfl | rfl⟩ <;> simp [down, up, toModel, fromModel] <;> intro h <;> exact h.symm
        exact hne (honly d a e.name ha (hown e a hb))
  exact key ds (fun _ h => h) (List.Nodup.of_map _ h.names)

/-- Two domains with three Python processes meet the assumptions. -/
example : Legal (fun n => List.replicate n 'i') [⟨"a".toList, [⟨0, true⟩, ⟨2, true⟩]⟩, ⟨"b".toList, [⟨1, true⟩]⟩] ∧
    GoodNames [⟨"a".toList, [⟨0, true⟩, ⟨2, true⟩]⟩, ⟨"b".toList, [⟨1, true⟩]⟩] := by
  refine ⟨⟨by decide, by decide, fun a b hab => by simpa using congrArg List.length hab⟩, ?_⟩
  intro d hd
  simp only [List.mem_cons, List.not_mem_nil, or_false] at hd
  rcases hd with rfl | rfl
  · exact ⟨by decide, by decide⟩
  · exact ⟨by decide, by decide⟩

end Verif.Compiler.Sync
