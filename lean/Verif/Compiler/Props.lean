import Verif.Compiler.Lemmas

/-!
# C29-C31, C68: sync domains, sub-compilers, nodes, runtime services, channel map
-/

namespace Verif.Compiler

/-! ## C29: sync domains -/

/-- **C29.** The compiler accepts the custom domains exactly if their names differ, no process is listed twice and
every process implements a protocol of which the domain's protocol is an instance. -/
theorem C29_accepted_iff (pr : Protocols) (custom : List Domain) (procs : List Proc) :
    (∃ s, createSyncDomains pr custom procs = .ok s) ↔
      (custom.map Domain.name).Nodup ∧ (custom.flatMap Domain.procs).Nodup ∧
      ∀ d ∈ custom, ∀ p ∈ d.procs, pr.sub d.protocol (p.protoOf pr) = true := by
  have key : ∀ s, addCustom pr custom { domains := [], map := [] } = .ok s ↔ _ := fun s => addCustom_ok rfl
  simp only [createSyncDomains]
  constructor
  · rintro ⟨s, hs⟩
    cases ha : addCustom pr custom { domains := [], map := [] } with
    | error e => rw [ha] at hs; cases hs
    | ok s0 =>
      obtain ⟨h1, h2, _, h4, _, _⟩ := (key s0).1 ha
      exact ⟨h2, h4, h1⟩
  · rintro ⟨h2, h4, h1⟩
    have := (key { domains := [] ++ custom, map := [] ++ entries custom }).2
      ⟨h1, h2, by simp, h4, by simp, rfl⟩
    rw [this]
    exact ⟨_, rfl⟩

/-- **C29.** Every process of the network (and of the custom domains) is in exactly one sync domain, once, and
domain names are unique. -/
theorem C29_exactly_one_domain (pr : Protocols) (custom : List Domain) (procs : List Proc) (s : SdState)
    (h : createSyncDomains pr custom procs = .ok s) :
    (s.domains.map Domain.name).Nodup ∧
    (∀ p, p ∈ procs ∨ p ∈ custom.flatMap Domain.procs → (s.domains.flatMap Domain.procs).count p = 1) ∧
    (∀ p, p ∈ s.domains.flatMap Domain.procs → p ∈ procs ∨ p ∈ custom.flatMap Domain.procs) := by
  simp only [createSyncDomains] at h
  cases ha : addCustom pr custom { domains := [], map := [] } with
  | error e => rw [ha] at h; cases h
  | ok s0 =>
    rw [ha] at h
    cases h
    obtain ⟨hi, hd⟩ := custom_inv ha
    obtain ⟨h1, h2, h3⟩ := fold_inv (pr := pr) procs hi
    have hk := h1.same.map Prod.fst
    rw [entries_keys] at hk
    have hk0 := hi.same.map Prod.fst
    rw [entries_keys, hd] at hk0
    refine ⟨h1.names, ?_, ?_⟩
    · intro p hp
      rw [← hk.count_eq]
      apply List.count_eq_one_of_mem h1.keys
      rcases hp with hp | hp
      · exact h2 p hp
      · obtain ⟨e, he, heq⟩ := List.mem_map.1 (hk0.symm.subset hp)
        exact List.mem_map.2 ⟨e, h3 e he, heq⟩
    · intro p hp
      rcases fold_keys procs p (hk.symm.subset hp) with h4 | h4
      · exact .inr (hk0.subset h4)
      · exact .inl h4

/-- **C29, what holds of the last part.** If no custom domain has the name of a default domain and different
protocols give different default names, all processes of a domain implement (a superclass of) its protocol.
Missing: names that collide, see the witnesses. -/
theorem C29_protocols_match_partial (pr : Protocols) (hrefl : ∀ a, pr.sub a a = true) (custom : List Domain)
    (procs : List Proc) (s : SdState) (h : createSyncDomains pr custom procs = .ok s)
    (hnames : ∀ p ∈ procs, defaultName pr p ∉ custom.map Domain.name)
    (hinj : ∀ p ∈ procs, ∀ q ∈ procs, defaultName pr p = defaultName pr q → p.protoOf pr = q.protoOf pr) :
    ∀ d ∈ s.domains, ∀ p ∈ d.procs, pr.sub d.protocol (p.protoOf pr) = true := by
  have hmem := (C29_exactly_one_domain pr custom procs s h).2.2
  simp only [createSyncDomains] at h
  cases ha : addCustom pr custom { domains := [], map := [] } with
  | error e => rw [ha] at h; cases h
  | ok s0 =>
    rw [ha] at h
    cases h
    obtain ⟨hi, hd⟩ := custom_inv ha
    obtain ⟨hcompat, hcn, _, hcp, _, _⟩ := (addCustom_ok rfl).1 ha
    obtain ⟨h1, h2, h3⟩ := fold_inv (pr := pr) procs hi
    intro d hd' p hp
    have he : (p, d.name) ∈ (procs.foldl (assign pr) s0).map :=
      h1.same.symm.subset (List.mem_flatMap.2 ⟨d, hd', List.mem_map.2 ⟨p, hp, rfl⟩⟩)
    have hent : ∀ q n, (q, n) ∈ s0.map → ∃ c ∈ custom, c.name = n ∧ q ∈ c.procs := by
      intro q n hq
      have := hi.same.subset hq
      rw [hd] at this
      obtain ⟨c, hc, hx⟩ := List.mem_flatMap.1 this
      obtain ⟨q', hq', hx⟩ := List.mem_map.1 hx
      simp only [Prod.mk.injEq] at hx
      exact ⟨c, hc, hx.2, hx.1 ▸ hq'⟩
    rcases fold_protocol procs d hd' with ⟨c, hc, h4, h5⟩ | ⟨q, hq, h4, h5⟩
    · -- a custom domain
      rw [hd] at hc
      rcases fold_default procs p d.name he with h6 | ⟨h6, h7⟩
      · obtain ⟨c', hc', h7, h8⟩ := hent p d.name h6
        have hcc : c' = c := List.inj_on_of_nodup_map hcn hc' hc (h7.trans h4.symm)
        subst hcc
        rw [← h5]; exact hcompat _ hc _ h8
      · exact absurd (List.mem_map.2 ⟨c, hc, h4.trans h7⟩) (hnames p h6)
    · -- a default domain
      rcases fold_default procs p d.name he with h6 | ⟨h6, h7⟩
      · obtain ⟨c', hc', h7, _⟩ := hent p d.name h6
        exact absurd (List.mem_map.2 ⟨c', hc', h7.trans h4⟩) (hnames q hq)
      · rw [h5, hinj q hq p h6 (h4.symm.trans h7)]; exact hrefl _

/-- **C29.** Processes that are in no custom domain are grouped by protocol and by Python / not Python: same default
name, same domain. -/
theorem C29_default_domain (pr : Protocols) (custom : List Domain) (procs : List Proc) (s : SdState)
    (h : createSyncDomains pr custom procs = .ok s) (p : Proc) (hp : p ∈ procs)
    (hc : p ∉ custom.flatMap Domain.procs) : ∃ d ∈ s.domains, d.name = defaultName pr p ∧ p ∈ d.procs := by
  simp only [createSyncDomains] at h
  cases ha : addCustom pr custom { domains := [], map := [] } with
  | error e => rw [ha] at h; cases h
  | ok s0 =>
    rw [ha] at h
    cases h
    obtain ⟨hi, hd⟩ := custom_inv ha
    obtain ⟨h1, h2, h3⟩ := fold_inv (pr := pr) procs hi
    obtain ⟨⟨q, n⟩, he, heq⟩ := List.mem_map.1 (h2 p hp)
    simp only at heq
    subst heq
    have hn : n = defaultName pr q := by
      rcases fold_default procs q n he with h6 | h6
      · exfalso
        have hk0 := hi.same.map Prod.fst
        rw [entries_keys, hd] at hk0
        exact hc (hk0.subset (List.mem_map.2 ⟨_, h6, rfl⟩))
      · exact h6.2
    subst hn
    obtain ⟨d, hd', hx⟩ := List.mem_flatMap.1 (h1.same.subset he)
    obtain ⟨q', hq', hx⟩ := List.mem_map.1 hx
    simp only [Prod.mk.injEq] at hx
    exact ⟨d, hd', hx.2, hx.1 ▸ hq'⟩

theorem eq_of_count_one {β : Type} (f : β → List Proc) (a : Proc) (l : List β)
    (h : (l.flatMap f).count a = 1) : ∀ x ∈ l, ∀ y ∈ l, a ∈ f x → a ∈ f y → x = y := by
  induction l with
  | nil => simp
  | cons b l ih =>
    rw [List.flatMap_cons, List.count_append] at h
    have hin : ∀ z ∈ l, a ∈ f z → 0 < (l.flatMap f).count a := fun z hz ha =>
      List.count_pos_iff.2 (List.mem_flatMap.2 ⟨z, hz, ha⟩)
    intro x hx y hy ax ay
    have hb : a ∈ f b → 0 < (f b).count a := List.count_pos_iff.2
    rcases List.mem_cons.1 hx with e1 | hx1 <;> rcases List.mem_cons.1 hy with e2 | hy1
    · rw [e1, e2]
    · rw [e1] at ax; have := hb ax; have := hin y hy1 ay; omega
    · rw [e2] at ay; have := hb ay; have := hin x hx1 ax; omega
    · have := hin x hx1 ax
      exact ih (by omega) x hx1 y hy1 ax ay

/-- **C29.** Python processes and processes on the neuromorphic chip are never put into one default domain: two
processes of the same protocol, one Python and one not, which are in no custom domain, are in different domains. -/
theorem C29_python_apart (pr : Protocols) (custom : List Domain) (procs : List Proc) (s : SdState)
    (h : createSyncDomains pr custom procs = .ok s) (p q : Proc) (hp : p ∈ procs) (hq : q ∈ procs)
    (hcp : p ∉ custom.flatMap Domain.procs) (hcq : q ∉ custom.flatMap Domain.procs)
    (hproto : p.protoOf pr = q.protoOf pr) (hpy : p.kind = .py) (hnpy : q.kind ≠ .py) :
    ∀ d ∈ s.domains, ¬ (p ∈ d.procs ∧ q ∈ d.procs) := by
  rintro d hd ⟨h1, h2⟩
  obtain ⟨_, hone, _⟩ := C29_exactly_one_domain pr custom procs s h
  obtain ⟨dp, hdp, hnp, hmp⟩ := C29_default_domain pr custom procs s h p hp hcp
  obtain ⟨dq, hdq, hnq, hmq⟩ := C29_default_domain pr custom procs s h q hq hcq
  have e1 := eq_of_count_one _ p _ (hone p (.inl hp)) d hd dp hdp h1 hmp
  have e2 := eq_of_count_one _ q _ (hone q (.inl hq)) d hd dq hdq h2 hmq
  rw [← e1] at hnp
  rw [← e2, hnp] at hnq
  unfold defaultName at hnq
  rw [if_pos hpy, if_neg hnpy, hproto] at hnq
  have := congrArg String.length hnq
  simp only [String.length_append] at this
  have h1 : "_Nc_C".length = 5 := by decide
  omega

/-- Protocols used in the examples: 0 LoihiProtocol, 1 AsyncProtocol, 2 another class also called LoihiProtocol. -/
def exPr : Protocols := { name := fun i => if i = 1 then "AsyncProtocol" else "LoihiProtocol", sub := fun a b => a == b, async := 1 }

def exProcs : List Proc := [⟨0, .py, some 0⟩, ⟨1, .py, none⟩, ⟨2, .nc, some 0⟩, ⟨3, .py, some 0⟩]

example : (createSyncDomains exPr [⟨"mine", 0, [⟨3, .py, some 0⟩]⟩] exProcs).toOption.map
    (fun s => s.domains.map fun d => (d.name, d.procs.map Proc.id)) =
    some [("mine", [3]), ("LoihiProtocol_SyncDomain", [0]), ("AsyncProtocol_SyncDomain", [1]),
      ("LoihiProtocol_Nc_C_SyncDomain", [2])] := by decide

example : (∀ p ∈ exProcs, defaultName exPr p ∉ ["mine"]) ∧
    (∀ p ∈ exProcs, ∀ q ∈ exProcs, defaultName exPr p = defaultName exPr q → p.protoOf exPr = q.protoOf exPr) := by
  decide

/-- **C29, finding.** A custom domain called like a default domain takes in processes of another protocol without any
check. -/
theorem C29_witness_name_taken : ∃ (custom : List Domain) (procs : List Proc) (s : SdState),
    createSyncDomains exPr custom procs = .ok s ∧
    ∃ d ∈ s.domains, ∃ p ∈ d.procs, exPr.sub d.protocol (p.protoOf exPr) = false :=
  ⟨[⟨"AsyncProtocol_SyncDomain", 0, []⟩], [⟨0, .py, none⟩], _, rfl, _, List.mem_singleton.2 rfl, ⟨0, .py, none⟩,
    by decide, by decide⟩

/-- **C29, finding.** Two protocol classes with the same name share a default domain. -/
theorem C29_witness_same_class_name : ∃ (procs : List Proc) (s : SdState),
    createSyncDomains exPr [] procs = .ok s ∧
    ∃ d ∈ s.domains, ∃ p ∈ d.procs, exPr.sub d.protocol (p.protoOf exPr) = false :=
  ⟨[⟨0, .py, some 0⟩, ⟨1, .py, some 2⟩], _, rfl, _, List.mem_singleton.2 rfl, ⟨1, .py, some 2⟩, by decide, by decide⟩

/-! ## C30: sub-compilers and nodes -/

theorem mapSub_aux (ps : List Proc) (d d' : List (Kind × List Proc)) (h : mapSubcompilers ps d = some d') :
    (∀ k, (dictGet k d').getD [] = (dictGet k d).getD [] ++ ps.filter fun p => compilerOf p.kind = some k) ∧
    ((d.map Prod.fst).Nodup → (d'.map Prod.fst).Nodup) ∧
    (d'.flatMap Prod.snd).Perm (d.flatMap Prod.snd ++ ps) := by
  induction ps generalizing d with
  | nil => cases h; simp
  | cons p ps ih =>
    rw [mapSubcompilers] at h
    cases hk : compilerOf p.kind with
    | none => simp [hk] at h
    | some k0 =>
      simp only [hk] at h
      obtain ⟨h1, h2, h3⟩ := ih _ h
      refine ⟨?_, fun hn => h2 (dictAppend_keys_nodup _ _ _ hn), ?_⟩
      · intro k
        rw [h1, dictAppend_get, List.filter_cons, hk, List.append_assoc]
        by_cases e : k0 = k
        · subst e; simp
        · have e' : ¬ k = k0 := fun x => e x.symm
          simp [e, e']
      · refine h3.trans (((dictAppend_flat k0 p d).append_right ps).trans ?_)
        simp

/-- **C30.** Every process of a group goes to exactly one sub-compiler, the one for the type of its model, in the order
of the group; there is one sub-compiler per type. -/
theorem C30_one_subcompiler (ps : List Proc) (d : List (Kind × List Proc)) (h : mapSubcompilers ps [] = some d) :
    (d.map Prod.fst).Nodup ∧ (d.flatMap Prod.snd).Perm ps ∧
    ∀ k, (dictGet k d).getD [] = ps.filter fun p => p.kind = k := by
  obtain ⟨h1, h2, h3⟩ := mapSub_aux ps [] d h
  refine ⟨h2 (by simp), by simpa using h3, ?_⟩
  have hok : ∀ (qs : List Proc) (e : List (Kind × List Proc)), (mapSubcompilers qs e).isSome →
      ∀ p ∈ qs, p.kind ≠ .other := by
    intro qs
    induction qs with
    | nil => intro e _ p hp; simp at hp
    | cons q qs ih =>
      intro e he p hp
      rw [mapSubcompilers] at he
      cases hk : compilerOf q.kind with
      | none => simp [hk] at he
      | some k0 =>
        simp only [hk] at he
        simp only [List.mem_cons] at hp
        rcases hp with rfl | hp
        · intro e2; rw [e2] at hk; simp [compilerOf] at hk
        · exact ih _ he p hp
  have hno := hok ps [] (by rw [h]; rfl)
  intro k
  rw [h1 k]
  simp only [dictGet, List.find?_nil, Option.map_none, Option.getD_none, List.nil_append]
  apply List.filter_congr
  intro p hp
  have := hno p hp
  cases hpk : p.kind <;> simp_all [compilerOf]

/-- **C30.** Compilation is refused exactly if some process has a model of another type. -/
theorem C30_refused_iff (ps : List Proc) (d : List (Kind × List Proc)) :
    mapSubcompilers ps d = none ↔ ∃ p ∈ ps, p.kind = .other := by
  induction ps generalizing d with
  | nil => simp [mapSubcompilers]
  | cons p ps ih =>
    rw [mapSubcompilers]
    cases hp : p.kind <;> simp [compilerOf, hp, ih]

theorem set_set_perm {α : Type} (l : List α) (i j : Nat) (hi : i < l.length) (hj : j < l.length) (hne : i ≠ j) :
    ((l.set i l[j]).set j l[i]).Perm l := by
  classical
  rw [List.perm_iff_count]
  intro a
  rw [List.count_set (by simpa using hj), List.count_set hi]
  simp only [List.getElem_set_ne hne]
  have h1 : l[i] = a → 0 < l.count a := fun e => List.count_pos_iff.2 (e ▸ List.getElem_mem hi)
  have h2 : l[j] = a → 0 < l.count a := fun e => List.count_pos_iff.2 (e ▸ List.getElem_mem hj)
  by_cases e1 : l[i] = a
  · have := h1 e1
    by_cases e2 : l[j] = a <;> simp [e1, e2] <;> omega
  · by_cases e2 : l[j] = a
    · have := h2 e2
      simp [e1, e2]
      all_goals omega
    · simp [e1, e2]

/-- **C30.** The order of the sub-compilers is only changed to put C before Nc: nothing is lost, and whenever both are
present the C sub-compiler comes first. -/
theorem C30_c_before_nc (l : List (Kind × List Proc)) (hnd : (l.map Prod.fst).Nodup) :
    (swapCNc l).Perm l ∧
    ∀ i j (hi : i < (swapCNc l).length) (hj : j < (swapCNc l).length),
      (swapCNc l)[i].1 = .c → (swapCNc l)[j].1 = .nc → i < j := by
  have huniq : ∀ i j (hi : i < l.length) (hj : j < l.length), l[i].1 = l[j].1 → i = j := by
    intro i j hi hj h
    have := (hnd.getElem_inj_iff (i := i) (j := j) (hi := by simpa using hi) (hj := by simpa using hj)).1 (by simpa using h)
    exact this
  have hci : ∀ i (hi : i < l.length), l[i].1 = .c → (l.findIdx fun e => decide (e.1 = .c)) = i := by
    intro i hi h
    have hlt : (l.findIdx fun e => decide (e.1 = .c)) < l.length :=
      List.findIdx_lt_length.2 ⟨l[i], List.getElem_mem hi, by simp [h]⟩
    have := List.findIdx_getElem (w := hlt)
    exact huniq _ _ hlt hi (by simp only [decide_eq_true_eq] at this; rw [this, h])
  have hni : ∀ i (hi : i < l.length), l[i].1 = .nc → (l.findIdx fun e => decide (e.1 = .nc)) = i := by
    intro i hi h
    have hlt : (l.findIdx fun e => decide (e.1 = .nc)) < l.length :=
      List.findIdx_lt_length.2 ⟨l[i], List.getElem_mem hi, by simp [h]⟩
    have := List.findIdx_getElem (w := hlt)
    exact huniq _ _ hlt hi (by simp only [decide_eq_true_eq] at this; rw [this, h])
  unfold swapCNc
  simp only
  split
  · rename_i hcond
    obtain ⟨h1, h2, h3⟩ := hcond
    generalize hc : (l.findIdx fun e => decide (e.1 = .c)) = ci at *
    generalize hn : (l.findIdx fun e => decide (e.1 = .nc)) = ni at *
    rw [List.getElem?_eq_getElem h1, List.getElem?_eq_getElem h2]
    simp only
    refine ⟨set_set_perm l ci ni h1 h2 (by omega), ?_⟩
    have hcc : l[ci].1 = .c := by
      have := List.findIdx_getElem (xs := l) (p := fun e => decide (e.1 = Kind.c)) (w := by rw [hc]; exact h1)
      simp only [hc, decide_eq_true_eq] at this; exact this
    have hnn : l[ni].1 = .nc := by
      have := List.findIdx_getElem (xs := l) (p := fun e => decide (e.1 = Kind.nc)) (w := by rw [hn]; exact h2)
      simp only [hn, decide_eq_true_eq] at this; exact this
    intro i j hi hj hic hjn
    simp only [List.length_set] at hi hj
    have hi' : i = ni := by
      rw [List.getElem_set] at hic
      split at hic
      · rename_i e; exact e.symm
      · rw [List.getElem_set] at hic
        split at hic
        · rw [hnn] at hic; cases hic
        · have := hci i hi hic; omega
    have hj' : j = ci := by
      rw [List.getElem_set] at hjn
      split at hjn
      · rw [hcc] at hjn; cases hjn
      · rw [List.getElem_set] at hjn
        split at hjn
        · rename_i e; exact e.symm
        · have := hni j hj hjn; omega
    omega
  · rename_i hcond
    refine ⟨.refl _, ?_⟩
    intro i j hi hj hic hjn
    have e1 := hci i hi hic
    have e2 := hni j hj hjn
    have hne : i ≠ j := by
      rintro rfl
      rw [hic] at hjn; cases hjn
    rw [e1, e2] at hcond
    omega

theorem createNodes_aux (gen : String) (ps : List Proc) (d d' : List (NodeT × List Proc))
    (h : createNodes gen ps d = some d') :
    (∀ k, (dictGet k d').getD [] = (dictGet k d).getD [] ++ ps.filter fun p => nodeOf gen p = some k) ∧
    ((d.map Prod.fst).Nodup → (d'.map Prod.fst).Nodup) ∧
    (d'.flatMap Prod.snd).Perm (d.flatMap Prod.snd ++ ps) ∧
    ((∀ e ∈ d, e.2 ≠ []) → ∀ e ∈ d', e.2 ≠ []) := by
  induction ps generalizing d with
  | nil => cases h; simp
  | cons p ps ih =>
    rw [createNodes] at h
    cases hk : nodeOf gen p with
    | none => simp [hk] at h
    | some k0 =>
      simp only [hk] at h
      obtain ⟨h1, h2, h3, h4⟩ := ih _ h
      refine ⟨?_, fun hn => h2 (dictAppend_keys_nodup _ _ _ hn), ?_, fun hne => h4 (dictAppend_ne _ _ _ hne)⟩
      · intro k
        rw [h1, dictAppend_get, List.filter_cons, hk, List.append_assoc]
        by_cases e : k0 = k
        · subst e; simp
        · have e' : ¬ k = k0 := fun x => e x.symm
          simp [e, e']
      · refine h3.trans (((dictAppend_flat k0 p d).append_right ps).trans ?_)
        simp

/-- **C30.** Every process is on exactly one node: Python processes on the head node, C and Nc processes on the one
Loihi node of the configured generation; there is one node of each type and no empty node. -/
theorem C30_one_node (gen : String) (ps : List Proc) (d : List (NodeT × List Proc))
    (h : createNodes gen ps [] = some d) :
    (d.map Prod.fst).Nodup ∧ (d.flatMap Prod.snd).Perm ps ∧ (∀ e ∈ d, e.2 ≠ []) ∧
    (dictGet .head d).getD [] = ps.filter fun p => ¬ (p.kind = .nc ∨ p.kind = .c) := by
  obtain ⟨h1, h2, h3, h4⟩ := createNodes_aux gen ps [] d h
  refine ⟨h2 (by simp), by simpa using h3, h4 (by simp), ?_⟩
  rw [h1]
  simp only [dictGet, List.find?_nil, Option.map_none, Option.getD_none, List.nil_append]
  apply List.filter_congr
  intro p _
  unfold nodeOf
  by_cases hk : p.kind = .nc ∨ p.kind = .c
  · rw [if_pos hk]
    simp only [hk, not_true, decide_false, decide_eq_false_iff_not]
    split
    · simp
    · split <;> simp
  · rw [if_neg hk]; simp only [hk, not_false_eq_true, decide_true]

example : mapSubcompilers exProcs [] = some [(.py, [⟨0, .py, some 0⟩, ⟨1, .py, none⟩, ⟨3, .py, some 0⟩]), (.nc, [⟨2, .nc, some 0⟩])] := by
  decide
example : (swapCNc [(.nc, []), (.py, []), (.c, [])]) = [(.c, []), (.py, []), (.nc, [])] := by decide
example : createNodes "NAHUKU" exProcs [] =
    some [(.head, [⟨0, .py, some 0⟩, ⟨1, .py, none⟩, ⟨3, .py, some 0⟩]), (.nahuku, [⟨2, .nc, some 0⟩])] := by decide

/-! ## C68: runtime services -/

/-- Position of a key in a dictionary, as used by the runtime to index its lists of channels. -/
def position (n : String) (b : List (String × Nat)) : Nat := (b.map Prod.fst).findIdx (· = n)

theorem procMap_get (ps : List Proc) (v : Nat) (m : List (Nat × Nat)) (i : Nat) :
    dictGet i (ps.foldl (fun m p => dictSet p.id v m) m) = if i ∈ ps.map Proc.id then some v else dictGet i m := by
  induction ps generalizing m with
  | nil => simp
  | cons p ps ih =>
    rw [List.foldl_cons, ih, dictGet_set]
    by_cases h1 : i ∈ ps.map Proc.id
    · simp [h1]
    · by_cases h2 : i = p.id
      · simp [h2]
      · simp [h1, h2]

theorem services_fold (ds : List Domain) (s : RsState) (hn : (ds.map Domain.name).Nodup)
    (hfresh : ∀ d ∈ ds, d.name ∉ s.builders.map Prod.fst) :
    (ds.foldl rsStep s).builders = s.builders ++ (ds.map Domain.name).zipIdx s.next ∧
    (ds.foldl rsStep s).next = s.next + ds.length := by
  induction ds generalizing s with
  | nil => simp
  | cons d ds ih =>
    simp only [List.map_cons, List.nodup_cons] at hn
    have hd := hfresh d (by simp)
    have hset : ∀ (b : List (String × Nat)) (v : Nat), d.name ∉ b.map Prod.fst → dictSet d.name v b = b ++ [(d.name, v)] := by
      intro b v
      induction b with
      | nil => intro _; rfl
      | cons e b ihb =>
        intro h
        simp only [List.map_cons, List.mem_cons, not_or] at h
        have : ¬ e.1 = d.name := fun x => h.1 x.symm
        obtain ⟨a, c⟩ := e
        simp only at this
        simp only [dictSet, this, if_false, ihb h.2, List.cons_append]
    obtain ⟨h1, h2⟩ := ih (rsStep s d) hn.2 (by
      intro e he
      simp only [rsStep, hset _ _ hd, List.map_append, List.map_cons, List.map_nil, List.mem_append,
        List.mem_singleton, not_or]
      refine ⟨hfresh e (by simp [he]), fun h => hn.1 (List.mem_map.2 ⟨e, he, h⟩)⟩)
    rw [List.foldl_cons]
    refine ⟨?_, ?_⟩
    · rw [h1]
      simp only [rsStep, hset _ _ hd, List.map_cons, List.zipIdx_cons, List.append_assoc, List.singleton_append]
    · rw [h2]; simp only [rsStep, List.length_cons]; omega

theorem procMap_fold (ds : List Domain) (s : RsState) (d : Domain) (hd : d ∈ ds) (p : Proc) (hp : p ∈ d.procs)
    (hids : ∀ e ∈ ds, ∀ q ∈ e.procs, q.id = p.id → e = d) :
    dictGet p.id (ds.foldl rsStep s).procMap = dictGet d.name (ds.foldl rsStep s).builders ∨
    ∃ e ∈ ds, e ≠ d ∧ e.name = d.name := by
  by_cases hex : ∃ e ∈ ds, e ≠ d ∧ e.name = d.name
  · exact .inr hex
  left
  have key : ∀ (l : List Domain) (s : RsState), (∀ e ∈ l, e ∈ ds) →
      (dictGet p.id s.procMap = dictGet d.name s.builders ∨ d ∈ l) →
      dictGet p.id (l.foldl rsStep s).procMap = dictGet d.name (l.foldl rsStep s).builders := by
    intro l
    induction l with
    | nil => intro s _ h; simpa using h
    | cons e l ih =>
      intro s hl h
      rw [List.foldl_cons]
      apply ih _ (fun x hx => hl x (by simp [hx]))
      by_cases hed : e = d
      · left
        subst hed
        simp only [rsStep]
        rw [procMap_get, dictGet_set, if_pos (List.mem_map.2 ⟨p, hp, rfl⟩), if_pos rfl]
      · have h1 : p.id ∉ e.procs.map Proc.id := by
          intro hm
          obtain ⟨q, hq, hqe⟩ := List.mem_map.1 hm
          exact hed (hids e (hl e (by simp)) q hq hqe)
        have h2 : ¬ d.name = e.name := fun x => hex ⟨e, hl e (by simp), hed, x.symm⟩
        rcases h with h | h
        · left
          simp only [rsStep]
          rw [procMap_get, dictGet_set, if_neg h1, if_neg h2]; exact h
        · right
          simp only [List.mem_cons] at h
          rcases h with h | h
          · exact absurd h.symm hed
          · exact h
  exact key ds s (fun _ h => h) (.inr hd)

/-- **C68.** The service id recorded for a process is always the id of the service built for its sync domain (also if a
domain is spread over several nodes), as long as names and process ids are unique. -/
theorem C68_process_has_service_of_its_domain (nodes : List (List Domain)) (d : Domain) (hd : d ∈ nodes.flatten)
    (p : Proc) (hp : p ∈ d.procs) (hnames : ∀ e ∈ nodes.flatten, e.name = d.name → e = d)
    (hids : ∀ e ∈ nodes.flatten, ∀ q ∈ e.procs, q.id = p.id → e = d) :
    dictGet p.id (createServices nodes).procMap = dictGet d.name (createServices nodes).builders := by
  rcases procMap_fold nodes.flatten { builders := [], procMap := [], next := 0 } d hd p hp hids with h | ⟨e, he, h1, h2⟩
  · exact h
  · exact absurd (hnames e he h2) h1

/-- **C68, for domains on one node each.** The runtime finds the channel of a process' service by using the service id
as an index: the id is the position of the domain in the list of channels. Missing: domains spread over
several nodes, see `C68_witness_spread_domain`. -/
theorem C68_service_id_is_position_partial (nodes : List (List Domain))
    (hnd : (nodes.flatten.map Domain.name).Nodup) (d : Domain) (hd : d ∈ nodes.flatten) :
    dictGet d.name (createServices nodes).builders = some (position d.name (createServices nodes).builders) ∧
    position d.name (createServices nodes).builders < (createServices nodes).builders.length := by
  obtain ⟨h1, _⟩ := services_fold nodes.flatten { builders := [], procMap := [], next := 0 } hnd (by simp)
  have hb : (createServices nodes).builders = (nodes.flatten.map Domain.name).zipIdx 0 := by
    simpa [createServices] using h1
  rw [hb]
  have hmem : d.name ∈ nodes.flatten.map Domain.name := List.mem_map.2 ⟨d, hd, rfl⟩
  clear h1 hb hd
  generalize nodes.flatten.map Domain.name = l at *
  have gen : ∀ (l : List String) (k : Nat), d.name ∈ l →
      dictGet d.name (l.zipIdx k) = some (k + l.findIdx (· = d.name)) := by
    intro l
    induction l with
    | nil => intro k h; simp at h
    | cons a l ih =>
      intro k h
      by_cases ha : a = d.name
      · simp [dictGet, ha, List.findIdx_cons]
      · have h' : d.name ∈ l := by
          simp only [List.mem_cons] at h
          rcases h with h | h
          · exact absurd h.symm ha
          · exact h
        have := ih (k + 1) h'
        simp only [dictGet, List.zipIdx_cons, List.find?_cons, ha, decide_false] at this ⊢
        rw [this, List.findIdx_cons]
        simp only [ha, decide_false, cond_false]
        congr 1; omega
  have hkeys : (l.zipIdx 0).map Prod.fst = l := by simp
  rw [position, hkeys]
  refine ⟨by rw [gen l 0 hmem]; simp, ?_⟩
  simp only [List.length_zipIdx]
  exact List.findIdx_lt_length.2 ⟨d.name, hmem, by simp⟩

def exDomA : Domain := ⟨"a", 0, [⟨0, .py, some 0⟩, ⟨1, .c, some 0⟩]⟩
def exDomB : Domain := ⟨"b", 0, [⟨2, .py, some 0⟩]⟩

example : (createServices [[exDomA, exDomB]]).builders = [("a", 0), ("b", 1)] ∧
    (createServices [[exDomA, exDomB]]).procMap = [(0, 0), (1, 0), (2, 1)] := by decide

/-- **C68, finding.** A sync domain with processes on two nodes (a Python and a C process) is given two service ids;
the second one is kept, and it is no longer the position of its channel: the runtime indexes past the end of
its channel list, or talks to the service of another domain. -/
theorem C68_witness_spread_domain :
    dictGet 0 (createServices [[exDomA], [exDomA]]).procMap = some 1 ∧
    (createServices [[exDomA], [exDomA]]).builders.length = 1 ∧
    dictGet 0 (createServices [[exDomA, exDomB], [exDomA]]).procMap = some 2 ∧
    position "a" (createServices [[exDomA, exDomB], [exDomA]]).builders = 0 := by decide

/-! ### Routing of the management channels by port name -/

/-- **C68.** The port towards the services is always recognised. -/
theorem C68_request_port_routed (n : String) : routeUp ("runtime_to_service_" ++ n) = some true := by
  unfold routeUp
  rw [if_pos]
  rw [String.toList_append]
  have : "runtime_to_service_".toList = 'r' :: "untime_to_service_".toList := by decide
  rw [this, List.cons_append, contains]
  have h2 : "runtime_to_service".toList.isPrefixOf ('r' :: ("untime_to_service_".toList ++ n.toList)) = true := by
    rw [List.isPrefixOf_iff_prefix]
    refine ⟨'_' :: n.toList, ?_⟩
    have : "runtime_to_service".toList ++ ['_'] = 'r' :: "untime_to_service_".toList := by decide
    rw [← List.cons_append, ← this]; simp
  rw [h2]; rfl

/-- **C68, finding.** The response port of a domain whose name starts with "to_service" is taken for a request port: the
runtime then waits for answers on no port, or sends requests into the wrong one. -/
theorem C68_witness_domain_called_to_service :
    routeUp ("service_to_runtime_" ++ "to_service") = some true := by decide

/-! ## C31: channel map -/

section ChannelMap
variable {Port Pl : Type} [DecidableEq Port]

theorem fromGroups_keys (pl : Pl) (l : List (Port × Port)) (m : List ((Port × Port) × Pl)) (hm : (m.map Prod.fst).Nodup) :
    ((l.foldl (fun m k => dictSet k pl m) m).map Prod.fst).Nodup ∧
    ∀ k, k ∈ (l.foldl (fun m k => dictSet k pl m) m).map Prod.fst ↔ k ∈ m.map Prod.fst ∨ k ∈ l := by
  induction l generalizing m with
  | nil => exact ⟨hm, by simp⟩
  | cons a l ih =>
    have h1 : ((dictSet a pl m).map Prod.fst).Nodup := by
      rw [dictSet_keys]
      split
      · exact hm
      · rename_i h
        rw [List.nodup_append]
        refine ⟨hm, by simp, ?_⟩
        intro x hx y hy
        simp only [List.mem_singleton] at hy
        subst hy; rintro rfl; exact h hx
    obtain ⟨h2, h3⟩ := ih _ h1
    refine ⟨h2, ?_⟩
    intro k
    rw [List.foldl_cons, h3, dictSet_keys]
    by_cases h : a ∈ m.map Prod.fst
    · rw [if_pos h]
      constructor
      · rintro (h4 | h4)
        · exact .inl h4
        · exact .inr (by simp [h4])
      · rintro (h4 | h4)
        · exact .inl h4
        · simp only [List.mem_cons] at h4
          rcases h4 with rfl | h4
          · exact .inl h
          · exact .inr h4
    · rw [if_neg h]
      simp only [List.mem_append, List.mem_singleton, List.mem_cons]
      tauto

/-- **C31.** The channel map of a network has exactly one entry for each pair of connected ports whose destination
belongs to a process of the network, and no other entries, even if a pair is connected several times. -/
theorem C31_channel_map_exact (pl : Pl) (procs : List Nat) (srcs : Nat → List Port) (dsts : Port → List Port)
    (owner : Port → Nat) :
    ((fromGroups pl (portPairs procs srcs dsts owner)).map Prod.fst).Nodup ∧
    ∀ s d, (s, d) ∈ (fromGroups pl (portPairs procs srcs dsts owner)).map Prod.fst ↔
      ∃ p ∈ procs, s ∈ srcs p ∧ d ∈ dsts s ∧ owner d ∈ procs := by
  obtain ⟨h1, h2⟩ := fromGroups_keys pl (portPairs procs srcs dsts owner) [] (by simp)
  refine ⟨h1, ?_⟩
  intro s d
  simp only [fromGroups]
  rw [h2]
  simp only [List.map_nil, List.not_mem_nil, false_or, portPairs, List.mem_flatMap, List.mem_map, List.mem_filter,
    decide_eq_true_eq, Prod.mk.injEq]
  constructor
  · rintro ⟨p, hp, s', hs', d', ⟨hd', ho⟩, rfl, rfl⟩
    exact ⟨p, hp, hs', hd', ho⟩
  · rintro ⟨p, hp, hs, hd, ho⟩
    exact ⟨p, hp, s, hs, d, ⟨hd, ho⟩, rfl, rfl⟩

/-- **C31.** An initialiser is never replaced: setting it a second time is refused, and after any sequence of accepted
calls the initialiser of a port is the one it was given. -/
theorem C31_initializer_once (m : List (Port × Pl)) (port : Port) (i : Pl) (m' : List (Port × Pl))
    (h : setInit m port i = some m') :
    dictGet port m = none ∧ dictGet port m' = some i ∧ (∀ q v, dictGet q m = some v → dictGet q m' = some v) ∧
    ∀ j, setInit m' port j = none := by
  unfold setInit at h
  split at h
  · cases h
  · rename_i hp
    cases h
    have hget : ∀ q, dictGet q (m ++ [(port, i)]) = (dictGet q m).or (if q = port then some i else none) := by
      intro q
      simp only [dictGet, List.find?_append, Option.map_or]
      congr 1
      by_cases e : q = port
      · subst e; simp
      · have : ¬ port = q := fun x => e x.symm
        simp [e, this]
    have hnone := dictGet_none.2 hp
    refine ⟨hnone, by rw [hget, hnone]; simp, ?_, ?_⟩
    · intro q v hq; rw [hget, hq]; rfl
    · intro j; unfold setInit; rw [if_pos (by simp)]

theorem addPairs_mem (pl : Pl) (ks : List (Port × Port)) (m : List ((Port × Port) × Pl)) (k : Port × Port) :
    k ∈ (ks.foldl (addPortPair pl) m).map Prod.fst ↔ k ∈ m.map Prod.fst ∨ k ∈ ks := by
  induction ks generalizing m with
  | nil => simp
  | cons a l ih =>
    rw [List.foldl_cons, ih, addPortPair, dictSet_keys]
    split
    · rename_i h
      constructor
      · rintro (h4 | h4)
        · exact .inl h4
        · exact .inr (by simp [h4])
      · rintro (h4 | h4)
        · exact .inl h4
        · simp only [List.mem_cons] at h4
          rcases h4 with rfl | h4
          · exact .inl h
          · exact .inr h4
    · simp only [List.mem_append, List.mem_singleton, List.mem_cons]
      tauto

/-- **C31.** Source ports added by a sub-compiler give exactly the entries for their connected ports that are not
source ports themselves; entries already there stay. -/
theorem C31_updater_src_ports (pl : Pl) (dsts : Port → List Port) (isSrc : Port → Bool)
    (m : List ((Port × Port) × Pl)) (srcs : List Port) (s d : Port) :
    (s, d) ∈ (addSrcPorts pl dsts isSrc m srcs).map Prod.fst ↔
      (s, d) ∈ m.map Prod.fst ∨ (s ∈ srcs ∧ d ∈ dsts s ∧ isSrc d = false) := by
  unfold addSrcPorts
  induction srcs generalizing m with
  | nil => simp
  | cons a l ih =>
    rw [List.foldl_cons, ih]
    have e : (((dsts a).filter fun d => !isSrc d).foldl (fun m d => addPortPair pl m (a, d)) m) =
        ((((dsts a).filter fun d => !isSrc d).map fun d => (a, d)).foldl (addPortPair pl) m) := by
      rw [List.foldl_map]
    rw [e, addPairs_mem]
    simp only [List.mem_map, List.mem_filter, Bool.not_eq_true', Prod.mk.injEq, List.mem_cons]
    constructor
    · rintro ((h | ⟨d', ⟨h1, h2⟩, rfl, rfl⟩) | ⟨h1, h2, h3⟩)
      · exact .inl h
      · exact .inr ⟨.inl rfl, h1, h2⟩
      · exact .inr ⟨.inr h1, h2, h3⟩
    · rintro (h | ⟨rfl | h1, h2, h3⟩)
      · exact .inl (.inl h)
      · exact .inl (.inr ⟨d, ⟨h2, h3⟩, rfl, rfl⟩)
      · exact .inr ⟨h1, h2, h3⟩

end ChannelMap

/-- Two processes, port 10 of process 0 connected twice to port 20 of process 1 and once to port 30 of a process that is
not in the network. -/
example : (fromGroups (1 : Nat) (portPairs [0, 1] (fun p => if p = 0 then [10] else [])
    (fun s => if s = 10 then [20, 20, 30] else []) (fun d => if d = 20 then 1 else 2))).map Prod.fst = [(10, 20)] := by
  decide

/-- **C31, finding.** `add_port_pairs` does not add the pairs it is given. -/
theorem C31_witness_add_port_pairs :
    ∃ (pairs : List (Nat × Nat)), ∃ k ∈ pairs, k ∉ (addPortPairs (1 : Nat) [] pairs).map Prod.fst :=
  ⟨[(10, 20)], (10, 20), by decide, by decide⟩

/-- **C31, finding.** `from_proc_groups` drops destinations outside the network, `add_src_ports` does not: a hierarchical
InPort left dangling gets an entry for which no destination builder exists. -/
theorem C31_witness_dangling :
    (10, 30) ∈ (addSrcPorts (1 : Nat) (fun s => if s = 10 then [30] else []) (fun _ => false) [] [10]).map Prod.fst ∧
    (10, 30) ∉ (fromGroups (1 : Nat) (portPairs [0] (fun _ => [10]) (fun s => if s = 10 then [30] else [])
      (fun _ => 2))).map Prod.fst := by decide

end Verif.Compiler
