import Verif.Cache.Lemmas

/-!
# C97: compiling with a cache
-/

namespace Verif.Cache

/-! ### Specification -/

/-- Two executables do the same: the same builder for every process and the same channels. -/
def SameExe (e e' : Exe) : Prop := (∀ k, look e.builders k = look e'.builders k) ∧ e.chans = e'.chans

/-- Process `p` is process `q` again, with possibly other parameters: same name, id, process model, Vars (with ids and initial values), ports. -/
def Again (q p : ProcD) : Prop := q.name = p.name ∧ q.id = p.id ∧ q.cls = p.cls ∧ q.vars = p.vars ∧ q.ports = p.ports

/-- One compilation with the cache enabled. -/
structure Ev where
  net : NetD
  crash : Bool

/-- The file after a history of compilations with the same directory. -/
def files : File → List Ev → File
  | f, [] => f
  | f, e :: l => files (compile f e.crash e.net).1 l

/-! ### A hit -/

theorem readBuilders_key {n' : NetD} (hn' : (n'.procs.map (·.name)).Nodup) {l : List ProcD} {b : List (Nat × Builder)}
    (h : readBuilders n' (l.map fun p => (p.name, { build p with params := none })) = .ok b) {k : Nat} {y : Builder} :
    (k, y) ∈ b ↔ ∃ q ∈ l, ∃ p ∈ n'.procs, p.name = q.name ∧ p.id = k ∧ y = { build q with params := some p.params } := by
  have hf := readBuilders_ok h
  constructor
  · intro hb
    obtain ⟨x, hx, p, hp, e⟩ := forall₂_mem_right hf hb
    obtain ⟨q, hq, rfl⟩ := List.mem_map.1 hx
    obtain ⟨h1, h2⟩ := look_byName_mem hp
    cases e
    exact ⟨q, hq, p, h1, h2, rfl, rfl⟩
  · rintro ⟨q, hq, p, hp, e1, rfl, rfl⟩
    obtain ⟨y, hy, p', hp', rfl⟩ := forall₂_mem_left hf (List.mem_map.2 ⟨q, hq, rfl⟩)
    have := (look_byName hn').2 ⟨hp, e1⟩
    dsimp only at hp'
    rw [this] at hp'
    cases hp'
    exact hy

theorem readBuilders_keys_nodup {n' : NetD} (hi : (n'.procs.map (·.id)).Nodup) {l : List ProcD}
    (hl : (l.map (·.name)).Nodup) {b : List (Nat × Builder)}
    (h : readBuilders n' (l.map fun p => (p.name, { build p with params := none })) = .ok b) : (b.map (·.1)).Nodup := by
  have hf := readBuilders_ok h
  clear h
  induction l generalizing b with
  | nil => cases hf; simp
  | cons q l ih =>
    rw [List.map_cons] at hf
    cases hf with
    | cons hr ht =>
      rename_i y b'
      obtain ⟨p, hp, rfl⟩ := hr
      rw [List.map_cons, List.nodup_cons] at hl
      rw [List.map_cons, List.nodup_cons]
      refine ⟨?_, ih hl.2 ht⟩
      intro hm
      obtain ⟨z, hz, e⟩ := List.mem_map.1 hm
      obtain ⟨x, hx, p', hp', rfl⟩ := forall₂_mem_right ht hz
      obtain ⟨q', hq', rfl⟩ := List.mem_map.1 hx
      obtain ⟨h1, h2⟩ := look_byName_mem hp
      obtain ⟨h3, h4⟩ := look_byName_mem hp'
      have : p' = p := List.inj_on_of_nodup_map hi h3 h1 e
      subst this
      dsimp only at h2 h4
      exact hl.1 (List.mem_map.2 ⟨q', hq', by rw [← h2, ← h4]⟩)

/-- The look-ups in the initializers after a hit. -/
theorem readInits_key {n' : NetD} {l : List ProcD} {b : List ((Nat × String) × PortD)}
    (h : readInits n' (l.flatMap fun p => p.ports.map fun q => (p.name, q.name, q)) = .ok b) {k : Nat × String} {y : PortD} (hy : (k, y) ∈ b) :
    ∃ q ∈ l, ∃ p ∈ n'.procs, p.name = q.name ∧ y ∈ q.ports ∧ k = (p.id, y.name) := by
  obtain ⟨x, hx, h1, h2⟩ := forall₂_mem_right (readInits_ok h) hy
  obtain ⟨q, hq, hx⟩ := List.mem_flatMap.1 hx
  obtain ⟨r, hr, rfl⟩ := List.mem_map.1 hx
  obtain ⟨p, hp, -, hk⟩ := findPort_some h1
  obtain ⟨h3, h4⟩ := look_byName_mem hp
  dsimp only at h2 h4 hk
  subst h2
  exact ⟨q, hq, p, h3, h4, hr, hk⟩

theorem readInits_mem {n' : NetD} (hn' : (n'.procs.map (·.name)).Nodup) {l : List ProcD} {b : List ((Nat × String) × PortD)}
    (h : readInits n' (l.flatMap fun p => p.ports.map fun q => (p.name, q.name, q)) = .ok b) {q p : ProcD} (hq : q ∈ l)
    (hp : p ∈ n'.procs) (e : p.name = q.name) {r : PortD} (hr : r ∈ q.ports) : ((p.id, r.name), r) ∈ b := by
  obtain ⟨y, hy, h1, h2⟩ := forall₂_mem_left (readInits_ok h) (List.mem_flatMap.2 ⟨q, hq, List.mem_map.2 ⟨r, hr, rfl⟩⟩)
  obtain ⟨p', hp', -, hk⟩ := findPort_some h1
  dsimp only at hp' h2 hk
  rw [(look_byName hn').2 ⟨hp, e⟩] at hp'
  cases hp'
  obtain ⟨y1, y2⟩ := y
  dsimp only at hk h2
  subst hk h2
  exact hy

/-- **C97.** What a hit gives, for any network `n'` and any stored network `n`: the builders of the stored network, found by name, with the
parameters of the new one. Process models, initial values of Vars, ports and all ids are those of the stored network. -/
theorem C97_hit_uses_stored_builders {n n' : NetD} (hn : Named n) (hi' : Ids n') (hn' : Named n') {crash : Bool} {e : Exe}
    (h : (compile (.full (stored n)) crash n').2 = .ok e) :
    (∀ q ∈ n.procs, ∃ p ∈ n'.procs, p.name = q.name) ∧
      ∀ p ∈ n'.procs, ∃ q ∈ n.procs, q.name = p.name ∧ look e.builders p.id = some { build q with params := some p.params } := by
  obtain ⟨b, i, c, hb, -, -, -, hall, rfl⟩ := hit_iff.1 h
  replace hb : readBuilders n' (n.procs.map fun p => (p.name, { build p with params := none })) = .ok b := hb
  constructor
  · intro q hq
    obtain ⟨y, hy, p, hp, -⟩ := forall₂_mem_left (readBuilders_ok hb) (List.mem_map.2 ⟨q, hq, rfl⟩)
    obtain ⟨h1, h2⟩ := look_byName_mem hp
    exact ⟨p, h1, h2⟩
  · intro p hp
    obtain ⟨y, hy⟩ := Option.isSome_iff_exists.1 (hall p hp)
    obtain ⟨q, hq, p', hp', e1, e2, e3⟩ := (readBuilders_key hn'.1 hb).1 (look_mem hy)
    have : p' = p := List.inj_on_of_nodup_map hi'.procs hp' hp e2
    subst this
    exact ⟨q, hq, e1.symm, by rw [hy, e3]⟩

/-- **C97.** Exactly when a hit gives what a compilation without cache gives. -/
theorem C97_hit_is_fresh_iff {n n' : NetD} (hi : Ids n) (hn : Named n) (hi' : Ids n') (hn' : Named n') (crash : Bool) :
    (∃ e e', (compile (.full (stored n)) crash n').2 = .ok e ∧ fresh n' = .ok e' ∧ SameExe e e') ↔
      (∀ p ∈ n'.procs, ∃ q ∈ n.procs, Again q p) ∧ ∀ q ∈ n.procs, ∃ p ∈ n'.procs, p.name = q.name := by
  constructor
  · rintro ⟨e, e', h, hf, hs⟩
    obtain ⟨h1, h2⟩ := C97_hit_uses_stored_builders hn hi' hn' h
    refine ⟨?_, h1⟩
    intro p hp
    obtain ⟨q, hq, e1, e2⟩ := h2 p hp
    refine ⟨q, hq, e1, ?_⟩
    obtain ⟨c, -, hf'⟩ := fresh_ok hi'
    rw [hf'] at hf
    cases hf
    have h3 := hs.1 p.id
    rw [e2, look_builders hi' hp] at h3
    have h3 := Option.some.inj h3
    exact ⟨congrArg Builder.modelId h3, congrArg Builder.cls h3, congrArg Builder.vars h3, congrArg Builder.ports h3⟩
  · rintro ⟨hA, hB⟩
    -- processes correspond
    have corr : ∀ q ∈ n.procs, ∀ p ∈ n'.procs, p.name = q.name → Again q p := by
      intro q hq p hp e1
      obtain ⟨q', hq', ha⟩ := hA p hp
      have : q' = q := List.inj_on_of_nodup_map hn.1 hq' hq (ha.1.trans e1)
      exact this ▸ ha
    obtain ⟨b, hb⟩ := readBuilders_succeeds (n := n') (l := n.procs.map fun p => (p.name, { build p with params := none })) (by
      intro x hx
      obtain ⟨q, hq, rfl⟩ := List.mem_map.1 hx
      obtain ⟨p, hp, e1⟩ := hB q hq
      rw [(look_byName hn'.1).2 ⟨hp, e1⟩]; rfl)
    have hfind : ∀ q ∈ n.procs, ∀ s ∈ q.ports.map (·.name), (findPort n' q.name s).isSome = true := by
      intro q hq s hs
      obtain ⟨p, hp, e1⟩ := hB q hq
      rw [← e1, findPort_of hn'.1 hp (by rw [← (corr q hq p hp e1).2.2.2.2]; exact hs)]; rfl
    obtain ⟨i, hj⟩ := readInits_succeeds (n := n') (l := n.procs.flatMap fun p => p.ports.map fun q => (p.name, q.name, q)) (by
      intro x hx
      obtain ⟨q, hq, hx⟩ := List.mem_flatMap.1 hx
      obtain ⟨r, hr, rfl⟩ := List.mem_map.1 hx
      exact hfind q hq _ (List.mem_map.2 ⟨r, hr, rfl⟩))
    have hch : readChans n' (n.chans.map fun sd => ((nameOf n sd.1.1, sd.1.2), (nameOf n sd.2.1, sd.2.2))) = true := by
      unfold readChans
      rw [List.all_eq_true]
      intro x hx
      obtain ⟨c, hc, rfl⟩ := List.mem_map.1 hx
      obtain ⟨⟨p, hp, e1, hm⟩, ⟨p', hp', e1', hm'⟩⟩ := hi.chans c hc
      dsimp only
      rw [← e1, ← e1', nameOf_eq hi.procs hp, nameOf_eq hi.procs hp', hfind p hp _ hm, hfind p' hp' _ hm']; rfl
    -- look-ups agree
    have hlb : ∀ k, look b k = look (builders n') k := by
      intro k
      have hnd := readBuilders_keys_nodup hi'.procs hn.1 hb
      apply Option.ext
      intro y
      rw [look_iff hnd, readBuilders_key hn'.1 hb]
      constructor
      · rintro ⟨q, hq, p, hp, e1, rfl, rfl⟩
        obtain ⟨h1, h2, h3, h4, h5⟩ := corr q hq p hp e1
        rw [look_builders hi' hp]
        unfold build
        rw [h2, h3, h4, h5]
      · intro h
        obtain ⟨p, hp, rfl, rfl⟩ := look_builders_some h
        obtain ⟨q, hq, h1, h2, h3, h4, h5⟩ := hA p hp
        refine ⟨q, hq, p, hp, h1.symm, rfl, ?_⟩
        unfold build
        rw [h2, h3, h4, h5]
    have hli : ∀ c ∈ n'.chans, look i c.1 = look (inits n') c.1 ∧ look i c.2 = look (inits n') c.2 := by
      have key : ∀ (s : Nat × String), (∃ p ∈ n'.procs, p.id = s.1 ∧ s.2 ∈ p.ports.map (·.name)) → look i s = look (inits n') s := by
        rintro ⟨k, s⟩ ⟨p, hp, rfl, hm⟩
        dsimp only at hm ⊢
        obtain ⟨r, hr, rfl⟩ := List.mem_map.1 hm
        rw [look_inits hi' hp hr]
        obtain ⟨q, hq, ha⟩ := hA p hp
        have hmem := readInits_mem hn'.1 hj hq hp ha.1.symm (r := r) (by rw [ha.2.2.2.2]; exact hr)
        cases hl : look i (p.id, r.name) with
        | none => exact absurd (List.mem_map.2 ⟨_, hmem, rfl⟩) (look_none.1 hl)
        | some y =>
          obtain ⟨q', hq', p', hp', e1, hy, hk⟩ := readInits_key hj (look_mem hl)
          have e2 : p'.id = p.id := (congrArg Prod.fst hk).symm
          have : p' = p := List.inj_on_of_nodup_map hi'.procs hp' hp e2
          subst this
          have hy' : y ∈ p'.ports := by rw [← (corr q' hq' p' hp' e1).2.2.2.2]; exact hy
          have : y = r := List.inj_on_of_nodup_map (hi'.ports p' hp') hy' hr (congrArg Prod.snd hk).symm
          rw [this]
      intro c hc
      exact ⟨key _ (hi'.chans c hc).1, key _ (hi'.chans c hc).2⟩
    obtain ⟨c, hc, hf⟩ := fresh_ok hi'
    refine ⟨⟨b, c⟩, _, hit_iff.2 ⟨b, i, c, hb, hj, hch, by rw [chanBuilders_congr hli, hc], ?_, rfl⟩, hf, hlb, rfl⟩
    intro p hp
    rw [hlb, look_builders hi' hp]; rfl

/-- **C97.** The first compilation in a directory is that without a cache, and stores the network if its processes have unique names of
their own; otherwise it raises and stores nothing. -/
theorem C97_first (n : NetD) : (Named n → compile .absent false n = (.full (stored n), fresh n)) ∧
    (¬ Named n → ∀ crash, compile .absent crash n = (.absent, .error .names)) := by
  constructor
  · intro h
    obtain ⟨c, hc⟩ := (write_ok_iff n).2 h
    simp only [compile]
    rw [hc]
    dsimp only
    rw [if_neg (by simp), write_eq hc]
  · intro h crash
    simp only [compile]
    cases hc : write n with
    | ok c => exact absurd ((write_ok_iff n).1 ⟨c, hc⟩) h
    | error e =>
      unfold write at hc
      split_ifs at hc
      cases hc; rfl

/-- **C97.** Running the same script again, possibly with other process parameters, gives with the cache what it gives without. -/
theorem C97_same_network (n n' : NetD) (hi : Ids n) (hn : Named n) (hi' : Ids n') (hn' : Named n')
    (h : List.Forall₂ Again n.procs n'.procs) (crash : Bool) :
    ∃ e e', (compile (compile .absent false n).1 crash n').2 = .ok e ∧ fresh n' = .ok e' ∧ SameExe e e' := by
  rw [(C97_first n).1 hn]
  refine (C97_hit_is_fresh_iff hi hn hi' hn' crash).2 ⟨?_, ?_⟩
  · intro p hp
    obtain ⟨q, hq, ha⟩ := forall₂_mem_right h hp
    exact ⟨q, hq, ha⟩
  · intro q hq
    obtain ⟨p, hp, ha⟩ := forall₂_mem_left h hq
    exact ⟨p, hp, ha.1.symm⟩

/-! ### Histories -/

theorem files_full (c : Cache) (l : List Ev) : files (.full c) l = .full c := by
  induction l with
  | nil => rfl
  | cons e l ih => exact ih

theorem files_truncated (l : List Ev) : files .truncated l = .truncated := by
  induction l with
  | nil => rfl
  | cons e l ih => exact ih

/-- **C97.** After any history of compilations with a directory the file is that of the first compilation whose processes are properly named;
later compilations never change it. -/
theorem C97_first_named_decides (l : List Ev) :
    (∃ e ∈ l, Named e.net ∧ ∃ a b, l = a ++ e :: b ∧ (∀ x ∈ a, ¬ Named x.net) ∧
      files .absent l = if e.crash then .truncated else .full (stored e.net)) ∨
    ((∀ e ∈ l, ¬ Named e.net) ∧ files .absent l = .absent) := by
  induction l with
  | nil => right; exact ⟨fun _ h => by (cases h), rfl⟩
  | cons e l ih =>
    by_cases hn : Named e.net
    · left
      refine ⟨e, by simp, hn, [], l, rfl, by simp, ?_⟩
      obtain ⟨c, hc⟩ := (write_ok_iff e.net).2 hn
      rw [files]
      simp only [compile]
      rw [hc]
      dsimp only
      cases hcr : e.crash
      · rw [if_neg (by simp)]
        dsimp only
        rw [files_full, write_eq hc]; simp
      · rw [if_pos rfl]
        dsimp only
        rw [files_truncated]; simp
    · have e1 : files .absent (e :: l) = files .absent l := by
        rw [files, (C97_first e.net).2 hn]
      rw [e1]
      rcases ih with ⟨x, hx, h1, a, b, h2, h3, h4⟩ | ⟨h1, h2⟩
      · left
        refine ⟨x, by simp [hx], h1, e :: a, b, by rw [h2]; rfl, ?_, h4⟩
        intro z hz
        rcases List.mem_cons.1 hz with rfl | hz
        · exact hn
        · exact h3 z hz
      · right
        refine ⟨?_, h2⟩
        intro z hz
        rcases List.mem_cons.1 hz with rfl | hz
        · exact hn
        · exact h1 z hz

/-- **C97.** If writing the file was interrupted once, every later compilation with that directory raises. -/
theorem C97_interrupted_is_final (n : NetD) (hn : Named n) (l : List Ev) (n' : NetD) (crash : Bool) :
    (compile (files .absent (⟨n, true⟩ :: l)) crash n').2 = .error .badFile := by
  have : files .absent (⟨n, true⟩ :: l) = .truncated := by
    obtain ⟨c, hc⟩ := (write_ok_iff n).2 hn
    rw [files]
    simp only [compile]
    rw [hc]
    exact files_truncated l
  rw [this]; rfl

/-! ### Access to Vars -/

theorem models_keys (l : List ProcD) : ((l.map fun p => (p.id, build p)).flatMap fun b => b.2.models).map (·.1) = l.flatMap fun p => p.vars.map (·.id) := by
  induction l with
  | nil => rfl
  | cons p l ih =>
    rw [List.map_cons, List.flatMap_cons, List.map_append, ih, List.flatMap_cons]
    unfold build
    dsimp only
    rw [List.map_map]; rfl

theorem vars_nodup {n : NetD} (hi : Ids n) {p : ProcD} (hp : p ∈ n.procs) : (p.vars.map (·.id)).Nodup := by
  have := hi.vars
  rw [List.nodup_flatMap] at this
  exact this.1 p hp

/-- **C97.** Without a cache `get` and `set` of a Var reach this Var. -/
theorem C97_fresh_access (n : NetD) (hi : Ids n) (e : Exe) (he : fresh n = .ok e) (p : ProcD) (hp : p ∈ n.procs) (v : VarD) (hv : v ∈ p.vars) :
    reaches n e v.id = .ok (p.id, v.name) := by
  obtain ⟨c, -, hf⟩ := fresh_ok hi
  rw [hf] at he
  cases he
  unfold reaches
  dsimp only
  have h1 : look ((builders n).flatMap fun b => b.2.models) v.id = some p.id := by
    refine look_of_mem (by unfold builders; rw [models_keys]; exact hi.vars) ?_
    exact List.mem_flatMap.2 ⟨(p.id, build p), List.mem_map.2 ⟨p, hp, rfl⟩, List.mem_map.2 ⟨v, hv, rfl⟩⟩
  rw [h1]
  dsimp only
  rw [if_pos (List.mem_map.2 ⟨p, hp, rfl⟩), look_builders hi hp]
  dsimp only [build]
  rw [look_of_mem (l := p.vars.map fun x => (x.id, x.name)) (a := v.name)]
  · rw [List.map_map]; exact vars_nodup hi hp
  · exact List.mem_map.2 ⟨v, hv, rfl⟩

/-! ### Building the network again in the same session -/

/-- The same script executed again in one Python session: ids of processes and Vars go on counting (C60). -/
def again (k j : Nat) (n : NetD) : NetD where
  procs := n.procs.map fun p => { p with
    id := p.id + k
    vars := p.vars.map fun v => { v with id := v.id + j }
    ports := p.ports.map fun q => { q with trans := q.trans.map fun t => ((t.1.1 + k, t.1.2), t.2) } }
  chans := n.chans.map fun c => ((c.1.1 + k, c.1.2), (c.2.1 + k, c.2.2))

/-- **C97.** In the same session a hit succeeds, but no Var can be accessed: `get` and `set` raise for every Var; and no virtual port has an
effect: data arrives untransformed wherever the connection has a transformation. -/
theorem C97_same_session (n : NetD) (hi : Ids n) (hn : Named n) (k j : Nat) (hi' : Ids (again k j n)) (crash : Bool)
    (hj : ∀ p ∈ n.procs, ∀ v ∈ p.vars, v.id < j)
    (hk : ∀ p ∈ n.procs, ∀ q ∈ p.ports, ∀ t ∈ q.trans, t.1.1 < k) :
    ∃ e, (compile (.full (stored n)) crash (again k j n)).2 = .ok e ∧
      (∀ p ∈ (again k j n).procs, ∀ v ∈ p.vars, reaches (again k j n) e v.id = .error .notAssociated) ∧
      ∀ c ∈ (again k j n).chans, applied e c = none := by
  have hnames : (again k j n).procs.map (·.name) = n.procs.map (·.name) := by
    unfold again; dsimp only; rw [List.map_map]; rfl
  have hn' : Named (again k j n) := by
    refine ⟨by rw [hnames]; exact hn.1, ?_⟩
    intro p hp
    obtain ⟨q, hq, rfl⟩ := List.mem_map.1 hp
    exact hn.2 q hq
  have hports : ∀ q ∈ n.procs, ∃ p ∈ (again k j n).procs, p.name = q.name ∧ p.id = q.id + k ∧ p.ports.map (·.name) = q.ports.map (·.name) := by
    intro q hq
    refine ⟨_, List.mem_map.2 ⟨q, hq, rfl⟩, rfl, rfl, ?_⟩
    dsimp only
    rw [List.map_map]; rfl
  obtain ⟨b, hb⟩ := readBuilders_succeeds (n := again k j n) (l := n.procs.map fun p => (p.name, { build p with params := none })) (by
    intro x hx
    obtain ⟨q, hq, rfl⟩ := List.mem_map.1 hx
    obtain ⟨p, hp, e1, -⟩ := hports q hq
    rw [(look_byName hn'.1).2 ⟨hp, e1⟩]; rfl)
  have hfind : ∀ q ∈ n.procs, ∀ s ∈ q.ports.map (·.name), findPort (again k j n) q.name s = some (q.id + k, s) := by
    intro q hq s hs
    obtain ⟨p, hp, e1, e2, e3⟩ := hports q hq
    rw [← e1, findPort_of hn'.1 hp (by rw [e3]; exact hs), e2]
  obtain ⟨i, hj'⟩ := readInits_succeeds (n := again k j n) (l := n.procs.flatMap fun p => p.ports.map fun q => (p.name, q.name, q)) (by
    intro x hx
    obtain ⟨q, hq, hx⟩ := List.mem_flatMap.1 hx
    obtain ⟨r, hr, rfl⟩ := List.mem_map.1 hx
    dsimp only
    rw [hfind q hq _ (List.mem_map.2 ⟨r, hr, rfl⟩)]; rfl)
  have hch : readChans (again k j n) (n.chans.map fun sd => ((nameOf n sd.1.1, sd.1.2), (nameOf n sd.2.1, sd.2.2))) = true := by
    unfold readChans
    rw [List.all_eq_true]
    intro x hx
    obtain ⟨c, hc, rfl⟩ := List.mem_map.1 hx
    obtain ⟨⟨p, hp, e1, hm⟩, ⟨p', hp', e1', hm'⟩⟩ := hi.chans c hc
    dsimp only
    rw [← e1, ← e1', nameOf_eq hi.procs hp, nameOf_eq hi.procs hp', hfind p hp _ hm, hfind p' hp' _ hm']; rfl
  have hsome : ∀ q ∈ n.procs, ∀ s ∈ q.ports.map (·.name), (look i (q.id + k, s)).isSome = true := by
    intro q hq s hs
    obtain ⟨p, hp, e1, e2, e3⟩ := hports q hq
    obtain ⟨r, hr, rfl⟩ := List.mem_map.1 hs
    rw [look_isSome, ← e2]
    exact List.mem_map.2 ⟨_, readInits_mem hn'.1 hj' hq hp e1 hr, rfl⟩
  obtain ⟨c, hc⟩ := chanBuilders_succeeds (i := i) (l := (again k j n).chans) (by
    intro x hx
    obtain ⟨d, hd, rfl⟩ := List.mem_map.1 hx
    obtain ⟨⟨p, hp, e1, hm⟩, ⟨p', hp', e1', hm'⟩⟩ := hi.chans d hd
    dsimp only
    rw [← e1, ← e1']
    exact ⟨hsome p hp _ hm, hsome p' hp' _ hm'⟩)
  refine ⟨⟨b, c⟩, hit_iff.2 ⟨b, i, c, hb, hj', hch, hc, ?_, rfl⟩, ?_, ?_⟩
  · intro p hp
    rw [look_isSome]
    obtain ⟨q, hq, rfl⟩ := List.mem_map.1 hp
    exact List.mem_map.2 ⟨_, (readBuilders_key hn'.1 hb).2 ⟨q, hq, _, hp, rfl, rfl, rfl⟩, rfl⟩
  · intro p hp v hv
    obtain ⟨q, hq, rfl⟩ := List.mem_map.1 hp
    obtain ⟨w, hw, rfl⟩ := List.mem_map.1 hv
    unfold reaches
    have : look (b.flatMap fun b => b.2.models) (w.id + j) = none := by
      rw [look_none]
      intro hm
      obtain ⟨x, hx, e1⟩ := List.mem_map.1 hm
      obtain ⟨y, hy, hx⟩ := List.mem_flatMap.1 hx
      obtain ⟨r, hr, z, hz, -, -, e2⟩ := (readBuilders_key hn'.1 hb).1 (show (y.1, y.2) ∈ b from hy)
      rw [e2] at hx
      obtain ⟨u, hu, rfl⟩ := List.mem_map.1 hx
      have := hj r hr u hu
      dsimp only at e1
      omega
    dsimp only
    rw [this]
  · intro d hd
    obtain ⟨d, hd', rfl⟩ := List.mem_map.1 hd
    unfold applied
    dsimp only
    split
    · rfl
    · rename_i y hy
      split
      · rfl
      · rename_i t ht
        obtain ⟨r, hr, z, hz, -, -, e2⟩ := (readBuilders_key hn'.1 hb).1 (look_mem hy)
        have ht' := look_mem ht
        obtain ⟨u, hu, e3⟩ := List.mem_map.1 ht'
        rw [e2] at hu
        have e4 : u.trans = t := congrArg Prod.snd e3
        rw [look_none]
        intro hm
        obtain ⟨x, hx, e5⟩ := List.mem_map.1 hm
        have := hk r hr u hu x (e4 ▸ hx)
        have e6 : x.1.1 = d.1.1 + k := congrArg Prod.fst e5
        omega

end Verif.Cache
