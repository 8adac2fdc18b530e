import Verif.Discovery.Model

/-!
# C103: which process models are found
-/

namespace Verif.Discovery

/-! ## Specification -/

/-- Class `c` of the module of the process declares to implement the process. -/
def OwnModel (w : World) (c : Cls) : Prop :=
  c ∈ w.ownClasses ∧ c.defined = true ∧ c.isModel = true ∧ c.impl = some (.own w.procName)

/-- Class `c` of file `f`, which lies in a searched directory, declares to implement the process it imports. -/
def FileModel (w : World) (f : File) (c : Cls) : Prop :=
  f ∈ w.dirs.flatten ∧ c ∈ f.classes ∧ c.defined = true ∧ c.isModel = true ∧ c.impl = some (.ext w.procMod w.procName)

/-- All files of the searched directories are modules of the package of the process, under the name of the file: `pkg.stem`. -/
def OnePackage (w : World) (pkg : String) : Prop :=
  ∀ f ∈ w.dirs.flatten, ∃ attrs, w.lookup f.stem = some (pkg ++ "." ++ f.stem, attrs) ∧ ∀ c ∈ f.classes, c.defined = true → c.name ∈ attrs

/-! ## Lemmas -/

theorem mem_inOwn (w : World) (c : Cls) : c ∈ inOwnModule w.procName w.ownClasses ↔ OwnModel w c := by
  unfold inOwnModule OwnModel
  rw [List.mem_filter]
  simp only [Bool.and_eq_true, decide_eq_true_eq, and_assoc]

theorem mem_inFresh (mod name : String) (l : List Cls) (c : Cls) :
    c ∈ inFreshModule mod name l ↔ c ∈ l ∧ c.defined = true ∧ c.isModel = true ∧ c.impl = some (.ext mod name) := by
  unfold inFreshModule
  rw [List.mem_filter]
  simp only [Bool.and_eq_true, decide_eq_true_eq, and_assoc]

theorem addModels_prefix (lookup : String → Option (String × List String)) (stem : String) :
    ∀ (cs : List Cls) (found : List Id), found <+: addModels lookup stem cs found
  | [], _ => List.prefix_rfl
  | c :: cs, found => by
    unfold addModels
    cases lookup stem with
    | none => exact List.prefix_rfl
    | some m =>
      dsimp only
      split
      · refine List.IsPrefix.trans ?_ (addModels_prefix lookup stem cs _)
        split
        · exact List.prefix_rfl
        · exact List.prefix_append _ _
      · exact List.prefix_rfl

theorem addModels_nodup (lookup : String → Option (String × List String)) (stem : String) :
    ∀ (cs : List Cls) (found : List Id), found.Nodup → (addModels lookup stem cs found).Nodup
  | [], _, h => h
  | c :: cs, found, h => by
    unfold addModels
    cases lookup stem with
    | none => exact h
    | some m =>
      dsimp only
      split
      · apply addModels_nodup
        split
        · exact h
        · rename_i hn
          rw [List.nodup_append]
          refine ⟨h, by simp, ?_⟩
          intro a ha b hb
          rw [List.mem_singleton] at hb
          rw [hb]
          intro hab
          rw [hab] at ha
          exact hn ha
      · exact h

/-- Without assumptions: what is added has a name that a model of the file has, and is an attribute of the module that was looked up. -/
theorem addModels_mem (lookup : String → Option (String × List String)) (stem : String) :
    ∀ (cs : List Cls) (found : List Id) (i : Id), i ∈ addModels lookup stem cs found →
      i ∈ found ∨ ∃ c ∈ cs, ∃ attrs, lookup stem = some (i.1, attrs) ∧ i.2 = c.name ∧ c.name ∈ attrs
  | [], _, _, h => Or.inl h
  | c :: cs, found, i, h => by
    unfold addModels at h
    cases hl : lookup stem with
    | none => rw [hl] at h; exact Or.inl h
    | some m =>
      rw [hl] at h
      dsimp only at h
      split at h
      · rename_i hc
        rcases addModels_mem lookup stem cs _ i h with h | ⟨c', hc', attrs, h1, h2⟩
        · split at h
          · exact Or.inl h
          · rcases List.mem_append.1 h with h | h
            · exact Or.inl h
            · rw [List.mem_singleton] at h
              right
              refine ⟨c, by simp, m.2, ?_, ?_, hc⟩
              · rw [h]
              · rw [h]
        · rw [hl] at h1
          exact Or.inr ⟨c', by simp [hc'], attrs, h1, h2⟩
      · exact Or.inl h

theorem addModels_all (lookup : String → Option (String × List String)) (stem m : String) (attrs : List String)
    (hl : lookup stem = some (m, attrs)) :
    ∀ (cs : List Cls) (found : List Id), (∀ c ∈ cs, c.name ∈ attrs) →
      ∀ i, i ∈ addModels lookup stem cs found ↔ i ∈ found ∨ ∃ c ∈ cs, i = (m, c.name)
  | [], _, _, i => by simp [addModels]
  | c :: cs, found, h, i => by
    have ih := addModels_all lookup stem m attrs hl cs (if (m, c.name) ∈ found then found else found ++ [(m, c.name)])
      (fun c' hc' => h c' (List.mem_cons_of_mem _ hc')) i
    unfold addModels
    rw [hl]
    dsimp only
    rw [if_pos (h c (by simp)), ih]
    constructor
    · rintro (h1 | ⟨c', hc', h1⟩)
      · split at h1
        · exact Or.inl h1
        · rcases List.mem_append.1 h1 with h1 | h1
          · exact Or.inl h1
          · rw [List.mem_singleton] at h1
            exact Or.inr ⟨c, by simp, h1⟩
      · exact Or.inr ⟨c', by simp [hc'], h1⟩
    · rintro (h1 | ⟨c', hc', h1⟩)
      · left
        split
        · exact h1
        · exact List.mem_append_left _ h1
      · rcases List.mem_cons.1 hc' with hc' | hc'
        · left
          rw [h1, hc']
          split
          · assumption
          · exact List.mem_append_right _ (by simp)
        · exact Or.inr ⟨c', hc', h1⟩

theorem foldl_prefix (w : World) : ∀ (l : List File) (found : List Id), found <+: l.foldl (addFile w) found
  | [], _ => List.prefix_rfl
  | f :: l, found => by
    refine List.IsPrefix.trans ?_ (foldl_prefix w l (addFile w found f))
    unfold addFile
    split
    · exact addModels_prefix _ _ _ _
    · exact List.prefix_rfl

theorem foldl_nodup (w : World) : ∀ (l : List File) (found : List Id), found.Nodup → (l.foldl (addFile w) found).Nodup
  | [], _, h => h
  | f :: l, found, h => by
    refine foldl_nodup w l _ ?_
    unfold addFile
    split
    · exact addModels_nodup _ _ _ _ h
    · exact h

/-- The list that is collected. -/
def collected (w : World) : List Id :=
  w.dirs.flatten.foldl (addFile w) ((inOwnModule w.procName w.ownClasses).map fun c => (w.procMod, c.name))

theorem findModels_eq (w : World) : findModels w = if collected w = [] then none else some (collected w) := rfl

/-! ## Theorems -/

/-- **C103.** If the searched directories hold the modules of one package (the package of the process), the process models found are
exactly the models of the process in its own module, and those of all files that can be executed under their plain name. -/
theorem C103_found_iff (w : World) (pkg : String) (hp : OnePackage w pkg) (l : List Id) (h : findModels w = some l) (i : Id) :
    i ∈ l ↔ (∃ c, OwnModel w c ∧ i = (w.procMod, c.name)) ∨
      (∃ f c, FileModel w f c ∧ f.executes = true ∧ i = (pkg ++ "." ++ f.stem, c.name)) := by
  rw [findModels_eq] at h
  split at h
  · cases h
  · cases h
    have key : ∀ (fs : List File), (∀ f ∈ fs, f ∈ w.dirs.flatten) → ∀ found : List Id,
        (i ∈ fs.foldl (addFile w) found ↔ i ∈ found ∨ ∃ f ∈ fs, f.executes = true ∧
          ∃ c ∈ inFreshModule w.procMod w.procName f.classes, i = (pkg ++ "." ++ f.stem, c.name)) := by
      intro fs
      induction fs with
      | nil => intro _ found; simp
      | cons f fs ih =>
        intro hfs found
        rw [List.foldl_cons, ih (fun f' hf' => hfs f' (List.mem_cons_of_mem _ hf'))]
        obtain ⟨attrs, ha, hattr⟩ := hp f (hfs f (by simp))
        have hstep : i ∈ addFile w found f ↔ i ∈ found ∨ (f.executes = true ∧
            ∃ c ∈ inFreshModule w.procMod w.procName f.classes, i = (pkg ++ "." ++ f.stem, c.name)) := by
          unfold addFile
          by_cases he : f.executes = true
          · rw [if_pos he, addModels_all w.lookup f.stem _ attrs ha _ _
              (fun c hc => hattr c ((mem_inFresh _ _ _ _).1 hc).1 ((mem_inFresh _ _ _ _).1 hc).2.1)]
            simp only [he, true_and]
          · rw [if_neg he]
            simp only [he, false_and, or_false]
            exact ⟨fun h => Or.inl h, fun h => h.elim id (fun h => by cases h.1)⟩
        rw [hstep]
        constructor
        · rintro ((h1 | h1) | ⟨f', hf', h1⟩)
          · exact Or.inl h1
          · exact Or.inr ⟨f, by simp, h1⟩
          · exact Or.inr ⟨f', by simp [hf'], h1⟩
        · rintro (h1 | ⟨f', hf', h1⟩)
          · exact Or.inl (Or.inl h1)
          · rcases List.mem_cons.1 hf' with hf' | hf'
            · rw [hf'] at h1; exact Or.inl (Or.inr h1)
            · exact Or.inr ⟨f', hf', h1⟩
    unfold collected
    rw [key _ (fun f hf => hf)]
    constructor
    · rintro (h1 | ⟨f, hf, he, c, hc, h1⟩)
      · obtain ⟨c, hc, rfl⟩ := List.mem_map.1 h1
        exact Or.inl ⟨c, (mem_inOwn w c).1 hc, rfl⟩
      · exact Or.inr ⟨f, c, ⟨hf, (mem_inFresh _ _ _ _).1 hc⟩, he, h1⟩
    · rintro (⟨c, hc, h1⟩ | ⟨f, c, ⟨hf, hc⟩, he, h1⟩)
      · exact Or.inl (List.mem_map.2 ⟨c, (mem_inOwn w c).2 hc, h1.symm⟩)
      · exact Or.inr ⟨f, hf, he, c, (mem_inFresh _ _ _ _).2 hc, h1⟩

/-- **C103.** The models of the module of the process come first, in the order of the module; if that module does not bind a class to two
names, no model is found twice, however often a directory is searched. -/
theorem C103_order (w : World) (l : List Id) (h : findModels w = some l) :
    ((inOwnModule w.procName w.ownClasses).map fun c => (w.procMod, c.name)) <+: l ∧
    ((w.ownClasses.map Cls.name).Nodup → l.Nodup) := by
  rw [findModels_eq] at h
  split at h
  · cases h
  · cases h
    refine ⟨foldl_prefix w _ _, fun hn => foldl_nodup w _ _ ?_⟩
    have hs : List.Sublist ((inOwnModule w.procName w.ownClasses).map Cls.name) (w.ownClasses.map Cls.name) :=
      List.Sublist.map _ (List.filter_sublist)
    have h2 := List.Nodup.sublist hs hn
    rw [show (inOwnModule w.procName w.ownClasses).map (fun c => (w.procMod, c.name)) =
      ((inOwnModule w.procName w.ownClasses).map Cls.name).map (fun n => (w.procMod, n)) by rw [List.map_map]; rfl]
    generalize (inOwnModule w.procName w.ownClasses).map Cls.name = ns at h2
    clear hs hn
    induction ns with
    | nil => exact List.nodup_nil
    | cons a ns ih =>
      rw [List.map_cons, List.nodup_cons]
      rw [List.nodup_cons] at h2
      refine ⟨fun hm => ?_, ih h2.2⟩
      obtain ⟨b, hb, he⟩ := List.mem_map.1 hm
      cases he
      exact h2.1 hb

/-- **C103.** The search fails exactly if there is no such model. -/
theorem C103_fails_iff (w : World) (pkg : String) (hp : OnePackage w pkg) :
    findModels w = none ↔ (∀ c, ¬ OwnModel w c) ∧ (∀ f c, FileModel w f c → f.executes = false) := by
  constructor
  · intro h
    rw [findModels_eq] at h
    split at h
    · rename_i he
      constructor
      · intro c hc
        have hpre := foldl_prefix w w.dirs.flatten ((inOwnModule w.procName w.ownClasses).map fun c => (w.procMod, c.name))
        have hm : (w.procMod, c.name) ∈ collected w :=
          hpre.subset (List.mem_map.2 ⟨c, (mem_inOwn w c).2 hc, rfl⟩)
        rw [he] at hm
        cases hm
      · intro f c hf
        apply Classical.byContradiction
        intro hne
        have hex : f.executes = true := by cases hx : f.executes with | true => rfl | false => exact absurd hx hne
        obtain ⟨attrs, ha, hattr⟩ := hp f hf.1
        -- the file is somewhere in the list; after it the list is not empty
        obtain ⟨l1, l2, hl⟩ := List.append_of_mem hf.1
        have hm : (pkg ++ "." ++ f.stem, c.name) ∈ collected w := by
          unfold collected
          rw [hl, List.foldl_append, List.foldl_cons]
          apply (foldl_prefix w l2 _).subset
          unfold addFile
          rw [if_pos hex, addModels_all w.lookup f.stem _ attrs ha _ _
            (fun c hc => hattr c ((mem_inFresh _ _ _ _).1 hc).1 ((mem_inFresh _ _ _ _).1 hc).2.1)]
          exact Or.inr ⟨c, (mem_inFresh _ _ _ _).2 hf.2, rfl⟩
        rw [he] at hm
        cases hm
    · cases h
  · rintro ⟨h1, h2⟩
    cases h : findModels w with
    | none => rfl
    | some l =>
      have hne : l ≠ [] := by
        rw [findModels_eq] at h
        split at h
        · cases h
        · cases h; assumption
      obtain ⟨i, hi⟩ := List.exists_mem_of_ne_nil l hne
      rcases (C103_found_iff w pkg hp l h i).1 hi with ⟨c, hc, _⟩ | ⟨f, c, hf, he, _⟩
      · exact absurd hc (h1 c)
      · rw [h2 f c hf] at he; cases he

/-- **C103, finding.** For a process in a script or in a module without a package, files in the same directory are never searched with
success: whatever they hold, only the models of the own module are found. -/
theorem C103_without_package (w : World) (h : ∀ s, w.lookup s = none) :
    collected w = (inOwnModule w.procName w.ownClasses).map fun c => (w.procMod, c.name) := by
  unfold collected
  have : ∀ (fs : List File) (found : List Id), fs.foldl (addFile w) found = found := by
    intro fs
    induction fs with
    | nil => intro _; rfl
    | cons f fs ih =>
      intro found
      rw [List.foldl_cons]
      have e : addFile w found f = found := by
        unfold addFile
        split
        · cases inFreshModule w.procMod w.procName f.classes with
          | nil => rfl
          | cons c cs => unfold addModels; rw [h]
        · rfl
      rw [e]
      exact ih found
  exact this _ _

/-- A package `pkg` with the modules `process` (a process `P` with one model) and `models` (a model that imports `P` by its full name). -/
def wEx (rel : Bool) : World :=
  { procMod := "pkg.process", procName := "P",
    ownClasses := [⟨"P", true, false, none⟩, ⟨"PyP", true, true, some (.own "P")⟩],
    dirs := List.replicate 3 [⟨"models", !rel, [⟨"P", false, false, none⟩, ⟨"PyP2", true, true, some (.ext "pkg.process" "P")⟩]⟩,
      ⟨"process", true, [⟨"P", true, false, none⟩, ⟨"PyP", true, true, some (.own "P")⟩]⟩],
    lookup := fun s => if s = "models" then some ("pkg.models", ["P", "PyP2"])
      else if s = "process" then some ("pkg.process", ["P", "PyP"]) else none }

example : findModels (wEx false) = some [("pkg.process", "PyP"), ("pkg.models", "PyP2")] := by decide

example : OnePackage (wEx false) "pkg" := by
  intro f hf
  simp only [wEx, List.replicate, List.flatten_cons, List.flatten_nil, List.append_nil, List.mem_append, List.mem_cons, List.not_mem_nil,
    or_false] at hf
  rcases hf with (h | h) | (h | h) | (h | h) <;> subst h
  all_goals first
    | exact ⟨["P", "PyP2"], by decide, by decide⟩
    | exact ⟨["P", "PyP"], by decide, by decide⟩

/-- **C103, finding.** A model in a file that uses relative imports (`from .process import P`) is not found. -/
theorem C103_witness_relative_import : findModels (wEx true) = some [("pkg.process", "PyP")] := by decide

/-- **C103, finding.** A model in a sub package is looked up in the package of the process by the name of its file: another class of the
same name is taken for it, whatever that class implements. Here `pkg/models.py` has a class `PyModel` that implements `Q`, and `pkg/sub/models.py` a class
`PyModel` that implements `P`. -/
theorem C103_witness_wrong_class :
    findModels (World.mk "pkg.process" "P" [⟨"P", true, false, none⟩]
      [[⟨"models", true, [⟨"PyModel", true, true, some (.ext "pkg.process" "Q")⟩]⟩],
        [⟨"models", true, [⟨"PyModel", true, true, some (.ext "pkg.process" "P")⟩]⟩]]
      (fun s => if s = "models" then some ("pkg.models", ["PyModel"]) else none)) =
    some [("pkg.models", "PyModel")] := by decide

/-- **C103.** Models are found for exactly the class they were declared for: those of a base class are not found for a process of a
derived class. -/
theorem C103_not_inherited (w : World) (pkg : String) (hp : OnePackage w pkg)
    (hown : ∀ c ∈ w.ownClasses, c.impl ≠ some (.own w.procName))
    (hfiles : ∀ f ∈ w.dirs.flatten, ∀ c ∈ f.classes, c.impl ≠ some (.ext w.procMod w.procName)) :
    findModels w = none :=
  (C103_fails_iff w pkg hp).2 ⟨fun c hc => hown c hc.1 hc.2.2.2, fun f c hf => absurd hf.2.2.2.2 (hfiles f hf.1 c hf.2.1)⟩

/-! ## Repeated execution -/

/-- **C103.** Each search executes every file in the directory of the process once, and once more for each module of the package that lies
there: with `k` plain modules in the package every one of them is executed `k + 1` times for every process that is compiled. -/
theorem C103_executions (home : Nat) (k : Nat) (others : List Nat) (ho : home ∉ others) (mods : List Nat)
    (hm : mods.Perm (List.replicate k home ++ others)) :
    executions home (some ⟨mods⟩) home = k + 1 ∧ executions home none home = 1 := by
  unfold executions searchDirs
  refine ⟨?_, by simp⟩
  rw [List.count_cons_self, hm.count_eq, List.count_append, List.count_replicate_self, List.count_eq_zero_of_not_mem ho]

example : executions 0 (some ⟨[0, 1, 0]⟩) 0 = 3 := by decide

end Verif.Discovery
