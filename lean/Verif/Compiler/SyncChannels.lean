import Verif.Compiler.Model
import Verif.Compiler.Lemmas

/-!
# The management channels: who is connected with whom

`Compiler._create_sync_channel_builders` (`compiler.py:806-852`), `Runtime._build_sync_channels` (`runtime.py:256-298`),
`RuntimeServiceBuilder` (`runtimeservice_builder.py:65-141`) and the management ports of a process model (`py_builder.py:227-239, 387-395`).
Names are lists of characters. A channel is identified by its builder; C104 shows that all builders are different.
-/

namespace Verif.Compiler.Sync

/-! ## Model -/

structure SProc where
  id : Nat
  /-- `issubclass(process.model_class, AbstractPyProcessModel)` -/
  py : Bool
deriving DecidableEq

structure SDom where
  name : List Char
  procs : List SProc
deriving DecidableEq

inductive Node where
  | runtime
  | service (dom : List Char)
  | model (id : Nat)
deriving DecidableEq

/-- A channel builder: `RuntimeChannelBuilderMp` if one end is the runtime, else `ServiceChannelBuilderMp`. `name` is the name of the port
initializer; the ports of the channel are called `name_src` and `name_dst` (channel_builder.py:156-279). -/
structure Ch where
  src : Node
  dst : Node
  name : List Char
deriving DecidableEq

def down (d : SDom) : Ch := ⟨.runtime, .service d.name, "runtime_to_service_".toList ++ d.name⟩
def up (d : SDom) : Ch := ⟨.service d.name, .runtime, "service_to_runtime_".toList ++ d.name⟩
def toModel (str : Nat → List Char) (d : SDom) (p : SProc) : Ch :=
  ⟨.service d.name, .model p.id, "service_to_process_".toList ++ str p.id⟩
def fromModel (str : Nat → List Char) (d : SDom) (p : SProc) : Ch :=
  ⟨.model p.id, .service d.name, "process_to_service_".toList ++ str p.id⟩

/-- The builders of one domain (compiler.py:810-851); `str` prints a process id. -/
def domChans (str : Nat → List Char) (d : SDom) : List Ch :=
  down d :: up d :: (d.procs.filter (·.py)).flatMap fun p => [toModel str d p, fromModel str d p]

/-- `_create_sync_channel_builders` (compiler.py:806-852). -/
def chans (str : Nat → List Char) (ds : List SDom) : List Ch := ds.flatMap (domChans str)

def srcName (c : Ch) : List Char := c.name ++ "_src".toList
def dstName (c : Ch) : List Char := c.name ++ "_dst".toList

/-- A dictionary of ports filled in the order of the list, then its values in order. -/
def portDict (key : Ch → List Char) (l : List Ch) : List (List Char × Ch) := l.foldl (fun m c => dictSet (key c) c m) []

/-- `self.runtime_to_service` and `self.service_to_runtime` of the runtime (runtime.py:277-280). -/
def rtSend (l : List Ch) : List Ch :=
  l.filter fun c => (decide (c.src = .runtime) || decide (c.dst = .runtime)) && contains "runtime_to_service".toList (srcName c)
def rtRecv (l : List Ch) : List Ch :=
  l.filter fun c => (decide (c.src = .runtime) || decide (c.dst = .runtime)) && !contains "runtime_to_service".toList (srcName c) &&
    contains "service_to_runtime".toList (srcName c)

/-- `csp_recv_port` and `csp_send_port` of the service of domain `n` (runtime.py:269-276, runtimeservice_builder.py:65-77) and the last port with
the right name (runtimeservice_builder.py:136-141). -/
def svcFromRt (l : List Ch) (n : List Char) : Option Ch :=
  (((portDict dstName (l.filter fun c => decide (c.src = .runtime) && decide (c.dst = .service n))).map (·.2)).filter
    fun c => contains "runtime_to_service".toList (dstName c)).getLast?
def svcToRt (l : List Ch) (n : List Char) : Option Ch :=
  (((portDict srcName (l.filter fun c => decide (c.dst = .runtime) && decide (c.src = .service n))).map (·.2)).filter
    fun c => contains "service_to_runtime".toList (srcName c)).getLast?

/-- `service_to_process` and `process_to_service` of the service of domain `n` (runtime.py:281-294, runtimeservice_builder.py:79-91, 126-133). -/
def svcToModels (l : List Ch) (n : List Char) : List Ch :=
  ((portDict srcName (l.filter fun c => decide (c.src = .service n) && !decide (c.dst = .runtime))).map (·.2)).filter
    fun c => contains "service_to_process".toList (srcName c)
def svcFromModels (l : List Ch) (n : List Char) : List Ch :=
  ((portDict dstName (l.filter fun c => decide (c.dst = .service n) && !decide (c.src = .runtime))).map (·.2)).filter
    fun c => contains "process_to_service".toList (dstName c)

/-- `service_to_process` and `process_to_service` of the process model `i` (py_builder.py:227-239, 387-395). -/
def modelFromSvc (l : List Ch) (i : Nat) : Option Ch :=
  (((portDict dstName (l.filter fun c => decide (c.dst = .model i))).map (·.2)).filter
    fun c => contains "service_to_process".toList (dstName c)).getLast?
def modelToSvc (l : List Ch) (i : Nat) : Option Ch :=
  (((portDict srcName (l.filter fun c => decide (c.src = .model i))).map (·.2)).filter
    fun c => contains "process_to_service".toList (srcName c)).getLast?

/-- `model_ids` (compiler.py:770): all processes of the domain. -/
def modelIds (d : SDom) : List Nat := d.procs.map (·.id)

/-- The channel on which a service sends a request for the process with id `i` (runtime_service.py:92-102):
`self.service_to_process[self.model_ids.index(i)]`. -/
def requestChan (l : List Ch) (d : SDom) (i : Nat) : Option Ch :=
  if i ∈ modelIds d then (svcToModels l d.name)[(modelIds d).idxOf i]? else none

/-! ## Lemmas -/

theorem contains_prefix (pat rest : List Char) : contains pat (pat ++ rest) = true := by
  cases pat with
  | nil => cases rest <;> simp [contains]
  | cons c cs =>
    simp only [List.cons_append, contains]
    have : (c :: cs).isPrefixOf (c :: (cs ++ rest)) = true := by
      rw [List.isPrefixOf_iff_prefix]; exact ⟨rest, rfl⟩
    rw [this]; rfl

theorem dictSet_fresh {κ β : Type} [DecidableEq κ] (k : κ) (v : β) : ∀ (m : List (κ × β)), k ∉ m.map Prod.fst →
    dictSet k v m = m ++ [(k, v)]
  | [], _ => rfl
  | (k', v') :: m, h => by
    have h1 : k' ≠ k := fun e => h (by simp [e])
    have h2 : k ∉ m.map Prod.fst := fun e => h (by simp [e])
    rw [dictSet, if_neg h1, dictSet_fresh k v m h2]; rfl

theorem portDict_eq (key : Ch → List Char) : ∀ (l : List Ch) (m : List (List Char × Ch)), (m.map Prod.fst ++ l.map key).Nodup →
    l.foldl (fun m c => dictSet (key c) c m) m = m ++ l.map fun c => (key c, c)
  | [], m, _ => by simp
  | c :: l, m, h => by
    rw [List.foldl_cons]
    have hc : key c ∉ m.map Prod.fst := by
      intro hm
      rw [List.nodup_append] at h
      exact h.2.2 _ hm _ (by simp) rfl
    rw [dictSet_fresh _ _ _ hc, portDict_eq key l]
    · simp
    · simpa using h

theorem portDict_values (key : Ch → List Char) (l : List Ch) (h : (l.map key).Nodup) : (portDict key l).map (·.2) = l := by
  unfold portDict
  rw [portDict_eq key l [] (by simpa using h)]
  simp [Function.comp_def]

/-- A filter that only the domain `d` passes. -/
theorem filter_chans (str : Nat → List Char) (f : Ch → Bool) (ds : List SDom) (d : SDom)
    (hn : (ds.map SDom.name).Nodup) (hd : d ∈ ds)
    (hoff : ∀ e ∈ ds, e ≠ d → ∀ c ∈ domChans str e, f c = false) :
    (chans str ds).filter f = (domChans str d).filter f := by
  unfold chans
  induction ds with
  | nil => cases hd
  | cons e ds ih =>
    rw [List.flatMap_cons, List.filter_append]
    rw [List.map_cons, List.nodup_cons] at hn
    by_cases he : e = d
    · subst he
      have : (ds.flatMap (domChans str)).filter f = [] := by
        rw [List.filter_eq_nil_iff]
        intro c hc
        obtain ⟨e', he', hc'⟩ := List.mem_flatMap.1 hc
        have hne : e' ≠ e := fun h => hn.1 (List.mem_map.2 ⟨e', he', by rw [h]⟩)
        simp [hoff e' (List.mem_cons_of_mem _ he') hne c hc']
      rw [this, List.append_nil]
    · have h0 : (domChans str e).filter f = [] := by
        rw [List.filter_eq_nil_iff]
        intro c hc
        simp [hoff e (by simp) he c hc]
      rw [h0, List.nil_append]
      refine ih hn.2 ?_ (fun e' he' => hoff e' (List.mem_cons_of_mem _ he'))
      rcases List.mem_cons.1 hd with h | h
      · exact absurd h.symm he
      · exact h

theorem mem_domChans (str : Nat → List Char) (d : SDom) (c : Ch) : c ∈ domChans str d ↔
    c = down d ∨ c = up d ∨ ∃ p ∈ d.procs, p.py = true ∧ (c = toModel str d p ∨ c = fromModel str d p) := by
  unfold domChans
  simp only [List.mem_cons, List.mem_flatMap, List.mem_filter, List.not_mem_nil, or_false, and_assoc]

theorem name_inj {ds : List SDom} (hn : (ds.map SDom.name).Nodup) {d e : SDom} (hd : d ∈ ds) (he : e ∈ ds) (h : e.name = d.name) : e = d := by
  induction ds with
  | nil => cases hd
  | cons a ds ih =>
    rw [List.map_cons, List.nodup_cons] at hn
    rcases List.mem_cons.1 hd with hd | hd <;> rcases List.mem_cons.1 he with he | he
    · rw [hd, he]
    · exact absurd (List.mem_map.2 ⟨e, he, by rw [h, hd]⟩) hn.1
    · exact absurd (List.mem_map.2 ⟨d, hd, by rw [← h, he]⟩) hn.1
    · exact ih hn.2 hd he

theorem filter_flatMap_pair (P : List SProc) (a b : SProc → Ch) (f : Ch → Bool) (ha : ∀ p, f (a p) = true) (hb : ∀ p, f (b p) = false) :
    (P.flatMap fun p => [a p, b p]).filter f = P.map a := by
  induction P with
  | nil => rfl
  | cons p P ih => rw [List.flatMap_cons, List.filter_append, ih]; simp [ha, hb]

theorem filter_flatMap_pair' (P : List SProc) (a b : SProc → Ch) (f : Ch → Bool) (ha : ∀ p, f (a p) = false) (hb : ∀ p, f (b p) = true) :
    (P.flatMap fun p => [a p, b p]).filter f = P.map b := by
  induction P with
  | nil => rfl
  | cons p P ih => rw [List.flatMap_cons, List.filter_append, ih]; simp [ha, hb]

theorem filter_contains_all (pat : List Char) (key : Ch → List Char) (l : List Ch) (h : ∀ c ∈ l, contains pat (key c) = true) :
    l.filter (fun c => contains pat (key c)) = l := List.filter_eq_self.2 h

theorem nodup_map_of_inj {α β : Type} (f : α → β) : ∀ (l : List α), l.Nodup → (∀ a ∈ l, ∀ b ∈ l, f a = f b → a = b) → (l.map f).Nodup
  | [], _, _ => List.nodup_nil
  | a :: l, h, hi => by
    rw [List.map_cons, List.nodup_cons]
    rw [List.nodup_cons] at h
    refine ⟨fun hm => ?_, nodup_map_of_inj f l h.2 (fun x hx y hy => hi x (List.mem_cons_of_mem _ hx) y (List.mem_cons_of_mem _ hy))⟩
    obtain ⟨b, hb, he⟩ := List.mem_map.1 hm
    have := hi b (List.mem_cons_of_mem _ hb) a (by simp) he
    rw [this] at hb
    exact h.1 hb

end Verif.Compiler.Sync
