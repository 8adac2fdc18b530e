import Verif.ProcApi.Misc
import Mathlib.Data.List.Basic

/-
C65 decorators, C66 SLURM environment.
-/

namespace Verif.ProcApi

/-! ### C65: worlds of classes -/

/-- Every class inherits from earlier classes only, and every list attribute points into the heap. -/
structure World.WF (w : World) : Prop where
  mro : ∀ (i : Nat) (k : Cls), w.cls[i]? = some k → ∀ m ∈ k.mro, m < i
  res : ∀ (i : Nat) (k : Cls) (a : Nat), w.cls[i]? = some k → k.res = some a → a < w.heap.length
  tags : ∀ (i : Nat) (k : Cls) (a : Nat), w.cls[i]? = some k → k.tags = some a → a < w.heap.length

theorem base_wf : World.base.WF := by
  constructor
  · intro i k h m hm
    match i, h with
    | 0, h => simp [World.base] at h; subst h; simp at hm
    | i + 1, h => simp [World.base] at h
  · intro i k a h ha
    match i, h with
    | 0, h => simp [World.base] at h; subst h; simp at ha; simp [World.base, ← ha]
    | i + 1, h => simp [World.base] at h
  · intro i k a h ha
    match i, h with
    | 0, h => simp [World.base] at h; subst h; simp at ha; simp [World.base, ← ha]
    | i + 1, h => simp [World.base] at h

theorem findSome_congr {α β : Type} {f g : α → Option β} {l : List α} (h : ∀ x ∈ l, f x = g x) :
    l.findSome? f = l.findSome? g := by
  induction l with
  | nil => rfl
  | cons a l ih =>
    rw [List.findSome?_cons, List.findSome?_cons, h a (by simp),
      ih (fun x hx => h x (by simp [hx]))]

/-- Attributes of earlier classes are not changed by a new class. -/
theorem attr_subclass_old (w : World) (hw : w.WF) (get : Cls → Option Nat) (b d : Nat)
    (hd : d < w.cls.length) : (w.subclass b).2.attr get d = w.attr get d := by
  unfold World.attr World.subclass
  simp only [List.getElem?_append_left hd]
  cases hk : w.cls[d]? with
  | none => rfl
  | some k =>
    simp only
    apply findSome_congr
    intro i hi
    have : i < w.cls.length := by
      rcases List.mem_cons.mp hi with rfl | hi
      · exact hd
      · exact Nat.lt_trans (hw.mro d k hk i hi) hd
    rw [List.getElem?_append_left this]

/-- A fresh subclass sees the attributes of its base. -/
theorem attr_subclass_new (w : World) (hw : w.WF) (get : Cls → Option Nat)
    (hget : ∀ m, get { mro := m } = none) (b : Nat) (hb : b < w.cls.length) :
    (w.subclass b).2.attr get w.cls.length = w.attr get b := by
  rw [← attr_subclass_old w hw get b b hb]
  unfold World.attr World.subclass
  obtain ⟨k, hk⟩ : ∃ k, w.cls[b]? = some k := ⟨w.cls[b], List.getElem?_eq_getElem hb⟩
  simp only [List.getElem?_append_left hb, hk]
  rw [List.getElem?_append_right (Nat.le_refl _)]
  simp only [Nat.sub_self, List.getElem?_cons_zero, Option.map_some, Option.getD_some]
  rw [List.findSome?_cons]
  rw [List.getElem?_append_right (Nat.le_refl _)]
  simp [hget]

theorem subclass_wf (w : World) (hw : w.WF) (b : Nat) (hb : b < w.cls.length) :
    (w.subclass b).2.WF := by
  obtain ⟨k, hk⟩ : ∃ k, w.cls[b]? = some k := ⟨w.cls[b], List.getElem?_eq_getElem hb⟩
  have split : ∀ (i : Nat) (k' : Cls), (w.subclass b).2.cls[i]? = some k' →
      w.cls[i]? = some k' ∨ (i = w.cls.length ∧ k' = { mro := b :: k.mro }) := by
    intro i k' h
    simp only [World.subclass, hk, Option.map_some, Option.getD_some] at h
    rcases Nat.lt_or_ge i w.cls.length with h1 | h1
    · rw [List.getElem?_append_left h1] at h; exact Or.inl h
    · rw [List.getElem?_append_right h1] at h
      have : i - w.cls.length = 0 := by
        by_contra hne
        obtain ⟨j, hj⟩ : ∃ j, i - w.cls.length = j + 1 := ⟨i - w.cls.length - 1, by omega⟩
        rw [hj] at h
        simp at h
      rw [this] at h
      simp at h
      exact Or.inr ⟨by omega, h.symm⟩
  constructor
  · intro i k' h m hm
    rcases split i k' h with h | ⟨rfl, rfl⟩
    · exact hw.mro i k' h m hm
    · rcases List.mem_cons.mp hm with rfl | hm
      · exact hb
      · exact Nat.lt_trans (hw.mro b k hk m hm) hb
  · intro i k' a h ha
    rcases split i k' h with h | ⟨rfl, rfl⟩
    · exact hw.res i k' a h ha
    · simp at ha
  · intro i k' a h ha
    rcases split i k' h with h | ⟨rfl, rfl⟩
    · exact hw.tags i k' a h ha
    · simp at ha

/-- A change of one class that keeps its MRO. -/
structure KeepsMro (f : Cls → Cls) : Prop where
  keep : ∀ k, (f k).mro = k.mro

theorem modify_get (l : List Cls) (c i : Nat) (f : Cls → Cls) :
    (l.modify c f)[i]? = if c = i then (l[i]?).map f else l[i]? := by
  rw [List.getElem?_modify]
  split
  · cases l[i]? <;> rfl
  · cases l[i]? <;> rfl

/-- Attributes of an earlier class do not change when a later class is changed. -/
theorem attr_modify_old (w : World) (hw : w.WF) (get : Cls → Option Nat) (f : Cls → Cls)
    (heap : List (List Nat)) (c d : Nat) (h : d < c) :
    (World.mk (w.cls.modify c f) heap).attr get d = w.attr get d := by
  unfold World.attr
  simp only [modify_get]
  rw [if_neg (by omega)]
  cases hk : w.cls[d]? with
  | none => rfl
  | some k =>
    simp only
    apply findSome_congr
    intro i hi
    have : i < c := by
      rcases List.mem_cons.mp hi with rfl | hi
      · exact h
      · exact Nat.lt_trans (hw.mro d k hk i hi) h
    rw [if_neg (by omega)]

/-- The changed attribute is the new one. -/
theorem attr_modify_set (w : World) (get : Cls → Option Nat) (f : Cls → Cls)
    (heap : List (List Nat)) (c v : Nat) (hc : c < w.cls.length) (hf : ∀ k, get (f k) = some v) :
    (World.mk (w.cls.modify c f) heap).attr get c = some v := by
  unfold World.attr
  simp only [modify_get, if_true]
  rw [List.getElem?_eq_getElem hc]
  simp only [Option.map_some]
  rw [List.findSome?_cons]
  rw [if_pos rfl, List.getElem?_eq_getElem hc]
  simp [hf]

/-- Another attribute of the changed class stays. -/
theorem attr_modify_other (w : World) (hw : w.WF) (get : Cls → Option Nat) (f : Cls → Cls)
    (heap : List (List Nat)) (c : Nat) (hf : KeepsMro f) (hg : ∀ k, get (f k) = get k) :
    (World.mk (w.cls.modify c f) heap).attr get c = w.attr get c := by
  unfold World.attr
  simp only [modify_get, if_true]
  cases hk : w.cls[c]? with
  | none => rfl
  | some k =>
    simp only [Option.map_some, hf.keep]
    apply findSome_congr
    intro i hi
    split
    · cases hki : w.cls[i]? with
      | none => rfl
      | some k2 => simp [hg]
    · rfl

theorem modify_wf (w : World) (hw : w.WF) (f : Cls → Cls) (extra : List (List Nat)) (c : Nat)
    (hf : KeepsMro f)
    (hr : ∀ k a, (f k).res = some a → k.res = some a ∨ a < (w.heap ++ extra).length)
    (ht : ∀ k a, (f k).tags = some a → k.tags = some a ∨ a < (w.heap ++ extra).length) :
    (World.mk (w.cls.modify c f) (w.heap ++ extra)).WF := by
  have split : ∀ (i : Nat) (k' : Cls), (w.cls.modify c f)[i]? = some k' →
      ∃ k, w.cls[i]? = some k ∧ (k' = k ∨ k' = f k) := by
    intro i k' h
    rw [modify_get] at h
    split at h
    · cases hk : w.cls[i]? with
      | none => rw [hk] at h; simp at h
      | some k => rw [hk] at h; simp at h; exact ⟨k, rfl, Or.inr h.symm⟩
    · exact ⟨k', h, Or.inl rfl⟩
  have hl : w.heap.length ≤ (w.heap ++ extra).length := by simp
  constructor
  · intro i k' h m hm
    obtain ⟨k, hk, rfl | rfl⟩ := split i k' h
    · exact hw.mro i k' hk m hm
    · rw [hf.keep] at hm; exact hw.mro i k hk m hm
  · intro i k' a h ha
    obtain ⟨k, hk, rfl | rfl⟩ := split i k' h
    · exact Nat.lt_of_lt_of_le (hw.res i k' a hk ha) hl
    · rcases hr k a ha with h1 | h1
      · exact Nat.lt_of_lt_of_le (hw.res i k a hk h1) hl
      · exact h1
  · intro i k' a h ha
    obtain ⟨k, hk, rfl | rfl⟩ := split i k' h
    · exact Nat.lt_of_lt_of_le (hw.tags i k' a hk ha) hl
    · rcases ht k a ha with h1 | h1
      · exact Nat.lt_of_lt_of_le (hw.tags i k a hk h1) hl
      · exact h1

theorem attr_own (w : World) (get : Cls → Option Nat) (c a : Nat) (h : w.attr get c = some a) :
    ∃ (i : Nat) (k : Cls), w.cls[i]? = some k ∧ get k = some a := by
  unfold World.attr at h
  cases hk : w.cls[c]? with
  | none => rw [hk] at h; simp at h
  | some k =>
    rw [hk] at h
    simp only at h
    obtain ⟨i, _, hi⟩ := List.exists_of_findSome?_eq_some h
    cases hki : w.cls[i]? with
    | none => rw [hki] at hi; simp at hi
    | some k2 => rw [hki] at hi; exact ⟨i, k2, hki, by simpa using hi⟩

/-! ### C65: chains of decorated subclasses -/

/-- One level of a chain of subclasses: what its decorators declare. -/
structure Level where
  proc : Option Nat := none
  prot : Option Nat := none
  reqs : List Nat := []
  tags : List Nat := []
deriving DecidableEq, Repr

/-- Define one more subclass of class `b` with its decorators. -/
def World.addLevel (w : World) (b : Nat) (l : Level) : Option World :=
  (((w.subclass b).2.tag w.cls.length l.tags).requires w.cls.length l.reqs).implements
    w.cls.length l.proc l.prot

/-- A chain: every level subclasses the one before; `none` if a decorator raises. -/
def World.chain : World → List Level → Option World
  | w, [] => some w
  | w, l :: ls => (w.addLevel (w.cls.length - 1) l).bind (fun w' => w'.chain ls)

/-- Specification: the declaration in force after some levels. -/
def declared (get : Level → Option Nat) : List Level → Option Nat
  | [] => none
  | l :: ls => (get l).or (declared get ls)

/-- No two levels declare different things. -/
def consistent (get : Level → Option Nat) (ls : List Level) : Prop :=
  ∀ a ∈ ls, ∀ b ∈ ls, ∀ x y, get a = some x → get b = some y → x = y

structure View where
  proc : Option Nat
  prot : Option Nat
  res : List Nat
  tags : List Nat

def World.view (w : World) (c : Nat) : View :=
  ⟨w.attr (·.proc) c, w.attr (·.prot) c, w.listOf (·.res) c, w.listOf (·.tags) c⟩

theorem listOf_congr (w w' : World) (get : Cls → Option Nat) (c c' : Nat)
    (h : w'.attr get c' = w.attr get c) (hh : ∀ a, w.attr get c = some a → w'.heap[a]? = w.heap[a]?) :
    w'.listOf get c' = w.listOf get c := by
  unfold World.listOf
  rw [h]
  cases ha : w.attr get c with
  | none => rfl
  | some a => simp [hh a ha]

/-- `tag`: the new class sees the inherited tags followed by its own; everything else stays. -/
theorem tag_view (w : World) (hw : w.WF) (c : Nat) (hc : c < w.cls.length) (ts : List Nat) :
    (w.tag c ts).WF ∧ (w.tag c ts).cls.length = w.cls.length ∧
    (∀ d, d < c → (w.tag c ts).view d = w.view d) ∧
    (w.tag c ts).view c = ⟨(w.view c).proc, (w.view c).prot, (w.view c).res, (w.view c).tags ++ ts⟩ := by
  have hkeep : KeepsMro (fun k : Cls => { k with tags := some w.heap.length }) := ⟨fun _ => rfl⟩
  have hheapR : ∀ d a, w.attr (·.res) d = some a →
      (w.heap ++ [w.listOf (·.tags) c ++ ts])[a]? = w.heap[a]? := by
    intro d a ha
    obtain ⟨i, k, hi, hk⟩ := attr_own w _ d a ha
    rw [List.getElem?_append_left (hw.res i k a hi hk)]
  have hheapT : ∀ d a, w.attr (·.tags) d = some a →
      (w.heap ++ [w.listOf (·.tags) c ++ ts])[a]? = w.heap[a]? := by
    intro d a ha
    obtain ⟨i, k, hi, hk⟩ := attr_own w _ d a ha
    rw [List.getElem?_append_left (hw.tags i k a hi hk)]
  refine ⟨?_, by simp [World.tag], ?_, ?_⟩
  · exact modify_wf w hw _ [w.listOf (·.tags) c ++ ts] c hkeep (fun k a h => Or.inl h)
      (fun k a h => Or.inr (by simp at h; simp [← h]))
  · intro d hd
    have e : ∀ get : Cls → Option Nat, (w.tag c ts).attr get d = w.attr get d :=
      fun get => attr_modify_old w hw get _ _ c d hd
    unfold World.view
    rw [e, e, listOf_congr w (w.tag c ts) (·.res) d d (e _) (hheapR d),
      listOf_congr w (w.tag c ts) (·.tags) d d (e _) (hheapT d)]
  · have e1 : (w.tag c ts).attr (·.proc) c = w.attr (·.proc) c :=
      attr_modify_other w hw _ _ _ c hkeep (fun _ => rfl)
    have e2 : (w.tag c ts).attr (·.prot) c = w.attr (·.prot) c :=
      attr_modify_other w hw _ _ _ c hkeep (fun _ => rfl)
    have e3 : (w.tag c ts).attr (·.res) c = w.attr (·.res) c :=
      attr_modify_other w hw _ _ _ c hkeep (fun _ => rfl)
    have e4 : (w.tag c ts).attr (·.tags) c = some w.heap.length :=
      attr_modify_set w _ _ _ c _ hc (fun _ => rfl)
    unfold World.view
    rw [e1, e2, listOf_congr w (w.tag c ts) (·.res) c c e3 (hheapR c)]
    congr 1
    unfold World.listOf
    rw [e4]
    simp [World.tag, World.listOf]

/-- `requires`: as `tag`, for the resources. -/
theorem requires_view (w : World) (hw : w.WF) (c : Nat) (hc : c < w.cls.length) (ts : List Nat) :
    (w.requires c ts).WF ∧ (w.requires c ts).cls.length = w.cls.length ∧
    (∀ d, d < c → (w.requires c ts).view d = w.view d) ∧
    (w.requires c ts).view c =
      ⟨(w.view c).proc, (w.view c).prot, (w.view c).res ++ ts, (w.view c).tags⟩ := by
  have hkeep : KeepsMro (fun k : Cls => { k with res := some w.heap.length }) := ⟨fun _ => rfl⟩
  have hheapR : ∀ d a, w.attr (·.res) d = some a →
      (w.heap ++ [w.listOf (·.res) c ++ ts])[a]? = w.heap[a]? := by
    intro d a ha
    obtain ⟨i, k, hi, hk⟩ := attr_own w _ d a ha
    rw [List.getElem?_append_left (hw.res i k a hi hk)]
  have hheapT : ∀ d a, w.attr (·.tags) d = some a →
      (w.heap ++ [w.listOf (·.res) c ++ ts])[a]? = w.heap[a]? := by
    intro d a ha
    obtain ⟨i, k, hi, hk⟩ := attr_own w _ d a ha
    rw [List.getElem?_append_left (hw.tags i k a hi hk)]
  refine ⟨?_, by simp [World.requires], ?_, ?_⟩
  · exact modify_wf w hw _ [w.listOf (·.res) c ++ ts] c hkeep
      (fun k a h => Or.inr (by simp at h; simp [← h])) (fun k a h => Or.inl h)
  · intro d hd
    have e : ∀ get : Cls → Option Nat, (w.requires c ts).attr get d = w.attr get d :=
      fun get => attr_modify_old w hw get _ _ c d hd
    unfold World.view
    rw [e, e, listOf_congr w (w.requires c ts) (·.res) d d (e _) (hheapR d),
      listOf_congr w (w.requires c ts) (·.tags) d d (e _) (hheapT d)]
  · have e1 : (w.requires c ts).attr (·.proc) c = w.attr (·.proc) c :=
      attr_modify_other w hw _ _ _ c hkeep (fun _ => rfl)
    have e2 : (w.requires c ts).attr (·.prot) c = w.attr (·.prot) c :=
      attr_modify_other w hw _ _ _ c hkeep (fun _ => rfl)
    have e3 : (w.requires c ts).attr (·.tags) c = w.attr (·.tags) c :=
      attr_modify_other w hw _ _ _ c hkeep (fun _ => rfl)
    have e4 : (w.requires c ts).attr (·.res) c = some w.heap.length :=
      attr_modify_set w _ _ _ c _ hc (fun _ => rfl)
    unfold World.view
    rw [e1, e2, listOf_congr w (w.requires c ts) (·.tags) c c e3 (hheapT c)]
    congr 1
    unfold World.listOf
    rw [e4]
    simp [World.requires, World.listOf]

theorem setCls_view (w : World) (hw : w.WF) (c : Nat) (f : Cls → Cls) (hf : KeepsMro f)
    (hr : ∀ k, (f k).res = k.res) (ht : ∀ k, (f k).tags = k.tags) :
    (w.setCls c f).WF ∧ (w.setCls c f).cls.length = w.cls.length ∧
    (∀ d, d < c → (w.setCls c f).view d = w.view d) ∧
    ((w.setCls c f).view c).res = (w.view c).res ∧ ((w.setCls c f).view c).tags = (w.view c).tags := by
  have e0 : w.setCls c f = World.mk (w.cls.modify c f) (w.heap ++ []) := by
    simp [World.setCls]
  refine ⟨?_, by simp [World.setCls], ?_, ?_, ?_⟩
  · rw [e0]
    exact modify_wf w hw f [] c hf (fun k a h => Or.inl (by rw [← hr]; exact h))
      (fun k a h => Or.inl (by rw [← ht]; exact h))
  · intro d hd
    have e : ∀ get : Cls → Option Nat, (w.setCls c f).attr get d = w.attr get d :=
      fun get => attr_modify_old w hw get _ _ c d hd
    unfold World.view
    rw [e, e, listOf_congr w (w.setCls c f) (·.res) d d (e _) (fun _ _ => rfl),
      listOf_congr w (w.setCls c f) (·.tags) d d (e _) (fun _ _ => rfl)]
  · exact listOf_congr w (w.setCls c f) (·.res) c c
      (attr_modify_other w hw _ _ _ c hf hr) (fun _ _ => rfl)
  · exact listOf_congr w (w.setCls c f) (·.tags) c c
      (attr_modify_other w hw _ _ _ c hf ht) (fun _ _ => rfl)

/-- The check of `implements` for one of the two attributes. -/
def clash (old new : Option Nat) : Prop := old.isSome ∧ new.isSome ∧ old ≠ new

instance (old new : Option Nat) : Decidable (clash old new) := by unfold clash; infer_instance

/-- First stage of `implements`: the process. -/
def stageProc (w : World) (c : Nat) : Option Nat → World
  | some p => w.setCls c (fun k => { k with proc := some p })
  | none => w

/-- Second stage: the protocol. -/
def stageProt (w : World) (c : Nat) : Option Nat → World
  | some p => w.setCls c (fun k => { k with prot := some p })
  | none => w

theorem implements_eq (w : World) (c : Nat) (proc prot : Option Nat) :
    w.implements c proc prot =
      if clash (w.attr (·.proc) c) proc then none
      else if clash ((stageProc w c proc).attr (·.prot) c) prot then none
      else some (stageProt (stageProc w c proc) c prot) := by
  unfold World.implements clash
  cases proc <;> cases prot <;> rfl

theorem stageProc_view (w : World) (hw : w.WF) (c : Nat) (hc : c < w.cls.length) (p : Option Nat) :
    (stageProc w c p).WF ∧ (stageProc w c p).cls.length = w.cls.length ∧
    (∀ d, d < c → (stageProc w c p).view d = w.view d) ∧
    (stageProc w c p).view c = ⟨p.or (w.view c).proc, (w.view c).prot, (w.view c).res, (w.view c).tags⟩ := by
  cases p with
  | none => exact ⟨hw, rfl, fun _ _ => rfl, rfl⟩
  | some p =>
    obtain ⟨h1, h2, h3, h4, h5⟩ := setCls_view w hw c (fun k => { k with proc := some p })
      ⟨fun _ => rfl⟩ (fun _ => rfl) (fun _ => rfl)
    refine ⟨h1, h2, h3, ?_⟩
    have e1 : (stageProc w c (some p)).attr (·.proc) c = some p :=
      attr_modify_set w _ _ _ c _ hc (fun _ => rfl)
    have e2 : (stageProc w c (some p)).attr (·.prot) c = w.attr (·.prot) c :=
      attr_modify_other w hw _ _ _ c ⟨fun _ => rfl⟩ (fun _ => rfl)
    have : (stageProc w c (some p)).view c = ⟨(stageProc w c (some p)).attr (·.proc) c,
      (stageProc w c (some p)).attr (·.prot) c, ((stageProc w c (some p)).view c).res,
      ((stageProc w c (some p)).view c).tags⟩ := rfl
    rw [this, e1, e2]
    have h4' : ((stageProc w c (some p)).view c).res = (w.view c).res := h4
    have h5' : ((stageProc w c (some p)).view c).tags = (w.view c).tags := h5
    rw [h4', h5']
    rfl

theorem stageProt_view (w : World) (hw : w.WF) (c : Nat) (hc : c < w.cls.length) (p : Option Nat) :
    (stageProt w c p).WF ∧ (stageProt w c p).cls.length = w.cls.length ∧
    (∀ d, d < c → (stageProt w c p).view d = w.view d) ∧
    (stageProt w c p).view c = ⟨(w.view c).proc, p.or (w.view c).prot, (w.view c).res, (w.view c).tags⟩ := by
  cases p with
  | none => exact ⟨hw, rfl, fun _ _ => rfl, rfl⟩
  | some p =>
    obtain ⟨h1, h2, h3, h4, h5⟩ := setCls_view w hw c (fun k => { k with prot := some p })
      ⟨fun _ => rfl⟩ (fun _ => rfl) (fun _ => rfl)
    refine ⟨h1, h2, h3, ?_⟩
    have e1 : (stageProt w c (some p)).attr (·.prot) c = some p :=
      attr_modify_set w _ _ _ c _ hc (fun _ => rfl)
    have e2 : (stageProt w c (some p)).attr (·.proc) c = w.attr (·.proc) c :=
      attr_modify_other w hw _ _ _ c ⟨fun _ => rfl⟩ (fun _ => rfl)
    have : (stageProt w c (some p)).view c = ⟨(stageProt w c (some p)).attr (·.proc) c,
      (stageProt w c (some p)).attr (·.prot) c, ((stageProt w c (some p)).view c).res,
      ((stageProt w c (some p)).view c).tags⟩ := rfl
    rw [this, e1, e2]
    have h4' : ((stageProt w c (some p)).view c).res = (w.view c).res := h4
    have h5' : ((stageProt w c (some p)).view c).tags = (w.view c).tags := h5
    rw [h4', h5']
    rfl

/-- `implements`: raises exactly if it would replace a declared process or protocol; otherwise the
declared ones are added. -/
theorem C65_implements (w : World) (hw : w.WF) (c : Nat) (hc : c < w.cls.length)
    (proc prot : Option Nat) :
    (clash (w.view c).proc proc ∨ clash (w.view c).prot prot → w.implements c proc prot = none) ∧
    (¬ clash (w.view c).proc proc → ¬ clash (w.view c).prot prot →
      ∃ w', w.implements c proc prot = some w' ∧ w'.WF ∧ w'.cls.length = w.cls.length ∧
        (∀ d, d < c → w'.view d = w.view d) ∧
        w'.view c = ⟨proc.or (w.view c).proc, prot.or (w.view c).prot, (w.view c).res, (w.view c).tags⟩) := by
  obtain ⟨h1, h2, h3, h4⟩ := stageProc_view w hw c hc proc
  have hp : (stageProc w c proc).attr (·.prot) c = (w.view c).prot := congrArg View.prot h4
  rw [implements_eq, hp]
  constructor
  · intro h
    by_cases ha : clash (w.attr (·.proc) c) proc
    · rw [if_pos ha]
    · rw [if_neg ha]
      rcases h with h | h
      · exact absurd h ha
      · rw [if_pos h]
  · intro ha hb
    have ha' : ¬ clash (w.attr (·.proc) c) proc := ha
    rw [if_neg ha', if_neg hb]
    obtain ⟨g1, g2, g3, g4⟩ := stageProt_view (stageProc w c proc) h1 c (by omega) prot
    refine ⟨_, rfl, g1, by omega, fun d hd => by rw [g3 d hd, h3 d hd], ?_⟩
    rw [g4, h4]

theorem subclass_view (w : World) (hw : w.WF) (b : Nat) (hb : b < w.cls.length) :
    (w.subclass b).2.WF ∧ (w.subclass b).2.cls.length = w.cls.length + 1 ∧
    (∀ d, d < w.cls.length → (w.subclass b).2.view d = w.view d) ∧
    (w.subclass b).2.view w.cls.length = w.view b := by
  refine ⟨subclass_wf w hw b hb, by simp [World.subclass], ?_, ?_⟩
  · intro d hd
    have e : ∀ get : Cls → Option Nat, (w.subclass b).2.attr get d = w.attr get d :=
      fun get => attr_subclass_old w hw get b d hd
    unfold World.view
    rw [e, e, listOf_congr w (w.subclass b).2 (·.res) d d (e _) (fun _ _ => rfl),
      listOf_congr w (w.subclass b).2 (·.tags) d d (e _) (fun _ _ => rfl)]
  · unfold World.view
    rw [attr_subclass_new w hw _ (fun _ => rfl) b hb, attr_subclass_new w hw _ (fun _ => rfl) b hb,
      listOf_congr w (w.subclass b).2 (·.res) b _ (attr_subclass_new w hw _ (fun _ => rfl) b hb)
        (fun _ _ => rfl),
      listOf_congr w (w.subclass b).2 (·.tags) b _ (attr_subclass_new w hw _ (fun _ => rfl) b hb)
        (fun _ _ => rfl)]

/-- One level: the subclass adds its resources and tags to those of its base, cannot replace a
declared process or protocol (the class definition raises), and leaves every earlier class as it
was. -/
theorem C65_level (w : World) (hw : w.WF) (b : Nat) (hb : b < w.cls.length) (l : Level) :
    (clash (w.view b).proc l.proc ∨ clash (w.view b).prot l.prot → w.addLevel b l = none) ∧
    (¬ clash (w.view b).proc l.proc → ¬ clash (w.view b).prot l.prot →
      ∃ w', w.addLevel b l = some w' ∧ w'.WF ∧ w'.cls.length = w.cls.length + 1 ∧
        (∀ d, d < w.cls.length → w'.view d = w.view d) ∧
        w'.view w.cls.length = ⟨l.proc.or (w.view b).proc, l.prot.or (w.view b).prot,
          (w.view b).res ++ l.reqs, (w.view b).tags ++ l.tags⟩) := by
  obtain ⟨a1, a2, a3, a4⟩ := subclass_view w hw b hb
  obtain ⟨b1, b2, b3, b4⟩ := tag_view _ a1 w.cls.length (by omega) l.tags
  obtain ⟨c1, c2, c3, c4⟩ := requires_view _ b1 w.cls.length (by omega) l.reqs
  have hd := C65_implements _ c1 w.cls.length (by omega) l.proc l.prot
  have hv := c4
  rw [b4, a4] at hv
  simp only at hv
  rw [hv] at hd
  constructor
  · intro h; exact hd.1 h
  · intro h1 h2
    obtain ⟨w', e1, e2, e3, e4, e5⟩ := hd.2 h1 h2
    refine ⟨w', e1, e2, by omega, ?_, e5⟩
    intro d hdlt
    rw [e4 d hdlt, c3 d hdlt, b3 d hdlt, a3 d hdlt]

/-- Specification: view of the class after some levels, nearest level first in the list. -/
def specView (v : View) : List Level → View
  | [] => v
  | l :: ls =>
    specView ⟨l.proc.or v.proc, l.prot.or v.prot, v.res ++ l.reqs, v.tags ++ l.tags⟩ ls

theorem specView_lists (v : View) (ls : List Level) :
    (specView v ls).res = v.res ++ ls.flatMap (·.reqs) ∧
    (specView v ls).tags = v.tags ++ ls.flatMap (·.tags) := by
  induction ls generalizing v with
  | nil => simp [specView]
  | cons l ls ih => simp [specView, ih, List.append_assoc]

theorem chain_spec (ls : List Level) : ∀ (w : World), w.WF → 0 < w.cls.length →
    ∀ w', w.chain ls = some w' →
      w'.WF ∧ w'.cls.length = w.cls.length + ls.length ∧
      (∀ d, d < w.cls.length → w'.view d = w.view d) ∧
      (∀ i, i ≤ ls.length → w'.view (w.cls.length - 1 + i) =
        specView (w.view (w.cls.length - 1)) (ls.take i)) ∧
      (∀ p, (w.view (w.cls.length - 1)).proc = some p → ∀ l ∈ ls, ∀ q, l.proc = some q → q = p) ∧
      (∀ p, (w.view (w.cls.length - 1)).prot = some p → ∀ l ∈ ls, ∀ q, l.prot = some q → q = p) ∧
      (∀ p, (w.view (w.cls.length - 1)).proc = some p →
        (w'.view (w.cls.length - 1 + ls.length)).proc = some p) ∧
      (∀ p, (w.view (w.cls.length - 1)).prot = some p →
        (w'.view (w.cls.length - 1 + ls.length)).prot = some p) := by
  induction ls with
  | nil =>
    intro w hw hpos w' h
    simp only [World.chain, Option.some.injEq] at h
    subst h
    refine ⟨hw, rfl, fun _ _ => rfl, ?_, by simp, by simp, fun p hp => hp, fun p hp => hp⟩
    intro i hi
    have : i = 0 := by simpa using hi
    subst this
    rfl
  | cons l ls ih =>
    intro w hw hpos w' h
    obtain ⟨lv1, lv2⟩ := C65_level w hw (w.cls.length - 1) (by omega) l
    simp only [World.chain] at h
    by_cases c1 : clash (w.view (w.cls.length - 1)).proc l.proc
    · rw [lv1 (Or.inl c1)] at h; simp at h
    by_cases c2 : clash (w.view (w.cls.length - 1)).prot l.prot
    · rw [lv1 (Or.inr c2)] at h; simp at h
    obtain ⟨w1, e1, e2, e3, e4, e5⟩ := lv2 c1 c2
    rw [e1, Option.bind_some] at h
    obtain ⟨i1, i2, i3, i4, i5, i6, i7, i8⟩ := ih w1 e2 (by omega) w' h
    have hl1 : w1.cls.length - 1 = w.cls.length := by omega
    rw [hl1] at i4 i5 i6 i7 i8
    have hproc : ∀ p, (w.view (w.cls.length - 1)).proc = some p →
        (w1.view w.cls.length).proc = some p := by
      intro p hp
      rw [e5]
      cases hl : l.proc with
      | none => simp [hp]
      | some q =>
        have : q = p := by
          by_contra hne
          exact c1 ⟨by simp [hp], by simp [hl], by rw [hp, hl]; simpa using fun e => hne e.symm⟩
        simp [this]
    have hprot : ∀ p, (w.view (w.cls.length - 1)).prot = some p →
        (w1.view w.cls.length).prot = some p := by
      intro p hp
      rw [e5]
      cases hl : l.prot with
      | none => simp [hp]
      | some q =>
        have : q = p := by
          by_contra hne
          exact c2 ⟨by simp [hp], by simp [hl], by rw [hp, hl]; simpa using fun e => hne e.symm⟩
        simp [this]
    have hlen : w.cls.length - 1 + (l :: ls).length = w.cls.length + ls.length := by
      simp only [List.length_cons]; omega
    refine ⟨i1, by simp only [List.length_cons]; omega, ?_, ?_, ?_, ?_, ?_, ?_⟩
    · intro d hd
      rw [i3 d (by omega), e4 d hd]
    · intro i hi
      cases i with
      | zero =>
        simp only [Nat.add_zero, List.take_zero, specView]
        rw [i3 _ (by omega), e4 _ (by omega)]
      | succ i =>
        have : w.cls.length - 1 + (i + 1) = w.cls.length + i := by omega
        rw [this, i4 i (by simpa using hi), e5]
        rfl
    · intro p hp x hx q hq
      rcases List.mem_cons.mp hx with rfl | hx
      · by_contra hne
        exact c1 ⟨by simp [hp], by simp [hq], by rw [hp, hq]; simpa using fun e => hne e.symm⟩
      · exact i5 p (hproc p hp) x hx q hq
    · intro p hp x hx q hq
      rcases List.mem_cons.mp hx with rfl | hx
      · by_contra hne
        exact c2 ⟨by simp [hp], by simp [hq], by rw [hp, hq]; simpa using fun e => hne e.symm⟩
      · exact i6 p (hprot p hp) x hx q hq
    · intro p hp
      rw [hlen]; exact i7 p (hproc p hp)
    · intro p hp
      rw [hlen]; exact i8 p (hprot p hp)

/-- **C65**: in every chain of subclasses of the base model that could be defined,
* the class at depth `i` has exactly the tags and resources of the levels up to `i`, in order, and
  still has them after all deeper levels were defined;
* once a level declares a process (protocol), every deeper level that declares one declares the same,
  and every deeper class implements it. -/
theorem C65_chain (ls : List Level) (w : World) (h : World.base.chain ls = some w) :
    (∀ i, i ≤ ls.length → (w.view i).tags = (ls.take i).flatMap (·.tags) ∧
      (w.view i).res = (ls.take i).flatMap (·.reqs)) ∧
    (∀ (i j : Nat) (li lj : Level), i ≤ j → ls[i]? = some li → ls[j]? = some lj →
      (∀ p q, li.proc = some p → lj.proc = some q → p = q) ∧
      (∀ p q, li.prot = some p → lj.prot = some q → p = q)) ∧
    (∀ (i j : Nat) (li : Level), i ≤ j → j < ls.length → ls[i]? = some li →
      (∀ p, li.proc = some p → (w.view (j + 1)).proc = some p) ∧
      (∀ p, li.prot = some p → (w.view (j + 1)).prot = some p)) := by
  have hb : World.base.cls.length = 1 := rfl
  obtain ⟨_, _, _, h4, _⟩ := chain_spec ls World.base base_wf (by decide) w h
  have tailOf : ∀ (i : Nat) (li : Level), ls[i]? = some li → ∃ w1 : World, World.base.chain (ls.take (i + 1)) = some w1 ∧
      w1.chain (ls.drop (i + 1)) = some w := by
    intro i li hi
    have key : ∀ (a b : List Level) (w0 : World), w0.chain (a ++ b) = some w →
        ∃ w1, w0.chain a = some w1 ∧ w1.chain b = some w := by
      intro a
      induction a with
      | nil => intro b w0 hh; exact ⟨w0, rfl, hh⟩
      | cons x a iha =>
        intro b w0 hh
        simp only [List.cons_append, World.chain] at hh ⊢
        cases hx : w0.addLevel (w0.cls.length - 1) x with
        | none => rw [hx] at hh; simp at hh
        | some w2 =>
          rw [hx, Option.bind_some] at hh
          exact iha b w2 hh
    have := key (ls.take (i + 1)) (ls.drop (i + 1)) World.base (by rw [List.take_append_drop]; exact h)
    exact this
  have atLevel : ∀ (i : Nat) (li : Level), ls[i]? = some li → ∃ w1 : World, w1.WF ∧ w1.cls.length = i + 2 ∧
      w1.chain (ls.drop (i + 1)) = some w ∧
      (∀ p, li.proc = some p → (w1.view (i + 1)).proc = some p) ∧
      (∀ p, li.prot = some p → (w1.view (i + 1)).prot = some p) := by
    intro i li hi
    obtain ⟨w1, hw1, hw2⟩ := tailOf i li hi
    have hlt : i < ls.length := (List.getElem?_eq_some_iff.mp hi).1
    obtain ⟨g1, g2, _, g4, _⟩ := chain_spec (ls.take (i + 1)) World.base base_wf (by decide) w1 hw1
    have hv := g4 (i + 1) (by simp; omega)
    have htk : (ls.take (i + 1)).take (i + 1) = ls.take i ++ [li] := by
      rw [List.take_take, Nat.min_self, List.take_succ, hi]
      rfl
    rw [hb, htk] at hv
    have hlast : ∀ (v : View) (a : List Level), specView v (a ++ [li]) =
        ⟨li.proc.or (specView v a).proc, li.prot.or (specView v a).prot,
          (specView v a).res ++ li.reqs, (specView v a).tags ++ li.tags⟩ := by
      intro v a
      induction a generalizing v with
      | nil => rfl
      | cons x a iha => simp only [List.cons_append, specView, iha]
    rw [hlast] at hv
    have hidx : 1 - 1 + (i + 1) = i + 1 := by omega
    rw [hidx] at hv
    refine ⟨w1, g1, by rw [g2, hb]; simp; omega, hw2, ?_, ?_⟩
    · intro p hp; rw [hv]; simp [hp]
    · intro p hp; rw [hv]; simp [hp]
  refine ⟨?_, ?_, ?_⟩
  · intro i hi
    have := h4 i hi
    rw [hb, Nat.sub_self, Nat.zero_add] at this
    rw [this]
    have hl := specView_lists (World.base.view 0) (ls.take i)
    rw [hl.1, hl.2]
    exact ⟨by simp [World.view, World.listOf, World.attr, World.base],
      by simp [World.view, World.listOf, World.attr, World.base]⟩
  · intro i j li lj hij hi hj
    rcases Nat.eq_or_lt_of_le hij with rfl | hlt
    · rw [hi] at hj
      cases hj
      exact ⟨fun p q hp hq => by rw [hp] at hq; exact Option.some.inj hq,
        fun p q hp hq => by rw [hp] at hq; exact Option.some.inj hq⟩
    · obtain ⟨w1, g1, g2, g3, g4, g5⟩ := atLevel i li hi
      obtain ⟨_, _, _, _, k5, k6, _, _⟩ := chain_spec _ w1 g1 (by omega) w g3
      have hidx : w1.cls.length - 1 = i + 1 := by omega
      rw [hidx] at k5 k6
      have hmem : lj ∈ ls.drop (i + 1) := by
        have hj' := List.getElem?_eq_some_iff.mp hj
        obtain ⟨hjl, hje⟩ := hj'
        have : (ls.drop (i + 1))[j - (i + 1)]? = some lj := by
          rw [List.getElem?_drop]
          have : i + 1 + (j - (i + 1)) = j := by omega
          rw [this, hj]
        exact List.mem_of_getElem? this
      exact ⟨fun p q hp hq => (k5 p (g4 p hp) lj hmem q hq).symm,
        fun p q hp hq => (k6 p (g5 p hp) lj hmem q hq).symm⟩
  · intro i j li hij hjl hi
    obtain ⟨w1, g1, g2, g3, g4, g5⟩ := atLevel i li hi
    have hsplit : ∃ w2, w1.chain ((ls.drop (i + 1)).take (j - i)) = some w2 ∧
        w2.chain ((ls.drop (i + 1)).drop (j - i)) = some w := by
      have key : ∀ (a b : List Level) (w0 : World), w0.chain (a ++ b) = some w →
          ∃ w1, w0.chain a = some w1 ∧ w1.chain b = some w := by
        intro a
        induction a with
        | nil => intro b w0 hh; exact ⟨w0, rfl, hh⟩
        | cons x a iha =>
          intro b w0 hh
          simp only [List.cons_append, World.chain] at hh ⊢
          cases hx : w0.addLevel (w0.cls.length - 1) x with
          | none => rw [hx] at hh; simp at hh
          | some w2 =>
            rw [hx, Option.bind_some] at hh
            exact iha b w2 hh
      exact key _ _ w1 (by rw [List.take_append_drop]; exact g3)
    obtain ⟨w2, s1, s2⟩ := hsplit
    obtain ⟨m1, m2, _, _, _, _, m7, m8⟩ := chain_spec _ w1 g1 (by omega) w2 s1
    have hidx : w1.cls.length - 1 = i + 1 := by omega
    have hln : ((ls.drop (i + 1)).take (j - i)).length = j - i := by
      simp; omega
    rw [hidx, hln] at m7 m8
    have hj1 : i + 1 + (j - i) = j + 1 := by omega
    rw [hj1] at m7 m8
    obtain ⟨_, _, n3, _⟩ := chain_spec _ w2 m1 (by omega) w s2
    rw [n3 (j + 1) (by omega)]
    exact ⟨fun p hp => m7 p (g4 p hp), fun p hp => m8 p (g5 p hp)⟩

/-- The chain theorem speaks about real chains: three levels, the last repeating the process. -/
example :
    (World.base.chain [⟨some 7, none, [1], [10]⟩, ⟨none, some 8, [], [11, 12]⟩, ⟨some 7, none, [2], []⟩]).map
      (fun w => ((w.view 3).proc, (w.view 3).prot, (w.view 3).res, (w.view 3).tags, (w.view 1).tags)) =
      some (some 7, some 8, [1, 2], [10, 11, 12], [10]) ∧
    World.base.chain [⟨some 7, none, [1], [10]⟩, ⟨some 9, none, [], []⟩] = none := by decide

/-- **Finding.** With two base classes only the first one along the MRO counts: tags and resources
of the other are lost, and a second process declaration goes unnoticed.  Classes: 1 and 2 are
decorated subclasses of the base, 3 inherits from both. -/
theorem C65_multiple_inheritance_drops :
    let w : World := ⟨[{ mro := [], res := some 0, tags := some 1 },
      { mro := [0], proc := some 7, tags := some 2 }, { mro := [0], proc := some 9, tags := some 3 },
      { mro := [1, 2, 0] }], [[], [], [10], [11]]⟩
    ((w.tag 3 [12]).view 3).tags = [10, 12] ∧ (w.view 3).proc = some 7 := by decide

/-! ### C66 -/

/-- The command printed something: SLURM counts as available. -/
def Cmd.works : Cmd → Bool
  | .out _ => true
  | _ => false

theorem splitLines_ne (s : List Char) : splitLines s ≠ [] := by
  cases s with
  | nil => simp [splitLines]
  | cons c cs =>
    simp only [splitLines]
    split
    · simp
    · split <;> simp

theorem enable_ok (sinfo : Cmd) (e : Env) :
    slurmEnable sinfo e = if sinfo.works then .ok { e with slurm := some ['1'], noslurm := none }
      else slurmEnable sinfo e := by
  cases sinfo with
  | out s =>
    simp only [Cmd.works, if_true, slurmEnable, isAvailable, tryRun]
    have : (splitLines s).isEmpty = false := by
      cases h : splitLines s with
      | nil => exact absurd h (splitLines_ne s)
      | cons a b => rfl
    rw [this]
    rfl
  | subprocessError => rfl
  | otherError => rfl

/-- Specification: the last call that switches; `enable` switches only if SLURM is available. -/
def lastSwitch : Option Bool → List SOp → Option Bool
  | cur, [] => cur
  | cur, .enable c :: ops => lastSwitch (if c.works then some true else cur) ops
  | _, .disable :: ops => lastSwitch (some false) ops
  | cur, _ :: ops => lastSwitch cur ops

/-- The two switch variables as the specification wants them. -/
def switchVars (e0 : Env) : Option Bool → Option (List Char) × Option (List Char)
  | none => (e0.slurm, e0.noslurm)
  | some true => (some ['1'], none)
  | some false => (none, some ['1'])

theorem board_keeps (s l : Cmd) (b p : Option (List Char)) (e e' : Env)
    (h : slurmSetBoard s l b p e = .ok e') : e'.slurm = e.slurm ∧ e'.noslurm = e.noslurm ∧
      e'.partition = e.partition := by
  unfold slurmSetBoard at h
  split at h
  · cases h; exact ⟨rfl, rfl, rfl⟩
  · split at h
    · cases h
    · split at h
      · cases h
      · split at h
        · cases h
        · split at h
          · cases h
          · cases h; exact ⟨rfl, rfl, rfl⟩

theorem partition_keeps (s l : Cmd) (p : Option (List Char)) (e e' : Env)
    (h : slurmSetPartition s l p e = .ok e') : e'.slurm = e.slurm ∧ e'.noslurm = e.noslurm ∧
      e'.board = e.board := by
  unfold slurmSetPartition at h
  split at h
  · cases h; exact ⟨rfl, rfl, rfl⟩
  · split at h
    · cases h
    · split at h
      · cases h
      · split at h
        · cases h
        · cases h; exact ⟨rfl, rfl, rfl⟩

/-- After every sequence of calls the environment is that of the last effective switch; the two
variables are never both changed to "set". -/
theorem C66_switches (e0 : Env) (ops : List SOp) : ∀ (cur : Option Bool) (e : Env),
    (e.slurm, e.noslurm) = switchVars e0 cur →
    ((ops.foldl SOp.step e).slurm, (ops.foldl SOp.step e).noslurm) =
      switchVars e0 (lastSwitch cur ops) := by
  induction ops with
  | nil => intro cur e h; exact h
  | cons op ops ih =>
    intro cur e h
    rw [List.foldl_cons]
    cases op with
    | enable c =>
      simp only [lastSwitch]
      apply ih
      simp only [SOp.step, SOp.apply]
      rw [enable_ok]
      cases c with
      | out s => simp [Cmd.works, switchVars]
      | subprocessError => simpa [Cmd.works, slurmEnable, isAvailable, tryRun] using h
      | otherError => simpa [Cmd.works, slurmEnable, isAvailable, tryRun] using h
    | disable =>
      simp only [lastSwitch]
      apply ih
      simp [SOp.step, SOp.apply, slurmDisable, switchVars]
    | setBoard s l b p =>
      simp only [lastSwitch]
      apply ih
      simp only [SOp.step, SOp.apply]
      cases hh : slurmSetBoard s l b p e with
      | error x => exact h
      | ok e' =>
        obtain ⟨h1, h2, _⟩ := board_keeps s l b p e e' hh
        simp only [h1, h2]
        exact h
    | setPartition s l p =>
      simp only [lastSwitch]
      apply ih
      simp only [SOp.step, SOp.apply]
      cases hh : slurmSetPartition s l p e with
      | error x => exact h
      | ok e' =>
        obtain ⟨h1, h2, _⟩ := partition_keeps s l p e e' hh
        simp only [h1, h2]
        exact h

/-- After a sequence with at least one effective switch exactly one of the variables is set. -/
theorem C66_exclusive (e0 : Env) (ops : List SOp) (b : Bool) (h : lastSwitch none ops = some b) :
    ((ops.foldl SOp.step e0).slurm.isSome = b) ∧ ((ops.foldl SOp.step e0).noslurm.isSome = !b) := by
  have := C66_switches e0 ops none e0 rfl
  rw [h] at this
  cases b
  · simp only [switchVars, Prod.mk.injEq] at this
    simp [this.1, this.2]
  · simp only [switchVars, Prod.mk.injEq] at this
    simp [this.1, this.2]

example : lastSwitch none [.disable, .enable (.out "x".toList), .enable .subprocessError] = some true := by
  decide

/-- A line of the listing that shows board/partition `n` in a state without "down". -/
def ShownUp (parse : List Char → Except SErr Info) (listing : Cmd) (n : List Char) : Prop :=
  ∃ text line i, listing = .out text ∧ line ∈ (splitLines text).tail ∧ parse line = .ok i ∧
    i.name = n ∧ hasSub "down".toList i.state = false

theorem mapE_mem (parse : List Char → Except SErr Info) : ∀ (ls : List (List Char)) (is : List Info),
    mapE parse ls = .ok is → ∀ i ∈ is, ∃ l ∈ ls, parse l = .ok i := by
  intro ls
  induction ls with
  | nil => intro is h i hi; simp [mapE] at h; subst h; simp at hi
  | cons l ls ih =>
    intro is h i hi
    unfold mapE at h
    split at h
    · cases h
    · rename_i j hj
      split at h
      · cases h
      · rename_i js hjs
        cases h
        rcases List.mem_cons.mp hi with rfl | hi
        · exact ⟨l, by simp, hj⟩
        · obtain ⟨l', hl', he⟩ := ih js hjs i hi
          exact ⟨l', by simp [hl'], he⟩

theorem getInfos_shown (parse : List Char → Except SErr Info) (sinfo listing : Cmd) (is : List Info)
    (i : Info) (n : List Char) (h : getInfos parse sinfo listing = .ok is)
    (hf : findInfo n is = some i) (hs : hasSub "down".toList i.state = false) :
    ShownUp parse listing n := by
  have hi : i ∈ is ∧ i.name = n := by
    unfold findInfo at hf
    refine ⟨List.mem_of_find?_eq_some hf, ?_⟩
    have := List.find?_some hf
    simpa using this
  unfold getInfos at h
  split at h
  · cases h
  · cases h; simp at hi
  · split at h
    · cases h
    · cases h
    · rename_i hd lines hr
      cases listing with
      | out text =>
        simp only [tryRun, Except.ok.injEq] at hr
        obtain ⟨l, hl, hp⟩ := mapE_mem parse lines is h i hi.1
        exact ⟨text, l, i, rfl, by rw [hr]; exact hl, hp, hi.2, hs⟩
      | subprocessError => simp [tryRun] at hr
      | otherError => simp [tryRun] at hr

/-- **C66, selection**: in every history from an environment without a board (partition), a board
(partition) that is set was shown as existing and not down by the listing of the call that set it. -/
theorem C66_selection_available (ops : List SOp) : ∀ (e : Env),
    (∀ n, (ops.foldl SOp.step e).board = some n → e.board = some n ∨
      ∃ s l p, SOp.setBoard s l (some n) p ∈ ops ∧ ShownUp parseBoard l n) ∧
    (∀ n, (ops.foldl SOp.step e).partition = some n → e.partition = some n ∨
      ∃ s l, SOp.setPartition s l (some n) ∈ ops ∧ ShownUp parsePartition l n) := by
  induction ops with
  | nil => intro e; exact ⟨fun n h => Or.inl h, fun n h => Or.inl h⟩
  | cons op ops ih =>
    intro e
    have hb : ∀ n, (op.step e).board = some n → e.board = some n ∨
        ∃ s l p, op = SOp.setBoard s l (some n) p ∧ ShownUp parseBoard l n := by
      intro n h
      cases op with
      | enable c =>
        left
        simp only [SOp.step, SOp.apply] at h
        rw [enable_ok] at h
        cases c with
        | out s => simpa [Cmd.works] using h
        | subprocessError => simpa [Cmd.works, slurmEnable, isAvailable, tryRun] using h
        | otherError => simpa [Cmd.works, slurmEnable, isAvailable, tryRun] using h
      | disable => left; exact h
      | setPartition s l p =>
        left
        simp only [SOp.step, SOp.apply] at h
        cases hh : slurmSetPartition s l p e with
        | error x => rw [hh] at h; exact h
        | ok e' => rw [hh] at h; rw [← (partition_keeps s l p e e' hh).2.2]; exact h
      | setBoard s l b p =>
        simp only [SOp.step, SOp.apply] at h
        cases hh : slurmSetBoard s l b p e with
        | error x => rw [hh] at h; exact Or.inl h
        | ok e' =>
          rw [hh] at h
          simp only at h
          unfold slurmSetBoard at hh
          split at hh
          · cases hh; simp at h
          · rename_i m
            split at hh
            · cases hh
            · rename_i is his
              split at hh
              · cases hh
              · rename_i i hi
                split at hh
                · cases hh
                · rename_i hdown
                  split at hh
                  · cases hh
                  · cases hh
                    simp only [Option.some.injEq] at h
                    subst h
                    right
                    exact ⟨s, l, p, rfl, getInfos_shown _ s l is i m his hi (by simpa using hdown)⟩
    have hp : ∀ n, (op.step e).partition = some n → e.partition = some n ∨
        ∃ s l, op = SOp.setPartition s l (some n) ∧ ShownUp parsePartition l n := by
      intro n h
      cases op with
      | enable c =>
        left
        simp only [SOp.step, SOp.apply] at h
        rw [enable_ok] at h
        cases c with
        | out s => simpa [Cmd.works] using h
        | subprocessError => simpa [Cmd.works, slurmEnable, isAvailable, tryRun] using h
        | otherError => simpa [Cmd.works, slurmEnable, isAvailable, tryRun] using h
      | disable => left; exact h
      | setBoard s l b p =>
        left
        simp only [SOp.step, SOp.apply] at h
        cases hh : slurmSetBoard s l b p e with
        | error x => rw [hh] at h; exact h
        | ok e' => rw [hh] at h; rw [← (board_keeps s l b p e e' hh).2.2]; exact h
      | setPartition s l p =>
        simp only [SOp.step, SOp.apply] at h
        cases hh : slurmSetPartition s l p e with
        | error x => rw [hh] at h; exact Or.inl h
        | ok e' =>
          rw [hh] at h
          simp only at h
          unfold slurmSetPartition at hh
          split at hh
          · cases hh; simp at h
          · rename_i m
            split at hh
            · cases hh
            · rename_i is his
              split at hh
              · cases hh
              · rename_i i hi
                split at hh
                · cases hh
                · rename_i hdown
                  cases hh
                  simp only [Option.some.injEq] at h
                  subst h
                  right
                  exact ⟨s, l, rfl, getInfos_shown _ s l is i m his hi (by simpa using hdown)⟩
    rw [List.foldl_cons]
    obtain ⟨ih1, ih2⟩ := ih (op.step e)
    constructor
    · intro n h
      rcases ih1 n h with h1 | ⟨s, l, p, hm, hs⟩
      · rcases hb n h1 with h2 | ⟨s, l, p, rfl, hs⟩
        · exact Or.inl h2
        · exact Or.inr ⟨s, l, p, by simp, hs⟩
      · exact Or.inr ⟨s, l, p, by simp [hm], hs⟩
    · intro n h
      rcases ih2 n h with h1 | ⟨s, l, hm, hs⟩
      · rcases hp n h1 with h2 | ⟨s, l, rfl, hs⟩
        · exact Or.inl h2
        · exact Or.inr ⟨s, l, by simp, hs⟩
      · exact Or.inr ⟨s, l, by simp [hm], hs⟩

/-- A board is really selected from a listing without a final newline. -/
example :
    let l : Cmd := .out "NODELIST NODES PARTITION STATE\nncl-1 1 kp idle\nncl-2 1 kp down*".toList
    (SOp.step {} (.setBoard (.out "s".toList) l (some "ncl-1".toList) none)).board = some "ncl-1".toList ∧
    (SOp.step {} (.setBoard (.out "s".toList) l (some "ncl-2".toList) none)).board = none := by
  decide +kernel

theorem splitLines_newline (s : List Char) : ∃ ls, splitLines (s ++ ['\n']) = ls ++ [[]] ∧ ls ≠ [] := by
  induction s with
  | nil => exact ⟨[[]], by simp [splitLines], by simp⟩
  | cons c cs ih =>
    obtain ⟨ls, h1, h2⟩ := ih
    simp only [List.cons_append, splitLines]
    rw [h1]
    split
    · exact ⟨[] :: ls, rfl, by simp⟩
    · cases ls with
      | nil => exact absurd rfl h2
      | cons l ls => exact ⟨(c :: l) :: ls, rfl, by simp⟩

theorem mapE_last_bad (parse : List Char → Except SErr Info) (hp : parse [] = .error .indexError)
    (hi : ∀ l x, parse l = .error x → x = .indexError) (ls : List (List Char)) :
    mapE parse (ls ++ [[]]) = .error .indexError := by
  induction ls with
  | nil => simp [mapE, hp]
  | cons l ls ih =>
    simp only [List.cons_append, mapE, ih]
    cases h : parse l with
    | error x => simp [hi l x h]
    | ok i => rfl

/-- **Finding.** If the listing ends with a newline, as command output does, the empty last line
makes `get_boards` and `get_partitions` raise `IndexError`; no board or partition can be selected. -/
theorem C66_trailing_newline_fails (sinfo text : List Char) :
    getInfos parseBoard (.out sinfo) (.out (text ++ ['\n'])) = .error .indexError ∧
    getInfos parsePartition (.out sinfo) (.out (text ++ ['\n'])) = .error .indexError := by
  obtain ⟨ls, h1, h2⟩ := splitLines_newline text
  have hav : isAvailable (.out sinfo) = .ok true := by
    unfold isAvailable tryRun
    simp only
    cases h : splitLines sinfo with
    | nil => exact absurd h (splitLines_ne sinfo)
    | cons a b => rfl
  obtain ⟨a, ls', rfl⟩ : ∃ a l, ls = a :: l := by
    cases ls with
    | nil => exact absurd rfl h2
    | cons a l => exact ⟨a, l, rfl⟩
  constructor
  · unfold getInfos
    rw [hav]
    simp only [tryRun, h1, List.cons_append]
    apply mapE_last_bad
    · rfl
    · intro l x h
      unfold parseBoard at h
      split at h
      · cases h
      · cases h; rfl
  · unfold getInfos
    rw [hav]
    simp only [tryRun, h1, List.cons_append]
    apply mapE_last_bad
    · rfl
    · intro l x h
      unfold parsePartition at h
      split at h
      · cases h; rfl
      · cases h

/-- **Finding.** Where `sinfo` is not installed, `is_available` does not return False: the
`FileNotFoundError` of the missing program is not a `SubprocessError` and is passed on. -/
theorem C66_missing_program_raises : isAvailable .otherError = .error .otherError := rfl

/-- **C66.** A board is only selected together with a (non-empty) partition if the first entry of the listing with its name
is in that partition; and a listed board that is up is selected when its own partition, or none, is named. -/
theorem C66_board_in_partition (sinfo listing : Cmd) (n p : List Char) (e : Env) (hp : p ≠ []) :
    (∀ e', slurmSetBoard sinfo listing (some n) (some p) e = .ok e' →
      ∃ is pre i post, getInfos parseBoard sinfo listing = .ok is ∧ is = pre ++ i :: post ∧ (∀ x ∈ pre, x.name ≠ n) ∧
        i.name = n ∧ i.partition = p) ∧
    (∀ pre i post, getInfos parseBoard sinfo listing = .ok (pre ++ i :: post) → (∀ x ∈ pre, x.name ≠ n) → i.name = n →
      hasSub "down".toList i.state = false → ∀ q, q = none ∨ q = some i.partition →
      slurmSetBoard sinfo listing (some n) q e = .ok { e with board := some n }) := by
  constructor
  · intro e' h
    unfold slurmSetBoard at h
    simp only at h
    split at h
    · cases h
    · rename_i is hi
      split at h
      · cases h
      · rename_i i hf
        split at h
        · cases h
        · split at h
          · cases h
          · rename_i hc
            simp only [Option.getD_some, ne_eq, hp, not_false_eq_true, Option.some.injEq, true_and, not_not] at hc
            unfold findInfo at hf
            obtain ⟨h1, pre, post, h2, h3⟩ := List.find?_eq_some_iff_append.1 hf
            exact ⟨is, pre, i, post, hi, h2, fun x hx => by simpa using h3 x hx, by simpa using h1, hc.symm⟩
  · intro pre i post hg hpre hi hd q hq
    have hf : findInfo n (pre ++ i :: post) = some i := by
      unfold findInfo
      rw [List.find?_eq_some_iff_append]
      exact ⟨by simpa using hi, pre, post, rfl, fun x hx => by simpa using hpre x hx⟩
    unfold slurmSetBoard
    simp only [hg, hf, hd, Bool.false_eq_true, if_false]
    rcases hq with rfl | rfl <;> simp

end Verif.ProcApi
