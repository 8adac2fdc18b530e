import Verif.Wiring.Model
import Verif.Compiler.Lemmas
import Verif.Learning.FloatRule

/-!
# Lemmas about the wiring
-/

namespace Verif.Wiring

open Verif.Compiler

/-! ## Port ids -/

theorem takeWhile_digits {l : List Char} (h : ∀ c ∈ l, c ≠ '_') (r : List Char) : (l ++ '_' :: r).takeWhile (· ≠ '_') = l := by
  induction l with
  | nil => simp
  | cons a l ih =>
    have := h a (by simp)
    rw [List.cons_append, List.takeWhile_cons, if_pos (by simpa using this), ih (fun c hc => h c (by simp [hc]))]

theorem natText_no_us (n : Nat) : ∀ c ∈ Learning.natText n, c ≠ '_' := by
  intro c hc h
  have := (Learning.natText_ok n).1.2.1 c hc
  subst h
  exact absurd this (by decide)

/-- Ids of different ports are different. -/
theorem portId_inj {p q : Nat} {m n : String} (h : portId p m = portId q n) : p = q ∧ m = n := by
  unfold portId at h
  have h1 : Learning.natText p = Learning.natText q := by
    have := congrArg (List.takeWhile (· ≠ '_')) h
    rwa [takeWhile_digits (natText_no_us p), takeWhile_digits (natText_no_us q)] at this
  have h2 : p = q := by
    rw [← (Learning.natText_ok p).2, h1, (Learning.natText_ok q).2]
  subst h2
  refine ⟨rfl, ?_⟩
  have h3 := List.append_cancel_left h
  simp only [List.cons.injEq, true_and] at h3
  exact String.toList_inj.1 h3

/-! ## Building -/

/-- Ends that building channel `k` gives to the name `n` of process `p`. -/
def touch (p : Nat) (n : String) (x : CB × Nat) : List End :=
  (if x.1.src.proc = p ∧ x.1.src.name = n then [⟨x.2, true, n⟩] else []) ++ (if x.1.dst.proc = p ∧ x.1.dst.name = n then [⟨x.2, false, n⟩] else [])

def endsAt (s : Builders) (p : Nat) (n : String) : List End := (dictGet n (s p).csp).getD []

def mapAt (s : Builders) (p : Nat) (n : String) : List (List Char × End) := (dictGet n (s p).cmap).getD []

/-- Hand a CSP port to a process. -/
def pushEnd (s : Builders) (p : Nat) (e : End) : Builders := upd s p ⟨dictAppend e.name e (s p).csp, (s p).cmap⟩

def pushMap (s : Builders) (p : Nat) (id : List Char) (e : End) : Builders :=
  upd s p ⟨(s p).csp, dictSet e.name (dictSet id e ((dictGet e.name (s p).cmap).getD [])) (s p).cmap⟩

theorem upd_upd (s : Builders) (p : Nat) (a b : PB) : upd (upd s p a) p b = upd s p b := by
  funext q
  unfold upd
  split <;> rfl

theorem upd_self (s : Builders) (p : Nat) (a : PB) : upd s p a p = a := by simp [upd]

theorem buildOne_some (has : Nat → String → Bool) (k : Nat) (c : CB) (s s' : Builders) :
    buildOne has k c s = some s' ↔ has c.src.proc c.src.name = true ∧ has c.dst.proc c.dst.name = true ∧
      s' = pushMap (pushEnd (pushEnd s c.src.proc ⟨k, true, c.src.name⟩) c.dst.proc ⟨k, false, c.dst.name⟩) c.dst.proc (portId c.src.proc c.src.name)
        ⟨k, false, c.dst.name⟩ := by
  unfold buildOne setCsp pushMap
  rw [show ∀ t : Builders, upd (pushEnd t c.dst.proc ⟨k, false, c.dst.name⟩) c.dst.proc = upd t c.dst.proc from fun t => funext fun b => upd_upd t _ _ b]
  by_cases h1 : has c.src.proc c.src.name = true
  · by_cases h2 : has c.dst.proc c.dst.name = true
    · simp only [h1, h2, if_true, Option.bind_some, Option.map_some, Option.some.injEq, true_and, addMapping]
      unfold pushEnd
      rw [upd_self]
      exact eq_comm
    · simp [h1, h2]
  · simp [h1]

theorem pushEnd_ends (s : Builders) (q : Nat) (e : End) (p : Nat) (n : String) :
    endsAt (pushEnd s q e) p n = endsAt s p n ++ (if q = p ∧ e.name = n then [e] else []) := by
  unfold endsAt pushEnd upd
  by_cases hp : p = q
  · subst hp
    simp only [if_true, dictAppend_get, true_and]
    congr 1
    by_cases hn : n = e.name
    · subst hn; simp
    · have : e.name ≠ n := fun h => hn h.symm
      simp [hn, this]
  · have : q ≠ p := fun h => hp h.symm
    simp [hp, this]

theorem pushMap_ends (s : Builders) (q : Nat) (id : List Char) (e : End) (p : Nat) (n : String) : endsAt (pushMap s q id e) p n = endsAt s p n := by
  unfold endsAt pushMap upd
  split
  · rename_i h; subst h; rfl
  · rfl

theorem pushEnd_map (s : Builders) (q : Nat) (e : End) (p : Nat) (n : String) : mapAt (pushEnd s q e) p n = mapAt s p n := by
  unfold mapAt pushEnd upd
  split
  · rename_i h; subst h; rfl
  · rfl

theorem pushMap_map (s : Builders) (q : Nat) (id : List Char) (e : End) (p : Nat) (n : String) :
    mapAt (pushMap s q id e) p n = if q = p ∧ e.name = n then dictSet id e (mapAt s p n) else mapAt s p n := by
  unfold mapAt pushMap upd
  by_cases hp : p = q
  · subst hp
    simp only [if_true, true_and, dictGet_set]
    by_cases hn : n = e.name
    · subst hn; simp
    · have : e.name ≠ n := fun h => hn h.symm
      simp [hn, this]
  · have : q ≠ p := fun h => hp h.symm
    simp [hp, this]

theorem buildOne_ends (has : Nat → String → Bool) (k : Nat) (c : CB) (s s' : Builders) (h : buildOne has k c s = some s') (p : Nat) (n : String) :
    endsAt s' p n = endsAt s p n ++ touch p n (c, k) := by
  obtain ⟨_, _, rfl⟩ := (buildOne_some has k c s s').1 h
  rw [pushMap_ends, pushEnd_ends, pushEnd_ends, List.append_assoc]
  unfold touch
  congr 2
  · by_cases hc : c.src.proc = p ∧ c.src.name = n
    · rw [if_pos hc, if_pos hc, hc.2]
    · rw [if_neg hc, if_neg hc]
  · by_cases hc : c.dst.proc = p ∧ c.dst.name = n
    · rw [if_pos hc, if_pos hc, hc.2]
    · rw [if_neg hc, if_neg hc]

theorem buildOne_map (has : Nat → String → Bool) (k : Nat) (c : CB) (s s' : Builders) (h : buildOne has k c s = some s') (p : Nat) (n : String) :
    mapAt s' p n = if c.dst.proc = p ∧ c.dst.name = n then dictSet (portId c.src.proc c.src.name) ⟨k, false, n⟩ (mapAt s p n) else mapAt s p n := by
  obtain ⟨_, _, rfl⟩ := (buildOne_some has k c s s').1 h
  rw [pushMap_map, pushEnd_map, pushEnd_map]
  by_cases hc : c.dst.proc = p ∧ c.dst.name = n
  · rw [if_pos hc, if_pos hc, hc.2]
  · rw [if_neg hc, if_neg hc]

theorem buildFrom_ok_iff (has : Nat → String → Bool) : ∀ (k : Nat) (cs : List CB) (s : Builders),
    (∃ s', buildFrom has k cs s = some s') ↔ ∀ c ∈ cs, has c.src.proc c.src.name = true ∧ has c.dst.proc c.dst.name = true
  | k, [], s => by simp [buildFrom]
  | k, c :: cs, s => by
    constructor
    · rintro ⟨s', h⟩
      simp only [buildFrom] at h
      obtain ⟨s1, h1, h2⟩ := Option.bind_eq_some_iff.1 h
      have h3 := (buildFrom_ok_iff has (k + 1) cs s1).1 ⟨s', h2⟩
      obtain ⟨a, b, _⟩ := (buildOne_some has k c s s1).1 h1
      intro x hx
      rcases List.mem_cons.1 hx with e | hx
      · rw [e]; exact ⟨a, b⟩
      · exact h3 x hx
    · intro h
      obtain ⟨a, b⟩ := h c (by simp)
      have h1 := (buildOne_some has k c s _).2 ⟨a, b, rfl⟩
      obtain ⟨s', h2⟩ := (buildFrom_ok_iff has (k + 1) cs _).2 (fun x hx => h x (by simp [hx]))
      exact ⟨s', by simp only [buildFrom]; rw [h1]; exact h2⟩

theorem buildFrom_ends (has : Nat → String → Bool) (p : Nat) (n : String) : ∀ (k : Nat) (cs : List CB) (s s' : Builders), buildFrom has k cs s = some s' →
    endsAt s' p n = endsAt s p n ++ (cs.zipIdx k).flatMap (touch p n)
  | k, [], s, s', h => by
    simp only [buildFrom, Option.some.injEq] at h
    subst h; simp
  | k, c :: cs, s, s', h => by
    simp only [buildFrom] at h
    obtain ⟨s1, h1, h2⟩ := Option.bind_eq_some_iff.1 h
    rw [buildFrom_ends has p n (k + 1) cs s1 s' h2, buildOne_ends has k c s s1 h1]
    simp [List.zipIdx_cons]

theorem dictSet_mem {κ β : Type} [DecidableEq κ] (k : κ) (v : β) (d : List (κ × β)) (hk : k ∉ d.map Prod.fst) : dictSet k v d = d ++ [(k, v)] := by
  induction d with
  | nil => rfl
  | cons x d ih =>
    obtain ⟨a, b⟩ := x
    simp only [List.map_cons, List.mem_cons, not_or] at hk
    have h1 : ¬ a = k := fun h => hk.1 h.symm
    simp [dictSet, h1, ih hk.2]

/-- Entries of the map of CSP ports that channel `k` makes. -/
def mapEntry (p : Nat) (n : String) (x : CB × Nat) : List (List Char × End) :=
  if x.1.dst.proc = p ∧ x.1.dst.name = n then [(portId x.1.src.proc x.1.src.name, ⟨x.2, false, n⟩)] else []

/-- No two builders have the same source and destination names. -/
def Distinct (cs : List CB) : Prop :=
  cs.Pairwise fun a b => ¬ (a.src.proc = b.src.proc ∧ a.src.name = b.src.name ∧ a.dst.proc = b.dst.proc ∧ a.dst.name = b.dst.name)

theorem buildFrom_map (has : Nat → String → Bool) (p : Nat) (n : String) : ∀ (k : Nat) (cs : List CB) (s s' : Builders), buildFrom has k cs s = some s' →
    Distinct cs → (∀ c ∈ cs, c.dst.proc = p ∧ c.dst.name = n → portId c.src.proc c.src.name ∉ (mapAt s p n).map Prod.fst) →
    mapAt s' p n = mapAt s p n ++ (cs.zipIdx k).flatMap (mapEntry p n)
  | k, [], s, s', h, _, _ => by
    simp only [buildFrom, Option.some.injEq] at h
    subst h; simp
  | k, c :: cs, s, s', h, hd, hf => by
    simp only [buildFrom] at h
    obtain ⟨s1, h1, h2⟩ := Option.bind_eq_some_iff.1 h
    have hd' := List.pairwise_cons.1 hd
    have h3 := buildOne_map has k c s s1 h1 p n
    have h4 : mapAt s1 p n = mapAt s p n ++ mapEntry p n (c, k) := by
      rw [h3]
      unfold mapEntry
      by_cases hc : c.dst.proc = p ∧ c.dst.name = n
      · rw [if_pos hc, if_pos hc, dictSet_mem _ _ _ (hf c (by simp) hc)]
      · rw [if_neg hc, if_neg hc, List.append_nil]
    rw [buildFrom_map has p n (k + 1) cs s1 s' h2 hd'.2, h4]
    · simp [List.zipIdx_cons]
    · intro x hx hxd hmem
      rw [h4, List.map_append, List.mem_append] at hmem
      rcases hmem with hm | hm
      · exact hf x (by simp [hx]) hxd hm
      · unfold mapEntry at hm
        split at hm
        · rename_i hc
          simp only [List.map_cons, List.map_nil, List.mem_singleton] at hm
          obtain ⟨e1, e2⟩ := portId_inj hm
          exact hd'.1 x hx ⟨e1.symm, e2.symm, hc.1.trans hxd.1.symm, hc.2.trans hxd.2.symm⟩
        · simp at hm

end Verif.Wiring
