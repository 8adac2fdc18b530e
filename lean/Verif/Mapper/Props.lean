import Verif.Mapper.Model
import Mathlib.Data.List.Nodup

/-!
# C33: the core mapping is collision free
-/

namespace Verif.Mapper

structure Inv (lo : Nat) (s : St) : Prop where
  le : lo ≤ s.off
  range : ∀ k g, s.dict k = some g → lo ≤ g ∧ g < s.off
  inj : ∀ k k' g, s.dict k = some g → s.dict k' = some g → k = k'
  dense : ∀ g, lo ≤ g → g < s.off → ∃ k, s.dict k = some g

theorem mapAddr_spec {lo : Nat} {s : St} (h : Inv lo s) (o : Nat) :
    Inv lo (mapAddr s o).1 ∧ (∀ k g, s.dict k = some g → (mapAddr s o).1.dict k = some g) ∧
      (mapAddr s o).1.dict (s.heap o) = some (mapAddr s o).2 ∧
      (∀ x, x ≠ o → (mapAddr s o).1.heap x = s.heap x) ∧ s.off ≤ (mapAddr s o).1.off ∧
      (∀ k g, (mapAddr s o).1.dict k = some g → s.dict k = some g ∨ k = s.heap o) := by
  unfold mapAddr
  cases hd : s.dict (s.heap o) with
  | none =>
    refine ⟨⟨by have := h.le; simp; omega, ?_, ?_, ?_⟩, ?_, by simp, ?_, by simp, ?_⟩
    · intro k g hk
      simp only at hk
      split at hk
      · cases hk; exact ⟨h.le, by simp⟩
      · have := h.range k g hk; exact ⟨this.1, by simp; omega⟩
    · intro k k' g hk hk'
      simp only at hk hk'
      split at hk <;> split at hk'
      · simp_all
      · cases hk; have := h.range _ _ hk'; omega
      · cases hk'; have := h.range _ _ hk; omega
      · exact h.inj k k' g hk hk'
    · intro g h1 h2
      simp only at h2 ⊢
      by_cases hg : g = s.off
      · exact ⟨s.heap o, by simp [hg]⟩
      · obtain ⟨k, hk⟩ := h.dense g h1 (by omega)
        refine ⟨k, ?_⟩
        rw [if_neg]
        · exact hk
        · rintro rfl; rw [hd] at hk; cases hk
    · intro k g hk
      simp only
      rw [if_neg]
      · exact hk
      · rintro rfl; rw [hd] at hk; cases hk
    · intro x hx; simp [Heap.set, hx]
    · intro k g hk
      simp only at hk
      split at hk
      · rename_i hk2; exact Or.inr hk2
      · exact Or.inl hk
  | some g =>
    refine ⟨⟨h.le, h.range, h.inj, h.dense⟩, fun _ _ hk => hk, hd, ?_, Nat.le_refl _, fun _ _ hk => Or.inl hk⟩
    intro x hx; simp [Heap.set, hx]

theorem mapAddrs_spec {lo : Nat} : ∀ {s : St} {os : List Nat}, Inv lo s → os.Nodup →
    Inv lo (mapAddrs s os).1 ∧ (∀ k g, s.dict k = some g → (mapAddrs s os).1.dict k = some g) ∧
      (mapAddrs s os).2.map some = os.map (fun o => (mapAddrs s os).1.dict (s.heap o)) ∧
      (∀ x, x ∉ os → (mapAddrs s os).1.heap x = s.heap x) ∧ s.off ≤ (mapAddrs s os).1.off ∧
      (∀ k g, (mapAddrs s os).1.dict k = some g → s.dict k = some g ∨ ∃ o ∈ os, k = s.heap o)
  | s, [], h, _ => ⟨h, fun _ _ hk => hk, rfl, fun _ _ => rfl, Nat.le_refl _, fun _ _ hk => Or.inl hk⟩
  | s, o :: os, h, hn => by
    obtain ⟨h1, h2, h3, h4, h5, h6⟩ := mapAddr_spec h o
    have hn' := List.nodup_cons.1 hn
    obtain ⟨g1, g2, g3, g4, g5, g6⟩ := mapAddrs_spec (s := (mapAddr s o).1) h1 hn'.2
    refine ⟨g1, fun k g hk => g2 k g (h2 k g hk), ?_, ?_, Nat.le_trans h5 g5, ?_⟩
    · simp only [mapAddrs, List.map_cons]
      rw [g2 _ _ h3, g3]
      congr 1
      apply List.map_congr_left
      intro x hx
      rw [h4 x (by rintro rfl; exact hn'.1 hx)]
    · intro x hx
      simp only [List.mem_cons, not_or] at hx
      simp only [mapAddrs]
      rw [g4 x hx.2, h4 x hx.1]
    · intro k g hk
      rcases g6 k g hk with hk | ⟨x, hx, hk⟩
      · rcases h6 k g hk with hk | hk
        · exact Or.inl hk
        · exact Or.inr ⟨o, by simp, hk⟩
      · rw [h4 x (by rintro rfl; exact hn'.1 hx)] at hk
        exact Or.inr ⟨x, by simp [hx], hk⟩

/-- The global ids given by a builder list (before splitting into chip and core). -/
def gids : St → List Builder → List (List Nat)
  | _, [] => []
  | s, b :: bs => (mapAddrs s b.addrs).2 :: gids (mapBuilder s b).1 bs

theorem mapBuilders_gids (n : Nat) : ∀ (s : St) (bs : List Builder), (∀ b ∈ bs, b.numCores = n) →
    (mapBuilders s bs).2 = (gids s bs).map (·.map (virt n))
  | _, [], _ => rfl
  | s, b :: bs, h => by
    simp only [mapBuilders, gids, List.map_cons]
    rw [mapBuilders_gids n _ bs (fun b hb => h b (by simp [hb]))]
    simp only [mapBuilder, h b (by simp)]

theorem mapBuilder_clean (s : St) (b : Builder) : Inv (mapBuilder s b).1.off (mapBuilder s b).1 :=
  ⟨Nat.le_refl _, fun _ _ h => by simp [mapBuilder] at h, fun _ _ _ h => by simp [mapBuilder] at h,
    fun g h1 h2 => by omega⟩

theorem gids_spec : ∀ {s : St} {bs : List Builder}, Inv s.off s → (∀ k, s.dict k = none) →
    (bs.flatMap Builder.addrs).Nodup →
    s.off ≤ (mapBuilders s bs).1.off ∧
    (∀ gs ∈ gids s bs, ∀ g ∈ gs, s.off ≤ g ∧ g < (mapBuilders s bs).1.off) ∧
    (∀ g, s.off ≤ g → g < (mapBuilders s bs).1.off → ∃ gs ∈ gids s bs, g ∈ gs) ∧
    (gids s bs).length = bs.length ∧
    ∀ (i j : Nat) (b : Builder) (gs : List Nat), bs[i]? = some b → (gids s bs)[i]? = some gs →
      gs.length = b.addrs.length ∧
      ∀ (b' : Builder) (gs' : List Nat), bs[j]? = some b' → (gids s bs)[j]? = some gs' →
        ∀ (x y : Nat) (o o' : Nat) (g g' : Nat), b.addrs[x]? = some o → b'.addrs[y]? = some o' →
          gs[x]? = some g → gs'[y]? = some g' → (g = g' ↔ i = j ∧ s.heap o = s.heap o')
  | s, [], _, _, _ => ⟨Nat.le_refl _, by simp [gids], fun g h1 h2 => by simp [mapBuilders] at h2; omega, rfl,
      by intro i j b gs hb; simp at hb⟩
  | s, b :: bs, h, hd, hn => by
    rw [List.flatMap_cons, List.nodup_append] at hn
    obtain ⟨h1, h2, h3, h4, h5, h6⟩ := mapAddrs_spec h hn.1
    obtain ⟨i1, i2, i3, i4, i5⟩ := gids_spec (s := (mapBuilder s b).1) (bs := bs) (mapBuilder_clean s b) (fun _ => rfl) hn.2.1
    have hoff : (mapBuilder s b).1.off = (mapAddrs s b.addrs).1.off := rfl
    have hgs : ∀ g ∈ (mapAddrs s b.addrs).2, s.off ≤ g ∧ g < (mapAddrs s b.addrs).1.off := by
      intro g hg
      have : some g ∈ (mapAddrs s b.addrs).2.map some := by simp [hg]
      rw [h3] at this
      obtain ⟨o, _, ho⟩ := List.mem_map.1 this
      exact h1.range _ _ ho
    have hlen : (mapAddrs s b.addrs).2.length = b.addrs.length := by simpa using congrArg List.length h3
    have hheap : ∀ b' ∈ bs, ∀ o ∈ b'.addrs, (mapBuilder s b).1.heap o = s.heap o := by
      intro b' hb' o ho
      apply h4
      intro ho2
      exact hn.2.2 o ho2 o (List.mem_flatMap.2 ⟨b', hb', ho⟩) rfl
    refine ⟨?_, ?_, ?_, ?_, ?_⟩
    · simp only [mapBuilders]; omega
    · intro gs hgs' g hg
      simp only [gids, List.mem_cons] at hgs'
      simp only [mapBuilders]
      rcases hgs' with rfl | hgs'
      · have := hgs g hg; omega
      · have := i2 gs hgs' g hg; omega
    · intro g g1 g2
      simp only [mapBuilders] at g2
      simp only [gids]
      by_cases hg : g < (mapAddrs s b.addrs).1.off
      · obtain ⟨k, hk⟩ := h1.dense g g1 hg
        rcases h6 k g hk with hk2 | ⟨o, ho, rfl⟩
        · rw [hd] at hk2; cases hk2
        · refine ⟨_, List.mem_cons_self, ?_⟩
          have : some g ∈ (mapAddrs s b.addrs).2.map some := by
            rw [h3]; exact List.mem_map.2 ⟨o, ho, hk⟩
          simpa using this
      · obtain ⟨gs, q1, q2⟩ := i3 g (by omega) g2
        exact ⟨gs, by simp [q1], q2⟩
    · simp [gids, i4]
    · have hat : ∀ (x o g : Nat), b.addrs[x]? = some o → (mapAddrs s b.addrs).2[x]? = some g →
          (mapAddrs s b.addrs).1.dict (s.heap o) = some g := by
        intro x o g ho hg
        have := congrArg (·[x]?) h3
        simp only [List.getElem?_map, ho, hg, Option.map_some, Option.some.injEq] at this
        exact this.symm
      intro i j c gs hb hg
      cases i with
      | zero =>
        simp only [gids, List.getElem?_cons_zero, Option.some.injEq] at hb hg
        subst hb; subst hg
        refine ⟨hlen, ?_⟩
        intro b' gs' hb' hg' x y o o' g g' ho ho' hgx hgy
        cases j with
        | zero =>
          simp only [gids, List.getElem?_cons_zero, Option.some.injEq] at hb' hg'
          subst hb'; subst hg'
          have e1 := hat x o g ho hgx
          have e2 := hat y o' g' ho' hgy
          constructor
          · rintro rfl; exact ⟨rfl, h1.inj _ _ _ e1 e2⟩
          · rintro ⟨-, he⟩; rw [he, e2] at e1; exact (Option.some.inj e1).symm
        | succ j =>
          simp only [gids, List.getElem?_cons_succ] at hb' hg'
          have q1 := hgs g (List.mem_of_getElem? hgx)
          have q2 := i2 gs' (List.mem_of_getElem? hg') g' (List.mem_of_getElem? hgy)
          constructor
          · intro; omega
          · rintro ⟨h, -⟩; cases h
      | succ i =>
        simp only [gids, List.getElem?_cons_succ] at hb hg
        obtain ⟨l1, l2⟩ := i5 i (j - 1) c gs hb hg
        refine ⟨l1, ?_⟩
        intro b' gs' hb' hg' x y o o' g g' ho ho' hgx hgy
        cases j with
        | zero =>
          simp only [gids, List.getElem?_cons_zero, Option.some.injEq] at hb' hg'
          subst hb'; subst hg'
          have q1 := hgs g' (List.mem_of_getElem? hgy)
          have q2 := i2 gs (List.mem_of_getElem? hg) g (List.mem_of_getElem? hgx)
          constructor
          · intro; omega
          · rintro ⟨h, -⟩; cases h
        | succ j =>
          simp only [gids, List.getElem?_cons_succ] at hb' hg'
          have := l2 b' gs' hb' hg' x y o o' g g' ho ho' hgx hgy
          rw [hheap c (List.mem_of_getElem? hb) o (List.mem_of_getElem? ho),
            hheap b' (List.mem_of_getElem? hb') o' (List.mem_of_getElem? ho')] at this
          rw [this]
          simp

theorem virt_inj {n : Nat} {g g' : Nat} : virt n g = virt n g' ↔ g = g' := by
  constructor
  · intro h
    simp only [virt, Prod.mk.injEq] at h
    rw [← Nat.div_add_mod g n, h.1, h.2, Nat.div_add_mod]
  · rintro rfl; rfl

/-- The address objects of all builders are distinct objects. -/
def Unshared (bs : List Builder) : Prop := (bs.flatMap Builder.addrs).Nodup

/-- **C33.** All builders for the same chip type: two addresses get the same virtual (chip, core) exactly if they belong to
the same builder and had the same logical core id. -/
theorem C33_collision_free_partial (h : Heap) (bs : List Builder) (n : Nat) (hn : ∀ b ∈ bs, b.numCores = n)
    (hu : Unshared bs) (i j x y : Nat) (b b' : Builder) (o o' : Nat) (ps ps' : List (Nat × Nat)) (p p' : Nat × Nat)
    (hb : bs[i]? = some b) (hb' : bs[j]? = some b') (ho : b.addrs[x]? = some o) (ho' : b'.addrs[y]? = some o')
    (hps : (mapCores h bs)[i]? = some ps) (hps' : (mapCores h bs)[j]? = some ps')
    (hp : ps[x]? = some p) (hp' : ps'[y]? = some p') :
    p = p' ↔ i = j ∧ h o = h o' := by
  have hg := gids_spec (s := init h) (bs := bs) ⟨Nat.le_refl _, by simp [init], by simp [init], by simp [init]⟩
    (fun _ => rfl) hu
  rw [mapCores, mapBuilders_gids n _ _ hn, List.getElem?_map] at hps hps'
  obtain ⟨gs, hgs, rfl⟩ := Option.map_eq_some_iff.1 hps
  obtain ⟨gs', hgs', rfl⟩ := Option.map_eq_some_iff.1 hps'
  rw [List.getElem?_map] at hp hp'
  obtain ⟨g, hgx, rfl⟩ := Option.map_eq_some_iff.1 hp
  obtain ⟨g', hgy, rfl⟩ := Option.map_eq_some_iff.1 hp'
  rw [virt_inj]
  exact (hg.2.2.2.2 i j b gs hb hgs).2 b' gs' hb' hgs' x y o o' g g' ho ho' hgx hgy

/-- **C33.** Every builder gets a virtual address for each of its address objects. -/
theorem C33_complete (h : Heap) : ∀ (bs : List Builder),
    (mapCores h bs).map List.length = bs.map fun b => b.addrs.length := by
  have hl : ∀ (os : List Nat) (s : St), (mapAddrs s os).2.length = os.length := by
    intro os
    induction os with
    | nil => intro s; rfl
    | cons o os ih => intro s; simp [mapAddrs, ih]
  have : ∀ (bs : List Builder) (s : St), (mapBuilders s bs).2.map List.length = bs.map fun b => b.addrs.length := by
    intro bs
    induction bs with
    | nil => intro s; rfl
    | cons b bs ih => intro s; simp [mapBuilders, mapBuilder, ih, hl]
  intro bs; exact this bs _

/-- **C33.** Core numbers are legal for the chip type, and the cores are used densely: every core before a used one is used. -/
theorem C33_legal_and_dense (h : Heap) (bs : List Builder) (n : Nat) (hpos : 0 < n) (hn : ∀ b ∈ bs, b.numCores = n)
    (hu : Unshared bs) : ∃ N, ∀ (chip core : Nat),
      (∃ ps ∈ mapCores h bs, (chip, core) ∈ ps) ↔ core < n ∧ chip * n + core < N := by
  have hg := gids_spec (s := init h) (bs := bs) ⟨Nat.le_refl _, by simp [init], by simp [init], by simp [init]⟩
    (fun _ => rfl) hu
  refine ⟨(mapBuilders (init h) bs).1.off, fun chip core => ?_⟩
  rw [mapCores, mapBuilders_gids n _ _ hn]
  constructor
  · rintro ⟨ps, hps, hmem⟩
    obtain ⟨gs, hgs, rfl⟩ := List.mem_map.1 hps
    obtain ⟨g, hgm, he⟩ := List.mem_map.1 hmem
    have := (hg.2.1 gs hgs g hgm).2
    simp only [virt, Prod.mk.injEq] at he
    obtain ⟨rfl, rfl⟩ := he
    refine ⟨Nat.mod_lt _ hpos, ?_⟩
    rw [Nat.mul_comm, Nat.div_add_mod]; exact this
  · rintro ⟨h1, h2⟩
    obtain ⟨gs, hgs, hgm⟩ := hg.2.2.1 _ (by simp [init]) h2
    refine ⟨gs.map (virt n), List.mem_map.2 ⟨gs, hgs, rfl⟩, List.mem_map.2 ⟨_, hgm, ?_⟩⟩
    simp only [virt, Prod.mk.injEq]
    rw [Nat.mul_comm]
    constructor
    · rw [Nat.mul_add_div hpos, Nat.div_eq_of_lt h1]; rfl
    · rw [Nat.mul_add_mod, Nat.mod_eq_of_lt h1]

/-- Non-vacuous: two builders with two logical cores each, one shared between a resource and a variable. -/
example : Unshared [⟨128, [0, 1, 2]⟩, ⟨128, [3, 4]⟩] ∧
    mapCores (fun o => [5, 7, 5, 5, 6].getD o 0) [⟨128, [0, 1, 2]⟩, ⟨128, [3, 4]⟩] =
      [[(0, 0), (0, 1), (0, 0)], [(0, 2), (0, 3)]] := by
  constructor
  · unfold Unshared; decide
  · rfl

/-- **C33, finding.** Builders for different chip types in one executable: the chip number is computed with the core count
of each builder, and two different global cores meet at the same virtual address. -/
theorem C33_witness_mixed_chip_types :
    virt 120 120 = virt 128 128 ∧ virt 120 120 = (1, 0) := by decide

/-- `C33_witness_mixed_chip_types` as a run: 121 cores on 120-core chips, then 8 more on 128-core chips. -/
theorem C33_witness_mixed_chip_types_run :
    ((mapCores id [⟨120, List.range 121⟩, ⟨128, (List.range 8).map (· + 121)⟩]).map List.getLast?) =
      [some (1, 0), some (1, 0)] := by decide +kernel

/-- **C33, finding.** Logical chips are ignored: the mapper's state and result depend only on the core ids, so two
addresses on different logical chips with the same core id get the same virtual address. `chip` is any assignment of
logical chips to the address objects. -/
theorem C33_witness_logical_chip_ignored (chip : Nat → Nat) (hc : chip 0 ≠ chip 1) :
    ∃ h : Heap, (chip 0, h 0) ≠ (chip 1, h 1) ∧ mapCores h [⟨128, [0, 1]⟩] = [[(0, 0), (0, 0)]] :=
  ⟨fun _ => 3, by simpa using hc, rfl⟩

/-- **C33, finding.** An address object used twice is looked up the second time by its already mapped id: here the same
object gets two different virtual addresses, and the second one collides with another logical core. -/
theorem C33_witness_shared_object :
    mapCores (fun o => [1, 0].getD o 0) [⟨128, [0, 1, 0]⟩] = [[(0, 0), (0, 1), (0, 1)]] := rfl

end Verif.Mapper
