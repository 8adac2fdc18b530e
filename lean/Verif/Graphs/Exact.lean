import Verif.Graphs.Props

/-!
# C26: exactly when `is_dag` answers yes; C27: exactly what a collapse loses
-/

namespace Verif.Graphs

variable {α : Type} [DecidableEq α]

/-- A node that pruning leaves keeps its successors; a node that was pruned had a successor. -/
theorem residual_closed (g : Dg α) (hw : g.WF) :
    (∀ a b, a ∈ g.residual.nodes → g.Edge a b → b ∈ g.residual.nodes ∧ g.residual.Edge a b) ∧
    (∀ a ∈ g.nodes, a ∉ g.residual.nodes → ∃ b, g.Edge a b) := by
  induction hn : g.nodes.length using Nat.strongRecOn generalizing g with
  | _ k ih =>
    rw [Dg.residual]
    split
    · exact ⟨fun a b _ hab => ⟨(hw _ hab).2, hab⟩, fun a ha hna => absurd ha hna⟩
    · rename_i h
      have hlt := remove_lt g h
      obtain ⟨h1, h2⟩ := ih _ (by omega) (g.remove g.leaves) (remove_wf hw _) rfl
      have hsub := (residual_spec (g.remove g.leaves) (remove_wf hw _)).2.2.2.1
      refine ⟨?_, ?_⟩
      · intro a b ha hab
        have ha' := hsub a ha
        have hal : a ∉ g.leaves := by
          simp only [Dg.remove, List.mem_filter, decide_eq_true_eq] at ha'; exact ha'.2
        have hbl : b ∉ g.leaves := by
          intro hb
          have := (List.mem_filter.1 hb).2
          simp only [Dg.pureIn, Bool.and_eq_true, Bool.not_eq_true'] at this
          have h6 := hasIn_iff.2 ⟨a, hab⟩
          rw [h6] at this
          exact absurd this.2 (by simp)
        exact h1 a b ha (remove_edge.2 ⟨hab, hal, hbl⟩)
      · intro a ha hna
        by_cases hal : a ∈ g.leaves
        · have := (List.mem_filter.1 hal).2
          simp only [Dg.pureIn, Bool.and_eq_true, Bool.not_eq_true'] at this
          exact hasOut_iff.1 this.1
        · obtain ⟨b, hb⟩ := h2 a (by simp only [Dg.remove, List.mem_filter, decide_eq_true_eq]; exact ⟨ha, hal⟩) hna
          exact ⟨b, (remove_edge.1 hb).1⟩

/-- Specification: all data end in one process that feeds only itself, and there is no other cycle. -/
structure EndsInSelfLoop (g : Dg α) (n : α) : Prop where
  loop : g.Edge n n
  only : ∀ m, g.Edge n m → m = n
  sink : ∀ m ∈ g.nodes, m ≠ n → ∃ k, g.Edge m k
  acyclic : ∀ m, m ≠ n → ¬ Relation.TransGen g.Edge m m

/-- **C26, exact.** For every graph, `is_dag` says yes if and only if the graph has no directed cycle, or its only cycle is a self loop of a
process that feeds nothing else and in which all paths end. So the answer is wrong exactly for the graphs of the second kind. -/
theorem C26_is_dag_exact (g : Dg α) (hw : g.WF) (hnd : g.nodes.Nodup) :
    g.isDag = true ↔ g.Acyclic ∨ ∃ n, EndsInSelfLoop g n := by
  obtain ⟨h1, h2, h3, h4, h5⟩ := residual_spec g hw
  obtain ⟨h6, h7⟩ := residual_closed g hw
  constructor
  · intro h
    by_cases hac : g.Acyclic
    · exact Or.inl hac
    · right
      -- the residual has an edge, so it has exactly one node
      have hac' : ¬ g.residual.Acyclic := fun x => hac (h3.1 x)
      have hex : ∃ x, Relation.TransGen g.residual.Edge x x := by
        by_contra hc
        exact hac' fun n hn => hc ⟨n, hn⟩
      obtain ⟨x, hx⟩ := hex
      obtain ⟨y, hxy⟩ := trans_head_edge hx
      have hxn := (h1 _ hxy).1
      simp only [Dg.isDag] at h
      have hlen : ¬ g.residual.nodes.length > 1 := by
        intro hlen
        rw [if_pos hlen] at h
        have := List.all_eq_true.1 h x hxn
        simp only [Dg.isolated, Bool.and_eq_true, Bool.not_eq_true'] at this
        rw [hasOut_iff.2 ⟨y, hxy⟩] at this
        exact absurd this.1 (by simp)
      have hone : ∀ z ∈ g.residual.nodes, z = x := by
        intro z hz
        match hl : g.residual.nodes with
        | [] => rw [hl] at hz; simp at hz
        | [w] =>
          rw [hl] at hz hxn
          simp only [List.mem_singleton] at hz hxn
          rw [hz, hxn]
        | _ :: _ :: _ => rw [hl] at hlen; simp at hlen
      have hyx := hone y (h1 _ hxy).2
      rw [hyx] at hxy
      refine ⟨x, h5 _ _ hxy, ?_, ?_, ?_⟩
      · intro m hm
        exact hone m (h6 x m hxn hm).1
      · intro m hm hne
        refine h7 m hm fun hmr => hne (hone m hmr)
      · intro m hne hcyc
        -- a cycle not through x would survive the pruning
        have key : ∀ a b, Relation.TransGen g.Edge a b → a ∈ g.residual.nodes → b ∈ g.residual.nodes := by
          intro a b hab ha
          induction hab with
          | single h => exact (h6 _ _ ha h).1
          | tail _ h ih => exact (h6 _ _ ih h).1
        -- all nodes of the cycle stay
        have hstay : ∀ k (g' : Dg α), g'.nodes.length = k → g'.WF → Relation.TransGen g'.Edge m m → m ∈ g'.residual.nodes := by
          intro k
          induction k using Nat.strongRecOn with
          | _ k ih =>
            intro g' hk hw' hc
            rw [Dg.residual]
            split
            · obtain ⟨z, hz⟩ := trans_last hc
              exact (hw' _ hz).2
            · rename_i hne
              refine ih _ (by have := remove_lt g' hne; omega) (g'.remove g'.leaves) rfl (remove_wf hw' _) ?_
              have hl : ∀ n ∈ g'.leaves, ∀ q, ¬ g'.Edge q n := by
                intro n hn q hq
                have := (List.mem_filter.1 hn).2
                simp only [Dg.pureIn, Bool.and_eq_true, Bool.not_eq_true'] at this
                rw [hasIn_iff.2 ⟨q, hq⟩] at this
                exact absurd this.2 (by simp)
              have hml : m ∉ g'.leaves := by
                intro hm
                obtain ⟨z, hz⟩ := trans_last hc
                exact hl m hm z hz
              have lift : ∀ a b, Relation.TransGen g'.Edge a b → a ∉ g'.leaves → Relation.TransGen (g'.remove g'.leaves).Edge a b := by
                intro a b hab ha
                induction hab with
                | single h1 => exact .single (remove_edge.2 ⟨h1, ha, fun hb => hl _ hb _ h1⟩)
                | tail h1 h2 ih =>
                  rename_i b c
                  obtain ⟨z, hz⟩ := trans_last h1
                  exact .tail ih (remove_edge.2 ⟨h2, fun hb => hl _ hb _ hz, fun hc => hl _ hc _ h2⟩)
              exact lift m m hc hml
        exact hne (hone m (hstay _ g rfl hw hcyc))
  · rintro (hac | ⟨n, hn⟩)
    · cases hd : g.isDag with
      | true => rfl
      | false => exact absurd hac (C26_false_means_cycle g hw hd)
    · -- the residual has no node besides n
      have hone : ∀ m ∈ g.residual.nodes, m = n := by
        intro m hm
        by_contra hne
        -- every node of the residual other than n has a predecessor other than n
        have hpred : ∀ z ∈ g.residual.nodes, z ≠ n → ∃ w, w ∈ g.residual.nodes ∧ w ≠ n ∧ g.residual.Edge w z := by
          intro z hz hzn
          obtain ⟨k, hk⟩ := hn.sink z (h4 z hz) hzn
          have hout := hasOut_iff.2 ⟨k, (h6 z k hz hk).2⟩
          have hin : g.residual.hasIn z = true := by
            cases hx : g.residual.hasIn z with
            | true => rfl
            | false =>
              have : z ∈ g.residual.leaves := List.mem_filter.2 ⟨hz, by simp [Dg.pureIn, hout, hx]⟩
              rw [h2] at this; simp at this
          obtain ⟨w, hw'⟩ := hasIn_iff.1 hin
          refine ⟨w, (h1 _ hw').1, ?_, hw'⟩
          rintro rfl
          exact hzn (hn.only z (h5 _ _ hw'))
        obtain ⟨w, hwm, hwn, hwe⟩ := hpred m hm hne
        have hl : (g.residual.remove [n]).leaves = [] := by
          rw [List.eq_nil_iff_forall_not_mem]
          intro z hz
          obtain ⟨hz1, hz2⟩ := List.mem_filter.1 hz
          simp only [Dg.remove, List.mem_filter, List.mem_singleton, decide_eq_true_eq] at hz1
          obtain ⟨u, hu1, hu2, hu3⟩ := hpred z hz1.1 hz1.2
          have : (g.residual.remove [n]).hasIn z = true :=
            hasIn_iff.2 ⟨u, remove_edge.2 ⟨hu3, by simpa using hu2, by simpa using hz1.2⟩⟩
          simp only [Dg.pureIn, Bool.and_eq_true, Bool.not_eq_true'] at hz2
          rw [this] at hz2
          exact absurd hz2.2 (by simp)
        obtain ⟨c, hc⟩ := cycle_of_no_leaves (remove_wf h1 [n]) hl
          (remove_edge.2 ⟨hwe, by simpa using hwn, by simpa using hne⟩ : (g.residual.remove [n]).Edge w m)
        obtain ⟨z, hz⟩ := trans_last hc
        have hcn : c ≠ n := by simpa using (remove_edge.1 hz).2.2
        exact hn.acyclic c hcn (trans_mono (fun a b hab => h5 a b (remove_edge.1 hab).1) hc)
      have hndr : g.residual.nodes.Nodup := by
        have : ∀ k (g' : Dg α), g'.nodes.length = k → g'.nodes.Nodup → g'.residual.nodes.Nodup := by
          intro k
          induction k using Nat.strongRecOn with
          | _ k ih =>
            intro g' hk hnd'
            rw [Dg.residual]
            split
            · exact hnd'
            · rename_i hne
              exact ih _ (by have := remove_lt g' hne; omega) (g'.remove g'.leaves) rfl (hnd'.filter _)
        exact this _ g rfl hnd
      have hlen : ¬ g.residual.nodes.length > 1 := by
        intro hlen
        match hl : g.residual.nodes with
        | [] => rw [hl] at hlen; simp at hlen
        | [_] => rw [hl] at hlen; simp at hlen
        | a :: b :: l =>
          rw [hl] at hndr hone
          have ha := hone a (by simp)
          have hb := hone b (by simp)
          rw [ha, hb] at hndr
          simp at hndr
      simp only [Dg.isDag, if_neg hlen]

/-- A chain into a process with a self loop: a cycle, but `is_dag` says yes. -/
theorem C26_example_wrong_answer : EndsInSelfLoop (⟨[0, 1, 2], [(0, 1), (1, 2), (0, 2), (2, 2)]⟩ : Dg Nat) 2 ∧
    ¬ (⟨[0, 1, 2], [(0, 1), (1, 2), (0, 2), (2, 2)]⟩ : Dg Nat).Acyclic := by
  have hE : ∀ a b, (⟨[0, 1, 2], [(0, 1), (1, 2), (0, 2), (2, 2)]⟩ : Dg Nat).Edge a b ↔
      (a = 0 ∧ b = 1) ∨ (a = 1 ∧ b = 2) ∨ (a = 0 ∧ b = 2) ∨ (a = 2 ∧ b = 2) := by
    intro a b; simp [Dg.Edge]
  have hlt : ∀ a b, Relation.TransGen (⟨[0, 1, 2], [(0, 1), (1, 2), (0, 2), (2, 2)]⟩ : Dg Nat).Edge a b → a < b ∨ a = 2 := by
    intro a b h
    induction h with
    | single h => rcases (hE _ _).1 h with h | h | h | h <;> omega
    | tail _ h ih => rcases (hE _ _).1 h with h | h | h | h <;> omega
  refine ⟨⟨(hE _ _).2 (by omega), ?_, ?_, ?_⟩, ?_⟩
  · intro m hm; rcases (hE _ _).1 hm with h | h | h | h <;> omega
  · intro m hm hne
    simp only [List.mem_cons, List.not_mem_nil, or_false] at hm
    rcases hm with rfl | rfl | rfl
    · exact ⟨1, (hE _ _).2 (by omega)⟩
    · exact ⟨2, (hE _ _).2 (by omega)⟩
    · exact absurd rfl hne
  · intro m hne h
    rcases hlt m m h with h | h <;> omega
  · intro h
    exact h 2 (.single ((hE _ _).2 (by omega)))

/-! ## C27 -/

/-- **C27, exact.** Any graph, in one piece or not, and any set of its nodes to collapse: a process is in the result exactly if it was in a
node outside the set, or the set has a connection to a node outside, or is the whole graph, or is one node without connections. In the
remaining case, a set that is a separate piece of the network, all its processes are lost. -/
theorem C27_collapse_loses_exactly (g : Dg Node) (hwf : g.WF) (k : Nat) (hfresh : ∀ n ∈ g.nodes, n.obj < k) (sub : List Node)
    (hs : sub.Nodup) (hsub : ∀ n ∈ sub, n ∈ g.nodes) :
    ∃ g', collapse g k sub = some g' ∧ ∀ p, (∃ A ∈ g'.nodes, p ∈ A.procs) ↔
      (∃ A ∈ g.nodes, p ∈ A.procs ∧ A ∉ sub) ∨
      ((∃ A ∈ sub, p ∈ A.procs) ∧ ((∃ n ∈ sub, ∃ m, m ∉ sub ∧ (g.Edge n m ∨ g.Edge m n)) ∨ (∀ n ∈ g.nodes, n ∈ sub) ∨
        (sub.length = 1 ∧ ∀ n ∈ sub, ∀ m, ¬ g.Edge n m ∧ ¬ g.Edge m n))) := by
  have hiso : (sub.all g.isolated) = true ↔ ∀ n ∈ sub, ∀ m, ¬ g.Edge n m ∧ ¬ g.Edge m n := by
    rw [List.all_eq_true]
    refine forall_congr' fun n => imp_congr_right fun _ => ?_
    simp only [Dg.isolated, Bool.and_eq_true, Bool.not_eq_true', ← Bool.not_eq_true, hasOut_iff, hasIn_iff, not_exists]
    exact ⟨fun h m => ⟨h.1 m, h.2 m⟩, fun h => ⟨fun m => (h m).1, fun m => (h m).2⟩⟩
  have split : ∀ p, (∃ A ∈ g.nodes, p ∈ A.procs) ↔ (∃ A ∈ g.nodes, p ∈ A.procs ∧ A ∉ sub) ∨ ∃ A ∈ sub, p ∈ A.procs := by
    intro p
    constructor
    · rintro ⟨A, hA, hp⟩
      by_cases h : A ∈ sub
      · exact Or.inr ⟨A, h, hp⟩
      · exact Or.inl ⟨A, hA, hp, h⟩
    · rintro (⟨A, hA, hp, _⟩ | ⟨A, hA, hp⟩)
      · exact ⟨A, hA, hp⟩
      · exact ⟨A, hsub A hA, hp⟩
  rw [collapse, if_neg (by simpa using hsub)]
  by_cases h1 : sub = []
  · rw [if_pos h1]
    refine ⟨g, rfl, fun p => ?_⟩
    rw [split]
    simp [h1]
  rw [if_neg h1]
  by_cases h2 : sub.length = 1 ∧ sub.all g.isolated
  · rw [if_pos h2]
    refine ⟨g, rfl, fun p => ?_⟩
    rw [split]
    constructor
    · rintro (h | h)
      · exact Or.inl h
      · exact Or.inr ⟨h, Or.inr (Or.inr ⟨h2.1, hiso.1 h2.2⟩)⟩
    · rintro (h | ⟨h, _⟩)
      · exact Or.inl h
      · exact Or.inr h
  rw [if_neg h2]
  by_cases h3 : ∀ n ∈ g.nodes, n ∈ sub
  · rw [if_pos h3]
    refine ⟨_, rfl, fun p => ?_⟩
    have : (∃ A ∈ [groupNode k g.nodes], p ∈ A.procs) ↔ ∃ A ∈ g.nodes, p ∈ A.procs := by
      simp [groupNode]
    simp only
    rw [this, split]
    constructor
    · rintro (h | h)
      · exact Or.inl h
      · exact Or.inr ⟨h, Or.inr (Or.inl h3)⟩
    · rintro (h | ⟨h, _⟩)
      · exact Or.inl h
      · exact Or.inr h
  rw [if_neg h3]
  have hnn : groupNode k sub ∉ g.nodes := fun hm => by
    have := hfresh _ hm; simp [groupNode] at this
  have hns : groupNode k sub ∉ sub := fun hm => hnn (hsub _ hm)
  refine ⟨_, rfl, fun p => ?_⟩
  classical
  rw [fold_nodes hns sub g (fun _ h => h) hs hwf]
  have hgp : p ∈ (groupNode k sub).procs ↔ ∃ A ∈ sub, p ∈ A.procs := by simp [groupNode]
  by_cases hc : ∃ n ∈ sub, Crosses g sub n
  · rw [if_pos ⟨hc, hnn⟩]
    simp only [List.mem_append, List.mem_filter, List.mem_singleton, decide_eq_true_eq]
    constructor
    · rintro ⟨A, ⟨hA, hAs⟩ | rfl, hp⟩
      · exact Or.inl ⟨A, hA, hp, hAs⟩
      · exact Or.inr ⟨hgp.1 hp, Or.inl hc⟩
    · rintro (⟨A, hA, hp, hAs⟩ | ⟨h, _⟩)
      · exact ⟨A, Or.inl ⟨hA, hAs⟩, hp⟩
      · exact ⟨_, Or.inr rfl, hgp.2 h⟩
  · rw [if_neg (fun h => hc h.1)]
    simp only [List.append_nil, List.mem_filter, decide_eq_true_eq]
    constructor
    · rintro ⟨A, ⟨hA, hAs⟩, hp⟩
      exact Or.inl ⟨A, hA, hp, hAs⟩
    · rintro (⟨A, hA, hp, hAs⟩ | ⟨_, h | h | h⟩)
      · exact ⟨A, ⟨hA, hAs⟩, hp⟩
      · exact absurd h hc
      · exact absurd h h3
      · exact absurd ⟨h.1, hiso.2 h.2⟩ h2

/-- Each case of `C27_collapse_loses_exactly`: kept with a connection, lost as a separate piece, kept as a single node. -/
example : ((collapse (ofProcs ⟨[0, 1, 2, 3, 4], [(0, 1), (1, 2), (3, 3)]⟩) 9 [⟨0, [0]⟩, ⟨1, [1]⟩]).map fun g => g.nodes.map Node.procs)
      = some [[2], [3], [4], [0, 1]] ∧
    ((collapse (ofProcs ⟨[0, 1, 2, 3, 4], [(0, 1), (1, 2), (3, 3)]⟩) 9 [⟨3, [3]⟩]).map fun g => g.nodes.map Node.procs)
      = some [[0], [1], [2], [4]] ∧
    ((collapse (ofProcs ⟨[0, 1, 2, 3, 4], [(0, 1), (1, 2), (3, 3)]⟩) 9 [⟨4, [4]⟩]).map fun g => g.nodes.map Node.procs)
      = some [[0], [1], [2], [3], [4]] := by decide

end Verif.Graphs
