import Verif.PortGraph.Model

namespace Verif.PortGraph

/-- Connection lists are symmetric and duplicate free, and mention existing ports only. -/
structure Inv (g : G) : Prop where
  sym : ∀ p q, q ∈ (g.port p).outs ↔ p ∈ (g.port q).ins
  nodupOut : ∀ p, (g.port p).outs.Nodup
  nodupIn : ∀ p, (g.port p).ins.Nodup
  outLt : ∀ p, ∀ q ∈ (g.port p).outs, p < g.next ∧ q < g.next

theorem Inv.inLt {g} (h : Inv g) {p q : Nat} (hq : q ∈ (g.port p).ins) : p < g.next ∧ q < g.next := by
  have := h.outLt q p ((h.sym q p).2 hq)
  exact ⟨this.2, this.1⟩

theorem Inv.fresh {g} (h : Inv g) {p : Nat} (hp : g.next ≤ p) :
    (g.port p).outs = [] ∧ (g.port p).ins = [] := by
  constructor
  · apply List.eq_nil_iff_forall_not_mem.2
    intro q hq; have := h.outLt p q hq; omega
  · apply List.eq_nil_iff_forall_not_mem.2
    intro q hq; have := h.inLt hq; omega

theorem inv_empty : Inv G.empty := by
  constructor <;> simp [G.empty]

theorem inv_new {g} (h : Inv g) (k s) : Inv (g.new k s) := by
  have hf := h.fresh (Nat.le_refl g.next)
  have ho : ∀ p, ((g.new k s).port p).outs = (g.port p).outs := by
    intro p; simp only [G.new]; split
    · rename_i hp; subst hp; simp [hf.1]
    · rfl
  have hi : ∀ p, ((g.new k s).port p).ins = (g.port p).ins := by
    intro p; simp only [G.new]; split
    · rename_i hp; subst hp; simp [hf.2]
    · rfl
  constructor
  · intro p q; rw [ho, hi]; exact h.sym p q
  · intro p; rw [ho]; exact h.nodupOut p
  · intro p; rw [hi]; exact h.nodupIn p
  · intro p q hq; rw [ho] at hq
    have := h.outLt p q hq
    simp only [G.new]; omega

/-- Same connection lists everywhere. -/
def SameConn (g g' : G) : Prop :=
  ∀ p, (g'.port p).ins = (g.port p).ins ∧ (g'.port p).outs = (g.port p).outs

theorem sameConn_new {g} (h : Inv g) (k s) : SameConn g (g.new k s) := by
  have hf := h.fresh (Nat.le_refl g.next)
  intro p
  simp only [G.new]; split
  · rename_i hp; subst hp; simp [hf.1, hf.2]
  · exact ⟨rfl, rfl⟩

theorem disjoint_iff {a b : List Nat} : disjoint a b = true ↔ ∀ x ∈ a, x ∉ b := by
  simp [disjoint]

theorem loopInputs_ok (self : Nat) (ps : List Nat) (g : G) (hd : ps.Nodup)
    (hn : ∀ p ∈ ps, self ∉ (g.port p).ins) :
    ∃ g', loopInputs g self ps = (g', false) ∧ g'.next = g.next ∧
      ∀ q, g'.port q = if q ∈ ps then { g.port q with ins := (g.port q).ins ++ [self] } else g.port q := by
  induction ps generalizing g with
  | nil => exact ⟨g, rfl, rfl, by simp⟩
  | cons p ps ih =>
    have hp : self ∉ (g.port p).ins := hn p (by simp)
    have hadd : addInputs g p [self] = (g.setIns p ((g.port p).ins ++ [self]), false) := by
      unfold addInputs
      rw [if_pos]
      rw [disjoint_iff]; intro x hx hxs
      simp at hxs; subst hxs; exact hp hx
    have hd' := List.nodup_cons.1 hd
    obtain ⟨g', h1, h2, h3⟩ := ih (g.setIns p ((g.port p).ins ++ [self])) hd'.2 (by
      intro q hq
      have hne : q ≠ p := by rintro rfl; exact hd'.1 hq
      simp only [G.setIns, hne, if_false]
      exact hn q (by simp [hq]))
    refine ⟨g', by simp only [loopInputs, hadd]; exact h1, h2, ?_⟩
    intro q
    rw [h3 q]
    by_cases hqp : q = p
    · subst hqp
      simp [hd'.1, G.setIns]
    · simp [hqp, G.setIns]

theorem loopOutputs_ok (self : Nat) (ps : List Nat) (g : G) (hd : ps.Nodup)
    (hn : ∀ p ∈ ps, self ∉ (g.port p).outs) :
    ∃ g', loopOutputs g self ps = (g', false) ∧ g'.next = g.next ∧
      ∀ q, g'.port q = if q ∈ ps then { g.port q with outs := (g.port q).outs ++ [self] } else g.port q := by
  induction ps generalizing g with
  | nil => exact ⟨g, rfl, rfl, by simp⟩
  | cons p ps ih =>
    have hp : self ∉ (g.port p).outs := hn p (by simp)
    have hadd : addOutputs g p [self] = (g.setOuts p ((g.port p).outs ++ [self]), false) := by
      unfold addOutputs
      rw [if_pos]
      rw [disjoint_iff]; intro x hx hxs
      simp at hxs; subst hxs; exact hp hx
    have hd' := List.nodup_cons.1 hd
    obtain ⟨g', h1, h2, h3⟩ := ih (g.setOuts p ((g.port p).outs ++ [self])) hd'.2 (by
      intro q hq
      have hne : q ≠ p := by rintro rfl; exact hd'.1 hq
      simp only [G.setOuts, hne, if_false]
      exact hn q (by simp [hq]))
    refine ⟨g', by simp only [loopOutputs, hadd]; exact h1, h2, ?_⟩
    intro q
    rw [h3 q]
    by_cases hqp : q = p
    · subst hqp
      simp [hd'.1, G.setOuts]
    · simp [hqp, G.setOuts]

/-- Enough configurations: one for all, or at least one per port. -/
def CfgOk (ports : List Nat) (n : Nat) : Prop := n = 1 ∨ ports.length ≤ n

theorem zipPorts_all {ports n} (h : CfgOk ports n) : zipPorts ports n = ports := by
  unfold zipPorts
  split
  · rfl
  · rename_i hc
    rcases h with h | h
    · subst h
      apply List.take_of_length_le
      simp at hc; exact hc
    · exact List.take_of_length_le h

/-- What `_connect_forward` does on a well-formed graph: nothing and raises, or it completes. -/
theorem connectForward_spec {g} (h : Inv g) {self ports ty n ss st} (hd : ports.Nodup) (hc : CfgOk ports n) :
    connectForward g self ports ty n ss st = (g, true) ∨
    ∃ g', connectForward g self ports ty n ss st = (g', false) ∧ g'.next = g.next ∧
      validate g self ports ty ss st = true ∧
      (∀ q ∈ ports, q ∉ (g.port self).outs) ∧
      (∀ q, (g'.port q).kind = (g.port q).kind ∧ (g'.port q).shape = (g.port q).shape) ∧
      (∀ q, (g'.port q).outs = if q = self then (g.port q).outs ++ ports else (g.port q).outs) ∧
      (∀ q, (g'.port q).ins = if q ∈ ports then (g.port q).ins ++ [self] else (g.port q).ins) := by
  unfold connectForward
  by_cases hv : validate g self ports ty ss st = true
  · rw [if_pos hv]
    unfold addOutputs
    by_cases hdj : disjoint (g.port self).outs ports = true
    · rw [if_pos hdj]
      right
      rw [disjoint_iff] at hdj
      simp only
      rw [zipPorts_all hc]
      obtain ⟨g', h1, h2, h3⟩ := loopInputs_ok self ports (g.setOuts self ((g.port self).outs ++ ports)) hd (by
        intro p hp hin
        have hin' : self ∈ (g.port p).ins := by
          simp only [G.setOuts] at hin
          split at hin <;> simpa using hin
        exact hdj p ((h.sym self p).2 hin') hp)
      refine ⟨g', h1, by rw [h2]; rfl, hv, fun q hq hin => hdj q hin hq, ?_, ?_, ?_⟩
      · intro q; rw [h3 q]; constructor <;> (simp only [G.setOuts]; split <;> split <;> rfl)
      · intro q; rw [h3 q]; simp only [G.setOuts]
        by_cases hs : q = self
        · subst hs; by_cases hq : q ∈ ports <;> simp [hq]
        · by_cases hq : q ∈ ports <;> simp [hq, hs]
      · intro q; rw [h3 q]; simp only [G.setOuts]
        by_cases hs : q = self
        · subst hs; by_cases hq : q ∈ ports <;> simp [hq]
        · by_cases hq : q ∈ ports <;> simp [hq, hs]
    · left; rw [if_neg hdj]
  · left; rw [if_neg hv]

theorem connectBackward_spec {g} (h : Inv g) {self ports ty n ss st} (hd : ports.Nodup) (hc : CfgOk ports n) :
    connectBackward g self ports ty n ss st = (g, true) ∨
    ∃ g', connectBackward g self ports ty n ss st = (g', false) ∧ g'.next = g.next ∧
      validate g self ports ty ss st = true ∧
      (∀ q ∈ ports, q ∉ (g.port self).ins) ∧
      (∀ q, (g'.port q).kind = (g.port q).kind ∧ (g'.port q).shape = (g.port q).shape) ∧
      (∀ q, (g'.port q).ins = if q = self then (g.port q).ins ++ ports else (g.port q).ins) ∧
      (∀ q, (g'.port q).outs = if q ∈ ports then (g.port q).outs ++ [self] else (g.port q).outs) := by
  unfold connectBackward
  by_cases hv : validate g self ports ty ss st = true
  · rw [if_pos hv]
    unfold addInputs
    by_cases hdj : disjoint (g.port self).ins ports = true
    · rw [if_pos hdj]
      right
      rw [disjoint_iff] at hdj
      simp only
      rw [zipPorts_all hc]
      obtain ⟨g', h1, h2, h3⟩ := loopOutputs_ok self ports (g.setIns self ((g.port self).ins ++ ports)) hd (by
        intro p hp hin
        have hin' : self ∈ (g.port p).outs := by
          simp only [G.setIns] at hin
          split at hin <;> simpa using hin
        exact hdj p ((h.sym p self).1 hin') hp)
      refine ⟨g', h1, by rw [h2]; rfl, hv, fun q hq hin => hdj q hin hq, ?_, ?_, ?_⟩
      · intro q; rw [h3 q]; constructor <;> (simp only [G.setIns]; split <;> split <;> rfl)
      · intro q; rw [h3 q]; simp only [G.setIns]
        by_cases hs : q = self
        · subst hs; by_cases hq : q ∈ ports <;> simp [hq]
        · by_cases hq : q ∈ ports <;> simp [hq, hs]
      · intro q; rw [h3 q]; simp only [G.setIns]
        by_cases hs : q = self
        · subst hs; by_cases hq : q ∈ ports <;> simp [hq]
        · by_cases hq : q ∈ ports <;> simp [hq, hs]
    · left; rw [if_neg hdj]
  · left; rw [if_neg hv]

/-- Adding edges `self → ports` keeps the invariant. -/
theorem inv_addFwd {g g'} (h : Inv g) {self ports} (hd : ports.Nodup) (hn : g'.next = g.next)
    (hself : self < g.next) (hports : ∀ p ∈ ports, p < g.next)
    (hnew : ∀ q ∈ ports, q ∉ (g.port self).outs)
    (ho : ∀ q, (g'.port q).outs = if q = self then (g.port q).outs ++ ports else (g.port q).outs)
    (hi : ∀ q, (g'.port q).ins = if q ∈ ports then (g.port q).ins ++ [self] else (g.port q).ins) : Inv g' := by
  constructor
  · intro p q
    rw [ho, hi]
    by_cases h1 : p = self <;> by_cases h2 : q ∈ ports <;> simp [h1, h2, h.sym]
  · intro p
    rw [ho]
    split
    · rename_i hp; subst hp
      rw [List.nodup_append]
      refine ⟨h.nodupOut _, hd, ?_⟩
      rintro a ha b hb rfl
      exact hnew a hb ha
    · exact h.nodupOut p
  · intro q
    rw [hi]
    split
    · rename_i hq
      rw [List.nodup_append]
      refine ⟨h.nodupIn _, by simp, ?_⟩
      intro a ha b hb hab
      simp at hb
      rw [hab, hb] at ha
      exact hnew q hq ((h.sym self q).2 ha)
    · exact h.nodupIn q
  · intro p q hq
    rw [ho] at hq
    rw [hn]
    split at hq
    · rename_i hp; subst hp
      simp only [List.mem_append] at hq
      rcases hq with hq | hq
      · exact h.outLt _ _ hq
      · exact ⟨hself, hports q hq⟩
    · exact h.outLt _ _ hq

theorem inv_addBwd {g g'} (h : Inv g) {self ports} (hd : ports.Nodup) (hn : g'.next = g.next)
    (hself : self < g.next) (hports : ∀ p ∈ ports, p < g.next)
    (hnew : ∀ q ∈ ports, q ∉ (g.port self).ins)
    (hi : ∀ q, (g'.port q).ins = if q = self then (g.port q).ins ++ ports else (g.port q).ins)
    (ho : ∀ q, (g'.port q).outs = if q ∈ ports then (g.port q).outs ++ [self] else (g.port q).outs) : Inv g' := by
  constructor
  · intro p q
    rw [ho, hi]
    by_cases h1 : q = self <;> by_cases h2 : p ∈ ports <;> simp [h1, h2, h.sym]
  · intro q
    rw [ho]
    split
    · rename_i hq
      rw [List.nodup_append]
      refine ⟨h.nodupOut _, by simp, ?_⟩
      intro a ha b hb hab
      simp at hb
      rw [hab, hb] at ha
      exact hnew q hq ((h.sym q self).1 ha)
    · exact h.nodupOut q
  · intro p
    rw [hi]
    split
    · rename_i hp; subst hp
      rw [List.nodup_append]
      refine ⟨h.nodupIn _, hd, ?_⟩
      rintro a ha b hb rfl
      exact hnew a hb ha
    · exact h.nodupIn p
  · intro p q hq
    rw [ho] at hq
    rw [hn]
    split at hq
    · rename_i hp
      simp only [List.mem_append, List.mem_singleton] at hq
      rcases hq with hq | rfl
      · exact h.outLt _ _ hq
      · exact ⟨hports p hp, hself⟩
    · exact h.outLt _ _ hq

/-- Outcome of a call on a well-formed graph, in terms of connections: it raised and changed no connection, or
it added exactly the edges `edges`. -/
structure Outcome (g : G) (r : G × Bool) : Prop where
  inv : Inv r.1
  atomic : r.2 = true → SameConn g r.1
  grows : g.next ≤ r.1.next

theorem outcome_refl {g} (h : Inv g) (b : Bool) : Outcome g (g, b) :=
  ⟨h, fun _ _ => ⟨rfl, rfl⟩, Nat.le_refl _⟩

theorem outcome_forward {g} (h : Inv g) {self ports ty n ss st} (hd : ports.Nodup) (hc : CfgOk ports n)
    (hself : self < g.next) (hports : ∀ p ∈ ports, p < g.next) :
    Outcome g (connectForward g self ports ty n ss st) := by
  rcases connectForward_spec (ty := ty) (ss := ss) (st := st) (self := self) h hd hc with hr | ⟨g', hr, hn, _, hnew, _, ho, hi⟩
  · rw [hr]; exact outcome_refl h _
  · rw [hr]
    exact ⟨inv_addFwd h hd hn hself hports hnew ho hi, by simp, by simp [hn]⟩

theorem outcome_backward {g} (h : Inv g) {self ports ty n ss st} (hd : ports.Nodup) (hc : CfgOk ports n)
    (hself : self < g.next) (hports : ∀ p ∈ ports, p < g.next) :
    Outcome g (connectBackward g self ports ty n ss st) := by
  rcases connectBackward_spec (ty := ty) (ss := ss) (st := st) (self := self) h hd hc with hr | ⟨g', hr, hn, _, hnew, _, hi, ho⟩
  · rw [hr]; exact outcome_refl h _
  · rw [hr]
    exact ⟨inv_addBwd h hd hn hself hports hnew hi ho, by simp, by simp [hn]⟩

theorem outcome_new {g r} (h : Inv g) (k s) (hr : Outcome (g.new k s) r) : Outcome g r := by
  refine ⟨hr.inv, ?_, ?_⟩
  · intro hb p
    have h1 := hr.atomic hb p
    have h2 := sameConn_new h k s p
    exact ⟨h1.1.trans h2.1, h1.2.trans h2.2⟩
  · have := hr.grows
    simp only [G.new] at this
    omega

/-- Calls covered: no port listed twice in one call and enough configurations. -/
def Op.Good : Op → Prop
  | .connect _ a n => a.toList.Nodup ∧ CfgOk a.toList n
  | .connectFrom _ a n => a.toList.Nodup ∧ CfgOk a.toList n
  | .connectVar _ _ n => 1 ≤ n
  | .concatWith s a _ => (s :: a.toList).Nodup
  | _ => True

theorem outcome_connect {g} (h : Inv g) {lim self arg n} (hd : arg.toList.Nodup) (hc : CfgOk arg.toList n)
    (hself : self < g.next) (hports : ∀ p ∈ arg.toList, p < g.next) : Outcome g (connect g lim self arg n) := by
  unfold connect
  split <;> (try split) <;> (try split) <;>
    first
    | exact outcome_refl h _
    | exact outcome_forward h hd hc hself hports

theorem outcome_connectFrom {g} (h : Inv g) {lim self arg n} (hd : arg.toList.Nodup) (hc : CfgOk arg.toList n)
    (hself : self < g.next) (hports : ∀ p ∈ arg.toList, p < g.next) :
    Outcome g (connectFrom g lim self arg n) := by
  unfold connectFrom
  split <;> (try split) <;> (try split) <;>
    first
    | exact outcome_refl h _
    | exact outcome_backward h hd hc hself hports

theorem outcome_step {g} (h : Inv g) (lim : Nat) (op : Op) (hg : op.Good) : Outcome g (step lim g op) := by
  unfold step
  split
  · rename_i hm
    simp only [List.all_eq_true, decide_eq_true_eq] at hm
    cases op with
    | new k s =>
      simp only
      split
      · exact outcome_refl h _
      · exact outcome_new h k s (outcome_refl (inv_new h k s) _)
    | connect s a n =>
      exact outcome_connect h hg.1 hg.2 (hm s (by simp [Op.mentions])) (fun p hp => hm p (by simp [Op.mentions, hp]))
    | connectFrom s a n =>
      exact outcome_connectFrom h hg.1 hg.2 (hm s (by simp [Op.mentions]))
        (fun p hp => hm p (by simp [Op.mentions, hp]))
    | connectVar s v n =>
      simp only [connectVar]
      have hs := hm s (by simp [Op.mentions])
      split
      · exact outcome_refl h _
      · split
        · exact outcome_refl h _
        · apply outcome_new h .ivar v
          apply outcome_connect (inv_new h _ _)
          · simp [Arg.toList]
          · right; simpa [Arg.toList] using (show 1 ≤ n from hg)
          · simp only [G.new]; omega
          · intro p hp; simp [Arg.toList] at hp; subst hp; simp [G.new]
    | reshape s x =>
      simp only [reshape]
      have hs := hm s (by simp [Op.mentions])
      split
      · exact outcome_refl h _
      · rename_i vp _
        apply outcome_new h .reshape vp.shape
        apply outcome_forward (inv_new h _ _)
        · simp
        · left; rfl
        · simp only [G.new]; omega
        · intro p hp; simp at hp; subst hp; simp [G.new]
    | transpose s x =>
      simp only [transpose]
      have hs := hm s (by simp [Op.mentions])
      split
      · exact outcome_refl h _
      · rename_i vp _
        apply outcome_new h .transpose vp.shape
        apply outcome_forward (inv_new h _ _)
        · simp
        · left; rfl
        · simp only [G.new]; omega
        · intro p hp; simp at hp; subst hp; simp [G.new]
    | concatWith s a x =>
      simp only [concatWith]
      split
      · exact outcome_refl h _
      · split
        · rename_i shape _
          apply outcome_new h .concat shape
          apply outcome_backward (inv_new h _ _)
          · exact hg
          · left; rfl
          · simp [G.new]
          · intro p hp
            have := hm p (by simpa [Op.mentions] using hp)
            simp only [G.new]; omega
        · exact outcome_refl h _
  · exact outcome_refl h _

theorem inv_run {g} (h : Inv g) (lim : Nat) (ops : List Op) (hg : ∀ op ∈ ops, op.Good) : Inv (run lim g ops) := by
  induction ops generalizing g with
  | nil => exact h
  | cons op ops ih =>
    exact ih (outcome_step h lim op (hg op (by simp))).inv (fun o ho => hg o (by simp [ho]))

/-! ### Searching for leaf ports -/

theorem foldlM_append {f : Nat → Option (List Nat)} (l : List Nat) (acc r : List Nat)
    (h : l.foldlM (fun acc q => (f q).map (acc ++ ·)) acc = some r) :
    ∀ x, x ∈ r ↔ x ∈ acc ∨ ∃ q ∈ l, ∃ s, f q = some s ∧ x ∈ s := by
  induction l generalizing acc with
  | nil => simp at h; subst h; simp
  | cons q l ih =>
    simp only [List.foldlM_cons] at h
    cases hq : f q with
    | none => simp [hq] at h
    | some s =>
      simp only [hq, Option.map_some, Option.bind_eq_bind, Option.bind_some] at h
      intro x
      rw [ih _ h x]
      simp only [List.mem_append, List.mem_cons]
      constructor
      · rintro ((h1 | h1) | ⟨q', hq', s', h1, h2⟩)
        · exact .inl h1
        · exact .inr ⟨q, .inl rfl, s, hq, h1⟩
        · exact .inr ⟨q', .inr hq', s', h1, h2⟩
      · rintro (h1 | ⟨q', rfl | hq', s', h1, h2⟩)
        · exact .inl (.inl h1)
        · rw [hq] at h1; cases h1; exact .inl (.inr h2)
        · exact .inr ⟨q', hq', s', h1, h2⟩

theorem foldlM_some {f : Nat → Option (List Nat)} (l : List Nat) (acc : List Nat)
    (h : ∀ q ∈ l, ∃ s, f q = some s) :
    ∃ r, l.foldlM (fun acc q => (f q).map (acc ++ ·)) acc = some r := by
  induction l generalizing acc with
  | nil => exact ⟨acc, rfl⟩
  | cons q l ih =>
    obtain ⟨s, hs⟩ := h q (by simp)
    obtain ⟨r, hr⟩ := ih (acc ++ s) (fun q hq => h q (by simp [hq]))
    exact ⟨r, by simp [hs, hr]⟩

theorem foldlM_each {f : Nat → Option (List Nat)} (l : List Nat) (acc r : List Nat)
    (h : l.foldlM (fun acc q => (f q).map (acc ++ ·)) acc = some r) : ∀ q ∈ l, ∃ s, f q = some s := by
  induction l generalizing acc with
  | nil => simp
  | cons q l ih =>
    simp only [List.foldlM_cons] at h
    cases hq : f q with
    | none => simp [hq] at h
    | some s =>
      simp only [hq, Option.map_some, Option.bind_eq_bind, Option.bind_some] at h
      intro x hx
      simp only [List.mem_cons] at hx
      rcases hx with rfl | hx
      · exact ⟨s, hq⟩
      · exact ih _ h x hx

end Verif.PortGraph
