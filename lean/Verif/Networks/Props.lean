import Verif.Networks.Model
import Mathlib.Data.List.Basic

/-
C75: the algebraic syntax `v << A @ x + B @ y + z` connects every summand exactly once.
-/

namespace Verif.Networks

/-- Specification: the networks whose outputs are added. -/
def Ex.summands : Ex → List Nat
  | .net n => [n]
  | .mv a _ => [a]
  | .add l r => l.summands ++ r.summands

/-- Specification: the vectors that feed the matrices. -/
def Ex.feeds : Ex → List Conn
  | .net _ => []
  | .mv a x => [⟨x, a, false⟩]
  | .add l r => l.feeds ++ r.feeds

/-- Specification: a vector feeds a vector through an identity synapse, anything else directly. -/
def link (k : Nat → Kind) (v o : Nat) : Conn :=
  ⟨o, v, match k v, k o with
    | .vec _, .vec _ => true
    | _, _ => false⟩

def Ex.isSum : Ex → Bool
  | .add _ _ => true
  | _ => false

/-- At every `+` at least one side is a single network or product, as in `a + b + c` or
`a + (b + c)`. -/
def Ex.simple : Ex → Bool
  | .add l r => l.simple && r.simple && !(l.isSum && r.isSum)
  | _ => true

/-- `@` is only applied to a matrix and a vector. -/
def Ex.typed (k : Nat → Kind) : Ex → Bool
  | .net _ => true
  | .mv a x => match k a, k x with
    | .mat, .vec _ => true
    | _, _ => false
  | .add l r => l.typed k && r.typed k

/-- The target has the shape that an identity synapse needs. -/
def Target (k : Nat → Kind) (v : Nat) : Prop := k v = .vec true ∨ k v = .mat

theorem shiftNet_ok (k : Nat → Kind) (h : St) (v o : Nat) (hv : Target k v) :
    shiftNet k h v o = some { h with conns := h.conns ++ [link k v o] } := by
  unfold shiftNet link
  rcases hv with hv | hv <;> rw [hv] <;> cases k o <;> rfl

theorem shiftAll_ok (k : Nat → Kind) (v : Nat) (hv : Target k v) (os : List Nat) : ∀ h : St,
    shiftAll k v h os = some { h with conns := h.conns ++ os.map (link k v) } := by
  induction os with
  | nil => intro h; simp [shiftAll]
  | cons o os ih =>
    intro h
    unfold shiftAll
    rw [shiftNet_ok k h v o hv, Option.bind_some, ih]
    simp

/-- What the value of a simple expression denotes. -/
def denotes (h : St) : Val → List Nat → Prop
  | .net n, l => l = [n]
  | .nl p, l => ∃ m, h.heap[p]? = some m ∧ m.Perm l
  | .plain, _ => False

theorem eval_simple (k : Nat → Kind) (e : Ex) (hs : e.simple = true) (ht : e.typed k = true) :
    ∀ h : St, ∃ val h', e.eval k h = some (val, h') ∧ h'.conns = h.conns ++ e.feeds ∧
      denotes h' val e.summands ∧ (e.isSum = false → (∃ n, val = .net n) ∧ h'.heap = h.heap) ∧
      (e.isSum = true → ∃ p, val = .nl p) := by
  induction e with
  | net n => intro h; exact ⟨.net n, h, rfl, by simp [Ex.feeds], rfl, fun _ => ⟨⟨n, rfl⟩, rfl⟩, by simp [Ex.isSum]⟩
  | mv a x =>
    intro h
    refine ⟨.net a, { h with conns := h.conns ++ [⟨x, a, false⟩] }, ?_, rfl, rfl,
      fun _ => ⟨⟨a, rfl⟩, rfl⟩, by simp [Ex.isSum]⟩
    simp only [Ex.typed] at ht
    simp only [Ex.eval, matmul]
    cases hka : k a with
    | vec b => rw [hka] at ht; simp at ht
    | mat =>
      cases hkx : k x with
      | vec b => rfl
      | mat => rw [hka, hkx] at ht; simp at ht
  | add l r ihl ihr =>
    intro h
    simp only [Ex.simple, Bool.and_eq_true, Bool.not_eq_true'] at hs
    simp only [Ex.typed, Bool.and_eq_true] at ht
    obtain ⟨⟨hsl, hsr⟩, hns⟩ := hs
    obtain ⟨vl, h1, el, cl, dl, nl1, sl⟩ := ihl hsl ht.1 h
    obtain ⟨vr, h2, er, cr, dr, nr, sr⟩ := ihr hsr ht.2 h1
    simp only [Ex.eval, el, er, Option.bind_some]
    have hc : h2.conns = h.conns ++ (l.feeds ++ r.feeds) := by rw [cr, cl, List.append_assoc]
    cases hl : l.isSum with
    | false =>
      obtain ⟨⟨a, rfl⟩, -⟩ := nl1 hl
      have dl' : l.summands = [a] := dl
      cases hr : r.isSum with
      | false =>
        obtain ⟨⟨b, rfl⟩, -⟩ := nr hr
        have dr' : r.summands = [b] := dr
        refine ⟨_, _, rfl, hc, ?_, by simp [Ex.isSum], fun _ => ⟨_, rfl⟩⟩
        simp only [denotes, Ex.summands, dl', dr']
        exact ⟨[a, b], by simp, List.Perm.refl _⟩
      | true =>
        obtain ⟨p, rfl⟩ := sr hr
        obtain ⟨m, hm, hp⟩ := dr
        refine ⟨_, _, rfl, hc, ?_, by simp [Ex.isSum], fun _ => ⟨_, rfl⟩⟩
        simp only [denotes, Ex.summands, dl']
        refine ⟨m ++ [a], by simp [hm], ?_⟩
        exact (List.perm_append_comm).trans (List.Perm.append_left [a] hp)
    | true =>
      obtain ⟨p, rfl⟩ := sl hl
      cases hr : r.isSum with
      | true => rw [hl, hr] at hns; simp at hns
      | false =>
        obtain ⟨⟨b, rfl⟩, hh⟩ := nr hr
        have dr' : r.summands = [b] := dr
        obtain ⟨m, hm, hp⟩ := dl
        refine ⟨_, _, rfl, hc, ?_, by simp [Ex.isSum], fun _ => ⟨_, rfl⟩⟩
        simp only [denotes, Ex.summands, dr']
        refine ⟨m ++ [b], by simp [hh, hm], ?_⟩
        exact List.Perm.append_right [b] hp

/-- **C75**: for every expression in which at each `+` one side is a single network or product, the
statement `v << e` makes exactly these connections: every product's vector to its matrix, and every
summand once to `v` (up to order). -/
theorem C75_each_summand_once (k : Nat → Kind) (v : Nat) (hv : Target k v) (e : Ex)
    (hs : e.simple = true) (ht : e.typed k = true) (h : St) :
    ∃ (h' : St) (os : List Nat), assign k v e h = some h' ∧ os.Perm e.summands ∧
      h'.conns = h.conns ++ e.feeds ++ os.map (link k v) := by
  obtain ⟨val, h1, he, hc, hd, hn, hsum⟩ := eval_simple k e hs ht h
  unfold assign
  rw [he, Option.bind_some]
  cases val with
  | net n =>
    refine ⟨_, [n], shiftNet_ok k h1 v n hv, ?_, ?_⟩
    · have : e.summands = [n] := hd
      rw [this]
    · simp [hc]
  | nl p =>
    obtain ⟨m, hm, hp⟩ := hd
    refine ⟨{ h1 with conns := h1.conns ++ m.map (link k v) }, m, ?_, hp, ?_⟩
    · simp only [shift, hm, Option.getD_some]
      exact shiftAll_ok k v hv m h1
    · simp [hc]
  | plain => exact absurd hd (by simp [denotes])

/-- `v << A @ x + B @ y + z` with vectors 0, 1, 2 and matrices 10, 11; target 5. -/
example :
    let k : Nat → Kind := fun n => if n < 10 then .vec true else .mat
    (assign k 5 (.add (.add (.mv 10 0) (.mv 11 1)) (.net 2)) ⟨[], []⟩).map (·.conns) =
      some [⟨0, 10, false⟩, ⟨1, 11, false⟩, ⟨10, 5, false⟩, ⟨11, 5, false⟩, ⟨2, 5, true⟩] := by
  decide

/-- Evaluation of an expression with a sum of two sums fails or gives a plain list. -/
theorem eval_not_simple (k : Nat → Kind) (e : Ex) (hs : e.simple = false) (h : St) :
    e.eval k h = none ∨ ∃ h', e.eval k h = some (.plain, h') := by
  have sumVal : ∀ (e : Ex) (h : St) (v : Val) (h' : St), e.isSum = true → e.eval k h = some (v, h') →
      ∀ n, v ≠ .net n := by
    intro e h v h' hsum he n hv
    cases e with
    | net n => simp [Ex.isSum] at hsum
    | mv a x => simp [Ex.isSum] at hsum
    | add l r =>
      simp only [Ex.eval] at he
      cases hl : l.eval k h with
      | none => rw [hl] at he; simp at he
      | some p =>
        rw [hl, Option.bind_some] at he
        cases hr : r.eval k p.2 with
        | none => rw [hr] at he; simp at he
        | some q =>
          rw [hr, Option.bind_some] at he
          subst hv
          unfold plus at he
          split at he <;> simp at he
  induction e generalizing h with
  | net n => simp [Ex.simple] at hs
  | mv a x => simp [Ex.simple] at hs
  | add l r ihl ihr =>
    simp only [Ex.eval]
    cases hl : l.eval k h with
    | none => left; rfl
    | some p =>
      rw [Option.bind_some]
      cases hr : r.eval k p.2 with
      | none => left; rfl
      | some q =>
        rw [Option.bind_some]
        by_cases hls : l.simple = true
        · by_cases hrs : r.simple = true
          · have hb : l.isSum = true ∧ r.isSum = true := by
              simp only [Ex.simple, hls, hrs, Bool.true_and, Bool.not_eq_false',
                Bool.and_eq_true] at hs
              exact hs
            have h1 := sumVal l h p.1 p.2 hb.1 hl
            have h2 := sumVal r p.2 q.1 q.2 hb.2 hr
            right
            refine ⟨q.2, ?_⟩
            cases hp : p.1 with
            | net n => exact absurd hp (h1 n)
            | nl a => cases hq : q.1 with
              | net n => exact absurd hq (h2 n)
              | nl b => rfl
              | plain => rfl
            | plain => cases hq : q.1 with
              | net n => exact absurd hq (h2 n)
              | nl b => rfl
              | plain => rfl
          · rcases ihr (by simpa using hrs) p.2 with h3 | ⟨h', h3⟩
            · rw [h3] at hr; cases hr
            · rw [h3] at hr; cases hr
              cases p.1 with
              | net n => left; rfl
              | nl a => right; exact ⟨_, rfl⟩
              | plain => right; exact ⟨_, rfl⟩
        · rcases ihl (by simpa using hls) h with h3 | ⟨h', h3⟩
          · rw [h3] at hl; cases hl
          · rw [h3] at hl; cases hl
            cases q.1 with
            | net n => left; rfl
            | nl a => right; exact ⟨_, rfl⟩
            | plain => right; exact ⟨_, rfl⟩

/-- **C75, the other expressions**: a sum of two sums, as in `(a + b) + (c + d)`, is never connected
in a wrong way; the statement raises. -/
theorem C75_sum_of_sums_raises (k : Nat → Kind) (v : Nat) (e : Ex) (hs : e.simple = false) (h : St) :
    assign k v e h = none := by
  unfold assign
  rcases eval_not_simple k e hs h with h1 | ⟨h', h1⟩
  · rw [h1]; rfl
  · rw [h1]; rfl

/-- **Finding.** A sum kept in a variable is changed by adding to it: after `s = a + b` and
`v << s + c`, the statement `w << s` connects `c` as well. -/
theorem C75_sum_is_mutated (a b c v w : Nat) :
    let k : Nat → Kind := fun _ => .vec true
    ∃ s h1 h2 h3, plus ⟨[], []⟩ (.net a) (.net b) = some (s, h1) ∧
      (plus h1 s (.net c)).bind (fun p => shift k p.2 v p.1) = some h2 ∧
      shift k h2 w s = some h3 ∧ ⟨c, w, true⟩ ∈ h3.conns := by
  refine ⟨.nl 0, _, _, _, rfl, rfl, rfl, ?_⟩
  simp

/-- **Finding.** A vector without a `shape` attribute (`LIFVec`) cannot be fed by another vector. -/
theorem C75_no_shape_raises (k : Nat → Kind) (v o : Nat) (h : St) (b : Bool) (hv : k v = .vec false)
    (ho : k o = .vec b) : assign k v (.net o) h = none := by
  simp [assign, Ex.eval, shift, shiftNet, hv, ho]

end Verif.Networks
