import Verif.Channel.Model

/-! Inductive invariant of the channel; helper lemmas for `Verif.Channel.Props`. -/

namespace Verif.Channel

def bw : SPc → Nat | .writing _ _ => 1 | _ => 0
def bp : SPc → Nat | .probing => 1 | _ => 0
def bh : APc → Nat | .holding => 1 | _ => 0
def ba : APc → Nat | .wait => 0 | _ => 1
def bq : QPc → Nat | .taken => 1 | _ => 0
def bc : RPc → Nat | .copying _ => 1 | _ => 0

structure Inv (size len : Nat) (s : St) : Prop where
  cap : s.sem + bw s.sPc + bp s.sPc + bh s.aPc + ba s.aPc + s.ack + s.req + bq s.qPc + s.queue
          + bc s.rPc = size
  flight : s.sendsDone = s.recvd.length + s.req + bq s.qPc + s.queue + bc s.rPc
  sentLen : s.sent.length = s.sendsDone + bw s.sPc
  sIdx : s.sIdx = s.sendsDone % size
  rIdx : s.rIdx = s.recvd.length % size
  lens : ∀ d ∈ s.sent, d.length = len
  content : ∀ i d, s.recvd.length ≤ i → i < s.sendsDone → s.sent[i]? = some d →
              ∀ j, j < len → s.mem (i % size) j = d.getD j 0
  wr : ∀ d k, s.sPc = .writing d k → s.sent[s.sendsDone]? = some d ∧ k ≤ len ∧
              ∀ j, j < k → s.mem s.sIdx j = d.getD j 0
  cp : ∀ acc, s.rPc = .copying acc → ∃ d, s.sent[s.recvd.length]? = some d ∧ acc = d.take acc.length
  pk : ∀ acc, s.rPc = .peeking acc → 0 < s.queue ∧
         ∃ d, s.sent[s.recvd.length]? = some d ∧ acc = d.take acc.length
  pre : s.recvd = s.sent.take s.recvd.length
  peeks : ∀ p ∈ s.peeks, s.sent[p.1]? = some p.2
  ok : s.crashed = false

theorem mod_ne {size a b : Nat} (h : a < b) (h2 : b - a < size) : a % size ≠ b % size := by
  intro e
  have := Nat.sub_mod_eq_zero_of_mod_eq e.symm
  rw [Nat.mod_eq_of_lt h2] at this
  omega

theorem take_snoc {α} (l : List α) (n : Nat) (x : α) (h : l[n]? = some x) :
    l.take n ++ [x] = l.take (n + 1) := by
  rw [List.take_add_one, h]; rfl

theorem getD_of_getElem? {d : List Int} {k : Nat} (h : k < d.length) :
    d[k]? = some (d.getD k 0) := by
  simp [List.getD, h]

theorem inv_init (size len : Nat) : Inv size len (init size) := by
  constructor <;> simp [init, bw, bp, bh, ba, bq, bc]

theorem inv_step {size len : Nat} (hs : 0 < size) {s : St} (h : Inv size len s) (l : Lbl) :
    Inv size len (step size len s l) := by
  obtain ⟨cap, flight, sentLen, sIdx, rIdx, lens, content, wr, cp, pk, pre, peeks, ok⟩ := h
  have hrs : s.recvd.length ≤ s.sent.length := by
    rw [pre]; simp; omega
  cases l with
  | sendStart d =>
    simp only [step]
    split
    · rename_i hp
      split
      · constructor <;> assumption
      split
      · rename_i hl hsem
        rw [hp] at cap sentLen
        simp only [bw, bp] at cap sentLen
        simp only [Nat.add_zero] at sentLen
        constructor <;> simp only [bw, bp] <;> try assumption
        · omega
        · simp; omega
        · intro d' hd'
          rcases List.mem_append.1 hd' with h1 | h1
          · exact lens _ h1
          · simp at h1; subst h1; omega
        · intro i d' h1 h2 h3
          rw [List.getElem?_append_left (by omega)] at h3
          exact content i d' h1 h2 h3
        · intro d' k hk
          injection hk with hd hk
          subst hd hk
          refine ⟨?_, Nat.zero_le _, by omega⟩
          rw [← sentLen]; simp
        · intro acc hacc
          obtain ⟨d', h1, h2⟩ := cp acc hacc
          refine ⟨d', ?_, h2⟩
          have : s.recvd.length < s.sent.length := by
            rw [List.getElem?_eq_some_iff] at h1; exact h1.1
          rw [List.getElem?_append_left this]; exact h1
        · intro acc hacc
          obtain ⟨hq, d', h1, h2⟩ := pk acc hacc
          refine ⟨hq, d', ?_, h2⟩
          have : s.recvd.length < s.sent.length := by
            rw [List.getElem?_eq_some_iff] at h1; exact h1.1
          rw [List.getElem?_append_left this]; exact h1
        · rw [List.take_append_of_le_length hrs]; exact pre
        · intro p hp'
          have := peeks p hp'
          have h2 : p.1 < s.sent.length := by
            rw [List.getElem?_eq_some_iff] at this; exact this.1
          rw [List.getElem?_append_left h2]; exact this
      · constructor <;> assumption
    · constructor <;> assumption
  | sendWrite =>
    simp only [step]
    split
    · rename_i d k hp
      split
      · rename_i hk
        obtain ⟨w1, w2, w3⟩ := wr d k hp
        rw [hp] at cap sentLen
        simp only [bw, bp] at cap sentLen
        constructor <;> simp only [bw, bp] <;> try assumption
        · intro i d' h1 h2 h3 j hj
          have hne : i % size ≠ s.sIdx := by rw [sIdx]; exact mod_ne h2 (by omega)
          simp only [setMem, hne, false_and, if_false]
          exact content i d' h1 h2 h3 j hj
        · intro d' k' hk'
          injection hk' with hd hk'
          subst hd hk'
          refine ⟨w1, hk, ?_⟩
          intro j hj
          simp only [setMem]
          by_cases hjk : j = k
          · subst hjk; simp
          · simp only [hjk, and_false, if_false]; exact w3 j (by omega)
      · constructor <;> assumption
    · constructor <;> assumption
  | sendDone =>
    simp only [step]
    split
    · rename_i d k hp
      split
      · rename_i hk
        obtain ⟨w1, w2, w3⟩ := wr d k hp
        rw [hp] at cap sentLen
        simp only [bw, bp] at cap sentLen
        constructor <;> simp only [bw, bp] <;> try assumption
        case cap => omega
        case flight => omega
        case sIdx => rw [sIdx]; simp [Nat.add_mod]
        case content =>
          intro i d' h1 h2 h3 j hj
          by_cases hi : i = s.sendsDone
          · subst hi
            rw [← sIdx]
            rw [w1] at h3; injection h3 with h3; subst h3
            exact w3 j (by omega)
          · exact content i d' h1 (by omega) h3 j hj
        case wr => intro d' k' hk'; cases hk'
      · constructor <;> assumption
    · constructor <;> assumption
  | sProbe =>
    simp only [step]
    split
    · rename_i hp
      rw [hp] at cap sentLen
      simp only [bw, bp] at cap sentLen
      split
      · constructor <;> simp only [bw, bp] <;> try assumption
        · omega
        · intro d k hk; cases hk
      · constructor <;> simp only [hp, bw, bp] <;> try assumption
        · intro d k hk; cases hk
    · constructor <;> assumption
  | sProbeRel =>
    simp only [step]
    split
    · rename_i hp
      rw [hp] at cap sentLen
      simp only [bw, bp] at cap sentLen
      split
      · constructor <;> simp only [bw, bp] <;> try assumption
        · intro d k hk; cases hk
      · omega
    · constructor <;> assumption
  | ackTake =>
    simp only [step]
    split
    · rename_i hp
      obtain ⟨hp, ha⟩ := hp
      rw [hp] at cap
      simp only [bh, ba] at cap
      constructor <;> simp only [bh, ba] <;> try assumption
      omega
    · constructor <;> assumption
  | ackProbe =>
    simp only [step]
    split
    · rename_i hp
      rw [hp] at cap
      simp only [bh, ba] at cap
      split
      · constructor <;> simp only [bh, ba] <;> try assumption
        omega
      · constructor <;> simp only [bh, ba] <;> try assumption
    · constructor <;> assumption
  | ackProbeRel =>
    simp only [step]
    split
    · rename_i hp
      rw [hp] at cap
      simp only [bh, ba] at cap
      split
      · constructor <;> simp only [bh, ba] <;> try assumption
        omega
      · omega
    · constructor <;> assumption
  | ackRelease =>
    simp only [step]
    split
    · rename_i hp
      rw [hp] at cap
      simp only [bh, ba] at cap
      split
      · constructor <;> simp only [bh, ba] <;> try assumption
        omega
      · omega
    · constructor <;> assumption
  | reqTake =>
    simp only [step]
    split
    · rename_i hp
      obtain ⟨hp, ha⟩ := hp
      rw [hp] at cap flight
      simp only [bq] at cap flight
      constructor <;> simp only [bq] <;> try assumption
      · omega
      · omega
    · constructor <;> assumption
  | reqPut =>
    simp only [step]
    split
    · rename_i hp
      rw [hp] at cap flight
      simp only [bq] at cap flight
      split
      · constructor <;> simp only [bq] <;> try assumption
        · omega
        · omega
        · intro acc hacc
          obtain ⟨hq, r⟩ := pk acc hacc
          exact ⟨by omega, r⟩
      · omega
    · constructor <;> assumption
  | recvStart =>
    simp only [step]
    split
    · rename_i hp
      obtain ⟨hp, hq⟩ := hp
      rw [hp] at cap flight
      simp only [bc] at cap flight
      have hlt : s.recvd.length < s.sent.length := by omega
      constructor <;> simp only [bc] <;> try assumption
      · omega
      · omega
      · intro acc hacc
        injection hacc with hacc
        subst hacc
        exact ⟨s.sent[s.recvd.length], by simp [hlt], by simp⟩
      · intro acc hacc; cases hacc
    · constructor <;> assumption
  | recvCopy =>
    simp only [step]
    split
    · rename_i acc hp
      split
      · rename_i hlen
        obtain ⟨d, h1, h2⟩ := cp acc hp
        rw [hp] at cap flight
        simp only [bc] at cap flight
        have hd : d.length = len := lens d (List.mem_of_getElem? h1)
        constructor <;> simp only [bc] <;> try assumption
        · intro acc' hacc
          injection hacc with hacc
          subst hacc
          refine ⟨d, h1, ?_⟩
          have hc := content s.recvd.length d (Nat.le_refl _) (by omega) h1 acc.length hlen
          rw [rIdx, hc]
          simp only [List.length_append, List.length_singleton]
          rw [← take_snoc d acc.length _ (getD_of_getElem? (by omega)), ← h2]
        · intro acc' hacc; cases hacc
      · constructor <;> assumption
    · rename_i acc hp
      split
      · rename_i hlen
        obtain ⟨hq, d, h1, h2⟩ := pk acc hp
        rw [hp] at cap flight
        simp only [bc] at cap flight
        have hd : d.length = len := lens d (List.mem_of_getElem? h1)
        constructor <;> simp only [bc] <;> try assumption
        · intro acc' hacc; cases hacc
        · intro acc' hacc
          injection hacc with hacc
          subst hacc
          refine ⟨hq, d, h1, ?_⟩
          have hc := content s.recvd.length d (Nat.le_refl _) (by omega) h1 acc.length hlen
          rw [rIdx, hc]
          simp only [List.length_append, List.length_singleton]
          rw [← take_snoc d acc.length _ (getD_of_getElem? (by omega)), ← h2]
      · constructor <;> assumption
    · constructor <;> assumption
  | recvDone =>
    simp only [step]
    split
    · rename_i acc hp
      split
      · rename_i hlen
        obtain ⟨d, h1, h2⟩ := cp acc hp
        rw [hp] at cap flight
        simp only [bc] at cap flight
        have hd : d.length = len := lens d (List.mem_of_getElem? h1)
        have hacc : acc = d := by rw [h2, hlen, ← hd]; simp
        constructor <;> simp only [bc, List.length_append, List.length_singleton] <;> try assumption
        · omega
        · omega
        · rw [rIdx]; simp [Nat.add_mod]
        · intro i d' h1 h2 h3
          exact content i d' (by omega) h2 h3
        · intro acc' hacc; cases hacc
        · intro acc' hacc; cases hacc
        · rw [← take_snoc s.sent s.recvd.length d h1, ← pre, hacc]
      · constructor <;> assumption
    · constructor <;> assumption
  | peekStart =>
    simp only [step]
    split
    · rename_i hp
      obtain ⟨hp, hq⟩ := hp
      rw [hp] at cap flight
      simp only [bc] at cap flight
      have hlt : s.recvd.length < s.sent.length := by omega
      constructor <;> simp only [bc] <;> try assumption
      · intro acc hacc; cases hacc
      · intro acc hacc
        injection hacc with hacc
        subst hacc
        exact ⟨hq, s.sent[s.recvd.length], by simp [hlt], by simp⟩
    · constructor <;> assumption
  | peekDone =>
    simp only [step]
    split
    · rename_i acc hp
      split
      · rename_i hlen
        obtain ⟨hq, d, h1, h2⟩ := pk acc hp
        rw [hp] at cap flight
        simp only [bc] at cap flight
        have hd : d.length = len := lens d (List.mem_of_getElem? h1)
        have hacc : acc = d := by rw [h2, hlen, ← hd]; simp
        constructor <;> simp only [bc] <;> try assumption
        · intro acc' hacc; cases hacc
        · intro acc' hacc; cases hacc
        · intro p hp'
          rcases List.mem_append.1 hp' with h3 | h3
          · exact peeks p h3
          · simp at h3; subst h3; simp only [hacc]; exact h1
      · constructor <;> assumption
    · constructor <;> assumption

theorem inv_runFrom {size len : Nat} (hs : 0 < size) {s : St} (h : Inv size len s)
    (sched : List Lbl) : Inv size len (runFrom size len s sched) := by
  induction sched generalizing s with
  | nil => exact h
  | cons l ls ih => exact ih (inv_step hs h l)

theorem inv_run {size len : Nat} (hs : 0 < size) (sched : List Lbl) :
    Inv size len (run size len sched) := inv_runFrom hs (inv_init size len) sched

theorem runFrom_append (size len : Nat) (s : St) (a b : List Lbl) :
    runFrom size len s (a ++ b) = runFrom size len (runFrom size len s a) b := by
  simp [runFrom]

end Verif.Channel
