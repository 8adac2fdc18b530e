import Mathlib.Data.List.Basic

/-!
# Model of the delta encoder and its compressed spike formats

`src/lava/proc/io/encoder.py`. Arrays are flattened lists; `encode_delta` is elementwise, so it is modelled for one element.
Integers are unbounded (the code computes in int64) except for the 32-bit words of the packed formats.
-/

namespace Verif.Encoder

/-- Parameters (encoder.py:73-99): the stored threshold and clipping bounds. -/
structure Par where
  vth : Int
  spikeExp : Nat
  aMin : Int
  aMax : Int

/-- `DeltaEncoder.__init__` (encoder.py:83-98). -/
def mkPar (vth : Int) (spikeExp : Nat) (numBits : Option Nat) : Par where
  vth := vth * 2 ^ spikeExp
  spikeExp := spikeExp
  aMin := match numBits with
    | some n => -(2 ^ (n - 1)) * 2 ^ spikeExp
    | none => -1
  aMax := match numBits with
    | some n => (2 ^ (n - 1) - 1) * 2 ^ spikeExp
    | none => -1

structure St where
  act : Int
  residue : Int

/-- `np.clip(x, a_min, a_max)` = `minimum(maximum(x, a_min), a_max)`. -/
def clip (lo hi x : Int) : Int := min (max x lo) hi

/-- `encode_delta` (encoder.py:119-126): the new state and the value to send. -/
def encodeDelta (p : Par) (s : St) (actNew : Int) : St × Int :=
  let delta := actNew - s.act + s.residue
  let raw := if p.vth ≤ (delta.natAbs : Int) then delta else 0
  let out := if p.aMax > 0 then clip p.aMin p.aMax raw else raw
  ({ act := actNew, residue := delta - out }, out)

/-- Model state with the value computed in the last step, `s_out_buf` (encoder.py:136-138). -/
structure Enc where
  st : St
  buf : Int

def initEnc : Enc := { st := { act := 0, residue := 0 }, buf := 0 }

/-- `PyDeltaEncoderModelDense.run_spk` (encoder.py:145-149): the buffer is sent first, then the shifted input is encoded. -/
def runSpk (p : Par) (e : Enc) (a : Int) : Enc × Int :=
  let r := encodeDelta p e.st (a * 2 ^ p.spikeExp)
  ({ st := r.1, buf := r.2 }, e.buf)

/-- A run over a sequence of inputs: the final state and everything sent. -/
def runAll (p : Par) : Enc → List Int → Enc × List Int
  | e, [] => (e, [])
  | e, a :: as =>
    let r := runSpk p e a
    let q := runAll p r.1 as
    (q.1, r.2 :: q.2)

/-! ## Formats -/

/-- `np.bitwise_and(x, 0xFF)`. -/
def lowByte (x : Int) : Int := x % 256

/-- Wrap to a signed 32-bit integer: what int32 arithmetic leaves. -/
def wrap32 (x : Int) : Int := (x + 2 ^ 31) % 2 ^ 32 - 2 ^ 31

/-- One packed word of four bytes (encoder.py:194-197, 249-256), int32 arithmetic. -/
def packWord (b0 b1 b2 b3 : Int) : Int :=
  wrap32 (wrap32 (b3 * 2 ^ 24) + wrap32 (b2 * 2 ^ 16) + wrap32 (b1 * 2 ^ 8) + b0)

/-- The strided packing of a list whose length is a multiple of 4. -/
def packWords : List Int → List Int
  | b0 :: b1 :: b2 :: b3 :: l => packWord b0 b1 b2 b3 :: packWords l
  | _ => []

/-- Zero padding to a multiple of `k` (encoder.py:191-193, 240-247): `int(np.ceil(len / k) * k)`. -/
def padTo (k : Nat) (l : List Int) : List Int := l ++ List.replicate ((l.length + k - 1) / k * k - l.length) 0

/-- `l[0::2]`. -/
def evens : List Int → List Int
  | a :: _ :: l => a :: evens l
  | [a] => [a]
  | [] => []

/-- `l[1::2]`. -/
def odds : List Int → List Int
  | _ :: b :: l => b :: odds l
  | _ => []

/-- `encode_packed_4` (encoder.py:189-198). -/
def encodePacked4 (s : List Int) : List Int × List Int :=
  let packed := packWords (padTo 8 (s.map lowByte))
  (evens packed, odds packed)

/-- `np.argwhere(flat != 0)` with the values there (encoder.py:182-183, 202-203), positions from `k`. -/
def nonzeroFrom : Nat → List Int → List (Nat × Int)
  | _, [] => []
  | k, a :: l => if a ≠ 0 then (k, a) :: nonzeroFrom (k + 1) l else nonzeroFrom (k + 1) l

/-- `encode_sparse` (encoder.py:180-187): (index, value) pairs, a dummy pair if there is none. -/
def encodeSparse (s : List Int) : List (Nat × Int) :=
  match nonzeroFrom 0 s with
  | [] => [(0, 0)]
  | l => l

/-- `idx[1:] = idx[1:] - idx[:-1] - 1` (encoder.py:215). -/
def deltas : Nat → List (Nat × Int) → List (Nat × Int)
  | _, [] => []
  | prev, (i, d) :: l => (i - prev - 1, d) :: deltas i l

/-- Emission for one (delta index, value) entry (encoder.py:219-231). `vec` tells whether `idx[i]` is a one-element array
rather than a number; then `[max_idx] * num_repeats` is a product, not a repetition. -/
def emit (vec : Bool) (e : Nat × Int) : List (Int × Int) :=
  if e.1 < 255 then [((e.1 : Int), e.2)]
  else
    let q := e.1 / 255
    let nr := q / 255
    (if vec then [(255 * ((nr : Int) + 1), 255 * (nr : Int) + ((q % 255 : Nat) : Int))]
     else List.replicate nr (255, 255) ++ [(255, ((q % 255 : Nat) : Int))]) ++ [(((e.1 % 255 : Nat) : Int), e.2)]

/-- Delta indices and values before packing (encoder.py:202-238), from the nonzero entries. With no entry the arrays are
`[0]`, `[0]`; if the first index exceeds 255 a zero entry is put in front, and the arrays become one-dimensional. -/
def deltaPairs : List (Nat × Int) → List (Int × Int)
  | [] => [(0, 0)]
  | (i, d) :: l =>
    if i > 255 then emit false (0, 0) ++ (deltas 0 ((i, d) :: l)).flatMap (emit false)
    else emit true (i, d) ++ (deltas i l).flatMap (emit true)

/-- `encode_delta_sparse_8` (encoder.py:200-257): (packed_data, packed_idx). -/
def encodeDeltaSparse8 (s : List Int) : List Int × List Int :=
  let ps := deltaPairs (nonzeroFrom 0 s)
  (packWords (padTo 4 (ps.map fun p => lowByte p.2)), packWords (padTo 4 (ps.map fun p => lowByte p.1)))

/-- Decoder state: `count`, `idx`. -/
structure Dec where
  count : Nat
  idx : Int

/-- The body of the inner loop (encoder.py:269-281): the new state and the decoded entry, if any. -/
def decStep (s : Dec) (data idx1 : Int) : Dec × Option (Int × Int) :=
  if idx1 = 255 then ({ count := s.count + 1, idx := s.idx + data * 255 }, none)
  else
    let idx := s.idx + (idx1 + (if s.count > 0 then 1 else 0))
    ({ count := s.count + 1, idx := idx }, if data ≠ 0 then some (idx, data) else none)

/-- Four bytes of a word, low first: `p & 0xFF; p >>= 8` (encoder.py:269-280). -/
def bytes4 (p : Int) : List Int := [p % 256, p / 2 ^ 8 % 256, p / 2 ^ 8 / 2 ^ 8 % 256, p / 2 ^ 8 / 2 ^ 8 / 2 ^ 8 % 256]

def decSteps : Dec → List (Int × Int) → List (Int × Int)
  | _, [] => []
  | s, (d, i) :: l =>
    let r := decStep s d i
    match r.2 with
    | some e => e :: decSteps r.1 l
    | none => decSteps r.1 l

/-- `decode_encode_delta_sparse_8` (encoder.py:259-282): decoded (index, value) pairs. -/
def decodeDeltaSparse8 (packed : List Int × List Int) : List (Int × Int) :=
  decSteps { count := 0, idx := 0 } ((packed.1.flatMap bytes4).zip (packed.2.flatMap bytes4))

end Verif.Encoder
