import Verif.Props.BlockWise
/- Properties C28, C29: inputs on which the k-means strategy fails. The kernel runs the encoder and the
decoder of the model on them. -/
namespace Ribzip2
open Spec

/-- `n` different bytes and a zero byte: run-length encoding does nothing, the transform is safe. -/
def zigzag (n : Nat) : List UInt8 :=
  (List.range n).map (fun i => UInt8.ofNat (if i % 2 = 0 then i + 1 else 200 - i)) ++ [0]

/-- Compress, then decompress; `none` if compression already fails. -/
def roundTrip (dist : Distance) (d : List UInt8) (t : Nat) (strategy : Strategy) : Option (Res (List UInt8)) :=
  match encodeBytes dist d t strategy with
  | Res.ok bytes => some (decodeBytes bytes)
  | _ => none

theorem roundTrip_some {dist : Distance} {d : List UInt8} {t : Nat} {strategy : Strategy} {r : Res (List UInt8)}
    (h : roundTrip dist d t strategy = some r) :
    ∃ bytes, encodeBytes dist d t strategy = Res.ok bytes ∧ decodeBytes bytes = r := by
  unfold roundTrip at h
  split at h
  · rename_i bytes hb
    exact ⟨bytes, hb, by simpa using h⟩
  · simp at h

theorem encodeBytes_threads (dist : Distance) (d : List UInt8) (t : Nat) (ht : 1 ≤ t) (strategy : Strategy) :
    encodeBytes dist d t strategy = encodeBytes dist d 1 strategy := by
  rw [encodeBytes, encodeBytes, encodeStream_ofBytes _ _ _ _ _ ht, encodeStream_ofBytes _ _ _ _ _ (by omega)]

/-- **C28 is false** with the default parameters of the command line (6 tables, 3 iterations): 52 different
bytes are compressed to a stream that `decode_stream` refuses, for every number of threads. The two groups
of symbols get the tables 0 and 3; the decoder takes them for 0 and 1. -/
theorem C28_refuted_gap : ∀ t, 1 ≤ t → ∃ bytes,
    encodeBytes euclid (zigzag 51) t (Strategy.blockWise 6 3) = Res.ok bytes ∧ decodeBytes bytes = Res.err := by
  intro t ht
  rw [encodeBytes_threads _ _ _ ht]
  exact roundTrip_some (by decide +kernel)

/-- **C28 is false** with the default parameters, and worse: for 50 different bytes the program writes a
stream on which its own decoder panics. -/
theorem C28_refuted_panic : ∀ t, 1 ≤ t → ∃ bytes,
    encodeBytes euclid (zigzag 49) t (Strategy.blockWise 6 3) = Res.ok bytes ∧ decodeBytes bytes = Res.panic := by
  intro t ht
  rw [encodeBytes_threads _ _ _ ht]
  exact roundTrip_some (by decide +kernel)

/-- **C28 is false** even where selectors have no gap (no iterations, so that all selectors are 0): the
block of 49 different bytes has 49 symbols and the end-of-block symbol, one full group of 50, and the
encoder announces a second, empty group. -/
theorem C28_refuted_extra_selector : ∀ t, 1 ≤ t → ∃ bytes,
    encodeBytes euclid (zigzag 48) t (Strategy.blockWise 2 0) = Res.ok bytes ∧ decodeBytes bytes = Res.err := by
  intro t ht
  rw [encodeBytes_threads _ _ _ ht]
  exact roundTrip_some (by decide +kernel)

/-- A block on which k-means uses two tables, without a gap: the conditions of `C28_round_trip_partial` are
met by more than the trivial clusterings. -/
example : (match blockStats euclid (Strategy.blockWise 2 1) (zigzag 51) with
    | Res.ok (zle, rep) => some (zle.length, rep.selectors)
    | _ => none) = some (52, [0, 1]) := by decide +kernel

/-- **C29 is false**: with 8 tables the encoder ends normally and writes a stream on which the decoder
panics (the number of tables takes four bits instead of three). -/
theorem C29_refuted : ∀ t, 1 ≤ t → ∃ bytes,
    encodeBytes euclid [1, 0] t (Strategy.blockWise 8 3) = Res.ok bytes ∧ decodeBytes bytes = Res.panic := by
  intro t ht
  rw [encodeBytes_threads _ _ _ ht]
  exact roundTrip_some (by decide +kernel)

end Ribzip2
