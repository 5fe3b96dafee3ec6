import Verif.Props.Format
import Verif.Props.Stream
/- Properties C01, C39, C46: round trip with the single-table strategy; the encoder never panics; a failed
round trip is reported. -/
namespace Ribzip2
open Spec

/-! ### C39 -/

theorem mainLoop_no_panic (gen : Work → Res (List Bit)) (ft : Bool) (t fuel : Nat) (es : List REvent)
    (fin : Bool) (bw : BitWriter) (crc : BitVec 32) (h : bw.Good)
    (hgen : ∀ b : List UInt8, b ≠ [] → (rle1Encode b).length ≤ 900005 → ∃ bits, gen (workOf b) = Res.ok bits) :
    ∃ (bw' : BitWriter) (r : Res (BitVec 32)), mainLoop gen ft t fuel es fin bw crc = (bw', r) ∧ bw'.Good ∧
      r ≠ Res.panic ∧ r ≠ Res.err := by
  induction fuel generalizing es fin bw crc with
  | zero => exact ⟨bw, Res.div, rfl, h, by simp, by simp⟩
  | succ fuel ih =>
    rw [mainLoop]
    split
    · exact ⟨bw, Res.ok crc, rfl, h, by simp, by simp⟩
    · obtain ⟨bs, es', fin', h1, h2⟩ := sendLoop_total ft t es fin
      obtain ⟨bw1, crc1, h3⟩ := flushLoop_good_ok gen (bs.map workOf) bw crc h (by
        intro w hw
        obtain ⟨b, hb, rfl⟩ := List.mem_map.1 hw
        exact hgen b (h2 b hb).1 (h2 b hb).2)
      obtain ⟨-, -, h4, -, -⟩ := flushLoop_good gen _ bw crc h _ _ h3
      simp only [h1, h3]
      exact ih es' fin' bw1 crc1 h4

/-- **C39.** With the single-table strategy and a reliable writer, `encode_stream` never panics and never
returns an error, whatever the reader does (errors included), for every number of threads (0 included) and
however long it runs: it ends normally or goes on. -/
theorem C39_never_panics (fuel : Nat) (dist : Distance) (r : Reader) (t : Nat) :
    (encodeStreamFuel fuel dist r Writer.empty t Strategy.single).2 = Res.ok () ∨
    (encodeStreamFuel fuel dist r Writer.empty t Strategy.single).2 = Res.div := by
  unfold encodeStreamFuel
  obtain ⟨bw1, a1, a2, a3⟩ := (BitWriter.fromWriter Writer.empty).writeBits_good fileHeader
    (BitWriter.good_from [])
  obtain ⟨bw2, res, m1, m2, m3, m4⟩ := mainLoop_no_panic
    (fun work => generateBlockData dist Strategy.single work.crc work.rleTotal) r.failTail t fuel r.events
    false bw1 0 a2 (by
      intro b hb hs
      obtain ⟨p, -, h⟩ := generate_written dist b hb hs
      exact ⟨_, h⟩)
  rw [a1]
  simp only [andThen_eq, Res.unwrap_ok, m1]
  cases res with
  | ok crc =>
    obtain ⟨bw3, b1, b2, b3⟩ := bw2.writeBits_good (streamFooter crc) m2
    obtain ⟨bw4, c1, c2⟩ := bw3.finalize_good b2
    left
    simp only [b1, c1, Res.unwrap_ok]
  | err => exact absurd rfl m4
  | panic => exact absurd rfl m3
  | div => right; rfl

/-- **C39** for data in memory and at least one thread: it ends normally. -/
theorem C39_always_succeeds (dist : Distance) (d : List UInt8) (t : Nat) (ht : 1 ≤ t) :
    ∃ bytes, encodeBytes dist d t Strategy.single = Res.ok bytes := by
  obtain ⟨-, bytes, h, -⟩ := encodeBytes_single dist d t ht
  exact ⟨bytes, h⟩

/-- A reader that fails in the middle and goes on. -/
example : (encodeStreamFuel 9 (fun _ _ => 0) ⟨[REvent.data [1, 2], REvent.fail, REvent.data [3]], false⟩
    Writer.empty 2 Strategy.single).2 = Res.ok () := by decide +kernel

/-! ### C01 -/

/-- **C01 is false**: the seven bytes "A.⏎⏎B.⏎" (an ordinary text with an empty line) are compressed to a
stream that `decode_stream` refuses, for every number of threads. -/
theorem C01_refuted : ∃ d : List UInt8, d = [65, 46, 10, 10, 66, 46, 10] ∧ ∀ dist t, 1 ≤ t →
    ∃ bytes, encodeBytes dist d t Strategy.single = Res.ok bytes ∧ decodeBytes bytes = Res.err := by
  refine ⟨_, rfl, fun dist t ht => ⟨[66, 90, 104, 57, 49, 65, 89, 38, 83, 89, 205, 248, 118, 77, 0, 0, 2, 212, 0, 0,
    16, 0, 1, 48, 0, 32, 0, 33, 41, 233, 168, 37, 61, 53, 17, 172, 120, 187, 146, 41, 194, 132, 134, 111, 195, 178,
    104], ?_, by decide +kernel⟩⟩
  rw [encodeBytes_dist dist fun _ _ => 0]
  have h1 : encodeBytes (fun _ _ => 0) [65, 46, 10, 10, 66, 46, 10] t Strategy.single
      = encodeBytes (fun _ _ => 0) [65, 46, 10, 10, 66, 46, 10] 1 Strategy.single := by
    rw [encodeBytes, encodeBytes, encodeStream_ofBytes _ _ _ _ _ ht, encodeStream_ofBytes _ _ _ _ _ (by omega)]
  rw [h1]
  decide +kernel

/-- **C01**, partial: for every input and every number of threads: if every block is safe for the
transform and has no collision between a repeat count and the bytes behind it, `decode_stream` returns
exactly the input. Missing: the other inputs, some of which do not come back (`C01_refuted`). -/
theorem C01_round_trip_partial (dist : Distance) (d : List UInt8) (t : Nat) (ht : 1 ≤ t)
    (h : ∀ b ∈ blocksOf d, TransformSafe (rle1Encode b) ∧ noCountCollision (runs b) = true) :
    ∃ bytes, encodeBytes dist d t Strategy.single = Res.ok bytes ∧ decodeBytes bytes = Res.ok d := by
  obtain ⟨blocks, bytes, e1, e2, e3, e4⟩ := encodeBytes_single dist d t ht
  refine ⟨bytes, e1, ?_⟩
  have hc : contents blocks = d := by rw [contents, List.flatMap_def, e2, blocksOf_flatten]
  rw [decodeBytes_written 2 blocks bytes e3 e4 (fun b hb => h b.1 (by
    rw [← e2]; exact List.mem_map.2 ⟨b, hb, rfl⟩)), hc]

/-- The hypotheses are met by "banana" with three threads. -/
example : ∃ bytes, encodeBytes euclid banana 3 Strategy.single = Res.ok bytes ∧ decodeBytes bytes = Res.ok banana :=
  C01_round_trip_partial euclid banana 3 (by decide) banana_good

/-- **C01** for inputs of up to 720000 bytes, which make a single block, partial. -/
theorem C01_round_trip_small_partial (dist : Distance) (d : List UInt8) (t : Nat) (ht : 1 ≤ t)
    (hlen : d.length ≤ 720000) (h : TransformSafe (rle1Encode d)) (h2 : noCountCollision (runs d) = true) :
    ∃ bytes, encodeBytes dist d t Strategy.single = Res.ok bytes ∧ decodeBytes bytes = Res.ok d := by
  apply C01_round_trip_partial dist d t ht
  intro b hb
  by_cases hd : d = []
  · subst hd; simp [blocksOf_nil] at hb
  · rw [blocksOf_small d hd hlen] at hb
    simp at hb
    subst hb
    exact ⟨h, h2⟩

example : ∃ bytes, encodeBytes euclid banana 1 Strategy.single = Res.ok bytes ∧ decodeBytes bytes = Res.ok banana :=
  C01_round_trip_small_partial euclid banana 1 (by decide) (by decide) banana_safe banana_collision

theorem runsFrom_short (b : UInt8) (n : Nat) (d : List UInt8) (h : ∀ r ∈ runsFrom b n d, r.2 < 4) :
    (runsFrom b n d).flatMap encodeRun = List.replicate n b ++ d := by
  induction d generalizing b n with
  | nil =>
    simp only [runsFrom, List.mem_singleton, forall_eq] at h
    simp [runsFrom, encodeRun, h]
  | cons c d ih =>
    rw [runsFrom] at h ⊢
    split
    · rename_i hc
      rw [if_pos hc] at h
      rw [ih b (n + 1) h, hc.1, List.replicate_succ']
      simp
    · rename_i hc
      rw [if_neg hc] at h
      rw [List.flatMap_cons, ih c 1 (fun r hr => h r (by simp [hr]))]
      have := h (b, n) (by simp)
      simp only at this
      simp [encodeRun, this]

/-- Without runs of four or more bytes the run-length stage changes nothing. -/
theorem rle1Encode_short (d : List UInt8) (h : ∀ r ∈ runs d, r.2 < 4) : rle1Encode d = d := by
  cases d with
  | nil => rfl
  | cons b d =>
    have := runsFrom_short b 1 d h
    simpa [rle1Encode, runs] using this

theorem noCountCollision_short (rs : List (UInt8 × Nat)) (h : ∀ r ∈ rs, r.2 < 4) : noCountCollision rs = true := by
  induction rs with
  | nil => rfl
  | cons r rs ih =>
    cases rs with
    | nil => rfl
    | cons r' rs =>
      obtain ⟨b, n⟩ := r
      obtain ⟨c, m⟩ := r'
      have hn := h (b, n) (by simp)
      simp only at hn
      rw [noCountCollision, ih (fun r hr => h r (by simp [hr]))]
      simp
      omega

/-- **C01** for a class of inputs that is easy to recognise, partial: up to 720000 bytes, no byte four
times in a row, ending with a byte smaller than all the others (as a zero-terminated string does). -/
theorem C01_round_trip_terminated_partial (dist : Distance) (s : List UInt8) (x : UInt8) (t : Nat) (ht : 1 ≤ t)
    (hlen : s.length < 720000) (hx : ∀ y ∈ s, x < y) (hr : ∀ r ∈ runs (s ++ [x]), r.2 < 4) :
    ∃ bytes, encodeBytes dist (s ++ [x]) t Strategy.single = Res.ok bytes ∧
      decodeBytes bytes = Res.ok (s ++ [x]) :=
  C01_round_trip_small_partial dist _ t ht (by simp; omega)
    (by rw [rle1Encode_short _ hr]; exact transformSafe_of_last s x hx) (noCountCollision_short _ hr)

/-- Such an input: "hello world!" and a zero byte. -/
example : (∀ y ∈ ([104, 101, 108, 108, 111, 32, 119, 111, 114, 108, 100, 33] : List UInt8), 0 < y) ∧
    ∀ r ∈ runs ([104, 101, 108, 108, 111, 32, 119, 111, 114, 108, 100, 33] ++ [0]), r.2 < 4 := by
  decide +kernel

/-- **C01** for a wider class, partial: up to 720000 bytes, no byte four times in a row, and the last byte occurs
nowhere else (whatever its value). Any such input can be made from any other one without long runs by appending a byte
that does not occur. -/
theorem C01_round_trip_fresh_last_partial (dist : Distance) (s : List UInt8) (x : UInt8) (t : Nat) (ht : 1 ≤ t)
    (hlen : s.length < 720000) (hx : x ∉ s) (hr : ∀ r ∈ runs (s ++ [x]), r.2 < 4) :
    ∃ bytes, encodeBytes dist (s ++ [x]) t Strategy.single = Res.ok bytes ∧
      decodeBytes bytes = Res.ok (s ++ [x]) :=
  C01_round_trip_small_partial dist _ t ht (by simp; omega)
    (by rw [rle1Encode_short _ hr]; exact transformSafe_of_fresh_last s x hx) (noCountCollision_short _ hr)

/-- "banana" and a byte that does not occur in it and is not the smallest. -/
example : ∃ bytes, encodeBytes euclid (banana ++ [99]) 1 Strategy.single = Res.ok bytes ∧
    decodeBytes bytes = Res.ok (banana ++ [99]) :=
  C01_round_trip_fresh_last_partial euclid banana 99 1 (by decide) (by decide) (by decide) (by decide +kernel)

theorem runsFrom_marker (b : UInt8) (n : Nat) (d : List UInt8) (x : UInt8) (hb : x ≠ b) (hd : x ∉ d) :
    runsFrom b n (d ++ [x]) = runsFrom b n d ++ [(x, 1)] := by
  induction d generalizing b n with
  | nil =>
    simp only [List.nil_append, runsFrom]
    rw [if_neg (fun h => hb h.1)]
    rfl
  | cons c d ih =>
    simp only [List.mem_cons, not_or] at hd
    simp only [List.cons_append, runsFrom]
    split
    · exact ih b (n + 1) hb hd.2
    · rw [ih c 1 hd.1 hd.2]
      rfl

theorem rle1Encode_marker (s : List UInt8) (x : UInt8) (h : x ∉ s) : rle1Encode (s ++ [x]) = rle1Encode s ++ [x] := by
  cases s with
  | nil => rfl
  | cons b d =>
    simp only [List.mem_cons, not_or] at h
    simp only [rle1Encode, runs, List.cons_append, runsFrom_marker b 1 d x h.1 h.2, List.flatMap_append]
    rfl

theorem mem_runsFrom (b : UInt8) (n : Nat) (d : List UInt8) (hn : n ≤ 255) :
    ∀ r ∈ runsFrom b n d, (r.1 = b ∨ r.1 ∈ d) ∧ r.2 ≤ 255 := by
  induction d generalizing b n with
  | nil =>
    intro r hr
    simp only [runsFrom, List.mem_singleton] at hr
    subst hr
    exact ⟨Or.inl rfl, hn⟩
  | cons c d ih =>
    intro r hr
    rw [runsFrom] at hr
    split at hr
    · rename_i hc
      obtain ⟨h1, h2⟩ := ih b (n + 1) (by omega) r hr
      refine ⟨?_, h2⟩
      rcases h1 with h1 | h1
      · exact Or.inl h1
      · exact Or.inr (by simp [h1])
    · rcases List.mem_cons.1 hr with rfl | hr
      · exact ⟨Or.inl rfl, hn⟩
      · obtain ⟨h1, h2⟩ := ih c 1 (by omega) r hr
        refine ⟨Or.inr ?_, h2⟩
        rcases h1 with h1 | h1 <;> simp [h1]

/-- The run-length stage adds no bytes above 251. -/
theorem mem_rle1Encode (s : List UInt8) (y : UInt8) (hy : y ∈ rle1Encode s) : y ∈ s ∨ y.toNat ≤ 251 := by
  cases s with
  | nil => simp [rle1Encode, runs] at hy
  | cons b d =>
    simp only [rle1Encode, runs, List.mem_flatMap] at hy
    obtain ⟨r, hr, hyr⟩ := hy
    obtain ⟨h1, h2⟩ := mem_runsFrom b 1 d (by omega) r hr
    have h3 : r.1 ∈ b :: d := by
      rcases h1 with h1 | h1 <;> simp [h1]
    rw [encodeRun] at hyr
    split at hyr
    · exact Or.inl ((List.mem_replicate.1 hyr).2 ▸ h3)
    · rcases List.mem_append.1 hyr with h | h
      · exact Or.inl ((List.mem_replicate.1 h).2 ▸ h3)
      · right
        simp only [List.mem_singleton] at h
        rw [h, UInt8.toNat_ofNat']
        omega

/-- **C01** for every input that ends with a marker, partial: up to 720000 bytes, the last byte is at least 252 and
occurs nowhere else, and there is no count collision (long runs are allowed). -/
theorem C01_round_trip_marked_partial (dist : Distance) (s : List UInt8) (x : UInt8) (t : Nat) (ht : 1 ≤ t)
    (hlen : s.length < 720000) (hx : x ∉ s) (hx2 : 252 ≤ x.toNat) (hc : noCountCollision (runs (s ++ [x])) = true) :
    ∃ bytes, encodeBytes dist (s ++ [x]) t Strategy.single = Res.ok bytes ∧
      decodeBytes bytes = Res.ok (s ++ [x]) := by
  refine C01_round_trip_small_partial dist _ t ht (by simp; omega) ?_ hc
  rw [rle1Encode_marker s x hx]
  refine transformSafe_of_fresh_last _ x fun hm => ?_
  rcases mem_rle1Encode s x hm with h | h
  · exact hx h
  · omega

/-- Such an input: "A.⏎⏎B.⏎" with six more newlines, and the byte 255. -/
example : 255 ∉ ([65, 46, 10, 10, 66, 46, 10, 10, 10, 10, 10, 10, 10] : List UInt8) ∧
    noCountCollision (runs ([65, 46, 10, 10, 66, 46, 10, 10, 10, 10, 10, 10, 10] ++ [255])) = true := by
  decide +kernel

/-- **C01**, partial: up to 720000 bytes, no byte four times in a row, and the smallest byte occurs only once. -/
theorem C01_round_trip_unique_min_partial (dist : Distance) (a b : List UInt8) (x : UInt8) (t : Nat) (ht : 1 ≤ t)
    (hlen : a.length + b.length < 720000) (ha : ∀ y ∈ a, x < y) (hb : ∀ y ∈ b, x < y)
    (hr : ∀ r ∈ runs (a ++ x :: b), r.2 < 4) :
    ∃ bytes, encodeBytes dist (a ++ x :: b) t Strategy.single = Res.ok bytes ∧
      decodeBytes bytes = Res.ok (a ++ x :: b) :=
  C01_round_trip_small_partial dist _ t ht (by simp; omega)
    (by rw [rle1Encode_short _ hr]; exact transformSafe_of_unique_min a b x ha hb) (noCountCollision_short _ hr)

/-- Such inputs: the refuted "A.⏎⏎B.⏎" with a "z" appended, and "hello world!". -/
example : (122 ∉ ([65, 46, 10, 10, 66, 46, 10] : List UInt8) ∧
      ∀ r ∈ runs ([65, 46, 10, 10, 66, 46, 10] ++ [122]), r.2 < 4) ∧
    (∀ y ∈ ([104, 101, 108, 108, 111] : List UInt8), 32 < y) ∧
    (∀ y ∈ ([119, 111, 114, 108, 100, 33] : List UInt8), 32 < y) ∧
    ∀ r ∈ runs ([104, 101, 108, 108, 111] ++ 32 :: [119, 111, 114, 108, 100, 33]), r.2 < 4 := by
  decide +kernel

/-- **C01**, the exact extent for a single safe block: for every input of up to 720000 bytes that is safe for
the transform and has no 255 bytes 251 in a row, and every number of threads, `decode_stream` returns the input
*if and only if* the input has no count collision. -/
theorem C01_round_trip_iff_partial (dist : Distance) (d : List UInt8) (t : Nat) (ht : 1 ≤ t)
    (hlen : d.length ≤ 720000) (h : TransformSafe (rle1Encode d)) (h251 : ¬ List.replicate 255 251 <:+: d) :
    ∃ bytes, encodeBytes dist d t Strategy.single = Res.ok bytes ∧
      (decodeBytes bytes = Res.ok d ↔ noCountCollision (runs d) = true) := by
  by_cases hd : d = []
  · subst hd
    obtain ⟨bytes, e1, e2⟩ := C01_round_trip_small_partial dist [] t ht (by simp) h rfl
    exact ⟨bytes, e1, fun _ => rfl, fun _ => e2⟩
  obtain ⟨blocks, bytes, e1, e2, e3, k, -, e4, -⟩ := encodeBytes_single dist d t ht
  refine ⟨bytes, e1, ?_⟩
  rw [blocksOf_small d hd hlen] at e2
  match blocks, e2 with
  | [b], e2 =>
    simp only [List.map_cons, List.map_nil, List.cons.injEq, and_true] at e2
    obtain ⟨p, p1, p2⟩ := e3 b (by simp)
    rw [e2] at p1
    obtain ⟨last, ptr, f1, f2⟩ := C30_bwt_partial p.rle p1.ne (by rw [p1.rle]; exact h)
    rw [p1.transform] at f1
    simp only [Res.ok.injEq, Prod.mk.injEq] at f1
    rw [← f1.1, ← f1.2] at f2
    have hs := p1.size
    have hr := p1.readable
    rw [← inverseRle_encode_iff d h251]
    constructor
    · intro hdec
      have hb : ∀ rest, pBlock (natToBits 32 (Spec.crc32 d).toNat ++ p.body ++ rest) =
          (if Ribzip2.crc32 (inverseRle (rle1Encode d)) = Spec.crc32 d
            then Res.ok (inverseRle (rle1Encode d), rest) else Res.err) := by
        intro rest
        rw [pBlock_body p hr, finishBlock_valid p hr.used hr.symbols p1.mtf f2 (by omega), p1.rle]
        split <;> rfl
      have e5 : bytesBits bytes = streamHeader 0x39 ++ (blockMagic ++ (natToBits 32 (Spec.crc32 d).toNat ++ p.body
          ++ (footerMagic ++ (natToBits 32 (streamCrc [b]).toNat ++ List.replicate k false)))) := by
        rw [e4]
        simp [blockFrames, blockFrame, e2, p2]
      rw [decodeBytes_eq, e5, pStream, pHeader_append] at hdec
      simp only [pBlocks, pWhatNext_block, hb] at hdec
      by_cases hc : Ribzip2.crc32 (inverseRle (rle1Encode d)) = Spec.crc32 d
      · rw [if_pos hc] at hdec
        dsimp only at hdec
        rw [show ∀ l : List Bit, (blockMagic ++ l).length = l.length + 47 + 1 from by
          intro l; simp [blockMagic]; omega, pBlocks, pWhatNext_footer] at hdec
        simpa using hdec
      · rw [if_neg hc] at hdec
        simp at hdec
    · intro hinv
      have := decodeBytes_good 0x39 [b] bytes
        (natToBits 32 (streamCrc [b]).toNat ++ List.replicate k false) ?_ (by rw [e4]; simp)
      · rw [this]; simp [contents, e2]
      · intro b' hb' rest
        simp only [List.mem_singleton] at hb'
        subst hb'
        rw [p2, e2, pBlock_body p hr, finishBlock_valid p hr.used hr.symbols p1.mtf f2 (by omega), p1.rle, hinv,
          if_pos (crc32_eq_spec _)]
        rfl

/-- Both cases occur for safe blocks. -/
example : (TransformSafe (rle1Encode [9, 9, 9, 9, 9, 9, 9, 9, 4, 4, 4, 7, 1]) ∧
      noCountCollision (runs [9, 9, 9, 9, 9, 9, 9, 9, 4, 4, 4, 7, 1]) = false) ∧
    TransformSafe (rle1Encode [9, 9, 9, 9, 9, 9, 9, 9, 4, 4, 7, 7, 1]) ∧
      noCountCollision (runs [9, 9, 9, 9, 9, 9, 9, 9, 4, 4, 7, 7, 1]) = true := by
  refine ⟨⟨?_, by decide +kernel⟩, ?_, by decide +kernel⟩
  · rw [show rle1Encode [9, 9, 9, 9, 9, 9, 9, 9, 4, 4, 4, 7, 1] = [9, 9, 9, 9, 4, 4, 4, 4, 7] ++ [1] by
      decide +kernel]
    exact transformSafe_of_last _ _ (by decide)
  · rw [show rle1Encode [9, 9, 9, 9, 9, 9, 9, 9, 4, 4, 7, 7, 1] = [9, 9, 9, 9, 4, 4, 4, 7, 7] ++ [1] by
      decide +kernel]
    exact transformSafe_of_last _ _ (by decide)

/-! ### C46 -/

theorem pBlock_written (n : Nat) (b : List UInt8) (p : BlockParts) (h : WrittenBlock n b p) (rest : List Bit) :
    pBlock (natToBits 32 (Spec.crc32 b).toNat ++ p.body ++ rest) = Res.err ∨
    ∃ b', pBlock (natToBits 32 (Spec.crc32 b).toNat ++ p.body ++ rest) = Res.ok (b', rest) ∧
      Spec.crc32 b' = Spec.crc32 b := by
  have hr := h.readable
  obtain ⟨last, ptr, f1, f2, f3⟩ := C30_bwt_never_fails p.rle h.ne
  rw [h.transform] at f1
  simp only [Res.ok.injEq, Prod.mk.injEq] at f1
  rw [← f1.1] at f2
  rw [← f1.2] at f3
  have hl := f2.length_eq
  have hs := h.size
  obtain ⟨s, s1, -⟩ := inverseBwt_total p.last p.ptr (by omega)
  rw [pBlock_body p hr, finishBlock_stages p hr.used hr.symbols h.mtf (by omega), s1, Res.ok_bind]
  split
  · rename_i hc
    exact Or.inr ⟨_, rfl, by rw [← crc32_eq_spec, hc]⟩
  · exact Or.inl rfl

theorem pBlocks_written (n : Nat) (blocks : List (List UInt8 × List Bool))
    (h : ∀ b ∈ blocks, ∃ p, WrittenBlock n b.1 p ∧ b.2 = p.body) (tail : List Bit) (fuel : Nat)
    (hf : blocks.length < fuel) :
    (pBlocks fuel (blockFrames blocks ++ footerMagic ++ tail)).2 = Res.err ∨
    ∃ outs : List (List UInt8), pBlocks fuel (blockFrames blocks ++ footerMagic ++ tail) = (outs, Res.ok ()) ∧
      outs.map Spec.crc32 = blocks.map fun b => Spec.crc32 b.1 := by
  induction blocks generalizing fuel with
  | nil =>
    match fuel, hf with
    | fuel + 1, _ =>
      simp only [blockFrames, List.flatMap_nil, List.nil_append, pBlocks, pWhatNext_footer]
      exact Or.inr ⟨[], rfl, rfl⟩
  | cons b blocks ih =>
    match fuel, hf with
    | fuel + 1, hf =>
      obtain ⟨p, p1, p2⟩ := h b (by simp)
      have e : blockFrames (b :: blocks) ++ footerMagic ++ tail
          = blockMagic ++ (natToBits 32 (Spec.crc32 b.1).toNat ++ p.body ++ (blockFrames blocks ++ footerMagic ++ tail)) := by
        simp [blockFrames, blockFrame, p2]
      rw [e]
      simp only [pBlocks, pWhatNext_block]
      rcases pBlock_written n b.1 p p1 (blockFrames blocks ++ footerMagic ++ tail) with hb | ⟨b', hb, hc⟩
      · left; rw [hb]
      · rw [hb]
        simp only
        rcases ih (fun x hx => h x (by simp [hx])) fuel (by simpa using hf) with i | ⟨outs, i1, i2⟩
        · left; exact i
        · right
          rw [i1]
          exact ⟨b' :: outs, rfl, by simp [hc, i2]⟩

/-- **C46.** For every input and number of threads, `decode_stream` on what `encode_stream` wrote (single
table) never panics and never runs forever. It returns an error, or it returns Ok and then each block it
wrote has the CRC of the corresponding block of the input: a round trip that fails is noticed unless two
different blocks have the same CRC. -/
theorem C46_failed_round_trip_is_reported (dist : Distance) (d : List UInt8) (t : Nat) (ht : 1 ≤ t) :
    ∃ bytes, encodeBytes dist d t Strategy.single = Res.ok bytes ∧
      (decodeBytes bytes = Res.err ∨ ∃ ins outs : List (List UInt8), ins.flatten = d ∧
        decodeBytes bytes = Res.ok outs.flatten ∧ outs.map Spec.crc32 = ins.map Spec.crc32) := by
  obtain ⟨blocks, bytes, e1, e2, e3, k, -, e4, -⟩ := encodeBytes_single dist d t ht
  refine ⟨bytes, e1, ?_⟩
  have hp := pBlocks_written 2 blocks e3 (natToBits 32 (streamCrc blocks).toNat ++ List.replicate k false)
    ((blockFrames blocks ++ footerMagic
      ++ (natToBits 32 (streamCrc blocks).toNat ++ List.replicate k false)).length + 1) (by
    have := blockFrames_length blocks
    simp only [List.length_append]
    omega)
  have hst : pStream (bytesBits bytes) = pBlocks ((blockFrames blocks ++ footerMagic
      ++ (natToBits 32 (streamCrc blocks).toNat ++ List.replicate k false)).length + 1) (blockFrames blocks
      ++ footerMagic ++ (natToBits 32 (streamCrc blocks).toNat ++ List.replicate k false)) := by
    rw [e4]
    simp only [List.append_assoc]
    rw [pStream, pHeader_append]
  rw [decodeBytes_eq, hst]
  rcases hp with hp | ⟨outs, hp, hc⟩
  · left
    rw [hp]
    rfl
  · right
    refine ⟨blocksOf d, outs, blocksOf_flatten d, ?_, ?_⟩
    · rw [hp]
      rfl
    · rw [hc, ← e2, List.map_map]; rfl

/-- Both cases occur: the input of `C01_refuted`, whose round trip fails, and an input that comes back. -/
example : (match encodeBytes euclid [65, 46, 10, 10, 66, 46, 10] 1 Strategy.single with
      | Res.ok bytes => decodeBytes bytes
      | _ => Res.div) = Res.err ∧
    (match encodeBytes euclid [104, 105, 0] 1 Strategy.single with
      | Res.ok bytes => decodeBytes bytes
      | _ => Res.div) = Res.ok [104, 105, 0] := by
  decide +kernel

/-! ### C07 in the stream written -/

/-- **C07 is false** for the stream actually written: for a certain input of 720008 bytes the header says
`BZh9`, and the only block of the stream, read back by the format's own decoder up to the transform, has a
last column of 900005 bytes. -/
theorem C07_refuted_in_stream : ∃ d : List UInt8, ∀ dist t, 1 ≤ t → ∃ (bytes : List UInt8) (p : BlockParts),
    encodeBytes dist d t Strategy.single = Res.ok bytes ∧
    PaddedTo8 (streamHeader 0x39 ++ blockFrames [(d, p.body)] ++ footerMagic
      ++ natToBits 32 (streamCrc [(d, p.body)]).toNat) (bytesBits bytes) ∧
    mtfDecode p.used (zleDecode 1 p.syms) = some p.last ∧ p.last.length = 900005 := by
  refine ⟨longBlock 89999, fun dist t ht => ?_⟩
  have hne : longBlock 89999 ≠ [] := by
    intro h
    have := longBlock_length 89999
    rw [h] at this
    simp at this
  have hl : (longBlock 89999).length = 720008 := by rw [longBlock_length]
  have hb : blocksOf (longBlock 89999) = [longBlock 89999] := by
    rw [blocksOf_cons _ hne, cut_longBlock, List.take_of_length_le (by simp only [hl]; omega),
      List.drop_of_length_le (by simp only [hl]; omega), blocksOf_nil]
  obtain ⟨blocks, bytes, e1, e2, e3, e4⟩ := encodeBytes_single dist (longBlock 89999) t ht
  rw [hb] at e2
  match blocks, e2, e3, e4 with
  | _ :: _ :: _, e2, _, _ => simp at e2
  | [b], e2, e3, e4 =>
    obtain ⟨b1, b2⟩ := b
    obtain ⟨p, p1, p2⟩ := e3 (b1, b2) (by simp)
    simp only [List.map_cons, List.map_nil, List.cons.injEq, and_true] at e2
    simp only at p1 p2
    subst e2
    subst p2
    refine ⟨bytes, p, e1, e4, p1.mtf, ?_⟩
    obtain ⟨last, ptr, f1, f2, f3⟩ := C30_bwt_never_fails p.rle p1.ne
    rw [p1.transform] at f1
    simp only [Res.ok.injEq, Prod.mk.injEq] at f1
    rw [← f1.1] at f2
    rw [f2.length_eq, p1.rle, longBlock_size]

end Ribzip2
