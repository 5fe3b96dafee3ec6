import Verif.Proofs.BlockWise
import Verif.Props.RoundTrip
/- Properties C28, C29, C49 (and C35 for this strategy): the k-means strategy. -/
namespace Ribzip2
open Spec

/-! ### C28 -/

theorem rle1Decode_length (l : List UInt8) : (rle1Decode l).length ≤ 256 * l.length := by
  fun_induction rle1Decode l with
  | case1 a b c d n rest h ih =>
    have := n.toNat_lt
    simp only [List.length_append, List.length_replicate, List.length_cons]
    omega
  | case2 a b c d n rest h ih =>
    simp only [List.length_cons] at ih ⊢
    omega
  | case3 a rest h ih =>
    simp only [List.length_cons]
    omega
  | case4 => simp

/-- The number of selectors with the k-means strategy, exactly: one too many iff the number of symbols of
the block, end-of-block included, is a multiple of 50. -/
theorem C28_selector_count (dist : Distance) (nc it : Nat) (hnc : 1 ≤ nc) (rle : List UInt8) (hne : rle ≠ [])
    (zle : List ZleSymbol) (rep : ReportedSymbols)
    (h : blockStats dist (Strategy.blockWise nc it) rle = Res.ok (zle, rep)) :
    rep.selectors.length = (zle.length + 1 + 49) / 50 + (if (zle.length + 1) % 50 = 0 then 1 else 0) := by
  rw [(blockWise_stats dist nc it hnc rle hne zle rep h).1]
  split <;> omega

/-- "banana" with three tables and two iterations: five symbols and the end of the block, one selector. -/
example : (blockStats (fun _ _ => 0) (Strategy.blockWise 3 2) banana >>= fun x =>
    Res.ok (x.1.length, x.2.selectors.length)) = Res.ok (5, 1) := by decide +kernel

/-- **C28**, partial: for every input, number of threads, distance, number of iterations and 1 to 7 tables: if
every block is safe for the transform and free of count collisions, and its statistics leave no gap in the
selectors and do not have a multiple of 50 symbols (end-of-block included), then `decode_stream` returns
the input. Missing: the other inputs; each condition has an input that fails (`C01_refuted`,
`C28_refuted_gap`, `C28_refuted_extra_selector`). -/
theorem C28_round_trip_partial (dist : Distance) (nc it : Nat) (hnc : 1 ≤ nc) (h7 : nc ≤ 7) (d : List UInt8)
    (t : Nat) (ht : 1 ≤ t)
    (h : ∀ b ∈ blocksOf d, TransformSafe (rle1Encode b) ∧ noCountCollision (runs b) = true)
    (hstats : ∀ b ∈ blocksOf d, ∀ zle rep, blockStats dist (Strategy.blockWise nc it) (rle1Encode b)
      = Res.ok (zle, rep) → NoGap rep.selectors ∧ (zle.length + 1) % 50 ≠ 0) :
    ∃ bytes, encodeBytes dist d t (Strategy.blockWise nc it) = Res.ok bytes ∧ decodeBytes bytes = Res.ok d := by
  obtain ⟨blocks, bytes, e1, e2, e3, e4⟩ := encodeBytes_parts dist (Strategy.blockWise nc it) nc d t ht
    (fun b hb => generate_parts dist _ nc (by omega) (blockWise_workable dist nc it hnc) b
      (blocksOf_ne_nil d b hb) (blocksOf_size d b hb) (by
        intro zle rep hz
        obtain ⟨g1, g2⟩ := hstats b hb zle rep hz
        obtain ⟨k1, -⟩ := blockWise_stats dist nc it hnc _ (rle1Encode_ne_nil b (blocksOf_ne_nil d b hb)) zle rep hz
        exact ⟨g1, by omega⟩))
  refine ⟨bytes, e1, ?_⟩
  have hc : contents blocks = d := by rw [contents, List.flatMap_def, e2, blocksOf_flatten]
  rw [decodeBytes_written nc blocks bytes e3 e4 (fun b hb => h b.1 (by
    rw [← e2]; exact List.mem_map.2 ⟨b, hb, rfl⟩)), hc]

/-- The hypotheses are met by "banana" with six tables and three iterations. -/
theorem banana_stats (nc it : Nat) (hnc : 1 ≤ nc) : ∀ b ∈ blocksOf banana, ∀ zle rep,
    blockStats euclid (Strategy.blockWise nc it) (rle1Encode b) = Res.ok (zle, rep) →
      NoGap rep.selectors ∧ (zle.length + 1) % 50 ≠ 0 := by
  rw [banana_block]
  intro b hb zle rep hz
  rw [List.mem_singleton.1 hb, banana_rle] at hz
  obtain ⟨k1, -, -, k4, k5⟩ := blockWise_stats euclid nc it hnc banana (by decide) zle rep hz
  have : banana.length = 6 := rfl
  exact ⟨noGap_zero _ (k4 rfl (by omega)), by omega⟩

example : ∃ bytes, encodeBytes euclid banana 2 (Strategy.blockWise 6 3) = Res.ok bytes ∧
    decodeBytes bytes = Res.ok banana :=
  C28_round_trip_partial euclid 6 3 (by decide) (by decide) banana 2 (by decide) banana_good
    (banana_stats 6 3 (by decide))

/-- **C28**, partial: without iterations or with one table there is never a gap. -/
theorem C28_round_trip_no_iterations_partial (dist : Distance) (nc it : Nat) (hnc : 1 ≤ nc) (h7 : nc ≤ 7)
    (h0 : it = 0 ∨ nc = 1) (d : List UInt8) (t : Nat) (ht : 1 ≤ t)
    (h : ∀ b ∈ blocksOf d, TransformSafe (rle1Encode b) ∧ noCountCollision (runs b) = true)
    (hstats : ∀ b ∈ blocksOf d, ∀ zle rep, blockStats dist (Strategy.blockWise nc it) (rle1Encode b)
      = Res.ok (zle, rep) → (zle.length + 1) % 50 ≠ 0) :
    ∃ bytes, encodeBytes dist d t (Strategy.blockWise nc it) = Res.ok bytes ∧ decodeBytes bytes = Res.ok d := by
  apply C28_round_trip_partial dist nc it hnc h7 d t ht h
  intro b hb zle rep hz
  refine ⟨noGap_zero _ ?_, hstats b hb zle rep hz⟩
  obtain ⟨-, k2, k3, -⟩ := blockWise_stats dist nc it hnc _ (rle1Encode_ne_nil b (blocksOf_ne_nil d b hb)) zle rep hz
  rcases h0 with h0 | h0
  · exact k3 h0
  · intro s hs
    have := k2 s hs
    exact UInt8.toNat_inj.1 (by show s.toNat = 0; omega)

example : ∃ bytes, encodeBytes euclid banana 2 (Strategy.blockWise 7 0) = Res.ok bytes ∧
    decodeBytes bytes = Res.ok banana :=
  C28_round_trip_no_iterations_partial euclid 7 0 (by decide) (by decide) (Or.inl rfl) banana 2 (by decide) banana_good
    (fun b hb zle rep h => (banana_stats 7 0 (by decide) b hb zle rep h).2)

/-- **C28**, partial: with the distance of the program, every input whose run-length encoding has at most 48
bytes, with every number of iterations and 1 to 7 tables. -/
theorem C28_round_trip_short_partial (nc it : Nat) (hnc : 1 ≤ nc) (h7 : nc ≤ 7) (d : List UInt8)
    (t : Nat) (ht : 1 ≤ t) (hlen : (rle1Encode d).length ≤ 48) (h : TransformSafe (rle1Encode d))
    (h2 : noCountCollision (runs d) = true) :
    ∃ bytes, encodeBytes euclid d t (Strategy.blockWise nc it) = Res.ok bytes ∧ decodeBytes bytes = Res.ok d := by
  have hb : ∀ b ∈ blocksOf d, b = d ∧ b ≠ [] := by
    intro b hb
    refine ⟨?_, blocksOf_ne_nil d b hb⟩
    by_cases hd : d = []
    · subst hd; simp [blocksOf_nil] at hb
    · by_cases hl : d.length ≤ 720000
      · rw [blocksOf_small d hd hl] at hb
        simpa using hb
      · exfalso
        have h1 := rle1Decode_encode d
        have h3 : ∀ l : List UInt8, (rle1Decode l).length ≤ 256 * l.length := rle1Decode_length
        have := h3 (rle1Encode d)
        rw [h1] at this
        omega
  apply C28_round_trip_partial euclid nc it hnc h7 d t ht
  · intro b hb'
    rw [(hb b hb').1]
    exact ⟨h, h2⟩
  · intro b hb' zle rep hz
    obtain ⟨k1, -, -, k4, k5⟩ := blockWise_stats euclid nc it hnc _ (rle1Encode_ne_nil b (hb b hb').2) zle rep hz
    rw [(hb b hb').1] at k5
    exact ⟨noGap_zero _ (k4 rfl (by omega)), by omega⟩

/-- Such an input: "hello world!" and a zero byte. -/
example : (rle1Encode [104, 101, 108, 108, 111, 32, 119, 111, 114, 108, 100, 33, 0]).length ≤ 48 ∧
    TransformSafe (rle1Encode [104, 101, 108, 108, 111, 32, 119, 111, 114, 108, 100, 33, 0]) ∧
    noCountCollision (runs [104, 101, 108, 108, 111, 32, 119, 111, 114, 108, 100, 33, 0]) = true := by
  refine ⟨by decide +kernel, ?_, by decide +kernel⟩
  have e : rle1Encode [104, 101, 108, 108, 111, 32, 119, 111, 114, 108, 100, 33, 0]
      = [104, 101, 108, 108, 111, 32, 119, 111, 114, 108, 100, 33] ++ [0] := by decide +kernel
  rw [e]
  exact transformSafe_of_last _ _ (by decide)

/-! ### C35 with k-means -/

/-- **C35** for the k-means strategy with 2 to 6 tables, partial: under the conditions of
`C28_round_trip_partial` and if the blocks have at most 900000 bytes, the stream is valid bzip2. -/
theorem C35_kmeans_valid_partial (dist : Distance) (nc it : Nat) (hnc : 2 ≤ nc) (h6 : nc ≤ 6) (d : List UInt8)
    (t : Nat) (ht : 1 ≤ t)
    (h : ∀ b ∈ blocksOf d, TransformSafe (rle1Encode b) ∧ (rle1Encode b).length ≤ 900000)
    (hstats : ∀ b ∈ blocksOf d, ∀ zle rep, blockStats dist (Strategy.blockWise nc it) (rle1Encode b)
      = Res.ok (zle, rep) → NoGap rep.selectors ∧ (zle.length + 1) % 50 ≠ 0) :
    ∃ bytes, encodeBytes dist d t (Strategy.blockWise nc it) = Res.ok bytes ∧ ValidStream d bytes := by
  obtain ⟨blocks, bytes, e1, e2, e3, e4⟩ := encodeBytes_parts dist (Strategy.blockWise nc it) nc d t ht
    (fun b hb => generate_parts dist _ nc (by omega) (blockWise_workable dist nc it (by omega)) b
      (blocksOf_ne_nil d b hb) (blocksOf_size d b hb) (by
        intro zle rep hz
        obtain ⟨g1, g2⟩ := hstats b hb zle rep hz
        obtain ⟨k1, -⟩ := blockWise_stats dist nc it (by omega) _
          (rle1Encode_ne_nil b (blocksOf_ne_nil d b hb)) zle rep hz
        exact ⟨g1, by omega⟩))
  refine ⟨bytes, e1, 9, blocks, ⟨by omega, by omega, e4⟩, ?_, ?_⟩
  · rw [contents, List.flatMap_def, e2, blocksOf_flatten]
  · intro b hb
    obtain ⟨p, p1, p2⟩ := e3 b hb
    obtain ⟨h1, h2⟩ := h b.1 (by rw [← e2]; exact List.mem_map.2 ⟨b, hb, rfl⟩)
    exact ⟨p, p1.valid hnc h6 h1 h2, p2⟩

example : ∃ bytes, encodeBytes euclid banana 2 (Strategy.blockWise 6 3) = Res.ok bytes ∧ ValidStream banana bytes :=
  C35_kmeans_valid_partial euclid 6 3 (by decide) (by decide) banana 2 (by decide) banana_fits
    (banana_stats 6 3 (by decide))

/-! ### C29 -/

theorem pad15_cases (x : UInt16) :
    convertToCodePadTo15Bits x ≠ Res.err ∧ convertToCodePadTo15Bits x ≠ Res.div := by
  unfold convertToCodePadTo15Bits subU
  dsimp only
  split <;> simp

theorem generateBlock_zero (dist : Distance) (it : Nat) (crc : BitVec 32) (rle : List UInt8) (hne : rle ≠ []) :
    generateBlockData dist (Strategy.blockWise 0 it) crc rle = Res.panic := by
  obtain ⟨last, ptr, b1, b2, b3⟩ := C30_bwt_never_fails rle hne
  obtain ⟨enc, m1, m2, m3, m4⟩ := mtf_spec last
  have hlast : last.length = rle.length := b2.length_eq
  have hlne : last ≠ [] := by intro h; rw [h] at hlast; exact hne (List.length_eq_zero_iff.1 hlast.symm)
  have hun : 1 ≤ (usedBytes last).length := by
    obtain ⟨x, hx⟩ := List.exists_mem_of_ne_nil last hlne
    exact List.length_pos_of_mem (mem_usedBytes.2 hx)
  obtain ⟨m, h1, h2⟩ := blockWise_reportAll dist 0 it (usedBytes last).length 0 (zleEncode 0 enc ++ [ZleSymbol.runA])
    (by
      intro s hs
      rcases List.mem_append.1 hs with hs | hs
      · exact (zleEncode_symOk _ hun enc m4 s hs).1
      · simp at hs; subst hs; simp [symbolIndex])
    (BlockWiseMap.create _) (BlockWiseMap.ok_create _)
  have hz : zleWithStrategy dist (Strategy.blockWise 0 it) enc (usedBytes last).length
      = (kmeansSolve dist (m.size + 1) (m.maps ++ [m.current]) it 0 >>= fun p =>
          Res.ok (zleEncode 0 enc, ⟨p.1, p.2⟩)) := by
    simp only [zleWithStrategy, zleTransform_eq, h1, Res.ok_bind]
    simp only [blockWiseReporter, BlockWiseMap.finalize]
    cases kmeansSolve dist (m.size + 1) (m.maps ++ [m.current]) it 0 <;> rfl
  cases it with
  | zero =>
    have hk : kmeansSolve dist (m.size + 1) (m.maps ++ [m.current]) 0 0
        = Res.ok ([], List.replicate (m.maps ++ [m.current]).length 0) := rfl
    rw [hk, Res.ok_bind] at hz
    obtain ⟨e, e1, -⟩ := createSelectors_eq (List.replicate (m.maps ++ [m.current]).length 0)
    have htab : ∀ pos, ∃ r, tableAt [] (List.replicate (m.maps ++ [m.current]).length 0) pos = r ∧ r = Res.panic := by
      intro pos
      refine ⟨_, rfl, ?_⟩
      unfold tableAt idx
      cases (List.replicate (m.maps ++ [m.current]).length (0 : UInt8))[pos / 50]? with
      | none => rfl
      | some s => simp
    simp only [generateBlockData, b1, Res.ok_bind, m1, hz, emitBlock, codeTables, e1]
    cases hc : convertToCodePadTo15Bits
        (UInt16.ofNat (List.replicate (m.maps ++ [m.current]).length (0 : UInt8)).length) with
    | err => exact absurd hc (pad15_cases _).1
    | panic => rfl
    | div => exact absurd hc (pad15_cases _).2
    | ok bits =>
      rw [Res.ok_bind]
      cases hz' : zleEncode 0 enc with
      | nil =>
        simp only [encodeSymbols, Res.ok_bind, List.length_nil]
        obtain ⟨r, r1, r2⟩ := htab 0
        rw [r1, r2]; rfl
      | cons s zle =>
        obtain ⟨r, r1, r2⟩ := htab 0
        simp only [encodeSymbols, r1, r2]
        rfl
  | succ it =>
    have hk : kmeansSolve dist (m.size + 1) (m.maps ++ [m.current]) (it + 1) 0 = Res.panic := by
      simp only [kmeansSolve, initialCenters, Res.ok_bind, lloyd]
      have : ∃ x l, (m.maps ++ [m.current]).zip (assignAll dist (m.maps ++ [m.current]) []) = x :: l := by
        cases hm : m.maps ++ [m.current] with
        | nil => simp at hm
        | cons x l => exact ⟨_, _, rfl⟩
      obtain ⟨⟨x, a⟩, l, hx⟩ := this
      rw [hx]
      rfl
    rw [hk] at hz
    simp only [generateBlockData, b1, Res.ok_bind, m1, hz]
    rfl

/-- **C29**, partial: with 0 tables the encoder panics on every non-empty input, whatever the number of
iterations and threads: nothing is written silently. Missing: 8 and more tables (`C29_refuted`); 1 to 7
tables are `C28_round_trip_partial`. -/
theorem C29_zero_tables_partial (dist : Distance) (it : Nat) (d : List UInt8) (hd : d ≠ []) (t : Nat) (ht : 1 ≤ t) :
    encodeBytes dist d t (Strategy.blockWise 0 it) = Res.panic := by
  rw [encodeBytes, encodeStream_ofBytes _ _ _ _ _ ht, blocksOf_cons d hd]
  obtain ⟨bw, a1, a2, a3⟩ := (BitWriter.fromWriter Writer.empty).writeBits_good fileHeader
    (BitWriter.good_from [])
  have hb : d.take (cut d).1 ≠ [] := blocksOf_ne_nil d _ (by rw [blocksOf_cons d hd]; simp)
  have hg := generateBlock_zero dist it (workOf (d.take (cut d).1)).crc (workOf (d.take (cut d).1)).rleTotal
    (rle1Encode_ne_nil _ hb)
  unfold encodeBlocks
  simp only [a1, andThen_eq, Res.unwrap_ok, List.map_cons, flushLoop, flushOne, hg]

example : encodeBytes euclid banana 2 (Strategy.blockWise 0 3) = Res.panic :=
  C29_zero_tables_partial euclid 3 banana (by decide) 2 (by decide)

/-! ### C49 -/

/-- **C49.** With the k-means strategy, at least one table (more than the format allows included) and a
reliable writer, `encode_stream` never panics and never returns an error, whatever the reader does, for
every number of iterations and threads, every distance function and however long it runs. -/
theorem C49_kmeans_never_panics (fuel : Nat) (dist : Distance) (nc it : Nat) (hnc : 1 ≤ nc) (r : Reader) (t : Nat) :
    (encodeStreamFuel fuel dist r Writer.empty t (Strategy.blockWise nc it)).2 = Res.ok () ∨
    (encodeStreamFuel fuel dist r Writer.empty t (Strategy.blockWise nc it)).2 = Res.div := by
  unfold encodeStreamFuel
  obtain ⟨bw1, a1, a2, a3⟩ := (BitWriter.fromWriter Writer.empty).writeBits_good fileHeader
    (BitWriter.good_from [])
  obtain ⟨bw2, res, m1, m2, m3, m4⟩ := mainLoop_no_panic
    (fun work => generateBlockData dist (Strategy.blockWise nc it) work.crc work.rleTotal) r.failTail t fuel r.events
    false bw1 0 a2 (by
      intro b hb hs
      exact generateBlock_ok dist _ nc (blockWise_workable dist nc it hnc) _ _ (rle1Encode_ne_nil b hb)
        (show (rle1Encode b).length + 1 < 2 ^ 20 by omega))
  rw [a1]
  simp only [andThen_eq, Res.unwrap_ok, m1]
  cases res with
  | ok crc =>
    obtain ⟨bw3, b1, b2, b3⟩ := bw2.writeBits_good (streamFooter crc) m2
    obtain ⟨bw4, c1, c2⟩ := bw3.finalize_good b2
    left
    simp only [b1, c1, Res.unwrap_ok]
  | err => exact absurd rfl m4
  | panic => exact absurd rfl m3
  | div => right; rfl

/-- Six tables; a reader with an interruption and a failure. -/
example : (encodeStreamFuel 100 (fun _ _ => 0) ⟨[REvent.data banana, REvent.intr, REvent.fail], false⟩ Writer.empty 2
    (Strategy.blockWise 6 3)).2 = Res.ok () := by
  rcases C49_kmeans_never_panics 100 (fun _ _ => 0) 6 3 (by decide)
    ⟨[REvent.data banana, REvent.intr, REvent.fail], false⟩ 2 with h | h
  · exact h
  · exact absurd h (by decide +kernel)

/-- **C49** for data in memory and at least one thread: it ends normally. -/
theorem C49_kmeans_always_succeeds (dist : Distance) (nc it : Nat) (hnc : 1 ≤ nc) (d : List UInt8) (t : Nat)
    (ht : 1 ≤ t) : ∃ bytes, encodeBytes dist d t (Strategy.blockWise nc it) = Res.ok bytes := by
  obtain ⟨w, hw⟩ := encodeBlocks_good_ok dist (Strategy.blockWise nc it) (blocksOf d) (by
    intro b hb
    have := blocksOf_size d b hb
    exact generateBlock_ok dist _ nc (blockWise_workable dist nc it hnc) _ _
      (rle1Encode_ne_nil b (blocksOf_ne_nil d b hb)) (by omega))
  exact ⟨_, encodeBytes_ofBytes dist d t ht _ w hw⟩

/-- More tables than the format has room for. -/
example : ∃ bytes, encodeBytes euclid [3, 1, 2] 2 (Strategy.blockWise 300 1) = Res.ok bytes :=
  C49_kmeans_always_succeeds euclid 300 1 (by omega) _ _ (by omega)

end Ribzip2
