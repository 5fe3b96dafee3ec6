import Verif.Proofs.BwtInjective
import Verif.Proofs.Unique
import Verif.Props.RoundTrip
import Verif.Props.BlockWise
/- Property C58: compression loses no information, not even for the inputs whose output `decode_stream` (or any
other bzip2 decoder) does not read back. -/
namespace Ribzip2
open Spec

/-- **C58** for the transform alone: `bwt` of two different blocks differs in the column or in the pointer.
(It is not the sorted-rotation transform, see `C30_refuted`, but it can be undone.) -/
theorem C58_transform_is_injective (s s' last : List UInt8) (ptr : Nat) (hne : s ≠ []) (hne' : s' ≠ [])
    (h : bwt s = Res.ok (last, ptr)) (h' : bwt s' = Res.ok (last, ptr)) : s = s' := by
  obtain ⟨f, h1, h2, -, h4⟩ := duval_spec s
  obtain ⟨f', h1', h2', -, h4'⟩ := duval_spec s'
  obtain ⟨sa, g1, g2⟩ := C32_suffix_array (rotation s f)
  obtain ⟨sa', g1', g2'⟩ := C32_suffix_array (rotation s' f')
  have h0 : 0 < s.length := List.length_pos_iff.2 hne
  obtain ⟨last1, ptr1, k1, k2, -⟩ := C30_bwt_never_fails s hne
  obtain ⟨last2, ptr2, k1', k2', -⟩ := C30_bwt_never_fails s' hne'
  have hlen : s'.length = s.length := by
    rw [h] at k1
    rw [h'] at k1'
    simp only [Res.ok.injEq, Prod.mk.injEq] at k1 k1'
    rw [← k1'.1] at k2'
    rw [← k1.1] at k2
    rw [← k2.length_eq, ← k2'.length_eq]
  obtain ⟨L, row, e1, e2⟩ := Inj.bwt_rows s hne f h1 (h2 hne) sa g1 g2 s.length rfl h0
  obtain ⟨L', row', e1', e2'⟩ := Inj.bwt_rows s' hne' f' h1' (h2' hne') sa' g1' g2' s.length hlen h0
  rw [h, Res.ok.injEq, Prod.mk.injEq] at e2
  rw [h', Res.ok.injEq, Prod.mk.injEq] at e2'
  have hL : L = L' := List.ofFn_injective (e2.1.symm.trans e2'.1)
  subst hL
  have hw : (s.drop f).length = s.length - f := by simp
  have hw' : (s'.drop f').length = s'.length - f' := by simp
  have := Inj.injective (w := s.drop f) (y := s.take f) (w' := s'.drop f') (y' := s'.take f') e1
    (Inj.smallest_of_at ⟨h2 hne, h4⟩) e1' (Inj.smallest_of_at ⟨h2' hne', h4'⟩) h0 (by
      apply Fin.ext
      simp only [hw, hw']
      rw [← e2.2, ← e2'.2])
  rwa [List.take_append_drop, List.take_append_drop] at this

/-- What is needed to undo a block the encoder wrote: its parts can be told apart, and the stages relate them
to the content `b`. -/
structure UndoableBlock (b : List UInt8) (p : BlockParts) : Prop where
  rle : p.rle = rle1Encode b
  sound : Sound p
  transform : bwt p.rle = Res.ok (p.last, p.ptr)
  mtf : mtfDecode p.used (zleDecode 1 p.syms) = some p.last
  ne : p.rle ≠ []

theorem written_peel {d e : List UInt8} {p q : BlockParts} (hp : UndoableBlock d p)
    (hq : UndoableBlock e q) {r s : List Bool} (h : p.body ++ r = q.body ++ s) : d = e ∧ r = s := by
  obtain ⟨hptr, hused, hs, h⟩ := parts_peel hp.sound hq.sound h
  refine ⟨?_, h⟩
  have m1 := hp.mtf
  have m2 := hq.mtf
  rw [hused, hs, m2] at m1
  simp only [Option.some.injEq] at m1
  have b1 := hp.transform
  have b2 := hq.transform
  rw [← m1, hptr] at b1
  have := C58_transform_is_injective _ _ _ _ hp.ne hq.ne b1 b2
  rw [hp.rle, hq.rle] at this
  rw [← rle1Decode_encode d, ← rle1Decode_encode e, this]

/-- The strategy makes undoable blocks of all blocks of the input. -/
def Undoable (dist : Distance) (strategy : Strategy) (d : List UInt8) : Prop :=
  ∀ b ∈ blocksOf d, ∃ p, UndoableBlock b p ∧
    generateBlockData dist strategy (crc32 b) (rle1Encode b) = Res.ok (blockFrame b p.body)

/-- What is written of an input all of whose blocks are undoable. -/
theorem encodeBytes_undoable (dist : Distance) (strategy : Strategy) (d : List UInt8) (t : Nat) (ht : 1 ≤ t)
    (hgen : Undoable dist strategy d) :
    ∃ (blocks : List (List UInt8 × List Bool)) (bytes : List UInt8) (k : Nat),
      encodeBytes dist d t strategy = Res.ok bytes ∧ blocks.map (fun b => b.1) = blocksOf d ∧
      (∀ b ∈ blocks, ∃ p, UndoableBlock b.1 p ∧ b.2 = p.body) ∧
      bytesBits bytes = streamHeader 0x39 ++ blockFrames blocks ++ footerMagic
        ++ natToBits 32 (streamCrc blocks).toNat ++ List.replicate k false := by
  obtain ⟨w, hw⟩ := encodeBlocks_good_ok dist strategy (blocksOf d) (by
    intro b hb
    obtain ⟨p, -, h⟩ := hgen b hb
    exact ⟨_, h⟩)
  obtain ⟨outs, o1, o2⟩ := encodeBlocks_good dist strategy _ w hw
  obtain ⟨blocks, b1, b2, b3, b4⟩ := streamBits_frames dist strategy _ outs o1
  rw [streamBits, footer_eq, fileHeader_eq, ← b2, ← b3, ← List.append_assoc] at o2
  obtain ⟨k, -, o2, -⟩ := o2
  refine ⟨blocks, w.out, k, encodeBytes_ofBytes dist d t ht _ w hw, b1, ?_, o2⟩
  intro b hb
  have hmem : b.1 ∈ blocksOf d := by rw [← b1]; exact List.mem_map.2 ⟨b, hb, rfl⟩
  obtain ⟨p, h1, h2⟩ := hgen b.1 hmem
  refine ⟨p, h1, ?_⟩
  rw [b4 b hb] at h2
  simpa [blockFrame] using h2

/-- Two inputs written as the same bytes, by whatever strategies and with however many threads, are the same
if all their blocks are undoable. -/
theorem same_bytes_same_input {dist dist' : Distance} {st st' : Strategy} {d d' : List UInt8} {t t' : Nat}
    (ht : 1 ≤ t) (ht' : 1 ≤ t') (g : Undoable dist st d) (g' : Undoable dist' st' d')
    (bytes : List UInt8) (h : encodeBytes dist d t st = Res.ok bytes)
    (h' : encodeBytes dist' d' t' st' = Res.ok bytes) : d = d' := by
  obtain ⟨a, bs, k, e1, e2, e3, e4⟩ := encodeBytes_undoable dist st d t ht g
  obtain ⟨b, bs', k', e1', e2', e3', e4'⟩ := encodeBytes_undoable dist' st' d' t' ht' g'
  rw [h, Res.ok.injEq] at e1
  rw [h', Res.ok.injEq] at e1'
  subst e1
  subst e1'
  rw [e4] at e4'
  simp only [List.append_assoc] at e4'
  have e4' := List.append_cancel_left e4'
  have := frames_peel_of (fun d x => ∃ p, UndoableBlock d p ∧ x = p.body)
    (fun d x => ∃ p, UndoableBlock d p ∧ x = p.body) (by
      rintro d e x y r s ⟨p, p1, rfl⟩ ⟨q, q1, rfl⟩ h
      exact written_peel p1 q1 h) a b e3 e3' e4'
  rw [e2, e2'] at this
  rw [← blocksOf_flatten d, ← blocksOf_flatten d', this]

/-- With a single table every block is undoable. -/
theorem single_undoable (dist : Distance) (d : List UInt8) : Undoable dist Strategy.single d := by
  intro b hb
  obtain ⟨p, h1, h2⟩ := generate_written dist b (blocksOf_ne_nil d b hb) (blocksOf_size d b hb)
  exact ⟨p, ⟨h1.rle, h1.readable.sound, h1.transform, h1.mtf, h1.ne⟩, h2⟩

/-- With k-means every block without a gap in the selectors is undoable. -/
theorem blockWise_undoable (dist : Distance) (nc it : Nat) (hnc : 1 ≤ nc) (h7 : nc ≤ 7) (d : List UInt8)
    (hstats : ∀ b ∈ blocksOf d, ∀ zle rep, blockStats dist (Strategy.blockWise nc it) (rle1Encode b)
      = Res.ok (zle, rep) → NoGap rep.selectors) : Undoable dist (Strategy.blockWise nc it) d := by
  intro b hb
  have hne := rle1Encode_ne_nil b (blocksOf_ne_nil d b hb)
  have hs := blocksOf_size d b hb
  obtain ⟨p, h1, h2, -, -, -, h5, h6, -, -, -, -, h9⟩ := generateBlock_sound dist _ nc (by omega)
    (blockWise_workable dist nc it hnc) (crc32 b) (rle1Encode b) hne (by omega) (hstats b hb)
  rw [crc32_eq_spec] at h9 ⊢
  exact ⟨p, ⟨h1, h2, by rw [h1]; exact h5, h6, by rw [h1]; exact hne⟩, h9⟩

/-- **C58.** For all inputs, numbers of threads and distances: if `encode_stream` (single table) writes the
same bytes for two inputs, the inputs are the same. -/
theorem C58_encoder_is_injective (dist dist' : Distance) (d d' : List UInt8) (t t' : Nat) (ht : 1 ≤ t) (ht' : 1 ≤ t')
    (bytes : List UInt8) (h : encodeBytes dist d t Strategy.single = Res.ok bytes)
    (h' : encodeBytes dist' d' t' Strategy.single = Res.ok bytes) : d = d' :=
  same_bytes_same_input ht ht' (single_undoable dist d) (single_undoable dist' d') bytes h h'

/-- **C58**, put differently: there is a function (not `decode_stream`) that restores every input from the
output of `encode_stream` (single table), so nothing that was compressed is lost. -/
theorem C58_a_decoder_exists : ∃ recover : List UInt8 → List UInt8, ∀ (dist : Distance) (d : List UInt8) (t : Nat),
    1 ≤ t → ∃ bytes, encodeBytes dist d t Strategy.single = Res.ok bytes ∧ recover bytes = d := by
  classical
  refine ⟨fun bytes => if h : ∃ x : Distance × List UInt8 × Nat, 1 ≤ x.2.2 ∧
      encodeBytes x.1 x.2.1 x.2.2 Strategy.single = Res.ok bytes then (Classical.choose h).2.1 else [], ?_⟩
  intro dist d t ht
  obtain ⟨bytes, h⟩ := C39_always_succeeds dist d t ht
  refine ⟨bytes, h, ?_⟩
  have hex : ∃ x : Distance × List UInt8 × Nat, 1 ≤ x.2.2 ∧
      encodeBytes x.1 x.2.1 x.2.2 Strategy.single = Res.ok bytes := ⟨(dist, d, t), ht, h⟩
  simp only [dif_pos hex]
  obtain ⟨c1, c2⟩ := Classical.choose_spec hex
  exact C58_encoder_is_injective _ dist _ d _ t c1 ht bytes c2 h

/-! ### The other strategy -/

/-- **C58** for the k-means strategy, partial: two inputs, compressed with any two numbers of tables and
iterations, distances and numbers of threads, whose blocks leave no gap in the selectors. Missing: the blocks
with a gap in the selectors. (No condition on the transform, the counts and the number of symbols, as for
`C28_round_trip_partial`.) -/
theorem C58_encoder_is_injective_block_wise_partial (dist dist' : Distance) (nc it nc' it' : Nat)
    (hnc : 1 ≤ nc) (h7 : nc ≤ 7) (hnc' : 1 ≤ nc') (h7' : nc' ≤ 7) (d d' : List UInt8) (t t' : Nat)
    (ht : 1 ≤ t) (ht' : 1 ≤ t')
    (hstats : ∀ b ∈ blocksOf d, ∀ zle rep, blockStats dist (Strategy.blockWise nc it) (rle1Encode b)
      = Res.ok (zle, rep) → NoGap rep.selectors)
    (hstats' : ∀ b ∈ blocksOf d', ∀ zle rep, blockStats dist' (Strategy.blockWise nc' it') (rle1Encode b)
      = Res.ok (zle, rep) → NoGap rep.selectors)
    (bytes : List UInt8) (h : encodeBytes dist d t (Strategy.blockWise nc it) = Res.ok bytes)
    (h' : encodeBytes dist' d' t' (Strategy.blockWise nc' it') = Res.ok bytes) : d = d' :=
  same_bytes_same_input ht ht' (blockWise_undoable dist nc it hnc h7 d hstats)
    (blockWise_undoable dist' nc' it' hnc' h7' d' hstats') bytes h h'

theorem noGap_trivial (dist : Distance) (nc it : Nat) (hnc : 1 ≤ nc) (h0 : it = 0 ∨ nc = 1) (d : List UInt8) :
    ∀ b ∈ blocksOf d, ∀ zle rep, blockStats dist (Strategy.blockWise nc it) (rle1Encode b)
      = Res.ok (zle, rep) → NoGap rep.selectors := by
  intro b hb zle rep hz
  refine noGap_zero _ ?_
  obtain ⟨-, k2, k3, -⟩ := blockWise_stats dist nc it hnc _ (rle1Encode_ne_nil b (blocksOf_ne_nil d b hb)) zle rep hz
  rcases h0 with h0 | h0
  · exact k3 h0
  · intro s hs
    have := k2 s hs
    exact UInt8.toNat_inj.1 (by show s.toNat = 0; omega)

/-- **C58** for the k-means strategy with up to 7 tables and no iterations, or with one table: for all inputs,
numbers of threads and distances, the ones included that `decode_stream` does not restore. -/
theorem C58_encoder_is_injective_no_iterations (dist dist' : Distance) (nc it nc' it' : Nat)
    (hnc : 1 ≤ nc) (h7 : nc ≤ 7) (hnc' : 1 ≤ nc') (h7' : nc' ≤ 7) (h0 : it = 0 ∨ nc = 1) (h0' : it' = 0 ∨ nc' = 1)
    (d d' : List UInt8) (t t' : Nat) (ht : 1 ≤ t) (ht' : 1 ≤ t')
    (bytes : List UInt8) (h : encodeBytes dist d t (Strategy.blockWise nc it) = Res.ok bytes)
    (h' : encodeBytes dist' d' t' (Strategy.blockWise nc' it') = Res.ok bytes) : d = d' :=
  C58_encoder_is_injective_block_wise_partial dist dist' nc it nc' it' hnc h7 hnc' h7' d d' t t' ht ht'
    (noGap_trivial dist nc it hnc h0 d) (noGap_trivial dist' nc' it' hnc' h0' d') bytes h h'

/-- **C58** across the two strategies, partial: an input compressed with a single table and another one
compressed with k-means without a gap in the selectors never give the same output. -/
theorem C58_encoder_is_injective_across_strategies_partial (dist dist' : Distance) (nc it : Nat) (hnc : 1 ≤ nc)
    (h7 : nc ≤ 7) (d d' : List UInt8) (t t' : Nat) (ht : 1 ≤ t) (ht' : 1 ≤ t')
    (hstats : ∀ b ∈ blocksOf d', ∀ zle rep, blockStats dist' (Strategy.blockWise nc it) (rle1Encode b)
      = Res.ok (zle, rep) → NoGap rep.selectors)
    (bytes : List UInt8) (h : encodeBytes dist d t Strategy.single = Res.ok bytes)
    (h' : encodeBytes dist' d' t' (Strategy.blockWise nc it) = Res.ok bytes) : d = d' :=
  same_bytes_same_input ht ht' (single_undoable dist d) (blockWise_undoable dist' nc it hnc h7 d' hstats) bytes h h'

/-- "banana" meets the condition with six tables and three iterations: no other input that meets it is
compressed to the same bytes; nor is any input compressed with a single table. -/
example (d : List UInt8) (t : Nat) (ht : 1 ≤ t) (bytes : List UInt8)
    (h : encodeBytes euclid d t Strategy.single = Res.ok bytes)
    (h' : encodeBytes euclid banana 2 (Strategy.blockWise 6 3) = Res.ok bytes) : d = banana :=
  C58_encoder_is_injective_across_strategies_partial euclid euclid 6 3 (by decide) (by decide) d banana t 2 ht
    (by decide) (fun b hb zle rep hz => (banana_stats 6 3 (by decide) b hb zle rep hz).1) bytes h h'

/-- Both are compressed: the hypotheses are met. -/
example : ∃ bytes, encodeBytes euclid banana 2 (Strategy.blockWise 6 3) = Res.ok bytes :=
  let ⟨bytes, h, _⟩ := C28_round_trip_partial euclid 6 3 (by decide) (by decide) banana 2 (by decide) banana_good
    (banana_stats 6 3 (by decide))
  ⟨bytes, h⟩

/-- "baaa", which the sorted-rotation transform loses (`C30_refuted`), has a column and a pointer of its own. -/
example : bwt [98, 97, 97, 97] = Res.ok ([97, 98, 97, 97], 3) ∧
    bwt [97, 97, 97, 98] = Res.ok ([98, 97, 97, 97], 0) := ⟨by decide +kernel, by decide +kernel⟩

end Ribzip2
