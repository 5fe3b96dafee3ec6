import Verif.Proofs.Size
import Verif.Proofs.StreamWriter
import Verif.Props.RoundTrip
/- Property C61: appending to the input changes the output only from the last block on. -/
namespace Ribzip2
open Spec

theorem cutLoop_append (d x : List UInt8) (fuel fuel' n : Nat) (hf : d.length + 2 ≤ n + fuel) (hff : fuel ≤ fuel')
    (h : (cutLoop d fuel n).1 < d.length) : cutLoop (d ++ x) fuel' n = cutLoop d fuel n := by
  induction fuel generalizing fuel' n with
  | zero => simp only [cutLoop] at h; omega
  | succ fuel ih =>
    have hn : n < d.length := Nat.lt_of_le_of_lt (cutLoop_ge d (fuel + 1) n) h
    obtain ⟨fuel', rfl⟩ : ∃ f, fuel' = f + 1 := ⟨fuel' - 1, by omega⟩
    have htake : (d ++ x).take n = d.take n := List.take_append_of_le_length (by omega)
    have hrle : rleAt (d ++ x) n = rleAt d n := by rw [rleAt, rleAt, htake]
    rw [cutLoop, cutLoop, htake, hrle]
    rw [cutLoop] at h
    by_cases hs : (rle1Encode (d.take n)).length < 900000
    · obtain ⟨t1, t2⟩ := toTake_pos d n hs
      rw [if_pos hs, if_neg (by rw [List.length_append]; omega), if_pos hs, if_neg (by omega)]
      rw [if_pos hs, if_neg (by omega)] at h
      generalize (900000 - (rleAt d n).data.length) * 4 / 5 = k at *
      have hk : k < d.length - n := by
        by_contra hc
        have := cutLoop_ge d fuel (n + min k (d.length - n))
        omega
      rw [show min k ((d ++ x).length - n) = k by rw [List.length_append]; omega,
        show min k (d.length - n) = k by omega]
      rw [show min k (d.length - n) = k by omega] at h
      exact ih fuel' (n + k) (by omega) (by omega) h
    · rw [if_neg hs, if_neg hs]

theorem cut_append (d x : List UInt8) (h : (cut d).1 < d.length) : cut (d ++ x) = cut d :=
  cutLoop_append d x _ _ 0 (by omega) (by rw [List.length_append]; omega) h

/-- All blocks but the last stay. -/
theorem blocksOf_append (d x : List UInt8) : ∃ more, blocksOf (d ++ x) = (blocksOf d).dropLast ++ more := by
  induction d using blocks_induction with
  | h0 => exact ⟨_, rfl⟩
  | h1 d hd ih =>
    by_cases h : (cut d).1 < d.length
    · obtain ⟨more, ih⟩ := ih
      have hne : d.drop (cut d).1 ≠ [] := by
        intro e
        have := congrArg List.length e
        rw [List.length_drop, List.length_nil] at this
        omega
      have hb : blocksOf (d.drop (cut d).1) ≠ [] := by rw [blocksOf_cons _ hne]; simp
      refine ⟨more, ?_⟩
      rw [blocksOf_cons (d ++ x) (by simp [hd]), cut_append d x h, List.take_append_of_le_length (by omega),
        List.drop_append_of_le_length (by omega), ih, blocksOf_cons d hd, List.dropLast_cons_of_ne_nil hb]
      rfl
    · have := (cut_le d).1
      refine ⟨blocksOf (d ++ x), ?_⟩
      rw [blocksOf_cons d hd, show (cut d).1 = d.length by omega, List.drop_length, blocksOf_nil]
      rfl

theorem rle1_shrinks_at_most (d : List UInt8) : d.length ≤ 51 * (rle1Encode d).length := by
  have key : ∀ rs : List (UInt8 × Nat), RunsOk rs →
      (expandRuns rs).length ≤ 51 * (rs.flatMap encodeRun).length := by
    intro rs h
    induction rs with
    | nil => simp [expandRuns]
    | cons r rs ih =>
      obtain ⟨b, n⟩ := r
      have h' := ih h.tail
      have hn : 1 ≤ n ∧ n ≤ 255 := by
        cases rs with
        | nil => exact h
        | cons r rs => exact h.1
      have he : (expandRuns ((b, n) :: rs)).length = n + (expandRuns rs).length := by
        simp [expandRuns]
      have hr : n ≤ 51 * (encodeRun (b, n)).length := by
        unfold encodeRun
        dsimp only
        split
        · rw [List.length_replicate]; omega
        · simp; omega
      rw [he, List.flatMap_cons, List.length_append]
      omega
  have := key (runs d) (runs_ok d)
  rwa [runs_expand] at this

theorem paddedTo8_prefix {s u : List Bool} (h : PaddedTo8 s u) : s <+: u := by
  obtain ⟨k, -, h, -⟩ := h
  exact ⟨_, h.symm⟩

/-- The bits that stay when something is appended: header and blocks. -/
theorem encode_frames (dist : Distance) (strategy : Strategy) (d : List UInt8) (t : Nat) (ht : 1 ≤ t)
    (bytes : List UInt8) (h : encodeBytes dist d t strategy = Res.ok bytes) :
    ∃ outs : List (List Bit), (blocksOf d).map (fun b => generateBlockData dist strategy (crc32 b) (rle1Encode b)) = outs.map Res.ok ∧
      streamHeader 0x39 ++ outs.flatten <+: bytesBits bytes := by
  rw [encodeBytes, encodeStream_ofBytes _ _ _ _ _ ht] at h
  rcases hx : encodeBlocks dist strategy (blocksOf d) Writer.empty with ⟨w, r⟩
  rw [hx] at h
  cases r with
  | ok u =>
    obtain ⟨outs, o1, o2⟩ := encodeBlocks_good dist strategy _ _ hx
    simp only [Res.ok.injEq] at h
    subst h
    refine ⟨outs, o1, ?_⟩
    rw [streamBits, fileHeader_eq] at o2
    exact (List.prefix_append _ _).trans (paddedTo8_prefix o2)
  | err => simp at h
  | panic => simp at h
  | div => simp at h

/-- **C61.** For every input `d`, everything `x` that may be appended to it, every strategy and all thread
counts: the input is `kept ++ tail`, where `tail` has at most 45 900 255 bytes, and the outputs for `d` and for
`d ++ x` begin with the same bits: the stream header and the complete frames of blocks whose contents are
`kept`. -/
theorem C61_append_keeps_the_beginning (dist : Distance) (strategy : Strategy) (d x : List UInt8) (t t' : Nat)
    (ht : 1 ≤ t) (ht' : 1 ≤ t') (bytes bytes' : List UInt8)
    (h : encodeBytes dist d t strategy = Res.ok bytes)
    (h' : encodeBytes dist (d ++ x) t' strategy = Res.ok bytes') :
    ∃ (kept tail : List UInt8) (blocks : List (List UInt8 × List Bool)),
      d = kept ++ tail ∧ tail.length ≤ 45900255 ∧ contents blocks = kept ∧
      streamHeader 0x39 ++ blockFrames blocks <+: bytesBits bytes ∧
      streamHeader 0x39 ++ blockFrames blocks <+: bytesBits bytes' := by
  obtain ⟨outs, o1, o2⟩ := encode_frames dist strategy d t ht bytes h
  obtain ⟨outs', o1', o2'⟩ := encode_frames dist strategy (d ++ x) t' ht' bytes' h'
  by_cases hd : blocksOf d = []
  · have hd0 : d = [] := by rw [← blocksOf_flatten d, hd]; rfl
    refine ⟨[], [], [], by simp [hd0], by simp, rfl, ?_, ?_⟩
    · exact (List.prefix_append_right_inj _ |>.2 (by simp [blockFrames])).trans o2
    · exact (List.prefix_append_right_inj _ |>.2 (by simp [blockFrames])).trans o2'
  obtain ⟨more, hm⟩ := blocksOf_append d x
  have hb : blocksOf d = (blocksOf d).dropLast ++ [(blocksOf d).getLast hd] :=
    (List.dropLast_append_getLast hd).symm
  generalize (blocksOf d).dropLast = keep at *
  generalize hlast : (blocksOf d).getLast hd = last at *
  have hlsize : (rle1Encode last).length ≤ 900005 := blocksOf_size d last (by rw [hb]; simp)
  rw [hb, List.map_append] at o1
  rw [hm, List.map_append] at o1'
  obtain ⟨a, a', e1, e2, e3⟩ := List.append_eq_map_iff.1 o1
  obtain ⟨c, c', e1', e2', e3'⟩ := List.append_eq_map_iff.1 o1'
  have hac : a = c := by
    have : a.map Res.ok = c.map Res.ok := e2.trans e2'.symm
    exact (List.map_injective_iff.2 (fun _ _ h => by simpa using h)) this
  subst hac
  obtain ⟨blocks, b1, b2, -, -⟩ := streamBits_frames dist strategy keep a e2.symm
  refine ⟨keep.flatten, last, blocks, ?_, ?_, ?_, ?_, ?_⟩
  · conv => lhs; rw [← blocksOf_flatten d, hb]
    simp
  · have := rle1_shrinks_at_most last
    omega
  · rw [contents, List.flatMap_def, b1]
  · rw [b2]
    refine List.IsPrefix.trans ?_ o2
    rw [e1, List.flatten_append, ← List.append_assoc]
    exact List.prefix_append _ _
  · rw [b2]
    refine List.IsPrefix.trans ?_ o2'
    rw [e1', List.flatten_append, ← List.append_assoc]
    exact List.prefix_append _ _

/-- The hypotheses are met, and the part that stays is not empty: fifty million zero bytes, and one more. -/
example : ∃ bytes bytes', encodeBytes (fun _ _ => 0) (List.replicate 50000000 0) 1 Strategy.single = Res.ok bytes ∧
    encodeBytes (fun _ _ => 0) (List.replicate 50000000 0 ++ [1]) 2 Strategy.single = Res.ok bytes' ∧
    ∃ blocks : List (List UInt8 × List Bool), contents blocks ≠ [] ∧
      streamHeader 0x39 ++ blockFrames blocks <+: bytesBits bytes ∧
      streamHeader 0x39 ++ blockFrames blocks <+: bytesBits bytes' := by
  obtain ⟨bytes, h⟩ := C39_always_succeeds (fun _ _ => 0) (List.replicate 50000000 0) 1 (by omega)
  obtain ⟨bytes', h'⟩ := C39_always_succeeds (fun _ _ => 0) (List.replicate 50000000 0 ++ [1]) 2 (by omega)
  refine ⟨bytes, bytes', h, h', ?_⟩
  obtain ⟨kept, tail, blocks, e1, e2, e3, e4, e5⟩ :=
    C61_append_keeps_the_beginning _ _ _ _ _ _ (by omega) (by omega) _ _ h h'
  refine ⟨blocks, ?_, e4, e5⟩
  intro e
  rw [e3] at e
  have := congrArg List.length e1
  rw [List.length_replicate, List.length_append, e, List.length_nil] at this
  omega

end Ribzip2
