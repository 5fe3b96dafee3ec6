import Verif.Props.Append
import Verif.Props.Recover
/- Property C86: blocks are self-contained. -/
namespace Ribzip2
open Spec

/-- The file consists of a header, the blocks and the end-of-stream magic, and whatever follows it. -/
def HasBlocks (file : List UInt8) (blocks : List (List UInt8 × List Bool)) : Prop :=
  ∃ (level : UInt8) (tail : List Bool), bytesBits file = streamHeader level ++ blockFrames blocks ++ footerMagic ++ tail

/-- The claim for a decoder: the files it accepts consist of blocks, which can be put together to other files in any order,
any number of times, and from different files; the decoder then returns the contents of these blocks. -/
def Recombines (decode : List UInt8 → Res (List UInt8)) : Prop :=
  ∀ (files outputs : List (List UInt8)), List.Forall₂ (fun f d => decode f = Res.ok d) files outputs →
    ∃ blocks : List (List (List UInt8 × List Bool)), List.Forall₂ HasBlocks files blocks ∧ outputs = blocks.map contents ∧
      ∀ mix file, (∀ b ∈ mix, ∃ bs ∈ blocks, b ∈ bs) → HasBlocks file mix → decode file = Res.ok (contents mix)

/-- From one file to many. -/
theorem recombines_of (decode : List UInt8 → Res (List UInt8)) (Good : List UInt8 × List Bool → Prop)
    (h1 : ∀ f d, decode f = Res.ok d → ∃ blocks, HasBlocks f blocks ∧ d = contents blocks ∧ ∀ b ∈ blocks, Good b)
    (h2 : ∀ mix file, (∀ b ∈ mix, Good b) → HasBlocks file mix → decode file = Res.ok (contents mix)) :
    Recombines decode := by
  intro files outputs h
  have key : ∃ blocks : List (List (List UInt8 × List Bool)), List.Forall₂ HasBlocks files blocks ∧
      outputs = blocks.map contents ∧ ∀ bs ∈ blocks, ∀ b ∈ bs, Good b := by
    induction h with
    | nil => exact ⟨[], List.Forall₂.nil, rfl, by simp⟩
    | @cons f d fs ds hf hrest ih =>
      obtain ⟨blocks, i1, i2, i3⟩ := ih
      obtain ⟨bs, j1, j2, j3⟩ := h1 f d hf
      refine ⟨bs :: blocks, List.Forall₂.cons j1 i1, by simp [i2, j2], ?_⟩
      intro x hx
      rcases List.mem_cons.1 hx with rfl | hx
      exacts [j3, i3 x hx]
  obtain ⟨blocks, k1, k2, k3⟩ := key
  refine ⟨blocks, k1, k2, fun mix file hm hf => h2 mix file (fun b hb => ?_) hf⟩
  obtain ⟨bs, hbs, hb⟩ := hm b hb
  exact k3 bs hbs b hb

/-- **C86**, decoding. -/
theorem C86_blocks_can_be_recombined : Recombines decodeBytes := by
  refine recombines_of _ GoodBlock ?_ ?_
  · intro f d h
    rw [decodeBytes_eq] at h
    unfold pStream at h
    rcases hh : pHeader (bytesBits f) with b | _ | _ | _ <;> simp only [hh, Res.err_bind, Res.panic_bind, Res.div_bind,
      reduceCtorEq] at h
    obtain ⟨lv, hl⟩ := pHeader_inv hh
    obtain ⟨bodies, tail, g1, g2, g3, -, -, g6⟩ := pBlocks_splits (b.length + 1) b (by omega)
    rcases hp : (pBlocks (b.length + 1) b).2 with u | _ | _ | _ <;> simp only [hp, Res.ok_bind, Res.err_bind,
      Res.panic_bind, Res.div_bind, reduceCtorEq, Res.ok.injEq] at h
    obtain ⟨t, rfl⟩ := g6 hp
    refine ⟨bodies, ⟨lv, t, by rw [hl, g2]; simp⟩, ?_, g3⟩
    rw [contents_flatten, ← g1, h]
  · rintro mix file hg ⟨level, tail, hf⟩
    rw [decodeBytes_eq, pStream, hf, List.append_assoc, List.append_assoc, pHeader_append]
    dsimp only
    rw [pBlocks_append mix hg _ _ (by omega)]
    have hfoot : pBlocks ((footerMagic ++ tail).length + 1) (footerMagic ++ tail) = ([], Res.ok ()) := by
      rw [pBlocks, pWhatNext_footer]
    rw [hfoot]
    simp [contents_flatten]

/-- The block of `sampleA` twice, not on a byte boundary the second time, without a checksum of the stream. -/
def sampleTwice : List UInt8 :=
  [66, 90, 104, 57, 49, 65, 89, 38, 83, 89, 25, 147, 155, 107, 0, 0, 0, 1, 0, 32, 0, 32, 0, 32, 160, 40, 102,
   40, 43, 36, 202, 107, 35, 50, 115, 109, 96, 0, 0, 0, 32, 4, 0, 4, 0, 4, 20, 5, 12, 93, 201, 20, 225, 66, 64]

/-- It is decoded to its content twice, and meets the hypothesis of `C86_blocks_can_be_recombined`. -/
example : decodeBytes sampleTwice = Res.ok [97, 97] ∧ ∃ blocks, HasBlocks sampleTwice blocks ∧ contents blocks = [97, 97] := by
  have h : decodeBytes sampleTwice = Res.ok [97, 97] := by decide +kernel
  refine ⟨h, ?_⟩
  obtain ⟨blocks, h1, h2, -⟩ := C86_blocks_can_be_recombined [sampleTwice] [[97, 97]] (List.Forall₂.cons h List.Forall₂.nil)
  cases h1 with
  | @cons _ bs _ _ h1 hnil =>
    cases hnil
    simp only [List.map_cons, List.map_nil, List.cons.injEq, and_true] at h2
    exact ⟨bs, h1, h2.symm⟩

/-- **C86**, decoding, release builds. -/
theorem C86_blocks_can_be_recombined_release : Recombines Release.decodeBytes := by
  refine recombines_of _ Release.GoodBlock ?_ ?_
  · intro f d h
    rw [Release.decodeBytes_eq] at h
    unfold Release.pStream at h
    rcases hh : pHeader (bytesBits f) with b | _ | _ | _ <;> simp only [hh, Res.err_bind, Res.panic_bind, Res.div_bind,
      reduceCtorEq] at h
    obtain ⟨lv, hl⟩ := pHeader_inv hh
    obtain ⟨bodies, tail, g1, g2, g3, -, -, g6⟩ := Release.pBlocks_splits (b.length + 1) b (by omega)
    rcases hp : (Release.pBlocks (b.length + 1) b).2 with u | _ | _ | _ <;> simp only [hp, Res.ok_bind, Res.err_bind,
      Res.panic_bind, Res.div_bind, reduceCtorEq, Res.ok.injEq] at h
    obtain ⟨t, rfl⟩ := g6 hp
    refine ⟨bodies, ⟨lv, t, by rw [hl, g2]; simp⟩, ?_, g3⟩
    rw [contents_flatten, ← g1, h]
  · rintro mix file hg ⟨level, tail, hf⟩
    rw [Release.decodeBytes_eq, Release.pStream, hf, List.append_assoc, List.append_assoc, pHeader_append]
    dsimp only
    rw [Release.pBlocks_append mix hg _ _ (by omega)]
    have hfoot : Release.pBlocks ((footerMagic ++ tail).length + 1) (footerMagic ++ tail) = ([], Res.ok ()) := by
      rw [Release.pBlocks, pWhatNext_footer]
    rw [hfoot]
    simp [contents_flatten]

/-- A part that becomes a block becomes the same block on its own. -/
theorem blocksOf_single (d : List UInt8) : ∀ b ∈ blocksOf d, blocksOf b = [b] := by
  induction d using blocks_induction with
  | h0 => simp [blocksOf_nil]
  | h1 d hd ih =>
    rw [blocksOf_cons d hd]
    intro b hb
    rcases List.mem_cons.1 hb with rfl | hb
    · have hle := (cut_le d).1
      have hpos := cut_pos d hd
      have hlen : (d.take (cut d).1).length = (cut d).1 := by rw [List.length_take]; omega
      have hne : d.take (cut d).1 ≠ [] := by
        intro e; rw [e] at hlen; simp at hlen; omega
      have hcut : (cut (d.take (cut d).1)).1 = (d.take (cut d).1).length := by
        have h1 := (cut_le (d.take (cut d).1)).1
        by_contra hlt
        have := cut_append (d.take (cut d).1) (d.drop (cut d).1) (by omega)
        rw [List.take_append_drop] at this
        rw [← this] at hlt h1
        omega
      rw [blocksOf_cons _ hne, hcut, List.take_length, List.drop_length, blocksOf_nil]
    · exact ih b hb

/-- The bits of the file are those of a whole stream of level 9 with these blocks. -/
def IsStreamOf (file : List UInt8) (blocks : List (List UInt8 × List Bool)) : Prop :=
  PaddedTo8 (streamHeader 0x39 ++ blockFrames blocks ++ footerMagic ++ natToBits 32 (streamCrc blocks).toNat) (bytesBits file)

/-- **C86**, encoding: the compressed file consists of blocks, and each of them is what the encoder makes, with any number
of threads, of the content of the block alone. -/
theorem C86_compressed_block_by_block (dist : Distance) (strategy : Strategy) (d : List UInt8) (t : Nat) (ht : 1 ≤ t)
    (bytes : List UInt8) (h : encodeBytes dist d t strategy = Res.ok bytes) :
    ∃ blocks : List (List UInt8 × List Bool), contents blocks = d ∧ IsStreamOf bytes blocks ∧
      ∀ b ∈ blocks, b.1 ≠ [] ∧ ∀ t', 1 ≤ t' → ∃ file, encodeBytes dist b.1 t' strategy = Res.ok file ∧ IsStreamOf file [b] := by
  rw [encodeBytes, encodeStream_ofBytes _ _ _ _ _ ht] at h
  rcases hx : encodeBlocks dist strategy (blocksOf d) Writer.empty with ⟨w, r⟩
  rw [hx] at h
  rcases r with u | _ | _ | _ <;> simp only [reduceCtorEq, Res.ok.injEq] at h
  subst h
  obtain ⟨outs, o1, o2⟩ := encodeBlocks_good dist strategy _ _ hx
  obtain ⟨blocks, b1, b2, b3, b4⟩ := streamBits_frames dist strategy _ outs o1
  rw [streamBits, footer_eq, fileHeader_eq, ← b2, ← b3, ← List.append_assoc] at o2
  refine ⟨blocks, by rw [contents_flatten, b1, blocksOf_flatten], o2, fun b hb => ?_⟩
  have hmem : b.1 ∈ blocksOf d := by rw [← b1]; exact List.mem_map.2 ⟨b, hb, rfl⟩
  refine ⟨blocksOf_ne_nil d _ hmem, fun t' ht' => ?_⟩
  have hs := blocksOf_single d b.1 hmem
  obtain ⟨w', hw'⟩ := encodeBlocks_good_ok dist strategy [b.1] (by simpa using ⟨_, b4 b hb⟩)
  refine ⟨w'.out, by rw [encodeBytes, encodeStream_ofBytes _ _ _ _ _ ht', hs, hw'], ?_⟩
  obtain ⟨outs', p1, p2⟩ := encodeBlocks_good dist strategy _ _ hw'
  obtain ⟨blocks', c1, c2, c3, c4⟩ := streamBits_frames dist strategy _ outs' p1
  rw [streamBits, footer_eq, fileHeader_eq, ← c2, ← c3, ← List.append_assoc] at p2
  obtain ⟨b', rfl⟩ : ∃ b', blocks' = [b'] := by
    rcases blocks' with _ | ⟨b', _ | _⟩ <;> simp at c1
    exact ⟨b', rfl⟩
  simp only [List.map_cons, List.map_nil, List.cons.injEq, and_true] at c1
  have e := (c4 b' (by simp))
  rw [c1, b4 b hb, Res.ok.injEq] at e
  have : b' = b := by
    refine Prod.ext c1 ?_
    unfold blockFrame at e
    exact (List.append_cancel_left e).symm
  rw [this] at p2
  exact p2

/-- The hypotheses are met. -/
example (dist : Distance) : ∃ bytes, encodeBytes dist [122, 121, 120, 0] 3 Strategy.single = Res.ok bytes ∧
    ∃ blocks, contents blocks = [122, 121, 120, 0] ∧ IsStreamOf bytes blocks := by
  obtain ⟨bytes, h⟩ := C39_always_succeeds dist [122, 121, 120, 0] 3 (by omega)
  obtain ⟨blocks, h1, h2, -⟩ := C86_compressed_block_by_block dist _ _ 3 (by omega) bytes h
  exact ⟨bytes, h, blocks, h1, h2⟩

end Ribzip2
