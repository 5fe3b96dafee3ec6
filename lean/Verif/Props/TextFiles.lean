import Verif.Proofs.TextFiles
import Verif.Props.Injective
import Verif.Props.Release
import Verif.Props.ValidExact
import Verif.Props.Cli
/- Properties C01, C30, C35 and C51, how far their refutations reach: the ordinary text files that do not come back. -/
namespace Ribzip2
open Spec

/-- Let `w` be the smallest suffix of a block, `c` the byte before it, not occurring in `w`, and `r` the block rotated
to `w`. If `c` stands somewhere before a suffix of `r` that is smaller than `r` and no prefix of it, then inverting the
transform of the block does not give the block. -/
theorem C30_refuted_widely (s : List UInt8) (f : Nat) (hf : SmallestSuffixAt s f) (c : UInt8)
    (hc : 0 < f ∧ s[f - 1]? = some c) (hw : c ∉ s.drop f) (z : Nat) (hz : (rotation s f)[z]? = some c)
    (hlt : (rotation s f).drop (z + 1) < rotation s f) (hp : ¬ (rotation s f).drop (z + 1) <+: rotation s f)
    (last : List UInt8) (ptr : Nat) (hb : bwt s = Res.ok (last, ptr)) : inverseBwt last ptr ≠ Res.ok s := by
  obtain ⟨hfl, hmin⟩ := hf
  have hne : s ≠ [] := by rintro rfl; simp at hfl
  obtain ⟨f', h1, h2, -, h4⟩ := duval_spec s
  have hff : f' = f := smallestSuffixAt_unique ⟨h2 hne, h4⟩ ⟨hfl, hmin⟩
  subst hff
  obtain ⟨sa, g1, g2⟩ := C32_suffix_array (rotation s f')
  have h0 : 0 < s.length := List.length_pos_iff.2 hne
  obtain ⟨L, row, e1, e2⟩ := Inj.bwt_rows s hne f' h1 hfl sa g1 g2 s.length rfl h0
  rw [hb, Res.ok.injEq, Prod.mk.injEq] at e2
  obtain ⟨rfl, rfl⟩ := e2
  rw [Inj.inverseBwt_word]
  intro he
  rw [Res.ok.injEq] at he
  have hlen : (rotation s f').length = s.length := rotation_length s f' (by omega)
  have hmod : (s.length - f') % s.length = s.length - f' := Nat.mod_eq_of_lt (by omega)
  have hlastc : (rotation s f')[s.length - 1]? = some c := by
    rw [rotation, List.getElem?_append_right (by simp; omega), List.getElem?_take_of_lt (by simp; omega)]
    rw [← hc.2]; congr 1; simp; omega
  have hzl : z < s.length := by
    have := (List.getElem?_eq_some_iff.1 hz).1
    omega
  have hw2 := e1.word_wrong h0 (s.length - f') (by omega) (by
    intro x hx
    rw [hlastc] at hx
    by_contra hlt
    refine hw ?_
    rw [rotation, List.getElem?_append_left (by simp; omega)] at hx
    exact List.mem_of_getElem? hx) z hzl (by rw [hz, hlastc]) hlt hp
  have htake := Inj.word_take L (s.length - (s.length - f')) (s.length - f') (row ⟨s.length - f', by omega⟩)
  rw [show s.length - (s.length - f') + (s.length - f') = s.length by omega] at htake
  have hrow : row ⟨(s.length - f') % s.length, Nat.mod_lt _ h0⟩ = row ⟨s.length - f', by omega⟩ := by
    congr 1; exact Fin.ext hmod
  rw [hrow] at he
  rw [← htake, he] at hw2
  have : (rotation s f').drop (s.length - f') = s.take f' := by
    rw [rotation, List.drop_left' (by simp)]
  rw [this, show s.length - (s.length - f') = f' by omega] at hw2
  exact absurd hw2 (List.lt_irrefl _)

/-! ### The run-length stage of the decoder -/

theorem invRleStep_prefix (st : InvRle) (el : UInt8) : st.output <+: (invRleStep st el).output := by
  unfold invRleStep
  split
  · split
    · exact List.prefix_append _ _
    · split <;> exact List.prefix_append _ _
  · exact List.prefix_append _ _

theorem invRle_prefix (x : List UInt8) (st : InvRle) : st.output <+: (x.foldl invRleStep st).output := by
  induction x generalizing st with
  | nil => exact List.prefix_rfl
  | cons el x ih => exact (invRleStep_prefix st el).trans (ih _)

theorem invRle_short (x : List UInt8) (out : List UInt8) (k : Nat) (p : UInt8) (hk : k ≤ 3)
    (hs : List.replicate (k + 1) p <:+ out)
    (h : ∀ b, ¬ List.replicate 4 b <:+: (x.foldl invRleStep ⟨out, k, some p⟩).output) :
    (x.foldl invRleStep ⟨out, k, some p⟩).output = out ++ x := by
  induction x generalizing out k p with
  | nil => simp
  | cons el x ih =>
    rw [List.foldl_cons] at h ⊢
    have hpre := invRle_prefix x (invRleStep ⟨out, k, some p⟩ el)
    have hpre2 := (invRleStep_prefix ⟨out, k, some p⟩ el).trans hpre
    simp only at hpre2
    by_cases h3 : k = 3
    · subst h3
      exact absurd (hs.isInfix.trans hpre2.isInfix) (h p)
    · by_cases he : p = el
      · subst he
        have e : invRleStep ⟨out, k, some p⟩ p = ⟨out ++ [p], k + 1, some p⟩ := by simp [invRleStep, h3]
        rw [e] at h ⊢
        rw [ih (out ++ [p]) (k + 1) p (by omega) ?_ h]
        · simp
        · obtain ⟨a, rfl⟩ := hs
          exact ⟨a, by rw [List.replicate_succ' (n := k + 1)]; simp⟩
      · have e : invRleStep ⟨out, k, some p⟩ el = ⟨out ++ [el], 0, some el⟩ := by simp [invRleStep, h3, he]
        rw [e] at h ⊢
        rw [ih (out ++ [el]) 0 el (by omega) ⟨out, by simp⟩ h]
        simp

/-- What `inverse_rle` gives has four equal bytes in a row, or it is what `inverse_rle` was given. -/
theorem inverseRle_short (x : List UInt8) (h : ∀ b, ¬ List.replicate 4 b <:+: inverseRle x) : inverseRle x = x := by
  cases x with
  | nil => rfl
  | cons el x =>
    unfold inverseRle at h ⊢
    have e : invRleStep ⟨[], 0, none⟩ el = ⟨[el], 0, some el⟩ := rfl
    rw [List.foldl_cons, e] at h ⊢
    exact invRle_short x [el] 0 el (by omega) (List.suffix_rfl) h

theorem runsFrom_infix (b : UInt8) (n : Nat) (d : List UInt8) :
    ∀ r ∈ runsFrom b n d, List.replicate r.2 r.1 <:+: List.replicate n b ++ d := by
  induction d generalizing b n with
  | nil => simp [runsFrom]
  | cons c d ih =>
    intro r hr
    rw [runsFrom] at hr
    split at hr
    · rename_i hc
      have := ih b (n + 1) r hr
      rw [hc.1]
      rwa [List.replicate_succ', List.append_assoc, List.singleton_append] at this
    · rcases List.mem_cons.1 hr with rfl | hr
      · exact (List.prefix_append _ _).isInfix
      · exact (ih c 1 r hr).trans (List.suffix_append _ _).isInfix

theorem runs_short {d : List UInt8} (h : ∀ b, ¬ List.replicate 4 b <:+: d) : ∀ r ∈ runs d, r.2 < 4 := by
  cases d with
  | nil => simp [runs]
  | cons b d =>
    intro r hr
    by_contra hge
    refine h r.1 (List.IsInfix.trans ?_ (runsFrom_infix b 1 d r hr))
    rw [show r.2 = 4 + (r.2 - 4) by omega, List.replicate_add]
    exact (List.prefix_append _ _).isInfix

/-! ### What comes back -/

/-- What `decode_stream` makes of a block that was written for `b`, before it looks at the CRC. -/
def ReadAs (b x : List UInt8) : Prop :=
  ∃ last ptr s, bwt (rle1Encode b) = Res.ok (last, ptr) ∧ inverseBwt last ptr = Res.ok s ∧ x = inverseRle s

theorem pBlock_readAs (n : Nat) (b : List UInt8) (p : BlockParts) (h : WrittenBlock n b p) :
    ∃ x, ReadAs b x ∧ ∀ rest, pBlock (natToBits 32 (Spec.crc32 b).toNat ++ p.body ++ rest)
      = if Spec.crc32 x = Spec.crc32 b then Res.ok (x, rest) else Res.err := by
  have hr := h.readable
  obtain ⟨last, ptr, f1, f2, f3⟩ := C30_bwt_never_fails p.rle h.ne
  rw [h.transform] at f1
  simp only [Res.ok.injEq, Prod.mk.injEq] at f1
  rw [← f1.1] at f2
  rw [← f1.2] at f3
  have hl := f2.length_eq
  have hs := h.size
  obtain ⟨s, s1, -⟩ := inverseBwt_total p.last p.ptr (by omega)
  refine ⟨inverseRle s, ⟨p.last, p.ptr, s, by rw [← h.rle]; exact h.transform, s1, rfl⟩, fun rest => ?_⟩
  rw [pBlock_body p hr, finishBlock_stages p hr.used hr.symbols h.mtf (by omega), s1, Res.ok_bind, crc32_eq_spec]
  split <;> rfl

theorem pBlocks_readAs (n : Nat) (blocks : List (List UInt8 × List Bool))
    (h : ∀ b ∈ blocks, ∃ p, WrittenBlock n b.1 p ∧ b.2 = p.body) :
    ∃ xs, List.Forall₂ ReadAs (blocks.map (·.1)) xs ∧ ∀ (tail : List Bit) (fuel : Nat), blocks.length < fuel →
      (pBlocks fuel (blockFrames blocks ++ footerMagic ++ tail)).2
        = (if xs.map Spec.crc32 = blocks.map (fun b => Spec.crc32 b.1) then Res.ok () else Res.err) ∧
      (xs.map Spec.crc32 = blocks.map (fun b => Spec.crc32 b.1) →
        (pBlocks fuel (blockFrames blocks ++ footerMagic ++ tail)).1 = xs) := by
  induction blocks with
  | nil =>
    refine ⟨[], List.Forall₂.nil, fun tail fuel hf => ?_⟩
    match fuel, hf with
    | fuel + 1, _ =>
      simp only [blockFrames, List.flatMap_nil, List.nil_append, pBlocks, pWhatNext_footer]
      simp
  | cons b blocks ih =>
    obtain ⟨xs, i1, i2⟩ := ih (fun x hx => h x (by simp [hx]))
    obtain ⟨p, p1, p2⟩ := h b (by simp)
    obtain ⟨x, x1, x2⟩ := pBlock_readAs n b.1 p p1
    refine ⟨x :: xs, List.Forall₂.cons x1 i1, fun tail fuel hf => ?_⟩
    match fuel, hf with
    | fuel + 1, hf =>
      have e : blockFrames (b :: blocks) ++ footerMagic ++ tail
          = blockMagic ++ (natToBits 32 (Spec.crc32 b.1).toNat ++ p.body ++ (blockFrames blocks ++ footerMagic ++ tail)) := by
        simp [blockFrames, blockFrame, p2]
      rw [e]
      simp only [pBlocks, pWhatNext_block, x2]
      obtain ⟨j1, j2⟩ := i2 tail fuel (by simpa using hf)
      by_cases hc : Spec.crc32 x = Spec.crc32 b.1
      · simp only [hc, if_true, List.map_cons, List.cons.injEq, true_and]
        refine ⟨j1, fun hx => ?_⟩
        rw [j2 hx]
      · simp [hc]

/-- **C46**, exactly: for every input and number of threads, with `xs` what the blocks of the input are read as,
`decode_stream` on what `encode_stream` wrote (single table) returns the concatenation of `xs` if the CRCs are those of
the blocks of the input, and an error otherwise. -/
theorem C46_outcome (dist : Distance) (d : List UInt8) (t : Nat) (ht : 1 ≤ t) :
    ∃ bytes xs, encodeBytes dist d t Strategy.single = Res.ok bytes ∧ List.Forall₂ ReadAs (blocksOf d) xs ∧
      decodeBytes bytes =
        if xs.map Spec.crc32 = (blocksOf d).map Spec.crc32 then Res.ok xs.flatten else Res.err := by
  obtain ⟨blocks, bytes, e1, e2, e3, k, -, e4, -⟩ := encodeBytes_single dist d t ht
  obtain ⟨xs, x1, x2⟩ := pBlocks_readAs 2 blocks e3
  rw [e2] at x1
  refine ⟨bytes, xs, e1, x1, ?_⟩
  obtain ⟨j1, j2⟩ := x2 (natToBits 32 (streamCrc blocks).toNat ++ List.replicate k false)
    ((blockFrames blocks ++ footerMagic
      ++ (natToBits 32 (streamCrc blocks).toNat ++ List.replicate k false)).length + 1) (by
    have := blockFrames_length blocks
    simp only [List.length_append]
    omega)
  have hst : pStream (bytesBits bytes) = pBlocks ((blockFrames blocks ++ footerMagic
      ++ (natToBits 32 (streamCrc blocks).toNat ++ List.replicate k false)).length + 1) (blockFrames blocks
      ++ footerMagic ++ (natToBits 32 (streamCrc blocks).toNat ++ List.replicate k false)) := by
    rw [e4]
    simp only [List.append_assoc]
    rw [pStream, pHeader_append]
  have hmap : blocks.map (fun b => Spec.crc32 b.1) = (blocksOf d).map Spec.crc32 := by rw [← e2]; simp
  rw [hmap] at j1 j2
  rw [decodeBytes_eq, hst, j1]
  split
  · rename_i hc
    rw [j2 hc]; rfl
  · rfl

/-- The transform of such a text is not undone. -/
theorem text_not_inverted (d : List UInt8) (nl c a first : UInt8) (hmin : ∀ b ∈ d, nl ≤ b) (hc : c ≠ nl)
    (hend : [c, nl] <:+ d) (hfirst : d.head? = some first) (hin : [c, nl, a] <:+: d) (ha : a < first)
    (last : List UInt8) (ptr : Nat) (k2 : bwt d = Res.ok (last, ptr)) : inverseBwt last ptr ≠ Res.ok d := by
  obtain ⟨pre, rfl⟩ := hend
  have hfl : (pre ++ [c, nl]).length = pre.length + 2 := by simp
  have hsm : SmallestSuffixAt (pre ++ [c, nl]) (pre.length + 1) := by
    refine ⟨by omega, fun p hp => ?_⟩
    have e1 : (pre ++ [c, nl]).drop (pre.length + 1) = [nl] := by
      rw [show pre ++ [c, nl] = (pre ++ [c]) ++ [nl] by simp, List.drop_left' (by simp)]
    rw [e1, List.drop_eq_getElem_cons hp, List.cons_le_cons_iff]
    have := hmin _ (List.getElem_mem hp)
    rcases UInt8.lt_or_eq_of_le this with h | h
    · exact Or.inl h
    · exact Or.inr ⟨h, by simp⟩
  have hrot : rotation (pre ++ [c, nl]) (pre.length + 1) = nl :: (pre ++ [c]) := by
    unfold rotation
    have e : pre ++ [c, nl] = (pre ++ [c]) ++ [nl] := by simp
    rw [e, List.drop_left' (by simp), List.take_left' (by simp)]
    rfl
  obtain ⟨u, v, huv⟩ := hin
  obtain ⟨v', rfl⟩ : ∃ v', v = v' ++ [nl] := by
    rcases List.eq_nil_or_concat v with rfl | ⟨v', b, rfl⟩
    · have : (u ++ [c]) ++ [nl, a] = pre ++ [c, nl] := by simpa using huv
      have := (List.append_inj' this rfl).2
      simp only [List.cons.injEq] at this
      exact absurd this.1.symm hc
    · have : (u ++ [c, nl, a] ++ v') ++ [b] = (pre ++ [c]) ++ [nl] := by simpa using huv
      have := (List.append_inj' this rfl).2
      simp only [List.cons.injEq, and_true] at this
      exact ⟨v', by simp [this]⟩
  have hpc : pre ++ [c] = u ++ [c, nl, a] ++ v' := by
    have : (pre ++ [c]) ++ [nl] = (u ++ [c, nl, a] ++ v') ++ [nl] := by simpa using huv.symm
    exact List.append_cancel_right this
  obtain ⟨tl, htl⟩ : ∃ tl, pre ++ [c] = first :: tl := by
    cases pre with
    | nil => exact ⟨[], by simpa using hfirst⟩
    | cons b pre => exact ⟨pre ++ [c], by simpa using hfirst⟩
  have hdrop : (nl :: (pre ++ [c])).drop (u.length + 1 + 1) = nl :: a :: v' := by
    rw [hpc, List.drop_succ_cons, show u ++ [c, nl, a] ++ v' = (u ++ [c]) ++ (nl :: a :: v') by simp,
      List.drop_left' (by simp)]
  have hne : a ≠ first := by rintro rfl; exact absurd ha (by simp)
  refine C30_refuted_widely _ (pre.length + 1) hsm c ⟨by omega, by simp⟩ ?_ (u.length + 1) ?_ ?_ ?_ last ptr k2
  · rw [show pre ++ [c, nl] = (pre ++ [c]) ++ [nl] by simp, List.drop_left' (by simp)]
    simpa using hc
  · rw [hrot, hpc]; simp
  · rw [hrot, hdrop, htl, List.cons_lt_cons_iff, List.cons_lt_cons_iff]
    exact Or.inr ⟨rfl, Or.inl ha⟩
  · rw [hrot, hdrop, htl, List.cons_prefix_cons, List.cons_prefix_cons]
    exact fun h => hne h.2.1

theorem forall₂_flatten {R : List UInt8 → List UInt8 → Prop} {as xs : List (List UInt8)} (h : List.Forall₂ R as xs)
    (hl : ∀ a x, R a x → a ∈ as → x ∈ xs → x.length = a.length) (he : xs.flatten = as.flatten) : xs = as := by
  induction h with
  | nil => rfl
  | cons hr _ ih =>
    rename_i a x as xs _
    rw [List.flatten_cons, List.flatten_cons] at he
    obtain ⟨e1, e2⟩ := List.append_inj he (hl a x hr (by simp) (by simp))
    rw [e1, ih (fun a x h h1 h2 => hl a x h (by simp [h1]) (by simp [h2])) e2]

theorem mem_flatten_infix {ls : List (List UInt8)} {l : List UInt8} (h : l ∈ ls) : l <:+: ls.flatten := by
  obtain ⟨a, b, rfl⟩ := List.append_of_mem h
  exact ⟨a.flatten, b.flatten, by simp⟩

/-- **C01**, the exact extent for inputs without four equal bytes in a row, partial: for every such input, of any
length, and every number of threads, the round trip succeeds *if and only if* the inverse transform undoes the transform
of each block. -/
theorem C01_round_trip_iff_no_runs_partial (dist : Distance) (d : List UInt8) (t : Nat) (ht : 1 ≤ t)
    (h4 : ∀ b, ¬ List.replicate 4 b <:+: d) :
    ∃ bytes, encodeBytes dist d t Strategy.single = Res.ok bytes ∧
      (decodeBytes bytes = Res.ok d ↔
        ∀ b ∈ blocksOf d, ∃ last ptr, bwt b = Res.ok (last, ptr) ∧ inverseBwt last ptr = Res.ok b) := by
  obtain ⟨bytes, xs, e1, e2, e3⟩ := C46_outcome dist d t ht
  have hd := blocksOf_flatten d
  have hb4 : ∀ b ∈ blocksOf d, ∀ c, ¬ List.replicate 4 c <:+: b := by
    intro b hb c hc
    refine h4 c (hc.trans ?_)
    have := mem_flatten_infix hb
    rwa [hd] at this
  have hb : ∀ b ∈ blocksOf d, rle1Encode b = b := fun b hb => rle1Encode_short b (runs_short (hb4 b hb))
  refine ⟨bytes, e1, ?_, ?_⟩
  · intro hdec
    rw [e3] at hdec
    split at hdec
    · simp only [Res.ok.injEq] at hdec
      have hx : ∀ x ∈ xs, ∀ c, ¬ List.replicate 4 c <:+: x := by
        intro x hx c hc
        refine h4 c (hc.trans ?_)
        have := mem_flatten_infix hx
        rwa [hdec] at this
      have hxs : xs = blocksOf d := by
        refine forall₂_flatten e2 ?_ (by rw [hdec, hd])
        rintro b x ⟨last, ptr, s, k1, k2, rfl⟩ hbm hxm
        rw [hb b hbm] at k1
        have hs := inverseRle_short s (hx _ hxm)
        rw [hs]
        obtain ⟨last', ptr', f1, f2, f3⟩ := C30_bwt_never_fails b (blocksOf_ne_nil d b hbm)
        rw [k1] at f1
        simp only [Res.ok.injEq, Prod.mk.injEq] at f1
        rw [← f1.1] at f2
        rw [← f1.2] at f3
        obtain ⟨s', g1, g2⟩ := inverseBwt_total last ptr (by rw [f2.length_eq]; exact f3)
        rw [k2, Res.ok.injEq] at g1
        rw [g1, g2, f2.length_eq]
      rw [hxs] at e2 hx
      intro b hbm
      obtain ⟨i, hi, rfl⟩ := List.getElem_of_mem hbm
      obtain ⟨last, ptr, s, k1, k2, k3⟩ := (List.forall₂_iff_get.1 e2).2 i hi hi
      simp only [List.get_eq_getElem] at k1 k3
      rw [hb _ hbm] at k1
      have hs := inverseRle_short s (by rw [← k3]; exact hx _ hbm)
      exact ⟨last, ptr, k1, by rw [k2, k3, hs]⟩
    · simp at hdec
  · intro hall
    have hxs : xs = blocksOf d := by
      have : List.Forall₂ (fun a b => a = b) (blocksOf d) xs := by
        rw [List.forall₂_iff_get] at e2 ⊢
        refine ⟨e2.1, fun i h1 h2 => ?_⟩
        obtain ⟨last, ptr, s, k1, k2, k3⟩ := e2.2 i h1 h2
        have hm : (blocksOf d).get ⟨i, h1⟩ ∈ blocksOf d := List.get_mem _ _
        rw [hb _ hm] at k1
        obtain ⟨last', ptr', j1, j2⟩ := hall _ hm
        rw [k1] at j1
        simp only [Res.ok.injEq, Prod.mk.injEq] at j1
        rw [← j1.1, ← j1.2, k2, Res.ok.injEq] at j2
        rw [k3, j2]
        have := inverseRle_encode _ (noCountCollision_short _ (runs_short (hb4 _ hm)))
        rw [hb _ hm] at this
        exact this.symm
      exact (List.forall₂_eq_eq_eq ▸ this : blocksOf d = xs).symm
    rw [e3, hxs, if_pos rfl, hd]

/-- **C01**, the exact extent for inputs of one block, whatever they contain, partial: for every input of 1 to 720000
bytes and every number of threads, the round trip succeeds *if and only if* the run-length stage of the decoder turns
what the inverse transform makes of the transformed block into the input. -/
theorem C01_round_trip_iff_small_partial (dist : Distance) (d : List UInt8) (t : Nat) (ht : 1 ≤ t) (hne : d ≠ [])
    (hlen : d.length ≤ 720000) :
    ∃ bytes, encodeBytes dist d t Strategy.single = Res.ok bytes ∧
      (decodeBytes bytes = Res.ok d ↔
        ∃ last ptr s, bwt (rle1Encode d) = Res.ok (last, ptr) ∧ inverseBwt last ptr = Res.ok s ∧ inverseRle s = d) := by
  obtain ⟨bytes, xs, e1, e2, e3⟩ := C46_outcome dist d t ht
  rw [blocksOf_small d hne hlen] at e2 e3
  obtain ⟨x, rfl⟩ : ∃ x, xs = [x] := by
    have := e2.length_eq
    exact List.length_eq_one_iff.1 (by simpa using this.symm)
  obtain ⟨hx, -⟩ := List.forall₂_cons.1 e2
  refine ⟨bytes, e1, ?_, ?_⟩
  · intro hdec
    rw [e3] at hdec
    split at hdec
    · simp only [List.flatten_cons, List.flatten_nil, List.append_nil, Res.ok.injEq] at hdec
      subst hdec
      obtain ⟨last, ptr, s, k1, k2, k3⟩ := hx
      exact ⟨last, ptr, s, k1, k2, k3.symm⟩
    · simp at hdec
  · rintro ⟨last, ptr, s, k1, k2, k3⟩
    obtain ⟨last', ptr', s', j1, j2, rfl⟩ := hx
    rw [k1, Res.ok.injEq, Prod.mk.injEq] at j1
    rw [← j1.1, ← j1.2, k2, Res.ok.injEq] at j2
    subst j2
    rw [k3] at e3
    rw [e3]
    simp

/-- It decides both ways: seven 7s come back, the text of `C01_refuted_text_files` below does not. -/
example (dist : Distance) : ∃ bytes, encodeBytes dist (List.replicate 7 7) 2 Strategy.single = Res.ok bytes ∧
    decodeBytes bytes = Res.ok (List.replicate 7 7) := by
  obtain ⟨bytes, h1, h2⟩ := C01_round_trip_iff_small_partial dist (List.replicate 7 7) 2 (by decide) (by decide) (by decide)
  exact ⟨bytes, h1, h2.2 ⟨[7, 7, 7, 7, 3], 4, [7, 7, 7, 7, 3], by decide +kernel, by decide +kernel, by decide +kernel⟩⟩

/-- **C01 is false for many texts.** Let `d` be any input without four equal bytes in a row and `b` one of its blocks (up
to 720000 bytes, `d` itself is its only block), whose smallest byte is `nl`, that begins with `first` and ends with `c` and
`nl`, where `c` is not `nl`. If `c` and `nl` also stand somewhere in `b` before a byte smaller than `first`, then
`decode_stream` does not return `d` from what `encode_stream` wrote, in either build and for every number of threads: it
returns an error, or (if the CRCs of the wrong data happen to be right) something else than `d`. -/
theorem C01_refuted_text_blocks (dist : Distance) (d : List UInt8) (t : Nat) (ht : 1 ≤ t)
    (h4 : ∀ b, ¬ List.replicate 4 b <:+: d) (b : List UInt8) (hb : b ∈ blocksOf d) (nl c a first : UInt8)
    (hmin : ∀ x ∈ b, nl ≤ x) (hc : c ≠ nl) (hend : [c, nl] <:+ b) (hfirst : b.head? = some first)
    (hin : [c, nl, a] <:+: b) (ha : a < first) :
    ∃ bytes, encodeBytes dist d t Strategy.single = Res.ok bytes ∧
      decodeBytes bytes ≠ Res.ok d ∧ Release.decodeBytes bytes ≠ Res.ok d ∧
      (decodeBytes bytes = Res.err ∨ ∃ x, decodeBytes bytes = Res.ok x) := by
  obtain ⟨bytes, e1, e2⟩ := C01_round_trip_iff_no_runs_partial dist d t ht h4
  have hdec : decodeBytes bytes ≠ Res.ok d := by
    intro h
    obtain ⟨last, ptr, k1, k2⟩ := e2.1 h b hb
    exact text_not_inverted b nl c a first hmin hc hend hfirst hin ha last ptr k1 k2
  obtain ⟨bytes', xs, f1, -, f3⟩ := C46_outcome dist d t ht
  rw [e1, Res.ok.injEq] at f1
  subst f1
  have hor : decodeBytes bytes = Res.err ∨ ∃ x, decodeBytes bytes = Res.ok x := by
    rw [f3]
    split
    · exact Or.inr ⟨_, rfl⟩
    · exact Or.inl rfl
  refine ⟨bytes, e1, hdec, ?_, hor⟩
  rw [Release.decodeBytes, C62_release_agrees]
  · exact hdec
  · intro hp
    have : decodeBytes bytes = Res.panic := by
      rw [decodeBytes]
      generalize decodeStream (Reader.ofBytes bytes) Writer.empty = y at *
      obtain ⟨w, (_ | _ | _ | _)⟩ := y <;> simp at hp ⊢
    rcases hor with h | ⟨x, h⟩ <;> rw [h] at this <;> simp at this

/-- **C01 is false for many texts**, for texts of up to 720000 bytes. -/
theorem C01_refuted_text_files (dist : Distance) (d : List UInt8) (t : Nat) (ht : 1 ≤ t) (hlen : d.length ≤ 720000)
    (h4 : ∀ b, ¬ List.replicate 4 b <:+: d) (nl c a first : UInt8) (hmin : ∀ b ∈ d, nl ≤ b) (hc : c ≠ nl)
    (hend : [c, nl] <:+ d) (hfirst : d.head? = some first) (hin : [c, nl, a] <:+: d) (ha : a < first) :
    ∃ bytes, encodeBytes dist d t Strategy.single = Res.ok bytes ∧
      decodeBytes bytes ≠ Res.ok d ∧ Release.decodeBytes bytes ≠ Res.ok d ∧
      (decodeBytes bytes = Res.err ∨ ∃ x, decodeBytes bytes = Res.ok x) :=
  C01_refuted_text_blocks dist d t ht h4 d (by
    rw [blocksOf_small d (by rintro rfl; simp at hfirst) hlen]; simp) nl c a first hmin hc hend hfirst hin ha

/-- "fn f() {⏎}⏎⏎fn g() {⏎}⏎", a file like many source files. -/
def sourceFile : List UInt8 :=
  [102, 110, 32, 102, 40, 41, 32, 123, 10, 125, 10, 10, 102, 110, 32, 103, 40, 41, 32, 123, 10, 125, 10]

theorem sourceFile_meets : sourceFile.length ≤ 720000 ∧ (∀ b, ¬ List.replicate 4 b <:+: sourceFile) ∧
    (∀ b ∈ sourceFile, 10 ≤ b) ∧ (125 : UInt8) ≠ 10 ∧ [125, 10] <:+ sourceFile ∧ sourceFile.head? = some 102 ∧
    [125, 10, 10] <:+: sourceFile ∧ (10 : UInt8) < 102 := by
  refine ⟨by decide, fun b hb => ?_, by decide +kernel, by decide, ⟨sourceFile.take 21, rfl⟩, rfl,
    ⟨sourceFile.take 9, sourceFile.drop 12, rfl⟩, by decide⟩
  have h : ∀ b ∈ sourceFile, ¬ List.replicate 4 b <:+: sourceFile := by decide +kernel
  exact h b (hb.subset (by simp)) hb

/-- The theorem applied to it. -/
example (dist : Distance) : ∃ bytes, encodeBytes dist sourceFile 4 Strategy.single = Res.ok bytes ∧
    decodeBytes bytes ≠ Res.ok sourceFile := by
  obtain ⟨m1, m2, m3, m4, m5, m6, m7, m8⟩ := sourceFile_meets
  obtain ⟨bytes, h1, h2, -⟩ := C01_refuted_text_files dist sourceFile 4 (by decide) m1 m2 10 125 10 102 m3 m4 m5 m6 m7 m8
  exact ⟨bytes, h1, h2⟩

/-- **C35 is false for many texts**: the outputs for the texts of `C01_refuted_text_files` are no valid bzip2 streams for
these texts, so that no bzip2 decoder reads them back. -/
theorem C35_refuted_text_files (dist : Distance) (d : List UInt8) (t : Nat) (ht : 1 ≤ t) (hlen : d.length ≤ 720000)
    (h4 : ∀ b, ¬ List.replicate 4 b <:+: d) (nl c a first : UInt8) (hmin : ∀ b ∈ d, nl ≤ b) (hc : c ≠ nl)
    (hend : [c, nl] <:+ d) (hfirst : d.head? = some first) (hin : [c, nl, a] <:+: d) (ha : a < first) :
    ∃ bytes, encodeBytes dist d t Strategy.single = Res.ok bytes ∧ ¬ ValidStream d bytes := by
  have hd : d ≠ [] := by rintro rfl; simp at hfirst
  obtain ⟨bytes, k1⟩ := C39_always_succeeds dist d t ht
  have k2 := C35_valid_iff_safe_partial dist d t ht hd hlen
    (fun b hb => h4 b (List.IsInfix.trans ⟨[], List.replicate 252 b, by
      rw [List.nil_append, ← List.replicate_add]⟩ hb)) (fun b hb => h4 b hb.isInfix) bytes k1
  refine ⟨bytes, k1, fun hv => ?_⟩
  have hs := k2.1 hv
  rw [rle1Encode_short d (runs_short h4)] at hs
  obtain ⟨last, ptr, h1, h2⟩ := C30_bwt_partial d hd hs
  exact text_not_inverted d nl c a first hmin hc hend hfirst hin ha last ptr h1 (inverseBwt_spec _ _ _ h2)

/-- **C51 is false for many texts**: for the texts of `C01_refuted_text_files`, `compress` ends with status 0, and when the
file has been deleted, `decompress` fails or leaves a file with another content. -/
theorem C51_refuted_text_files (dir name : List UInt8) (hp : FilePath dir name) (threads : Nat) (ht : 1 ≤ threads)
    (w : World) (i : Nat) (e1 e2 : ArgEnv)
    (hi : w.fs.dir (dir ++ name) = some i)
    (hout : w.fs.dir (dir ++ name ++ [46, 98, 122, 50]) = none)
    (ha1 : Alone e1) (ha2 : Alone e2) (hr1 : ReadsAll e1) (hr2 : ReadsAll e2)
    (ho1 : e1.openOk = true ∧ e1.createOk = true) (ho2 : e2.openOk = true ∧ e2.createOk = true)
    (hs1 : NoFileError e1.script) (hs2 : e2.script = []) (d : List UInt8) (hdata : w.fs.data i = d)
    (hlen : d.length ≤ 720000) (h4 : ∀ b, ¬ List.replicate 4 b <:+: d) (nl c a first : UInt8) (hmin : ∀ b ∈ d, nl ≤ b)
    (hc : c ≠ nl) (hend : [c, nl] <:+ d) (hfirst : d.head? = some first) (hin : [c, nl, a] <:+: d) (ha : a < first) :
    ∃ w1, (Command.compress threads Strategy.single).main [(dir ++ name, e1)] w = (w1, Outcome.ok) ∧
      ((Command.decompress.main [(dir ++ name ++ [46, 98, 122, 50], e2)] (remove (dir ++ name) w1)).2 ≠ Outcome.ok ∨
        contentAt (Command.decompress.main [(dir ++ name ++ [46, 98, 122, 50], e2)] (remove (dir ++ name) w1)).1.fs
          (dir ++ name) ≠ some d) := by
  obtain ⟨bytes, k1, k2, -, k3⟩ := C01_refuted_text_files euclid d threads ht hlen h4 nl c a first hmin hc hend hfirst
    hin ha
  obtain ⟨w1, h1, h2, h3⟩ := compress_decompress dir name hp threads ht Strategy.single w i bytes e1 e2 hi hout ha1 ha2
    hr1 hr2 ho1 ho2 hs1 hs2 (by rw [hdata]; exact k1)
  refine ⟨w1, h1, ?_⟩
  rcases k3 with k3 | ⟨x, k3⟩
  · left
    rw [h2 (Or.inl k3)]
    simp
  · right
    obtain ⟨w2, g1, g2⟩ := h3 x k3
    rw [g1, g2]
    intro e
    simp only [Option.some.injEq] at e
    exact k2 (by rw [k3, e])

/-- The theorem applied to it, as the only file. -/
example : ∃ w1, (Command.compress 4 Strategy.single).main [([97], calmReads)] ⟨oneFile sourceFile, []⟩
      = (w1, Outcome.ok) ∧
    ((Command.decompress.main [([97, 46, 98, 122, 50], calmReads)] (remove [97] w1)).2 ≠ Outcome.ok ∨
      contentAt (Command.decompress.main [([97, 46, 98, 122, 50], calmReads)] (remove [97] w1)).1.fs [97]
        ≠ some sourceFile) := by
  obtain ⟨m1, m2, m3, m4, m5, m6, m7, m8⟩ := sourceFile_meets
  exact C51_refuted_text_files [] [97] ⟨Or.inl rfl, by decide, by decide, by decide, by decide⟩
    4 (by decide) ⟨oneFile sourceFile, []⟩ 0 calmReads calmReads rfl rfl
    calmReads_ok.1 calmReads_ok.1 calmReads_ok.2 calmReads_ok.2 ⟨rfl, rfl⟩ ⟨rfl, rfl⟩
    (by intro e he; simp [calmReads, calm] at he) rfl sourceFile rfl m1 m2 10 125 10 102 m3 m4 m5 m6 m7 m8

/-- **C35 is false even where C01 is true**: the five bytes 0, 1, 0, 0, 0 are compressed to a stream that `decode_stream`
reads back although it is no valid bzip2 stream for them, for every number of threads. Testing the library against itself
does not find the invalid streams. -/
theorem C35_refuted_despite_round_trip : ∃ d : List UInt8, d = [0, 1, 0, 0, 0] ∧ ∀ dist t, 1 ≤ t →
    ∃ bytes, encodeBytes dist d t Strategy.single = Res.ok bytes ∧ decodeBytes bytes = Res.ok d ∧
      ¬ ValidStream d bytes := by
  refine ⟨_, rfl, fun dist t ht => ?_⟩
  have h4 : ∀ b, ¬ List.replicate 4 b <:+: ([0, 1, 0, 0, 0] : List UInt8) := by
    intro b hb
    have h : ∀ b ∈ ([0, 1, 0, 0, 0] : List UInt8), ¬ List.replicate 4 b <:+: ([0, 1, 0, 0, 0] : List UInt8) := by
      decide +kernel
    exact h b (hb.subset (by simp)) hb
  obtain ⟨bytes, e1, e2⟩ := C01_round_trip_iff_no_runs_partial dist [0, 1, 0, 0, 0] t ht h4
  refine ⟨bytes, e1, e2.2 ?_, ?_⟩
  · rw [blocksOf_small _ (by decide) (by decide)]
    intro b hb
    simp only [List.mem_singleton] at hb
    subst hb
    exact ⟨[0, 1, 0, 0, 0], 3, by decide +kernel, by decide +kernel⟩
  · intro hv
    have := (C35_valid_iff_safe_partial dist [0, 1, 0, 0, 0] t ht (by decide) (by decide)
      (fun b hb => h4 b (List.IsInfix.trans ⟨[], List.replicate 252 b, by
        rw [List.nil_append, ← List.replicate_add]⟩ hb)) (fun b hb => h4 b hb.isInfix) bytes e1).1 hv
    rw [rle1Encode_short _ (runs_short h4)] at this
    have h := this 4 ⟨by decide, by decide +kernel⟩ 4 (by decide) 3 (by decide) (by decide +kernel)
    revert h
    decide +kernel

end Ribzip2
