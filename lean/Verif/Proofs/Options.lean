import Verif.Spec.Options
import Verif.Proofs.BlockWise
import Verif.Proofs.RoundTrip
/- What the options of the command line change in a block. -/
namespace Ribzip2
open Spec

/-- `P` holds of what `generate_block_data` writes behind the checksum. -/
def BodyHas (dist : Distance) (strategy : Strategy) (P : List Bool → Prop) : Prop :=
  ∀ (crc : BitVec 32) (rle : List UInt8), rle ≠ [] → rle.length + 1 < 2 ^ 20 →
    ∃ body, generateBlockData dist strategy crc rle = Res.ok (blockMagic ++ natToBits 32 crc.toNat ++ body) ∧ P body

theorem generate_announces (dist : Distance) (strategy : Strategy) (nc : Nat) (h7 : nc < 8)
    (hw : Workable dist strategy nc) (crc : BitVec 32) (rle : List UInt8) (hne : rle ≠ [])
    (hlen : rle.length + 1 < 2 ^ 20) :
    ∃ (ptr : Nat) (used : List UInt8) (enc : List UInt8) (rest : List Bool) (zle : List ZleSymbol) (rep : ReportedSymbols),
      blockStats dist strategy rle = Res.ok (zle, rep) ∧
      mtfDecode (usedBytes rep.selectors) (enc.map UInt8.toNat) = some rep.selectors ∧
      1 ≤ rep.selectors.length ∧
      generateBlockData dist strategy crc rle = Res.ok (blockMagic ++ natToBits 32 crc.toNat ++
        ([false] ++ natToBits 24 ptr ++ symbolMapBits used ++ natToBits 3 nc
          ++ natToBits 15 rep.selectors.length ++ (enc.map UInt8.toNat).flatMap unary ++ rest)) := by
  obtain ⟨last, ptr, b1, b2, b3⟩ := C30_bwt_never_fails rle hne
  obtain ⟨enc, m1, m2, m3, m4⟩ := mtf_spec last
  have hlast : last.length = rle.length := b2.length_eq
  have hlne : last ≠ [] := by intro h; rw [h] at hlast; exact hne (List.length_eq_zero_iff.1 hlast.symm)
  have hun : 1 ≤ (usedBytes last).length := by
    obtain ⟨x, hx⟩ := List.exists_mem_of_ne_nil last hlne
    exact List.length_pos_of_mem (mem_usedBytes.2 hx)
  obtain ⟨rep, f1, f2⟩ := hw (usedBytes last).length enc hun m4 (by omega)
  have hz := zleEncode_symOk _ hun enc m4
  have henough := f2.enough
  obtain ⟨tables, sel, t1, t2, t3⟩ := emitBlock_ok crc ptr (usedBytes last) (zleEncode 0 enc) rep hun
    (usedBytes_length last) f2.dims (by rw [f2.count]; exact f2.sel) f2.enough f2.fit hz
  refine ⟨ptr, usedBytes last, sel, (tables.map fun ls => encodeCodeTable (canonTable ls)).flatten
    ++ payloadBits tables (rep.selectors.map UInt8.toNat) 0
      ((zleEncode 0 enc).map symbolIndex ++ [(usedBytes last).length + 1]), zleEncode 0 enc, rep, ?_, t2, by omega, ?_⟩
  · simp only [blockStats, b1, Res.ok_bind, m1]
    exact f1
  · simp only [generateBlockData, b1, Res.ok_bind, m1, f1, t3]
    rw [f2.count, convertToCodePadToNBits_eq nc 3 (by omega)]
    simp only [List.append_assoc]

theorem body_announces (dist : Distance) (strategy : Strategy) (nc : Nat) (h7 : nc < 8)
    (hw : Workable dist strategy nc) : BodyHas dist strategy (AnnouncesTables nc) := by
  intro crc rle hne hlen
  obtain ⟨ptr, used, enc, rest, zle, rep, -, -, -, h⟩ := generate_announces dist strategy nc h7 hw crc rle hne hlen
  exact ⟨_, h, ptr, used, natToBits 15 rep.selectors.length ++ (enc.map UInt8.toNat).flatMap unary ++ rest,
    by simp only [List.append_assoc]⟩

theorem unary_zeros (enc sel : List UInt8) (h0 : ∀ s ∈ sel, s = 0)
    (h : mtfDecode (usedBytes sel) (enc.map UInt8.toNat) = some sel) :
    (enc.map UInt8.toNat).flatMap unary = List.replicate sel.length false := by
  have hu : (usedBytes sel).length ≤ 1 := by
    have hp := usedBytes_pairwise sel
    have hm : ∀ b ∈ usedBytes sel, b = 0 := fun b hb => h0 b (mem_usedBytes.1 hb)
    match usedBytes sel, hp, hm with
    | [], _, _ => simp
    | [_], _, _ => simp
    | a :: b :: _, hp, hm =>
      have h1 := hm a (by simp)
      have h2 := hm b (by simp)
      subst h1 h2
      simp at hp
  have hl : (enc.map UInt8.toNat).length = sel.length := mtfDecode_length _ _ _ h |>.symm
  have hz : ∀ i ∈ enc.map UInt8.toNat, i = 0 := by
    intro i hi
    have := mtfDecode_pos_lt _ _ _ h i hi
    omega
  rw [← hl]
  generalize enc.map UInt8.toNat = l at hz
  clear h hl
  induction l with
  | nil => rfl
  | cons a l ih =>
    rw [List.flatMap_cons, ih (fun i hi => hz i (by simp [hi])), hz a (by simp)]
    rfl

theorem body_firstTable (dist : Distance) (strategy : Strategy) (nc : Nat) (h7 : nc < 8)
    (hw : Workable dist strategy nc)
    (h0 : ∀ rle zle rep, rle ≠ [] → rle.length + 1 < 2 ^ 20 →
      blockStats dist strategy rle = Res.ok (zle, rep) → ∀ s ∈ rep.selectors, s = 0) :
    BodyHas dist strategy (UsesFirstTable nc) := by
  intro crc rle hne hlen
  obtain ⟨ptr, used, enc, rest, zle, rep, h1, h2, h3, h⟩ := generate_announces dist strategy nc h7 hw crc rle hne hlen
  rw [unary_zeros enc rep.selectors (h0 rle zle rep hne hlen h1) h2] at h
  exact ⟨_, h, ptr, used, rep.selectors.length, rest, h3, by simp only [List.append_assoc]⟩

theorem single_zero (dist : Distance) (rle : List UInt8) (hne : rle ≠ []) (hlen : rle.length + 1 < 2 ^ 20)
    (zle : List ZleSymbol) (rep : ReportedSymbols) (h : blockStats dist Strategy.single rle = Res.ok (zle, rep)) :
    ∀ s ∈ rep.selectors, s = 0 := by
  obtain ⟨last, ptr, b1, b2, b3⟩ := C30_bwt_never_fails rle hne
  obtain ⟨enc, m1, m2, m3, m4⟩ := mtf_spec last
  have hlast : last.length = rle.length := b2.length_eq
  have hlne : last ≠ [] := by intro h; rw [h] at hlast; exact hne (List.length_eq_zero_iff.1 hlast.symm)
  have hun : 1 ≤ (usedBytes last).length := by
    obtain ⟨x, hx⟩ := List.exists_mem_of_ne_nil last hlne
    exact List.length_pos_of_mem (mem_usedBytes.2 hx)
  obtain ⟨f, f1, f2⟩ := single_zle dist (usedBytes last).length hun enc m4 (by omega)
  simp only [blockStats, b1, Res.ok_bind, m1, f2, Res.ok.injEq, Prod.mk.injEq] at h
  obtain ⟨rfl, rfl⟩ := h
  intro s hs
  exact List.eq_of_mem_replicate hs

/-- A property of every block holds in the file. -/
theorem encodeBytes_blocksAll (dist : Distance) (strategy : Strategy) (P : List Bool → Prop)
    (hP : BodyHas dist strategy P) (d : List UInt8) (t : Nat) (ht : 1 ≤ t) :
    ∃ bytes, encodeBytes dist d t strategy = Res.ok bytes ∧ BlocksAll P d bytes := by
  have hgen : ∀ b ∈ blocksOf d, ∃ body,
      generateBlockData dist strategy (crc32 b) (rle1Encode b) = Res.ok (blockFrame b body) ∧ P body := by
    intro b hb
    have h1 := blocksOf_size d b hb
    obtain ⟨body, h2, h3⟩ := hP (crc32 b) (rle1Encode b) (rle1Encode_ne_nil b (blocksOf_ne_nil d b hb)) (by omega)
    rw [crc32_eq_spec] at h2
    exact ⟨body, by rw [crc32_eq_spec]; exact h2, h3⟩
  obtain ⟨w, hw⟩ := encodeBlocks_good_ok dist strategy (blocksOf d) (by
    intro b hb
    obtain ⟨body, h, -⟩ := hgen b hb
    exact ⟨_, h⟩)
  obtain ⟨outs, o1, o2⟩ := encodeBlocks_good dist strategy _ w hw
  obtain ⟨blocks, b1, b2, b3, b4⟩ := streamBits_frames dist strategy _ outs o1
  refine ⟨w.out, encodeBytes_ofBytes dist d t ht _ w hw, blocks, ?_, ?_, ?_⟩
  · rw [contents, List.flatMap_def, b1, blocksOf_flatten]
  · intro b hb
    obtain ⟨body, h1, h2⟩ := hgen b.1 (by rw [← b1]; exact List.mem_map.2 ⟨b, hb, rfl⟩)
    have h3 := b4 b hb
    rw [h1, Res.ok.injEq] at h3
    simp only [blockFrame] at h3
    rw [← List.append_cancel_left h3]
    exact h2
  · rw [streamBits, footer_eq, fileHeader_eq, ← b2, ← b3, ← List.append_assoc] at o2
    exact o2

end Ribzip2
