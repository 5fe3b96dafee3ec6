import Verif.Proofs.Surplus
import Verif.Props.ValidStreams
import Verif.Props.BlockWiseRefuted
import Verif.Proofs.Unique
/- Properties C28, C34 and C79: what surplus selectors do, for every stream. -/
namespace Ribzip2
open Spec

theorem decodeBytes_ok_iff (bytes : List UInt8) (x : List UInt8) :
    (decodeBytes bytes = Res.ok x → (pStream (bytesBits bytes)).2 = Res.ok ()) ∧
    (Release.decodeBytes bytes = Res.ok x → (Release.pStream (bytesBits bytes)).2 = Res.ok ()) := by
  rw [decodeBytes_eq, Release.decodeBytes_eq]
  constructor
  · intro h
    rcases hp : (pStream (bytesBits bytes)).2 with u | _ | _ | _ <;> simp [hp] at h ⊢
  · intro h
    rcases hp : (Release.pStream (bytesBits bytes)).2 with u | _ | _ | _ <;> simp [hp] at h ⊢

/-- A valid block has a byte. -/
theorem Spec.BlockParts.Valid.usedNe {p : BlockParts} {limit : Nat} {data : List UInt8} (h : p.Valid limit data) :
    p.used ≠ [] := by
  have h1 := isBwt_length h.transform
  intro e
  have hm := h.mtf
  rw [e] at hm
  have hl := mtfDecode_length _ _ _ hm
  match hz : zleDecode 1 p.syms with
  | [] =>
    rw [hz] at hl
    exact h1.2 (List.length_eq_zero_iff.1 (by rw [← h1.1, hl]; rfl))
  | x :: xs => rw [hz] at hm; simp [mtfDecode] at hm

/-- **C79**, for the streams `C79_decoded_or_refused_partial` leaves out, if only the last block has more selectors
than groups: such a valid stream is never accepted, with no data whatever, in neither kind of build. The decoder reads
on in the footer, and no position of the footer but its start looks like a magic number. -/
theorem C79_surplus_never_accepted_partial (level : Nat) (blocks : List (List UInt8 × List Bool))
    (b : List UInt8 × List Bool) (bytes : List UInt8) (h : StreamOf level (blocks ++ [b]) bytes)
    (hv : ∀ x ∈ blocks, ∃ p : BlockParts, p.Valid (100000 * level) x.1 ∧ x.2 = p.body ∧
      50 * p.sel.length < p.syms.length + 51)
    (hb : ∃ p : BlockParts, p.Valid (100000 * level) b.1 ∧ b.2 = p.body ∧ p.syms.length + 51 ≤ 50 * p.sel.length) :
    ∀ data, decodeBytes bytes ≠ Res.ok data ∧ Release.decodeBytes bytes ≠ Res.ok data := by
  intro data
  obtain ⟨-, -, hp⟩ := h
  obtain ⟨p, p1, p2, p3⟩ := hb
  have := stream_overrun _ blocks b bytes hp
    (fun x hx => by
      obtain ⟨q, q1, q2, q3⟩ := hv x hx
      exact ⟨q, q1.readable q3, q2⟩) ⟨p, valid_sound p1, p1.usedNe, p3, p2⟩
  exact ⟨fun e => this.1 ((decodeBytes_ok_iff _ _).1 e), fun e => this.2 ((decodeBytes_ok_iff _ _).2 e)⟩

/-- **C34**, partial, the exact extent for streams of one block, from any encoder: a valid stream is decoded to its
content exactly if it has one selector for each group of 50 symbols and `inverse_rle` undoes the run-length encoding
the encoder has chosen. Missing: the converse for streams of several blocks. -/
theorem C34_decodes_iff_partial (level : Nat) (p : BlockParts) (data bytes : List UInt8)
    (h : StreamOf level [(data, p.body)] bytes) (hv : p.Valid (100000 * level) data) :
    decodeBytes bytes = Res.ok data ↔ 50 * p.sel.length < p.syms.length + 51 ∧ inverseRle p.rle = data := by
  have hc := hv.content
  by_cases hs : 50 * p.sel.length < p.syms.length + 51
  · simp only [hs, true_and]
    have h12 := h
    obtain ⟨h1, h2, -⟩ := h12
    have := C79_outcome_on_valid_partial level [p] bytes [] (by simpa [hc] using h) (by simpa [hc] using hv) (by simpa using hs)
    simp only [List.append_nil, List.mem_singleton, forall_eq, hc] at this
    rw [decodeBytes]
    simp only [outputOf, resultOf] at this
    by_cases hcrc : Spec.crc32 (inverseRle p.rle) = Spec.crc32 data
    · simp only [hcrc, if_true, List.takeWhile_cons, decide_true, List.takeWhile_nil, List.flatMap_cons,
        List.flatMap_nil, List.append_nil, hc] at this
      rw [show decodeStream (Reader.ofBytes bytes) Writer.empty
        = ((decodeStream (Reader.ofBytes bytes) Writer.empty).1, (decodeStream (Reader.ofBytes bytes) Writer.empty).2) from rfl,
        this.2]
      simp [this.1]
    · simp only [hcrc, if_false] at this
      rw [show decodeStream (Reader.ofBytes bytes) Writer.empty
        = ((decodeStream (Reader.ofBytes bytes) Writer.empty).1, (decodeStream (Reader.ofBytes bytes) Writer.empty).2) from rfl,
        this.2]
      simp only [reduceCtorEq, false_iff]
      intro e
      rw [e] at hcrc
      exact hcrc rfl
  · simp only [hs, false_and, iff_false]
    exact (C79_surplus_never_accepted_partial level [] (data, p.body) bytes h (by simp)
      ⟨p, hv, rfl, by omega⟩ data).1

/-- Both sides occur: `C34_refuted_extra_selector` for a block with a surplus selector, and the example there for the
same block without it. -/
example : (abParts [0, 0]).Valid (100000 * 9) [97, 98] ∧ (abParts [0]).Valid (100000 * 9) [97, 98] ∧
    ¬ 50 * (abParts [0, 0]).sel.length < (abParts [0, 0]).syms.length + 51 ∧
    50 * (abParts [0]).sel.length < (abParts [0]).syms.length + 51 ∧ inverseRle (abParts [0]).rle = [97, 98] :=
  ⟨abParts_valid 2 (by omega) (by omega), abParts_valid 1 (by omega) (by omega), by decide, by decide, by decide⟩

/-! ### C28 -/

theorem encode_surplus (dist : Distance) (nc it : Nat) (hnc : 1 ≤ nc) (h7 : nc ≤ 7) (d : List UInt8) (t : Nat)
    (ht : 1 ≤ t) (before : List (List UInt8)) (b : List UInt8) (hd : blocksOf d = before ++ [b])
    (hbefore : ∀ x ∈ before, ∀ zle rep, blockStats dist (Strategy.blockWise nc it) (rle1Encode x) = Res.ok (zle, rep) →
      NoGap rep.selectors ∧ (zle.length + 1) % 50 ≠ 0)
    (hlast : ∀ zle rep, blockStats dist (Strategy.blockWise nc it) (rle1Encode b) = Res.ok (zle, rep) →
      NoGap rep.selectors ∧ (zle.length + 1) % 50 = 0) :
    ∃ bytes, encodeBytes dist d t (Strategy.blockWise nc it) = Res.ok bytes ∧
      ∀ x, decodeBytes bytes ≠ Res.ok x ∧ Release.decodeBytes bytes ≠ Res.ok x := by
  have hmem : ∀ x ∈ before ++ [b], x ≠ [] ∧ (rle1Encode x).length ≤ 900005 := fun x hx =>
    ⟨blocksOf_ne_nil d x (hd ▸ hx), blocksOf_size d x (hd ▸ hx)⟩
  have hgen : ∀ x ∈ before, ∃ p, WrittenBlock nc x p ∧
      generateBlockData dist (Strategy.blockWise nc it) (crc32 x) (rle1Encode x) = Res.ok (blockFrame x p.body) := by
    intro x hx
    obtain ⟨h1, h2⟩ := hmem x (by simp [hx])
    refine generate_parts dist _ nc (by omega) (blockWise_workable dist nc it hnc) x h1 h2 fun zle rep hz => ?_
    obtain ⟨g1, g2⟩ := hbefore x hx zle rep hz
    obtain ⟨k1, -⟩ := blockWise_stats dist nc it hnc _ (rle1Encode_ne_nil x h1) zle rep hz
    exact ⟨g1, by omega⟩
  obtain ⟨h1, h2⟩ := hmem b (by simp)
  obtain ⟨q, q1, q2, q3, ⟨zle, rep, s1, s2, s3⟩, -, -, -, -, -, -, -, q4⟩ :=
    generateBlock_sound dist (Strategy.blockWise nc it) nc (by omega) (blockWise_workable dist nc it hnc) (crc32 b)
      (rle1Encode b) (rle1Encode_ne_nil b h1) (by omega) fun zle rep hz => (hlast zle rep hz).1
  have hgb : generateBlockData dist (Strategy.blockWise nc it) (crc32 b) (rle1Encode b) = Res.ok (blockFrame b q.body) := by
    rw [q4, crc32_eq_spec]; rfl
  obtain ⟨w, hw⟩ := encodeBlocks_good_ok dist (Strategy.blockWise nc it) (blocksOf d) (by
    intro x hx
    rw [hd] at hx
    rcases List.mem_append.1 hx with hx | hx
    · obtain ⟨p, -, h⟩ := hgen x hx
      exact ⟨_, h⟩
    · simp only [List.mem_singleton] at hx
      subst hx
      exact ⟨_, hgb⟩)
  obtain ⟨outs, o1, o2⟩ := encodeBlocks_good dist (Strategy.blockWise nc it) _ w hw
  obtain ⟨blocks, b1, b2, b3, b4⟩ := streamBits_frames dist (Strategy.blockWise nc it) _ outs o1
  refine ⟨w.out, encodeBytes_ofBytes dist d t ht _ w hw, fun x => ?_⟩
  rw [hd] at b1
  obtain ⟨l1, l2, e1, e2, e3⟩ := List.map_eq_append_iff.1 b1
  obtain ⟨c, e4, e5⟩ := List.map_eq_singleton_iff.1 e3
  rw [streamBits, footer_eq, fileHeader_eq, ← b2, ← b3, ← List.append_assoc] at o2
  rw [e1, e4] at o2 b4
  have hbody : ∀ y ∈ l1 ++ [c], ∀ body, generateBlockData dist (Strategy.blockWise nc it) (crc32 y.1) (rle1Encode y.1)
      = Res.ok (blockFrame y.1 body) → y.2 = body := by
    intro y hy body hg
    rw [b4 y hy] at hg
    simpa [blockFrame] using hg
  have := stream_overrun 0x39 l1 c w.out o2
    (fun y hy => by
      obtain ⟨p, p1, p2⟩ := hgen y.1 (by rw [← e2]; exact List.mem_map.2 ⟨y, hy, rfl⟩)
      exact ⟨p, p1.readable, hbody y (by simp [hy]) _ p2⟩)
    ⟨q, q2, q3, by
      obtain ⟨k1, -⟩ := blockWise_stats dist nc it hnc _ (rle1Encode_ne_nil b h1) zle rep s1
      have := (hlast zle rep s1).2
      omega, hbody c (by simp) _ (by rw [e5]; exact hgb)⟩
  exact ⟨fun e => this.1 ((decodeBytes_ok_iff _ _).1 e), fun e => this.2 ((decodeBytes_ok_iff _ _).2 e)⟩

/-- **C28 is false** for every input whose last block, and no other, has a multiple of 50 symbols (end-of-block
included), as long as the selectors have no gap: with 1 to 7 tables, any number of iterations and threads, what is
written is never accepted by `decode_stream`, in neither kind of build. -/
theorem C28_refuted_multiple_of_50 (dist : Distance) (nc it : Nat) (hnc : 1 ≤ nc) (h7 : nc ≤ 7) (d : List UInt8)
    (t : Nat) (ht : 1 ≤ t) (before : List (List UInt8)) (b : List UInt8) (hd : blocksOf d = before ++ [b])
    (hgap : ∀ x ∈ blocksOf d, ∀ zle rep, blockStats dist (Strategy.blockWise nc it) (rle1Encode x) = Res.ok (zle, rep) →
      NoGap rep.selectors)
    (hbefore : ∀ x ∈ before, ∀ zle rep, blockStats dist (Strategy.blockWise nc it) (rle1Encode x) = Res.ok (zle, rep) →
      (zle.length + 1) % 50 ≠ 0)
    (hlast : ∀ zle rep, blockStats dist (Strategy.blockWise nc it) (rle1Encode b) = Res.ok (zle, rep) →
      (zle.length + 1) % 50 = 0) :
    ∃ bytes, encodeBytes dist d t (Strategy.blockWise nc it) = Res.ok bytes ∧
      ∀ x, decodeBytes bytes ≠ Res.ok x ∧ Release.decodeBytes bytes ≠ Res.ok x :=
  encode_surplus dist nc it hnc h7 d t ht before b hd
    (fun x hx zle rep hz => ⟨hgap x (by rw [hd]; simp [hx]) zle rep hz, hbefore x hx zle rep hz⟩)
    (fun zle rep hz => ⟨hgap b (by rw [hd]; simp) zle rep hz, hlast zle rep hz⟩)

/-- Such an input: the 49 different bytes of `C28_refuted_extra_selector`. They are their own run-length encoding and
have 49 symbols; all selectors are 0. -/
example : rle1Encode (zigzag 48) = zigzag 48 ∧
    (match blockStats euclid (Strategy.blockWise 2 0) (zigzag 48) with
    | Res.ok (zle, rep) => some (zle.length, rep.selectors)
    | _ => none) = some (49, [0, 0]) := by decide +kernel

/-- **C28**, partial, the exact extent for inputs of one block that the other stages can restore and whose selectors
have no gap: the input comes back exactly if the number of its symbols (end-of-block included) is not a multiple of
50. -/
theorem C28_comes_back_iff_partial (dist : Distance) (nc it : Nat) (hnc : 1 ≤ nc) (h7 : nc ≤ 7) (d : List UInt8)
    (t : Nat) (ht : 1 ≤ t) (hne : d ≠ []) (hlen : d.length ≤ 720000) (hsafe : TransformSafe (rle1Encode d))
    (hcol : noCountCollision (runs d) = true) (zle : List ZleSymbol) (rep : ReportedSymbols)
    (hst : blockStats dist (Strategy.blockWise nc it) (rle1Encode d) = Res.ok (zle, rep)) (hgap : NoGap rep.selectors) :
    ∃ bytes, encodeBytes dist d t (Strategy.blockWise nc it) = Res.ok bytes ∧
      (decodeBytes bytes = Res.ok d ↔ (zle.length + 1) % 50 ≠ 0) := by
  have hb := blocksOf_small d hne hlen
  by_cases h50 : (zle.length + 1) % 50 = 0
  · obtain ⟨bytes, e1, e2⟩ := encode_surplus dist nc it hnc h7 d t ht [] d hb (by simp) (by
      intro z r hz
      rw [hst, Res.ok.injEq, Prod.mk.injEq] at hz
      rw [← hz.1, ← hz.2]
      exact ⟨hgap, h50⟩)
    exact ⟨bytes, e1, by simp [h50, (e2 d).1]⟩
  · obtain ⟨bytes, e1, e2⟩ := C28_round_trip_partial dist nc it hnc h7 d t ht
      (by rw [hb]; simpa using ⟨hsafe, hcol⟩) (by
      rw [hb]
      intro x hx z r hz
      simp only [List.mem_singleton] at hx
      rw [hx, hst, Res.ok.injEq, Prod.mk.injEq] at hz
      rw [← hz.1, ← hz.2]
      exact ⟨hgap, h50⟩)
    exact ⟨bytes, e1, by simp [h50, e2]⟩

/-- Both cases occur: 49 bytes whose stream is rejected, and 48 bytes that come back. -/
example : TransformSafe (rle1Encode (zigzag 48)) ∧ noCountCollision (runs (zigzag 48)) = true ∧
    TransformSafe (rle1Encode (zigzag 47)) ∧ noCountCollision (runs (zigzag 47)) = true ∧
    (match blockStats euclid (Strategy.blockWise 2 0) (rle1Encode (zigzag 48)) with
    | Res.ok (zle, rep) => some (zle.length, rep.selectors)
    | _ => none) = some (49, [0, 0]) ∧
    (match blockStats euclid (Strategy.blockWise 2 0) (rle1Encode (zigzag 47)) with
    | Res.ok (zle, rep) => some (zle.length, rep.selectors)
    | _ => none) = some (48, [0]) := by
  have e : ∀ n, zigzag n = (List.range n).map (fun i => UInt8.ofNat (if i % 2 = 0 then i + 1 else 200 - i)) ++ [0] :=
    fun _ => rfl
  refine ⟨?_, by decide +kernel, ?_, by decide +kernel, by decide +kernel, by decide +kernel⟩
  · rw [show rle1Encode (zigzag 48) = zigzag 48 by decide +kernel, e]
    exact transformSafe_of_last _ _ (by decide +kernel)
  · rw [show rle1Encode (zigzag 47) = zigzag 47 by decide +kernel, e]
    exact transformSafe_of_last _ _ (by decide +kernel)

end Ribzip2
