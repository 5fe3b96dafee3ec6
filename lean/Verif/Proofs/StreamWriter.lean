import Verif.Proofs.StreamGeneral
import Verif.Proofs.Crc
import Verif.Proofs.Selectors
import Verif.Spec.Container
/- What `encode_stream` writes, for reliable and for other writers. -/
namespace Ribzip2
open Spec

/-! ### reliable writer: the bits -/

theorem flushLoop_good (gen : Work → Res (List Bit)) (works : List Work) (bw : BitWriter)
    (crc : BitVec 32) (h : bw.Good) (bw' : BitWriter) (crc' : BitVec 32)
    (hr : flushLoop gen works bw crc = (bw', Res.ok crc')) :
    ∃ outs : List (List Bit), works.map gen = outs.map Res.ok ∧ bw'.Good ∧
      bw'.bits = bw.bits ++ outs.flatten ∧
      crc' = works.foldl (fun c w => combineCrc c w.crc) crc := by
  induction works generalizing bw crc with
  | nil =>
    simp only [flushLoop, Prod.mk.injEq, Res.ok.injEq] at hr
    obtain ⟨rfl, rfl⟩ := hr
    exact ⟨[], rfl, h, by simp, rfl⟩
  | cons w works ih =>
    rw [flushLoop, flushOne] at hr
    cases hg : gen w with
    | ok bits =>
      obtain ⟨bw1, w1, w2, w3⟩ := bw.writeBits_good bits h
      rw [hg] at hr
      simp only [w1] at hr
      obtain ⟨outs, i1, i2, i3, i4⟩ := ih _ _ w2 hr
      exact ⟨bits :: outs, by simp [hg, i1], i2, by rw [i3, w3]; simp, by rw [i4]; rfl⟩
    | err => rw [hg] at hr; simp at hr
    | panic => rw [hg] at hr; simp at hr
    | div => rw [hg] at hr; simp at hr

theorem flushLoop_good_ok (gen : Work → Res (List Bit)) (works : List Work) (bw : BitWriter)
    (crc : BitVec 32) (h : bw.Good) (hall : ∀ w ∈ works, ∃ bits, gen w = Res.ok bits) :
    ∃ bw' crc', flushLoop gen works bw crc = (bw', Res.ok crc') := by
  induction works generalizing bw crc with
  | nil => exact ⟨bw, crc, rfl⟩
  | cons w works ih =>
    obtain ⟨bits, hb⟩ := hall w (by simp)
    obtain ⟨bw1, w1, w2, w3⟩ := bw.writeBits_good bits h
    obtain ⟨bw', crc', i⟩ := ih bw1 (combineCrc crc w.crc) w2 (fun x hx => hall x (by simp [hx]))
    refine ⟨bw', crc', ?_⟩
    rw [flushLoop, flushOne, hb]
    simp only [w1]
    exact i

/-- The bits of the whole stream. -/
def streamBits (crcs : List (BitVec 32)) (outs : List (List Bit)) : List Bit :=
  fileHeader ++ outs.flatten ++ streamFooter (crcs.foldl combineCrc 0)

theorem encodeBlocks_good (dist : Distance) (strategy : Strategy) (bs : List (List UInt8))
    (w' : Writer) (h : encodeBlocks dist strategy bs Writer.empty = (w', Res.ok ())) :
    ∃ outs : List (List Bit), bs.map (fun b => generateBlockData dist strategy (crc32 b) (rle1Encode b))
        = outs.map Res.ok ∧
      PaddedTo8 (streamBits (bs.map crc32) outs) (bytesBits w'.out) := by
  unfold encodeBlocks at h
  obtain ⟨bw1, a1, a2, a3⟩ := (BitWriter.fromWriter Writer.empty).writeBits_good fileHeader
    (BitWriter.good_from [])
  rw [a1] at h
  simp only [andThen_eq, Res.unwrap_ok] at h
  rcases hf : flushLoop (fun work => generateBlockData dist strategy work.crc work.rleTotal)
    (bs.map workOf) bw1 0 with ⟨bw2, r⟩
  rw [hf] at h
  cases r with
  | ok crc =>
    obtain ⟨outs, o1, o2, o3, o4⟩ := flushLoop_good _ _ _ _ a2 _ _ hf
    obtain ⟨bw3, b1, b2, b3⟩ := bw2.writeBits_good (streamFooter crc) o2
    obtain ⟨bw4, c1, c2⟩ := bw3.finalize_good b2
    simp only [b1, c1, Res.unwrap_ok, Prod.mk.injEq] at h
    refine ⟨outs, ?_, ?_⟩
    · rw [← o1, List.map_map]; rfl
    · rw [← h.1]
      have : bw3.bits = streamBits (bs.map crc32) outs := by
        rw [b3, o3, a3, streamBits]
        have : crc = (bs.map crc32).foldl combineCrc 0 := by
          rw [o4, List.foldl_map, List.foldl_map]; rfl
        rw [this]
        simp [BitWriter.bits, BitWriter.fromWriter, Writer.empty]
      rw [← this]
      exact c2
  | err => simp at h
  | panic => simp at h
  | div => simp at h

theorem encodeBlocks_good_ok (dist : Distance) (strategy : Strategy) (bs : List (List UInt8))
    (hall : ∀ b ∈ bs, ∃ bits, generateBlockData dist strategy (crc32 b) (rle1Encode b) = Res.ok bits) :
    ∃ w', encodeBlocks dist strategy bs Writer.empty = (w', Res.ok ()) := by
  unfold encodeBlocks
  obtain ⟨bw1, a1, a2, a3⟩ := (BitWriter.fromWriter Writer.empty).writeBits_good fileHeader
    (BitWriter.good_from [])
  obtain ⟨bw2, crc, hf⟩ := flushLoop_good_ok
    (fun work => generateBlockData dist strategy work.crc work.rleTotal) (bs.map workOf) bw1 0 a2
    (by intro w hw
        obtain ⟨b, hb, rfl⟩ := List.mem_map.1 hw
        exact hall b hb)
  obtain ⟨outs, o1, o2, o3, o4⟩ := flushLoop_good _ _ _ _ a2 _ _ hf
  obtain ⟨bw3, b1, b2, b3⟩ := bw2.writeBits_good (streamFooter crc) o2
  obtain ⟨bw4, c1, c2⟩ := bw3.finalize_good b2
  rw [a1]
  simp only [andThen_eq, Res.unwrap_ok, hf, b1, c1]
  exact ⟨bw4.w, rfl⟩

/-! ### the frame of a block -/

theorem natToBits_split (a b x : Nat) : natToBits (a + b) x = natToBits a (x / 2 ^ b) ++ natToBits b x := by
  induction a with
  | zero => simp [natToBits]
  | succ a ih =>
    rw [show a + 1 + b = (a + b) + 1 by omega, natToBits, natToBits, ih, Nat.testBit_div_two_pow]
    rw [List.cons_append]

theorem byteBits_ofNat (x : Nat) : byteBits (UInt8.ofNat x) = natToBits 8 x := by
  rw [byteBits, UInt8.toNat_ofNat', natToBits_mod 8 x 8 (by omega)]

theorem flatMap_pad (bs : List UInt8) : bs.flatMap convertToCodePadToByte = bytesBits bs := by
  rw [← convertToCodePadToBytes_eq]; rfl

theorem crcBytes_bits (crc : BitVec 32) :
    bytesBits (crcAsBytes crc) = natToBits 32 crc.toNat := by
  simp only [crcAsBytes, List.reverse_cons, List.reverse_nil, List.nil_append, List.cons_append,
    bytesBits_cons, bytesBits_nil, byteBits_ofNat, BitVec.toNat_ushiftRight, Nat.shiftRight_eq_div_pow]
  rw [natToBits_split 8 24, natToBits_split 8 16, natToBits_split 8 8]
  simp

theorem ptrBytes_bits (p : Nat) :
    bytesBits [UInt8.ofNat (p / 2 ^ 16), UInt8.ofNat (p / 2 ^ 8), UInt8.ofNat p] = natToBits 24 p := by
  simp only [bytesBits_cons, bytesBits_nil, byteBits_ofNat]
  rw [natToBits_split 8 16, natToBits_split 8 8]
  simp

theorem blockHeader_eq (crc : BitVec 32) (p : Nat) :
    blockHeader crc p = blockMagic ++ natToBits 32 crc.toNat ++ [false] ++ natToBits 24 p := by
  unfold blockHeader
  rw [flatMap_pad, convertToCodePadToBytes_eq, crcBytes_bits, ← ptrBytes_bits]
  simp only [convertToCodePadToByte_eq, bytesBits_cons, bytesBits_nil, blockMagic]
  simp

theorem fileHeader_eq : fileHeader = streamHeader 0x39 := by
  unfold fileHeader streamHeader
  simp only [convertToCodePadToByte_eq, bytesBits_cons, bytesBits_nil]
  simp

theorem footer_eq (crc : BitVec 32) : streamFooter crc = footerMagic ++ natToBits 32 crc.toNat := by
  unfold streamFooter footerMagic
  rw [flatMap_pad, flatMap_pad, crcBytes_bits]

theorem combineCrc_eq (crcs : List (BitVec 32)) : crcs.foldl combineCrc 0 = combine crcs := by
  unfold combine
  congr 1
  funext t c
  unfold combineCrc
  rw [BitVec.xor_comm, BitVec.rotateLeft_def]

theorem bind_eq_ok {α β : Type} {x : Res α} {f : α → Res β} {b : β} (h : (x >>= f) = Res.ok b) :
    ∃ a, x = Res.ok a ∧ f a = Res.ok b := by
  cases x with
  | ok a => exact ⟨a, rfl, h⟩
  | err => simp at h
  | panic => simp at h
  | div => simp at h

theorem emitBlock_frame (crc : BitVec 32) (ptr : Nat) (used : List UInt8) (zle : List ZleSymbol)
    (rep : ReportedSymbols) (bits : List Bit) (h : emitBlock crc ptr used zle rep = Res.ok bits) :
    ∃ body, bits = blockMagic ++ natToBits 32 crc.toNat ++ body := by
  unfold emitBlock at h
  obtain ⟨tables, -, h⟩ := bind_eq_ok h
  obtain ⟨⟨sb, ns⟩, -, h⟩ := bind_eq_ok h
  obtain ⟨nb, -, h⟩ := bind_eq_ok h
  obtain ⟨pl, -, h⟩ := bind_eq_ok h
  obtain ⟨lt, -, h⟩ := bind_eq_ok h
  obtain ⟨eob, -, h⟩ := bind_eq_ok h
  simp only [Res.pure_eq, Res.ok.injEq] at h
  rw [← h, blockHeader_eq]
  simp only [List.append_assoc]
  exact ⟨_, rfl⟩

theorem generateBlockData_frame (dist : Distance) (strategy : Strategy) (crc : BitVec 32)
    (rle : List UInt8) (bits : List Bit) (h : generateBlockData dist strategy crc rle = Res.ok bits) :
    ∃ body, bits = blockMagic ++ natToBits 32 crc.toNat ++ body := by
  unfold generateBlockData at h
  obtain ⟨⟨d, p⟩, -, h⟩ := bind_eq_ok h
  obtain ⟨⟨e, u⟩, -, h⟩ := bind_eq_ok h
  obtain ⟨⟨z, r⟩, -, h⟩ := bind_eq_ok h
  exact emitBlock_frame _ _ _ _ _ _ h

theorem streamBits_frames (dist : Distance) (strategy : Strategy) (bs : List (List UInt8))
    (outs : List (List Bit))
    (h : bs.map (fun b => generateBlockData dist strategy (crc32 b) (rle1Encode b)) = outs.map Res.ok) :
    ∃ blocks : List (List UInt8 × List Bool), blocks.map (fun b => b.1) = bs ∧
      blockFrames blocks = outs.flatten ∧ streamCrc blocks = (bs.map crc32).foldl combineCrc 0 ∧
      ∀ b ∈ blocks, generateBlockData dist strategy (crc32 b.1) (rle1Encode b.1)
        = Res.ok (blockFrame b.1 b.2) := by
  have key : ∃ blocks : List (List UInt8 × List Bool), blocks.map (fun b => b.1) = bs ∧
      blocks.map (fun b => blockFrame b.1 b.2) = outs ∧
      ∀ b ∈ blocks, generateBlockData dist strategy (crc32 b.1) (rle1Encode b.1)
        = Res.ok (blockFrame b.1 b.2) := by
    induction bs generalizing outs with
    | nil =>
      cases outs with
      | nil => exact ⟨[], rfl, rfl, by simp⟩
      | cons o outs => simp at h
    | cons b bs ih =>
      cases outs with
      | nil => simp at h
      | cons o outs =>
        simp only [List.map_cons, List.cons.injEq] at h
        obtain ⟨body, hbody⟩ := generateBlockData_frame _ _ _ _ _ h.1
        obtain ⟨blocks, h1, h2, h3⟩ := ih outs h.2
        have hfr : blockFrame b body = o := by rw [hbody, blockFrame, crc32_eq_spec]
        refine ⟨(b, body) :: blocks, by simp [h1], by simp [h2, hfr], ?_⟩
        intro x hx
        rcases List.mem_cons.1 hx with rfl | hx
        · rw [hfr]; exact h.1
        · exact h3 x hx
  obtain ⟨blocks, h1, h2, h3⟩ := key
  refine ⟨blocks, h1, ?_, ?_, h3⟩
  · rw [← h2, blockFrames, List.flatMap_def]
  · rw [combineCrc_eq, streamCrc, ← h1, List.map_map]
    congr 1
    exact List.map_congr_left fun b _ => (crc32_eq_spec b.1).symm

/-! ### writers that do not answer `Ok(0)` -/

/-- The writer never answers `Ok(0)`. -/
def NoZeroWrite (s : List WEvent) : Prop := ∀ e ∈ s, e ≠ WEvent.accept 0

/-- `a` has received `pre` and then what `b`, a reliable writer, has received. -/
structure Tracks (pre : List UInt8) (a b : BitWriter) : Prop where
  pending : a.pending = b.pending
  out : a.w.out = pre ++ b.w.out
  nz : NoZeroWrite a.w.script
  rel : b.w.script = []

theorem write_tracks (wa wb : Writer) (pre : List UInt8) (x : UInt8) (h1 : wa.out = pre ++ wb.out)
    (h2 : NoZeroWrite wa.script) (h3 : wb.script = []) :
    wb.write [x] = (⟨wb.out ++ [x], []⟩, Res.ok ()) ∧
    ((∃ w', wa.write [x] = (w', Res.ok ()) ∧ w'.out = pre ++ (wb.out ++ [x]) ∧ NoZeroWrite w'.script) ∨
     (∃ w', wa.write [x] = (w', Res.err))) := by
  obtain ⟨outA, sa⟩ := wa
  obtain ⟨outB, sb⟩ := wb
  simp only at h1 h3; subst h1; subst h3
  refine ⟨rfl, ?_⟩
  cases sa with
  | nil => exact Or.inl ⟨_, rfl, by simp, h2⟩
  | cons e sa =>
    cases e with
    | fail => exact Or.inr ⟨_, rfl⟩
    | accept k =>
      have : k ≠ 0 := by
        intro hk; subst hk; exact h2 _ (by simp) rfl
      obtain ⟨k, rfl⟩ : ∃ m, k = m + 1 := ⟨k - 1, by omega⟩
      exact Or.inl ⟨_, rfl, by simp, fun e he => h2 e (by simp [he])⟩

theorem writeChunks_tracks (pre : List UInt8) (p : List Bit) (wa wb : Writer) (l : List Bit)
    (h1 : wa.out = pre ++ wb.out) (h2 : NoZeroWrite wa.script) (h3 : wb.script = []) :
    ∃ b, writeChunks p wb l = (b, Res.ok ()) ∧
      ((∃ a, writeChunks p wa l = (a, Res.ok ()) ∧ Tracks pre a b) ∨
       (∃ a, writeChunks p wa l = (a, Res.err))) := by
  induction h : l.length using Nat.strongRecOn generalizing l wa wb with
  | _ n ih =>
    match l with
    | b0 :: b1 :: b2 :: b3 :: b4 :: b5 :: b6 :: b7 :: rest =>
      simp only [writeChunks]
      obtain ⟨e1, e2⟩ := write_tracks wa wb pre
        (UInt8.ofNat (convertToNumber [b0, b1, b2, b3, b4, b5, b6, b7])) h1 h2 h3
      rw [e1]
      rcases e2 with ⟨w', e2, e3, e4⟩ | ⟨w', e2⟩
      · rw [e2]
        exact ih rest.length (by simp at h; omega) w' _ rest e3 e4 rfl rfl
      · rw [e2]
        obtain ⟨b, g1, -⟩ := ih rest.length (by simp at h; omega)
          ⟨pre ++ (wb.out ++ [UInt8.ofNat (convertToNumber [b0, b1, b2, b3, b4, b5, b6, b7])]), []⟩
          ⟨wb.out ++ [UInt8.ofNat (convertToNumber [b0, b1, b2, b3, b4, b5, b6, b7])], []⟩ rest
          rfl (by intro e he; simp at he) rfl rfl
        exact ⟨b, g1, Or.inr ⟨_, rfl⟩⟩
    | [] => exact ⟨_, rfl, Or.inl ⟨_, rfl, ⟨rfl, h1, h2, h3⟩⟩⟩
    | [_] => exact ⟨_, rfl, Or.inl ⟨_, rfl, ⟨rfl, h1, h2, h3⟩⟩⟩
    | [_, _] => exact ⟨_, rfl, Or.inl ⟨_, rfl, ⟨rfl, h1, h2, h3⟩⟩⟩
    | [_, _, _] => exact ⟨_, rfl, Or.inl ⟨_, rfl, ⟨rfl, h1, h2, h3⟩⟩⟩
    | [_, _, _, _] => exact ⟨_, rfl, Or.inl ⟨_, rfl, ⟨rfl, h1, h2, h3⟩⟩⟩
    | [_, _, _, _, _] => exact ⟨_, rfl, Or.inl ⟨_, rfl, ⟨rfl, h1, h2, h3⟩⟩⟩
    | [_, _, _, _, _, _] => exact ⟨_, rfl, Or.inl ⟨_, rfl, ⟨rfl, h1, h2, h3⟩⟩⟩
    | [_, _, _, _, _, _, _] => exact ⟨_, rfl, Or.inl ⟨_, rfl, ⟨rfl, h1, h2, h3⟩⟩⟩

theorem writeBits_tracks (pre : List UInt8) (a b : BitWriter) (l : List Bit) (h : Tracks pre a b) :
    ∃ b', b.writeBits l = (b', Res.ok ()) ∧
      ((∃ a', a.writeBits l = (a', Res.ok ()) ∧ Tracks pre a' b') ∨
       (∃ a', a.writeBits l = (a', Res.err))) := by
  unfold BitWriter.writeBits
  rw [h.pending]
  exact writeChunks_tracks pre _ _ _ _ h.out h.nz h.rel

theorem flushLoop_tracks (gen : Work → Res (List Bit)) (pre : List UInt8) (works : List Work)
    (a b a' : BitWriter) (crc crc' : BitVec 32) (h : Tracks pre a b)
    (hr : flushLoop gen works a crc = (a', Res.ok crc')) :
    ∃ b', flushLoop gen works b crc = (b', Res.ok crc') ∧ Tracks pre a' b' := by
  induction works generalizing a b crc with
  | nil =>
    simp only [flushLoop, Prod.mk.injEq, Res.ok.injEq] at hr
    obtain ⟨rfl, rfl⟩ := hr
    exact ⟨b, rfl, h⟩
  | cons w works ih =>
    rw [flushLoop, flushOne] at hr ⊢
    cases hg : gen w with
    | ok bits =>
      obtain ⟨b1, w1, w2⟩ := writeBits_tracks pre a b bits h
      rw [hg] at hr
      simp only at hr
      rcases w2 with ⟨a1, w2, w3⟩ | ⟨a1, w2⟩
      · rw [w2] at hr
        simp only at hr
        simp only [w1]
        exact ih _ _ _ w3 hr
      · rw [w2] at hr; simp at hr
    | err => rw [hg] at hr; simp at hr
    | panic => rw [hg] at hr; simp at hr
    | div => rw [hg] at hr; simp at hr

theorem mainLoop_tracks (gen : Work → Res (List Bit)) (pre : List UInt8) (ft : Bool) (t fuel : Nat)
    (es : List REvent) (fin : Bool) (a b a' : BitWriter) (crc crc' : BitVec 32) (h : Tracks pre a b)
    (hr : mainLoop gen ft t fuel es fin a crc = (a', Res.ok crc')) :
    ∃ b', mainLoop gen ft t fuel es fin b crc = (b', Res.ok crc') ∧ Tracks pre a' b' := by
  induction fuel generalizing es fin a b crc with
  | zero => simp [mainLoop] at hr
  | succ fuel ih =>
    rw [mainLoop] at hr ⊢
    split at hr
    · rename_i hf
      simp only [Prod.mk.injEq, Res.ok.injEq] at hr
      obtain ⟨rfl, rfl⟩ := hr
      rw [if_pos hf]
      exact ⟨b, rfl, h⟩
    · rename_i hf
      rw [if_neg hf]
      obtain ⟨bs, es', fin', h1, -⟩ := sendLoop_total ft t es fin
      rw [h1] at hr ⊢
      dsimp only at hr ⊢
      rcases hfl : flushLoop gen (bs.map workOf) a crc with ⟨a1, r⟩
      rw [hfl] at hr
      cases r with
      | ok c =>
        obtain ⟨b1, g1, g2⟩ := flushLoop_tracks gen pre _ _ _ _ _ _ h hfl
        rw [g1]
        exact ih _ _ _ _ _ g2 hr
      | err => simp at hr
      | panic => simp at hr
      | div => simp at hr

theorem encodeStreamFuel_tracks (fuel : Nat) (dist : Distance) (r : Reader) (w w' : Writer) (t : Nat)
    (strategy : Strategy) (hw : NoZeroWrite w.script)
    (h : encodeStreamFuel fuel dist r w t strategy = (w', Res.ok ())) :
    ∃ w₀, encodeStreamFuel fuel dist r Writer.empty t strategy = (w₀, Res.ok ()) ∧
      w'.out = w.out ++ w₀.out := by
  unfold encodeStreamFuel at h ⊢
  have h0 : Tracks w.out (BitWriter.fromWriter w) (BitWriter.fromWriter Writer.empty) :=
    ⟨rfl, by simp [BitWriter.fromWriter, Writer.empty], hw, rfl⟩
  obtain ⟨b1, p1, p2⟩ := writeBits_tracks w.out _ _ fileHeader h0
  simp only [andThen_eq] at h ⊢
  rw [p1]
  rcases p2 with ⟨a1, p2, p3⟩ | ⟨a1, p2⟩
  · rw [p2] at h
    simp only [Res.unwrap_ok] at h ⊢
    rcases hm : mainLoop (fun work => generateBlockData dist strategy work.crc work.rleTotal)
      r.failTail t fuel r.events false a1 0 with ⟨a2, r2⟩
    rw [hm] at h
    cases r2 with
    | ok crc =>
      obtain ⟨b2, q1, q2⟩ := mainLoop_tracks _ w.out _ _ _ _ _ _ _ _ _ _ p3 hm
      rw [q1]
      simp only at h ⊢
      obtain ⟨b3, s1, s2⟩ := writeBits_tracks w.out _ _ (streamFooter crc) q2
      rw [s1]
      rcases s2 with ⟨a3, s2, s3⟩ | ⟨a3, s2⟩
      · rw [s2] at h
        simp only [Res.unwrap_ok] at h ⊢
        unfold BitWriter.finalize at h ⊢
        rw [s3.pending] at h
        split at h
        · rename_i he
          rw [if_pos he]
          simp only [Prod.mk.injEq] at h
          exact ⟨_, rfl, by rw [← h.1]; exact s3.out⟩
        · rename_i he
          rw [if_neg he]
          obtain ⟨e1, e2⟩ := write_tracks a3.w b3.w w.out
            (UInt8.ofNat (convertToNumber (b3.pending ++ List.replicate (8 - b3.pending.length) false)))
            s3.out s3.nz s3.rel
          dsimp only at h ⊢
          rw [e1]
          rcases e2 with ⟨w2, e2, e3, e4⟩ | ⟨w2, e2⟩
          · rw [e2] at h
            simp only [Prod.mk.injEq] at h
            exact ⟨_, rfl, by rw [← h.1]; exact e3⟩
          · rw [e2] at h; simp at h
      · rw [s2] at h; simp at h
    | err => simp at h
    | panic => simp at h
    | div => simp at h
  · rw [p2] at h; simp at h

end Ribzip2
