import Verif.Model.Release
import Verif.Proofs.DecoderProps
/- The decoder of release builds: parsers, refinement, locality, and agreement with the checked decoder.
The names are those of Verif.Proofs.Decoder and Verif.Proofs.DecoderProps, in the namespace `Release`. -/
namespace Ribzip2.Release
open Spec

/-! ### Parsers -/

def pUnaryLoop (amount : Nat) :
    List Bit → List UInt8 → Nat → Nat → Res (List UInt8 × List Bit)
  | [], _, _, _ => Res.err
  | true :: bs, output, cur, cnt =>
    if cnt ≥ amount then Res.ok (output, bs) else pUnaryLoop amount bs output ((cur + 1) % 256) cnt
  | false :: bs, output, cur, cnt =>
    if cnt + 1 ≥ amount then Res.ok (output ++ [UInt8.ofNat cur], bs)
    else pUnaryLoop amount bs (output ++ [UInt8.ofNat cur]) 0 (cnt + 1)

def pUnary (amount : Nat) : Parser (List UInt8) := fun bs => pUnaryLoop amount bs [] 0 0

def pDeltaLoop (amount : Nat) :
    List Bit → List UInt8 → Nat → Nat → Res (List UInt8 × List Bit)
  | [], _, _, _ => Res.err
  | [true], _, _, _ => Res.err
  | true :: b :: bs, out, start, read =>
    if read = amount then Res.ok (out, bs)
    else pDeltaLoop amount bs out (if b then (start + (2 ^ 64 - 1)) % 2 ^ 64 else (start + 1) % 2 ^ 64) read
  | false :: bs, out, start, read =>
    if read + 1 = amount then Res.ok (out ++ [UInt8.ofNat start], bs)
    else pDeltaLoop amount bs (out ++ [UInt8.ofNat start]) start (read + 1)

def pDelta (amount : Nat) : Parser (List UInt8) := fun bs => do
  let (bits, bs) ← takeBits 5 bs
  pDeltaLoop amount bs [] (convertToNumber bits) 0

def pTrees (amount : Nat) : Nat → Parser (List (List UInt8))
  | 0, bs => Res.ok ([], bs)
  | n + 1, bs => do
    let (tree, bs) ← (pDelta amount bs).unwrap
    let (more, bs) ← pTrees amount n bs
    pure (tree :: more, bs)

def pBlock : Parser (List UInt8) := fun bs => do
  let (crcBits, bs) ← (takeBits 32 bs).unwrap
  let (_randomized, bs) ← takeBits 1 bs
  let (ptrBits, bs) ← (takeBits 24 bs).unwrap
  let (symbols, bs) ← (pSymbolTable bs).unwrap
  let (treeBits, bs) ← (takeBits 3 bs).unwrap
  let (selBits, bs) ← (takeBits 15 bs).unwrap
  let (selectors, bs) ← (pUnary (convertToNumber selBits) bs).unwrap
  let selectors ← inverseMtf selectors ((List.range (convertToNumber treeBits)).map UInt8.ofNat)
  let (trees, bs) ← pTrees (symbols.length + 2) (convertToNumber treeBits) bs
  let tables ← buildTables trees
  let (zleInput, bs) ← pGroups tables selectors bs
  let decoded ← finishBlock (BitVec.ofNat 32 (convertToNumber crcBits)) (convertToNumber ptrBits)
    symbols zleInput
  pure (decoded, bs)

/-- The blocks decoded from the bits and the way decoding ends. -/
def pBlocks : Nat → List Bit → List (List UInt8) × Res Unit
  | 0, _ => ([], Res.div)
  | fuel + 1, bs =>
    match pWhatNext bs with
    | Res.ok (BlockType.streamFooter, _) => ([], Res.ok ())
    | Res.ok (BlockType.blockHeader, bs) =>
      match pBlock bs with
      | Res.ok (d, bs) => (d :: (pBlocks fuel bs).1, (pBlocks fuel bs).2)
      | Res.err => ([], Res.err)
      | Res.panic => ([], Res.panic)
      | Res.div => ([], Res.div)
    | Res.err => ([], Res.err)
    | Res.panic => ([], Res.panic)
    | Res.div => ([], Res.div)

/-- The whole decoder as a function of the bits: blocks written, and outcome. -/
def pStream (bs : List Bit) : List (List UInt8) × Res Unit :=
  match pHeader bs with
  | Res.ok bs => pBlocks (bs.length + 1) bs
  | Res.err => ([], Res.err)
  | Res.panic => ([], Res.panic)
  | Res.div => ([], Res.div)

/-! ### Refinement -/

theorem absR_readUnaryLoop (amount fuel : Nat) (br : BitReader) (out : List UInt8) (c n : Nat)
    (h : br.bits.length < fuel) :
    absR (readUnaryLoop amount fuel br out c n) = pUnaryLoop amount br.bits out c n := by
  induction fuel generalizing br out c n with
  | zero => omega
  | succ fuel ih =>
    rcases readBits_one br with ⟨h1, h2⟩ | ⟨b, br', h1, h2⟩
    · simp [readUnaryLoop, h1, h2, pUnaryLoop]
    · rw [h2] at h; simp only [List.length_cons] at h
      rw [h2]
      cases b <;> simp only [readUnaryLoop, h1, pUnaryLoop, Res.ok_bind]
      · split
        · rfl
        · exact ih _ _ _ _ (by omega)
      · split
        · rfl
        · exact ih _ _ _ _ (by omega)

theorem absR_readUnary (amount : Nat) (br : BitReader) :
    absR (readUnary br amount) = pUnary amount br.bits :=
  absR_readUnaryLoop _ _ _ _ _ _ br.bits_lt_fuel

theorem absR_readDeltaLoop (amount fuel : Nat) (br : BitReader) (out : List UInt8) (c n : Nat)
    (h : br.bits.length < fuel) :
    absR (readDeltaLoop amount fuel br out c n) = pDeltaLoop amount br.bits out c n := by
  induction fuel generalizing br out c n with
  | zero => omega
  | succ fuel ih =>
    rcases readBits_one br with ⟨h1, h2⟩ | ⟨b, br', h1, h2⟩
    · simp [readDeltaLoop, h1, h2, pDeltaLoop]
    · rw [h2] at h; simp only [List.length_cons] at h
      rw [h2]
      cases b
      · simp only [readDeltaLoop, h1, pDeltaLoop, Res.ok_bind]
        split
        · rfl
        · exact ih _ _ _ _ (by omega)
      · simp only [readDeltaLoop, h1, Res.ok_bind]
        rcases readBits_one br' with ⟨h3, h4⟩ | ⟨b, br'', h3, h4⟩
        · simp [h3, h4, pDeltaLoop]
        · rw [h4] at h; simp only [List.length_cons] at h
          rw [h4]
          simp only [h3, Res.ok_bind, pDeltaLoop]
          cases b
          · simp only [Bool.false_eq_true, if_false]
            split
            · rfl
            · exact ih _ _ _ _ (by omega)
          · rw [if_pos rfl]
            split
            · rfl
            · exact ih _ _ _ _ (by omega)

theorem absR_readDelta (amount : Nat) (br : BitReader) :
    absR (readDelta br amount) = pDelta amount br.bits := by
  simp only [readDelta, pDelta]
  apply absR_bind (absR_readBits 5 br)
  intro bits br
  exact absR_readDeltaLoop _ _ _ _ _ _ br.bits_lt_fuel

theorem absR_readTrees (amount n : Nat) (br : BitReader) :
    absR (readTrees amount n br) = pTrees amount n br.bits := by
  induction n generalizing br with
  | zero => rfl
  | succ n ih =>
    simp only [readTrees, pTrees]
    apply absR_bind (by rw [absR_unwrap, absR_readDelta])
    intro tree br
    apply absR_bind (ih br)
    intros; rfl

theorem absR_decodeBlockData (br : BitReader) : absR (decodeBlockData br) = pBlock br.bits := by
  simp only [decodeBlockData, pBlock, finishBlock]
  apply absR_bind (by rw [absR_unwrap, absR_readBits]); intro crcBits br; dsimp only
  apply absR_bind (by rw [absR_readBits]); intro _ br; dsimp only
  apply absR_bind (by rw [absR_unwrap, absR_readBits]); intro ptrBits br; dsimp only
  apply absR_bind (by rw [absR_unwrap, absR_readSymbolTable]); intro symbols br; dsimp only
  apply absR_bind (by rw [absR_unwrap, absR_readBits]); intro treeBits br; dsimp only
  apply absR_bind (by rw [absR_unwrap, absR_readBits]); intro selBits br; dsimp only
  apply absR_bind (by rw [absR_unwrap, absR_readUnary]); intro selectors br; dsimp only
  apply absR_bindPure; intro selectors
  apply absR_bind (absR_readTrees _ _ _); intro trees br; dsimp only
  apply absR_bindPure; intro tables
  apply absR_bind (absR_readGroups _ _ _); intro zleInput br; dsimp only
  simp only [bind_assoc]
  apply absR_bindPure; intro mtfInput
  apply absR_bindPure; intro bwtInput
  apply absR_bindPure; intro rleInput
  split <;> simp

/-! ### Locality -/

theorem local_unaryLoop (amount : Nat) (out : List UInt8) (c n : Nat) :
    Local (fun bs => pUnaryLoop amount bs out c n) := by
  intro bs a rest h
  induction bs generalizing out c n with
  | nil => simp [pUnaryLoop] at h
  | cons b bs ih =>
    have step : ∀ {out' c' n'}, pUnaryLoop amount bs out' c' n' = Res.ok (a, rest) →
        (∀ e, pUnaryLoop amount (b :: e) out c n = pUnaryLoop amount e out' c' n') →
        ∃ used, b :: bs = used ++ rest ∧
          ∀ e, pUnaryLoop amount (used ++ e) out c n = Res.ok (a, e) := by
      intro out' c' n' h1 h2
      obtain ⟨u, e1, h3⟩ := ih _ _ _ h1
      exact ⟨b :: u, by simp [e1], fun e => by rw [List.cons_append, h2]; exact h3 e⟩
    have stop : ∀ {x}, Res.ok (x, bs) = Res.ok (a, rest) →
        (∀ e, pUnaryLoop amount (b :: e) out c n = Res.ok (x, e)) →
        ∃ used, b :: bs = used ++ rest ∧
          ∀ e, pUnaryLoop amount (used ++ e) out c n = Res.ok (a, e) := by
      intro x h1 h2
      simp at h1
      exact ⟨[b], by simp [h1.2], fun e => by simp [h2, h1.1]⟩
    cases b
    · simp only [pUnaryLoop] at h
      split at h
      · rename_i hc; exact stop h (fun e => by simp [pUnaryLoop, hc])
      · rename_i hc; exact step h (fun e => by simp [pUnaryLoop, hc])
    · simp only [pUnaryLoop] at h
      split at h
      · rename_i hc; exact stop h (fun e => by simp [pUnaryLoop, hc])
      · rename_i hc; exact step h (fun e => by simp [pUnaryLoop, hc])

theorem local_unary (n : Nat) : Local (pUnary n) := local_unaryLoop n [] 0 0

theorem local_deltaLoop (amount : Nat) (out : List UInt8) (c n : Nat) :
    Local (fun bs => pDeltaLoop amount bs out c n) := by
  intro bs a rest h
  induction hl : bs.length using Nat.strongRecOn generalizing bs out c n with
  | _ len ih =>
    have step : ∀ {pre tl out' c' n'}, bs = pre ++ tl → pre ≠ [] →
        pDeltaLoop amount tl out' c' n' = Res.ok (a, rest) →
        (∀ e, pDeltaLoop amount (pre ++ e) out c n = pDeltaLoop amount e out' c' n') →
        ∃ used, bs = used ++ rest ∧
          ∀ e, pDeltaLoop amount (used ++ e) out c n = Res.ok (a, e) := by
      intro pre tl out' c' n' e0 hne h1 h2
      have : pre.length ≠ 0 := by simpa using hne
      obtain ⟨u, e1, h3⟩ := ih tl.length (by rw [← hl, e0]; simp; omega) _ _ _ _ h1 rfl
      exact ⟨pre ++ u, by simp [e0, e1], fun e => by rw [List.append_assoc, h2]; exact h3 e⟩
    have stop : ∀ {x pre tl}, bs = pre ++ tl → Res.ok (x, tl) = Res.ok (a, rest) →
        (∀ e, pDeltaLoop amount (pre ++ e) out c n = Res.ok (x, e)) →
        ∃ used, bs = used ++ rest ∧
          ∀ e, pDeltaLoop amount (used ++ e) out c n = Res.ok (a, e) := by
      intro x pre tl e0 h1 h2
      simp at h1
      exact ⟨pre, by simp [e0, h1.2], fun e => by simp [h2, h1.1]⟩
    match bs with
    | [] => simp [pDeltaLoop] at h
    | [true] => simp [pDeltaLoop] at h
    | false :: tl =>
      simp only [pDeltaLoop] at h
      split at h
      · rename_i hc; exact stop (pre := [false]) rfl h (fun e => by simp [pDeltaLoop, hc])
      · rename_i hc; exact step (pre := [false]) rfl (by simp) h (fun e => by simp [pDeltaLoop, hc])
    | true :: b :: tl =>
      simp only [pDeltaLoop] at h
      split at h
      · rename_i hc
        exact stop (pre := [true, b]) rfl h (fun e => by
          simp only [List.cons_append, List.nil_append, pDeltaLoop, hc, if_true])
      · rename_i hc
        exact step (pre := [true, b]) rfl (by simp) h (fun e => by
          simp only [List.cons_append, List.nil_append, pDeltaLoop, hc, if_false])

theorem local_delta (n : Nat) : Local (pDelta n) :=
  Local.bind (Local.takeBits 5) fun bits => local_deltaLoop n [] (convertToNumber bits) 0

theorem local_trees (amount n : Nat) : Local (pTrees amount n) := by
  induction n with
  | zero => exact Local.pure []
  | succ n ih =>
    refine Local.bind (Local.unwrap (local_delta amount)) fun _ => ?_
    refine Local.bind ih fun _ => ?_
    exact Local.pure _

theorem local_block : Local pBlock := by
  refine Local.bind (Local.unwrap (Local.takeBits 32)) fun _ => ?_
  refine Local.bind (Local.takeBits 1) fun _ => ?_
  refine Local.bind (Local.unwrap (Local.takeBits 24)) fun _ => ?_
  refine Local.bind (Local.unwrap Local.symbolTable) fun symbols => ?_
  refine Local.bind (Local.unwrap (Local.takeBits 3)) fun treeBits => ?_
  refine Local.bind (Local.unwrap (Local.takeBits 15)) fun selBits => ?_
  refine Local.bind (Local.unwrap (local_unary _)) fun _ => ?_
  refine Local.bindPure fun selectors => ?_
  refine Local.bind (local_trees _ _) fun _ => ?_
  refine Local.bindPure fun tables => ?_
  refine Local.bind (Local.groups tables selectors) fun _ => ?_
  refine Local.bindPure fun _ => ?_
  exact Local.pure _

/-- Fuel beyond the number of bits makes no difference. -/
theorem pBlocks_fuel (f1 f2 : Nat) (bs : List Bit) (h1 : bs.length < f1) (h2 : bs.length < f2) :
    pBlocks f1 bs = pBlocks f2 bs := by
  induction f1 generalizing f2 bs with
  | zero => omega
  | succ f1 ih =>
    cases f2 with
    | zero => omega
    | succ f2 =>
      simp only [pBlocks]
      rcases hw : pWhatNext bs with ⟨t, mid⟩ | _ | _ | _
      · cases t
        · rfl
        · simp only
          have := pWhatNext_len hw
          rcases hb : pBlock mid with ⟨d, rest⟩ | _ | _ | _
          · have := Local.le local_block hb
            simp only
            rw [ih f2 rest (by omega) (by omega)]
          all_goals rfl
      all_goals rfl

theorem decodeLoop_eq (fuel : Nat) (br : BitReader) (w : Writer) :
    decodeLoop fuel br w =
      match writeAll w (pBlocks fuel br.bits).1 with
      | (w', Res.ok _) => (w', (pBlocks fuel br.bits).2)
      | (w', _) => (w', Res.err) := by
  induction fuel generalizing br w with
  | zero => rfl
  | succ fuel ih =>
    have hw := absR_whatNext br
    simp only [decodeLoop, pBlocks]
    rw [← hw]
    rcases whatNext br with ⟨t, br1⟩ | _ | _ | _
    · cases t
      · rfl
      · simp only [absR_ok, decodeBlock]
        have hb := absR_decodeBlockData br1
        rw [← hb]
        rcases decodeBlockData br1 with ⟨d, br2⟩ | _ | _ | _
        · simp only [absR_ok, writeAll]
          rcases hwr : w.write d with ⟨w', (_ | _ | _ | _)⟩
          · simp only [ih]
          all_goals rfl
        all_goals rfl
    all_goals rfl

/-- What the bytes delivered by the reader determine: the writes made and the outcome. -/
theorem decodeStream_eq (r : Reader) (w : Writer) :
    decodeStream r w =
      match writeAll w (pStream (bytesBits (delivered r.events))).1 with
      | (w', Res.ok _) => (w', (pStream (bytesBits (delivered r.events))).2)
      | (w', _) => (w', Res.err) := by
  have hb : (BitReader.fromReader r).bits = bytesBits (delivered r.events) := by simp
  have hh := pHeader_eq (BitReader.fromReader r)
  rw [hb] at hh
  simp only [decodeStream, pStream]
  rw [hh]
  rcases readFileHeader (BitReader.fromReader r) with br | _ | _ | _
  · simp only
    rw [decodeLoop_eq, pBlocks_fuel (br.fuel) (br.bits.length + 1) br.bits br.bits_lt_fuel (by omega)]
  all_goals rfl

theorem decodeStream_reliable (r : Reader) (out : List UInt8) :
    decodeStream r ⟨out, []⟩ =
      (⟨out ++ (pStream (bytesBits (delivered r.events))).1.flatten, []⟩,
        (pStream (bytesBits (delivered r.events))).2) := by
  rw [decodeStream_eq, writeAll_reliable]

/-- `decodeBytes` as a function of the bits. -/
theorem decodeBytes_eq (bytes : List UInt8) :
    decodeBytes bytes =
      (pStream (bytesBits bytes)).2 >>= fun _ => Res.ok (pStream (bytesBits bytes)).1.flatten := by
  have := decodeStream_reliable (Reader.ofBytes bytes) []
  simp only [Reader.ofBytes, delivered_data] at this
  simp only [decodeBytes, Reader.ofBytes, Writer.empty, this]
  rcases (pStream (bytesBits bytes)).2 with _ | _ | _ | _ <;> simp

/-! ### Termination, framing, monotonicity -/

theorem pUnaryLoop_ne_div (amount : Nat) (bs : List Bit) (out : List UInt8) (c n : Nat) :
    pUnaryLoop amount bs out c n ≠ Res.div := by
  induction bs generalizing out c n with
  | nil => simp [pUnaryLoop]
  | cons b bs ih =>
    cases b <;> simp only [pUnaryLoop] <;> (repeat' split) <;> first | exact ih _ _ _ | simp

theorem pDeltaLoop_ne_div (amount : Nat) (bs : List Bit) (out : List UInt8) (c n : Nat) :
    pDeltaLoop amount bs out c n ≠ Res.div := by
  induction hl : bs.length using Nat.strongRecOn generalizing bs out c n with
  | _ len ih =>
    match bs with
    | [] => simp [pDeltaLoop]
    | [true] => simp [pDeltaLoop]
    | false :: tl =>
      simp only [pDeltaLoop]
      split
      · simp
      · exact ih tl.length (by simp at hl; omega) _ _ _ _ rfl
    | true :: b :: tl =>
      simp only [pDeltaLoop]
      split
      · simp
      · exact ih tl.length (by simp at hl; omega) _ _ _ _ rfl

theorem pDelta_ne_div (amount : Nat) (bs : List Bit) : pDelta amount bs ≠ Res.div :=
  bind_ne_div (takeBits_ne_div _ _) fun _ => pDeltaLoop_ne_div _ _ _ _ _

theorem pTrees_ne_div (amount n : Nat) (bs : List Bit) : pTrees amount n bs ≠ Res.div := by
  induction n generalizing bs with
  | zero => simp [pTrees]
  | succ n ih =>
    exact bind_ne_div (unwrap_ne_div (pDelta_ne_div _ _)) fun _ => bind_ne_div (ih _) fun _ => by simp

theorem fromWeights_ne_div (t : List UInt8) : fromWeights t ≠ Res.div := by
  refine bind_ne_div (by unfold subU; split <;> simp) fun k => ?_
  dsimp only; split <;> simp

theorem canonicalLoop_ne_div (last : List Bit) (l : List CodeTableEntry) :
    canonicalLoop last l ≠ Res.div := by
  induction l generalizing last with
  | nil => simp [canonicalLoop]
  | cons e l ih =>
    refine bind_ne_div (by unfold incrementSymbol; simp) fun k => ?_
    exact bind_ne_div (ih _) fun _ => by simp

theorem canonicalize_ne_div (t : List CodeTableEntry) : canonicalize t ≠ Res.div := by
  unfold canonicalize
  split
  · simp
  · exact bind_ne_div (canonicalLoop_ne_div _ _) fun _ => by simp

theorem buildTables_ne_div (t : List (List UInt8)) : buildTables t ≠ Res.div := by
  induction t with
  | nil => simp [buildTables]
  | cons a t ih =>
    exact bind_ne_div (fromWeights_ne_div _) fun _ => bind_ne_div (canonicalize_ne_div _) fun _ =>
      bind_ne_div ih fun _ => by simp

theorem pBlock_ne_div (bs : List Bit) : pBlock bs ≠ Res.div := by
  refine bind_ne_div (unwrap_ne_div (takeBits_ne_div _ _)) fun _ => ?_
  refine bind_ne_div (takeBits_ne_div _ _) fun _ => ?_
  refine bind_ne_div (unwrap_ne_div (takeBits_ne_div _ _)) fun _ => ?_
  refine bind_ne_div (unwrap_ne_div (pSymbolTable_ne_div _)) fun _ => ?_
  refine bind_ne_div (unwrap_ne_div (takeBits_ne_div _ _)) fun _ => ?_
  refine bind_ne_div (unwrap_ne_div (takeBits_ne_div _ _)) fun _ => ?_
  refine bind_ne_div (unwrap_ne_div (pUnaryLoop_ne_div _ _ _ _ _)) fun _ => ?_
  refine bind_ne_div (inverseMtf_ne_div _ _) fun _ => ?_
  refine bind_ne_div (pTrees_ne_div _ _ _) fun _ => ?_
  refine bind_ne_div (buildTables_ne_div _) fun _ => ?_
  refine bind_ne_div (pGroups_ne_div _ _ _) fun _ => ?_
  exact bind_ne_div (finishBlock_ne_div _ _ _ _) fun _ => by simp

theorem pBlocks_ne_div (fuel : Nat) (bs : List Bit) (h : bs.length < fuel) :
    (pBlocks fuel bs).2 ≠ Res.div := by
  induction fuel generalizing bs with
  | zero => omega
  | succ fuel ih =>
    have hw := (pWhatNext_ne bs).1
    simp only [pBlocks]
    rcases hwn : pWhatNext bs with ⟨t, mid⟩ | _ | _ | _
    · cases t
      · simp
      · simp only
        have hb := pBlock_ne_div mid
        have := pWhatNext_len hwn
        rcases hbn : pBlock mid with ⟨d, rest⟩ | _ | _ | _
        · have := Local.le local_block hbn
          exact ih rest (by omega)
        · simp
        · simp
        · exact absurd hbn hb
    · simp
    · simp
    · exact absurd hwn hw

theorem pStream_ne_div (bs : List Bit) : (pStream bs).2 ≠ Res.div := by
  unfold pStream
  have h1 := (pHeader_ne bs).1
  rcases h : pHeader bs with b | _ | _ | _
  · exact pBlocks_ne_div _ _ (by omega)
  · simp
  · simp
  · exact absurd h h1

theorem pBlock_crc {bs : List Bit} {d : List UInt8} {rest : List Bit}
    (h : pBlock bs = Res.ok (d, rest)) :
    ∃ body, bs = natToBits 32 (Spec.crc32 d).toNat ++ body ++ rest := by
  obtain ⟨used, hu, hloc⟩ := local_block _ _ _ h
  simp only [pBlock] at h
  rcases h1 : takeBits 32 bs with ⟨crcBits, b1⟩ | _ | _ | _ <;> simp [h1] at h
  obtain ⟨e1, l1⟩ := takeBits_ok h1
  rcases h2 : takeBits 1 b1 with ⟨x2, b2⟩ | _ | _ | _ <;> simp [h2] at h
  rcases h3 : takeBits 24 b2 with ⟨x3, b3⟩ | _ | _ | _ <;> simp [h3] at h
  rcases h4 : pSymbolTable b3 with ⟨x4, b4⟩ | _ | _ | _ <;> simp [h4] at h
  rcases h5 : takeBits 3 b4 with ⟨x5, b5⟩ | _ | _ | _ <;> simp [h5] at h
  rcases h6 : takeBits 15 b5 with ⟨x6, b6⟩ | _ | _ | _ <;> simp [h6] at h
  rcases h7 : pUnary (convertToNumber x6) b6 with ⟨x7, b7⟩ | _ | _ | _ <;> simp [h7] at h
  rcases h8 : inverseMtf x7 ((List.range (convertToNumber x5)).map UInt8.ofNat) with x8 | _ | _ | _ <;>
    simp [h8] at h
  rcases h9 : pTrees (x4.length + 2) (convertToNumber x5) b7 with ⟨x9, b9⟩ | _ | _ | _ <;>
    simp [h9] at h
  rcases h10 : buildTables x9 with x10 | _ | _ | _ <;> simp [h10] at h
  rcases h11 : pGroups x10 x8 b9 with ⟨x11, b11⟩ | _ | _ | _ <;> simp [h11] at h
  rcases h12 : finishBlock (BitVec.ofNat 32 (convertToNumber crcBits)) (convertToNumber x3) x4 x11
    with x12 | _ | _ | _ <;> simp [h12] at h
  obtain ⟨rfl, rfl⟩ := h
  have hcrc : Ribzip2.crc32 x12 = BitVec.ofNat 32 (convertToNumber crcBits) := by
    simp only [finishBlock] at h12
    rcases g1 : decodeZle x11 with y1 | _ | _ | _ <;> simp [g1] at h12
    rcases g2 : inverseMtf y1 x4 with y2 | _ | _ | _ <;> simp [g2] at h12
    rcases g3 : inverseBwt y2 (convertToNumber x3) with y3 | _ | _ | _ <;> simp [g3] at h12
    split at h12
    · simp at h12; rw [← h12]; assumption
    · simp at h12
  have hb : natToBits 32 (Spec.crc32 x12).toNat = crcBits := by
    rw [← crc32_eq_spec, hcrc, convertToNumber_eq, BitVec.toNat_ofNat]
    have := bitsToNat_lt crcBits
    rw [l1] at this
    rw [Nat.mod_eq_of_lt this, ← l1, natToBits_bitsToNat]
  rw [hb]
  have : crcBits <+: used := by
    refine List.prefix_of_prefix_length_le (l₃ := bs) ⟨b1, e1.symm⟩ ⟨_, hu.symm⟩ ?_
    by_cases hlen : 32 ≤ used.length
    · omega
    · exfalso
      have := hloc []
      simp only [List.append_nil] at this
      have hx : takeBits 32 used = Res.err := by simp [takeBits]; omega
      simp [pBlock, hx] at this
  obtain ⟨body, hbody⟩ := this
  exact ⟨body, by rw [hbody, hu]⟩

/-- Whatever is written is a sequence of blocks found in the input with their right CRCs. -/
theorem pBlocks_frames (fuel : Nat) (bs : List Bit) :
    ∃ bodies : List (List UInt8 × List Bool), ∃ tail,
      (pBlocks fuel bs).1 = bodies.map (·.1) ∧ bs = blockFrames bodies ++ tail ∧
      ((pBlocks fuel bs).2 = Res.ok () → ∃ t, tail = footerMagic ++ t) := by
  induction fuel generalizing bs with
  | zero => exact ⟨[], bs, by simp [pBlocks], by simp [blockFrames], by simp [pBlocks]⟩
  | succ fuel ih =>
    rcases hwn : pWhatNext bs with ⟨t, mid⟩ | _ | _ | _
    · rcases pWhatNext_inv hwn with ⟨rfl, e⟩ | ⟨rfl, e⟩
      · rcases hbn : pBlock mid with ⟨d, rest⟩ | _ | _ | _
        · obtain ⟨body, hbody⟩ := pBlock_crc hbn
          obtain ⟨bodies, tail, g1, g2, g3⟩ := ih rest
          refine ⟨(d, body) :: bodies, tail, by simp [pBlocks, hwn, hbn, g1], ?_, ?_⟩
          · rw [e, hbody, g2]
            simp [blockFrames, blockFrame]
          · simpa [pBlocks, hwn, hbn] using g3
        all_goals exact ⟨[], bs, by simp [pBlocks, hwn, hbn], by simp [blockFrames],
          by simp [pBlocks, hwn, hbn]⟩
      · exact ⟨[], bs, by simp [pBlocks, hwn], by simp [blockFrames], fun _ => ⟨mid, e⟩⟩
    all_goals exact ⟨[], bs, by simp [pBlocks, hwn], by simp [blockFrames], by simp [pBlocks, hwn]⟩

theorem pBlocks_mono (fuel : Nat) (bs e : List Bit) :
    (pBlocks fuel bs).1 <+: (pBlocks fuel (bs ++ e)).1 ∧
    ((pBlocks fuel bs).2 = Res.ok () → pBlocks fuel (bs ++ e) = pBlocks fuel bs) := by
  induction fuel generalizing bs with
  | zero => simp [pBlocks]
  | succ fuel ih =>
    rcases hwn : pWhatNext bs with ⟨t, mid⟩ | _ | _ | _
    · obtain ⟨u, hu, hloc⟩ := Local.whatNext _ _ _ hwn
      have hw' : pWhatNext (bs ++ e) = Res.ok (t, mid ++ e) := by
        rw [hu, List.append_assoc]; exact hloc _
      cases t
      · simp [pBlocks, hwn, hw']
      · rcases hbn : pBlock mid with ⟨d, rest⟩ | _ | _ | _
        · obtain ⟨u2, hu2, hloc2⟩ := local_block _ _ _ hbn
          have hb' : pBlock (mid ++ e) = Res.ok (d, rest ++ e) := by
            rw [hu2, List.append_assoc]; exact hloc2 _
          obtain ⟨i1, i2⟩ := ih rest
          simp only [pBlocks, hwn, hw', hbn, hb']
          refine ⟨by simpa using i1, fun h => ?_⟩
          rw [i2 h]
        all_goals simp [pBlocks, hwn, hbn]
    all_goals simp [pBlocks, hwn]

theorem pStream_mono (bs e : List Bit) :
    (pStream bs).1 <+: (pStream (bs ++ e)).1 ∧
    ((pStream bs).2 = Res.ok () → pStream (bs ++ e) = pStream bs) := by
  unfold pStream
  rcases h : pHeader bs with b | _ | _ | _
  · obtain ⟨level, hl⟩ := pHeader_inv h
    have h' : pHeader (bs ++ e) = Res.ok (b ++ e) := by
      rw [hl, List.append_assoc, pHeader_append]
    simp only [h']
    have := pBlocks_mono ((b ++ e).length + 1) b e
    rw [pBlocks_fuel ((b ++ e).length + 1) (b.length + 1) b (by simp; omega) (by omega)] at this
    exact this
  all_goals simp

/-! ### Agreement with the checked decoder -/

/-- `d`, the result with overflow checks, is a panic, or `r`, the result without them, is the same. -/
def Agree {α : Type} (d r : Res α) : Prop := d = Res.panic ∨ r = d

theorem Agree.refl {α : Type} (d : Res α) : Agree d d := Or.inr rfl

theorem Agree.bind {α β : Type} {d r : Res α} {f g : α → Res β} (h : Agree d r)
    (hf : ∀ a, d = Res.ok a → Agree (f a) (g a)) : Agree (d >>= f) (r >>= g) := by
  rcases h with h | h
  · left; simp [h]
  · subst h
    rcases hd : r with a | _ | _ | _
    · simpa using hf a hd
    all_goals right; simp

theorem Agree.unwrap {α : Type} {d r : Res α} (h : Agree d r) : Agree d.unwrap r.unwrap := by
  rcases h with h | h
  · left; simp [h, Res.unwrap]
  · right; rw [h]

theorem agree_unaryLoop (amount : Nat) (bs : List Bit) (out : List UInt8) (c n : Nat) :
    Agree (Ribzip2.pUnaryLoop amount bs out c n) (pUnaryLoop amount bs out c n) := by
  induction bs generalizing out c n with
  | nil => exact Agree.refl _
  | cons b bs ih =>
    cases b
    · simp only [Ribzip2.pUnaryLoop, pUnaryLoop]
      split
      · exact Agree.refl _
      · exact ih _ _ _
    · simp only [Ribzip2.pUnaryLoop, pUnaryLoop]
      split
      · rename_i hc
        rw [Nat.mod_eq_of_lt hc]
        split
        · exact Agree.refl _
        · exact ih _ _ _
      · exact Or.inl rfl

theorem ofNat_mod64 (a : Nat) : UInt8.ofNat (a % 2 ^ 64) = UInt8.ofNat a := by
  apply UInt8.toNat_inj.1
  simp only [UInt8.toNat_ofNat']
  omega

theorem agree_deltaLoop (amount : Nat) (bs : List Bit) (out : List UInt8) (c n : Nat) :
    Agree (Ribzip2.pDeltaLoop amount bs out c n) (pDeltaLoop amount bs out (c % 2 ^ 64) n) := by
  induction hl : bs.length using Nat.strongRecOn generalizing bs out c n with
  | _ len ih =>
    match bs with
    | [] => exact Agree.refl _
    | [true] => exact Agree.refl _
    | false :: tl =>
      simp only [Ribzip2.pDeltaLoop, pDeltaLoop, ofNat_mod64]
      split
      · exact Agree.refl _
      · exact ih tl.length (by simp at hl; omega) _ _ _ _ rfl
    | true :: b :: tl =>
      simp only [Ribzip2.pDeltaLoop, pDeltaLoop]
      cases b
      · rw [if_neg Bool.false_ne_true, if_neg Bool.false_ne_true]
        dsimp only
        split
        · exact Agree.refl _
        · rw [Nat.mod_add_mod]
          exact ih tl.length (by simp at hl; omega) _ _ _ _ rfl
      · rw [if_pos rfl, if_pos rfl]
        by_cases hc : 1 ≤ c
        · have e : (c % 2 ^ 64 + (2 ^ 64 - 1)) % 2 ^ 64 = (c - 1) % 2 ^ 64 := by omega
          rw [e]
          simp only [subU, hc, if_true]
          split
          · exact Agree.refl _
          · exact ih tl.length (by simp at hl; omega) _ _ _ _ rfl
        · left
          simp [subU, hc]

theorem agree_delta (amount : Nat) (bs : List Bit) :
    Agree (Ribzip2.pDelta amount bs) (pDelta amount bs) := by
  simp only [Ribzip2.pDelta, pDelta]
  refine Agree.bind (Agree.refl _) fun ⟨bits, bs'⟩ h => ?_
  have := agree_deltaLoop amount bs' [] (convertToNumber bits) 0
  have hlen := (takeBits_ok h).2
  have hlt := bitsToNat_lt bits
  rw [hlen, ← convertToNumber_eq] at hlt
  rwa [Nat.mod_eq_of_lt (by omega)] at this

theorem agree_trees (amount n : Nat) (bs : List Bit) :
    Agree (Ribzip2.pTrees amount n bs) (pTrees amount n bs) := by
  induction n generalizing bs with
  | zero => exact Agree.refl _
  | succ n ih =>
    refine Agree.bind (agree_delta amount bs).unwrap fun ⟨tree, bs'⟩ _ => ?_
    refine Agree.bind (ih bs') fun _ _ => Agree.refl _

theorem agree_incrementSymbol (l : List Bit) :
    Agree (Ribzip2.incrementSymbol l) (incrementSymbol l) := by
  unfold Ribzip2.incrementSymbol incrementSymbol
  split
  · rename_i h; right; rw [Nat.mod_eq_of_lt h]
  · exact Or.inl rfl

theorem agree_canonicalLoop (last : List Bit) (l : List CodeTableEntry) :
    Agree (Ribzip2.canonicalLoop last l) (canonicalLoop last l) := by
  induction l generalizing last with
  | nil => exact Agree.refl _
  | cons e l ih =>
    refine Agree.bind (agree_incrementSymbol last) fun u _ => ?_
    exact Agree.bind (ih _) fun _ _ => Agree.refl _

theorem agree_canonicalize (t : List CodeTableEntry) :
    Agree (Ribzip2.canonicalize t) (canonicalize t) := by
  unfold Ribzip2.canonicalize canonicalize
  rcases stableSort CodeTableEntry.le t with _ | ⟨first, rest⟩
  · exact Agree.refl _
  · exact Agree.bind (agree_canonicalLoop _ _) fun _ _ => Agree.refl _

theorem agree_fromWeights (t : List UInt8) : Agree (Ribzip2.fromWeights t) (fromWeights t) := by
  unfold Ribzip2.fromWeights fromWeights
  refine Agree.bind (Agree.refl _) fun k _ => ?_
  by_cases h : k ≤ 255
  · right; simp [h, (by omega : k ≤ 256)]
  · left; simp [h]

theorem agree_buildTables (t : List (List UInt8)) :
    Agree (Ribzip2.buildTables t) (buildTables t) := by
  induction t with
  | nil => exact Agree.refl _
  | cons a t ih =>
    refine Agree.bind (agree_fromWeights a) fun _ _ => ?_
    refine Agree.bind (agree_canonicalize _) fun _ _ => ?_
    exact Agree.bind ih fun _ _ => Agree.refl _

theorem agree_block (bs : List Bit) : Agree (Ribzip2.pBlock bs) (pBlock bs) := by
  refine Agree.bind (Agree.refl _) fun ⟨_, _⟩ _ => ?_
  refine Agree.bind (Agree.refl _) fun ⟨_, _⟩ _ => ?_
  refine Agree.bind (Agree.refl _) fun ⟨_, _⟩ _ => ?_
  refine Agree.bind (Agree.refl _) fun ⟨_, _⟩ _ => ?_
  refine Agree.bind (Agree.refl _) fun ⟨_, _⟩ _ => ?_
  refine Agree.bind (Agree.refl _) fun ⟨_, _⟩ _ => ?_
  refine Agree.bind (agree_unaryLoop _ _ _ _ _).unwrap fun ⟨_, _⟩ _ => ?_
  refine Agree.bind (Agree.refl _) fun _ _ => ?_
  refine Agree.bind (agree_trees _ _ _) fun ⟨_, _⟩ _ => ?_
  refine Agree.bind (agree_buildTables _) fun _ _ => ?_
  exact Agree.refl _

theorem agree_blocks (fuel : Nat) (bs : List Bit) :
    ((Ribzip2.pBlocks fuel bs).2 ≠ Res.panic → pBlocks fuel bs = Ribzip2.pBlocks fuel bs) ∧
    (Ribzip2.pBlocks fuel bs).1 <+: (pBlocks fuel bs).1 := by
  induction fuel generalizing bs with
  | zero => exact ⟨fun _ => rfl, List.prefix_refl _⟩
  | succ fuel ih =>
    simp only [Ribzip2.pBlocks, pBlocks]
    rcases pWhatNext bs with ⟨t, mid⟩ | _ | _ | _
    · cases t
      · simp
      · dsimp only
        rcases agree_block mid with h | h
        · simp [h]
        · rw [h]
          rcases Ribzip2.pBlock mid with ⟨d, rest⟩ | _ | _ | _
          · obtain ⟨i1, i2⟩ := ih rest
            refine ⟨fun hp => ?_, ?_⟩
            · dsimp only at hp ⊢; rw [i1 hp]
            · simpa using i2
          all_goals simp
    all_goals simp

theorem agree_stream (bs : List Bit) :
    ((Ribzip2.pStream bs).2 ≠ Res.panic → pStream bs = Ribzip2.pStream bs) ∧
    (Ribzip2.pStream bs).1 <+: (pStream bs).1 := by
  unfold Ribzip2.pStream pStream
  rcases pHeader bs with b | _ | _ | _
  · exact agree_blocks _ _
  all_goals simp

theorem writeAll_append (w : Writer) (a b : List (List UInt8)) :
    writeAll w (a ++ b) = match writeAll w a with
      | (w', Res.ok _) => writeAll w' b
      | x => x := by
  induction a generalizing w with
  | nil => rfl
  | cons x a ih =>
    simp only [List.cons_append, writeAll]
    rcases w.write x with ⟨w', (_ | _ | _ | _)⟩
    · simp only [ih]
    all_goals rfl

end Ribzip2.Release
