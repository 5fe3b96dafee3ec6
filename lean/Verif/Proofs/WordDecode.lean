import Verif.Proofs.WordHuffman
import Verif.Proofs.Release
import Verif.Proofs.BlockDecode
/- The decoder on machines of other word sizes: parsers, refinement, and agreement with the decoder for 64 bits. -/
namespace Ribzip2.Word
open Spec
open Release (Agree)

/-! ### Parsers -/

def pDeltaLoop (bits amount : Nat) :
    List Bit → List UInt8 → Nat → Nat → Res (List UInt8 × List Bit)
  | [], _, _, _ => Res.err
  | [true], _, _, _ => Res.err
  | true :: b :: bs, out, start, read =>
    match (if b then subU start 1 else addU bits start 1) with
    | Res.ok start =>
      if read = amount then Res.ok (out, bs) else pDeltaLoop bits amount bs out start read
    | _ => Res.panic
  | false :: bs, out, start, read =>
    if read + 1 = amount then Res.ok (out ++ [UInt8.ofNat start], bs)
    else pDeltaLoop bits amount bs (out ++ [UInt8.ofNat start]) start (read + 1)

def pDelta (bits amount : Nat) : Parser (List UInt8) := fun bs => do
  let (five, bs) ← takeBits 5 bs
  let start ← convertToNumber bits five
  pDeltaLoop bits amount bs [] start 0

def pTrees (bits amount : Nat) : Nat → Parser (List (List UInt8))
  | 0, bs => Res.ok ([], bs)
  | n + 1, bs => do
    let (tree, bs) ← (pDelta bits amount bs).unwrap
    let (more, bs) ← pTrees bits amount n bs
    pure (tree :: more, bs)

def finishBlock (bits : Nat) (crc : BitVec 32) (origPtr : Nat) (symbols : List UInt8)
    (zleInput : List ZleSymbol) : Res (List UInt8) := do
  let mtfInput ← decodeZle bits zleInput
  let bwtInput ← inverseMtf mtfInput symbols
  let rleInput ← inverseBwt bwtInput origPtr
  let decoded := inverseRle rleInput
  if crc32 decoded = crc then pure decoded else Res.err

def pParts (bits : Nat) : Parser (BitVec 32 × Nat × List UInt8 × List ZleSymbol) := fun bs => do
  let (crcBits, bs) ← (takeBits 32 bs).unwrap
  let crcNumber ← convertToNumber bits crcBits
  let (_randomized, bs) ← takeBits 1 bs
  let (ptrBits, bs) ← (takeBits 24 bs).unwrap
  let origPtr ← convertToNumber bits ptrBits
  let (symbols, bs) ← (pSymbolTable bs).unwrap
  let (treeBits, bs) ← (takeBits 3 bs).unwrap
  let numTrees ← convertToNumber bits treeBits
  let (selBits, bs) ← (takeBits 15 bs).unwrap
  let numSelectors ← convertToNumber bits selBits
  let (selectors, bs) ← (pUnary numSelectors bs).unwrap
  let selectors ← inverseMtf selectors ((List.range numTrees).map UInt8.ofNat)
  let (trees, bs) ← pTrees bits (symbols.length + 2) numTrees bs
  let tables ← buildTables bits trees
  let (zleInput, bs) ← pGroups tables selectors bs
  pure ((BitVec.ofNat 32 crcNumber, origPtr, symbols, zleInput), bs)

def pBlock (bits : Nat) : Parser (List UInt8) := fun bs =>
  pParts bits bs >>= fun x => finishBlock bits x.1.1 x.1.2.1 x.1.2.2.1 x.1.2.2.2 >>= fun d => Res.ok (d, x.2)

def pBlocks (bits : Nat) : Nat → List Bit → List (List UInt8) × Res Unit
  | 0, _ => ([], Res.div)
  | fuel + 1, bs =>
    match pWhatNext bs with
    | Res.ok (BlockType.streamFooter, _) => ([], Res.ok ())
    | Res.ok (BlockType.blockHeader, bs) =>
      match pBlock bits bs with
      | Res.ok (d, bs) => (d :: (pBlocks bits fuel bs).1, (pBlocks bits fuel bs).2)
      | Res.err => ([], Res.err)
      | Res.panic => ([], Res.panic)
      | Res.div => ([], Res.div)
    | Res.err => ([], Res.err)
    | Res.panic => ([], Res.panic)
    | Res.div => ([], Res.div)

def pStream (bits : Nat) (bs : List Bit) : List (List UInt8) × Res Unit :=
  match pHeader bs with
  | Res.ok bs => pBlocks bits (bs.length + 1) bs
  | Res.err => ([], Res.err)
  | Res.panic => ([], Res.panic)
  | Res.div => ([], Res.div)

/-! ### Refinement -/

theorem absR_readDeltaLoop (bits amount fuel : Nat) (br : BitReader) (out : List UInt8) (c n : Nat)
    (h : br.bits.length < fuel) :
    absR (readDeltaLoop bits amount fuel br out c n) = pDeltaLoop bits amount br.bits out c n := by
  induction fuel generalizing br out c n with
  | zero => omega
  | succ fuel ih =>
    rcases readBits_one br with ⟨h1, h2⟩ | ⟨b, br', h1, h2⟩
    · simp [readDeltaLoop, h1, h2, pDeltaLoop]
    · rw [h2] at h; simp only [List.length_cons] at h
      rw [h2]
      cases b
      · simp only [readDeltaLoop, h1, pDeltaLoop, Res.ok_bind]
        split
        · rfl
        · exact ih _ _ _ _ (by omega)
      · simp only [readDeltaLoop, h1, Res.ok_bind]
        rcases readBits_one br' with ⟨h3, h4⟩ | ⟨b, br'', h3, h4⟩
        · simp [h3, h4, pDeltaLoop]
        · rw [h4] at h; simp only [List.length_cons] at h
          rw [h4]
          simp only [h3, Res.ok_bind, pDeltaLoop]
          cases b
          · simp only [Bool.false_eq_true, if_false, addU]
            split
            · rw [Res.ok_bind]
              dsimp only
              split
              · rfl
              · exact ih _ _ _ _ (by omega)
            · rfl
          · simp only [if_true, subU]
            split
            · rw [Res.ok_bind]
              dsimp only
              split
              · rfl
              · exact ih _ _ _ _ (by omega)
            · rfl

theorem absR_readDelta (bits amount : Nat) (br : BitReader) :
    absR (readDelta bits br amount) = pDelta bits amount br.bits := by
  simp only [readDelta, pDelta]
  apply absR_bind (absR_readBits 5 br)
  intro five br
  apply absR_bindPure; intro start
  exact absR_readDeltaLoop _ _ _ _ _ _ _ br.bits_lt_fuel

theorem absR_readTrees (bits amount n : Nat) (br : BitReader) :
    absR (readTrees bits amount n br) = pTrees bits amount n br.bits := by
  induction n generalizing br with
  | zero => rfl
  | succ n ih =>
    simp only [readTrees, pTrees]
    apply absR_bind (by rw [absR_unwrap, absR_readDelta])
    intro tree br
    apply absR_bind (ih br)
    intros; rfl

theorem absR_decodeBlockData (bits : Nat) (br : BitReader) : absR (decodeBlockData bits br) = pBlock bits br.bits := by
  simp only [decodeBlockData, pBlock, pParts, finishBlock, bind_assoc, Res.pure_eq, Res.ok_bind]
  apply absR_bind (by rw [absR_unwrap, absR_readBits]); intro crcBits br; dsimp only
  apply absR_bindPure; intro crcNumber
  apply absR_bind (by rw [absR_readBits]); intro _ br; dsimp only
  apply absR_bind (by rw [absR_unwrap, absR_readBits]); intro ptrBits br; dsimp only
  apply absR_bindPure; intro origPtr
  apply absR_bind (by rw [absR_unwrap, absR_readSymbolTable]); intro symbols br; dsimp only
  apply absR_bind (by rw [absR_unwrap, absR_readBits]); intro treeBits br; dsimp only
  apply absR_bindPure; intro numTrees
  apply absR_bind (by rw [absR_unwrap, absR_readBits]); intro selBits br; dsimp only
  apply absR_bindPure; intro numSelectors
  apply absR_bind (by rw [absR_unwrap, absR_readUnary]); intro selectors br; dsimp only
  apply absR_bindPure; intro selectors
  apply absR_bind (absR_readTrees _ _ _ _); intro trees br; dsimp only
  apply absR_bindPure; intro tables
  apply absR_bind (absR_readGroups _ _ _); intro zleInput br; dsimp only
  apply absR_bindPure; intro mtfInput
  apply absR_bindPure; intro bwtInput
  apply absR_bindPure; intro rleInput
  split <;> simp

/-! ### Locality -/

theorem local_deltaLoop (bits amount : Nat) (out : List UInt8) (c n : Nat) :
    Local (fun bs => pDeltaLoop bits amount bs out c n) := by
  intro bs a rest h
  induction hl : bs.length using Nat.strongRecOn generalizing bs out c n with
  | _ len ih =>
    have step : ∀ {pre tl out' c' n'}, bs = pre ++ tl → pre ≠ [] →
        pDeltaLoop bits amount tl out' c' n' = Res.ok (a, rest) →
        (∀ e, pDeltaLoop bits amount (pre ++ e) out c n = pDeltaLoop bits amount e out' c' n') →
        ∃ used, bs = used ++ rest ∧
          ∀ e, pDeltaLoop bits amount (used ++ e) out c n = Res.ok (a, e) := by
      intro pre tl out' c' n' e0 hne h1 h2
      have : pre.length ≠ 0 := by simpa using hne
      obtain ⟨u, e1, h3⟩ := ih tl.length (by rw [← hl, e0]; simp; omega) _ _ _ _ h1 rfl
      exact ⟨pre ++ u, by simp [e0, e1], fun e => by rw [List.append_assoc, h2]; exact h3 e⟩
    have stop : ∀ {x pre tl}, bs = pre ++ tl → Res.ok (x, tl) = Res.ok (a, rest) →
        (∀ e, pDeltaLoop bits amount (pre ++ e) out c n = Res.ok (x, e)) →
        ∃ used, bs = used ++ rest ∧
          ∀ e, pDeltaLoop bits amount (used ++ e) out c n = Res.ok (a, e) := by
      intro x pre tl e0 h1 h2
      simp at h1
      exact ⟨pre, by simp [e0, h1.2], fun e => by simp [h2, h1.1]⟩
    match bs with
    | [] => simp [pDeltaLoop] at h
    | [true] => simp [pDeltaLoop] at h
    | false :: tl =>
      simp only [pDeltaLoop] at h
      split at h
      · rename_i hc; exact stop (pre := [false]) rfl h (fun e => by simp [pDeltaLoop, hc])
      · rename_i hc; exact step (pre := [false]) rfl (by simp) h (fun e => by simp [pDeltaLoop, hc])
    | true :: b :: tl =>
      simp only [pDeltaLoop] at h
      split at h
      · rename_i s hs
        split at h
        · rename_i hc
          exact stop (pre := [true, b]) rfl h (fun e => by simp [pDeltaLoop, hc, hs])
        · rename_i hc
          exact step (pre := [true, b]) rfl (by simp) h (fun e => by simp [pDeltaLoop, hc, hs])
      · simp at h

theorem local_delta (bits n : Nat) : Local (pDelta bits n) :=
  Local.bind (Local.takeBits 5) fun _ => Local.bindPure fun start => local_deltaLoop bits n [] start 0

theorem local_trees (bits amount n : Nat) : Local (pTrees bits amount n) := by
  induction n with
  | zero => exact Local.pure []
  | succ n ih =>
    refine Local.bind (Local.unwrap (local_delta bits amount)) fun _ => ?_
    refine Local.bind ih fun _ => ?_
    exact Local.pure _

theorem local_parts (bits : Nat) : Local (pParts bits) := by
  refine Local.bind (Local.unwrap (Local.takeBits 32)) fun _ => ?_
  refine Local.bindPure fun _ => ?_
  refine Local.bind (Local.takeBits 1) fun _ => ?_
  refine Local.bind (Local.unwrap (Local.takeBits 24)) fun _ => ?_
  refine Local.bindPure fun _ => ?_
  refine Local.bind (Local.unwrap Local.symbolTable) fun symbols => ?_
  refine Local.bind (Local.unwrap (Local.takeBits 3)) fun treeBits => ?_
  refine Local.bindPure fun _ => ?_
  refine Local.bind (Local.unwrap (Local.takeBits 15)) fun selBits => ?_
  refine Local.bindPure fun _ => ?_
  refine Local.bind (Local.unwrap (Local.unary _)) fun _ => ?_
  refine Local.bindPure fun selectors => ?_
  refine Local.bind (local_trees _ _ _) fun _ => ?_
  refine Local.bindPure fun tables => ?_
  refine Local.bind (Local.groups tables selectors) fun _ => ?_
  exact Local.pure _

theorem local_block (bits : Nat) : Local (pBlock bits) := by
  refine Local.bind (local_parts bits) fun x => ?_
  exact Local.bindPure (x := finishBlock bits x.1 x.2.1 x.2.2.1 x.2.2.2) (f := fun d bs => Res.ok (d, bs))
    fun d => Local.pure d

theorem pBlocks_fuel (bits f1 f2 : Nat) (bs : List Bit) (h1 : bs.length < f1) (h2 : bs.length < f2) :
    pBlocks bits f1 bs = pBlocks bits f2 bs := by
  induction f1 generalizing f2 bs with
  | zero => omega
  | succ f1 ih =>
    cases f2 with
    | zero => omega
    | succ f2 =>
      simp only [pBlocks]
      rcases hw : pWhatNext bs with ⟨t, mid⟩ | _ | _ | _
      · cases t
        · rfl
        · simp only
          have := pWhatNext_len hw
          rcases hb : pBlock bits mid with ⟨d, rest⟩ | _ | _ | _
          · have := Local.le (local_block bits) hb
            simp only
            rw [ih f2 rest (by omega) (by omega)]
          all_goals rfl
      all_goals rfl

theorem decodeLoop_eq (bits fuel : Nat) (br : BitReader) (w : Writer) :
    decodeLoop bits fuel br w =
      match writeAll w (pBlocks bits fuel br.bits).1 with
      | (w', Res.ok _) => (w', (pBlocks bits fuel br.bits).2)
      | (w', _) => (w', Res.err) := by
  induction fuel generalizing br w with
  | zero => rfl
  | succ fuel ih =>
    have hw := absR_whatNext br
    simp only [decodeLoop, pBlocks]
    rw [← hw]
    rcases whatNext br with ⟨t, br1⟩ | _ | _ | _
    · cases t
      · rfl
      · simp only [absR_ok, decodeBlock]
        have hb := absR_decodeBlockData bits br1
        rw [← hb]
        rcases decodeBlockData bits br1 with ⟨d, br2⟩ | _ | _ | _
        · simp only [absR_ok, writeAll]
          rcases hwr : w.write d with ⟨w', (_ | _ | _ | _)⟩
          · simp only [ih]
          all_goals rfl
        all_goals rfl
    all_goals rfl

theorem decodeStream_eq (bits : Nat) (r : Reader) (w : Writer) :
    decodeStream bits r w =
      match writeAll w (pStream bits (bytesBits (delivered r.events))).1 with
      | (w', Res.ok _) => (w', (pStream bits (bytesBits (delivered r.events))).2)
      | (w', _) => (w', Res.err) := by
  have hb : (BitReader.fromReader r).bits = bytesBits (delivered r.events) := by simp
  have hh := pHeader_eq (BitReader.fromReader r)
  rw [hb] at hh
  simp only [decodeStream, pStream]
  rw [hh]
  rcases readFileHeader (BitReader.fromReader r) with br | _ | _ | _
  · simp only
    rw [decodeLoop_eq, pBlocks_fuel bits (br.fuel) (br.bits.length + 1) br.bits br.bits_lt_fuel (by omega)]
  all_goals rfl

theorem decodeBytes_eq (bits : Nat) (bytes : List UInt8) :
    decodeBytes bits bytes =
      (pStream bits (bytesBits bytes)).2 >>= fun _ => Res.ok (pStream bits (bytesBits bytes)).1.flatten := by
  have := decodeStream_eq bits (Reader.ofBytes bytes) ⟨[], []⟩
  simp only [writeAll_reliable, Reader.ofBytes, delivered_data] at this
  simp only [decodeBytes, Reader.ofBytes, Writer.empty, this]
  rcases (pStream bits (bytesBits bytes)).2 with _ | _ | _ | _ <;> simp

/-! ### Agreement: a panic, or the same as with 64 bits -/

theorem agree_number (bits : Nat) (l : List Bit) :
    Agree (convertToNumber bits l) (Res.ok (Ribzip2.convertToNumber l)) := by
  by_cases h : Ribzip2.convertToNumber l < 2 ^ bits
  · right; rw [convertToNumber_ok h]
  · left; exact convertToNumber_panic h

/-- A number that is read is the same, or there is a panic. -/
theorem agree_read {β : Type} (bits : Nat) (l : List Bit) (f : Nat → Res β) (r : Res β)
    (h : Agree (f (Ribzip2.convertToNumber l)) r) : Agree (convertToNumber bits l >>= f) r := by
  rcases agree_number bits l with h' | h'
  · left; rw [h']; rfl
  · rw [← h']; exact h

theorem agree_deltaLoop (bits amount : Nat) (bs : List Bit) (out : List UInt8) (c n : Nat) :
    Agree (pDeltaLoop bits amount bs out c n) (Ribzip2.pDeltaLoop amount bs out c n) := by
  induction hl : bs.length using Nat.strongRecOn generalizing bs out c n with
  | _ len ih =>
    match bs with
    | [] => exact Agree.refl _
    | [true] => exact Agree.refl _
    | false :: tl =>
      simp only [Ribzip2.pDeltaLoop, pDeltaLoop]
      split
      · exact Agree.refl _
      · exact ih tl.length (by simp at hl; omega) _ _ _ _ rfl
    | true :: b :: tl =>
      simp only [Ribzip2.pDeltaLoop, pDeltaLoop]
      cases b
      · rw [if_neg Bool.false_ne_true, if_neg Bool.false_ne_true]
        unfold addU
        split
        · rename_i h
          split at h
          · rw [Res.ok.injEq] at h
            subst h
            dsimp only
            split
            · exact Agree.refl _
            · exact ih tl.length (by simp at hl; omega) _ _ _ _ rfl
          · simp at h
        · exact Or.inl rfl
      · rw [if_pos rfl, if_pos rfl]
        rcases subU c 1 with start | _ | _ | _
        · dsimp only
          split
          · exact Agree.refl _
          · exact ih tl.length (by simp at hl; omega) _ _ _ _ rfl
        all_goals exact Or.inl rfl

theorem agree_delta (bits amount : Nat) (bs : List Bit) :
    Agree (pDelta bits amount bs) (Ribzip2.pDelta amount bs) := by
  refine Agree.bind (Agree.refl _) fun ⟨five, bs'⟩ h => ?_
  exact agree_read bits five _ _ (agree_deltaLoop _ _ _ _ _ _)

theorem agree_trees (bits amount n : Nat) (bs : List Bit) :
    Agree (pTrees bits amount n bs) (Ribzip2.pTrees amount n bs) := by
  induction n generalizing bs with
  | zero => exact Agree.refl _
  | succ n ih =>
    refine Agree.bind (agree_delta bits amount bs).unwrap fun ⟨tree, bs'⟩ _ => ?_
    refine Agree.bind (ih bs') fun _ _ => Agree.refl _

theorem agree_incrementSymbol (bits : Nat) (h64 : bits ≤ 64) (l : List Bit) :
    Agree (incrementSymbol bits l) (Ribzip2.incrementSymbol l) := by
  rw [incrementSymbol_eq]
  unfold Ribzip2.incrementSymbol
  have := Nat.pow_le_pow_right (n := 2) (by omega) h64
  split
  · right; rw [if_pos (by omega)]
  · exact Or.inl rfl

theorem agree_canonicalLoop (bits : Nat) (h64 : bits ≤ 64) (last : List Bit) (l : List CodeTableEntry) :
    Agree (canonicalLoop bits last l) (Ribzip2.canonicalLoop last l) := by
  induction l generalizing last with
  | nil => exact Agree.refl _
  | cons e l ih =>
    refine Agree.bind (agree_incrementSymbol bits h64 last) fun u _ => ?_
    exact Agree.bind (ih _) fun _ _ => Agree.refl _

theorem agree_canonicalize (bits : Nat) (h64 : bits ≤ 64) (t : List CodeTableEntry) :
    Agree (canonicalize bits t) (Ribzip2.canonicalize t) := by
  unfold Ribzip2.canonicalize canonicalize
  rcases stableSort CodeTableEntry.le t with _ | ⟨first, rest⟩
  · exact Agree.refl _
  · exact Agree.bind (agree_canonicalLoop bits h64 _ _) fun _ _ => Agree.refl _

theorem agree_buildTables (bits : Nat) (h64 : bits ≤ 64) (t : List (List UInt8)) :
    Agree (buildTables bits t) (Ribzip2.buildTables t) := by
  induction t with
  | nil => exact Agree.refl _
  | cons a t ih =>
    refine Agree.bind (Agree.refl _) fun _ _ => ?_
    refine Agree.bind (agree_canonicalize bits h64 _) fun _ _ => ?_
    exact Agree.bind ih fun _ _ => Agree.refl _

theorem agree_parts (bits : Nat) (h64 : bits ≤ 64) (bs : List Bit) : Agree (pParts bits bs) (Ribzip2.pParts bs) := by
  refine Agree.bind (Agree.refl _) fun ⟨_, _⟩ _ => ?_
  refine agree_read _ _ _ _ ?_
  refine Agree.bind (Agree.refl _) fun ⟨_, _⟩ _ => ?_
  refine Agree.bind (Agree.refl _) fun ⟨_, _⟩ _ => ?_
  refine agree_read _ _ _ _ ?_
  refine Agree.bind (Agree.refl _) fun ⟨_, _⟩ _ => ?_
  refine Agree.bind (Agree.refl _) fun ⟨_, _⟩ _ => ?_
  refine agree_read _ _ _ _ ?_
  refine Agree.bind (Agree.refl _) fun ⟨_, _⟩ _ => ?_
  refine agree_read _ _ _ _ ?_
  refine Agree.bind (Agree.refl _) fun ⟨_, _⟩ _ => ?_
  refine Agree.bind (Agree.refl _) fun _ _ => ?_
  refine Agree.bind (agree_trees bits _ _ _) fun ⟨_, _⟩ _ => ?_
  refine Agree.bind (agree_buildTables bits h64 _) fun _ _ => ?_
  exact Agree.refl _

/-! ### Runs of zeros -/

/-- The number computed with `b` bits is the exact number modulo `2 ^ b`. -/
theorem run_mod (b : Nat) (hb : 1 ≤ b) (l : List ZleSymbol) (x : Nat) :
    l.foldl (fun number bit => (number * 2) % 2 ^ b + (if bit = ZleSymbol.runB then 1 else 0)) (x % 2 ^ b)
      = l.foldl (fun number bit => number * 2 + (if bit = ZleSymbol.runB then 1 else 0)) x % 2 ^ b := by
  induction l generalizing x with
  | nil => rfl
  | cons s l ih =>
    rw [List.foldl_cons, List.foldl_cons, ← ih]
    congr 1
    obtain ⟨k, rfl⟩ : ∃ k, b = k + 1 := ⟨b - 1, by omega⟩
    have hp : 0 < 2 ^ k := Nat.two_pow_pos k
    rw [Nat.pow_succ]
    have e1 : x * 2 % (2 ^ k * 2) = x % 2 ^ k * 2 := Nat.mul_mod_mul_right 2 x (2 ^ k)
    have e2 : x % (2 ^ k * 2) * 2 % (2 ^ k * 2) = x % 2 ^ k * 2 := by
      rw [Nat.mul_mod_mul_right, Nat.mod_mul_right_mod]
    have hlt : x % 2 ^ k < 2 ^ k := Nat.mod_lt _ hp
    rw [e2]
    split
    · rw [Nat.add_mod, e1, Nat.mod_eq_of_lt (a := 1) (b := 2 ^ k * 2) (by omega)]
      exact (Nat.mod_eq_of_lt (by omega)).symm
    · rw [Nat.add_zero, Nat.add_zero, e1]

theorem zeros_ok (bits : Nat) (hb : 32 ≤ bits) (h64 : bits ≤ 64) (z : List ZleSymbol) (n : Nat)
    (h : Ribzip2.decodeZeroAmount z = Res.ok n) (hn : n < 2 ^ 30) : decodeZeroAmount bits z = Res.ok n := by
  have h32 : 2 ^ 32 ≤ 2 ^ bits := Nat.pow_le_pow_right (by omega) hb
  have h31 : 2 ^ 31 ≤ 2 ^ (bits - 1) := Nat.pow_le_pow_right (by omega) (by omega)
  have h1 := run_mod bits (by omega) (ZleSymbol.runB :: z.reverse) 0
  have h2 := run_mod 64 (by omega) (ZleSymbol.runB :: z.reverse) 0
  rw [Nat.zero_mod] at h1 h2
  unfold Ribzip2.decodeZeroAmount at h
  unfold decodeZeroAmount
  dsimp only at h ⊢
  rw [h1]
  rw [h2] at h
  generalize List.foldl (fun number bit => number * 2 + (if bit = ZleSymbol.runB then 1 else 0)) 0
    (ZleSymbol.runB :: z.reverse) = N at *
  have hN : N % 2 ^ 64 = n + 1 := by
    unfold subU at h
    split at h
    · rw [Res.ok_bind] at h
      split at h
      · simp only [Res.pure_eq, Res.ok.injEq] at h
        omega
      · simp at h
    · simp at h
  have hd : 2 ^ bits ∣ 2 ^ 64 := Nat.pow_dvd_pow 2 h64
  have hw : N % 2 ^ bits = n + 1 := by
    rw [← Nat.mod_mod_of_dvd N hd, hN]
    exact Nat.mod_eq_of_lt (by omega)
  rw [hw]
  simp only [subU, Nat.le_add_left, if_true, Nat.add_sub_cancel, Res.ok_bind, Res.pure_eq]
  rw [if_pos (by omega)]

theorem decodeZleLoop_ge (l z : List ZleSymbol) (out r : List UInt8) (h : Ribzip2.decodeZleLoop l z out = Res.ok r) :
    out.length ≤ r.length := by
  induction l generalizing z out with
  | nil =>
    unfold Ribzip2.decodeZleLoop at h
    split at h
    · simp only [Res.ok.injEq] at h; subst h; exact Nat.le_refl _
    · obtain ⟨n, -, h⟩ := bind_eq_ok h
      simp only [Res.pure_eq, Res.ok.injEq] at h; subst h; simp
  | cons s l ih =>
    cases s with
    | runA => exact ih _ _ h
    | runB => exact ih _ _ h
    | number x =>
      unfold Ribzip2.decodeZleLoop at h
      split at h
      · have := ih _ _ h
        simp at this; omega
      · obtain ⟨n, -, h⟩ := bind_eq_ok h
        have := ih _ _ h
        simp at this; omega

theorem decodeZleLoop_ok (bits : Nat) (hb : 32 ≤ bits) (h64 : bits ≤ 64) (l z : List ZleSymbol) (out r : List UInt8)
    (h : Ribzip2.decodeZleLoop l z out = Res.ok r) (hr : r.length < 2 ^ 30) : decodeZleLoop bits l z out = Res.ok r := by
  induction l generalizing z out with
  | nil =>
    unfold Ribzip2.decodeZleLoop at h
    unfold decodeZleLoop
    split at h
    · rename_i hc; rw [if_pos hc]; exact h
    · rename_i hc
      obtain ⟨n, h1, h⟩ := bind_eq_ok h
      simp only [Res.pure_eq, Res.ok.injEq] at h
      subst h
      rw [if_neg hc, zeros_ok bits hb h64 z n h1 (by simp at hr; omega)]
      rfl
  | cons s l ih =>
    cases s with
    | runA => exact ih _ _ h
    | runB => exact ih _ _ h
    | number x =>
      unfold Ribzip2.decodeZleLoop at h
      unfold decodeZleLoop
      split at h
      · rename_i hc; rw [if_pos hc]; exact ih _ _ h
      · rename_i hc
        obtain ⟨n, h1, h⟩ := bind_eq_ok h
        have hge := decodeZleLoop_ge _ _ _ _ h
        rw [if_neg hc, zeros_ok bits hb h64 z n h1 (by simp at hge; omega), Res.ok_bind]
        exact ih _ _ h

/-! ### Lengths -/

theorem inverseMtf_length (input dict out : List UInt8) (h : inverseMtf input dict = Res.ok out) :
    out.length = input.length := by
  unfold inverseMtf at h
  induction input generalizing dict out with
  | nil => simp only [inverseMtfLoop, Res.ok.injEq] at h; subst h; rfl
  | cons i input ih =>
    rw [inverseMtfLoop] at h
    obtain ⟨v, -, h⟩ := bind_eq_ok h
    obtain ⟨p, -, h⟩ := bind_eq_ok h
    have h : (bringToFront p dict >>= fun dict' => inverseMtfLoop input dict' >>= fun out => Res.ok (v :: out)) = Res.ok out := by
      by_cases hp : p < 256
      · simpa [hp] using h
      · simp [hp] at h
    obtain ⟨d, -, h⟩ := bind_eq_ok h
    obtain ⟨o, h1, h⟩ := bind_eq_ok h
    simp only [Res.ok.injEq] at h
    subst h
    rw [List.length_cons, List.length_cons, ih d o h1]

theorem inverseBwt_length (data : List UInt8) (ptr : Nat) (out : List UInt8) (h : inverseBwt data ptr = Res.ok out) :
    out.length = data.length := by
  unfold inverseBwt at h
  replace h := bind_eq_ok h
  obtain ⟨st, -, h⟩ := h
  generalize sortedPairs data = pairs at h
  generalize st.1 = start at h
  generalize data.length = n at h ⊢
  induction n generalizing start out with
  | zero => simp only [inverseBwtLoop, Res.ok.injEq] at h; subst h; rfl
  | succ n ih =>
    rw [inverseBwtLoop] at h
    obtain ⟨p, -, h⟩ := bind_eq_ok h
    obtain ⟨m, h1, h⟩ := bind_eq_ok h
    simp only [Res.pure_eq, Res.ok.injEq] at h
    subst h
    rw [List.length_cons, ih _ _ h1]

/-- The repeat counts of a run-length encoded block do not outnumber the other bytes. -/
theorem inverseRle_long (l : List UInt8) : l.length ≤ 2 * (inverseRle l).length := by
  have key : ∀ (l : List UInt8) (s : InvRle) (k : Nat),
      (k + (if s.equalCount = 3 then 1 else 0) ≤ 2 * s.output.length) →
      k + l.length ≤ 2 * (l.foldl invRleStep s).output.length := by
    intro l
    induction l with
    | nil => intro s k h; simp only [List.length_nil, List.foldl_nil]; split at h <;> omega
    | cons x l ih =>
      intro s k h
      rw [List.foldl_cons, List.length_cons, show k + (l.length + 1) = k + 1 + l.length by omega]
      apply ih
      obtain ⟨o, c, p⟩ := s
      unfold invRleStep
      cases p with
      | none => simp at h ⊢; split at h <;> simp_all <;> omega
      | some p =>
        dsimp only at h ⊢
        by_cases hc : c = 3
        · simp [hc] at h ⊢; omega
        · simp only [hc, if_false] at h ⊢
          by_cases hx : (p == x) = true
          · simp only [hx, if_true, List.length_append, List.length_singleton]
            split <;> omega
          · simp [hx]
            omega
  have := key l ⟨[], 0, none⟩ 0 (by simp)
  simpa [inverseRle] using this

theorem finishBlock_ok (bits : Nat) (hb : 32 ≤ bits) (h64 : bits ≤ 64) (crc : BitVec 32) (ptr : Nat) (symbols : List UInt8)
    (z : List ZleSymbol) (d : List UInt8) (h : Ribzip2.finishBlock crc ptr symbols z = Res.ok d) (hd : d.length < 2 ^ 29) :
    finishBlock bits crc ptr symbols z = Res.ok d := by
  unfold Ribzip2.finishBlock at h
  obtain ⟨m, h1, h⟩ := bind_eq_ok h
  obtain ⟨b, h2, h⟩ := bind_eq_ok h
  obtain ⟨r, h3, h⟩ := bind_eq_ok h
  have hlen : m.length < 2 ^ 30 := by
    have e1 := inverseMtf_length _ _ _ h2
    have e2 := inverseBwt_length _ _ _ h3
    have e3 := inverseRle_long r
    dsimp only at h
    split at h
    · simp only [Res.pure_eq, Res.ok.injEq] at h
      rw [h] at e3
      omega
    · simp at h
  unfold finishBlock
  have hz : decodeZle bits z = Res.ok m := decodeZleLoop_ok bits hb h64 _ _ _ _ h1 hlen
  rw [hz, Res.ok_bind, h2, Res.ok_bind, h3, Res.ok_bind]
  exact h

/-- A block that is decoded on a machine with 64 bits to less than 512 MiB. -/
theorem pBlock_agree (bits : Nat) (hb : 32 ≤ bits) (h64 : bits ≤ 64) (bs : List Bit) (d : List UInt8) (rest : List Bit)
    (h : Ribzip2.pBlock bs = Res.ok (d, rest)) (hd : d.length < 2 ^ 29) :
    pBlock bits bs = Res.panic ∨ pBlock bits bs = Res.ok (d, rest) := by
  rw [pBlock_eq_parts] at h
  obtain ⟨x, h1, h⟩ := bind_eq_ok h
  obtain ⟨d', h2, h⟩ := bind_eq_ok h
  simp only [Res.ok.injEq, Prod.mk.injEq] at h
  obtain ⟨rfl, rfl⟩ := h
  unfold pBlock
  rcases agree_parts bits h64 bs with hp | hp
  · left; rw [hp]; rfl
  · right
    rw [← hp, h1, Res.ok_bind, finishBlock_ok bits hb h64 _ _ _ _ _ h2 hd]
    rfl

theorem pBlocks_agree (bits : Nat) (hb : 32 ≤ bits) (h64 : bits ≤ 64) (fuel : Nat) (bs : List Bit)
    (h : (Ribzip2.pBlocks fuel bs).2 = Res.ok ()) (hd : ∀ d ∈ (Ribzip2.pBlocks fuel bs).1, d.length < 2 ^ 29) :
    ((pBlocks bits fuel bs).2 = Res.panic ∧ (pBlocks bits fuel bs).1 <+: (Ribzip2.pBlocks fuel bs).1) ∨
      pBlocks bits fuel bs = Ribzip2.pBlocks fuel bs := by
  induction fuel generalizing bs with
  | zero => simp [Ribzip2.pBlocks] at h
  | succ fuel ih =>
    simp only [Ribzip2.pBlocks, pBlocks] at h hd ⊢
    revert h hd
    rcases pWhatNext bs with ⟨t, mid⟩ | _ | _ | _
    · cases t
      · simp
      · dsimp only
        rcases hb' : Ribzip2.pBlock mid with ⟨d, rest⟩ | _ | _ | _
        · dsimp only
          intro h hd
          rcases pBlock_agree bits hb h64 mid d rest hb' (hd d (by simp)) with e | e
          · left; simp [e]
          · rw [e]
            dsimp only
            rcases ih rest h (fun d hd' => hd d (by simp [hd'])) with ⟨i1, i2⟩ | i
            · left; exact ⟨i1, by simpa using i2⟩
            · right; rw [i]
        all_goals simp
    all_goals simp

/-! ### Blocks of the format -/

theorem pDeltaLoop_steps (bits : Nat) {lo hi c l : Nat} {bs : List Bool} (h : LengthSteps lo hi c l bs)
    (hhi : hi + 1 < 2 ^ bits) (amount : Nat) (rest : List Bit) (out : List UInt8) (read : Nat) (hr : read < amount) :
    pDeltaLoop bits amount (bs ++ rest) out c read =
      if read + 1 = amount then Res.ok (out ++ [UInt8.ofNat l], rest)
      else pDeltaLoop bits amount rest (out ++ [UInt8.ofNat l]) l (read + 1) := by
  induction h with
  | done => rfl
  | inc _ _ _ ih =>
    rw [List.cons_append, List.cons_append, pDeltaLoop]
    simp only [Bool.false_eq_true, if_false]
    rw [addU_ok (by omega)]
    dsimp only
    rw [if_neg (by omega), ih]
  | dec _ _ _ ih =>
    rw [List.cons_append, List.cons_append, pDeltaLoop]
    simp only [if_true, subU, Nat.le_add_left, Nat.add_sub_cancel]
    rw [if_neg (by omega), ih]

theorem pDeltaLoop_from (bits : Nat) {lo hi c : Nat} {ls : List Nat} {bs : List Bool}
    (h : LengthsFrom lo hi c ls bs) (hhi : hi + 1 < 2 ^ bits) (amount : Nat) (rest : List Bit) (out : List UInt8) (read : Nat)
    (hr : read + ls.length = amount) (hne : ls ≠ []) :
    pDeltaLoop bits amount (bs ++ rest) out c read = Res.ok (out ++ ls.map UInt8.ofNat, rest) := by
  induction h generalizing out read with
  | nil => simp at hne
  | @cons c l ls b1 b2 h1 h2 ih =>
    simp only [List.length_cons] at hr
    rw [List.append_assoc, pDeltaLoop_steps bits h1 hhi amount _ _ _ (by omega)]
    by_cases hls : ls = []
    · subst hls
      cases h2
      rw [if_pos (by simpa using hr)]
      simp
    · have : ls.length ≠ 0 := by simpa using hls
      rw [if_neg (by omega), ih _ _ (by omega) hls]
      simp

theorem pDelta_table (bits : Nat) (hb : 32 ≤ bits) {lo : Nat} {ls : List Nat} {bs : List Bool} (h : LengthTable lo 20 ls bs)
    (hne : ls ≠ []) (rest : List Bit) :
    pDelta bits ls.length (bs ++ rest) = Res.ok (ls.map UInt8.ofNat, rest) := by
  have h32 : 2 ^ 32 ≤ 2 ^ bits := Nat.pow_le_pow_right (by omega) hb
  obtain ⟨start, b, hs, rfl, hf⟩ := h
  unfold pDelta
  rw [List.append_assoc, takeBits_append (by simp)]
  simp only [Res.ok_bind]
  rw [convertToNumber_ok (by rw [number_bits 5 _ (by omega)]; omega), Res.ok_bind, number_bits 5 _ (by omega),
    pDeltaLoop_from bits hf (by omega) _ _ _ _ (by omega) hne]
  simp

theorem pTrees_tables (bits : Nat) (hb : 32 ≤ bits) (n : Nat) (tables : List (List Nat)) (tbits : List (List Bool))
    (h : List.Forall₂ (LengthTable 1 20) tables tbits) (hl : ∀ ls ∈ tables, ls.length = n + 2)
    (rest : List Bit) :
    pTrees bits (n + 2) tables.length (tbits.flatten ++ rest)
      = Res.ok (tables.map fun ls => ls.map UInt8.ofNat, rest) := by
  induction h generalizing rest with
  | nil => rfl
  | @cons ls b tables bits' h1 h2 ih =>
    have e := hl ls (by simp)
    have := pDelta_table bits hb h1 (by intro h; rw [h] at e; simp at e) (bits'.flatten ++ rest)
    rw [e] at this
    simp only [List.flatten_cons, List.append_assoc, List.length_cons, pTrees, this, Res.unwrap_ok,
      Res.ok_bind]
    rw [ih (fun ls hls => hl ls (by simp [hls]))]
    rfl

/-- Tables with codes of at most 20 bits. -/
theorem buildTables_ok (bits : Nat) (hb : 32 ≤ bits) (n : Nat) (hpos : 1 ≤ n) (h256 : n ≤ 256) (tables : List (List Nat))
    (ht : TablesOk n tables) :
    buildTables bits (tables.map fun ls => ls.map UInt8.ofNat) = Ribzip2.buildTables (tables.map fun ls => ls.map UInt8.ofNat) := by
  induction tables with
  | nil => rfl
  | cons ls tables ih =>
    obtain ⟨t1, t2, t3⟩ := ht ls (by simp)
    have hb256 : ∀ l ∈ ls, l < 256 := fun l hl => by have := t2.1 l hl; omega
    have hw := fromWeights_eq (ls.map UInt8.ofNat) (by simp; omega) (by simp; omega)
    rw [map_toNat_ofNat ls hb256] at hw
    simp only [List.map_cons, buildTables, Ribzip2.buildTables, hw, Res.ok_bind]
    rw [canonicalize_ok bits hb _ (by simp [entriesOf]; omega) ?_, ih (fun x hx => ht x (by simp [hx]))]
    intro e he
    obtain ⟨i, hi, rfl⟩ := List.mem_map.1 he
    have hi : i < ls.length := by simpa using hi
    exact t2.1 _ (by simp only [len, List.getD_eq_getElem?_getD, List.getElem?_eq_getElem hi, Option.getD_some]; exact List.getElem_mem hi)

theorem pParts_body (bits : Nat) (hb : 32 ≤ bits) (p : BlockParts) (h : Readable p) (crc : BitVec 32) (rest : List Bit) :
    pParts bits (natToBits 32 crc.toNat ++ p.body ++ rest) =
      Res.ok ((crc, p.ptr, p.used, p.syms.map symbolOfIndex), rest) := by
  have h256 := used_length_le h.used
  have hpos : 1 ≤ p.used.length := List.length_pos_iff.2 h.usedNe
  have hselne : p.sel ≠ [] := by
    intro e
    have := h.enough
    rw [e] at this
    simp at this
  have hnt := h.numTables
  have h32 : 2 ^ 32 ≤ 2 ^ bits := Nat.pow_le_pow_right (by omega) hb
  have num : ∀ n x : Nat, n ≤ 32 → x < 2 ^ n → convertToNumber bits (natToBits n x) = Res.ok x := by
    intro n x hn hx
    have : 2 ^ n ≤ 2 ^ 32 := Nat.pow_le_pow_right (by omega) hn
    have e := number_bits n x hx
    have := convertToNumber_ok (bits := bits) (l := natToBits n x) (by rw [e]; omega)
    rw [this, e]
  obtain ⟨enc, u1, u2⟩ := pUnary_selectorBits h.selected (by omega) hselne
    (p.tableBits.flatten ++ (payloadBits p.tables p.sel 0 (p.syms ++ [p.eob]) ++ rest))
  have hT := pTrees_tables bits hb p.used.length p.tables p.tableBits h.transmitted
    (fun ls hls => (h.lengths ls hls).1) (payloadBits p.tables p.sel 0 (p.syms ++ [p.eob]) ++ rest)
  have hB := buildTables_canon p.used.length hpos h256 p.tables h.tablesOk
  have hB' := buildTables_ok bits hb p.used.length hpos h256 p.tables h.tablesOk
  have hG := pGroups_payload p.used.length p.tables h.tablesOk (by omega) p.sel
    (selectorBits_mem h.selected) p.syms h.symbols (by have := h.exact; omega) h.enough rest
  simp only [BlockParts.body, pParts, List.append_assoc]
  rw [takeBits_append (natToBits_length 32 _)]
  simp only [Res.unwrap_ok, Res.ok_bind]
  rw [num 32 _ (by omega) crc.isLt, Res.ok_bind, takeBits_append (n := 1) rfl]
  simp only [Res.ok_bind]
  rw [takeBits_append (natToBits_length 24 _)]
  simp only [Res.unwrap_ok, Res.ok_bind]
  rw [num 24 _ (by omega) h.ptr, Res.ok_bind, pSymbolTable_map, usedBytes_of_sorted _ h.used]
  simp only [Res.unwrap_ok, Res.ok_bind]
  rw [takeBits_append (natToBits_length 3 _)]
  simp only [Res.unwrap_ok, Res.ok_bind]
  rw [num 3 _ (by omega) (by omega), Res.ok_bind, takeBits_append (natToBits_length 15 _)]
  simp only [Res.unwrap_ok, Res.ok_bind]
  rw [num 15 _ (by omega) h.numSelectors, Res.ok_bind, u1]
  simp only [Res.unwrap_ok, Res.ok_bind]
  rw [show (List.range p.tables.length).map UInt8.ofNat = allTables p.tables.length from rfl, u2]
  simp only [Res.ok_bind]
  rw [hT]
  simp only [Res.ok_bind]
  rw [hB', hB]
  simp only [Res.ok_bind]
  have he : p.eob = p.used.length + 1 := rfl
  rw [he, hG]
  simp only [Res.ok_bind, BitVec.ofNat_toNat, BitVec.setWidth_eq]
  rfl

/-- A block of the format that is decoded with 64 bits. -/
theorem pBlock_body_ok (bits : Nat) (hb : 32 ≤ bits) (h64 : bits ≤ 64) (p : BlockParts) (h : Readable p) (crc : BitVec 32)
    (rest : List Bit) (d : List UInt8) (hd : d.length < 2 ^ 29)
    (hok : Ribzip2.pBlock (natToBits 32 crc.toNat ++ p.body ++ rest) = Res.ok (d, rest)) :
    pBlock bits (natToBits 32 crc.toNat ++ p.body ++ rest) = Res.ok (d, rest) := by
  rw [pBlock_body p h] at hok
  obtain ⟨d', h1, h2⟩ := bind_eq_ok hok
  simp only [Res.ok.injEq, Prod.mk.injEq, and_true] at h2
  subst h2
  rw [pBlock, pParts_body bits hb p h, Res.ok_bind, finishBlock_ok bits hb h64 _ _ _ _ _ h1 hd]
  rfl

theorem pBlocks_good (bits : Nat) (blocks : List (List UInt8 × List Bool))
    (h : ∀ b ∈ blocks, ∀ rest, pBlock bits (natToBits 32 (Spec.crc32 b.1).toNat ++ b.2 ++ rest) = Res.ok (b.1, rest))
    (tail : List Bit) (fuel : Nat) (hf : blocks.length < fuel) :
    pBlocks bits fuel (blockFrames blocks ++ footerMagic ++ tail) = (blocks.map (·.1), Res.ok ()) := by
  induction blocks generalizing fuel with
  | nil =>
    match fuel, hf with
    | fuel + 1, _ =>
      simp only [blockFrames, List.flatMap_nil, List.nil_append, pBlocks, pWhatNext_footer]
      rfl
  | cons b blocks ih =>
    match fuel, hf with
    | fuel + 1, hf =>
      have hb := h b (by simp) (blockFrames blocks ++ footerMagic ++ tail)
      have e : blockFrames (b :: blocks) ++ footerMagic ++ tail
          = blockMagic ++ (natToBits 32 (Spec.crc32 b.1).toNat ++ b.2 ++ (blockFrames blocks ++ footerMagic ++ tail)) := by
        simp [blockFrames, blockFrame]
      rw [e]
      simp only [pBlocks, pWhatNext_block, hb]
      rw [ih (fun x hx => h x (by simp [hx])) fuel (by simpa using hf)]
      rfl

theorem decodeBytes_good (bits : Nat) (level : UInt8) (blocks : List (List UInt8 × List Bool)) (bytes : List UInt8)
    (tail : List Bit)
    (h : ∀ b ∈ blocks, ∀ rest, pBlock bits (natToBits 32 (Spec.crc32 b.1).toNat ++ b.2 ++ rest) = Res.ok (b.1, rest))
    (hb : bytesBits bytes = streamHeader level ++ blockFrames blocks ++ footerMagic ++ tail) :
    decodeBytes bits bytes = Res.ok (contents blocks) := by
  have hp : pStream bits (bytesBits bytes) = (blocks.map (·.1), Res.ok ()) := by
    rw [hb, List.append_assoc, List.append_assoc, pStream, pHeader_append]
    simp only []
    rw [← List.append_assoc]
    exact pBlocks_good bits blocks h tail _ (by
      have := blockFrames_length blocks
      simp only [List.length_append]
      omega)
  rw [decodeBytes_eq, hp]
  simp [contents, List.flatMap_def]

/-! ### The model with 64 bits is the model of the other files -/

theorem pDeltaLoop_64 (amount : Nat) (bs : List Bit) (out : List UInt8) (c n : Nat) (h : c + bs.length < 2 ^ 64) :
    pDeltaLoop 64 amount bs out c n = Ribzip2.pDeltaLoop amount bs out c n := by
  induction hl : bs.length using Nat.strongRecOn generalizing bs out c n with
  | _ len ih =>
    match bs with
    | [] => rfl
    | [true] => rfl
    | false :: tl =>
      simp only [List.length_cons] at h hl
      simp only [Ribzip2.pDeltaLoop, pDeltaLoop]
      rw [ih tl.length (by omega) _ _ _ _ (by omega) rfl]
    | true :: b :: tl =>
      simp only [List.length_cons] at h hl
      simp only [Ribzip2.pDeltaLoop, pDeltaLoop]
      cases b
      · rw [if_neg Bool.false_ne_true, if_neg Bool.false_ne_true, addU_ok (by omega)]
        dsimp only
        rw [ih tl.length (by omega) _ _ _ _ (by omega) rfl]
      · rw [if_pos rfl, if_pos rfl]
        unfold subU
        by_cases hc : 1 ≤ c
        · simp only [hc, if_true]
          rw [ih tl.length (by omega) _ _ _ _ (by omega) rfl]
        · simp only [hc, if_false]

theorem number_64 (n : Nat) (hn : n ≤ 32) (bs : List Bit) (five rest : List Bit) (h : takeBits n bs = Res.ok (five, rest)) :
    convertToNumber 64 five = Res.ok (Ribzip2.convertToNumber five) ∧ Ribzip2.convertToNumber five < 2 ^ n ∧ rest.length ≤ bs.length := by
  obtain ⟨h1, h2⟩ := takeBits_ok h
  have hlt := number_lt five
  rw [h2] at hlt
  have : 2 ^ n ≤ 2 ^ 32 := Nat.pow_le_pow_right (by omega) hn
  refine ⟨convertToNumber_ok (by omega), hlt, ?_⟩
  rw [h1, List.length_append]
  omega

theorem pDelta_64 (amount : Nat) (bs : List Bit) (h : bs.length < 2 ^ 62) : pDelta 64 amount bs = Ribzip2.pDelta amount bs := by
  unfold pDelta Ribzip2.pDelta
  cases ht : takeBits 5 bs with
  | ok x =>
    obtain ⟨five, rest⟩ := x
    obtain ⟨h1, h2, h3⟩ := number_64 5 (by omega) bs five rest ht
    simp only [Res.ok_bind]
    rw [h1, Res.ok_bind, pDeltaLoop_64 _ _ _ _ _ (by omega)]
  | err => rfl
  | panic => rfl
  | div => rfl

theorem pTrees_64 (amount n : Nat) (bs : List Bit) (h : bs.length < 2 ^ 62) : pTrees 64 amount n bs = Ribzip2.pTrees amount n bs := by
  induction n generalizing bs with
  | zero => rfl
  | succ n ih =>
    simp only [pTrees, Ribzip2.pTrees, pDelta_64 amount bs h]
    cases hd : Ribzip2.pDelta amount bs with
    | ok x =>
      obtain ⟨t, rest⟩ := x
      have := Local.le (Local.delta amount) hd
      simp only [Res.unwrap_ok, Res.ok_bind]
      rw [ih rest (by omega)]
    | err => rfl
    | panic => rfl
    | div => rfl

theorem canonicalize_64 (t : List CodeTableEntry) : canonicalize 64 t = Ribzip2.canonicalize t := by
  have : ∀ (l : List CodeTableEntry) (last : List Bit), canonicalLoop 64 last l = Ribzip2.canonicalLoop last l := by
    intro l
    induction l with
    | nil => intro _; rfl
    | cons e l ih =>
      intro last
      simp only [canonicalLoop, Ribzip2.canonicalLoop, incrementSymbol_64, ih]
  unfold canonicalize Ribzip2.canonicalize
  rcases stableSort CodeTableEntry.le t with _ | ⟨first, rest⟩
  · rfl
  · simp only [this]

theorem buildTables_64 (t : List (List UInt8)) : buildTables 64 t = Ribzip2.buildTables t := by
  induction t with
  | nil => rfl
  | cons a t ih => simp only [buildTables, Ribzip2.buildTables, canonicalize_64, ih]

theorem pParts_64 (bs : List Bit) (h : bs.length < 2 ^ 62) : pParts 64 bs = Ribzip2.pParts bs := by
  have next : ∀ {α β : Type} {x : Res α} {f g : α → Res β}, (∀ a, x = Res.ok a → f a = g a) → (x >>= f) = (x >>= g) := by
    intro α β x f g hfg
    cases x with
    | ok a => exact hfg a rfl
    | err => rfl
    | panic => rfl
    | div => rfl
  have num : ∀ {β : Type} {n : Nat} {bs l rest : List Bit} (f : Nat → Res β), n ≤ 32 → (takeBits n bs).unwrap = Res.ok (l, rest) →
      (convertToNumber 64 l >>= f) = f (Ribzip2.convertToNumber l) := by
    intro β n bs l rest f hn ht
    rw [(number_64 n hn bs l rest (Res.unwrap_eq_ok.1 ht)).1, Res.ok_bind]
  have le : ∀ {n : Nat} {bs l rest : List Bit}, (takeBits n bs).unwrap = Res.ok (l, rest) → rest.length ≤ bs.length :=
    fun ht => Local.le (Local.takeBits _) (Res.unwrap_eq_ok.1 ht)
  unfold pParts Ribzip2.pParts
  refine next fun ⟨crc, b1⟩ h1 => ?_
  dsimp only
  rw [num _ (by omega) h1]
  refine next fun ⟨_, b2⟩ h2 => ?_
  refine next fun ⟨ptr, b3⟩ h3 => ?_
  dsimp only
  rw [num _ (by omega) h3]
  refine next fun ⟨symbols, b4⟩ h4 => ?_
  refine next fun ⟨tree, b5⟩ h5 => ?_
  dsimp only
  rw [num _ (by omega) h5]
  refine next fun ⟨sel, b6⟩ h6 => ?_
  dsimp only
  rw [num _ (by omega) h6]
  refine next fun ⟨selectors, b7⟩ h7 => ?_
  refine next fun selectors' _ => ?_
  have l1 := le h1
  have l2 := Local.le (Local.takeBits _) h2
  have l3 := le h3
  have l4 := Local.le Local.symbolTable (Res.unwrap_eq_ok.1 h4)
  have l5 := le h5
  have l6 := le h6
  have l7 := Local.le (Local.unary _) (Res.unwrap_eq_ok.1 h7)
  dsimp only at *
  rw [pTrees_64 _ _ _ (by omega)]
  refine next fun ⟨trees, b8⟩ h8 => ?_
  dsimp only
  rw [buildTables_64]

theorem pBlock_64 (bs : List Bit) (h : bs.length < 2 ^ 62) : pBlock 64 bs = Ribzip2.pBlock bs := by
  have hz : ∀ (l z : List ZleSymbol) (out : List UInt8), decodeZleLoop 64 l z out = Ribzip2.decodeZleLoop l z out := by
    intro l
    induction l with
    | nil => intro z out; rfl
    | cons s l ih =>
      intro z out
      cases s with
      | runA => exact ih _ _
      | runB => exact ih _ _
      | number x =>
        unfold decodeZleLoop Ribzip2.decodeZleLoop
        simp only [ih]
        rfl
  rw [pBlock_eq_parts, pBlock, pParts_64 bs h]
  have : ∀ crc ptr used z, finishBlock 64 crc ptr used z = Ribzip2.finishBlock crc ptr used z := by
    intro crc ptr used z
    unfold finishBlock Ribzip2.finishBlock decodeZle Ribzip2.decodeZle
    rw [hz]
  simp only [this]

theorem pBlocks_64 (fuel : Nat) (bs : List Bit) (h : bs.length < 2 ^ 62) : pBlocks 64 fuel bs = Ribzip2.pBlocks fuel bs := by
  induction fuel generalizing bs with
  | zero => rfl
  | succ fuel ih =>
    simp only [pBlocks, Ribzip2.pBlocks]
    rcases hw : pWhatNext bs with ⟨t, mid⟩ | _ | _ | _
    · cases t
      · rfl
      · have h1 := Local.le Local.whatNext hw
        dsimp only
        rw [pBlock_64 mid (by omega)]
        rcases hb : Ribzip2.pBlock mid with ⟨d, rest⟩ | _ | _ | _
        · have h2 := Local.le Local.block hb
          dsimp only
          rw [ih rest (by omega)]
        all_goals rfl
    all_goals rfl

theorem decodeStream_64 (r : Reader) (w : Writer) (h : (delivered r.events).length < 2 ^ 59) :
    decodeStream 64 r w = Ribzip2.decodeStream r w := by
  rw [decodeStream_eq, Ribzip2.decodeStream_eq]
  have hl : (bytesBits (delivered r.events)).length < 2 ^ 62 := by
    rw [bytesBits_length]; omega
  have e : pStream 64 (bytesBits (delivered r.events)) = Ribzip2.pStream (bytesBits (delivered r.events)) := by
    unfold pStream Ribzip2.pStream
    rcases hh : pHeader (bytesBits (delivered r.events)) with b | _ | _ | _
    · dsimp only
      obtain ⟨level, hl'⟩ := pHeader_inv hh
      rw [hl', List.length_append] at hl
      exact pBlocks_64 _ _ (by omega)
    all_goals rfl
  rw [e]
  rfl

end Ribzip2.Word
