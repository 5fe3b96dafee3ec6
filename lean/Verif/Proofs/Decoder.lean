import Verif.Proofs.Parser
/- The decoder as parsers on lists of bits, and the proof that the model refines them. -/
namespace Ribzip2
open Spec

/-! ### Parsers -/

def pReadBytes : Nat → Parser (List UInt8)
  | 0, bs => Res.ok ([], bs)
  | n + 1, bs => do
    let (bits, bs) ← takeBits 8 bs
    let (bytes, bs) ← pReadBytes n bs
    pure (UInt8.ofNat (convertToNumber bits) :: bytes, bs)

def pSymbolTable : Parser (List UInt8) := fun bs => do
  let (index, bs) ← takeBits 16 bs
  let usedRegions := getUsedRegions index
  let (regions, bs) ← takeBits (16 * usedRegions.length) bs
  pure (getUsedSymbolsFromRegions usedRegions regions, bs)

def pUnaryLoop (amount : Nat) :
    List Bit → List UInt8 → Nat → Nat → Res (List UInt8 × List Bit)
  | [], _, _, _ => Res.err
  | true :: bs, output, cur, cnt =>
    if cur + 1 < 256 then
      if cnt ≥ amount then Res.ok (output, bs) else pUnaryLoop amount bs output (cur + 1) cnt
    else Res.panic
  | false :: bs, output, cur, cnt =>
    if cnt + 1 ≥ amount then Res.ok (output ++ [UInt8.ofNat cur], bs)
    else pUnaryLoop amount bs (output ++ [UInt8.ofNat cur]) 0 (cnt + 1)

def pUnary (amount : Nat) : Parser (List UInt8) := fun bs => pUnaryLoop amount bs [] 0 0

def pDeltaLoop (amount : Nat) :
    List Bit → List UInt8 → Nat → Nat → Res (List UInt8 × List Bit)
  | [], _, _, _ => Res.err
  | [true], _, _, _ => Res.err
  | true :: b :: bs, out, start, read =>
    match (if b then subU start 1 else Res.ok (start + 1)) with
    | Res.ok start =>
      if read = amount then Res.ok (out, bs) else pDeltaLoop amount bs out start read
    | _ => Res.panic
  | false :: bs, out, start, read =>
    if read + 1 = amount then Res.ok (out ++ [UInt8.ofNat start], bs)
    else pDeltaLoop amount bs (out ++ [UInt8.ofNat start]) start (read + 1)

def pDelta (amount : Nat) : Parser (List UInt8) := fun bs => do
  let (bits, bs) ← takeBits 5 bs
  pDeltaLoop amount bs [] (convertToNumber bits) 0

def pSymbolsLoop (table : List CanonicalEntry) (maxNumber : Nat) :
    List Bit → List ZleSymbol → List Bit → Nat → Res (List ZleSymbol × List Bit)
  | [], _, _, _ => Res.err
  | b :: bs, all, current, symbolsRead =>
    match readFromTable table (current ++ [b]) with
    | some (HSym.normal symbol) =>
      if symbolsRead + 1 = maxNumber then Res.ok (all ++ [symbol], bs)
      else pSymbolsLoop table maxNumber bs (all ++ [symbol]) [] (symbolsRead + 1)
    | some HSym.eob => Res.ok (all, bs)
    | none =>
      if symbolsRead = maxNumber then Res.ok (all, bs)
      else pSymbolsLoop table maxNumber bs all (current ++ [b]) symbolsRead

def pSymbols (table : List CanonicalEntry) (maxNumber : Nat) : Parser (List ZleSymbol) :=
  fun bs => pSymbolsLoop table maxNumber bs [] [] 0

def pTrees (amount : Nat) : Nat → Parser (List (List UInt8))
  | 0, bs => Res.ok ([], bs)
  | n + 1, bs => do
    let (tree, bs) ← (pDelta amount bs).unwrap
    let (more, bs) ← pTrees amount n bs
    pure (tree :: more, bs)

def pGroups (tables : List (List CanonicalEntry)) : List UInt8 → Parser (List ZleSymbol)
  | [], bs => Res.ok ([], bs)
  | selector :: rest, bs => do
    let table ← idx tables selector.toNat
    let (syms, bs) ← (pSymbols table 50 bs).unwrap
    let (more, bs) ← pGroups tables rest bs
    pure (syms ++ more, bs)

/-- Everything after the entropy coding, and the CRC comparison. -/
def finishBlock (crc : BitVec 32) (origPtr : Nat) (symbols : List UInt8)
    (zleInput : List ZleSymbol) : Res (List UInt8) := do
  let mtfInput ← decodeZle zleInput
  let bwtInput ← inverseMtf mtfInput symbols
  let rleInput ← inverseBwt bwtInput origPtr
  let decoded := inverseRle rleInput
  if crc32 decoded = crc then pure decoded else Res.err

def pBlock : Parser (List UInt8) := fun bs => do
  let (crcBits, bs) ← (takeBits 32 bs).unwrap
  let (_randomized, bs) ← takeBits 1 bs
  let (ptrBits, bs) ← (takeBits 24 bs).unwrap
  let (symbols, bs) ← (pSymbolTable bs).unwrap
  let (treeBits, bs) ← (takeBits 3 bs).unwrap
  let (selBits, bs) ← (takeBits 15 bs).unwrap
  let (selectors, bs) ← (pUnary (convertToNumber selBits) bs).unwrap
  let selectors ← inverseMtf selectors ((List.range (convertToNumber treeBits)).map UInt8.ofNat)
  let (trees, bs) ← pTrees (symbols.length + 2) (convertToNumber treeBits) bs
  let tables ← buildTables trees
  let (zleInput, bs) ← pGroups tables selectors bs
  let decoded ← finishBlock (BitVec.ofNat 32 (convertToNumber crcBits)) (convertToNumber ptrBits)
    symbols zleInput
  pure (decoded, bs)

def pWhatNext : Parser BlockType := fun bs => do
  let (res, bs) ← pReadBytes 6 bs
  if res = [0x31, 0x41, 0x59, 0x26, 0x53, 0x59] then pure (BlockType.blockHeader, bs)
  else if res = [0x17, 0x72, 0x45, 0x38, 0x50, 0x90] then pure (BlockType.streamFooter, bs)
  else Res.err

/-- The blocks decoded from the bits and the way decoding ends. -/
def pBlocks : Nat → List Bit → List (List UInt8) × Res Unit
  | 0, _ => ([], Res.div)
  | fuel + 1, bs =>
    match pWhatNext bs with
    | Res.ok (BlockType.streamFooter, _) => ([], Res.ok ())
    | Res.ok (BlockType.blockHeader, bs) =>
      match pBlock bs with
      | Res.ok (d, bs) => (d :: (pBlocks fuel bs).1, (pBlocks fuel bs).2)
      | Res.err => ([], Res.err)
      | Res.panic => ([], Res.panic)
      | Res.div => ([], Res.div)
    | Res.err => ([], Res.err)
    | Res.panic => ([], Res.panic)
    | Res.div => ([], Res.div)

def pHeader (bs : List Bit) : Res (List Bit) :=
  match pReadBytes 4 bs with
  | Res.ok (res, bs) =>
    match res with
    | [0x42, 0x5a, 0x68, _] => Res.ok bs
    | _ => Res.err
  | Res.err => Res.err
  | Res.panic => Res.panic
  | Res.div => Res.div

/-- The whole decoder as a function of the bits: blocks written, and outcome. -/
def pStream (bs : List Bit) : List (List UInt8) × Res Unit :=
  match pHeader bs with
  | Res.ok bs => pBlocks (bs.length + 1) bs
  | Res.err => ([], Res.err)
  | Res.panic => ([], Res.panic)
  | Res.div => ([], Res.div)

/-! ### Refinement -/

theorem absR_readBytes (n : Nat) (br : BitReader) : absR (br.readBytes n) = pReadBytes n br.bits := by
  induction n generalizing br with
  | zero => rfl
  | succ n ih =>
    simp only [BitReader.readBytes, pReadBytes]
    apply absR_bind (absR_readBits 8 br)
    intro bits br
    apply absR_bind (ih br)
    intros; rfl

theorem absR_readSymbolTable (br : BitReader) : absR (readSymbolTable br) = pSymbolTable br.bits := by
  simp only [readSymbolTable, pSymbolTable]
  apply absR_bind (absR_readBits 16 br)
  intro bits br
  apply absR_bind (absR_readBits _ br)
  intros; rfl

/-- Reading one bit. -/
theorem readBits_one (br : BitReader) :
    (br.bits = [] ∧ br.readBits 1 = Res.err) ∨
    (∃ b br', br.readBits 1 = Res.ok ([b], br') ∧ br.bits = b :: br'.bits) := by
  have h := absR_readBits 1 br
  match hb : br.bits with
  | [] =>
    left
    refine ⟨rfl, ?_⟩
    rw [hb] at h
    revert h
    generalize br.readBits 1 = y
    rcases y with ⟨a, br⟩ | _ | _ | _ <;> simp [takeBits]
  | b :: rest =>
    right
    rw [hb] at h
    simp only [takeBits, List.length_cons, Nat.le_add_left, if_true, List.take_succ_cons,
      List.take_zero, List.drop_succ_cons, List.drop_zero] at h
    obtain ⟨br', h1, h2⟩ := absR_eq_ok h
    exact ⟨b, br', h1, by rw [h2]⟩

theorem absR_readUnaryLoop (amount fuel : Nat) (br : BitReader) (out : List UInt8) (c n : Nat)
    (h : br.bits.length < fuel) :
    absR (readUnaryLoop amount fuel br out c n) = pUnaryLoop amount br.bits out c n := by
  induction fuel generalizing br out c n with
  | zero => omega
  | succ fuel ih =>
    rcases readBits_one br with ⟨h1, h2⟩ | ⟨b, br', h1, h2⟩
    · simp [readUnaryLoop, h1, h2, pUnaryLoop]
    · rw [h2] at h; simp only [List.length_cons] at h
      rw [h2]
      cases b <;> simp only [readUnaryLoop, h1, pUnaryLoop, Res.ok_bind]
      · split
        · rfl
        · exact ih _ _ _ _ (by omega)
      · split
        · split
          · rfl
          · exact ih _ _ _ _ (by omega)
        · rfl

theorem absR_readUnary (amount : Nat) (br : BitReader) :
    absR (readUnary br amount) = pUnary amount br.bits :=
  absR_readUnaryLoop _ _ _ _ _ _ br.bits_lt_fuel

theorem absR_readDeltaLoop (amount fuel : Nat) (br : BitReader) (out : List UInt8) (c n : Nat)
    (h : br.bits.length < fuel) :
    absR (readDeltaLoop amount fuel br out c n) = pDeltaLoop amount br.bits out c n := by
  induction fuel generalizing br out c n with
  | zero => omega
  | succ fuel ih =>
    rcases readBits_one br with ⟨h1, h2⟩ | ⟨b, br', h1, h2⟩
    · simp [readDeltaLoop, h1, h2, pDeltaLoop]
    · rw [h2] at h; simp only [List.length_cons] at h
      rw [h2]
      cases b
      · simp only [readDeltaLoop, h1, pDeltaLoop, Res.ok_bind]
        split
        · rfl
        · exact ih _ _ _ _ (by omega)
      · simp only [readDeltaLoop, h1, Res.ok_bind]
        rcases readBits_one br' with ⟨h3, h4⟩ | ⟨b, br'', h3, h4⟩
        · simp [h3, h4, pDeltaLoop]
        · rw [h4] at h; simp only [List.length_cons] at h
          rw [h4]
          simp only [h3, Res.ok_bind, pDeltaLoop]
          cases b
          · simp only [Bool.false_eq_true, if_false]
            split
            · rfl
            · exact ih _ _ _ _ (by omega)
          · simp only [if_true]
            by_cases hc : 1 ≤ c
            · simp only [subU, hc, if_true, Res.ok_bind]
              split
              · rfl
              · exact ih _ _ _ _ (by omega)
            · simp [subU, hc]

theorem absR_readDelta (amount : Nat) (br : BitReader) :
    absR (readDelta br amount) = pDelta amount br.bits := by
  simp only [readDelta, pDelta]
  apply absR_bind (absR_readBits 5 br)
  intro bits br
  exact absR_readDeltaLoop _ _ _ _ _ _ br.bits_lt_fuel

theorem absR_readSymbolsLoop (table : List CanonicalEntry) (m fuel : Nat) (br : BitReader)
    (all : List ZleSymbol) (cur : List Bit) (n : Nat) (h : br.bits.length < fuel) :
    absR (readSymbolsLoop table m fuel br all cur n) = pSymbolsLoop table m br.bits all cur n := by
  induction fuel generalizing br all cur n with
  | zero => omega
  | succ fuel ih =>
    rcases readBits_one br with ⟨h1, h2⟩ | ⟨b, br', h1, h2⟩
    · simp [readSymbolsLoop, h1, h2, pSymbolsLoop]
    · rw [h2] at h; simp only [List.length_cons] at h
      rw [h2]
      simp only [readSymbolsLoop, h1, pSymbolsLoop, Res.ok_bind]
      rcases readFromTable table (cur ++ [b]) with _ | (s | _)
      · dsimp only
        split
        · rfl
        · exact ih _ _ _ _ (by omega)
      · dsimp only
        split
        · rfl
        · exact ih _ _ _ _ (by omega)
      · rfl

theorem absR_readSymbols (table : List CanonicalEntry) (m : Nat) (br : BitReader) :
    absR (readSymbols br table m) = pSymbols table m br.bits :=
  absR_readSymbolsLoop _ _ _ _ _ _ _ br.bits_lt_fuel

theorem absR_readTrees (amount n : Nat) (br : BitReader) :
    absR (readTrees amount n br) = pTrees amount n br.bits := by
  induction n generalizing br with
  | zero => rfl
  | succ n ih =>
    simp only [readTrees, pTrees]
    apply absR_bind (by rw [absR_unwrap, absR_readDelta])
    intro tree br
    apply absR_bind (ih br)
    intros; rfl

theorem absR_readGroups (tables : List (List CanonicalEntry)) (sel : List UInt8) (br : BitReader) :
    absR (readGroups tables sel br) = pGroups tables sel br.bits := by
  induction sel generalizing br with
  | nil => rfl
  | cons s sel ih =>
    simp only [readGroups, pGroups]
    apply absR_bindPure
    intro table
    apply absR_bind (by rw [absR_unwrap, absR_readSymbols])
    intro tree br
    apply absR_bind (ih br)
    intros; rfl

theorem absR_decodeBlockData (br : BitReader) : absR (decodeBlockData br) = pBlock br.bits := by
  simp only [decodeBlockData, pBlock, finishBlock]
  apply absR_bind (by rw [absR_unwrap, absR_readBits]); intro crcBits br; dsimp only
  apply absR_bind (by rw [absR_readBits]); intro _ br; dsimp only
  apply absR_bind (by rw [absR_unwrap, absR_readBits]); intro ptrBits br; dsimp only
  apply absR_bind (by rw [absR_unwrap, absR_readSymbolTable]); intro symbols br; dsimp only
  apply absR_bind (by rw [absR_unwrap, absR_readBits]); intro treeBits br; dsimp only
  apply absR_bind (by rw [absR_unwrap, absR_readBits]); intro selBits br; dsimp only
  apply absR_bind (by rw [absR_unwrap, absR_readUnary]); intro selectors br; dsimp only
  apply absR_bindPure; intro selectors
  apply absR_bind (absR_readTrees _ _ _); intro trees br; dsimp only
  apply absR_bindPure; intro tables
  apply absR_bind (absR_readGroups _ _ _); intro zleInput br; dsimp only
  simp only [bind_assoc]
  apply absR_bindPure; intro mtfInput
  apply absR_bindPure; intro bwtInput
  apply absR_bindPure; intro rleInput
  split <;> simp

theorem absR_whatNext (br : BitReader) : absR (whatNext br) = pWhatNext br.bits := by
  simp only [whatNext, pWhatNext]
  apply absR_bind (absR_readBytes _ _); intro res br; dsimp only
  split
  · rfl
  · split <;> rfl

/-! ### Locality: a parser that succeeds consumed a prefix of its input and looked at nothing else -/

/-- `p` consumes a prefix and its result depends on nothing behind it. -/
def Local {α : Type} (p : Parser α) : Prop :=
  ∀ bs a rest, p bs = Res.ok (a, rest) →
    ∃ used, bs = used ++ rest ∧ ∀ e, p (used ++ e) = Res.ok (a, e)

theorem Local.takeBits (n : Nat) : Local (takeBits n) := by
  intro bs a rest h
  obtain ⟨h1, h2⟩ := takeBits_ok h
  exact ⟨a, h1, fun e => takeBits_append h2⟩

theorem Local.pure {α : Type} (a : α) : Local (fun bs => Res.ok (a, bs)) := by
  intro bs a' rest h
  simp at h
  exact ⟨[], by simp [h.2], fun e => by simp [h.1]⟩

theorem Local.fail {α : Type} (r : Res (α × List Bit)) (h : ∀ x, r ≠ Res.ok x) :
    Local (fun _ => r) := by
  intro bs a rest h'; exact absurd h' (h _)

theorem Local.bind {α β : Type} {p : Parser α} {f : α × List Bit → Res (β × List Bit)}
    (hp : Local p) (hf : ∀ a, Local (fun bs => f (a, bs))) : Local (fun bs => p bs >>= f) := by
  intro bs b rest h
  rcases hpb : p bs with ⟨a, mid⟩ | _ | _ | _ <;> simp [hpb] at h
  obtain ⟨u1, e1, h1⟩ := hp _ _ _ hpb
  obtain ⟨u2, e2, h2⟩ := hf a _ _ _ h
  refine ⟨u1 ++ u2, by rw [e1, e2, List.append_assoc], fun e => ?_⟩
  show (p _ >>= f) = _
  rw [List.append_assoc, h1, Res.ok_bind]
  exact h2 e

theorem Local.bindPure {α β : Type} {x : Res α} {f : α → Parser β}
    (hf : ∀ a, Local (f a)) : Local (fun bs => x >>= fun a => f a bs) := by
  rcases x with a | _ | _ | _
  · exact hf a
  all_goals (intro bs b rest h; simp at h)

theorem Res.unwrap_eq_ok {α : Type} {x : Res α} {a : α} : x.unwrap = Res.ok a ↔ x = Res.ok a := by
  rcases x with a | _ | _ | _ <;> simp

theorem Local.unwrap {α : Type} {p : Parser α} (hp : Local p) : Local (fun bs => (p bs).unwrap) := by
  intro bs a rest h
  obtain ⟨u, e1, h1⟩ := hp bs a rest (Res.unwrap_eq_ok.1 h)
  exact ⟨u, e1, fun e => by simp [h1 e]⟩

theorem Local.readBytes (n : Nat) : Local (pReadBytes n) := by
  induction n with
  | zero => exact Local.pure []
  | succ n ih =>
    refine Local.bind (Local.takeBits 8) fun bits => ?_
    refine Local.bind ih fun bytes => ?_
    exact Local.pure _

theorem Local.symbolTable : Local pSymbolTable := by
  refine Local.bind (Local.takeBits 16) fun _ => ?_
  refine Local.bind (Local.takeBits _) fun _ => ?_
  exact Local.pure _

theorem Local.unaryLoop (amount : Nat) (out : List UInt8) (c n : Nat) :
    Local (fun bs => pUnaryLoop amount bs out c n) := by
  intro bs a rest h
  induction bs generalizing out c n with
  | nil => simp [pUnaryLoop] at h
  | cons b bs ih =>
    have step : ∀ {out' c' n'}, pUnaryLoop amount bs out' c' n' = Res.ok (a, rest) →
        (∀ e, pUnaryLoop amount (b :: e) out c n = pUnaryLoop amount e out' c' n') →
        ∃ used, b :: bs = used ++ rest ∧
          ∀ e, pUnaryLoop amount (used ++ e) out c n = Res.ok (a, e) := by
      intro out' c' n' h1 h2
      obtain ⟨u, e1, h3⟩ := ih _ _ _ h1
      exact ⟨b :: u, by simp [e1], fun e => by rw [List.cons_append, h2]; exact h3 e⟩
    have stop : ∀ {x}, Res.ok (x, bs) = Res.ok (a, rest) →
        (∀ e, pUnaryLoop amount (b :: e) out c n = Res.ok (x, e)) →
        ∃ used, b :: bs = used ++ rest ∧
          ∀ e, pUnaryLoop amount (used ++ e) out c n = Res.ok (a, e) := by
      intro x h1 h2
      simp at h1
      exact ⟨[b], by simp [h1.2], fun e => by simp [h2, h1.1]⟩
    cases b
    · simp only [pUnaryLoop] at h
      split at h
      · rename_i hc; exact stop h (fun e => by simp [pUnaryLoop, hc])
      · rename_i hc; exact step h (fun e => by simp [pUnaryLoop, hc])
    · simp only [pUnaryLoop] at h
      split at h
      · rename_i hc
        split at h
        · rename_i hc2; exact stop h (fun e => by simp [pUnaryLoop, hc, hc2])
        · rename_i hc2; exact step h (fun e => by simp [pUnaryLoop, hc, hc2])
      · simp at h

theorem Local.unary (n : Nat) : Local (pUnary n) := Local.unaryLoop n [] 0 0

theorem Local.deltaLoop (amount : Nat) (out : List UInt8) (c n : Nat) :
    Local (fun bs => pDeltaLoop amount bs out c n) := by
  intro bs a rest h
  induction hl : bs.length using Nat.strongRecOn generalizing bs out c n with
  | _ len ih =>
    have step : ∀ {pre tl out' c' n'}, bs = pre ++ tl → pre ≠ [] →
        pDeltaLoop amount tl out' c' n' = Res.ok (a, rest) →
        (∀ e, pDeltaLoop amount (pre ++ e) out c n = pDeltaLoop amount e out' c' n') →
        ∃ used, bs = used ++ rest ∧
          ∀ e, pDeltaLoop amount (used ++ e) out c n = Res.ok (a, e) := by
      intro pre tl out' c' n' e0 hne h1 h2
      have : pre.length ≠ 0 := by simpa using hne
      obtain ⟨u, e1, h3⟩ := ih tl.length (by rw [← hl, e0]; simp; omega) _ _ _ _ h1 rfl
      exact ⟨pre ++ u, by simp [e0, e1], fun e => by rw [List.append_assoc, h2]; exact h3 e⟩
    have stop : ∀ {x pre tl}, bs = pre ++ tl → Res.ok (x, tl) = Res.ok (a, rest) →
        (∀ e, pDeltaLoop amount (pre ++ e) out c n = Res.ok (x, e)) →
        ∃ used, bs = used ++ rest ∧
          ∀ e, pDeltaLoop amount (used ++ e) out c n = Res.ok (a, e) := by
      intro x pre tl e0 h1 h2
      simp at h1
      exact ⟨pre, by simp [e0, h1.2], fun e => by simp [h2, h1.1]⟩
    match bs with
    | [] => simp [pDeltaLoop] at h
    | [true] => simp [pDeltaLoop] at h
    | false :: tl =>
      simp only [pDeltaLoop] at h
      split at h
      · rename_i hc; exact stop (pre := [false]) rfl h (fun e => by simp [pDeltaLoop, hc])
      · rename_i hc; exact step (pre := [false]) rfl (by simp) h (fun e => by simp [pDeltaLoop, hc])
    | true :: b :: tl =>
      simp only [pDeltaLoop] at h
      split at h
      · rename_i s hs
        split at h
        · rename_i hc
          exact stop (pre := [true, b]) rfl h (fun e => by simp [pDeltaLoop, hc, hs])
        · rename_i hc
          exact step (pre := [true, b]) rfl (by simp) h (fun e => by simp [pDeltaLoop, hc, hs])
      · simp at h

theorem Local.delta (n : Nat) : Local (pDelta n) :=
  Local.bind (Local.takeBits 5) fun bits => Local.deltaLoop n [] (convertToNumber bits) 0

theorem Local.symbolsLoop (table : List CanonicalEntry) (m : Nat) (all : List ZleSymbol)
    (cur : List Bit) (n : Nat) : Local (fun bs => pSymbolsLoop table m bs all cur n) := by
  intro bs a rest h
  induction bs generalizing all cur n with
  | nil => simp [pSymbolsLoop] at h
  | cons b bs ih =>
    have step : ∀ {all' c' n'}, pSymbolsLoop table m bs all' c' n' = Res.ok (a, rest) →
        (∀ e, pSymbolsLoop table m (b :: e) all cur n = pSymbolsLoop table m e all' c' n') →
        ∃ used, b :: bs = used ++ rest ∧
          ∀ e, pSymbolsLoop table m (used ++ e) all cur n = Res.ok (a, e) := by
      intro out' c' n' h1 h2
      obtain ⟨u, e1, h3⟩ := ih _ _ _ h1
      exact ⟨b :: u, by simp [e1], fun e => by rw [List.cons_append, h2]; exact h3 e⟩
    have stop : ∀ {x}, Res.ok (x, bs) = Res.ok (a, rest) →
        (∀ e, pSymbolsLoop table m (b :: e) all cur n = Res.ok (x, e)) →
        ∃ used, b :: bs = used ++ rest ∧
          ∀ e, pSymbolsLoop table m (used ++ e) all cur n = Res.ok (a, e) := by
      intro x h1 h2
      simp at h1
      exact ⟨[b], by simp [h1.2], fun e => by simp [h2, h1.1]⟩
    simp only [pSymbolsLoop] at h
    rcases hr : readFromTable table (cur ++ [b]) with _ | (s | _) <;> simp only [hr] at h
    · split at h
      · rename_i hc; exact stop h (fun e => by simp [pSymbolsLoop, hr, hc])
      · rename_i hc; exact step h (fun e => by simp [pSymbolsLoop, hr, hc])
    · split at h
      · rename_i hc; exact stop h (fun e => by simp [pSymbolsLoop, hr, hc])
      · rename_i hc; exact step h (fun e => by simp [pSymbolsLoop, hr, hc])
    · exact stop h (fun e => by simp [pSymbolsLoop, hr])

theorem Local.symbols (table : List CanonicalEntry) (m : Nat) : Local (pSymbols table m) :=
  Local.symbolsLoop table m [] [] 0

theorem Local.trees (amount n : Nat) : Local (pTrees amount n) := by
  induction n with
  | zero => exact Local.pure []
  | succ n ih =>
    refine Local.bind (Local.unwrap (Local.delta amount)) fun _ => ?_
    refine Local.bind ih fun _ => ?_
    exact Local.pure _

theorem Local.groups (tables : List (List CanonicalEntry)) (sel : List UInt8) :
    Local (pGroups tables sel) := by
  induction sel with
  | nil => exact Local.pure []
  | cons s sel ih =>
    refine Local.bindPure fun table => ?_
    refine Local.bind (Local.unwrap (Local.symbols table 50)) fun _ => ?_
    refine Local.bind ih fun _ => ?_
    exact Local.pure _

theorem Local.block : Local pBlock := by
  refine Local.bind (Local.unwrap (Local.takeBits 32)) fun _ => ?_
  refine Local.bind (Local.takeBits 1) fun _ => ?_
  refine Local.bind (Local.unwrap (Local.takeBits 24)) fun _ => ?_
  refine Local.bind (Local.unwrap Local.symbolTable) fun symbols => ?_
  refine Local.bind (Local.unwrap (Local.takeBits 3)) fun treeBits => ?_
  refine Local.bind (Local.unwrap (Local.takeBits 15)) fun selBits => ?_
  refine Local.bind (Local.unwrap (Local.unary _)) fun _ => ?_
  refine Local.bindPure fun selectors => ?_
  refine Local.bind (Local.trees _ _) fun _ => ?_
  refine Local.bindPure fun tables => ?_
  refine Local.bind (Local.groups tables selectors) fun _ => ?_
  refine Local.bindPure fun _ => ?_
  exact Local.pure _

theorem Local.whatNext : Local pWhatNext := by
  refine Local.bind (Local.readBytes 6) fun res => ?_
  by_cases h1 : res = [0x31, 0x41, 0x59, 0x26, 0x53, 0x59]
  · simp only [h1, if_true]; exact Local.pure _
  · by_cases h2 : res = [0x17, 0x72, 0x45, 0x38, 0x50, 0x90]
    · simp only [h2, if_true]; exact Local.pure _
    · simp only [h1, h2, if_false]; exact Local.fail _ (by simp)

theorem Local.le {α : Type} {p : Parser α} (hp : Local p) {bs : List Bit} {a : α} {rest : List Bit}
    (h : p bs = Res.ok (a, rest)) : rest.length ≤ bs.length := by
  obtain ⟨u, e, _⟩ := hp _ _ _ h
  rw [e]; simp

theorem pReadBytes_len {n : Nat} {bs : List Bit} {a : List UInt8} {rest : List Bit}
    (h : pReadBytes n bs = Res.ok (a, rest)) : rest.length + 8 * n = bs.length ∧ a.length = n := by
  induction n generalizing bs a rest with
  | zero => simp [pReadBytes] at h; simp [h]
  | succ n ih =>
    simp only [pReadBytes] at h
    rcases h1 : takeBits 8 bs with ⟨x, mid⟩ | _ | _ | _ <;> simp [h1] at h
    rcases h2 : pReadBytes n mid with ⟨y, r⟩ | _ | _ | _ <;> simp [h2] at h
    have hi := ih h2
    obtain ⟨h3, h4⟩ := takeBits_ok h1
    have := congrArg List.length h3
    simp at this
    rw [← h.1, ← h.2]
    simp; omega

theorem pWhatNext_len {bs : List Bit} {t : BlockType} {rest : List Bit}
    (h : pWhatNext bs = Res.ok (t, rest)) : rest.length + 48 = bs.length := by
  simp only [pWhatNext] at h
  rcases h1 : pReadBytes 6 bs with ⟨x, mid⟩ | _ | _ | _ <;> simp [h1] at h
  have := pReadBytes_len h1
  split at h
  · simp at h; rw [← h.2]; omega
  · split at h
    · simp at h; rw [← h.2]; omega
    · simp at h

/-- Fuel beyond the number of bits makes no difference. -/
theorem pBlocks_fuel (f1 f2 : Nat) (bs : List Bit) (h1 : bs.length < f1) (h2 : bs.length < f2) :
    pBlocks f1 bs = pBlocks f2 bs := by
  induction f1 generalizing f2 bs with
  | zero => omega
  | succ f1 ih =>
    cases f2 with
    | zero => omega
    | succ f2 =>
      simp only [pBlocks]
      rcases hw : pWhatNext bs with ⟨t, mid⟩ | _ | _ | _
      · cases t
        · rfl
        · simp only
          have := pWhatNext_len hw
          rcases hb : pBlock mid with ⟨d, rest⟩ | _ | _ | _
          · have := Local.le Local.block hb
            simp only
            rw [ih f2 rest (by omega) (by omega)]
          all_goals rfl
      all_goals rfl

/-- Writing a sequence of blocks, one `write` call each, stopping at the first failing call. -/
def writeAll (w : Writer) : List (List UInt8) → Writer × Res Unit
  | [] => (w, Res.ok ())
  | d :: ds =>
    match w.write d with
    | (w', Res.ok _) => writeAll w' ds
    | (w', _) => (w', Res.err)

theorem decodeLoop_eq (fuel : Nat) (br : BitReader) (w : Writer) :
    decodeLoop fuel br w =
      match writeAll w (pBlocks fuel br.bits).1 with
      | (w', Res.ok _) => (w', (pBlocks fuel br.bits).2)
      | (w', _) => (w', Res.err) := by
  induction fuel generalizing br w with
  | zero => rfl
  | succ fuel ih =>
    have hw := absR_whatNext br
    simp only [decodeLoop, pBlocks]
    rw [← hw]
    rcases whatNext br with ⟨t, br1⟩ | _ | _ | _
    · cases t
      · rfl
      · simp only [absR_ok, decodeBlock]
        have hb := absR_decodeBlockData br1
        rw [← hb]
        rcases decodeBlockData br1 with ⟨d, br2⟩ | _ | _ | _
        · simp only [absR_ok, writeAll]
          rcases hwr : w.write d with ⟨w', (_ | _ | _ | _)⟩
          · simp only [ih]
          all_goals rfl
        all_goals rfl
    all_goals rfl

theorem pHeader_eq (br : BitReader) :
    pHeader br.bits = match readFileHeader br with
      | Res.ok br' => Res.ok br'.bits
      | Res.err => Res.err
      | Res.panic => Res.panic
      | Res.div => Res.div := by
  have hh := absR_readBytes 4 br
  simp only [readFileHeader, pHeader]
  rw [← hh]
  rcases br.readBytes 4 with ⟨res, br'⟩ | _ | _ | _
  · simp only [Res.ok_bind, absR_ok, Res.pure_eq]
    split
    · rfl
    · rename_i hne
      split
      · rename_i heq
        split at heq
        · exact absurd rfl (hne _)
        · simp at heq
      · rfl
      · rename_i heq
        split at heq <;> simp at heq
      · rename_i heq
        split at heq <;> simp at heq
  all_goals rfl

/-- What the bytes delivered by the reader determine: the writes made and the outcome. -/
theorem decodeStream_eq (r : Reader) (w : Writer) :
    decodeStream r w =
      match writeAll w (pStream (bytesBits (delivered r.events))).1 with
      | (w', Res.ok _) => (w', (pStream (bytesBits (delivered r.events))).2)
      | (w', _) => (w', Res.err) := by
  have hb : (BitReader.fromReader r).bits = bytesBits (delivered r.events) := by simp
  have hh := pHeader_eq (BitReader.fromReader r)
  rw [hb] at hh
  simp only [decodeStream, pStream]
  rw [hh]
  rcases readFileHeader (BitReader.fromReader r) with br | _ | _ | _
  · simp only
    rw [decodeLoop_eq, pBlocks_fuel (br.fuel) (br.bits.length + 1) br.bits br.bits_lt_fuel (by omega)]
  all_goals rfl

theorem writeAll_reliable (out : List UInt8) (ds : List (List UInt8)) :
    writeAll ⟨out, []⟩ ds = (⟨out ++ ds.flatten, []⟩, Res.ok ()) := by
  induction ds generalizing out with
  | nil => simp [writeAll]
  | cons d ds ih => simp [writeAll, Writer.write, ih]

theorem decodeStream_reliable (r : Reader) (out : List UInt8) :
    decodeStream r ⟨out, []⟩ =
      (⟨out ++ (pStream (bytesBits (delivered r.events))).1.flatten, []⟩,
        (pStream (bytesBits (delivered r.events))).2) := by
  rw [decodeStream_eq, writeAll_reliable]

/-- `decodeBytes` as a function of the bits. -/
theorem decodeBytes_eq (bytes : List UInt8) :
    decodeBytes bytes =
      (pStream (bytesBits bytes)).2 >>= fun _ => Res.ok (pStream (bytesBits bytes)).1.flatten := by
  have := decodeStream_reliable (Reader.ofBytes bytes) []
  simp only [Reader.ofBytes, delivered_data] at this
  simp only [decodeBytes, Reader.ofBytes, Writer.empty, this]
  rcases (pStream (bytesBits bytes)).2 with _ | _ | _ | _ <;> simp

end Ribzip2
