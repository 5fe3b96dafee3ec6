import Verif.Proofs.BlockDecode
import Verif.Proofs.Release
/- Blocks with more selectors than groups of symbols: the decoder reads on behind the block. Directly before the
footer this always leads to a failure, since no later position of the footer looks like a magic number. -/
namespace Ribzip2
open Spec

/-- The decoder of a block up to the coded symbols: CRC field, pointer, used bytes, code tables and selectors. -/
def pHead : Parser (BitVec 32 × Nat × List UInt8 × List (List CanonicalEntry) × List UInt8) := fun bs => do
  let (crcBits, bs) ← (takeBits 32 bs).unwrap
  let (_randomized, bs) ← takeBits 1 bs
  let (ptrBits, bs) ← (takeBits 24 bs).unwrap
  let (symbols, bs) ← (pSymbolTable bs).unwrap
  let (treeBits, bs) ← (takeBits 3 bs).unwrap
  let (selBits, bs) ← (takeBits 15 bs).unwrap
  let (selectors, bs) ← (pUnary (convertToNumber selBits) bs).unwrap
  let selectors ← inverseMtf selectors ((List.range (convertToNumber treeBits)).map UInt8.ofNat)
  let (trees, bs) ← pTrees (symbols.length + 2) (convertToNumber treeBits) bs
  let tables ← buildTables trees
  pure ((BitVec.ofNat 32 (convertToNumber crcBits), convertToNumber ptrBits, symbols, tables, selectors), bs)

/-- The same in a release build. -/
def Release.pHead : Parser (BitVec 32 × Nat × List UInt8 × List (List CanonicalEntry) × List UInt8) := fun bs => do
  let (crcBits, bs) ← (takeBits 32 bs).unwrap
  let (_randomized, bs) ← takeBits 1 bs
  let (ptrBits, bs) ← (takeBits 24 bs).unwrap
  let (symbols, bs) ← (pSymbolTable bs).unwrap
  let (treeBits, bs) ← (takeBits 3 bs).unwrap
  let (selBits, bs) ← (takeBits 15 bs).unwrap
  let (selectors, bs) ← (Release.pUnary (convertToNumber selBits) bs).unwrap
  let selectors ← inverseMtf selectors ((List.range (convertToNumber treeBits)).map UInt8.ofNat)
  let (trees, bs) ← Release.pTrees (symbols.length + 2) (convertToNumber treeBits) bs
  let tables ← Release.buildTables trees
  pure ((BitVec.ofNat 32 (convertToNumber crcBits), convertToNumber ptrBits, symbols, tables, selectors), bs)

/-- The rest of the decoder of a block. -/
def pTail (x : (BitVec 32 × Nat × List UInt8 × List (List CanonicalEntry) × List UInt8) × List Bit) :
    Res (List UInt8 × List Bit) :=
  pGroups x.1.2.2.2.1 x.1.2.2.2.2 x.2 >>= fun y =>
    finishBlock x.1.1 x.1.2.1 x.1.2.2.1 y.1 >>= fun d => Res.ok (d, y.2)

theorem pBlock_eq_head (bs : List Bit) : pBlock bs = (pHead bs >>= pTail) := by
  simp only [pBlock, pHead, pTail, bind_assoc, Res.pure_eq, Res.ok_bind]

theorem Release.pBlock_eq_head (bs : List Bit) : Release.pBlock bs = (Release.pHead bs >>= pTail) := by
  simp only [Release.pBlock, Release.pHead, pTail, bind_assoc, Res.pure_eq, Res.ok_bind]

theorem Release.agree_head (bs : List Bit) : Release.Agree (Ribzip2.pHead bs) (Release.pHead bs) := by
  refine Agree.bind (Agree.refl _) fun ⟨_, _⟩ _ => ?_
  refine Agree.bind (Agree.refl _) fun ⟨_, _⟩ _ => ?_
  refine Agree.bind (Agree.refl _) fun ⟨_, _⟩ _ => ?_
  refine Agree.bind (Agree.refl _) fun ⟨_, _⟩ _ => ?_
  refine Agree.bind (Agree.refl _) fun ⟨_, _⟩ _ => ?_
  refine Agree.bind (Agree.refl _) fun ⟨_, _⟩ _ => ?_
  refine Agree.bind (agree_unaryLoop _ _ _ _ _).unwrap fun ⟨_, _⟩ _ => ?_
  refine Agree.bind (Agree.refl _) fun _ _ => ?_
  refine Agree.bind (agree_trees _ _ _) fun ⟨_, _⟩ _ => ?_
  refine Agree.bind (agree_buildTables _) fun _ _ => ?_
  exact Agree.refl _

/-- The head of a sound block is read back. -/
theorem pHead_body (p : BlockParts) (h : Sound p) (hu : p.used ≠ []) (crc : BitVec 32) (rest : List Bit) :
    pHead (natToBits 32 crc.toNat ++ p.body ++ rest) =
      Res.ok ((crc, p.ptr, p.used, p.tables.map canonTable, p.sel.map UInt8.ofNat),
        payloadBits p.tables p.sel 0 (p.syms ++ [p.eob]) ++ rest) := by
  have h256 := used_length_le h.used
  have hpos : 1 ≤ p.used.length := List.length_pos_iff.2 hu
  have hselne : p.sel ≠ [] := by
    intro e
    have := h.enough
    rw [e] at this
    simp at this
  have hnt := h.numTables
  obtain ⟨enc, u1, u2⟩ := pUnary_selectorBits h.selected (by omega) hselne
    (p.tableBits.flatten ++ (payloadBits p.tables p.sel 0 (p.syms ++ [p.eob]) ++ rest))
  have hT := pTrees_tables p.used.length p.tables p.tableBits h.transmitted
    (fun ls hls => (h.lengths ls hls).1) (payloadBits p.tables p.sel 0 (p.syms ++ [p.eob]) ++ rest)
  have hB := buildTables_canon p.used.length hpos h256 p.tables h.tablesOk
  simp only [BlockParts.body, pHead, List.append_assoc]
  rw [takeBits_append (natToBits_length 32 _)]
  simp only [Res.unwrap_ok, Res.ok_bind]
  rw [takeBits_append (n := 1) rfl]
  simp only [Res.ok_bind]
  rw [takeBits_append (natToBits_length 24 _)]
  simp only [Res.unwrap_ok, Res.ok_bind]
  rw [pSymbolTable_map, usedBytes_of_sorted _ h.used]
  simp only [Res.unwrap_ok, Res.ok_bind]
  rw [takeBits_append (natToBits_length 3 _)]
  simp only [Res.unwrap_ok, Res.ok_bind]
  rw [takeBits_append (natToBits_length 15 _)]
  simp only [Res.unwrap_ok, Res.ok_bind]
  rw [number_bits 15 _ h.numSelectors, number_bits 3 _ (by omega), number_bits 24 _ h.ptr,
    number_bits 32 _ crc.isLt, u1]
  simp only [Res.unwrap_ok, Res.ok_bind]
  rw [show (List.range p.tables.length).map UInt8.ofNat = allTables p.tables.length from rfl, u2]
  simp only [Res.ok_bind]
  rw [hT]
  simp only [Res.ok_bind]
  rw [hB]
  simp only [Res.ok_bind, BitVec.ofNat_toNat, BitVec.setWidth_eq]
  rfl

theorem Release.pHead_body (p : BlockParts) (h : Sound p) (hu : p.used ≠ []) (crc : BitVec 32) (rest : List Bit) :
    Release.pHead (natToBits 32 crc.toNat ++ p.body ++ rest) =
      Res.ok ((crc, p.ptr, p.used, p.tables.map canonTable, p.sel.map UInt8.ofNat),
        payloadBits p.tables p.sel 0 (p.syms ++ [p.eob]) ++ rest) := by
  have hd := Ribzip2.pHead_body p h hu crc rest
  rcases Release.agree_head (natToBits 32 crc.toNat ++ p.body ++ rest) with ha | ha
  · rw [hd] at ha; simp at ha
  · rw [ha, hd]

/-! ### The coded symbols -/

theorem pGroups_append (tables : List (List CanonicalEntry)) (a b : List UInt8) (bs : List Bit) :
    pGroups tables (a ++ b) bs = (pGroups tables a bs >>= fun x => pGroups tables b x.2 >>= fun y =>
      Res.ok (x.1 ++ y.1, y.2)) := by
  induction a generalizing bs with
  | nil =>
    simp only [List.nil_append, pGroups, Res.ok_bind]
    rcases pGroups tables b bs with ⟨x, r⟩ | _ | _ | _ <;> rfl
  | cons s a ih =>
    simp only [List.cons_append, pGroups, bind_assoc, ih, Res.pure_eq, Res.ok_bind, List.append_assoc]

theorem pSymbolsLoop_strict (table : List CanonicalEntry) (m : Nat) (bs : List Bit) (all : List ZleSymbol)
    (cur : List Bit) (n : Nat) (x : List ZleSymbol) (rest : List Bit)
    (h : pSymbolsLoop table m bs all cur n = Res.ok (x, rest)) : rest.length < bs.length := by
  induction bs generalizing all cur n with
  | nil => simp [pSymbolsLoop] at h
  | cons b bs ih =>
    simp only [pSymbolsLoop] at h
    split at h
    · split at h
      · simp only [Res.ok.injEq, Prod.mk.injEq] at h; rw [← h.2]; simp
      · have := ih _ _ _ h; simp only [List.length_cons]; omega
    · simp only [Res.ok.injEq, Prod.mk.injEq] at h; rw [← h.2]; simp
    · split at h
      · simp only [Res.ok.injEq, Prod.mk.injEq] at h; rw [← h.2]; simp
      · have := ih _ _ _ h; simp only [List.length_cons]; omega

/-- A group takes at least one bit. -/
theorem pGroups_strict (tables : List (List CanonicalEntry)) (sel : List UInt8) (hs : sel ≠ []) (bs : List Bit)
    (x : List ZleSymbol) (rest : List Bit) (h : pGroups tables sel bs = Res.ok (x, rest)) :
    ∃ used, used ≠ [] ∧ bs = used ++ rest := by
  obtain ⟨u, hu, -⟩ := Local.groups tables sel _ _ _ h
  refine ⟨u, ?_, hu⟩
  rintro rfl
  simp only [List.nil_append] at hu
  subst hu
  match sel, hs with
  | s :: sel, _ =>
    simp only [pGroups] at h
    rcases h1 : idx tables s.toNat with t | _ | _ | _ <;> simp [h1] at h
    rcases h2 : pSymbols t 50 bs with ⟨y, r⟩ | _ | _ | _ <;> simp [h2] at h
    rcases h3 : pGroups tables sel r with ⟨z, q⟩ | _ | _ | _ <;> simp [h3] at h
    have l1 := pSymbolsLoop_strict _ _ _ _ _ _ _ _ h2
    have l2 := (Local.groups tables sel).le h3
    rw [h.2] at l2
    omega

theorem payloadBits_enough (tables : List (List Nat)) (a b : List Nat) (k : Nat) (l : List Nat)
    (h : k + l.length ≤ 50 * a.length) : payloadBits tables (a ++ b) k l = payloadBits tables a k l := by
  induction l generalizing k with
  | nil => rfl
  | cons x l ih =>
    simp only [List.length_cons] at h
    simp only [payloadBits]
    rw [ih (k + 1) (by omega)]
    have : (a ++ b).getD (k / 50) 0 = a.getD (k / 50) 0 := by
      simp only [List.getD_eq_getElem?_getD]
      rw [List.getElem?_append_left (by omega)]
    rw [this]

/-- Behind the symbols of a block with surplus selectors, the decoder reads on with these selectors. -/
theorem pTail_surplus (p : BlockParts) (h : Sound p) (hs : p.syms.length + 51 ≤ 50 * p.sel.length) (crc : BitVec 32)
    (rest : List Bit) (d : List UInt8) (r : List Bit)
    (hr : pTail ((crc, p.ptr, p.used, p.tables.map canonTable, p.sel.map UInt8.ofNat),
        payloadBits p.tables p.sel 0 (p.syms ++ [p.eob]) ++ rest) = Res.ok (d, r)) :
    ∃ used, used ≠ [] ∧ rest = used ++ r := by
  have hnt := h.numTables
  generalize hk : (p.syms.length + 50) / 50 = k
  have e : p.sel = p.sel.take k ++ p.sel.drop k := (List.take_append_drop k p.sel).symm
  have hl : (p.sel.take k).length = k := by simp; omega
  have hne : (p.sel.drop k).map UInt8.ofNat ≠ [] := by
    intro hn
    have := congrArg List.length hn
    simp only [List.length_map, List.length_drop, List.length_nil] at this
    omega
  have hpay : payloadBits p.tables p.sel 0 (p.syms ++ [p.eob])
      = payloadBits p.tables (p.sel.take k) 0 (p.syms ++ [p.used.length + 1]) := by
    conv => lhs; rw [e]
    rw [payloadBits_enough _ _ _ _ _ (by simp only [List.length_append, List.length_cons, List.length_nil, hl]; omega)]
    rfl
  have hG := pGroups_payload p.used.length p.tables h.tablesOk (by omega) (p.sel.take k)
    (fun s hs' => selectorBits_mem h.selected s (List.mem_of_mem_take hs')) p.syms h.symbols
    (by rw [hl]; omega) (by rw [hl]; omega) rest
  have hsel : p.sel.map UInt8.ofNat = (p.sel.take k).map UInt8.ofNat ++ (p.sel.drop k).map UInt8.ofNat := by
    rw [← List.map_append, ← e]
  simp only [pTail] at hr
  rw [hsel, pGroups_append, hpay, hG] at hr
  simp only [Res.ok_bind] at hr
  rcases h2 : pGroups (p.tables.map canonTable) ((p.sel.drop k).map UInt8.ofNat) rest with ⟨y, q⟩ | _ | _ | _ <;>
    simp only [h2, Res.ok_bind, Res.err_bind, Res.panic_bind, Res.div_bind] at hr <;> try simp at hr
  rcases h3 : finishBlock crc p.ptr p.used (p.syms.map symbolOfIndex ++ y) with z | _ | _ | _ <;> simp [h3] at hr
  obtain ⟨u, u1, u2⟩ := pGroups_strict _ _ hne _ _ _ h2
  exact ⟨u, u1, by rw [u2, hr.2]⟩

/-! ### The footer -/

/-- No position of the footer but its start looks like a magic number. -/
theorem pWhatNext_in_footer (tail used r : List Bit) (ht : tail.length ≤ 39) (hu : used ≠ [])
    (h : footerMagic ++ tail = used ++ r) : ∀ x, pWhatNext r ≠ Res.ok x := by
  rintro ⟨t, rest⟩ hx
  have hf : footerMagic.length = 48 := by decide +kernel
  have hm : blockMagic.length = 48 := by decide +kernel
  have hpos : 1 ≤ used.length := List.length_pos_iff.2 hu
  have key : ∀ magic : List Bit, magic.length = 48 → r = magic ++ rest → used.length < 40 ∧
      footerMagic.drop used.length = magic.take (48 - used.length) := by
    intro magic hl hr
    rw [hr] at h
    have h1 := congrArg List.length h
    simp only [List.length_append, hf, hl] at h1
    refine ⟨by omega, ?_⟩
    have h2 := congrArg (fun l => (l.drop used.length).take (48 - used.length)) h
    simp only [List.drop_left] at h2
    rw [List.take_append_of_le_length (by omega), List.drop_append_of_le_length (by omega),
      List.take_append_of_le_length (by simp [hf])] at h2
    rw [← h2, List.take_of_length_le (by simp [hf])]
  have hno : ∀ k, k < 40 → 1 ≤ k → footerMagic.drop k ≠ blockMagic.take (48 - k) ∧
      footerMagic.drop k ≠ footerMagic.take (48 - k) := by decide +kernel
  rcases pWhatNext_inv hx with ⟨-, e⟩ | ⟨-, e⟩
  · obtain ⟨k1, k2⟩ := key _ hm e
    exact (hno _ k1 hpos).1 k2
  · obtain ⟨k1, k2⟩ := key _ hf e
    exact (hno _ k1 hpos).2 k2

/-! ### Streams -/

/-- If the blocks before the last are read up to their ends (or fail), and the last is read beyond its end (or
fails), decoding never ends with success. -/
theorem pBlocks_overrun (blocks : List (List UInt8 × List Bool)) (b : List UInt8 × List Bool) (tail : List Bit)
    (ht : tail.length ≤ 39)
    (h : ∀ x ∈ blocks, ∀ rest d r, pBlock (natToBits 32 (Spec.crc32 x.1).toNat ++ x.2 ++ rest) = Res.ok (d, r) → r = rest)
    (hb : ∀ rest d r, pBlock (natToBits 32 (Spec.crc32 b.1).toNat ++ b.2 ++ rest) = Res.ok (d, r) →
      ∃ used, used ≠ [] ∧ rest = used ++ r) (fuel : Nat) :
    (pBlocks fuel (blockFrames (blocks ++ [b]) ++ (footerMagic ++ tail))).2 ≠ Res.ok () := by
  induction blocks generalizing fuel with
  | nil =>
    match fuel with
    | 0 => simp [pBlocks]
    | fuel + 1 =>
      have e : blockFrames ([] ++ [b]) ++ (footerMagic ++ tail)
          = blockMagic ++ (natToBits 32 (Spec.crc32 b.1).toNat ++ b.2 ++ (footerMagic ++ tail)) := by
        simp [blockFrames, blockFrame]
      rw [e]
      simp only [pBlocks, pWhatNext_block]
      rcases hp : pBlock (natToBits 32 (Spec.crc32 b.1).toNat ++ b.2 ++ (footerMagic ++ tail)) with ⟨d, r⟩ | _ | _ | _ <;>
        simp only [ne_eq, reduceCtorEq, not_false_eq_true]
      obtain ⟨used, u1, u2⟩ := hb _ _ _ hp
      have hw := pWhatNext_in_footer tail used r ht u1 u2
      match fuel with
      | 0 => simp [pBlocks]
      | fuel + 1 =>
        simp only [pBlocks]
        rcases hn : pWhatNext r with x | _ | _ | _ <;> simp
        exact absurd hn (hw x)
  | cons a blocks ih =>
    match fuel with
    | 0 => simp [pBlocks]
    | fuel + 1 =>
      have e : blockFrames ((a :: blocks) ++ [b]) ++ (footerMagic ++ tail)
          = blockMagic ++ (natToBits 32 (Spec.crc32 a.1).toNat ++ a.2
            ++ (blockFrames (blocks ++ [b]) ++ (footerMagic ++ tail))) := by
        simp [blockFrames, blockFrame]
      rw [e]
      simp only [pBlocks, pWhatNext_block]
      rcases hp : pBlock (natToBits 32 (Spec.crc32 a.1).toNat ++ a.2
        ++ (blockFrames (blocks ++ [b]) ++ (footerMagic ++ tail))) with ⟨d, r⟩ | _ | _ | _ <;>
        simp only [ne_eq, reduceCtorEq, not_false_eq_true]
      rw [h a (by simp) _ _ _ hp]
      exact ih (fun x hx => h x (by simp [hx])) fuel

theorem Release.pBlocks_overrun (blocks : List (List UInt8 × List Bool)) (b : List UInt8 × List Bool) (tail : List Bit)
    (ht : tail.length ≤ 39)
    (h : ∀ x ∈ blocks, ∀ rest d r, Release.pBlock (natToBits 32 (Spec.crc32 x.1).toNat ++ x.2 ++ rest) = Res.ok (d, r)
      → r = rest)
    (hb : ∀ rest d r, Release.pBlock (natToBits 32 (Spec.crc32 b.1).toNat ++ b.2 ++ rest) = Res.ok (d, r) →
      ∃ used, used ≠ [] ∧ rest = used ++ r) (fuel : Nat) :
    (Release.pBlocks fuel (blockFrames (blocks ++ [b]) ++ (footerMagic ++ tail))).2 ≠ Res.ok () := by
  induction blocks generalizing fuel with
  | nil =>
    match fuel with
    | 0 => simp [Release.pBlocks]
    | fuel + 1 =>
      have e : blockFrames ([] ++ [b]) ++ (footerMagic ++ tail)
          = blockMagic ++ (natToBits 32 (Spec.crc32 b.1).toNat ++ b.2 ++ (footerMagic ++ tail)) := by
        simp [blockFrames, blockFrame]
      rw [e]
      simp only [Release.pBlocks, pWhatNext_block]
      rcases hp : Release.pBlock (natToBits 32 (Spec.crc32 b.1).toNat ++ b.2 ++ (footerMagic ++ tail))
        with ⟨d, r⟩ | _ | _ | _ <;> simp only [ne_eq, reduceCtorEq, not_false_eq_true]
      obtain ⟨used, u1, u2⟩ := hb _ _ _ hp
      have hw := pWhatNext_in_footer tail used r ht u1 u2
      match fuel with
      | 0 => simp [Release.pBlocks]
      | fuel + 1 =>
        simp only [Release.pBlocks]
        rcases hn : pWhatNext r with x | _ | _ | _ <;> simp
        exact absurd hn (hw x)
  | cons a blocks ih =>
    match fuel with
    | 0 => simp [Release.pBlocks]
    | fuel + 1 =>
      have e : blockFrames ((a :: blocks) ++ [b]) ++ (footerMagic ++ tail)
          = blockMagic ++ (natToBits 32 (Spec.crc32 a.1).toNat ++ a.2
            ++ (blockFrames (blocks ++ [b]) ++ (footerMagic ++ tail))) := by
        simp [blockFrames, blockFrame]
      rw [e]
      simp only [Release.pBlocks, pWhatNext_block]
      rcases hp : Release.pBlock (natToBits 32 (Spec.crc32 a.1).toNat ++ a.2
        ++ (blockFrames (blocks ++ [b]) ++ (footerMagic ++ tail))) with ⟨d, r⟩ | _ | _ | _ <;>
        simp only [ne_eq, reduceCtorEq, not_false_eq_true]
      rw [h a (by simp) _ _ _ hp]
      exact ih (fun x hx => h x (by simp [hx])) fuel

/-- A sound block with surplus selectors is read beyond its end. -/
theorem pBlock_overrun (p : BlockParts) (h : Sound p) (hu : p.used ≠ []) (hs : p.syms.length + 51 ≤ 50 * p.sel.length)
    (crc : BitVec 32) (rest : List Bit) (d : List UInt8) (r : List Bit) :
    (pBlock (natToBits 32 crc.toNat ++ p.body ++ rest) = Res.ok (d, r) → ∃ used, used ≠ [] ∧ rest = used ++ r) ∧
    (Release.pBlock (natToBits 32 crc.toNat ++ p.body ++ rest) = Res.ok (d, r) →
      ∃ used, used ≠ [] ∧ rest = used ++ r) := by
  rw [pBlock_eq_head, Release.pBlock_eq_head, pHead_body p h hu, Release.pHead_body p h hu, Res.ok_bind]
  exact ⟨pTail_surplus p h hs crc rest d r, pTail_surplus p h hs crc rest d r⟩

/-- A readable block is read up to its end. -/
theorem pBlock_to_end (p : BlockParts) (h : Readable p) (crc : BitVec 32) (rest : List Bit) (d : List UInt8)
    (r : List Bit) :
    (pBlock (natToBits 32 crc.toNat ++ p.body ++ rest) = Res.ok (d, r) → r = rest) ∧
    (Release.pBlock (natToBits 32 crc.toNat ++ p.body ++ rest) = Res.ok (d, r) → r = rest) := by
  have hd : Release.pBlock (natToBits 32 crc.toNat ++ p.body ++ rest) = pBlock (natToBits 32 crc.toNat ++ p.body ++ rest) := by
    rw [pBlock_eq_head, Release.pBlock_eq_head, pHead_body p h.sound h.usedNe, Release.pHead_body p h.sound h.usedNe]
  rw [hd, pBlock_body p h]
  have : (finishBlock crc p.ptr p.used (p.syms.map symbolOfIndex) >>= fun d => Res.ok (d, rest)) = Res.ok (d, r) → r = rest := by
    rcases finishBlock crc p.ptr p.used (p.syms.map symbolOfIndex) with x | _ | _ | _ <;> simp
    intro _ e
    exact e.symm
  exact ⟨this, this⟩

/-- A stream of readable blocks that ends in a block with surplus selectors is never accepted. -/
theorem stream_overrun (level : UInt8) (blocks : List (List UInt8 × List Bool)) (b : List UInt8 × List Bool)
    (bytes : List UInt8)
    (h : PaddedTo8 (streamHeader level ++ blockFrames (blocks ++ [b]) ++ footerMagic
      ++ natToBits 32 (streamCrc (blocks ++ [b])).toNat) (bytesBits bytes))
    (hr : ∀ x ∈ blocks, ∃ p, Readable p ∧ x.2 = p.body)
    (hb : ∃ p, Sound p ∧ p.used ≠ [] ∧ p.syms.length + 51 ≤ 50 * p.sel.length ∧ b.2 = p.body) :
    (pStream (bytesBits bytes)).2 ≠ Res.ok () ∧ (Release.pStream (bytesBits bytes)).2 ≠ Res.ok () := by
  obtain ⟨k, hk, e, -⟩ := h
  obtain ⟨q, q1, q2, q3, q4⟩ := hb
  rw [e]
  simp only [List.append_assoc]
  rw [pStream, Release.pStream, pHeader_append]
  simp only [← List.append_assoc]
  simp only [List.append_assoc]
  refine ⟨pBlocks_overrun blocks b _ (by simp; omega) ?_ ?_ _, Release.pBlocks_overrun blocks b _ (by simp; omega) ?_ ?_ _⟩
  · intro x hx rest d r
    obtain ⟨p, p1, p2⟩ := hr x hx
    rw [p2]
    exact (pBlock_to_end p p1 _ rest d r).1
  · intro rest d r
    rw [q4]
    exact (pBlock_overrun q q1 q2 q3 _ rest d r).1
  · intro x hx rest d r
    obtain ⟨p, p1, p2⟩ := hr x hx
    rw [p2]
    exact (pBlock_to_end p p1 _ rest d r).2
  · intro rest d r
    rw [q4]
    exact (pBlock_overrun q q1 q2 q3 _ rest d r).2

end Ribzip2
