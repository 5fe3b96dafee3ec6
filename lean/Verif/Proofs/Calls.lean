import Verif.Model.Calls
import Verif.Proofs.Position
import Verif.Proofs.Release
import Verif.Proofs.StreamWriter
/- When the blocks are written, and how much of the input was read by then. -/
namespace Ribzip2
open Spec

/-! ### The bit reader has used a bit of its current byte -/

/-- `f` leaves a bit reader that has used a bit of its current byte in such a state. -/
def Keeps {α : Type} (f : BitReader → Res (α × BitReader)) : Prop :=
  ∀ br a br', br.Started → f br = Res.ok (a, br') → br'.Started

theorem keeps_readBits (n : Nat) : Keeps fun br => br.readBits n := by
  intro br a br' h h1
  cases n with
  | zero => simp [BitReader.readBits] at h1; exact h1.2 ▸ h
  | succ n => exact BitReader.readBits_started n br br' a h1

theorem Keeps.bind {α β : Type} {f : BitReader → Res (α × BitReader)} {g : α → BitReader → Res (β × BitReader)}
    (hf : Keeps f) (hg : ∀ a, Keeps (g a)) : Keeps fun br => f br >>= fun p => g p.1 p.2 := by
  intro br b br' h h1
  obtain ⟨⟨a, br1⟩, h2, h3⟩ := bind_eq_ok h1
  exact hg a br1 b br' (hf br a br1 h h2) h3

theorem Keeps.unwrap {α : Type} {f : BitReader → Res (α × BitReader)} (hf : Keeps f) : Keeps fun br => (f br).unwrap := by
  intro br a br' h h1
  refine hf br a br' h ?_
  dsimp only at h1
  revert h1
  rcases f br with x | _ | _ | _ <;> simp

theorem Keeps.const {α β : Type} {x : Res α} {g : α → BitReader → Res (β × BitReader)} (hg : ∀ a, Keeps (g a)) :
    Keeps fun br => x >>= fun a => g a br := by
  intro br b br' h h1
  obtain ⟨a, -, h3⟩ := bind_eq_ok h1
  exact hg a br b br' h h3

theorem Keeps.pure {α : Type} (a : α) : Keeps fun br => Res.ok (a, br) := by
  intro br b br' h h1
  simp at h1
  exact h1.2 ▸ h

theorem Keeps.fail {α : Type} (x : Res (α × BitReader)) (hx : ∀ p, x ≠ Res.ok p) : Keeps fun _ => x :=
  fun _ _ _ _ h1 => absurd h1 (hx _)

theorem Keeps.ite {α : Type} {c : Prop} [Decidable c] {f g : BitReader → Res (α × BitReader)} (hf : Keeps f)
    (hg : Keeps g) : Keeps fun br => if c then f br else g br := by
  by_cases h : c
  · simpa only [if_pos h] using hf
  · simpa only [if_neg h] using hg

theorem keeps_symbolTable : Keeps readSymbolTable :=
  Keeps.bind (g := fun index br => br.readBits (16 * (getUsedRegions index).length) >>= fun p =>
    Res.ok (getUsedSymbolsFromRegions (getUsedRegions index) p.1, p.2)) (keeps_readBits 16) fun index =>
    Keeps.bind (g := fun regions br => Res.ok (getUsedSymbolsFromRegions (getUsedRegions index) regions, br))
      (keeps_readBits _) fun _ => Keeps.pure _

theorem keeps_unaryLoop (amount fuel : Nat) (out : List UInt8) (c n : Nat) :
    Keeps fun br => readUnaryLoop amount fuel br out c n := by
  induction fuel generalizing out c n with
  | zero => exact Keeps.fail _ (by intro p hp; cases hp)
  | succ fuel ih =>
    intro br a br' h h1
    simp only [readUnaryLoop] at h1
    obtain ⟨⟨bits, br1⟩, h2, h3⟩ := bind_eq_ok h1
    have hs := keeps_readBits 1 br bits br1 h h2
    dsimp only at h3
    split at h3
    · split at h3
      · split at h3
        · simp at h3; exact h3.2 ▸ hs
        · exact ih _ _ _ _ _ _ hs h3
      · simp at h3
    · split at h3
      · simp at h3; exact h3.2 ▸ hs
      · exact ih _ _ _ _ _ _ hs h3
    · simp at h3

theorem keeps_deltaLoop (amount fuel : Nat) (out : List UInt8) (c n : Nat) :
    Keeps fun br => readDeltaLoop amount fuel br out c n := by
  induction fuel generalizing out c n with
  | zero => exact Keeps.fail _ (by intro p hp; cases hp)
  | succ fuel ih =>
    intro br a br' h h1
    simp only [readDeltaLoop] at h1
    obtain ⟨⟨bits, br1⟩, h2, h3⟩ := bind_eq_ok h1
    have hs := keeps_readBits 1 br bits br1 h h2
    dsimp only at h3
    split at h3
    · obtain ⟨⟨bits2, br2⟩, h4, h5⟩ := bind_eq_ok h3
      have hs2 := keeps_readBits 1 br1 bits2 br2 hs h4
      dsimp only at h5
      have fin : ∀ start, (if n = amount then (pure (out, br2) : Res (List UInt8 × BitReader))
          else readDeltaLoop amount fuel br2 out start n) = Res.ok (a, br') → br'.Started := by
        intro start h6
        split at h6
        · simp at h6; exact h6.2 ▸ hs2
        · exact ih _ _ _ _ _ _ hs2 h6
      split at h5
      · obtain ⟨start, -, h6⟩ := bind_eq_ok h5
        exact fin start h6
      · obtain ⟨start, -, h6⟩ := bind_eq_ok h5
        exact fin start h6
    · split at h3
      · simp at h3; exact h3.2 ▸ hs
      · exact ih _ _ _ _ _ _ hs h3

theorem keeps_symbolsLoop (table : List CanonicalEntry) (maxNumber fuel : Nat) (all : List ZleSymbol) (cur : List Bit)
    (n : Nat) : Keeps fun br => readSymbolsLoop table maxNumber fuel br all cur n := by
  induction fuel generalizing all cur n with
  | zero => exact Keeps.fail _ (by intro p hp; cases hp)
  | succ fuel ih =>
    intro br a br' h h1
    simp only [readSymbolsLoop] at h1
    obtain ⟨⟨bits, br1⟩, h2, h3⟩ := bind_eq_ok h1
    have hs := keeps_readBits 1 br bits br1 h h2
    dsimp only at h3
    split at h3
    · split at h3
      · simp at h3; exact h3.2 ▸ hs
      · exact ih _ _ _ _ _ _ hs h3
    · simp at h3; exact h3.2 ▸ hs
    · split at h3
      · simp at h3; exact h3.2 ▸ hs
      · exact ih _ _ _ _ _ _ hs h3

theorem keeps_groups (tables : List (List CanonicalEntry)) (sel : List UInt8) : Keeps (readGroups tables sel) := by
  induction sel with
  | nil => exact Keeps.pure _
  | cons s rest ih =>
    intro br a br' h h1
    simp only [readGroups] at h1
    obtain ⟨t, -, h1⟩ := bind_eq_ok h1
    obtain ⟨⟨syms, br1⟩, h2, h1⟩ := bind_eq_ok h1
    have s1 := Keeps.unwrap (f := fun br => readSymbols br t 50)
      (fun b _ _ => keeps_symbolsLoop t 50 b.fuel [] [] 0 b _ _) br syms br1 h h2
    obtain ⟨⟨more, br2⟩, h3, h1⟩ := bind_eq_ok h1
    simp at h1
    exact h1.2 ▸ ih _ _ _ s1 h3

theorem keeps_trees (amount n : Nat) : Keeps (readTrees amount n) := by
  induction n with
  | zero => exact Keeps.pure _
  | succ n ih =>
    intro br a br' h h1
    simp only [readTrees] at h1
    obtain ⟨⟨t, br1⟩, h2, h1⟩ := bind_eq_ok h1
    have s1 := Keeps.unwrap (f := fun br => readDelta br amount) (fun b a b' hb hr => by
      simp only [readDelta] at hr
      obtain ⟨⟨five, b1⟩, h3, h4⟩ := bind_eq_ok hr
      exact keeps_deltaLoop amount b1.fuel [] _ 0 b1 _ _ (keeps_readBits 5 b five b1 hb h3) h4) br t br1 h h2
    obtain ⟨⟨more, br2⟩, h3, h1⟩ := bind_eq_ok h1
    simp at h1
    exact h1.2 ▸ ih _ _ _ s1 h3

theorem keeps_block : Keeps decodeBlockData := by
  intro br a br' h h1
  simp only [decodeBlockData] at h1
  obtain ⟨⟨_, b1⟩, h2, h1⟩ := bind_eq_ok h1
  have s1 := (keeps_readBits 32).unwrap br _ b1 h h2
  obtain ⟨⟨_, b2⟩, h2, h1⟩ := bind_eq_ok h1
  have s2 := keeps_readBits 1 b1 _ b2 s1 h2
  obtain ⟨⟨_, b3⟩, h2, h1⟩ := bind_eq_ok h1
  have s3 := (keeps_readBits 24).unwrap b2 _ b3 s2 h2
  obtain ⟨⟨_, b4⟩, h2, h1⟩ := bind_eq_ok h1
  have s4 := keeps_symbolTable.unwrap b3 _ b4 s3 h2
  obtain ⟨⟨_, b5⟩, h2, h1⟩ := bind_eq_ok h1
  have s5 := (keeps_readBits 3).unwrap b4 _ b5 s4 h2
  obtain ⟨⟨_, b6⟩, h2, h1⟩ := bind_eq_ok h1
  have s6 := (keeps_readBits 15).unwrap b5 _ b6 s5 h2
  obtain ⟨⟨_, b7⟩, h2, h1⟩ := bind_eq_ok h1
  have s7 := Keeps.unwrap (f := fun b => readUnary b _) (fun b _ _ => keeps_unaryLoop _ b.fuel [] 0 0 b _ _) b6 _ b7 s6 h2
  obtain ⟨_, -, h1⟩ := bind_eq_ok h1
  obtain ⟨⟨_, b8⟩, h2, h1⟩ := bind_eq_ok h1
  have s8 := keeps_trees _ _ b7 _ b8 s7 h2
  obtain ⟨_, -, h1⟩ := bind_eq_ok h1
  obtain ⟨⟨_, b9⟩, h2, h1⟩ := bind_eq_ok h1
  have s9 := keeps_groups _ _ b8 _ b9 s8 h2
  obtain ⟨_, -, h1⟩ := bind_eq_ok h1
  obtain ⟨_, -, h1⟩ := bind_eq_ok h1
  obtain ⟨_, -, h1⟩ := bind_eq_ok h1
  dsimp only at h1
  split at h1
  · simp at h1; exact h1.2 ▸ s9
  · simp at h1

namespace Release

theorem keeps_unaryLoop (amount fuel : Nat) (out : List UInt8) (c n : Nat) :
    Keeps fun br => readUnaryLoop amount fuel br out c n := by
  induction fuel generalizing out c n with
  | zero => exact Keeps.fail _ (by intro p hp; cases hp)
  | succ fuel ih =>
    intro br a br' h h1
    simp only [readUnaryLoop] at h1
    obtain ⟨⟨bits, br1⟩, h2, h3⟩ := bind_eq_ok h1
    have hs := keeps_readBits 1 br bits br1 h h2
    dsimp only at h3
    split at h3
    · split at h3
      · simp at h3; exact h3.2 ▸ hs
      · exact ih _ _ _ _ _ _ hs h3
    · split at h3
      · simp at h3; exact h3.2 ▸ hs
      · exact ih _ _ _ _ _ _ hs h3
    · simp at h3

theorem keeps_deltaLoop (amount fuel : Nat) (out : List UInt8) (c n : Nat) :
    Keeps fun br => readDeltaLoop amount fuel br out c n := by
  induction fuel generalizing out c n with
  | zero => exact Keeps.fail _ (by intro p hp; cases hp)
  | succ fuel ih =>
    intro br a br' h h1
    simp only [readDeltaLoop] at h1
    obtain ⟨⟨bits, br1⟩, h2, h3⟩ := bind_eq_ok h1
    have hs := keeps_readBits 1 br bits br1 h h2
    dsimp only at h3
    split at h3
    · obtain ⟨⟨bits2, br2⟩, h4, h6⟩ := bind_eq_ok h3
      have hs2 := keeps_readBits 1 br1 bits2 br2 hs h4
      dsimp only at h6
      split at h6
      · simp at h6; exact h6.2 ▸ hs2
      · exact ih _ _ _ _ _ _ hs2 h6
    · split at h3
      · simp at h3; exact h3.2 ▸ hs
      · exact ih _ _ _ _ _ _ hs h3

theorem keeps_trees (amount n : Nat) : Keeps (readTrees amount n) := by
  induction n with
  | zero => exact Keeps.pure _
  | succ n ih =>
    intro br a br' h h1
    simp only [readTrees] at h1
    obtain ⟨⟨t, br1⟩, h2, h1⟩ := bind_eq_ok h1
    have s1 := Keeps.unwrap (f := fun br => readDelta br amount) (fun b a b' hb hr => by
      simp only [readDelta] at hr
      obtain ⟨⟨five, b1⟩, h3, h4⟩ := bind_eq_ok hr
      exact keeps_deltaLoop amount b1.fuel [] _ 0 b1 _ _ (keeps_readBits 5 b five b1 hb h3) h4) br t br1 h h2
    obtain ⟨⟨more, br2⟩, h3, h1⟩ := bind_eq_ok h1
    simp at h1
    exact h1.2 ▸ ih _ _ _ s1 h3

theorem keeps_block : Keeps decodeBlockData := by
  intro br a br' h h1
  simp only [decodeBlockData] at h1
  obtain ⟨⟨_, b1⟩, h2, h1⟩ := bind_eq_ok h1
  have s1 := (keeps_readBits 32).unwrap br _ b1 h h2
  obtain ⟨⟨_, b2⟩, h2, h1⟩ := bind_eq_ok h1
  have s2 := keeps_readBits 1 b1 _ b2 s1 h2
  obtain ⟨⟨_, b3⟩, h2, h1⟩ := bind_eq_ok h1
  have s3 := (keeps_readBits 24).unwrap b2 _ b3 s2 h2
  obtain ⟨⟨_, b4⟩, h2, h1⟩ := bind_eq_ok h1
  have s4 := keeps_symbolTable.unwrap b3 _ b4 s3 h2
  obtain ⟨⟨_, b5⟩, h2, h1⟩ := bind_eq_ok h1
  have s5 := (keeps_readBits 3).unwrap b4 _ b5 s4 h2
  obtain ⟨⟨_, b6⟩, h2, h1⟩ := bind_eq_ok h1
  have s6 := (keeps_readBits 15).unwrap b5 _ b6 s5 h2
  obtain ⟨⟨_, b7⟩, h2, h1⟩ := bind_eq_ok h1
  have s7 := Keeps.unwrap (f := fun b => readUnary b _) (fun b _ _ => keeps_unaryLoop _ b.fuel [] 0 0 b _ _) b6 _ b7 s6 h2
  obtain ⟨_, -, h1⟩ := bind_eq_ok h1
  obtain ⟨⟨_, b8⟩, h2, h1⟩ := bind_eq_ok h1
  have s8 := keeps_trees _ _ b7 _ b8 s7 h2
  obtain ⟨_, -, h1⟩ := bind_eq_ok h1
  obtain ⟨⟨_, b9⟩, h2, h1⟩ := bind_eq_ok h1
  have s9 := keeps_groups _ _ b8 _ b9 s8 h2
  obtain ⟨_, -, h1⟩ := bind_eq_ok h1
  obtain ⟨_, -, h1⟩ := bind_eq_ok h1
  obtain ⟨_, -, h1⟩ := bind_eq_ok h1
  dsimp only at h1
  split at h1
  · simp at h1; exact h1.2 ▸ s9
  · simp at h1

end Release

/-! ### The calls -/

/-- A reader of blocks: it leaves the bit reader in the middle of a byte, and takes the bits of a block. -/
structure ReadsBlocks (block : BitReader → Res (List UInt8 × BitReader)) : Prop where
  keeps : Keeps block
  crc : ∀ br d br', block br = Res.ok (d, br') → ∃ body, br.bits = natToBits 32 (Spec.crc32 d).toNat ++ body ++ br'.bits

theorem readsBlocks_debug : ReadsBlocks decodeBlockData where
  keeps := keeps_block
  crc := by
    intro br d br' h
    have hb := absR_decodeBlockData br
    rw [h] at hb
    exact pBlock_crc hb.symm

theorem readsBlocks_release : ReadsBlocks Release.decodeBlockData where
  keeps := Release.keeps_block
  crc := by
    intro br d br' h
    have hb := Release.absR_decodeBlockData br
    rw [h] at hb
    exact Release.pBlock_crc hb.symm

theorem decodeLoopCalls_bits (block : BitReader → Res (List UInt8 × BitReader)) (hblock : ReadsBlocks block) (fuel : Nat)
    (br : BitReader) (w : Writer) (i : Nat) (call : WriteCall) (h : (decodeLoopCalls block fuel br w).1[i]? = some call) :
    ∃ blocks unused, blocks.map (·.1) = ((decodeLoopCalls block fuel br w).1.take (i + 1)).map (·.data) ∧
      unused.length < 8 ∧ br.bits = blockFrames blocks ++ unused ++ bytesBits (delivered call.unread) := by
  induction fuel generalizing br w i with
  | zero => simp [decodeLoopCalls] at h
  | succ fuel ih =>
    have hw := absR_whatNext br
    simp only [decodeLoopCalls] at h ⊢
    rcases hn : whatNext br with ⟨t, br1⟩ | _ | _ | _ <;> simp only [hn] at h ⊢
    · rw [hn] at hw
      have hinv := pWhatNext_inv hw.symm
      cases t
      · simp at h
      · rcases hinv with ⟨-, e⟩ | ⟨h1, -⟩
        · rcases hd : block br1 with ⟨d, br2⟩ | _ | _ | _ <;> simp only [hd] at h ⊢
          · obtain ⟨body, hbody⟩ := hblock.crc _ _ _ hd
            obtain ⟨b, c1, c2, c3⟩ := hblock.keeps _ _ _ (whatNext_started hn) hd
            have first : br.bits = blockFrames [(d, body)] ++ (byteBits b).drop br2.cursor
                ++ bytesBits (delivered br2.events) := by
              rw [e, hbody]
              simp [blockFrames, blockFrame, BitReader.bits, c1]
            have hu : ((byteBits b).drop br2.cursor).length < 8 := by simp; omega
            rcases hwr : w.write d with ⟨w1, (_ | _ | _ | _)⟩ <;> simp only [hwr] at h ⊢
            · cases i with
              | zero =>
                simp at h
                subst h
                exact ⟨[(d, body)], _, by simp, hu, first⟩
              | succ i =>
                simp only [List.getElem?_cons_succ] at h
                obtain ⟨blocks, unused, g1, g2, g3⟩ := ih br2 w1 i h
                refine ⟨(d, body) :: blocks, unused, by simp [g1], g2, ?_⟩
                rw [e, hbody, g3]
                simp [blockFrames, blockFrame]
            all_goals
              cases i with
              | zero =>
                simp at h
                subst h
                exact ⟨[(d, body)], _, by simp, hu, first⟩
              | succ i => simp at h
          all_goals simp at h
        · simp at h1
    all_goals simp at h

theorem decodeStreamCalls_bits (block : BitReader → Res (List UInt8 × BitReader)) (hblock : ReadsBlocks block) (r : Reader)
    (w : Writer) (i : Nat) (call : WriteCall) (h : (decodeStreamCalls block r w).1[i]? = some call) :
    ∃ level blocks unused taken, blocks.map (·.1) = ((decodeStreamCalls block r w).1.take (i + 1)).map (·.data) ∧
      unused.length < 8 ∧ delivered r.events = taken ++ delivered call.unread ∧
      bytesBits taken = streamHeader level ++ blockFrames blocks ++ unused := by
  simp only [decodeStreamCalls] at h ⊢
  have hb : (BitReader.fromReader r).bits = bytesBits (delivered r.events) := by simp
  have hh := pHeader_eq (BitReader.fromReader r)
  rcases hr : readFileHeader (BitReader.fromReader r) with br | _ | _ | _ <;> simp only [hr] at h hh ⊢
  · rw [hb] at hh
    obtain ⟨level, hl⟩ := pHeader_inv hh
    obtain ⟨blocks, unused, g1, g2, g3⟩ := decodeLoopCalls_bits block hblock _ br w i call h
    rw [g3] at hl
    obtain ⟨taken, t1, t2⟩ := split_delivered (p := streamHeader level ++ blockFrames blocks ++ unused)
      (z := delivered call.unread) (by rw [hl]; simp)
    exact ⟨level, blocks, unused, taken, g1, g2, t1, t2⟩
  all_goals simp at h

theorem decodeLoopCalls_debug (fuel : Nat) (br : BitReader) (w : Writer) :
    (decodeLoopCalls decodeBlockData fuel br w).2 = decodeLoop fuel br w := by
  induction fuel generalizing br w with
  | zero => rfl
  | succ fuel ih =>
    simp only [decodeLoopCalls, decodeLoop]
    rcases whatNext br with ⟨t, br1⟩ | _ | _ | _
    · cases t
      · rfl
      · simp only [decodeBlock]
        rcases decodeBlockData br1 with ⟨d, br2⟩ | _ | _ | _
        · dsimp only
          rcases w.write d with ⟨w1, (_ | _ | _ | _)⟩
          · exact ih br2 w1
          all_goals rfl
        all_goals rfl
    all_goals rfl

theorem decodeLoopCalls_release (fuel : Nat) (br : BitReader) (w : Writer) :
    (decodeLoopCalls Release.decodeBlockData fuel br w).2 = Release.decodeLoop fuel br w := by
  induction fuel generalizing br w with
  | zero => rfl
  | succ fuel ih =>
    simp only [decodeLoopCalls, Release.decodeLoop]
    rcases whatNext br with ⟨t, br1⟩ | _ | _ | _
    · cases t
      · rfl
      · simp only [Release.decodeBlock]
        rcases Release.decodeBlockData br1 with ⟨d, br2⟩ | _ | _ | _
        · dsimp only
          rcases w.write d with ⟨w1, (_ | _ | _ | _)⟩
          · exact ih br2 w1
          all_goals rfl
        all_goals rfl
    all_goals rfl

/-- Blocks that decode are written, whatever follows them. -/
theorem decodeLoopCalls_good (block : BitReader → Res (List UInt8 × BitReader)) (P : List Bit → Res (List UInt8 × List Bit))
    (habs : ∀ br, absR (block br) = P br.bits) (hkeeps : Keeps block) (blocks : List (List UInt8 × List Bool))
    (hb : ∀ b ∈ blocks, ∀ rest, P (natToBits 32 (Spec.crc32 b.1).toNat ++ b.2 ++ rest) = Res.ok (b.1, rest))
    (tail : List Bit) (fuel : Nat) (hf : blocks.length < fuel) (br : BitReader) (out : List UInt8)
    (h : br.bits = blockFrames blocks ++ tail) (i : Nat) (b : List UInt8 × List Bool) (hi : blocks[i]? = some b) :
    ∃ call, (decodeLoopCalls block fuel br ⟨out, []⟩).1[i]? = some call ∧ call.data = b.1 ∧
      ∃ unused, unused.length < 8 ∧ br.bits = blockFrames (blocks.take (i + 1)) ++ unused ++ bytesBits (delivered call.unread) := by
  induction blocks generalizing fuel br out i with
  | nil => simp at hi
  | cons b0 blocks ih =>
    obtain ⟨fuel, rfl⟩ : ∃ f, fuel = f + 1 := ⟨fuel - 1, by simp at hf; omega⟩
    have hw := absR_whatNext br
    rw [h] at hw
    simp only [blockFrames, List.flatMap_cons, blockFrame, List.append_assoc, pWhatNext_block] at hw
    obtain ⟨br1, h1, h2⟩ := absR_eq_ok hw
    have hd := habs br1
    have := hb b0 (by simp) (blockFrames blocks ++ tail)
    simp only [blockFrames, List.append_assoc, blockFrame] at this
    rw [h2, this] at hd
    obtain ⟨br2, g1, g2⟩ := absR_eq_ok hd
    have g3 : br2.bits = blockFrames blocks ++ tail := by rw [g2]; simp [blockFrames, blockFrame]
    have g4 : br.bits = blockFrame b0.1 b0.2 ++ br2.bits := by rw [h, g3]; simp [blockFrames]
    simp only [decodeLoopCalls, h1, g1, Writer.write]
    cases i with
    | zero =>
      simp at hi
      subst hi
      obtain ⟨x, c1, c2, c3⟩ := hkeeps _ _ _ (whatNext_started h1) g1
      refine ⟨⟨b0.1, br2.events⟩, by simp, rfl, (byteBits x).drop br2.cursor, by simp; omega, ?_⟩
      rw [g4]
      simp [blockFrames, BitReader.bits, c1]
    | succ i =>
      simp only [List.getElem?_cons_succ] at hi ⊢
      obtain ⟨call, k1, k2, unused, k3, k4⟩ := ih (fun b' h' => hb b' (by simp [h'])) fuel (by simp at hf; omega) br2
        (out ++ b0.1) g3 i hi
      refine ⟨call, k1, k2, unused, k3, ?_⟩
      rw [g4, k4]
      simp [blockFrames]

end Ribzip2
