import Verif.Model.StepsDecode
import Verif.Proofs.StepsHuffman
import Verif.Proofs.Decoder
/- The counted decoder computes what the decoder computes. -/
namespace Ribzip2
open Spec Cost

/-- The result without the number of steps. -/
def Cost.erase {α : Type} (x : Cost α) : Res α := x.run >>= fun p => Res.ok p.1

@[simp] theorem erase_pure {α : Type} (a : α) : (pure a : Cost α).erase = Res.ok a := rfl

@[simp] theorem erase_lift {α : Type} (r : Res α) : (lift r).erase = r := by cases r <;> rfl

theorem erase_bind {α β : Type} (x : Cost α) (f : α → Cost β) : (x >>= f).erase = x.erase >>= fun a => (f a).erase := by
  show Res.bind (Res.bind x _) _ = Res.bind (Res.bind x _) _
  match x with
  | Res.ok (a, k) =>
    show Res.bind (Res.bind (f a) _) _ = Res.bind (f a) _
    cases f a <;> rfl
  | Res.err => rfl
  | Res.panic => rfl
  | Res.div => rfl

@[simp] theorem erase_tick {β : Type} (n : Nat) (f : Unit → Cost β) : (tick n >>= f).erase = (f ()).erase := by
  rw [erase_bind]
  rfl

@[simp] theorem erase_unwrap {α : Type} (x : Cost α) : x.unwrap.erase = x.erase.unwrap := by
  match x with
  | Res.ok (a, k) => rfl
  | Res.err => rfl
  | Res.panic => rfl
  | Res.div => rfl

theorem erase_bind_of {α β : Type} {x : Cost α} {r : Res α} {f : α → Cost β} {g : α → Res β} (hx : x.erase = r)
    (hf : ∀ a, (f a).erase = g a) : (x >>= f).erase = r >>= g := by
  rw [erase_bind, hx]
  exact congrArg _ (funext hf)

theorem erase_lift_bind {α β : Type} (r : Res α) {f : α → Cost β} {g : α → Res β} (hf : ∀ a, (f a).erase = g a) :
    (lift r >>= f).erase = r >>= g := erase_bind_of (erase_lift r) hf

/-! ### reading -/

theorem readBitsC_erase (n : Nat) (br : BitReader) : (br.readBitsC n).erase = br.readBits n := by
  induction n generalizing br with
  | zero => rfl
  | succ n ih =>
    rw [BitReader.readBitsC, BitReader.readBits, erase_tick]
    refine erase_lift_bind _ fun ⟨b, br'⟩ => ?_
    exact erase_bind_of (ih _) fun ⟨bits, br''⟩ => rfl

theorem convertToNumberC_bind {β : Type} (bits : List Bit) (f : Nat → Cost β) :
    (convertToNumberC bits >>= f).erase = (f (convertToNumber bits)).erase := by
  rw [erase_bind]
  rfl

theorem readBytesC_erase (n : Nat) (br : BitReader) : (br.readBytesC n).erase = br.readBytes n := by
  induction n generalizing br with
  | zero => rfl
  | succ n ih =>
    rw [BitReader.readBytesC, BitReader.readBytes, erase_tick]
    refine erase_bind_of (readBitsC_erase _ _) fun ⟨bits, br'⟩ => ?_
    dsimp only
    rw [convertToNumberC_bind]
    exact erase_bind_of (ih _) fun ⟨bits, br''⟩ => rfl

theorem readSymbolTableC_erase (br : BitReader) : (readSymbolTableC br).erase = readSymbolTable br := by
  rw [readSymbolTableC, readSymbolTable]
  refine erase_bind_of (readBitsC_erase _ _) fun ⟨index, br⟩ => ?_
  dsimp only
  rw [erase_tick]
  refine erase_bind_of (readBitsC_erase _ _) fun ⟨regions, br⟩ => ?_
  dsimp only
  rw [erase_tick]
  rfl

theorem erase_ite {α : Type} (c : Prop) [Decidable c] (x y : Cost α) :
    (if c then x else y).erase = if c then x.erase else y.erase := by split <;> rfl

theorem readUnaryLoopC_erase (amount fuel : Nat) (br : BitReader) (out : List UInt8) (c n : Nat) :
    (readUnaryLoopC amount fuel br out c n).erase = readUnaryLoop amount fuel br out c n := by
  induction fuel generalizing br out c n with
  | zero => rfl
  | succ fuel ih =>
    rw [readUnaryLoopC, readUnaryLoop, erase_tick]
    refine erase_bind_of (readBitsC_erase _ _) fun ⟨bits, br⟩ => ?_
    dsimp only
    match bits with
    | [] => rfl
    | [true] => simp only [erase_ite, ih]; rfl
    | [false] => simp only [erase_ite, ih]; rfl
    | true :: _ :: _ => rfl
    | false :: _ :: _ => rfl

theorem readUnaryC_erase (br : BitReader) (amount : Nat) : (readUnaryC br amount).erase = readUnary br amount :=
  readUnaryLoopC_erase _ _ _ _ _ _

theorem readDeltaLoopC_erase (amount fuel : Nat) (br : BitReader) (out : List UInt8) (c n : Nat) :
    (readDeltaLoopC amount fuel br out c n).erase = readDeltaLoop amount fuel br out c n := by
  induction fuel generalizing br out c n with
  | zero => rfl
  | succ fuel ih =>
    rw [readDeltaLoopC, readDeltaLoop, erase_tick]
    refine erase_bind_of (readBitsC_erase _ _) fun ⟨bits, br⟩ => ?_
    dsimp only
    have other : (if n + 1 = amount then pure (out ++ [UInt8.ofNat c], br)
        else readDeltaLoopC amount fuel br (out ++ [UInt8.ofNat c]) c (n + 1) : Cost _).erase
        = if n + 1 = amount then pure (out ++ [UInt8.ofNat c], br)
        else readDeltaLoop amount fuel br (out ++ [UInt8.ofNat c]) c (n + 1) := by
      simp only [erase_ite, ih]; rfl
    match bits with
    | [] => exact other
    | [false] => exact other
    | true :: _ :: _ => exact other
    | false :: _ :: _ => exact other
    | [true] =>
      refine erase_bind_of (readBitsC_erase _ _) fun ⟨bits, br⟩ => ?_
      dsimp only
      have key : ∀ r : Res Nat, (lift r >>= fun start => if n = amount then pure (out, br)
          else readDeltaLoopC amount fuel br out start n : Cost _).erase = r >>= fun start =>
          if n = amount then pure (out, br) else readDeltaLoop amount fuel br out start n := fun r =>
        erase_lift_bind _ fun start => by simp only [erase_ite, ih]; rfl
      match bits with
      | [] => exact key _
      | [false] => exact key _
      | [true] => exact key _
      | true :: _ :: _ => exact key _
      | false :: _ :: _ => exact key _

theorem readDeltaC_erase (br : BitReader) (amount : Nat) : (readDeltaC br amount).erase = readDelta br amount := by
  rw [readDeltaC, readDelta]
  refine erase_bind_of (readBitsC_erase _ _) fun ⟨bits, br⟩ => ?_
  dsimp only
  rw [convertToNumberC_bind]
  exact readDeltaLoopC_erase _ _ _ _ _ _

/-! ### tables -/

theorem sortC_bind {α β : Type} (le : α → α → Bool) (l : List α) (f : List α → Cost β) :
    (sortC le l >>= f).erase = (f (stableSort le l)).erase := by
  rw [erase_bind]
  rfl

theorem incrementSymbolC_erase (l : List Bit) : (incrementSymbolC l).erase = incrementSymbol l := by
  rw [incrementSymbolC, erase_tick, erase_bind, erase_lift]
  simp only [erase_tick, erase_pure]
  cases incrementSymbol l <;> rfl

theorem canonicalLoopC_erase (last : List Bit) (T : List CodeTableEntry) :
    (canonicalLoopC last T).erase = canonicalLoop last T := by
  induction T generalizing last with
  | nil => rfl
  | cons e T ih =>
    rw [canonicalLoopC, canonicalLoop, erase_tick]
    refine erase_bind_of (incrementSymbolC_erase _) fun u => ?_
    dsimp only
    rw [erase_tick]
    exact erase_bind_of (ih _) fun _ => rfl

theorem canonicalizeC_erase (T : List CodeTableEntry) : (canonicalizeC T).erase = canonicalize T := by
  rw [canonicalizeC, canonicalize, sortC_bind]
  match stableSort CodeTableEntry.le T with
  | [] => rfl
  | first :: rest =>
    dsimp only
    rw [erase_tick]
    exact erase_bind_of (canonicalLoopC_erase _ _) fun _ => rfl

theorem fromWeightsC_erase (l : List UInt8) : (fromWeightsC l).erase = fromWeights l := by
  rw [fromWeightsC, erase_tick, erase_lift]

theorem buildTablesC_erase (trees : List (List UInt8)) : (buildTablesC trees).erase = buildTables trees := by
  induction trees with
  | nil => rfl
  | cons t trees ih =>
    rw [buildTablesC, buildTables, erase_tick]
    refine erase_bind_of (fromWeightsC_erase _) fun w => ?_
    refine erase_bind_of (canonicalizeC_erase _) fun c => ?_
    exact erase_bind_of ih fun _ => rfl

theorem readTreesC_erase (amount n : Nat) (br : BitReader) : (readTreesC amount n br).erase = readTrees amount n br := by
  induction n generalizing br with
  | zero => rfl
  | succ n ih =>
    rw [readTreesC, readTrees, erase_tick]
    refine erase_bind_of (by rw [erase_unwrap, readDeltaC_erase]) fun ⟨tree, br⟩ => ?_
    exact erase_bind_of (ih _) fun ⟨more, br⟩ => rfl

theorem readFromTableC_erase (symbols : List Bit) (T : List CanonicalEntry) :
    (readFromTableC symbols T).erase = Res.ok (readFromTable T symbols) := by
  induction T with
  | nil => rfl
  | cons e T ih =>
    rw [readFromTableC, erase_tick, erase_ite, ih]
    by_cases h : e.code == symbols
    · simp [h, readFromTable]
    · simp [h, readFromTable]

theorem readSymbolsLoopC_erase (T : List CanonicalEntry) (m fuel : Nat) (br : BitReader) (all : List ZleSymbol)
    (cur : List Bit) (n : Nat) :
    (readSymbolsLoopC T m fuel br all cur n).erase = readSymbolsLoop T m fuel br all cur n := by
  induction fuel generalizing br all cur n with
  | zero => rfl
  | succ fuel ih =>
    rw [readSymbolsLoopC, readSymbolsLoop, erase_tick]
    refine erase_bind_of (readBitsC_erase _ _) fun ⟨bits, br⟩ => ?_
    dsimp only
    rw [erase_bind, readFromTableC_erase, Res.ok_bind]
    match readFromTable T (cur ++ bits) with
    | some (HSym.normal _) => simp only [erase_ite, ih]; rfl
    | some HSym.eob => rfl
    | none => simp only [erase_ite, ih]; rfl

theorem readSymbolsC_erase (br : BitReader) (T : List CanonicalEntry) (m : Nat) :
    (readSymbolsC br T m).erase = readSymbols br T m := readSymbolsLoopC_erase _ _ _ _ _ _ _

theorem readGroupsC_erase (tables : List (List CanonicalEntry)) (sel : List UInt8) (br : BitReader) :
    (readGroupsC tables sel br).erase = readGroups tables sel br := by
  induction sel generalizing br with
  | nil => rfl
  | cons s sel ih =>
    rw [readGroupsC, readGroups, erase_tick]
    refine erase_lift_bind _ fun table => ?_
    refine erase_bind_of (by rw [erase_unwrap, readSymbolsC_erase]) fun ⟨syms, br⟩ => ?_
    dsimp only
    rw [erase_tick]
    exact erase_bind_of (ih _) fun ⟨more, br⟩ => rfl

/-! ### stages -/

theorem decodeZerosC_bind {β : Type} (zeros : List ZleSymbol) {f : Nat → Cost β} {g : Nat → Res β}
    (h : ∀ n, (f n).erase = g n) : (decodeZerosC zeros >>= f).erase = decodeZeroAmount zeros >>= g := by
  refine erase_bind_of ?_ h
  rw [decodeZerosC, erase_tick, erase_bind, erase_lift]
  simp only [erase_tick, erase_pure]
  cases decodeZeroAmount zeros <;> rfl

theorem decodeZleLoopC_erase (input zeros : List ZleSymbol) (out : List UInt8) :
    (decodeZleLoopC input zeros out).erase = decodeZleLoop input zeros out := by
  induction input generalizing zeros out with
  | nil =>
    rw [decodeZleLoopC, decodeZleLoop, erase_ite]
    split
    · rfl
    · exact decodeZerosC_bind _ fun _ => rfl
  | cons s input ih =>
    cases s with
    | number e =>
      rw [decodeZleLoopC, decodeZleLoop, erase_tick, erase_ite, ih]
      split
      · rfl
      · exact decodeZerosC_bind _ fun _ => ih _ _
    | runA => rw [decodeZleLoopC, decodeZleLoop, erase_tick, ih] <;> simp
    | runB => rw [decodeZleLoopC, decodeZleLoop, erase_tick, ih] <;> simp

theorem bringToFrontC_erase (p : Nat) (dict : List UInt8) : (bringToFrontC p dict).erase = bringToFront p dict := by
  rw [bringToFrontC, erase_tick, erase_lift]

theorem inverseMtfLoopC_erase (input dict : List UInt8) : (inverseMtfLoopC input dict).erase = inverseMtfLoop input dict := by
  induction input generalizing dict with
  | nil => rfl
  | cons i input ih =>
    rw [inverseMtfLoopC, inverseMtfLoop, erase_tick]
    refine erase_lift_bind _ fun value => ?_
    rw [erase_tick]
    refine erase_lift_bind _ fun pos => ?_
    by_cases h : pos < 256
    · simp only [if_pos h]
      refine erase_lift_bind _ fun pos => ?_
      refine erase_bind_of (bringToFrontC_erase _ _) fun dict' => ?_
      exact erase_bind_of (ih _) fun _ => rfl
    · simp only [if_neg h]
      rfl

theorem inverseMtfC_erase (input dict : List UInt8) : (inverseMtfC input dict).erase = inverseMtf input dict := by
  rw [inverseMtfC, inverseMtf, erase_tick, inverseMtfLoopC_erase]

theorem inverseBwtLoopC_erase (pairs : List (Nat × UInt8)) (k start : Nat) :
    (inverseBwtLoopC pairs k start).erase = inverseBwtLoop pairs k start := by
  induction k generalizing start with
  | zero => rfl
  | succ k ih =>
    rw [inverseBwtLoopC, inverseBwtLoop, erase_tick]
    refine erase_lift_bind _ fun pair => ?_
    exact erase_bind_of (ih _) fun _ => rfl

theorem inverseBwtC_erase (data : List UInt8) (p : Nat) : (inverseBwtC data p).erase = inverseBwt data p := by
  rw [inverseBwtC, inverseBwt, erase_tick, erase_tick, erase_tick]
  exact erase_lift_bind _ fun start => inverseBwtLoopC_erase _ _ _

theorem invRleLoopC_erase (input : List UInt8) (s : InvRle) :
    (invRleLoopC input s).erase = Res.ok (input.foldl invRleStep s) := by
  induction input generalizing s with
  | nil => rfl
  | cons e input ih =>
    rw [invRleLoopC, erase_tick, ih]
    rfl

theorem inverseRleC_erase (input : List UInt8) : (inverseRleC input).erase = Res.ok (inverseRle input) := by
  rw [inverseRleC, erase_bind, invRleLoopC_erase]
  rfl

/-! ### blocks and streams -/

theorem decodeBlockDataC_erase (br : BitReader) : (decodeBlockDataC br).erase = decodeBlockData br := by
  rw [decodeBlockDataC, decodeBlockData]
  refine erase_bind_of (by rw [erase_unwrap, readBitsC_erase]) fun ⟨crcBits, br⟩ => ?_
  dsimp only
  rw [convertToNumberC_bind]
  refine erase_bind_of (readBitsC_erase _ _) fun ⟨_, br⟩ => ?_
  refine erase_bind_of (by rw [erase_unwrap, readBitsC_erase]) fun ⟨ptrBits, br⟩ => ?_
  dsimp only
  rw [convertToNumberC_bind]
  refine erase_bind_of (by rw [erase_unwrap, readSymbolTableC_erase]) fun ⟨symbols, br⟩ => ?_
  refine erase_bind_of (by rw [erase_unwrap, readBitsC_erase]) fun ⟨treeBits, br⟩ => ?_
  dsimp only
  rw [convertToNumberC_bind]
  refine erase_bind_of (by rw [erase_unwrap, readBitsC_erase]) fun ⟨selBits, br⟩ => ?_
  dsimp only
  rw [convertToNumberC_bind]
  refine erase_bind_of (by rw [erase_unwrap, readUnaryC_erase]) fun ⟨selectors, br⟩ => ?_
  dsimp only
  rw [erase_tick]
  refine erase_bind_of (inverseMtfC_erase _ _) fun selectors => ?_
  refine erase_bind_of (readTreesC_erase _ _ _) fun ⟨trees, br⟩ => ?_
  refine erase_bind_of (buildTablesC_erase _) fun tables => ?_
  refine erase_bind_of (readGroupsC_erase _ _ _) fun ⟨zleInput, br⟩ => ?_
  refine erase_bind_of (decodeZleLoopC_erase _ _ _) fun mtfInput => ?_
  refine erase_bind_of (inverseMtfC_erase _ _) fun bwtInput => ?_
  refine erase_bind_of (inverseBwtC_erase _ _) fun rleInput => ?_
  rw [erase_bind, inverseRleC_erase, Res.ok_bind, erase_bind]
  show (if _ then _ else _ : Cost _).erase = _
  rw [erase_ite]
  rfl

theorem decodeBlockC_erase (br : BitReader) (w : Writer) :
    ((decodeBlockC br w).1, (decodeBlockC br w).2 >>= fun p => Res.ok p.1) = decodeBlock br w := by
  have h := decodeBlockDataC_erase br
  unfold decodeBlockC decodeBlock
  rw [← h]
  rcases hx : (decodeBlockDataC br).run with ⟨⟨decoded, br'⟩, k⟩ | _ | _ | _
  · have : (decodeBlockDataC br).erase = Res.ok (decoded, br') := by rw [Cost.erase, hx]; rfl
    rw [this]
    dsimp only
    rcases w.write decoded with ⟨w', _ | _ | _ | _⟩ <;> rfl
  · rw [show (decodeBlockDataC br).erase = Res.err by rw [Cost.erase, hx]; rfl]
    rfl
  · rw [show (decodeBlockDataC br).erase = Res.panic by rw [Cost.erase, hx]; rfl]
    rfl
  · rw [show (decodeBlockDataC br).erase = Res.div by rw [Cost.erase, hx]; rfl]
    rfl

theorem readFileHeaderC_erase (br : BitReader) : (readFileHeaderC br).erase = readFileHeader br := by
  rw [readFileHeaderC, readFileHeader]
  refine erase_bind_of (readBytesC_erase _ _) fun ⟨res, br⟩ => ?_
  dsimp only
  rw [erase_tick]
  split
  · rfl
  · split
    · simp_all
    · rfl

theorem whatNextC_erase (br : BitReader) : (whatNextC br).erase = whatNext br := by
  rw [whatNextC, whatNext]
  refine erase_bind_of (readBytesC_erase _ _) fun ⟨res, br⟩ => ?_
  dsimp only
  rw [erase_tick, erase_ite, erase_ite]
  rfl

theorem decodeLoopC_erase (fuel : Nat) (br : BitReader) (w : Writer) (k : Nat) :
    ((decodeLoopC fuel br w k).1, (decodeLoopC fuel br w k).2 >>= fun p => Res.ok p.1) = decodeLoop fuel br w := by
  induction fuel generalizing br w k with
  | zero => rfl
  | succ fuel ih =>
    unfold decodeLoopC decodeLoop
    rw [← whatNextC_erase]
    rcases hx : (whatNextC br).run with ⟨⟨_ | _, br'⟩, l⟩ | _ | _ | _
    · rw [show (whatNextC br).erase = Res.ok (BlockType.streamFooter, br') by rw [Cost.erase, hx]; rfl]
      rfl
    · have : (whatNextC br).erase = Res.ok (BlockType.blockHeader, br') := by rw [Cost.erase, hx]; rfl
      rw [this]
      dsimp only
      rw [← decodeBlockC_erase]
      rcases hy : decodeBlockC br' w with ⟨w', ⟨⟨br2, n⟩⟩ | _ | _ | _⟩
      · exact ih _ _ _
      all_goals rfl
    · rw [show (whatNextC br).erase = Res.err by rw [Cost.erase, hx]; rfl]
      rfl
    · rw [show (whatNextC br).erase = Res.panic by rw [Cost.erase, hx]; rfl]
      rfl
    · rw [show (whatNextC br).erase = Res.div by rw [Cost.erase, hx]; rfl]
      rfl

theorem decodeStreamC_erase (r : Reader) (w : Writer) :
    ((decodeStreamC r w).1, (decodeStreamC r w).2 >>= fun p => Res.ok p.1) = decodeStream r w := by
  unfold decodeStreamC decodeStream
  dsimp only
  rw [← readFileHeaderC_erase]
  rcases hx : (readFileHeaderC (BitReader.fromReader r)).run with ⟨br', k⟩ | _ | _ | _
  · have : (readFileHeaderC (BitReader.fromReader r)).erase = Res.ok br' := by rw [Cost.erase, hx]; rfl
    rw [this]
    exact decodeLoopC_erase _ _ _ _
  · rw [show (readFileHeaderC (BitReader.fromReader r)).erase = Res.err by rw [Cost.erase, hx]; rfl]
    rfl
  · rw [show (readFileHeaderC (BitReader.fromReader r)).erase = Res.panic by rw [Cost.erase, hx]; rfl]
    rfl
  · rw [show (readFileHeaderC (BitReader.fromReader r)).erase = Res.div by rw [Cost.erase, hx]; rfl]
    rfl

end Ribzip2
