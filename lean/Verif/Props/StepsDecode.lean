import Verif.Proofs.StepsDecodeBound
import Verif.Props.Decode
/- Property C81: decompressing takes linear time, up to the logarithm of sorting. -/
namespace Ribzip2
open Spec Cost

/-! ### C81. The functions with names ending in `C` (Model/StepsDecode.lean) are the functions of the decoder in a monad
that counts loop iterations and copied elements. -/

/-- **C81 (the counted program).** The counted decoder does what the decoder does, for every reader, every writer and
every outcome: it makes the same calls of `write` and ends in the same way. -/
theorem C81_counted_program_is_the_program (r : Reader) (w : Writer) :
    (decodeStreamC r w).1 = (decodeStream r w).1 ∧
    ((decodeStreamC r w).2 >>= fun p => Res.ok p.1) = (decodeStream r w).2 := by
  have h := decodeStreamC_erase r w
  rw [← h]
  exact ⟨rfl, rfl⟩

/-- **C81 (one block).** A block of which `c` bits were read and that decodes to `n` bytes takes at most
`66100 c + n (2 log₂ n + 700)` steps, whatever its tables, its code lengths and its content. -/
theorem C81_block_is_linear (br br' : BitReader) (d : List UInt8) (h : decodeBlockData br = Res.ok (d, br')) :
    ∃ steps c, (decodeBlockDataC br).run = Res.ok ((d, br'), steps) ∧ c + br'.bits.length = br.bits.length ∧
      steps ≤ 66100 * c + d.length * (2 * Nat.log2 d.length + 700) := by
  rw [← decodeBlockDataC_erase] at h
  obtain ⟨⟨p, k⟩, h1, h2⟩ := bind_is_ok.1 h
  simp only [Res.ok.injEq] at h2
  subst h2
  obtain ⟨a1, a2⟩ := decodeBlockDataC_steps h1
  refine ⟨k, br.bits.length - br'.bits.length, h1, by omega, ?_⟩
  generalize d.length * (2 * Nat.log2 d.length + 700) = X at *
  omega

theorem log2_mono {a b : Nat} (h : a ≤ b) : Nat.log2 a ≤ Nat.log2 b := by
  by_cases ha : a = 0
  · subst ha; simp
  · have h1 : b < 2 ^ (Nat.log2 b + 1) := Nat.lt_log2_self
    have h2 : 2 ^ Nat.log2 a ≤ a := Nat.log2_self_le ha
    have h3 : 2 ^ Nat.log2 a < 2 ^ (Nat.log2 b + 1) := by omega
    have := (Nat.pow_lt_pow_iff_right (by omega)).1 h3
    omega

/-- The number of steps per byte of output, with the logarithm of sorting. -/
private def outCost (n : Nat) : Nat := n * (2 * Nat.log2 n + 701)

private theorem outCost_add (a b : Nat) : outCost a + outCost b ≤ outCost (a + b) := by
  unfold outCost
  have h1 := log2_mono (Nat.le_add_right a b)
  have h2 := log2_mono (Nat.le_add_left b a)
  rw [Nat.add_mul a b]
  exact Nat.add_le_add (Nat.mul_le_mul_left _ (by omega)) (Nat.mul_le_mul_left _ (by omega))

private theorem outCost_eq (n : Nat) : n * (2 * Nat.log2 n + 700) + n = outCost n := by
  unfold outCost
  ring

private theorem loop_sum {V Z Y X d k k0 l m b b1 b2 : Nat} (hV : V + d = Z) (hX : Z + Y ≤ X)
    (hk : k ≤ k0 + l + (m + d) + 66100 * b2 + Y) (hm : m + 66100 * b2 ≤ 66100 * b1 + V) (hl : l = 163)
    (hb : 48 + b1 = b) : k ≤ k0 + 66100 * b + X := by
  omega

theorem decodeLoopC_steps (fuel : Nat) (br : BitReader) (w w' : Writer) (k0 k : Nat) (hw : w.script = [])
    (h : decodeLoopC fuel br w k0 = (w', Res.ok ((), k))) :
    ∃ n, w'.out.length = w.out.length + n ∧
      k ≤ k0 + 66100 * br.bits.length + n * (2 * Nat.log2 n + 701) := by
  induction fuel generalizing br w k0 with
  | zero => simp [decodeLoopC] at h
  | succ fuel ih =>
    rw [decodeLoopC] at h
    rcases hx : (whatNextC br).run with ⟨⟨t, br'⟩, l⟩ | _ | _ | _
    · have hl : l = 162 ∧ 48 + br'.bits.length = br.bits.length := by
        obtain ⟨⟨res, br2⟩, k1, k2, h1, h2, rfl⟩ := cost_bind hx
        obtain ⟨l2, h3, rfl⟩ := cost_tick h2
        have a1 := readBytesC_steps h1
        split at h3
        · obtain ⟨h4, rfl⟩ := cost_pure h3
          simp only [Prod.mk.injEq] at h4
          rw [h4.2]
          omega
        · split at h3
          · obtain ⟨h4, rfl⟩ := cost_pure h3
            simp only [Prod.mk.injEq] at h4
            rw [h4.2]
            omega
          · exact absurd (cost_lifted h3).1 (by simp)
      rw [hx] at h
      cases t with
      | streamFooter =>
        simp only [Prod.mk.injEq, Res.ok.injEq, true_and] at h
        obtain ⟨rfl, rfl⟩ := h
        exact ⟨0, rfl, by omega⟩
      | blockHeader =>
        dsimp only at h
        rcases hy : (decodeBlockDataC br').run with ⟨⟨d, br2⟩, m⟩ | _ | _ | _
        · have hb : decodeBlockC br' w = (⟨w.out ++ d, []⟩, Res.ok (br2, m + d.length)) := by
            rw [decodeBlockC, hy]
            simp [Writer.write, hw]
          rw [hb] at h
          obtain ⟨n, i1, i2⟩ := ih _ _ _ rfl h
          obtain ⟨a1, a2⟩ := decodeBlockDataC_steps hy
          refine ⟨d.length + n, ?_, ?_⟩
          · rw [i1]
            simp only [List.length_append]
            omega
          · have h1 := outCost_add d.length n
            exact loop_sum (l := 1 + l) (outCost_eq _) h1 (by rw [Nat.add_assoc k0 1 l] at i2; exact i2) a1 (by rw [hl.1]) hl.2
        all_goals
          rw [decodeBlockC, hy] at h
          simp at h
    all_goals
      rw [hx] at h
      simp at h

/-- **C81 (whole stream).** If `decode_stream` succeeds, having written `n` bytes to a writer that takes what it is given
(a file, a `Vec<u8>`), it has taken at most `528800 m + n (2 log₂ n + 701)` steps, where `m` is the number of bytes the
reader delivers: whatever the stream is, whoever made it, however the reader splits it. -/
theorem C81_stream_is_linear (r : Reader) (w w' : Writer) (hw : w.script = [])
    (h : decodeStream r w = (w', Res.ok ())) :
    ∃ steps n, decodeStreamC r w = (w', Res.ok ((), steps)) ∧ w'.out.length = w.out.length + n ∧
      steps ≤ 528800 * (delivered r.events).length + n * (2 * Nat.log2 n + 701) := by
  obtain ⟨e1, e2⟩ := C81_counted_program_is_the_program r w
  rw [h] at e1 e2
  obtain ⟨⟨u, k⟩, h1, -⟩ := bind_is_ok.1 e2
  have hd : decodeStreamC r w = (w', Res.ok ((), k)) := Prod.ext e1 h1
  have hd' := hd
  unfold decodeStreamC at hd'
  dsimp only at hd'
  rcases hx : (readFileHeaderC (BitReader.fromReader r)).run with ⟨br, l⟩ | _ | _ | _
  · rw [hx] at hd'
    obtain ⟨n, i1, i2⟩ := decodeLoopC_steps _ _ _ _ _ _ hw hd'
    refine ⟨k, n, hd, i1, ?_⟩
    obtain ⟨⟨res, br2⟩, k1, k2, h2, h3, rfl⟩ := cost_bind hx
    obtain ⟨l2, h4, rfl⟩ := cost_tick h3
    have a1 := readBytesC_steps h2
    have a2 : br2 = br ∧ l2 = 0 := by
      split at h4
      · obtain ⟨rfl, rfl⟩ := cost_pure h4
        exact ⟨rfl, rfl⟩
      · exact absurd (cost_lifted h4).1 (by simp)
    obtain ⟨rfl, rfl⟩ := a2
    rw [BitReader.fromReader_bits, bytesBits_length] at a1
    generalize n * (2 * Nat.log2 n + 701) = X at *
    omega
  all_goals
    rw [hx] at hd'
    simp at hd'

/-- **C81**, from a slice into a `Vec<u8>`: `m` bytes that decompress to `n` bytes. -/
theorem C81_bytes (bytes out : List UInt8) (h : decodeBytes bytes = Res.ok out) :
    ∃ steps w', decodeStreamC (Reader.ofBytes bytes) Writer.empty = (w', Res.ok ((), steps)) ∧ w'.out = out ∧
      steps ≤ 528800 * bytes.length + out.length * (2 * Nat.log2 out.length + 701) := by
  unfold decodeBytes at h
  rcases hx : decodeStream (Reader.ofBytes bytes) Writer.empty with ⟨w', _ | _ | _ | _⟩
  · rw [hx] at h
    simp only [Res.ok.injEq] at h
    obtain ⟨steps, n, h1, h2, h3⟩ := C81_stream_is_linear _ _ _ rfl hx
    have hn : n = out.length := by rw [← h, h2]; simp [Writer.empty]
    subst hn
    refine ⟨steps, w', h1, h, ?_⟩
    have hd : (delivered (Reader.ofBytes bytes).events) = bytes := by
      cases bytes <;> simp [Reader.ofBytes]
    rw [hd] at h3
    exact h3
  all_goals
    rw [hx] at h
    simp at h

/-- A counted run: the 39 bytes of the stream of `ab` take 1451 steps. -/
example : decodeStreamC (Reader.ofBytes sampleAB) Writer.empty = (⟨[97, 98], []⟩, Res.ok ((), 1451)) ∧
    decodeBytes sampleAB = Res.ok [97, 98] := by
  decide +kernel

end Ribzip2
