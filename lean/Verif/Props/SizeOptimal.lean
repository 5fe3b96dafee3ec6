import Verif.Proofs.SizeOptimal
import Verif.Props.RoundTrip
import Mathlib.Data.List.Nodup
import Mathlib.Data.List.Perm.Subperm
/- Property C69: the code of the single-table strategy, and how small the compressed data is. -/
namespace Ribzip2
open Spec

/-- **C69.** With the single-table strategy every block is written with one code (sent twice, the first
copy used throughout) that is, for the symbols of that block, as good as any code of at most 17 bits, up to the
increase of the frequencies by `0, 1, 2, …` (in some order) that the code construction makes. -/
theorem C69_one_code_nearly_optimal (dist : Distance) (d : List UInt8) (threads : Nat) (ht : 1 ≤ threads) :
    ∃ bytes, encodeBytes dist d threads Strategy.single = Res.ok bytes ∧ EachBlock OneTableBody d bytes := by
  obtain ⟨bytes, blocks, h1, h2, h3, h4⟩ := encodeBytes_oneTable dist d threads ht
  refine ⟨bytes, h1, blocks, ?_, ?_, h4⟩
  · rw [contents, List.flatMap_def, h2, blocksOf_flatten]
  · intro b hb
    obtain ⟨p, p1, -, p3⟩ := h3 b hb
    exact ⟨p, p1, p3⟩

theorem frames_oneTable (L k : Nat) (hL : L ≤ 17) (hm : k + 2 ≤ 2 ^ L) (x y : Nat) (blocks : List (List UInt8 × List Bool))
    (h : ∀ b ∈ blocks, ∃ p : BlockParts, p.OneTable b.1 ∧
        p.tableBits = (p.tables.map fun ls => encodeCodeTable (canonTable ls)) ∧ b.2 = p.body ∧ p.used.length ≤ k ∧
        x * (rle1Encode b.1).length ≤ y * b.1.length) :
    100 * x * (blockFrames blocks).length ≤ (100 * L + 2) * (y * (blocks.map (fun b => b.1)).flatten.length)
      + blocks.length * (x * (50 * (848 + 132 * (k + 2) + L * (2 + (k + 2) * (k + 1))))) := by
  generalize hC : 50 * (848 + 132 * (k + 2) + L * (2 + (k + 2) * (k + 1))) = C
  induction blocks with
  | nil => simp [blockFrames]
  | cons b blocks ih =>
    obtain ⟨p, p1, p2, p3, p4, p5⟩ := h b (by simp)
    have h1 := oneTable_length p b.1 p1 p2 L k hL p4 hm
    have h2 := ih fun z hz => h z (by simp [hz])
    have h3 : (blockFrames (b :: blocks)).length = (blockFrame b.1 p.body).length + (blockFrames blocks).length := by
      simp [blockFrames, p3]
    rw [hC] at h1
    rw [h3, List.map_cons, List.flatten_cons, List.length_append, List.length_cons]
    calc 100 * x * ((blockFrame b.1 p.body).length + (blockFrames blocks).length)
        = x * (100 * (blockFrame b.1 p.body).length) + 100 * x * (blockFrames blocks).length := by ring
      _ ≤ x * ((100 * L + 2) * (rle1Encode b.1).length + C) + 100 * x * (blockFrames blocks).length :=
          Nat.add_le_add_right (Nat.mul_le_mul_left _ h1) _
      _ = (100 * L + 2) * (x * (rle1Encode b.1).length) + x * C + 100 * x * (blockFrames blocks).length := by ring
      _ ≤ (100 * L + 2) * (y * b.1.length) + x * C + ((100 * L + 2) * (y * (blocks.map (fun b => b.1)).flatten.length)
            + blocks.length * (x * C)) :=
          Nat.add_le_add (Nat.add_le_add_right (Nat.mul_le_mul_left _ p5) _) h2
      _ = _ := by ring

theorem padded_size (blocks : List (List UInt8 × List Bool)) (bytes : List UInt8)
    (h : PaddedTo8 (streamHeader 0x39 ++ blockFrames blocks ++ footerMagic
        ++ natToBits 32 (streamCrc blocks).toNat) (bytesBits bytes)) :
    8 * bytes.length ≤ (blockFrames blocks).length + 119 := by
  obtain ⟨k, k1, k2, -⟩ := h
  have := congrArg List.length k2
  simp only [bytesBits_length, List.length_append, natToBits_length, List.length_replicate, streamHeader,
    footerMagic, List.length_cons, List.length_nil] at this
  omega

/-- **C45**, sharper for large inputs: at most one and a half times the size of the input, plus 39500 bytes. -/
theorem C45_size_large_inputs (dist : Distance) (d : List UInt8) (threads : Nat) (ht : 1 ≤ threads) :
    ∃ bytes, encodeBytes dist d threads Strategy.single = Res.ok bytes ∧
      2 * bytes.length ≤ 3 * d.length + 79000 := by
  obtain ⟨bytes, blocks, h1, h2, h3, h4⟩ := encodeBytes_oneTable dist d threads ht
  refine ⟨bytes, h1, ?_⟩
  have hf := frames_oneTable 9 256 (by omega) (by omega) 4 5 blocks (by
    intro b hb
    obtain ⟨p, p1, p2, p3⟩ := h3 b hb
    refine ⟨p, p1, p2, p3, ?_, rle1Encode_length b.1⟩
    have hnd : p.used.Nodup := p1.used.imp fun h e => by subst e; exact absurd h (UInt8.lt_irrefl _)
    have h5 : (p.used.map UInt8.toNat).Nodup := hnd.map fun a b h => UInt8.toNat_inj.1 h
    have h6 : (p.used.map UInt8.toNat) ⊆ List.range 256 := by
      intro z hz
      obtain ⟨w, -, rfl⟩ := List.mem_map.1 hz
      exact List.mem_range.2 w.toNat_lt
    simpa using (h5.subperm h6).length_le)
  rw [h2, blocksOf_flatten] at hf
  have hb := blocksOf_length d
  rw [← h2, List.length_map] at hb
  have hs := padded_size blocks bytes h4
  omega

/-- No byte of `d` is repeated four times in a row: the run-length coding has nothing to do. -/
theorem rle1Encode_of_no_runs (d : List UInt8) (h : ∀ b, ¬ List.replicate 4 b <:+: d) : rle1Encode d = d := by
  refine rle1Encode_short d fun r hr => ?_
  by_contra hge
  refine h r.1 ?_
  obtain ⟨a, c, hac⟩ := List.append_of_mem hr
  have he := runs_expand d
  rw [hac, expandRuns, List.flatMap_append, List.flatMap_cons] at he
  rw [← he]
  have : List.replicate r.2 r.1 = List.replicate 4 r.1 ++ List.replicate (r.2 - 4) r.1 := by
    rw [← List.replicate_add]; congr 1; omega
  rw [this]
  exact ⟨a.flatMap fun r => List.replicate r.2 r.1, List.replicate (r.2 - 4) r.1 ++ c.flatMap fun r => List.replicate r.2 r.1,
    by simp⟩

/-- **C69**, size: data over at most `k` different bytes, `k + 2 ≤ 2 ^ L`, none four times in a row, is compressed to
at most `L + 1/50` bits for each byte, 119 bits for the file, and a number of bits per block that depends on `k`
alone. -/
theorem C69_size_by_alphabet (dist : Distance) (d : List UInt8) (threads : Nat) (ht : 1 ≤ threads)
    (alphabet : List UInt8) (k L : Nat) (hk : alphabet.length ≤ k) (hd : ∀ b ∈ d, b ∈ alphabet)
    (hruns : ∀ b, ¬ List.replicate 4 b <:+: d) (hL : L ≤ 17) (hkL : k + 2 ≤ 2 ^ L) :
    ∃ bytes, encodeBytes dist d threads Strategy.single = Res.ok bytes ∧
      100 * (8 * bytes.length) ≤ (100 * L + 2) * d.length + 11900
        + (d.length / 720000 + 1) * (50 * (848 + 132 * (k + 2) + L * (2 + (k + 2) * (k + 1)))) := by
  obtain ⟨bytes, blocks, h1, h2, h3, h4⟩ := encodeBytes_oneTable dist d threads ht
  refine ⟨bytes, h1, ?_⟩
  have hinf : ∀ b ∈ blocks, b.1 <:+: d := by
    intro b hb
    have hm : b.1 ∈ blocksOf d := by rw [← h2]; exact List.mem_map.2 ⟨b, hb, rfl⟩
    obtain ⟨s, t, hst⟩ := List.append_of_mem hm
    have := blocksOf_flatten d
    rw [hst, List.flatten_append, List.flatten_cons] at this
    exact ⟨s.flatten, t.flatten, by rw [← this]; simp⟩
  have hrle : ∀ b ∈ blocks, rle1Encode b.1 = b.1 := fun b hb =>
    rle1Encode_of_no_runs b.1 fun x hx => hruns x (hx.trans (hinf b hb))
  have hf := frames_oneTable L k hL hkL 1 1 blocks (by
    intro b hb
    obtain ⟨p, p1, p2, p3⟩ := h3 b hb
    refine ⟨p, p1, p2, p3, ?_, by rw [hrle b hb]⟩
    have hnd : p.used.Nodup := p1.used.imp fun h e => by subst e; exact absurd h (UInt8.lt_irrefl _)
    have hsub : p.used ⊆ alphabet := by
      intro z hz
      have := p1.occurs z hz
      rw [p1.rle, hrle b hb] at this
      exact hd z ((hinf b hb).subset this)
    exact ((hnd.subperm hsub).length_le).trans hk)
  rw [h2, blocksOf_flatten] at hf
  have hb := blocksOf_length d
  rw [← h2, List.length_map] at hb
  have hs := padded_size blocks bytes h4
  generalize 50 * (848 + 132 * (k + 2) + L * (2 + (k + 2) * (k + 1))) = C at *
  have hB : blocks.length ≤ d.length / 720000 + 1 := by omega
  have hBC := Nat.mul_le_mul_right C hB
  rw [Nat.one_mul, Nat.one_mul] at hf
  omega

/-- Four letters: at most 3.02 bits a letter, and 143 bytes for every 720000. -/
example (dist : Distance) (d : List UInt8) (hd : ∀ b ∈ d, b ∈ [65, 67, 71, 84])
    (hruns : ∀ b, ¬ List.replicate 4 b <:+: d) :
    ∃ bytes, encodeBytes dist d 4 Strategy.single = Res.ok bytes ∧
      800 * bytes.length ≤ 302 * d.length + 11900 + (d.length / 720000 + 1) * 86800 := by
  obtain ⟨bytes, h1, h2⟩ := C69_size_by_alphabet dist d 4 (by omega) [65, 67, 71, 84] 4 3 (by simp) hd hruns
    (by omega) (by omega)
  exact ⟨bytes, h1, by omega⟩

/-- A code that gives the rarer symbol the shorter word is not nearly optimal. -/
example : ¬ NearOptimal [100, 1, 1] [2, 1, 2] := by
  rintro ⟨-, extra, hp, h⟩
  have h1 := h [1, 2, 2] rfl ⟨by decide, by decide⟩
  obtain ⟨a, b, c, rfl⟩ : ∃ a b c, extra = [a, b, c] := by
    have := hp.length_eq
    match extra, this with
    | [a, b, c], _ => exact ⟨a, b, c, rfl⟩
  have h2 : ∀ x ∈ [a, b, c], x < 3 := fun x hx => by simpa using hp.mem_iff.1 hx
  have ha := h2 a (by simp)
  have hb := h2 b (by simp)
  have hc := h2 c (by simp)
  simp [weightedLength] at h1
  omega

/-- The hypotheses are met by a real case. -/
example : ∃ bytes, encodeBytes (fun _ _ => 0) [0x61, 0x62] 1 Strategy.single = Res.ok bytes ∧
    EachBlock OneTableBody [0x61, 0x62] bytes := C69_one_code_nearly_optimal _ _ 1 (by omega)

end Ribzip2
