import Verif.Proofs.StepsEmit
/- Property C80: compressing a block takes linear time. -/
namespace Ribzip2
open Spec Cost

/-! ### C80. The functions with names ending in `C` (Model/StepsBlock.lean) are the functions of the model in a monad that
counts loop iterations and copied elements. -/

/-- All stages of a block with workable statistics, given the number of steps of the statistics. -/
theorem generateBlockC_runs (dist : Distance) (strategy : Strategy) (nc : Nat) (hw : Workable dist strategy nc)
    (crc : BitVec 32) (rle : List UInt8) (hne : rle ≠ []) (hlen : rle.length + 1 < 2 ^ 20) (N k : Nat)
    (hN : rle.length = N) (hk : (usedBytes rle).length = k) (S : Nat → Nat → Nat)
    (hS : ∀ (enc : List UInt8) out, enc.length = N → zleWithStrategy dist strategy enc k = Res.ok out →
      RunsIn (zleWithStrategyC dist strategy enc k) out (S N out.2.selectors.length)) :
    ∃ (bits : List Bit) (zle : List ZleSymbol) (rep : ReportedSymbols),
      blockStats dist strategy rle = Res.ok (zle, rep) ∧ zle.length ≤ N ∧ (usedBytes rep.selectors).length ≤ nc ∧
      generateBlockData dist strategy crc rle = Res.ok bits ∧
      RunsIn (generateBlockDataC dist strategy crc rle) bits ((37 * N + 2400) + (N * (2 + 2 * k) + (512 + k + k * k))
        + S N rep.selectors.length + (nc * (110 * ((k + 2) * (k + 2)) + 2069 * (k + 2) + 477)
          + rep.selectors.length * (4 * (usedBytes rep.selectors).length + 3)
          + (usedBytes rep.selectors).length * (usedBytes rep.selectors).length + (usedBytes rep.selectors).length
          + N * (k + 37) + 2 * (k * k) + 4 * k + 2126)) := by
  obtain ⟨⟨last, ptr⟩, steps, c1, b1, c2⟩ := C77_transform_is_linear 20 rle hne (by omega)
  obtain ⟨last', ptr', b1', b2, -⟩ := C30_bwt_never_fails rle hne
  rw [b1, Res.ok.injEq, Prod.mk.injEq] at b1'
  obtain ⟨rfl, rfl⟩ := b1'
  obtain ⟨enc, m1, m2, m3, m4⟩ := mtf_spec last
  have hlast : last.length = rle.length := b2.length_eq
  have hused : usedBytes last = usedBytes rle := by
    unfold usedBytes
    congr 1
    funext b
    simp [b2.mem_iff]
  rw [hused] at m1 m4
  have hun : 1 ≤ k := by
    obtain ⟨x, hx⟩ := List.exists_mem_of_ne_nil rle hne
    rw [← hk]
    exact List.length_pos_of_mem (mem_usedBytes.2 hx)
  have hk256 : k ≤ 256 := by rw [← hk]; exact usedBytes_length rle
  rw [hk] at m4
  obtain ⟨rep, f1, f2⟩ := hw k enc hun m4 (by omega)
  obtain ⟨bits, hb⟩ := generateBlock_ok dist strategy nc hw crc rle hne hlen
  have hz := zleEncode_symOk k hun enc m4
  have hzl : (zleEncode 0 enc).length ≤ N := by have := zleEncode_length 0 enc; omega
  have he : emitBlock crc ptr (usedBytes rle) (zleEncode 0 enc) rep = Res.ok bits := by
    rw [← hb]
    simp only [generateBlockData, b1, Res.ok_bind, m1, hk, f1]
  refine ⟨bits, zleEncode 0 enc, rep, ?_, hzl, usedBytes_length_le_bound _ nc f2.sel, hb, ?_⟩
  · simp only [blockStats, b1, Res.ok_bind, m1, hk]
    exact f1
  · have r1 : RunsIn (bwtC rle 0 : Cost (List UInt8 × Nat)) (last, ptr) (37 * N + 2400) := ⟨steps, by omega, c1⟩
    have r2 := mtfC_runs last enc (usedBytes rle) m1 k (by rw [hused, hk])
    have r3 := hS enc _ (by omega) f1
    have r4 := emitBlockC_runs crc ptr (usedBytes rle) (zleEncode 0 enc) rep k nc hk hun hk256 f2 hz _ rfl bits he
    rw [← hk] at r3
    rw [generateBlockDataC]
    refine RunsIn.mono (runs_bind r1 (runs_bind r2 (runs_bind r3 r4))) ?_
    rw [hlast, hN]
    have hzm : (zleEncode 0 enc).length * (k + 37) ≤ N * (k + 37) := Nat.mul_le_mul_right _ hzl
    dsimp only
    omega

/-- **C80.** With one table per block, compressing a block of `n` bytes of which `k` are different, in all its stages,
takes at most `(86 + 3 k) n + 223 (k + 2)² + 4150 (k + 2) + 6100` steps, whatever the bytes; and the counted program
computes what the program computes. -/
theorem C80_block_is_linear (dist : Distance) (crc : BitVec 32) (rle : List UInt8) (hne : rle ≠ [])
    (hlen : rle.length + 1 < 2 ^ 20) (k : Nat) (hk : (usedBytes rle).length = k) :
    ∃ bits steps, (generateBlockDataC dist Strategy.single crc rle).run = Res.ok (bits, steps) ∧
      generateBlockData dist Strategy.single crc rle = Res.ok bits ∧
      steps ≤ (86 + 3 * k) * rle.length + 223 * (k + 2) ^ 2 + 4150 * (k + 2) + 6100 := by
  obtain ⟨bits, zle, rep, s1, s2, s3, s4, steps, s5, s6⟩ := generateBlockC_runs dist Strategy.single 2
    (single_workable dist) crc rle hne hlen _ k rfl hk (fun N P => 9 * N + 3 * (k + 1) + 1 + P)
    (fun enc out he h => by have := singleZle_runs dist k enc out h; rw [he] at this; exact this)
  refine ⟨bits, steps, s6, s4, le_trans s5 ?_⟩
  obtain ⟨-, hP⟩ := single_good dist rle hne hlen zle rep s1
  generalize rep.selectors.length = P at *
  generalize (usedBytes rep.selectors).length = u at *
  generalize rle.length = N at *
  have hu : u * u ≤ 4 := by
    have := Nat.mul_le_mul s3 s3
    omega
  have h1 : P * (4 * u + 3) ≤ P * 11 := Nat.mul_le_mul_left _ (by omega)
  have e1 : (86 + 3 * k) * N = 86 * N + 3 * (k * N) := by ring
  have e2 : N * (2 + 2 * k) = 2 * N + 2 * (k * N) := by ring
  have e3 : N * (k + 37) = 37 * N + k * N := by ring
  have e4 : (k + 2) ^ 2 = k * k + 4 * k + 4 := by ring
  have e5 : (k + 2) * (k + 2) = k * k + 4 * k + 4 := by ring
  rw [e1, e2, e3, e4, e5]
  omega

/-- **C80**, in numbers: at most 854 steps per byte and 16 million more for every block of the encoder. -/
theorem C80_block_is_linear_simple (dist : Distance) (crc : BitVec 32) (rle : List UInt8) (hne : rle ≠ [])
    (hlen : rle.length + 1 < 2 ^ 20) :
    ∃ bits steps, (generateBlockDataC dist Strategy.single crc rle).run = Res.ok (bits, steps) ∧
      generateBlockData dist Strategy.single crc rle = Res.ok bits ∧ steps ≤ 854 * rle.length + 16000000 := by
  obtain ⟨bits, steps, h1, h2, h3⟩ := C80_block_is_linear dist crc rle hne hlen _ rfl
  refine ⟨bits, steps, h1, h2, le_trans h3 ?_⟩
  have hk := usedBytes_length rle
  generalize (usedBytes rle).length = k at *
  have e1 : (86 + 3 * k) * rle.length ≤ 854 * rle.length := Nat.mul_le_mul_right _ (by omega)
  have e2 : (k + 2) ^ 2 ≤ 258 ^ 2 := Nat.pow_le_pow_left (by omega) 2
  omega

/-- **C80 (whole input).** All blocks of an input of `n` bytes together take at most `1090 n + 16000000` steps. -/
theorem C80_input_is_linear (dist : Distance) (d : List UInt8) :
    ∃ steps : List Nat, List.Forall₂ (fun b n => ∃ bits,
        (generateBlockDataC dist Strategy.single (crc32 b) (rle1Encode b)).run = Res.ok (bits, n) ∧
        generateBlockData dist Strategy.single (crc32 b) (rle1Encode b) = Res.ok bits) (blocksOf d) steps ∧
      steps.sum ≤ 1090 * d.length + 16000000 := by
  have key : ∀ bs : List (List UInt8), (∀ b ∈ bs, b ≠ [] ∧ (rle1Encode b).length ≤ 900005) →
      ∃ steps : List Nat, List.Forall₂ (fun b n => ∃ bits,
        (generateBlockDataC dist Strategy.single (crc32 b) (rle1Encode b)).run = Res.ok (bits, n) ∧
        generateBlockData dist Strategy.single (crc32 b) (rle1Encode b) = Res.ok bits) bs steps ∧
      4 * steps.sum ≤ 4270 * bs.flatten.length + 64000000 * bs.length := by
    intro bs
    induction bs with
    | nil => intro _; exact ⟨[], List.Forall₂.nil, by simp⟩
    | cons b bs ih =>
      intro h
      obtain ⟨steps, i1, i2⟩ := ih fun x hx => h x (by simp [hx])
      obtain ⟨hb1, hb2⟩ := h b (by simp)
      have hl := rle1Encode_length b
      obtain ⟨bits, n, g1, g2, g3⟩ := C80_block_is_linear_simple dist (crc32 b) (rle1Encode b) (rle1Encode_ne_nil b hb1)
        (by omega)
      refine ⟨n :: steps, List.Forall₂.cons ⟨bits, g1, g2⟩ i1, ?_⟩
      simp only [List.sum_cons, List.flatten_cons, List.length_append, List.length_cons]
      omega
  obtain ⟨steps, h1, h2⟩ := key (blocksOf d) fun b hb => ⟨blocksOf_ne_nil d b hb, blocksOf_size d b hb⟩
  refine ⟨steps, h1, ?_⟩
  rw [blocksOf_flatten] at h2
  have := blocksOf_length d
  omega

/-- **C80 (block-wise strategy).** With `nc ≥ 1` tables from `it` iterations of the clustering, compressing a block of
`n` bytes of which `k` are different takes linear time, too, for every distance function. -/
theorem C80_block_is_linear_block_wise (dist : Distance) (nc it : Nat) (hnc : 1 ≤ nc) (crc : BitVec 32)
    (rle : List UInt8) (hne : rle ≠ []) (hlen : rle.length + 1 < 2 ^ 20) (k : Nat) (hk : (usedBytes rle).length = k) :
    ∃ bits steps, (generateBlockDataC dist (Strategy.blockWise nc it) crc rle).run = Res.ok (bits, steps) ∧
      generateBlockData dist (Strategy.blockWise nc it) crc rle = Res.ok bits ∧
      steps ≤ (86 + 4 * k) * rle.length + (rle.length / 50 + 2) * (4 * nc + 4)
        + it * ((rle.length / 50 + 3) * ((nc + 1) * (k + 3)))
        + nc * (110 * (k + 2) ^ 2 + 2072 * (k + 2) + 734) + 3 * (k + 2) ^ 2 + 8 * (k + 2) + 5100 := by
  obtain ⟨bits, zle, rep, s1, s2, s3, s4, steps, s5, s6⟩ := generateBlockC_runs dist (Strategy.blockWise nc it) nc
    (blockWise_workable dist nc it hnc) crc rle hne hlen _ k rfl hk
    (fun N P => (10 + k) * N + 3 * (k + 2) + 3 * (nc * (k + 2)) + P + it * ((P + 1) * ((nc + 1) * (k + 3))))
    (fun enc out he h => by have := blockWiseZle_runs dist nc it hnc k enc out h; rw [he] at this; exact this)
  refine ⟨bits, steps, s6, s4, le_trans s5 ?_⟩
  obtain ⟨hP, -⟩ := blockWise_stats dist nc it hnc rle hne zle rep s1
  have hu := usedBytes_length rep.selectors
  generalize rep.selectors.length = P at *
  generalize (usedBytes rep.selectors).length = u at *
  generalize rle.length = N at *
  have hP' : P ≤ N / 50 + 2 := by omega
  have hu2 : u * u + u ≤ 257 * nc := by
    have := Nat.mul_le_mul s3 hu
    omega
  have h1 : P * (4 * u + 3) + P ≤ (N / 50 + 2) * (4 * nc + 4) := by
    rw [show P * (4 * u + 3) + P = P * (4 * u + 4) by ring]
    exact Nat.mul_le_mul hP' (by omega)
  have h2 : it * ((P + 1) * ((nc + 1) * (k + 3))) ≤ it * ((N / 50 + 3) * ((nc + 1) * (k + 3))) :=
    Nat.mul_le_mul_left _ (Nat.mul_le_mul_right _ (by omega))
  have e1 : (86 + 4 * k) * N = 86 * N + 4 * (k * N) := by ring
  have e2 : N * (2 + 2 * k) = 2 * N + 2 * (k * N) := by ring
  have e3 : N * (k + 37) = 37 * N + k * N := by ring
  have e4 : (k + 2) ^ 2 = k * k + 4 * k + 4 := by ring
  have e6 : (10 + k) * N = 10 * N + k * N := by ring
  have e7 : nc * (110 * (k + 2) ^ 2 + 2072 * (k + 2) + 734)
      = nc * (110 * ((k + 2) * (k + 2)) + 2069 * (k + 2) + 477) + 3 * (nc * (k + 2)) + 257 * nc := by ring
  rw [e7, e1, e2, e3, e4, e6]
  omega

/-- Counted runs: the block "banana" takes 11848 steps with one table (the bound is 32995), and 11907 with two tables
and three iterations. -/
example : ((generateBlockDataC (fun _ _ => 0) Strategy.single 0 [98, 97, 110, 97, 110, 97]).run >>= fun r => Res.ok r.2)
      = Res.ok 11848 ∧
    ((generateBlockDataC (fun _ _ => 0) (Strategy.blockWise 2 3) 0 [98, 97, 110, 97, 110, 97]).run >>=
      fun r => Res.ok r.2) = Res.ok 11907 := by
  decide +kernel

end Ribzip2
