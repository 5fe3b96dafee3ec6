import Verif.Proofs.WordEncode
/- A block, and a stream, is compressed alike on all machines with at least 32 bits. -/
namespace Ribzip2.Word
open Spec

theorem emitBlock_ok (bits : ℕ) (hb : 32 ≤ bits) (crc : BitVec 32) (ptr : ℕ) (used : List UInt8) (zle : List ZleSymbol)
    (r : ReportedSymbols) (h : ∀ f ∈ r.frequencies, 2 ≤ f.length ∧ f.length ≤ 257 ∧ f.sum ≤ 200000000) :
    emitBlock bits crc ptr used zle r = Ribzip2.emitBlock crc ptr used zle r := by
  unfold emitBlock Ribzip2.emitBlock
  rw [codeTables_ok bits hb _ h]

/-- The strategies of a machine with 32 bits: the product `k * data.len()` of the clustering has to fit. -/
def FewClusters : Strategy → Prop
  | Strategy.single => True
  | Strategy.blockWise numClusters _ => numClusters ≤ 2 ^ 17

theorem generateBlockData_ok (bits : ℕ) (hb : 32 ≤ bits) (strategy : Strategy) (hs : FewClusters strategy)
    (crc : BitVec 32) (rle : List UInt8) (hne : rle ≠ []) (hlen : rle.length + 1 < 2 ^ 20) :
    generateBlockData bits strategy crc rle = Ribzip2.generateBlockData euclid strategy crc rle := by
  have h32 : 2 ^ 32 ≤ 2 ^ bits := Nat.pow_le_pow_right (by omega) hb
  obtain ⟨last, ptr, b1, b2, b3⟩ := C30_bwt_never_fails rle hne
  obtain ⟨enc, m1, m2, m3, m4⟩ := mtf_spec last
  have hlast : last.length = rle.length := b2.length_eq
  have hlne : last ≠ [] := by intro h; rw [h] at hlast; exact hne (List.length_eq_zero_iff.1 hlast.symm)
  have hun : 1 ≤ (usedBytes last).length := by
    obtain ⟨x, hx⟩ := List.exists_mem_of_ne_nil last hlne
    exact List.length_pos_of_mem (mem_usedBytes.2 hx)
  have hun2 := usedBytes_length last
  generalize hused : usedBytes last = used at *
  have hz := zleEncode_symOk _ hun enc m4
  have hsym : ∀ s ∈ zleEncode 0 enc ++ [ZleSymbol.runA], symbolIndex s ≤ used.length := by
    intro s hs
    rcases List.mem_append.1 hs with hs | hs
    · exact (hz s hs).1
    · simp at hs; subst hs; simp [symbolIndex]
  have hzl := zleEncode_length 0 enc
  simp only [generateBlockData, Ribzip2.generateBlockData, b1, Res.ok_bind, m1]
  cases strategy with
  | single =>
    simp only [zleWithStrategy, Ribzip2.zleWithStrategy]
    rw [zleTransform_ok _ _ _ _ (by omega), zleTransform_eq, zleTransform_eq]
    obtain ⟨g1, g2⟩ := single_all bits (zleEncode 0 enc ++ [ZleSymbol.runA]) (SingleMap.create used.length)
      (by simp [SingleMap.create]) (by simp [SingleMap.create]; omega)
    rw [g1, reportAll_congr ⟨SingleMap.report, SingleMap.finalize32⟩ singleReporter rfl]
    rw [reportAll_congr ⟨SingleMap.report, SingleMap.finalize32⟩ singleReporter rfl] at g2
    obtain ⟨s, r1, r2, r3⟩ := single_reportAll used.length _ hsym (SingleMap.create used.length) (by simp [SingleMap.create])
    obtain ⟨k1, k2⟩ := g2 s r1
    have hcount : s.symbolCount ≤ 2 ^ 20 := by
      rw [k2]; simp [SingleMap.create]; omega
    rw [r1, Res.ok_bind, Res.ok_bind]
    simp only [singleReporter]
    rw [singleFinalize_ok bits hb s hcount]
    unfold SingleMap.finalize
    simp only [Res.ok_bind]
    apply emitBlock_ok bits hb
    intro f hf
    have : f = s.frequencies := by simpa using hf
    subst this
    omega
  | blockWise nc it =>
    simp only [zleWithStrategy, Ribzip2.zleWithStrategy]
    rw [zleTransform_ok _ _ _ _ (by omega), zleTransform_eq, zleTransform_eq]
    rw [blockWise_all bits hb _ (BlockWiseMap.finalize euclid nc it) _ _ (by simp [BlockWiseMap.create])]
    change (reportAll (blockWiseReporter euclid nc it) _ _ >>= _) >>= _ = _
    obtain ⟨m, h1, h2⟩ := blockWise_reportAll euclid nc it used.length 0 (zleEncode 0 enc ++ [ZleSymbol.runA]) hsym
      (BlockWiseMap.create used.length) (BlockWiseMap.ok_create used.length)
    have hcnt := counts_reportAll euclid nc it used.length _ hsym [] _ m (BlockWiseMap.counts_create _) h1
    rw [List.nil_append] at hcnt
    have hdat := counts_data _ _ _ hcnt
    rw [List.map_append, List.map_singleton, show symbolIndex ZleSymbol.runA = 0 from rfl] at hdat
    obtain ⟨gl, gf⟩ := groupCounts_facts (used.length + 1) ((zleEncode 0 enc).map symbolIndex ++ [0])
    rw [List.length_append, List.length_map, List.length_singleton] at gl
    rw [h1, Res.ok_bind, Res.ok_bind]
    simp only [blockWiseReporter, blockWiseFinalize, BlockWiseMap.finalize, h2.size, hdat]
    generalize groupCounts (used.length + 1) ((zleEncode 0 enc).map symbolIndex ++ [0]) = data at *
    obtain ⟨k1, k2⟩ := kmeansSolve_ok bits hb (used.length + 1) nc it data gf (by omega) (by omega) hs
    rw [k1]
    cases hr : Ribzip2.kmeansSolve euclid (used.length + 1) data it nc with
    | ok r =>
      obtain ⟨means, sel⟩ := r
      simp only [Res.ok_bind, Res.pure_eq]
      apply emitBlock_ok bits hb
      intro f hf
      have hl : f.length = used.length + 1 := by
        by_cases hnc : nc = 0
        · subst hnc
          simp only [Ribzip2.kmeansSolve, Ribzip2.initialCenters, Res.ok_bind] at hr
          obtain ⟨⟨o, a⟩, e1, e2⟩ := bind_eq_ok hr
          have hdim := lloyd_dims (used.length + 1) 0 data (fun p hp => (gf p hp).1) it [] rfl (by simp) _ o a e1
          simp only [Res.pure_eq, Res.ok.injEq, Prod.mk.injEq] at e2
          rw [← e2.1] at hf
          obtain ⟨c, hc, rfl⟩ := List.mem_map.1 hf
          rw [List.length_map, hdim c hc]
        · have hdne : data ≠ [] := by intro e; rw [e] at gl; simp at gl
          obtain ⟨means', sel', j1, j2, j3, -⟩ := Ribzip2.kmeansSolve_ok euclid (used.length + 1) nc it (by omega) data hdne
            (fun p hp => (gf p hp).1)
          rw [hr, Res.ok.injEq, Prod.mk.injEq] at j1
          obtain ⟨rfl, rfl⟩ := j1
          exact j3 f hf
      have hsum := sum_le_mul f 640000 (k2 _ _ hr f hf)
      rw [hl] at hsum
      have : (used.length + 1) * 640000 ≤ 257 * 640000 := Nat.mul_le_mul_right _ (by omega)
      omega
    | err => rfl
    | panic => rfl
    | div => rfl

theorem encodeStreamFuel_ok (bits : ℕ) (hb : 32 ≤ bits) (fuel : ℕ) (r : Reader) (w : Writer) (t : ℕ) (strategy : Strategy)
    (hs : FewClusters strategy) :
    encodeStreamFuel bits fuel r w t strategy = Ribzip2.encodeStreamFuel fuel euclid r w t strategy := by
  unfold encodeStreamFuel Ribzip2.encodeStreamFuel
  have h := fun es bw => mainLoop_congr (fun work => generateBlockData bits strategy work.crc work.rleTotal)
    (fun work => Ribzip2.generateBlockData euclid strategy work.crc work.rleTotal)
    (fun b hb' hs' => generateBlockData_ok bits hb strategy hs _ (rle1Encode b) (by
      intro hc
      have := rle1Encode_ne_nil b hb'
      exact this hc) (by omega)) r.failTail t fuel es false bw 0
  simp only [h]

end Ribzip2.Word
