import Verif.Proofs.KMeansMeans
import Verif.Proofs.NearOptimal
import Verif.Proofs.Options
/- The blocks written with the block-wise strategy are tuned by Lloyd's algorithm. -/
namespace Ribzip2
open Spec

def countsOf (n : ℕ) (g : List ℕ) : List ℕ := (List.range n).map fun s => g.count s

theorem countsOf_snoc (n : ℕ) (g : List ℕ) (s : ℕ) (hs : s < n) :
    (countsOf n g).set s ((countsOf n g)[s]'(by simpa [countsOf] using hs) + 1) = countsOf n (g ++ [s]) := by
  apply List.ext_getElem (by simp [countsOf])
  intro i h1 h2
  rw [List.getElem_set]
  split
  · rename_i h; subst h; simp [countsOf]
  · rename_i h; simp [countsOf, List.count_append, List.count_singleton, h]

/-- What the block-wise statistics hold after the symbols `syms`. -/
def BlockWiseMap.Counts (n : ℕ) (syms : List ℕ) (s : BlockWiseMap) : Prop :=
  ∃ (chunks : List (List ℕ)) (cur : List ℕ), (∀ c ∈ chunks, c.length = 50) ∧ cur.length = s.counter ∧ s.counter < 50 ∧
    s.maps = chunks.map (countsOf (n + 1)) ∧ s.current = countsOf (n + 1) cur ∧ chunks.flatten ++ cur = syms ∧ s.size = n

theorem BlockWiseMap.counts_create (n : ℕ) : (BlockWiseMap.create n).Counts n [] := by
  refine ⟨[], [], by simp, rfl, by simp [create], rfl, ?_, rfl, rfl⟩
  simp only [create, countsOf, List.count_nil]
  simp

theorem BlockWiseMap.counts_report (n : ℕ) (syms : List ℕ) (s s' : BlockWiseMap) (h : s.Counts n syms) (sym : ZleSymbol)
    (hs : symbolIndex sym ≤ n) (hr : s.report sym = Res.ok s') : s'.Counts n (syms ++ [symbolIndex sym]) := by
  obtain ⟨chunks, cur, h1, h2, h3, h4, h5, h6, h7⟩ := h
  have hlt : symbolIndex sym < (countsOf (n + 1) cur).length := by simp [countsOf]; omega
  have hle : (countsOf (n + 1) cur)[symbolIndex sym] ≤ cur.length := by
    simp only [countsOf, List.getElem_map]
    exact List.count_le_length
  simp only [report, h5, idx, List.getElem?_eq_getElem hlt, Res.ofOption_some, Res.ok_bind,
    if_pos (show (countsOf (n + 1) cur)[symbolIndex sym] + 1 < 256 by omega), setIdx, if_pos hlt,
    countsOf_snoc (n + 1) cur (symbolIndex sym) (by omega)] at hr
  split at hr
  · simp only [Res.pure_eq, Res.ok.injEq] at hr
    subst hr
    refine ⟨chunks ++ [cur ++ [symbolIndex sym]], [], ?_, rfl, by simp, by simp [h4], ?_, by simp [← h6], h7⟩
    · intro c hc
      rcases List.mem_append.1 hc with hc | hc
      · exact h1 c hc
      · rw [List.mem_singleton.1 hc]; simp; omega
    · simp only [h7, countsOf, List.count_nil]; simp
  · simp only [Res.pure_eq, Res.ok.injEq] at hr
    subst hr
    exact ⟨chunks, cur ++ [symbolIndex sym], h1, by simp [h2], by simp only; omega, h4, rfl, by simp [← h6], h7⟩

theorem counts_reportAll (dist : Distance) (nc it n : ℕ) (syms : List ZleSymbol) (hs : ∀ s ∈ syms, symbolIndex s ≤ n)
    (pre : List ℕ) (m m' : BlockWiseMap) (hm : m.Counts n pre)
    (h : reportAll (blockWiseReporter dist nc it) m syms = Res.ok m') : m'.Counts n (pre ++ syms.map symbolIndex) := by
  induction syms generalizing m pre with
  | nil =>
    simp only [reportAll, Res.ok.injEq] at h
    subst h
    simpa using hm
  | cons s syms ih =>
    rw [reportAll] at h
    obtain ⟨m1, k1, k2⟩ := bind_eq_ok h
    have := ih (fun x hx => hs x (by simp [hx])) _ m1
      (BlockWiseMap.counts_report n pre m m1 hm s (hs s (by simp)) k1) k2
    simpa using this

theorem groupsOf50_chunks {α : Type} (chunks : List (List α)) (cur : List α) (h : ∀ c ∈ chunks, c.length = 50)
    (hc : cur.length < 50) : groupsOf50 (chunks.flatten ++ cur) = chunks ++ [cur] := by
  induction chunks with
  | nil =>
    rw [groupsOf50, if_neg (by simp; omega)]
    simp
  | cons c chunks ih =>
    have hl := h c (by simp)
    rw [groupsOf50, if_pos (by simp; omega)]
    simp only [List.flatten_cons, List.append_assoc, List.cons_append]
    rw [List.take_append_of_le_length (by omega), List.take_of_length_le (by omega), List.drop_append_of_le_length (by omega),
      List.drop_of_length_le (by omega), List.nil_append, ih (fun x hx => h x (by simp [hx]))]

theorem counts_data (n : ℕ) (syms : List ℕ) (m : BlockWiseMap) (h : m.Counts n syms) :
    m.maps ++ [m.current] = groupCounts (n + 1) syms := by
  obtain ⟨chunks, cur, h1, h2, h3, h4, h5, h6, -⟩ := h
  rw [h4, h5, ← h6, groupCounts, groupsOf50_chunks chunks cur h1 (by omega), List.map_append]
  rfl

theorem groupsOf50_length {α : Type} (l : List α) : (groupsOf50 l).length = l.length / 50 + 1 := by
  induction hn : l.length using Nat.strongRecOn generalizing l with
  | ind n ih =>
    rw [groupsOf50]
    split
    · rw [List.length_cons, ih (l.drop 50).length (by simp; omega) _ rfl, List.length_drop]
      omega
    · simp; omega

theorem groupCounts_facts (n : ℕ) (syms : List ℕ) :
    (groupCounts n syms).length = syms.length / 50 + 1 ∧
    ∀ p ∈ groupCounts n syms, p.length = n ∧ ∀ y ∈ p, y ≤ 50 := by
  refine ⟨by rw [groupCounts, List.length_map, groupsOf50_length], ?_⟩
  have hg : ∀ (l : List ℕ), ∀ g ∈ groupsOf50 l, g.length ≤ 50 := by
    intro l
    induction hn : l.length using Nat.strongRecOn generalizing l with
    | ind n ih =>
      rw [groupsOf50]
      split
      · intro g hg
        rcases List.mem_cons.1 hg with rfl | hg
        · simp
        · exact ih (l.drop 50).length (by simp; omega) _ rfl g hg
      · intro g hg
        rw [List.mem_singleton.1 hg]
        omega
  intro p hp
  obtain ⟨g, hg', rfl⟩ := List.mem_map.1 hp
  refine ⟨by simp, ?_⟩
  intro y hy
  obtain ⟨s, -, rfl⟩ := List.mem_map.1 hy
  exact List.count_le_length.trans (hg _ g hg')

/-- The centres stay within the range of the data. -/
theorem meanAt_le (P : List (List ℕ)) (i b : ℕ) (h : ∀ p ∈ P, ∀ y ∈ p, y ≤ b) : meanAt P i ≤ b := by
  unfold meanAt
  cases P with
  | nil => simp
  | cons a P =>
    have hpos : (0 : ℚ) < ((a :: P).length : ℕ) := by simp; positivity
    rw [div_le_iff₀ hpos]
    have key : ∀ P : List (List ℕ), (∀ p ∈ P, ∀ y ∈ p, y ≤ b) → (P.map fun p => p.getD i 0).sum ≤ b * P.length := by
      intro P
      induction P with
      | nil => intro _; simp
      | cons p P ih =>
        intro h
        have h1 := ih fun q hq => h q (by simp [hq])
        have h2 : p.getD i 0 ≤ b := by
          rw [List.getD_eq_getElem?_getD]
          by_cases hi : i < p.length
          · rw [List.getElem?_eq_getElem hi]; exact h p (by simp) _ (List.getElem_mem hi)
          · rw [List.getElem?_eq_none (by omega)]; simp
        rw [List.map_cons, List.sum_cons, List.length_cons, Nat.mul_add]
        omega
    exact_mod_cast key _ h

theorem lloyd_last {ε δ : ℚ} {d nc : ℕ} {data : List (List ℕ)} {start : List (List ℚ)} {n : ℕ} {c : List (List ℚ)}
    {a : List ℕ} (h : Lloyd ε δ d nc data start n c a) : MeansUpTo δ d nc data a c := by
  cases h <;> assumption

theorem kmeansSolve_lloyd (d nc it : ℕ) (hnc : 1 ≤ nc) (h256 : nc ≤ 256) (hd : d ≤ 400) (hit : 1 ≤ it)
    (data : List (List ℕ)) (hne : data ≠ []) (hdata : ∀ p ∈ data, p.length = d ∧ ∀ y ∈ p, y ≤ 50) (hlen : data.length ≤ 25000)
    (means : List (List ℕ)) (sel : List UInt8) (h : kmeansSolve euclid d data it nc = Res.ok (means, sel)) :
    ∃ centres, Lloyd (1 / 10000) (1 / 100) d nc data (startPoints nc data) it centres (sel.map UInt8.toNat) ∧
      List.Forall₂ (List.Forall₂ fun (x : ℚ) (f : ℕ) => |(f : ℚ) - 10000 * x| ≤ 2) centres means := by
  have hdata' : ∀ p ∈ data, p.length = d ∧ ∀ y ∈ p, y < 2 ^ 24 := fun p hp =>
    ⟨(hdata p hp).1, fun y hy => by have := (hdata p hp).2 y hy; omega⟩
  have hinit := initialCenters_eq data nc hne (fun p hp => (hdata' p hp).2) nc (Nat.le_refl _)
  obtain ⟨c0, i1, i2, i3⟩ := initialCenters_ok data d nc (fun p hp => (hdata p hp).1) hne nc (Nat.le_refl _)
  have hc0 : c0 = startPoints nc data := by
    rw [hinit, Res.ok.injEq] at i1
    exact i1.symm
  subst hc0
  unfold kmeansSolve at h
  rw [i1, Res.ok_bind] at h
  obtain ⟨⟨c, a⟩, k1, k2⟩ := bind_eq_ok h
  simp only [Res.pure_eq, Res.ok.injEq, Prod.mk.injEq] at k2
  obtain ⟨rfl, rfl⟩ := k2
  have hL := lloyd_rounds d nc hnc h256 hd data hdata' hlen (startPoints nc data) it 0 _ i2 i3 _ (Or.inl ⟨rfl, rfl⟩) c a k1
    (by omega)
  rw [Nat.zero_add] at hL
  refine ⟨c, hL, ?_⟩
  have hm := (lloyd_last hL).2
  rw [List.forall₂_map_right_iff, List.forall₂_same]
  intro x hx
  rw [List.forall₂_map_right_iff, List.forall₂_same]
  intro y hy
  obtain ⟨j, hj, rfl⟩ := List.getElem_of_mem hx
  obtain ⟨i, hi, rfl⟩ := List.getElem_of_mem hy
  have h1 := (hm j _ (List.getElem?_eq_getElem hj)).2 i _ (List.getElem?_eq_getElem hi)
  have h2 := meanAt_nonneg (cluster data (a.map UInt8.toNat) j) i
  have h3 := meanAt_le (cluster data (a.map UInt8.toNat) j) i 50 (by
    intro p hp y hy
    obtain ⟨z, hz, rfl⟩ := List.mem_map.1 hp
    exact (hdata _ (List.of_mem_zip (List.mem_of_mem_filter hz)).1).2 y hy)
  rw [abs_le] at h1
  push_cast at h3
  exact table_close _ (by linarith) (by linarith)

theorem body_tuned (nc it : ℕ) (hnc : 1 ≤ nc) (h7 : nc < 8) (hit : 1 ≤ it) :
    BodyHas euclid (Strategy.blockWise nc it) (TunedBody nc it) := by
  intro crc rle hne hlen
  obtain ⟨last, ptr, b1, b2, b3⟩ := C30_bwt_never_fails rle hne
  obtain ⟨enc, m1, m2, m3, m4⟩ := mtf_spec last
  have hlast : last.length = rle.length := b2.length_eq
  have hlne : last ≠ [] := by intro h; rw [h] at hlast; exact hne (List.length_eq_zero_iff.1 hlast.symm)
  have hun : 1 ≤ (usedBytes last).length := by
    obtain ⟨x, hx⟩ := List.exists_mem_of_ne_nil last hlne
    exact List.length_pos_of_mem (mem_usedBytes.2 hx)
  have hun2 := usedBytes_length last
  generalize hused : usedBytes last = used at *
  have hz := zleEncode_symOk _ hun enc m4
  have hsym : ∀ s ∈ zleEncode 0 enc ++ [ZleSymbol.runA], symbolIndex s ≤ used.length := by
    intro s hs
    rcases List.mem_append.1 hs with hs | hs
    · exact (hz s hs).1
    · simp at hs; subst hs; simp [symbolIndex]
  obtain ⟨m, h1, h2⟩ := blockWise_reportAll euclid nc it used.length 0 (zleEncode 0 enc ++ [ZleSymbol.runA]) hsym
    (BlockWiseMap.create used.length) (BlockWiseMap.ok_create used.length)
  have hcnt := counts_reportAll euclid nc it used.length _ hsym [] _ m (BlockWiseMap.counts_create _) h1
  rw [List.nil_append] at hcnt
  have hdat := counts_data _ _ _ hcnt
  rw [List.map_append, List.map_singleton, show symbolIndex ZleSymbol.runA = 0 from rfl] at hdat
  obtain ⟨gl, gf⟩ := groupCounts_facts (used.length + 1) ((zleEncode 0 enc).map symbolIndex ++ [0])
  have hzl := zleEncode_length 0 enc
  rw [List.length_append, List.length_map, List.length_singleton] at gl
  obtain ⟨means, sel, k1, k2, k3, k4, k5, k6⟩ := kmeansSolve_ok euclid (used.length + 1) nc it hnc
    (groupCounts (used.length + 1) ((zleEncode 0 enc).map symbolIndex ++ [0]))
    (by intro e; rw [e] at gl; simp at gl) (fun p hp => (gf p hp).1)
  obtain ⟨centres, hL, hM⟩ := kmeansSolve_lloyd (used.length + 1) nc it hnc (by omega) (by omega) hit _
    (by intro e; rw [e] at gl; simp at gl) gf (by omega) means sel k1
  have hst : zleWithStrategy euclid (Strategy.blockWise nc it) enc used.length = Res.ok (zleEncode 0 enc, ⟨means, sel⟩) := by
    simp only [zleWithStrategy, zleTransform_eq, h1, Res.ok_bind]
    simp only [blockWiseReporter, BlockWiseMap.finalize, h2.size, hdat, k1]
    rfl
  obtain ⟨tables, pos, t1, t2, t3⟩ := emitBlock_ok crc ptr used (zleEncode 0 enc) ⟨means, sel⟩ hun
    hun2 k3 (by simp only [k2]; exact k5) (by simp only [k4, gl]; omega) (by simp only [k4, gl]; omega) hz
  have hnear := tablesMade_near used.length hun hun2 means tables k3 t1
  refine ⟨_, by simp only [generateBlockData, b1, Res.ok_bind, m1, hused, hst]; exact t3,
    ⟨rle, last, ptr, used, (zleEncode 0 enc).map symbolIndex, tables, tables.map fun ls => encodeCodeTable (canonTable ls),
      sel.map UInt8.toNat, (pos.map UInt8.toNat).flatMap unary⟩, ⟨?_, ?_, ?_, ?_, ?_, ?_⟩, ?_⟩
  · rw [← hused]; exact usedBytes_pairwise last
  · intro s hs
    obtain ⟨z, hz', rfl⟩ := List.mem_map.1 hs
    have := (hz z hz').1
    simp only [BlockParts.eob]
    omega
  · exact tables_transmitted used.length tables t1.lengths
  · exact fun ls hls => ⟨(t1.lengths ls hls).1, (t1.lengths ls hls).2.1⟩
  · refine ⟨pos.map UInt8.toNat, ?_, rfl⟩
    have := mtfDecode_length _ _ _ t2
    simp only [List.length_map] at this ⊢
    exact this.symm
  · refine ⟨centres, hL, ?_⟩
    clear hL
    have hM' := hM
    clear * - hM' hnear
    induction hM' generalizing tables with
    | nil => cases hnear; exact List.Forall₂.nil
    | cons a _ ih =>
      cases hnear with
      | cons b hb => exact List.Forall₂.cons ⟨_, a, b⟩ (ih _ hb)
  · have hc := t1.count
    simp only [BlockParts.body, BlockParts.eob, List.length_map, hc]
    rw [convertToCodePadToNBits_eq means.length 3 (by omega)]

end Ribzip2
