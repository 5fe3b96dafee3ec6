import Verif.Proofs.PackageMerge
import Verif.Proofs.Codes
import Verif.Model.Stats
namespace Ribzip2
open Spec

/-! ### Breaking ties -/

theorem breakTies_map_snd (last : Option Nat) (l : List (Nat × HSym)) :
    (breakTies last l).map Prod.snd = l.map Prod.snd := by
  induction l generalizing last with
  | nil => cases last <;> rfl
  | cons x l ih =>
    obtain ⟨f, s⟩ := x
    cases last <;> simp [breakTies, ih]

/-- The adjusted frequencies as numbers. -/
def bump : Option Nat → List Nat → List Nat
  | _, [] => []
  | none, f :: fs => f :: bump (some f) fs
  | some last, f :: fs => max f (last + 1) :: bump (some (max f (last + 1))) fs

theorem breakTies_map_fst (last : Option Nat) (l : List (Nat × HSym)) :
    (breakTies last l).map Prod.fst = bump last (l.map Prod.fst) := by
  induction l generalizing last with
  | nil => cases last <;> rfl
  | cons x l ih =>
    obtain ⟨f, s⟩ := x
    cases last with
    | none => simp [breakTies, bump, ih]
    | some last =>
      simp only [breakTies, bump, List.map_cons, ih]
      have : (if last ≥ f then f + (last - f + 1) else f) = max f (last + 1) := by
        split <;> omega
      rw [this]

theorem bump_length (last : Option Nat) (fs : List Nat) : (bump last fs).length = fs.length := by
  induction fs generalizing last with
  | nil => cases last <;> rfl
  | cons f fs ih => cases last <;> simp [bump, ih]

theorem bump_gt (last : Nat) (fs : List Nat) : ∀ x ∈ bump (some last) fs, last < x := by
  induction fs generalizing last with
  | nil => simp [bump]
  | cons f fs ih =>
    intro x hx
    simp only [bump] at hx
    rcases List.mem_cons.1 hx with rfl | hx
    · omega
    · have := ih _ x hx; omega

theorem bump_strict (last : Option Nat) (fs : List Nat) : (bump last fs).Pairwise (· < ·) := by
  induction fs generalizing last with
  | nil => cases last <;> exact List.Pairwise.nil
  | cons f fs ih =>
    cases last with
    | none => exact List.pairwise_cons.2 ⟨bump_gt _ _, ih _⟩
    | some last => exact List.pairwise_cons.2 ⟨bump_gt _ _, ih _⟩

theorem bump_ge (last : Option Nat) (fs : List Nat) : List.Forall₂ (· ≤ ·) fs (bump last fs) := by
  induction fs generalizing last with
  | nil => cases last <;> exact List.Forall₂.nil
  | cons f fs ih =>
    cases last with
    | none => exact List.Forall₂.cons (Nat.le_refl _) (ih _)
    | some last => exact List.Forall₂.cons (Nat.le_max_left _ _) (ih _)

theorem bump_least (last : Option Nat) (fs vs : List Nat) (h : List.Forall₂ (· ≤ ·) fs vs)
    (hv : vs.Pairwise (· < ·)) (hl : ∀ l ∈ last, ∀ v ∈ vs, l < v) :
    List.Forall₂ (· ≤ ·) (bump last fs) vs := by
  induction fs generalizing last vs with
  | nil => cases h; cases last <;> exact List.Forall₂.nil
  | cons f fs ih =>
    cases h with
    | cons h1 h2 =>
      rename_i v vs
      rw [List.pairwise_cons] at hv
      cases last with
      | none =>
        refine List.Forall₂.cons h1 (ih (some f) vs h2 hv.2 ?_)
        intro l hl' w hw
        simp only [Option.mem_def, Option.some.injEq] at hl'
        have := hv.1 w hw; omega
      | some last =>
        have h3 := hl last rfl v (by simp)
        refine List.Forall₂.cons (by omega) (ih (some _) vs h2 hv.2 ?_)
        intro l hl' w hw
        simp only [Option.mem_def, Option.some.injEq] at hl'
        have := hv.1 w hw; omega

/-! ### The frequency table -/

/-- Frequency of a symbol: the end-of-block symbol counts 0. -/
def freqOf (freqs : List Nat) : HSym → Nat
  | HSym.eob => 0
  | HSym.normal s => freqs.getD (symbolIndex s) 0

theorem symbolIndex_symbolOfIndex (i : Nat) (h : i ≤ 256) : symbolIndex (symbolOfIndex i) = i := by
  match i with
  | 0 => rfl
  | 1 => rfl
  | i + 2 =>
    simp only [symbolOfIndex, symbolIndex]
    rw [UInt8.toNat_ofNat_of_lt' (show i + 2 - 1 < 256 by omega)]
    omega

/-- The table before sorting. -/
def rawTable (freqs : List Nat) : List (Nat × HSym) :=
  freqs.zipIdx.map (fun p => (p.1, HSym.normal (symbolOfIndex p.2))) ++ [(0, HSym.eob)]

theorem rawTable_eq (freqs : List Nat) (h : freqs.length ≤ 257) :
    rawTable freqs = (List.range (freqs.length + 1)).map fun i =>
      (freqOf freqs (symbolAt (freqs.length + 1) i), symbolAt (freqs.length + 1) i) := by
  unfold rawTable
  rw [List.range_succ, List.map_append]
  congr 1
  · apply List.ext_getElem (by simp)
    intro i hi _
    have hi : i < freqs.length := by simpa using hi
    simp only [List.getElem_map, List.getElem_zipIdx, List.getElem_range, symbolAt]
    rw [if_neg (by omega)]
    simp only [freqOf, Nat.zero_add]
    rw [symbolIndex_symbolOfIndex i (by omega)]
    simp [hi]
  · simp [symbolAt, freqOf]

theorem exists_perm_map {α β : Type} (f : α → β) (T : List α) (M : List β) (h : (T.map f).Perm M) :
    ∃ T', T.Perm T' ∧ T'.map f = M := by
  generalize hN : T.map f = N at h
  induction h generalizing T with
  | nil => exact ⟨[], by rw [List.map_eq_nil_iff] at hN; rw [hN], rfl⟩
  | cons x _ ih =>
    cases T with
    | nil => simp at hN
    | cons a T =>
      simp only [List.map_cons, List.cons.injEq] at hN
      obtain ⟨T', h1, h2⟩ := ih T hN.2
      exact ⟨a :: T', h1.cons a, by simp [h2, hN.1]⟩
  | swap x y l =>
    match T, hN with
    | a :: b :: T, hN =>
      simp only [List.map_cons, List.cons.injEq] at hN
      exact ⟨b :: a :: T, List.Perm.swap _ _ _, by simp [hN.1, hN.2.1, hN.2.2]⟩
  | trans _ _ ih1 ih2 =>
    obtain ⟨T1, h1, h2⟩ := ih1 T hN
    obtain ⟨T2, h3, h4⟩ := ih2 T1 h2
    exact ⟨T2, h1.trans h3, h4⟩

/-- A table with every symbol once is the table of some lengths. -/
theorem exists_entriesOf (n : Nat) (T : List CodeTableEntry)
    (h : (T.map CodeTableEntry.symbol).Perm ((List.range n).map (symbolAt n))) :
    ∃ ls : List Nat, ls.length = n ∧ T.Perm (entriesOf ls) ∧ ls.Perm (T.map CodeTableEntry.code) := by
  obtain ⟨T', h1, h2⟩ := exists_perm_map _ T _ h
  have hlen : T'.length = n := by
    have := congrArg List.length h2; simpa using this
  refine ⟨T'.map CodeTableEntry.code, by simpa using hlen, ?_, (h1.map _).symm⟩
  have : entriesOf (T'.map CodeTableEntry.code) = T' := by
    unfold entriesOf
    apply List.ext_getElem (by simp)
    intro i hi hi'
    have e := congrArg (fun l => l[i]?) h2
    simp only [List.getElem?_map, List.getElem?_range (show i < n by omega),
      List.getElem?_eq_getElem hi', Option.map_some, Option.some.injEq] at e
    simp only [List.getElem_map, List.getElem_range, len, List.length_map, hlen, ← e]
    simp [hi']
  rw [this]
  exact h1

theorem kraft_perm {L : Nat} {a b : List Nat} (h : a.Perm b) : kraft L a = kraft L b := by
  unfold kraft
  exact (h.map _).sum_eq

/-- Everything about `compute_huffman`. -/
theorem computeHuffman_spec (freqs : List Nat) (h1 : 1 ≤ freqs.length) (h2 : freqs.length ≤ 257) :
    ∃ T ws, computeHuffman freqs = Res.ok T ∧
      (T.map CodeTableEntry.symbol).Perm ((List.range (freqs.length + 1)).map (symbolAt (freqs.length + 1))) ∧
      ws = bump none (T.map fun e => freqOf freqs e.symbol) ∧
      (T.map fun e => freqOf freqs e.symbol).Pairwise (· ≤ ·) ∧
      KraftEq 17 (T.map CodeTableEntry.code) ∧
      ∀ ls : List Nat, ls.length = T.length → KraftLe 17 ls →
        weightedLength ws (T.map CodeTableEntry.code) ≤ weightedLength ws ls := by
  have hraw := rawTable_eq freqs h2
  have hperm : (sortedFrequencies freqs).Perm (rawTable freqs) := stableSort_perm _ _
  have hlen : (sortedFrequencies freqs).length = freqs.length + 1 := by
    rw [hperm.length_eq, hraw]; simp
  have hsorted : ((sortedFrequencies freqs).map Prod.fst).Pairwise (· ≤ ·) := by
    rw [List.pairwise_map]
    refine (stableSort_sorted _ ?_ ?_ _).imp (by simp)
    · intro a b; simp only [decide_eq_true_eq]; omega
    · intro a b c; simp only [decide_eq_true_eq]; omega
  generalize hS : sortedFrequencies freqs = S at hperm hlen hsorted
  have hfreq : ∀ x ∈ S, freqOf freqs x.2 = x.1 := by
    intro x hx
    have := hperm.mem_iff.1 hx
    rw [hraw] at this
    obtain ⟨i, _, rfl⟩ := List.mem_map.1 this
    rfl
  have hws : (breakTies none S).map Prod.fst = bump none (S.map Prod.fst) := breakTies_map_fst _ _
  obtain ⟨cs, g1, g2, g3, g4, g5, g6⟩ := computeLis_spec (bump none (S.map Prod.fst)) (bump_strict _ _)
    (by
      intro e
      have := congrArg List.length e
      rw [bump_length, List.length_map, hlen] at this
      simp at this) 17 (by omega) (by rw [bump_length, List.length_map, hlen]; omega)
  have hwl : (bump none (S.map Prod.fst)).length = freqs.length + 1 := by
    rw [bump_length, List.length_map, hlen]
  have hbl : (breakTies none S).length = freqs.length + 1 := by
    have := congrArg List.length (breakTies_map_snd none S)
    simpa [hlen] using this
  rw [hwl] at g3 g4 g5 g6
  generalize hlis : (List.range (freqs.length + 1)).map (fun i => cs.countP (i < ·)) = lis at g5
  have hlisl : lis.length = freqs.length + 1 := by rw [← hlis]; simp
  have hcode : (((lis.zip (breakTies none S)).map fun p => (⟨p.1, p.2.2⟩ : CodeTableEntry)).map
      CodeTableEntry.code) = lis := by
    rw [List.map_map]
    exact List.map_fst_zip (by omega)
  have hsym : (((lis.zip (breakTies none S)).map fun p => (⟨p.1, p.2.2⟩ : CodeTableEntry)).map
      CodeTableEntry.symbol) = S.map Prod.snd := by
    rw [← breakTies_map_snd none S, List.map_map]
    have : (CodeTableEntry.symbol ∘ fun p : Nat × Nat × HSym => (⟨p.1, p.2.2⟩ : CodeTableEntry)) =
        Prod.snd ∘ Prod.snd := rfl
    rw [this, ← List.map_map, List.map_snd_zip (by omega)]
  have hfr : (((lis.zip (breakTies none S)).map fun p => (⟨p.1, p.2.2⟩ : CodeTableEntry)).map
      fun e => freqOf freqs e.symbol) = S.map Prod.fst := by
    have : (fun e : CodeTableEntry => freqOf freqs e.symbol) = freqOf freqs ∘ CodeTableEntry.symbol := rfl
    rw [this, ← List.map_map, hsym, List.map_map]
    exact List.map_congr_left hfreq
  refine ⟨(lis.zip (breakTies none S)).map fun p => ⟨p.1, p.2.2⟩, bump none (S.map Prod.fst), ?_, ?_, ?_, ?_, ?_, ?_⟩
  · unfold computeHuffman
    simp only [hS]
    have : List.map (fun x => x.1) (breakTies none S) = bump none (S.map Prod.fst) := hws
    rw [this, g5]
    rfl
  · rw [hsym]
    have := hperm.map Prod.snd
    rw [hraw, List.map_map] at this
    exact this
  · rw [hfr]
  · rw [hfr]; exact hsorted
  · rw [hcode]
    constructor
    · intro l hl
      rw [← hlis] at hl
      obtain ⟨i, _, rfl⟩ := List.mem_map.1 hl
      have := List.countP_le_length (p := fun x => decide (i < x)) (l := cs)
      omega
    · have := kraft_of_tele (freqs.length + 1) cs _ g2 g3 g4
      rw [g1, hlis] at this
      have e : (freqs.length + 1) * 2 ^ 17 = (freqs.length + 1 - 1) * 2 ^ 17 + 2 ^ 17 := by
        rw [Nat.add_sub_cancel]; ring
      omega
  · intro ls hl hk
    rw [hcode]
    have hlsl : ls.length = (bump none (S.map Prod.fst)).length := by
      rw [hl, hwl]; simp [hlisl, hbl]
    obtain ⟨k1, k2⟩ := lightest_le_weightedLength (bump none (S.map Prod.fst))
      ((bump_strict _ _).imp Nat.le_of_lt) (by intro e; rw [e] at hwl; simp at hwl) 17 ls hlsl hk
    rw [hwl] at k1
    have k3 := g6 (levelCounts ls 17) (by simp [levelCounts]) (by
      intro d hd
      obtain ⟨e, _, rfl⟩ := List.mem_map.1 hd
      have := List.countP_le_length (p := fun x => decide (e < x)) (l := ls)
      omega) k1
    have k4 := weightedLength_counts (bump none (S.map Prod.fst)) cs (by rw [hwl]; exact g3)
    rw [hwl, hlis] at k4
    omega

end Ribzip2
