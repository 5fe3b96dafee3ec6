import Verif.Model.Word
import Verif.Proofs.BlockEncode
/- `usize` arithmetic of the Huffman stage does not overflow. -/
namespace Ribzip2.Word
open Spec

theorem addU_ok {bits a b : Nat} (h : a + b < 2 ^ bits) : addU bits a b = Res.ok (a + b) := if_pos h
theorem mulU_ok {bits a b : Nat} (h : a * b < 2 ^ bits) : mulU bits a b = Res.ok (a * b) := if_pos h

/-! ### convert_to_number -/

theorem number_ge (l : List Bit) (ct : Nat) :
    ct ≤ l.foldl (fun ct digit => ct * 2 + (if digit then 1 else 0)) ct := by
  induction l generalizing ct with
  | nil => simp
  | cons b l ih =>
    rw [List.foldl_cons]
    refine Nat.le_trans ?_ (ih _)
    omega

theorem numberLoop_ok (bits : Nat) (l : List Bit) (ct : Nat)
    (h : l.foldl (fun ct digit => ct * 2 + (if digit then 1 else 0)) ct < 2 ^ bits) :
    numberLoop bits l ct = Res.ok (l.foldl (fun ct digit => ct * 2 + (if digit then 1 else 0)) ct) := by
  induction l generalizing ct with
  | nil => rfl
  | cons b l ih =>
    have := number_ge l (ct * 2 + (if b then 1 else 0))
    rw [List.foldl_cons] at h ⊢
    rw [numberLoop, mulU_ok (by omega), Res.ok_bind, ← ih _ h]
    cases b
    · rfl
    · simp only [if_true] at this h ⊢
      rw [addU_ok (by omega), Res.ok_bind]

theorem convertToNumber_ok {bits : Nat} {l : List Bit} (h : Ribzip2.convertToNumber l < 2 ^ bits) :
    convertToNumber bits l = Res.ok (Ribzip2.convertToNumber l) := numberLoop_ok bits l 0 h

theorem numberLoop_panic (bits : Nat) (l : List Bit) (ct : Nat) (hct : ct < 2 ^ bits)
    (h : ¬ l.foldl (fun ct digit => ct * 2 + (if digit then 1 else 0)) ct < 2 ^ bits) :
    numberLoop bits l ct = Res.panic := by
  induction l generalizing ct with
  | nil => exact absurd hct h
  | cons b l ih =>
    rw [List.foldl_cons] at h
    rw [numberLoop]
    unfold mulU
    split
    · rw [Res.ok_bind]
      cases b
      · exact ih _ (by assumption) h
      · simp only [if_true]
        unfold addU
        split
        · exact ih _ (by assumption) h
        · rfl
    · rfl

theorem convertToNumber_panic {bits : Nat} {l : List Bit} (h : ¬ Ribzip2.convertToNumber l < 2 ^ bits) :
    convertToNumber bits l = Res.panic := numberLoop_panic bits l 0 (Nat.two_pow_pos _) h

/-- `increment_symbol` panics exactly when the incremented number does not fit. -/
theorem incrementSymbol_eq (bits : Nat) (l : List Bit) :
    incrementSymbol bits l = if Ribzip2.convertToNumber l + 1 < 2 ^ bits then
      Res.ok (convertToCodePadToNBits (Ribzip2.convertToNumber l + 1) l.length) else Res.panic := by
  unfold incrementSymbol
  by_cases h : Ribzip2.convertToNumber l < 2 ^ bits
  · rw [convertToNumber_ok h, Res.ok_bind]
    unfold addU
    split <;> rfl
  · rw [convertToNumber_panic h, if_neg (by omega)]
    rfl

/-- The model for 64 bits in `Verif.Model.Bitwise` is this one. -/
theorem incrementSymbol_64 (l : List Bit) : incrementSymbol 64 l = Ribzip2.incrementSymbol l := incrementSymbol_eq 64 l

/-! ### canonicalize -/

theorem codeVal_snoc (l : List Bit) (k : Nat) :
    Ribzip2.convertToNumber (l ++ List.replicate k false) = Ribzip2.convertToNumber l * 2 ^ k := by
  induction k with
  | zero => simp
  | succ k ih =>
    rw [List.replicate_succ', ← List.append_assoc]
    unfold Ribzip2.convertToNumber at ih ⊢
    rw [List.foldl_append, ih]
    simp [Nat.pow_succ, Nat.mul_assoc]

theorem number_lt (l : List Bit) : Ribzip2.convertToNumber l < 2 ^ l.length := by
  rw [convertToNumber_eq]
  exact bitsToNat_lt l

theorem number_code (x n : Nat) : Ribzip2.convertToNumber (convertToCodePadToNBits x n) = x := by
  rw [convertToNumber_eq]
  unfold convertToCodePadToNBits
  simp only [List.reverse_append, List.reverse_replicate]
  rw [bitsToNat_replicate_false]
  obtain ⟨m, e, hlt, -⟩ := lsbLoop_spec x x (Nat.le_refl _)
  rw [e, List.reverse_reverse, bitsToNat_natToBits, Nat.mod_eq_of_lt hlt]

theorem canonicalLoop_ok (bits : Nat) (k : Nat) (l : List CodeTableEntry) (hb : 2 ^ 20 + k + l.length < 2 ^ bits)
    (hk : 2 ^ 20 + k + l.length < 2 ^ 64) (hl : ∀ e ∈ l, e.code ≤ 20) (last : List Bit)
    (h : last.length ≤ 20 ∨ Ribzip2.convertToNumber last ≤ 2 ^ 20 + k) :
    canonicalLoop bits last l = Ribzip2.canonicalLoop last l := by
  induction l generalizing last k with
  | nil => rfl
  | cons e l ih =>
    have hv : Ribzip2.convertToNumber last ≤ 2 ^ 20 + k := by
      rcases h with h | h
      · have h1 := number_lt last
        have h2 : 2 ^ last.length ≤ 2 ^ 20 := Nat.pow_le_pow_right (by omega) h
        omega
      · exact h
    rw [List.length_cons] at hb hk
    rw [canonicalLoop, Ribzip2.canonicalLoop, incrementSymbol_eq, Ribzip2.incrementSymbol, if_pos (by omega),
      if_pos (by omega), Res.ok_bind, Res.ok_bind]
    dsimp only
    rw [ih (k + 1) (by omega) (by omega) (fun x hx => hl x (by simp [hx]))]
    have he := hl e (by simp)
    by_cases hlen : (convertToCodePadToNBits (Ribzip2.convertToNumber last + 1) last.length).length ≤ 20
    · left
      rw [List.length_append, List.length_replicate]
      omega
    · right
      rw [show e.code - (convertToCodePadToNBits (Ribzip2.convertToNumber last + 1) last.length).length = 0 by omega]
      rw [List.replicate_zero, List.append_nil, number_code]
      omega

/-- Tables with code lengths up to 20 are made without overflow. -/
theorem canonicalize_ok (bits : Nat) (hb : 32 ≤ bits) (T : List CodeTableEntry) (hl : T.length ≤ 1000)
    (h : ∀ e ∈ T, e.code ≤ 20) : canonicalize bits T = Ribzip2.canonicalize T := by
  have h32 : 2 ^ 32 ≤ 2 ^ bits := Nat.pow_le_pow_right (by omega) hb
  unfold canonicalize Ribzip2.canonicalize
  have hlen := stableSort_length CodeTableEntry.le T
  have hmem : ∀ e ∈ stableSort CodeTableEntry.le T, e.code ≤ 20 := fun e he => h e (mem_stableSort.1 he)
  revert hlen hmem
  cases stableSort CodeTableEntry.le T with
  | nil => intros; rfl
  | cons first rest =>
    intro hlen hmem
    rw [List.length_cons] at hlen
    dsimp only
    rw [canonicalLoop_ok bits 0 rest (by omega) (by omega) (fun e he => hmem e (by simp [he]))]
    left
    rw [List.length_replicate]
    exact hmem first (by simp)

/-! ### package_merge -/

/-- Sum of the values of some packages. -/
def total (l : List CoinEntry) : Nat := (l.map CoinEntry.value).sum

theorem total_append (a b : List CoinEntry) : total (a ++ b) = total a + total b := by simp [total]

theorem total_sort (l : List CoinEntry) : total (stableSort CoinEntry.le l) = total l :=
  ((stableSort_perm CoinEntry.le l).map _).sum_eq

theorem mergePairs_ok (bits : Nat) : ∀ l : List CoinEntry, total l < 2 ^ bits →
    mergePairs bits l = Res.ok (Ribzip2.mergePairs l) ∧ total (Ribzip2.mergePairs l) ≤ total l
  | [], _ => ⟨rfl, by simp [Ribzip2.mergePairs]⟩
  | [_], _ => ⟨rfl, by simp [Ribzip2.mergePairs, total]⟩
  | l :: r :: rest, h => by
    have e : total (l :: r :: rest) = l.value + r.value + total rest := by simp [total]; omega
    rw [e] at h
    obtain ⟨h1, h2⟩ := mergePairs_ok bits rest (by omega)
    constructor
    · rw [mergePairs, addU_ok (by omega), Res.ok_bind, h1, Res.ok_bind]
      rfl
    · rw [e, Ribzip2.mergePairs]
      have : total (CoinEntry.two (l.value + r.value) l r :: Ribzip2.mergePairs rest)
          = l.value + r.value + total (Ribzip2.mergePairs rest) := by simp [total, CoinEntry.value]
      omega

theorem packageLoop_ok (bits : Nat) (coins : List Coin) (S : Nat) (hS : ∀ e, total (coinsAt coins e) ≤ S) (e : Nat)
    (l : List CoinEntry) (h : total l + (e + 1) * S < 2 ^ bits) :
    packageLoop bits coins e l = Res.ok (Ribzip2.packageLoop coins e l) := by
  induction e generalizing l with
  | zero =>
    have h1 := hS 0
    have h2 : total (stableSort CoinEntry.le (coinsAt coins 0 ++ l)) < 2 ^ bits := by
      rw [total_sort, total_append]; omega
    rw [packageLoop]
    rw [(mergePairs_ok bits _ h2).1]
    rfl
  | succ e ih =>
    have h1 := hS (e + 1)
    have h3 : (e + 1 + 1) * S = (e + 1) * S + S := Nat.succ_mul _ _
    have h2 : total (stableSort CoinEntry.le (coinsAt coins (e + 1) ++ l)) ≤ total l + S := by
      rw [total_sort, total_append]; omega
    obtain ⟨g1, g2⟩ := mergePairs_ok bits (stableSort CoinEntry.le (coinsAt coins (e + 1) ++ l)) (by omega)
    rw [packageLoop, g1, Res.ok_bind, ih _ (by omega)]
    rfl

theorem total_coinsAt (weights : List Nat) (limit e : Nat) :
    total (coinsAt ((List.range limit).flatMap fun i => weights.map fun w => (⟨w, i + 1⟩ : Coin)) e) ≤ weights.sum := by
  unfold coinsAt
  rw [total_sort]
  have key : ∀ n, (((((List.range n).flatMap fun i => weights.map fun w => (⟨w, i + 1⟩ : Coin)).filter
      (fun c => c.exponent = e)).map fun c => CoinEntry.one c.value c).map CoinEntry.value).sum
        = if 1 ≤ e ∧ e ≤ n then weights.sum else 0 := by
    intro n
    induction n with
    | zero => simp; omega
    | succ n ih =>
      rw [List.range_succ, List.flatMap_append, List.filter_append, List.map_append, List.map_append, List.sum_append, ih]
      simp only [List.flatMap_cons, List.flatMap_nil, List.append_nil]
      have h2 : (((weights.map fun w => (⟨w, n + 1⟩ : Coin)).filter (fun c => c.exponent = e)).map
          fun c => CoinEntry.one c.value c).map CoinEntry.value = if e = n + 1 then weights else [] := by
        by_cases he : e = n + 1
        · subst he
          rw [if_pos rfl, List.filter_eq_self.2 (by simp), List.map_map, List.map_map]
          conv => rhs; rw [← List.map_id weights]
          apply List.map_congr_left
          intro x _
          rfl
        · rw [if_neg he, List.filter_eq_nil_iff.2 (by
            intro x hx
            obtain ⟨w, _, rfl⟩ := List.mem_map.1 hx
            simp; omega)]
          rfl
      rw [h2]
      by_cases he : e = n + 1
      · rw [if_neg (by omega), if_pos he, if_pos (by omega)]; simp
      · rw [if_neg he]
        by_cases he2 : 1 ≤ e ∧ e ≤ n
        · rw [if_pos he2, if_pos (by omega)]; simp
        · rw [if_neg he2, if_neg (by omega)]; simp
  have := key limit
  unfold total
  rw [this]
  split <;> omega

theorem max_coins (weights : List Nat) (limit m : Nat)
    (h : (((List.range limit).flatMap fun i => weights.map fun w => (⟨w, i + 1⟩ : Coin)).map fun c => c.exponent).max? = some m) :
    m ≤ limit := by
  have hm := List.max?_mem h
  obtain ⟨c, hc, rfl⟩ := List.mem_map.1 hm
  obtain ⟨i, hi, hc⟩ := List.mem_flatMap.1 hc
  obtain ⟨w, _, rfl⟩ := List.mem_map.1 hc
  have := List.mem_range.1 hi
  show i + 1 ≤ limit
  omega

theorem computeLis_ok (bits : Nat) (weights : List Nat) (limit : Nat) (h : (limit + 1) * weights.sum < 2 ^ bits) :
    computeLis bits weights limit = Ribzip2.computeLis weights limit := by
  unfold computeLis Ribzip2.computeLis packageMerge Ribzip2.packageMerge
  dsimp only
  cases hm : (((List.range limit).flatMap fun i => weights.map fun w => (⟨w, i + 1⟩ : Coin)).map fun c => c.exponent).max? with
  | none => rfl
  | some m =>
    have h1 := max_coins weights limit m hm
    have h2 : (m + 1) * weights.sum ≤ (limit + 1) * weights.sum := Nat.mul_le_mul_right _ (by omega)
    rw [Res.ofOption_some, Res.ok_bind, Res.ok_bind,
      packageLoop_ok bits _ weights.sum (total_coinsAt weights limit) m [] (by simp [total]; omega)]
    rfl

/-! ### Breaking ties -/

theorem breakTies_ok (bits : Nat) (l : List (Nat × HSym)) (last : Option Nat)
    (h : ∀ x ∈ bump last (l.map Prod.fst), x < 2 ^ bits) :
    breakTies bits last l = Res.ok (Ribzip2.breakTies last l) := by
  induction l generalizing last with
  | nil => cases last <;> rfl
  | cons x l ih =>
    obtain ⟨f, s⟩ := x
    cases last with
    | none =>
      rw [breakTies, ih _ (fun x hx => h x (by simp [bump, hx]))]
      rfl
    | some last =>
      rw [List.map_cons, bump] at h
      have h0 := h _ List.mem_cons_self
      simp only at h0
      have e : (if last ≥ f then f + (last - f + 1) else f) = max f (last + 1) := by split <;> omega
      rw [breakTies, Ribzip2.breakTies]
      dsimp only
      rw [e]
      have hi := ih (some (max f (last + 1))) (fun x hx => h x (List.mem_cons_of_mem _ hx))
      split
      · rename_i hc
        rw [if_pos hc] at e
        rw [addU_ok (by omega), Res.ok_bind, addU_ok (by omega), Res.ok_bind, e, hi]
        rfl
      · rename_i hc
        rw [if_neg hc] at e
        rw [Res.ok_bind]
        conv => lhs; rw [e]
        rw [hi]
        rfl

/-- With ties broken, the `i`-th weight has grown by at most `i`. -/
theorem bump_sum (fs : List Nat) (hs : fs.Pairwise (· ≤ ·)) (last : Option Nat) (k : Nat)
    (hk : ∀ v, last = some v → ∀ f ∈ fs, v + 1 ≤ f + k) :
    (bump last fs).sum ≤ fs.sum + fs.length * (k + fs.length) := by
  induction fs generalizing last k with
  | nil => cases last <;> simp [bump]
  | cons f fs ih =>
    obtain ⟨p1, p2⟩ := List.pairwise_cons.1 hs
    have hexp : (fs.length + 1) * (k + (fs.length + 1)) = fs.length * (k + 1 + fs.length) + (k + (fs.length + 1)) := by
      rw [Nat.succ_mul]
      congr 2
      omega
    cases last with
    | none =>
      have := ih p2 (some f) (k + 1) (by
        intro v hv g hg
        injection hv with hv
        subst hv
        have := p1 g hg
        omega)
      simp only [bump, List.sum_cons, List.length_cons]
      omega
    | some v =>
      have hf := hk v rfl f (by simp)
      have := ih p2 (some (max f (v + 1))) (k + 1) (by
        intro v' hv g hg
        injection hv with hv
        subst hv
        have := p1 g hg
        omega)
      simp only [bump, List.sum_cons, List.length_cons]
      omega

theorem sortedFrequencies_facts (freqs : List Nat) :
    ((sortedFrequencies freqs).map Prod.fst).sum = freqs.sum ∧ ((sortedFrequencies freqs).map Prod.fst).length = freqs.length + 1 ∧
      ((sortedFrequencies freqs).map Prod.fst).Pairwise (· ≤ ·) := by
  refine ⟨?_, ?_, ?_⟩
  · have h := ((stableSort_perm (fun x y : Nat × HSym => decide (x.1 ≤ y.1))
      (freqs.zipIdx.map (fun p => (p.1, HSym.normal (symbolOfIndex p.2))) ++ [(0, HSym.eob)])).map Prod.fst).sum_eq
    refine h.trans ?_
    rw [List.map_append, List.map_map, List.sum_append]
    have : freqs.zipIdx.map (Prod.fst ∘ fun p => (p.1, HSym.normal (symbolOfIndex p.2))) = freqs := by
      rw [show (Prod.fst ∘ fun p : Nat × Nat => (p.1, HSym.normal (symbolOfIndex p.2))) = Prod.fst from rfl]
      exact List.zipIdx_map_fst 0 freqs
    rw [this]
    simp
  · simp [sortedFrequencies]
  · rw [List.pairwise_map]
    refine (stableSort_sorted _ ?_ ?_ _).imp (by simp)
    · intro a b; simp only [decide_eq_true_eq]; omega
    · intro a b c; simp only [decide_eq_true_eq]; omega

theorem le_sum {l : List Nat} {x : Nat} (h : x ∈ l) : x ≤ l.sum := List.single_le_sum (by simp) x h

/-- Code lengths are computed without overflow. -/
theorem computeHuffman_ok (bits : Nat) (hb : 32 ≤ bits) (freqs : List Nat) (hl : freqs.length ≤ 257)
    (hs : freqs.sum ≤ 200000000) : computeHuffman bits freqs = Ribzip2.computeHuffman freqs := by
  have h32 : 2 ^ 32 ≤ 2 ^ bits := Nat.pow_le_pow_right (by omega) hb
  obtain ⟨f1, f2, f3⟩ := sortedFrequencies_facts freqs
  have hsum := bump_sum _ f3 none 0 (by simp)
  rw [f1, f2] at hsum
  have hsq : (freqs.length + 1) * (0 + (freqs.length + 1)) ≤ 258 * 258 := Nat.mul_le_mul (by omega) (by omega)
  have hbound : (bump none ((sortedFrequencies freqs).map Prod.fst)).sum ≤ 200066564 := by omega
  unfold computeHuffman Ribzip2.computeHuffman
  rw [breakTies_ok bits _ none (fun x hx => by have := le_sum hx; omega), Res.ok_bind]
  dsimp only
  rw [computeLis_ok bits _ 17 (by rw [show (fun x : Nat × HSym => x.1) = Prod.fst from rfl, breakTies_map_fst]; omega)]

/-- All tables of a block are made without overflow. -/
theorem codeTables_ok (bits : Nat) (hb : 32 ≤ bits) (freqs : List (List Nat))
    (h : ∀ f ∈ freqs, 2 ≤ f.length ∧ f.length ≤ 257 ∧ f.sum ≤ 200000000) :
    codeTables bits freqs = Ribzip2.codeTables freqs := by
  induction freqs with
  | nil => rfl
  | cons f freqs ih =>
    obtain ⟨g0, g1, g2⟩ := h f (by simp)
    obtain ⟨T, ws, t1, t2, -, -, t5, -⟩ := computeHuffman_spec f (by omega) g1
    have hT : T.length = f.length + 1 := by have := t2.length_eq; simpa using this
    rw [codeTables, Ribzip2.codeTables, computeHuffman_ok bits hb f g1 g2, t1, Res.ok_bind, Res.ok_bind,
      canonicalize_ok bits hb T (by omega) (fun e he => by
        have := t5.1 e.code (List.mem_map_of_mem he)
        omega), ih (fun x hx => h x (by simp [hx]))]

end Ribzip2.Word
