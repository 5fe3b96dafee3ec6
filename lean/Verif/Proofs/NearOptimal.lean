import Verif.Proofs.BlockEncode
import Verif.Spec.Optimal
/- The code lengths of a block are nearly optimal, symbol by symbol. -/
namespace Ribzip2
open Spec

theorem wl_map (is : List Nat) (f g : Nat → Nat) :
    weightedLength (is.map f) (is.map g) = (is.map fun i => f i * g i).sum := by
  unfold weightedLength
  induction is with
  | nil => rfl
  | cons i is ih => simp [ih]

theorem list_eq_map_range (l : List Nat) : l = (List.range l.length).map fun i => l.getD i 0 := by
  apply List.ext_getElem (by simp)
  intro i hi _
  simp [hi]

theorem wl_mono_left {a b : List Nat} (h : List.Forall₂ (· ≤ ·) a b) (c : List Nat) :
    weightedLength a c ≤ weightedLength b c := by
  unfold weightedLength
  induction h generalizing c with
  | nil => simp
  | cons h _ ih =>
    cases c with
    | nil => simp
    | cons x c =>
      simp only [List.zipWith_cons_cons, List.sum_cons]
      exact Nat.add_le_add (Nat.mul_le_mul_right _ h) (ih c)

theorem forall2_of_getElem {a b : List Nat} (hl : a.length = b.length)
    (h : ∀ i (h1 : i < a.length) (h2 : i < b.length), a[i] ≤ b[i]) : List.Forall₂ (· ≤ ·) a b := by
  induction a generalizing b with
  | nil => cases b with
    | nil => exact List.Forall₂.nil
    | cons _ _ => simp at hl
  | cons x a ih =>
    cases b with
    | nil => simp at hl
    | cons y b =>
      refine List.Forall₂.cons (h 0 (by simp) (by simp)) (ih (by simpa using hl) ?_)
      intro i h1 h2
      exact h (i + 1) (by simp; omega) (by simp; omega)

theorem bump_rank (fs : List Nat) (hs : fs.Pairwise (· ≤ ·)) :
    List.Forall₂ (· ≤ ·) (bump none fs) (List.zipWith (· + ·) fs (List.range fs.length)) := by
  refine bump_least none fs _ ?_ ?_ (by simp)
  · refine forall2_of_getElem (by simp) ?_
    intro i h1 h2
    simp
  · rw [List.pairwise_iff_getElem]
    intro i j hi hj hij
    have hi' : i < fs.length := by simpa using hi
    have hj' : j < fs.length := by simpa using hj
    have := List.pairwise_iff_getElem.1 hs i j hi' hj' hij
    simp
    omega

theorem sum_perm_range {is : List Nat} {m : Nat} (h : is.Perm (List.range m)) (f : Nat → Nat) :
    (is.map f).sum = ((List.range m).map f).sum := (h.map f).sum_eq

theorem nearOptimal_of (freqs ls : List Nat) (T : List CodeTableEntry) (h2 : freqs.length ≤ 257)
    (hl : ls.length = freqs.length + 1) (hT : T.Perm (entriesOf ls))
    (hsorted : (T.map fun e => freqOf freqs e.symbol).Pairwise (· ≤ ·))
    (hopt : ∀ ks : List Nat, ks.length = T.length → KraftLe 17 ks →
      weightedLength (bump none (T.map fun e => freqOf freqs e.symbol)) (T.map CodeTableEntry.code)
        ≤ weightedLength (bump none (T.map fun e => freqOf freqs e.symbol)) ks) :
    NearOptimal (freqs ++ [0]) ls := by
  obtain ⟨m, hm⟩ : ∃ m, m = freqs.length + 1 := ⟨_, rfl⟩
  obtain ⟨is, i1, i2⟩ := exists_perm_map (fun i => (⟨len ls i, symbolAt ls.length i⟩ : CodeTableEntry))
    (List.range ls.length) T hT.symm
  rw [hl, ← hm] at i1 i2
  have hi : ∀ i ∈ is, i < m := by
    intro i h
    have := i1.symm.mem_iff.1 h
    simpa using this
  have hnd : is.Nodup := i1.nodup_iff.1 List.nodup_range
  have hlen : is.length = m := by simpa using i1.length_eq.symm
  obtain ⟨F, hF⟩ : ∃ F : Nat → Nat, F = fun i => (freqs ++ [0]).getD i 0 := ⟨_, rfl⟩
  have hfr : (T.map fun e => freqOf freqs e.symbol) = is.map F := by
    rw [← i2, List.map_map]
    refine List.map_congr_left ?_
    intro i h
    have := hi i h
    simp only [Function.comp, symbolAt, hF]
    split
    · rename_i he
      have : i = freqs.length := by omega
      subst this
      simp [freqOf]
    · simp only [freqOf]
      rw [symbolIndex_symbolOfIndex i (by omega), List.getD_eq_getElem?_getD, List.getD_eq_getElem?_getD,
        List.getElem?_append_left (by omega)]
  have hco : T.map CodeTableEntry.code = is.map fun i => len ls i := by
    rw [← i2, List.map_map]; rfl
  rw [hfr] at hsorted hopt
  rw [hco] at hopt
  have hTl : T.length = m := by rw [← i2]; simpa using hlen
  have hflen : (freqs ++ [0]).length = m := by simp [hm]
  refine ⟨by rw [hflen]; omega, (List.range m).map (fun i => is.idxOf i), ?_, ?_⟩
  · rw [hflen]
    have h1 : ((List.range m).map fun i => is.idxOf i).Perm (is.map fun i => is.idxOf i) := i1.map _
    refine h1.trans ?_
    have : (is.map fun i => is.idxOf i) = List.range m := by
      apply List.ext_getElem (by simp [hlen])
      intro t h1 h2
      simp only [List.getElem_map, List.getElem_range]
      exact hnd.idxOf_getElem t (by simpa using h1)
    rw [this]
  · intro other ho hk
    rw [hflen] at ho
    obtain ⟨K, hK⟩ : ∃ K : Nat → Nat, K = fun i => other.getD i 0 := ⟨_, rfl⟩
    have hot : other = (List.range m).map K := by rw [hK, ← ho]; exact list_eq_map_range other
    have hkp : (is.map K).Perm other := by rw [hot]; exact i1.symm.map K
    have hkr : KraftLe 17 (is.map K) :=
      ⟨fun l hl => hk.1 l (hkp.mem_iff.1 hl), by rw [kraft_perm hkp]; exact hk.2⟩
    have h1 := hopt (is.map K) (by simp [hlen, hTl]) hkr
    have h0 := wl_mono_left (bump_ge none (is.map F)) (is.map fun i => len ls i)
    have h3 := wl_mono_left (bump_rank _ hsorted) (is.map K)
    have hz : List.zipWith (· + ·) (is.map F) (List.range (is.map F).length)
        = is.map fun i => F i + is.idxOf i := by
      apply List.ext_getElem (by simp)
      intro t h1 h2
      have ht : t < is.length := by simpa using h2
      simp [hnd.idxOf_getElem t ht]
    rw [hz, wl_map] at h3
    rw [wl_map] at h0
    have e1 : weightedLength (freqs ++ [0]) ls = (is.map fun i => F i * len ls i).sum := by
      rw [sum_perm_range i1.symm, ← wl_map]
      congr 1
      · rw [hF, ← hflen]; exact list_eq_map_range _
      · rw [show m = ls.length by omega]; exact list_eq_map_range _
    have e2 : weightedLength (List.zipWith (· + ·) (freqs ++ [0]) ((List.range m).map fun i => is.idxOf i)) other
        = (is.map fun i => (F i + is.idxOf i) * K i).sum := by
      rw [sum_perm_range i1.symm, ← wl_map, ← hot]
      congr 1
      apply List.ext_getElem (by simp [hm])
      intro t h1 h2
      have ht : t < (freqs ++ [0]).length := by simp at h1 ⊢; omega
      have hFt : F t = (freqs ++ [0])[t] := by
        rw [hF]; simp only [List.getD_eq_getElem?_getD, List.getElem?_eq_getElem ht, Option.getD_some]
      simp only [List.getElem_zipWith, List.getElem_map, List.getElem_range, hFt]
    rw [e1, e2]
    omega

/-- The code table made from one frequency table of a block with `n` used bytes is nearly optimal. -/
theorem codeTable_near (n : Nat) (hn : 1 ≤ n) (hn2 : n ≤ 256) (freqs : List Nat) (hf : freqs.length = n + 1)
    (ls : List Nat) (hls : ls.length = n + 2) (T : List CodeTableEntry) (h1 : computeHuffman freqs = Res.ok T)
    (h2 : canonicalize T = Res.ok (canonTable ls)) : NearOptimal (freqs ++ [0]) ls := by
  obtain ⟨T', ws, g1, g2, g3, g4, g5, g6⟩ := computeHuffman_spec freqs (by omega) (by omega)
  rw [h1, Res.ok.injEq] at g1
  subst g1
  obtain ⟨ls', k1, k2, k3⟩ := exists_entriesOf _ T g2
  have hk : KraftEq 17 ls' :=
    ⟨fun l hl => g5.1 l (k3.mem_iff.1 hl), by rw [kraft_perm k3]; exact g5.2⟩
  have hkle : KraftLe 17 ls' := ⟨hk.1, Nat.le_of_eq hk.2⟩
  have := canonicalize_spec 17 (by omega) ls' T k2 (by omega) (by intro e; rw [e] at k1; simp at k1) hkle
  rw [h2, Res.ok.injEq] at this
  have hll : ls = ls' := by
    apply List.ext_getElem (by omega)
    intro i h1 h2
    have e := congrArg (fun l => (l.map fun e : CanonicalEntry => e.code.length)[i]?) this
    simp [canonTable, h1, h2, codeBits_length, len] at e
    exact e
  subst hll
  subst g3
  exact nearOptimal_of freqs ls T (by omega) (by omega) k2 g4 g6

theorem tablesMade_near (n : Nat) (hn : 1 ≤ n) (hn2 : n ≤ 256) (freqs tables : List (List Nat))
    (hf : ∀ f ∈ freqs, f.length = n + 1) (h : TablesMade n freqs tables) :
    List.Forall₂ (fun f ls => NearOptimal (f ++ [0]) ls) freqs tables := by
  obtain ⟨hcount, hlen, -, hmade⟩ := h
  induction freqs generalizing tables with
  | nil =>
    cases tables with
    | nil => exact List.Forall₂.nil
    | cons _ _ => simp at hcount
  | cons f freqs ih =>
    cases tables with
    | nil => simp at hcount
    | cons ls tables =>
      rw [codeTables] at hmade
      obtain ⟨T, c1, c2⟩ := bind_eq_ok hmade
      obtain ⟨C, c3, c4⟩ := bind_eq_ok c2
      obtain ⟨Cs, c5, c6⟩ := bind_eq_ok c4
      simp only [Res.pure_eq, Res.ok.injEq, List.map_cons, List.cons.injEq] at c6
      obtain ⟨rfl, rfl⟩ := c6
      exact List.Forall₂.cons (codeTable_near n hn hn2 f (hf f (by simp)) ls (hlen ls (by simp)).1 T c1 c3)
        (ih tables (fun x hx => hf x (by simp [hx])) (by simpa using hcount) (fun x hx => hlen x (by simp [hx])) c5)

end Ribzip2
