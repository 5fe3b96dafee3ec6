import Verif.Proofs.Decoder
import Verif.Proofs.Mtf
import Verif.Proofs.Lengths
import Verif.Spec.Selectors
namespace Ribzip2
open Spec

theorem pUnaryLoop_one (amount i : Nat) (rest : List Bit) (out : List UInt8) (cur cnt : Nat)
    (hi : cur + i < 256) (hc : cnt < amount) :
    pUnaryLoop amount (unary i ++ rest) out cur cnt =
      if cnt + 1 ≥ amount then Res.ok (out ++ [UInt8.ofNat (cur + i)], rest)
      else pUnaryLoop amount rest (out ++ [UInt8.ofNat (cur + i)]) 0 (cnt + 1) := by
  induction i generalizing cur with
  | zero => rfl
  | succ i ih =>
    rw [unary, List.replicate_succ, List.cons_append, List.cons_append, pUnaryLoop,
      if_pos (by omega), if_neg (by omega)]
    have := ih (cur + 1) (by omega)
    rw [unary] at this
    rw [this, show cur + 1 + i = cur + (i + 1) by omega]

theorem pUnaryLoop_all (amount : Nat) (is : List Nat) (rest : List Bit) (out : List UInt8) (cnt : Nat)
    (hi : ∀ i ∈ is, i < 256) (hc : cnt + is.length = amount) (hne : is ≠ []) :
    pUnaryLoop amount (is.flatMap unary ++ rest) out 0 cnt = Res.ok (out ++ is.map UInt8.ofNat, rest) := by
  induction is generalizing out cnt with
  | nil => simp at hne
  | cons i is ih =>
    simp only [List.length_cons] at hc
    rw [List.flatMap_cons, List.append_assoc,
      pUnaryLoop_one _ _ _ _ _ _ (by have := hi i (by simp); omega) (by omega)]
    by_cases his : is = []
    · subst his
      rw [if_pos (by simp at hc; omega)]
      simp
    · have : 0 < is.length := List.length_pos_iff.2 his
      rw [if_neg (by omega), ih _ _ (fun j hj => hi j (by simp [hj])) (by omega) his]
      simp

theorem pUnary_all (is : List Nat) (rest : List Bit) (hi : ∀ i ∈ is, i < 256) (hne : is ≠ []) :
    pUnary is.length (is.flatMap unary ++ rest) = Res.ok (is.map UInt8.ofNat, rest) := by
  rw [pUnary, pUnaryLoop_all _ _ _ _ _ hi (by omega) hne]; simp

theorem mtfDecode_append {α : Type} (dict extra : List α) (is : List Nat) (d : List α)
    (h : mtfDecode dict is = some d) : mtfDecode (dict ++ extra) is = some d := by
  induction is generalizing dict d with
  | nil => simpa [mtfDecode] using h
  | cons i is ih =>
    rw [mtfDecode] at h ⊢
    split at h
    · simp at h
    · rename_i v hv
      have hi : i < dict.length := (List.getElem?_eq_some_iff.1 hv).1
      rw [List.getElem?_append_left hi, hv]
      simp only
      split at h
      · simp at h
      · rename_i rest hr
        rw [List.eraseIdx_append_of_lt_length hi, ← List.cons_append, ih _ _ hr]
        exact h

theorem map_eraseIdx' {α β : Type} (f : α → β) (l : List α) (i : Nat) :
    (l.map f).eraseIdx i = (l.eraseIdx i).map f := by
  induction l generalizing i with
  | nil => rfl
  | cons a l ih => cases i with
    | zero => rfl
    | succ i => simp [ih]

theorem mtfDecode_map {α β : Type} (f : α → β) (dict : List α) (is : List Nat) :
    mtfDecode (dict.map f) is = (mtfDecode dict is).map (List.map f) := by
  induction is generalizing dict with
  | nil => rfl
  | cons i is ih =>
    rw [mtfDecode, mtfDecode, List.getElem?_map]
    cases h : dict[i]? with
    | none => rfl
    | some v =>
      simp only [Option.map_some]
      rw [map_eraseIdx', ← List.map_cons, ih]
      cases mtfDecode (v :: dict.eraseIdx i) is <;> rfl

theorem mtfDecode_mem {α : Type} (dict : List α) (is : List Nat) (d : List α)
    (h : mtfDecode dict is = some d) : ∀ x ∈ d, x ∈ dict := by
  induction is generalizing dict d with
  | nil => simp [mtfDecode] at h; subst h; simp
  | cons i is ih =>
    rw [mtfDecode] at h
    split at h
    · simp at h
    · rename_i v hv
      split at h
      · simp at h
      · rename_i rest hr
        simp only [Option.some.injEq] at h; subst h
        have hp := eraseIdx_perm hv
        intro x hx
        rcases List.mem_cons.1 hx with rfl | hx
        · exact hp.mem_iff.1 (by simp)
        · exact hp.mem_iff.1 (ih _ _ hr x hx)

theorem mtfDecode_pos_lt {α : Type} (dict : List α) (is : List Nat) (d : List α)
    (h : mtfDecode dict is = some d) : ∀ i ∈ is, i < dict.length := by
  induction is generalizing dict d with
  | nil => simp
  | cons i is ih =>
    rw [mtfDecode] at h
    split at h
    · simp at h
    · rename_i v hv
      split at h
      · simp at h
      · rename_i rest hr
        have hp := eraseIdx_perm hv
        intro x hx
        rcases List.mem_cons.1 hx with rfl | hx
        · exact (List.getElem?_eq_some_iff.1 hv).1
        · have := ih _ _ hr x hx; rwa [hp.length_eq] at this

theorem unaryCode_eq (enc : List UInt8) : unaryCode enc = (enc.map UInt8.toNat).flatMap unary := by
  simp only [unaryCode, List.flatMap_map]
  rfl

theorem createSelectors_eq (sel : List UInt8) :
    ∃ enc, createSelectors sel = Res.ok (unaryCode enc, sel.length) ∧
      mtfDecode (usedBytes sel) (enc.map UInt8.toNat) = some sel ∧ enc.length = sel.length := by
  obtain ⟨enc, h1, h2, h3, _⟩ := mtf_spec sel
  exact ⟨enc, by simp [createSelectors, h1], h2, h3⟩

/-- The dictionary of all tables, as in block_decoder.rs. -/
def allTables (n : Nat) : List UInt8 := (List.range n).map UInt8.ofNat

theorem allTables_nodup (n : Nat) (hn : n ≤ 256) : (allTables n).Nodup := by
  unfold allTables
  rw [List.Nodup, List.pairwise_map]
  apply List.Pairwise.imp_of_mem _ (List.pairwise_lt_range (n := n))
  intro a b ha hb hab e
  have ha : a < n := by simpa using ha
  have hb : b < n := by simpa using hb
  have := congrArg UInt8.toNat e
  rw [UInt8.toNat_ofNat_of_lt' (show a < 256 by omega),
    UInt8.toNat_ofNat_of_lt' (show b < 256 by omega)] at this
  omega

/-- Reading the selectors of a valid stream. -/
theorem pUnary_selectorBits {n : Nat} {sel : List Nat} {bits : List Bool}
    (h : SelectorBits n sel bits) (hn : n ≤ 256) (hne : sel ≠ []) (rest : List Bit) :
    ∃ enc, pUnary sel.length (bits ++ rest) = Res.ok (enc, rest) ∧
      inverseMtf enc (allTables n) = Res.ok (sel.map UInt8.ofNat) := by
  obtain ⟨pos, h1, rfl⟩ := h
  have hlen := mtfDecode_length _ _ _ h1
  have hpos := mtfDecode_pos_lt _ _ _ h1
  simp only [List.length_range] at hpos
  have hpos' : ∀ i ∈ pos, i < 256 := fun i hi => by have := hpos i hi; omega
  refine ⟨pos.map UInt8.ofNat, ?_, ?_⟩
  · rw [hlen]
    apply pUnary_all _ _ hpos'
    intro e; subst e; simp at hlen; exact hne hlen
  · rw [inverseMtf, inverseMtfLoop_spec _ _ (allTables_nodup n hn), map_toNat_ofNat _ hpos',
      allTables, mtfDecode_map, h1]
    rfl

end Ribzip2
