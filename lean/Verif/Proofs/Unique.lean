import Verif.Proofs.BlockDecode
/- The bzip2 format is unambiguous: a byte string is a valid stream for at most one content. -/
namespace Ribzip2
open Spec

theorem natToBits_inj {n x y : Nat} (hx : x < 2 ^ n) (hy : y < 2 ^ n) (h : natToBits n x = natToBits n y) :
    x = y := by
  rw [← number_bits n x hx, h, number_bits n y hy]

theorem natToBits_peel {n x y : Nat} {r s : List Bool} (hx : x < 2 ^ n) (hy : y < 2 ^ n)
    (h : natToBits n x ++ r = natToBits n y ++ s) : x = y ∧ r = s := by
  obtain ⟨h1, h2⟩ := List.append_inj h (by simp)
  exact ⟨natToBits_inj hx hy h1, h2⟩

theorem symbolMap_peel {U V : List UInt8} {r s : List Bool} (hU : U.Pairwise (· < ·)) (hV : V.Pairwise (· < ·))
    (h : symbolMapBits U ++ r = symbolMapBits V ++ s) : U = V ∧ r = s := by
  have h1 := pSymbolTable_map U r
  rw [h, pSymbolTable_map V s] at h1
  simp only [Res.ok.injEq, Prod.mk.injEq, usedBytes_of_sorted _ hU, usedBytes_of_sorted _ hV] at h1
  exact ⟨h1.1.symm, h1.2.symm⟩

theorem map_ofNat_inj {a b : List Nat} (ha : ∀ x ∈ a, x < 256) (hb : ∀ x ∈ b, x < 256)
    (h : a.map UInt8.ofNat = b.map UInt8.ofNat) : a = b := by
  rw [← map_toNat_ofNat a ha, h, map_toNat_ofNat b hb]

theorem selectors_peel {n : Nat} {a b : List Nat} {x y r s : List Bool} (hn : n ≤ 256)
    (hx : SelectorBits n a x) (hy : SelectorBits n b y) (hl : a.length = b.length) (hne : a ≠ [])
    (h : x ++ r = y ++ s) : a = b ∧ r = s := by
  have hne' : b ≠ [] := by
    intro e; rw [e] at hl; exact hne (List.length_eq_zero_iff.1 (by simpa using hl))
  obtain ⟨e1, u1, v1⟩ := pUnary_selectorBits hx hn hne r
  obtain ⟨e2, u2, v2⟩ := pUnary_selectorBits hy hn hne' s
  rw [h, hl, u2] at u1
  simp only [Res.ok.injEq, Prod.mk.injEq] at u1
  rw [← u1.1, v2] at v1
  simp only [Res.ok.injEq] at v1
  refine ⟨(map_ofNat_inj ?_ ?_ v1).symm, u1.2.symm⟩
  · intro z hz; have := selectorBits_mem hy z hz; omega
  · intro z hz; have := selectorBits_mem hx z hz; omega

theorem tables_map_inj {a b : List (List Nat)} (ha : ∀ l ∈ a, ∀ x ∈ l, x < 256) (hb : ∀ l ∈ b, ∀ x ∈ l, x < 256)
    (h : (a.map fun ls => ls.map UInt8.ofNat) = b.map fun ls => ls.map UInt8.ofNat) : a = b := by
  induction a generalizing b with
  | nil => cases b <;> simp at h ⊢
  | cons l a ih =>
    cases b with
    | nil => simp at h
    | cons m b =>
      simp only [List.map_cons, List.cons.injEq] at h
      rw [map_ofNat_inj (ha l (by simp)) (hb m (by simp)) h.1,
        ih (fun x hx => ha x (by simp [hx])) (fun x hx => hb x (by simp [hx])) h.2]

theorem tables_peel {n : Nat} {a b : List (List Nat)} {x y : List (List Bool)} {r s : List Bool}
    (hx : List.Forall₂ (LengthTable 1 20) a x) (hy : List.Forall₂ (LengthTable 1 20) b y)
    (ha : ∀ ls ∈ a, ls.length = n + 2 ∧ KraftLe 20 ls) (hb : ∀ ls ∈ b, ls.length = n + 2 ∧ KraftLe 20 ls)
    (hl : a.length = b.length) (h : x.flatten ++ r = y.flatten ++ s) : a = b ∧ r = s := by
  have h1 := pTrees_tables n a x hx (fun l hl => (ha l hl).1) r
  rw [h, hl, pTrees_tables n b y hy (fun l hl => (hb l hl).1) s] at h1
  simp only [Res.ok.injEq, Prod.mk.injEq] at h1
  refine ⟨(tables_map_inj ?_ ?_ h1.1).symm, h1.2.symm⟩
  · intro l hl z hz; have := (hb l hl).2.1 z hz; omega
  · intro l hl z hz; have := (ha l hl).2.1 z hz; omega

theorem code_peel {ls : List Nat} (hk : KraftLe 20 ls) {i j : Nat} {r s : List Bool} (hi : i < ls.length)
    (hj : j < ls.length) (h : codeBits ls i ++ r = codeBits ls j ++ s) : i = j ∧ r = s := by
  have hij : i = j := by
    by_contra hne
    rcases List.append_eq_append_iff.1 h with ⟨t, e, -⟩ | ⟨t, e, -⟩
    · exact codeBits_prefixFree 20 ls hk i j hi hj hne ⟨t, e.symm⟩
    · exact codeBits_prefixFree 20 ls hk j i hj hi (Ne.symm hne) ⟨t, e.symm⟩
  subst hij
  exact ⟨rfl, List.append_cancel_left h⟩

theorem payload_peel {n : Nat} {tables : List (List Nat)} {sel : List Nat}
    (ht : ∀ ls ∈ tables, ls.length = n + 2 ∧ KraftLe 20 ls) (hsel : ∀ s ∈ sel, s < tables.length)
    (a b : List Nat) (ha : ∀ s ∈ a, s < n + 1) (hb : ∀ s ∈ b, s < n + 1) (k : Nat) {r s : List Bool}
    (hka : k + a.length + 1 ≤ 50 * sel.length)
    (h : payloadBits tables sel k (a ++ [n + 1]) ++ r = payloadBits tables sel k (b ++ [n + 1]) ++ s) :
    a = b ∧ r = s := by
  induction a generalizing b k with
  | nil =>
    have hk : k / 50 < sel.length := by simp at hka; omega
    have hm : sel.getD (k / 50) 0 ∈ sel := by
      rw [List.getD_eq_getElem?_getD, List.getElem?_eq_getElem hk]; exact List.getElem_mem hk
    have hs := hsel _ hm
    have hT : tables.getD (sel.getD (k / 50) 0) [] ∈ tables := by
      rw [List.getD_eq_getElem?_getD (l := tables), List.getElem?_eq_getElem hs]; exact List.getElem_mem hs
    obtain ⟨t1, t2⟩ := ht _ hT
    cases b with
    | nil => exact ⟨rfl, List.append_cancel_left h⟩
    | cons y b =>
      simp only [List.nil_append, List.cons_append, payloadBits, List.append_nil, List.append_assoc] at h
      have hy := hb y (by simp)
      obtain ⟨e, -⟩ := code_peel t2 (by omega) (by omega) h
      omega
  | cons x a ih =>
    have hk : k / 50 < sel.length := by simp at hka; omega
    have hm : sel.getD (k / 50) 0 ∈ sel := by
      rw [List.getD_eq_getElem?_getD, List.getElem?_eq_getElem hk]; exact List.getElem_mem hk
    have hs := hsel _ hm
    have hT : tables.getD (sel.getD (k / 50) 0) [] ∈ tables := by
      rw [List.getD_eq_getElem?_getD (l := tables), List.getElem?_eq_getElem hs]; exact List.getElem_mem hs
    obtain ⟨t1, t2⟩ := ht _ hT
    have hx := ha x (by simp)
    cases b with
    | nil =>
      simp only [List.nil_append, List.cons_append, payloadBits, List.append_nil, List.append_assoc] at h
      obtain ⟨e, -⟩ := code_peel t2 (by omega) (by omega) h
      omega
    | cons y b =>
      have hy := hb y (by simp)
      simp only [List.cons_append, payloadBits, List.append_assoc] at h
      obtain ⟨e, h⟩ := code_peel t2 (by omega) (by omega) h
      obtain ⟨e1, e2⟩ := ih b (fun z hz => ha z (by simp [hz])) (fun z hz => hb z (by simp [hz])) (k + 1)
        (by simp at hka; omega) h
      exact ⟨by rw [e, e1], e2⟩

theorem valid_sound {p : BlockParts} {l : Nat} {d : List UInt8} (h : p.Valid l d) : Sound p :=
  ⟨h.ptr, h.used, h.symbols, by have := h.numTables; omega, h.lengths, h.transmitted, h.numSelectors, h.selected,
    h.enough⟩

/-- Pointer, used bytes and symbols of a block are determined by its bits, and so is where it ends. -/
theorem parts_peel {p q : BlockParts} (hp : Sound p) (hq : Sound q) {r s : List Bool}
    (h : p.body ++ r = q.body ++ s) : p.ptr = q.ptr ∧ p.used = q.used ∧ p.syms = q.syms ∧ r = s := by
  simp only [BlockParts.body, List.append_assoc, List.cons_append, List.nil_append, List.cons.injEq, true_and] at h
  obtain ⟨hptr, h⟩ := natToBits_peel hp.ptr hq.ptr h
  obtain ⟨hused, h⟩ := symbolMap_peel hp.used hq.used h
  have n1 := hp.numTables
  have n2 := hq.numTables
  obtain ⟨hnt, h⟩ := natToBits_peel (by omega) (by omega) h
  obtain ⟨hns, h⟩ := natToBits_peel hp.numSelectors hq.numSelectors h
  have hne : p.sel ≠ [] := by
    intro e
    have := hp.enough
    rw [e] at this
    simp at this
  have hqs := hq.selected
  rw [← hnt] at hqs
  obtain ⟨hsel, h⟩ := selectors_peel (by omega) hp.selected hqs hns hne h
  have hql := hq.lengths
  rw [← hused] at hql
  obtain ⟨htab, h⟩ := tables_peel hp.transmitted hq.transmitted hp.lengths hql hnt h
  have hsy := hq.symbols
  simp only [BlockParts.eob] at h
  rw [← htab, ← hsel, ← hused] at h
  rw [← hused] at hsy
  obtain ⟨hs, h⟩ := payload_peel hp.lengths (selectorBits_mem hp.selected) p.syms q.syms hp.symbols hsy 0
    (by have := hp.enough; omega) h
  exact ⟨hptr, hused, hs, h⟩

/-- The content of a block is determined by its bits, and so is where it ends. -/
theorem body_peel {p q : BlockParts} {l m : Nat} {d e : List UInt8} (hp : p.Valid l d) (hq : q.Valid m e)
    {r s : List Bool} (h : p.body ++ r = q.body ++ s) : d = e ∧ r = s := by
  obtain ⟨hptr, hused, hs, h⟩ := parts_peel (valid_sound hp) (valid_sound hq) h
  refine ⟨?_, h⟩
  have m1 := hp.mtf
  have m2 := hq.mtf
  rw [hused, hs, m2] at m1
  simp only [Option.some.injEq] at m1
  have b1 := inverseBwt_spec _ _ _ hp.transform
  have b2 := inverseBwt_spec _ _ _ hq.transform
  rw [← m1, hptr, b2] at b1
  simp only [Res.ok.injEq] at b1
  rw [← hp.content, ← hq.content, b1]

theorem blockMagic_length : blockMagic.length = 48 := by decide +kernel
theorem footerMagic_length : footerMagic.length = 48 := by decide +kernel

theorem magic_ne {r s : List Bool} : blockMagic ++ r ≠ footerMagic ++ s := by
  intro h
  obtain ⟨h, -⟩ := List.append_inj h (by rw [blockMagic_length, footerMagic_length])
  revert h
  decide +kernel

/-- Consecutive blocks up to the end-of-stream magic are determined by the bits, if the blocks are. -/
theorem frames_peel_of (P Q : List UInt8 → List Bool → Prop)
    (hPQ : ∀ {d e x y r s}, P d x → Q e y → x ++ r = y ++ s → d = e ∧ r = s)
    (a b : List (List UInt8 × List Bool)) (ha : ∀ x ∈ a, P x.1 x.2) (hb : ∀ x ∈ b, Q x.1 x.2) {r s : List Bool}
    (h : blockFrames a ++ (footerMagic ++ r) = blockFrames b ++ (footerMagic ++ s)) :
    a.map (·.1) = b.map (·.1) := by
  induction a generalizing b with
  | nil =>
    cases b with
    | nil => rfl
    | cons y b =>
      simp only [blockFrames, List.flatMap_nil, List.nil_append, List.flatMap_cons, blockFrame,
        List.append_assoc] at h
      exact absurd h.symm magic_ne
  | cons x a ih =>
    cases b with
    | nil =>
      simp only [blockFrames, List.flatMap_nil, List.nil_append, List.flatMap_cons, blockFrame,
        List.append_assoc] at h
      exact absurd h magic_ne
    | cons y b =>
      simp only [blockFrames, List.flatMap_cons, blockFrame, List.append_assoc] at h
      have h := List.append_cancel_left h
      obtain ⟨-, h⟩ := List.append_inj h (by simp)
      obtain ⟨h1, h2⟩ := hPQ (ha x (by simp)) (hb y (by simp)) h
      have := ih b (fun z hz => ha z (by simp [hz])) (fun z hz => hb z (by simp [hz])) h2
      simp only [List.map_cons, h1, this]

theorem validStream_unique {d e bytes : List UInt8} (h1 : ValidStream d bytes) (h2 : ValidStream e bytes) :
    d = e := by
  obtain ⟨l, a, ⟨-, -, k, -, a1, -⟩, a2, a3⟩ := h1
  obtain ⟨m, b, ⟨-, -, j, -, b1, -⟩, b2, b3⟩ := h2
  rw [a1] at b1
  simp only [List.append_assoc] at b1
  obtain ⟨-, h⟩ := List.append_inj b1 (by simp [streamHeader])
  have := frames_peel_of (ValidBody (100000 * l)) (ValidBody (100000 * m))
    (by
      rintro d e x y r s ⟨p, p1, rfl⟩ ⟨q, q1, rfl⟩ h
      exact body_peel p1 q1 h) a b a3 b3 h
  rw [← a2, ← b2, contents, contents, List.flatMap_def, List.flatMap_def, this]

end Ribzip2
