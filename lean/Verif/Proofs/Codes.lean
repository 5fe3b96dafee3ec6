import Verif.Proofs.Canonical
namespace Ribzip2
open Spec

/-! ### Canonical codes as numbers -/

theorem sum_filter_le (l : List Nat) (hn : l.Nodup) (p q : Nat → Bool) (f : Nat → Nat) (i : Nat)
    (hi : i ∈ l) (hpi : p i = false) (hqi : q i = true) (hpq : ∀ t ∈ l, p t = true → q t = true) :
    ((l.filter p).map f).sum + f i ≤ ((l.filter q).map f).sum := by
  have mono : ∀ l : List Nat, (∀ t ∈ l, p t = true → q t = true) →
      ((l.filter p).map f).sum ≤ ((l.filter q).map f).sum := by
    intro l
    induction l with
    | nil => simp
    | cons a l ih =>
      intro h
      have := ih (fun t ht => h t (by simp [ht]))
      have ha := h a (by simp)
      rw [List.filter_cons, List.filter_cons]
      by_cases hp : p a = true
      · rw [if_pos hp, if_pos (ha hp)]; simp; exact this
      · rw [if_neg hp]
        split
        · simp; omega
        · exact this
  induction l with
  | nil => simp at hi
  | cons a l ih =>
    rw [List.nodup_cons] at hn
    have hpq' : ∀ t ∈ l, p t = true → q t = true := fun t ht => hpq t (by simp [ht])
    rw [List.filter_cons, List.filter_cons]
    rcases List.mem_cons.1 hi with rfl | hi
    · rw [if_neg (by simp [hpi]), if_pos hqi]
      have := mono l hpq'
      simp; omega
    · have := ih hn.2 hi hpq'
      by_cases hp : p a = true
      · rw [if_pos hp, if_pos (hpq a (by simp) hp)]
        simp; omega
      · rw [if_neg hp]
        split
        · simp; omega
        · exact this

theorem len_mem {ls : List Nat} {s : Nat} (h : s < ls.length) : len ls s ∈ ls := by
  simp [len, h]

theorem kraft_eq_range (L : Nat) (ls : List Nat) :
    kraft L ls = ((List.range ls.length).map fun t => 2 ^ (L - len ls t)).sum := by
  unfold kraft
  congr 1
  apply List.ext_getElem?
  intro i
  by_cases hi : i < ls.length
  · simp [hi, len]
  · rw [List.getElem?_eq_none (by simp; omega), List.getElem?_eq_none (by simp; omega)]

theorem codeBefore_le {ls : List Nat} {t s : Nat} (h : codeBefore ls t s = true) : len ls t ≤ len ls s := by
  simp only [codeBefore, Bool.or_eq_true, Bool.and_eq_true, decide_eq_true_eq] at h; omega

theorem sum_shift (l : List Nat) (g : Nat → Nat) (a b : Nat) (h : ∀ t ∈ l, g t ≤ a) (hab : a ≤ b) :
    (l.map fun t => 2 ^ (b - g t)).sum = (l.map fun t => 2 ^ (a - g t)).sum * 2 ^ (b - a) := by
  induction l with
  | nil => simp
  | cons x l ih =>
    have hx := h x (by simp)
    simp only [List.map_cons, List.sum_cons, Nat.add_mul, ih (fun t ht => h t (by simp [ht]))]
    rw [← Nat.pow_add, show b - g x = a - g x + (b - a) by omega]

theorem codeValue_shift (ls : List Nat) (s b : Nat) (h : len ls s ≤ b) :
    (((List.range ls.length).filter fun t => codeBefore ls t s).map fun t => 2 ^ (b - len ls t)).sum
      = codeValue ls s * 2 ^ (b - len ls s) := by
  unfold codeValue
  apply sum_shift _ _ _ _ _ h
  intro t ht
  exact codeBefore_le (by simpa using (List.mem_filter.1 ht).2)

theorem codeBefore_irrefl (ls : List Nat) (s : Nat) : codeBefore ls s s = false := by
  simp [codeBefore]

theorem codeBefore_trans {ls : List Nat} {a b c : Nat} (h1 : codeBefore ls a b = true)
    (h2 : codeBefore ls b c = true) : codeBefore ls a c = true := by
  simp only [codeBefore, Bool.or_eq_true, Bool.and_eq_true, decide_eq_true_eq] at *; omega

theorem codeBefore_total {ls : List Nat} {a b : Nat} (h : a ≠ b) :
    codeBefore ls a b = true ∨ codeBefore ls b a = true := by
  simp only [codeBefore, Bool.or_eq_true, Bool.and_eq_true, decide_eq_true_eq]; omega

theorem codeValue_lt (L : Nat) (ls : List Nat) (hk : KraftLe L ls) (s : Nat) (hs : s < ls.length) :
    codeValue ls s + 1 ≤ 2 ^ len ls s := by
  have hl := hk.1 _ (len_mem hs)
  have h1 := sum_filter_le (List.range ls.length) List.nodup_range (fun t => codeBefore ls t s)
    (fun _ => true) (fun t => 2 ^ (L - len ls t)) s (by simpa using hs) (codeBefore_irrefl ls s) rfl
    (fun _ _ _ => rfl)
  rw [codeValue_shift ls s L hl, List.filter_eq_self.2 (by simp), ← kraft_eq_range] at h1
  have h2 := hk.2
  have h3 : (codeValue ls s + 1) * 2 ^ (L - len ls s) ≤ 2 ^ len ls s * 2 ^ (L - len ls s) := by
    rw [← Nat.pow_add, Nat.add_sub_cancel' hl, Nat.add_mul, Nat.one_mul]; omega
  exact Nat.le_of_mul_le_mul_right h3 (Nat.pow_pos (by omega))

theorem codeValue_before (ls : List Nat) (i j : Nat) (hi : i < ls.length)
    (h : codeBefore ls i j = true) :
    (codeValue ls i + 1) * 2 ^ (len ls j - len ls i) ≤ codeValue ls j := by
  have h1 := sum_filter_le (List.range ls.length) List.nodup_range (fun t => codeBefore ls t i)
    (fun t => codeBefore ls t j) (fun t => 2 ^ (len ls j - len ls t)) i (by simpa using hi)
    (codeBefore_irrefl ls i) h (fun t _ ht => codeBefore_trans ht h)
  rw [codeValue_shift ls i _ (codeBefore_le h)] at h1
  rw [Nat.add_mul, Nat.one_mul]
  exact h1

@[simp] theorem codeBits_length (ls : List Nat) (s : Nat) : (codeBits ls s).length = len ls s := by
  simp [codeBits]

/-- Canonical codes are prefix-free. -/
theorem codeBits_prefixFree (L : Nat) (ls : List Nat) (hk : KraftLe L ls) (i j : Nat)
    (hi : i < ls.length) (hj : j < ls.length) (hij : i ≠ j) : ¬ codeBits ls i <+: codeBits ls j := by
  rintro ⟨suffix, e⟩
  have hlen : len ls i + suffix.length = len ls j := by
    have := congrArg List.length e
    simpa using this
  have hval : codeValue ls i * 2 ^ suffix.length + bitsToNat suffix = codeValue ls j := by
    have := congrArg bitsToNat e
    rw [bitsToNat_append, codeBits, codeBits, bitsToNat_natToBits, bitsToNat_natToBits,
      Nat.mod_eq_of_lt (codeValue_lt L ls hk i hi), Nat.mod_eq_of_lt (codeValue_lt L ls hk j hj)] at this
    exact this
  have hb := bitsToNat_lt suffix
  have hsub : len ls j - len ls i = suffix.length := by omega
  rcases codeBefore_total (ls := ls) hij with h | h
  · have := codeValue_before ls i j hi h
    rw [hsub, Nat.add_mul, Nat.one_mul] at this
    omega
  · have h1 := codeValue_before ls j i hj h
    have h2 := codeBefore_le h
    have h3 : suffix.length = 0 := by omega
    rw [show len ls i - len ls j = 0 by omega] at h1
    rw [h3] at hval hb
    simp at hval hb h1
    omega

/-! ### Tables over the alphabet of a block -/

/-- The symbol with number `i` of an alphabet of `n` symbols. -/
def symbolAt (n i : Nat) : HSym := if i + 1 = n then HSym.eob else HSym.normal (symbolOfIndex i)

/-- The entries `(length, symbol)` of a table, in the order of the symbols. -/
def entriesOf (ls : List Nat) : List CodeTableEntry :=
  (List.range ls.length).map fun i => ⟨len ls i, symbolAt ls.length i⟩

/-- The table of canonical codes. -/
def canonTable (ls : List Nat) : List CanonicalEntry :=
  (List.range ls.length).map fun i => ⟨codeBits ls i, symbolAt ls.length i⟩

theorem symbolAt_rank (n i : Nat) (hn : n ≤ 258) (hi : i < n) :
    (symbolAt n i).rank = if i + 1 = n then 1000 else if i < 2 then i else i + 1 := by
  unfold symbolAt
  split
  · rfl
  · match i with
    | 0 => rfl
    | 1 => rfl
    | i + 2 =>
      simp only [symbolOfIndex, HSym.rank, ZleSymbol.rank]
      rw [UInt8.toNat_ofNat_of_lt' (show i + 2 - 1 < 256 by omega), if_neg (by omega)]
      omega

theorem symbolAt_rank_lt (n i j : Nat) (hn : n ≤ 258) (hj : j < n) (hij : i < j) :
    (symbolAt n i).rank < (symbolAt n j).rank := by
  rw [symbolAt_rank n i hn (by omega), symbolAt_rank n j hn hj]
  split <;> split <;> (try split) <;> (try split) <;> omega

theorem symbolAt_inj (n i j : Nat) (hn : n ≤ 258) (hi : i < n) (hj : j < n)
    (h : symbolAt n i = symbolAt n j) : i = j := by
  rcases Nat.lt_trichotomy i j with h1 | h1 | h1
  · have := symbolAt_rank_lt n i j hn hj h1; rw [h] at this; omega
  · exact h1
  · have := symbolAt_rank_lt n j i hn hi h1; rw [h] at this; omega

theorem entriesOf_pairwise (ls : List Nat) (hn : ls.length ≤ 258) :
    (entriesOf ls).Pairwise (fun x y => x.symbol.rank < y.symbol.rank) := by
  unfold entriesOf
  rw [List.pairwise_map]
  apply List.Pairwise.imp_of_mem _ (List.pairwise_lt_range (n := ls.length))
  intro i j _ hj hij
  exact symbolAt_rank_lt _ _ _ hn (by simpa using hj) hij

theorem room_entriesOf (L : Nat) (ls : List Nat) : room L (entriesOf ls) = kraft L ls := by
  rw [kraft_eq_range, room, entriesOf, List.map_map]; rfl

theorem cteLe_codeBefore (ls : List Nat) (hn : ls.length ≤ 258) (t s : Nat) (ht : t < ls.length)
    (hs : s < ls.length) :
    (!(CodeTableEntry.le ⟨len ls s, symbolAt ls.length s⟩ ⟨len ls t, symbolAt ls.length t⟩))
      = codeBefore ls t s := by
  have hr : (symbolAt ls.length s).rank ≤ (symbolAt ls.length t).rank ↔ s ≤ t := by
    rcases Nat.lt_trichotomy s t with h | h | h
    · have := symbolAt_rank_lt _ s t hn ht h; omega
    · subst h; omega
    · have := symbolAt_rank_lt _ t s hn hs h; omega
  rw [Bool.eq_iff_iff]
  simp only [CodeTableEntry.le, codeBefore, Bool.not_eq_true', Bool.or_eq_false_iff,
    Bool.and_eq_false_iff, decide_eq_false_iff_not, Bool.or_eq_true, Bool.and_eq_true,
    decide_eq_true_eq, hr, beq_eq_false_iff_ne]
  omega

theorem codeVal_entriesOf (ls : List Nat) (hn : ls.length ≤ 258) (s : Nat) (hs : s < ls.length) :
    codeVal (entriesOf ls) ⟨len ls s, symbolAt ls.length s⟩ = codeValue ls s := by
  unfold codeVal codeValue room entriesOf
  rw [List.filter_map, List.map_map]
  have : (List.range ls.length).filter ((fun x => !(CodeTableEntry.le ⟨len ls s, symbolAt ls.length s⟩ x)) ∘
      fun i => (⟨len ls i, symbolAt ls.length i⟩ : CodeTableEntry)) =
      (List.range ls.length).filter fun t => codeBefore ls t s := by
    apply List.filter_congr
    intro t ht
    exact cteLe_codeBefore ls hn t s (by simpa using ht) hs
  rw [this]
  rfl

/-- `canonicalize` computes the canonical codes of the specification. -/
theorem canonicalize_spec (L : Nat) (hL : L ≤ 63) (ls : List Nat) (T : List CodeTableEntry)
    (hp : T.Perm (entriesOf ls)) (hn : ls.length ≤ 258) (hne : ls ≠ []) (hk : KraftLe L ls) :
    canonicalize T = Res.ok (canonTable ls) := by
  rw [canonicalize_eq L hL (entriesOf ls) T hp (entriesOf_pairwise ls hn) ?_ ?_ ?_]
  · congr 1
    unfold canonTable
    conv => lhs; arg 2; rw [entriesOf]
    rw [List.map_map]
    apply List.map_congr_left
    intro i hi
    have hi : i < ls.length := by simpa using hi
    simp only [Function.comp, codeEntry, codeVal_entriesOf ls hn i hi, codeBits]
  · unfold entriesOf
    intro e
    have := congrArg List.length e
    simp at this
    exact hne this
  · intro x hx
    unfold entriesOf at hx
    obtain ⟨i, hi, rfl⟩ := List.mem_map.1 hx
    exact hk.1 _ (len_mem (by simpa using hi))
  · rw [room_entriesOf]; exact hk.2

theorem fromWeights_eq (ls : List UInt8) (h3 : 3 ≤ ls.length) (h258 : ls.length ≤ 258) :
    fromWeights ls = Res.ok (entriesOf (ls.map UInt8.toNat)) := by
  unfold fromWeights
  rw [subU, if_pos h3, Res.ok_bind, if_pos (by omega), Res.pure_eq]
  congr 1
  apply List.ext_getElem?
  intro i
  unfold entriesOf
  rw [List.length_map]
  by_cases hi : i < ls.length
  · rw [getElem?_range_map']
    · rw [List.getElem?_map, (List.getElem?_zip_eq_some (z := (symbolAt ls.length i, ls[i]))).2 ⟨?_, by simp [hi]⟩]
      · simp [len, hi]
      · unfold symbolAt
        by_cases he : i + 1 = ls.length
        · rw [if_pos he, List.getElem?_append_right (by simp; omega)]
          have : i - (i - 2 + 1 + 1) = 0 := by omega
          simp [← he, this]
        · rw [if_neg he, List.getElem?_append_left (by simp; omega)]
          match i with
          | 0 => rfl
          | 1 => rfl
          | i + 2 =>
            rw [List.getElem?_append_right (by simp)]
            simp only [List.length_cons, List.length_nil]
            rw [getElem?_range_map' _ _ _ (by omega)]
            simp only [symbolOfIndex]
            congr 5
    · exact hi
  · rw [List.getElem?_eq_none (by simp; omega), List.getElem?_eq_none (by simp; omega)]
where
  getElem?_range_map' {α : Type} (f : Nat → α) (n i : Nat) (h : i < n) :
    ((List.range n).map f)[i]? = some (f i) := by simp [h]

/-! ### Looking up codes -/

theorem readFromTable_code (L : Nat) (ls : List Nat) (hk : KraftLe L ls) (i : Nat) (hi : i < ls.length) :
    readFromTable (canonTable ls) (codeBits ls i) = some (symbolAt ls.length i) := by
  unfold readFromTable canonTable
  rw [List.find?_map]
  have : (List.range ls.length).find? ((fun e : CanonicalEntry => e.code == codeBits ls i) ∘
      fun i => ⟨codeBits ls i, symbolAt ls.length i⟩) = some i := by
    rw [List.find?_range_eq_some]
    refine ⟨by simp, by simpa using hi, ?_⟩
    intro j hj
    simp only [Function.comp, Bool.not_eq_true', beq_eq_false_iff_ne, ne_eq]
    intro e
    exact codeBits_prefixFree L ls hk j i (by omega) hi (by omega) (by rw [e]; exact List.prefix_refl _)
  rw [this]; rfl

theorem readFromTable_prefix (L : Nat) (ls : List Nat) (hk : KraftLe L ls) (i : Nat) (hi : i < ls.length)
    (p s : List Bit) (hs : s ≠ []) (hps : p ++ s = codeBits ls i) :
    readFromTable (canonTable ls) p = none := by
  unfold readFromTable canonTable
  rw [Option.map_eq_none_iff, List.find?_eq_none]
  intro e he
  obtain ⟨j, hj, rfl⟩ := List.mem_map.1 he
  simp only [beq_iff_eq]
  intro e2
  have hpre : codeBits ls j <+: codeBits ls i := ⟨s, by rw [e2, hps]⟩
  by_cases hij : j = i
  · subst hij
    have := congrArg List.length hps
    rw [← e2, List.length_append] at this
    have : s.length = 0 := by omega
    exact hs (List.eq_nil_of_length_eq_zero this)
  · exact codeBits_prefixFree L ls hk j i (by simpa using hj) hi hij hpre

theorem codeOf_canonTable (ls : List Nat) (hn : ls.length ≤ 258) (i : Nat) (hi : i < ls.length) :
    (canonTable ls).find? (fun e => e.symbol == symbolAt ls.length i)
      = some ⟨codeBits ls i, symbolAt ls.length i⟩ := by
  unfold canonTable
  rw [List.find?_map]
  have : (List.range ls.length).find? ((fun e : CanonicalEntry => e.symbol == symbolAt ls.length i) ∘
      fun i => ⟨codeBits ls i, symbolAt ls.length i⟩) = some i := by
    rw [List.find?_range_eq_some]
    refine ⟨by simp, by simpa using hi, ?_⟩
    intro j hj
    simp only [Function.comp, Bool.not_eq_true', beq_eq_false_iff_ne, ne_eq]
    intro e
    have := symbolAt_inj _ j i hn (by omega) hi e
    omega
  rw [this]; rfl

/-! ### Reading symbols -/

theorem pSymbolsLoop_one (L : Nat) (ls : List Nat) (hk : KraftLe L ls) (hpos : ∀ l ∈ ls, 1 ≤ l)
    (i : Nat) (hi : i < ls.length) (m : Nat) (rest : List Bit) (all : List ZleSymbol) (k : Nat)
    (hkm : k < m) :
    pSymbolsLoop (canonTable ls) m (codeBits ls i ++ rest) all [] k =
      (match symbolAt ls.length i with
       | HSym.normal s =>
         if k + 1 = m then Res.ok (all ++ [s], rest)
         else pSymbolsLoop (canonTable ls) m rest (all ++ [s]) [] (k + 1)
       | HSym.eob => Res.ok (all, rest)) := by
  have hlen : 1 ≤ (codeBits ls i).length := by rw [codeBits_length]; exact hpos _ (len_mem hi)
  suffices ∀ (suf pre : List Bit), suf ≠ [] → pre ++ suf = codeBits ls i →
      pSymbolsLoop (canonTable ls) m (suf ++ rest) all pre k =
      (match symbolAt ls.length i with
       | HSym.normal s =>
         if k + 1 = m then Res.ok (all ++ [s], rest)
         else pSymbolsLoop (canonTable ls) m rest (all ++ [s]) [] (k + 1)
       | HSym.eob => Res.ok (all, rest)) by
    exact this (codeBits ls i) [] (by intro e; rw [e] at hlen; simp at hlen) rfl
  intro suf
  induction suf with
  | nil => intro _ h; simp at h
  | cons b suf ih =>
    intro pre _ hps
    rw [List.cons_append, pSymbolsLoop]
    by_cases hs : suf = []
    · subst hs
      rw [hps, readFromTable_code L ls hk i hi]
      cases symbolAt ls.length i <;> rfl
    · rw [readFromTable_prefix L ls hk i hi (pre ++ [b]) suf hs (by simpa using hps)]
      simp only
      rw [if_neg (by omega)]
      exact ih (pre ++ [b]) hs (by simpa using hps)

/-- Numbers of symbols to symbols. -/
def normalSym (i : Nat) : ZleSymbol := symbolOfIndex i

theorem pSymbolsLoop_many (L : Nat) (ls : List Nat) (hk : KraftLe L ls) (hpos : ∀ l ∈ ls, 1 ≤ l)
    (syms : List Nat) (hs : ∀ i ∈ syms, i + 1 < ls.length) (m : Nat) (rest : List Bit)
    (all : List ZleSymbol) (k : Nat) (hkm : k + syms.length < m) :
    pSymbolsLoop (canonTable ls) m (syms.flatMap (codeBits ls) ++ rest) all [] k =
      pSymbolsLoop (canonTable ls) m rest (all ++ syms.map symbolOfIndex) [] (k + syms.length) := by
  induction syms generalizing all k with
  | nil => simp
  | cons i syms ih =>
    have hi := hs i (by simp)
    simp only [List.length_cons] at hkm
    rw [List.flatMap_cons, List.append_assoc,
      pSymbolsLoop_one L ls hk hpos i (by omega) m _ all k (by omega), symbolAt, if_neg (by omega)]
    simp only
    rw [if_neg (by omega), ih (fun j hj => hs j (by simp [hj])) _ _ (by omega)]
    simp only [List.map_cons, List.length_cons, List.append_assoc, List.singleton_append]
    rw [show k + 1 + syms.length = k + (syms.length + 1) by omega]

/-- A full group of `m` symbols. -/
theorem pSymbols_full (L : Nat) (ls : List Nat) (hk : KraftLe L ls) (hpos : ∀ l ∈ ls, 1 ≤ l)
    (syms : List Nat) (hs : ∀ i ∈ syms, i + 1 < ls.length) (hne : syms ≠ []) (rest : List Bit) :
    pSymbols (canonTable ls) syms.length (syms.flatMap (codeBits ls) ++ rest) =
      Res.ok (syms.map symbolOfIndex, rest) := by
  have e := List.dropLast_concat_getLast hne
  generalize hd : syms.dropLast = pre at e
  generalize hg : syms.getLast hne = i at e
  subst e
  have hi := hs i (by simp)
  rw [pSymbols, List.flatMap_append, List.append_assoc,
    pSymbolsLoop_many L ls hk hpos pre (fun j hj => hs j (by simp [hj])) _ _ _ _ (by simp)]
  simp only [List.flatMap_cons, List.flatMap_nil, List.append_nil]
  rw [pSymbolsLoop_one L ls hk hpos i (by omega) _ _ _ _ (by simp), symbolAt, if_neg (by omega)]
  simp

/-- A group ended by the end-of-block symbol. -/
theorem pSymbols_eob (L : Nat) (ls : List Nat) (hk : KraftLe L ls) (hpos : ∀ l ∈ ls, 1 ≤ l)
    (syms : List Nat) (hs : ∀ i ∈ syms, i + 1 < ls.length) (hne : ls ≠ []) (m : Nat)
    (hm : syms.length < m) (rest : List Bit) :
    pSymbols (canonTable ls) m (syms.flatMap (codeBits ls) ++ codeBits ls (ls.length - 1) ++ rest) =
      Res.ok (syms.map symbolOfIndex, rest) := by
  have hl : 0 < ls.length := List.length_pos_iff.2 hne
  rw [pSymbols, List.append_assoc, pSymbolsLoop_many L ls hk hpos syms hs _ _ _ _ (by omega),
    pSymbolsLoop_one L ls hk hpos _ (by omega) _ _ _ _ (by omega), symbolAt, if_pos (by omega)]
  simp

end Ribzip2
