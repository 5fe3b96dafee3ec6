import Verif.Model.Zle
import Verif.Model.Stats
import Verif.Spec.Zle
namespace Ribzip2
open Spec

/-- Symbols of a pending run of zeros. -/
def runSyms (n : Nat) : List ZleSymbol := if n > 0 then encodeZeroAmount n else []

/-- Pure version of the encoder's loop with `zc` pending zeros. -/
def zleEncode (zc : Nat) : List UInt8 → List ZleSymbol
  | [] => runSyms zc
  | i :: rest => if i = 0 then zleEncode (zc + 1) rest
    else runSyms zc ++ ZleSymbol.number i :: zleEncode 0 rest

theorem reportAll_append {σ : Type} (rep : SymbolReporter σ) (s : σ) (x y : List ZleSymbol) :
    reportAll rep s (x ++ y) = (reportAll rep s x >>= fun s' => reportAll rep s' y) := by
  induction x generalizing s with
  | nil => rfl
  | cons a x ih =>
    simp only [List.cons_append, reportAll, bind_assoc]
    congr 1; funext s'; exact ih s'

theorem zleLoop_eq {σ : Type} (rep : SymbolReporter σ) (d : List UInt8) (zc : Nat)
    (result : List ZleSymbol) (s : σ) :
    zleLoop rep d zc result s =
      (reportAll rep s (zleEncode zc d) >>= fun s' => Res.ok (result ++ zleEncode zc d, s')) := by
  induction d generalizing zc result s with
  | nil =>
    unfold zleLoop zleEncode runSyms
    split <;> simp [reportAll]
  | cons i d ih =>
    unfold zleLoop zleEncode
    split
    · rw [ih]
    · rename_i hi
      rw [reportAll_append]
      simp only [bind_assoc, reportAll]
      unfold runSyms
      split
      · simp only [Res.pure_eq, Res.ok_bind]
        congr 1; funext s'; congr 1; funext s''
        rw [ih]; simp
      · simp only [reportAll, Res.ok_bind]
        congr 1; funext s''
        rw [ih]; simp

theorem zleTransform_eq {σ : Type} (rep : SymbolReporter σ) (s0 : σ) (d : List UInt8) :
    zleTransform rep s0 d =
      (reportAll rep s0 (zleEncode 0 d ++ [ZleSymbol.runA]) >>= fun s =>
        rep.finalize s >>= fun r => Res.ok (zleEncode 0 d, r)) := by
  unfold zleTransform
  rw [zleLoop_eq, reportAll_append]
  simp [reportAll, bind_assoc]

/-! ### Decoding what was encoded -/

/-- A run symbol. -/
def IsRun (s : ZleSymbol) : Prop := s = ZleSymbol.runA ∨ s = ZleSymbol.runB

/-- `l` does not begin with a run symbol. -/
def NoRunHead (l : List Nat) : Prop := ∀ a ∈ l.head?, 2 ≤ a

theorem zleDecode_noRun (w w' : Nat) (l : List Nat) (h : NoRunHead l) :
    zleDecode w l = zleDecode w' l := by
  cases l with
  | nil => rfl
  | cons a l =>
    have : 2 ≤ a := h a (by simp)
    obtain ⟨v, rfl⟩ : ∃ v, a = v + 2 := ⟨a - 2, by omega⟩
    rfl

theorem zeroDigits_spec (fuel m : Nat) (hf : m ≤ fuel) (hm : 0 < m) :
    (∀ s ∈ zeroDigits fuel m, IsRun s) ∧ zeroDigits fuel m ≠ [] ∧
    ∀ (w : Nat) (rest : List Nat), NoRunHead rest →
      zleDecode w ((zeroDigits fuel m).dropLast.map symbolIndex ++ rest) =
        List.replicate (w * (m - 1)) 0 ++ zleDecode 1 rest := by
  induction fuel generalizing m with
  | zero => omega
  | succ fuel ih =>
    unfold zeroDigits
    rw [if_pos hm]
    have hrun : IsRun (convertRemainder (m % 2)) := by
      unfold convertRemainder; split <;> simp [IsRun]
    by_cases h1 : m = 1
    · subst h1
      have hz : zeroDigits fuel (1 / 2) = [] := by
        cases fuel with
        | zero => rfl
        | succ f => rfl
      refine ⟨?_, by simp, ?_⟩
      · intro s hs; rw [hz] at hs; simp at hs; subst hs; exact hrun
      · intro w rest hr
        rw [hz]; simp
        exact zleDecode_noRun _ _ _ hr
    · obtain ⟨g1, g2, g3⟩ := ih (m / 2) (by omega) (by omega)
      refine ⟨?_, by simp, ?_⟩
      · intro s hs
        rcases List.mem_cons.1 hs with rfl | hs
        · exact hrun
        · exact g1 s hs
      · intro w rest hr
        rw [List.dropLast_cons_of_ne_nil g2, List.map_cons, List.cons_append]
        by_cases h0 : m % 2 = 0
        · rw [show symbolIndex (convertRemainder (m % 2)) = 0 by simp [convertRemainder, h0, symbolIndex],
            zleDecode, g3 _ _ hr, ← List.append_assoc, List.replicate_append_replicate]
          congr 2
          have : m = 2 * (m / 2) := by omega
          generalize m / 2 = k at *
          subst this
          obtain ⟨j, rfl⟩ : ∃ j, k = j + 1 := ⟨k - 1, by omega⟩
          rw [show 2 * (j + 1) - 1 = 2 * j + 1 by omega, Nat.add_sub_cancel]
          grind
        · rw [show symbolIndex (convertRemainder (m % 2)) = 1 by simp [convertRemainder, h0, symbolIndex],
            zleDecode, g3 _ _ hr, ← List.append_assoc, List.replicate_append_replicate]
          congr 2
          have : m = 2 * (m / 2) + 1 := by omega
          generalize m / 2 = k at *
          subst this
          obtain ⟨j, rfl⟩ : ∃ j, k = j + 1 := ⟨k - 1, by omega⟩
          rw [show 2 * (j + 1) + 1 - 1 = 2 * (j + 1) by omega, Nat.add_sub_cancel]
          grind

theorem runSyms_isRun (n : Nat) : ∀ s ∈ runSyms n, IsRun s := by
  intro s hs
  unfold runSyms at hs
  split at hs
  · exact (zeroDigits_spec (n + 1) (n + 1) (by omega) (by omega)).1 s (List.dropLast_subset _ hs)
  · simp at hs

theorem zleDecode_runSyms (n : Nat) (rest : List Nat) (hr : NoRunHead rest) :
    zleDecode 1 ((runSyms n).map symbolIndex ++ rest) = List.replicate n 0 ++ zleDecode 1 rest := by
  unfold runSyms
  split
  · rw [encodeZeroAmount, (zeroDigits_spec (n + 1) (n + 1) (by omega) (by omega)).2.2 _ _ hr]
    simp
  · have : n = 0 := by omega
    subst this; simp

/-- The specified decoder inverts the encoder. -/
theorem zleDecode_encode (zc : Nat) (d : List UInt8) :
    zleDecode 1 ((zleEncode zc d).map symbolIndex) = List.replicate zc 0 ++ d.map UInt8.toNat := by
  induction d generalizing zc with
  | nil =>
    have := zleDecode_runSyms zc [] (by simp [NoRunHead])
    simpa [zleEncode, zleDecode] using this
  | cons i d ih =>
    unfold zleEncode
    split
    · rename_i hi
      rw [ih, hi, List.replicate_succ']; simp
    · rename_i hi
      have h0 : i.toNat ≠ 0 := fun h => hi (by
        apply UInt8.toNat_inj.1; simpa using h)
      obtain ⟨v, hv⟩ : ∃ v, i.toNat = v + 1 := ⟨i.toNat - 1, by omega⟩
      rw [List.map_append, List.map_cons, zleDecode_runSyms]
      · have := ih 0
        simp only [List.replicate_zero, List.nil_append] at this
        simp only [symbolIndex, hv, List.map_cons, zleDecode, this]
      · simp [NoRunHead, symbolIndex]; omega

/-- Numbers in an encoding are positive. -/
theorem zleEncode_number (zc : Nat) (d : List UInt8) (n : UInt8)
    (h : ZleSymbol.number n ∈ zleEncode zc d) : n ≠ 0 ∧ n ∈ d := by
  induction d generalizing zc with
  | nil =>
    rcases runSyms_isRun zc _ h with h | h <;> simp at h
  | cons i d ih =>
    unfold zleEncode at h
    split at h
    · have := ih _ h; exact ⟨this.1, by simp [this.2]⟩
    · rename_i hi
      rcases List.mem_append.1 h with h | h
      · rcases runSyms_isRun zc _ h with h | h <;> simp at h
      · rcases List.mem_cons.1 h with h | h
        · simp at h; subst h; exact ⟨hi, by simp⟩
        · have := ih _ h; exact ⟨this.1, by simp [this.2]⟩

/-! ### The library's decoder -/

/-- Number of zeros a run stands for. -/
def runValue : List ZleSymbol → Nat
  | [] => 0
  | s :: rest => (symbolIndex s + 1) + 2 * runValue rest

theorem runValue_lower (z : List ZleSymbol) : 2 ^ z.length ≤ runValue z + 1 := by
  induction z with
  | nil => simp [runValue]
  | cons s z ih => simp only [List.length_cons, runValue]; omega

theorem zleDecode_run (z : List ZleSymbol) (hz : ∀ s ∈ z, IsRun s) (w : Nat) (rest : List Nat)
    (hr : NoRunHead rest) :
    zleDecode w (z.map symbolIndex ++ rest) = List.replicate (w * runValue z) 0 ++ zleDecode 1 rest := by
  induction z generalizing w with
  | nil => simp [runValue]; exact zleDecode_noRun _ _ _ hr
  | cons s z ih =>
    have hz' : ∀ s ∈ z, IsRun s := fun s hs => hz s (by simp [hs])
    have : IsRun s := hz s (by simp)
    rw [List.map_cons, List.cons_append]
    rcases this with rfl | rfl
    · rw [show symbolIndex ZleSymbol.runA = 0 from rfl, zleDecode, ih hz', ← List.append_assoc,
        List.replicate_append_replicate]
      congr 2
      simp only [runValue, symbolIndex]; grind
    · rw [show symbolIndex ZleSymbol.runB = 1 from rfl, zleDecode, ih hz', ← List.append_assoc,
        List.replicate_append_replicate]
      congr 2
      simp only [runValue, symbolIndex]; grind

theorem decodeZeroAmount_fold (z : List ZleSymbol) (hz : ∀ s ∈ z, IsRun s) (hl : z.length ≤ 63) :
    (ZleSymbol.runB :: z.reverse).foldl
      (fun number bit => (number * 2) % 2 ^ 64 + (if bit = ZleSymbol.runB then 1 else 0)) 0
      = runValue z + 1 ∧ runValue z + 1 < 2 ^ (z.length + 1) := by
  induction z with
  | nil => simp [runValue]
  | cons s z ih =>
    have hs : IsRun s := hz s (by simp)
    simp only [List.length_cons] at hl
    obtain ⟨g1, g2⟩ := ih (fun s hs => hz s (by simp [hs])) (by omega)
    have hb : 2 ^ (z.length + 1) ≤ 2 ^ 63 := Nat.pow_le_pow_right (by omega) (by omega)
    rw [List.reverse_cons, ← List.cons_append, List.foldl_append, g1]
    have e : 2 ^ ((s :: z).length + 1) = 2 * 2 ^ (z.length + 1) := by
      rw [List.length_cons, Nat.pow_succ 2 (z.length + 1)]; omega
    rw [e]
    simp only [List.foldl_cons, List.foldl_nil]
    rw [Nat.mod_eq_of_lt (by omega)]
    rcases hs with rfl | rfl
    · simp only [runValue, symbolIndex]; simp; omega
    · simp only [runValue, symbolIndex]; simp; omega

theorem decodeZeroAmount_eq (z : List ZleSymbol) (hz : ∀ s ∈ z, IsRun s)
    (hv : runValue z + 1 ≤ 2 ^ 63) : decodeZeroAmount z = Res.ok (runValue z) := by
  have hl : z.length ≤ 63 := by
    have := runValue_lower z
    by_cases h : z.length ≤ 63
    · exact h
    · have := Nat.pow_le_pow_right (n := 2) (by omega) (show 64 ≤ z.length by omega)
      omega
  unfold decodeZeroAmount
  rw [(decodeZeroAmount_fold z hz hl).1]
  simp only [subU, Nat.le_add_left, if_true, Nat.add_sub_cancel, Res.ok_bind, Res.pure_eq]
  rw [if_pos (by omega)]

theorem decodeZleLoop_eq (syms zeros : List ZleSymbol) (out : List UInt8)
    (hz : ∀ s ∈ zeros, IsRun s)
    (hn : ∀ n, ZleSymbol.number n ∈ syms → n ≠ 0)
    (hlen : (zleDecode 1 ((zeros ++ syms).map symbolIndex)).length + 1 ≤ 2 ^ 63) :
    decodeZleLoop syms zeros out =
      Res.ok (out ++ (zleDecode 1 ((zeros ++ syms).map symbolIndex)).map UInt8.ofNat) := by
  induction syms generalizing zeros out with
  | nil =>
    have e := zleDecode_run zeros hz 1 [] (by simp [NoRunHead])
    simp only [List.append_nil, Nat.one_mul, zleDecode] at e hlen
    rw [List.append_nil, e]
    rw [e] at hlen
    simp only [List.length_replicate] at hlen
    unfold decodeZleLoop
    split
    · rename_i h
      have : zeros = [] := by simpa using h
      subst this; simp [runValue]
    · rw [decodeZeroAmount_eq zeros hz hlen]; simp
  | cons s syms ih =>
    have hn' : ∀ n, ZleSymbol.number n ∈ syms → n ≠ 0 := fun n h => hn n (by simp [h])
    have hrun : ∀ s, IsRun s → (s = ZleSymbol.runA ∨ s = ZleSymbol.runB) := fun _ h => h
    match s with
    | ZleSymbol.runA =>
      rw [decodeZleLoop]
      · rw [ih (zeros ++ [ZleSymbol.runA]) out (by
          intro s hs; rcases List.mem_append.1 hs with h | h
          · exact hz s h
          · simp at h; subst h; exact Or.inl rfl) hn' (by simpa using hlen)]
        simp
      · simp
    | ZleSymbol.runB =>
      rw [decodeZleLoop]
      · rw [ih (zeros ++ [ZleSymbol.runB]) out (by
          intro s hs; rcases List.mem_append.1 hs with h | h
          · exact hz s h
          · simp at h; subst h; exact Or.inr rfl) hn' (by simpa using hlen)]
        simp
      · simp
    | ZleSymbol.number i =>
      have hi : i ≠ 0 := hn i (by simp)
      have h0 : i.toNat ≠ 0 := fun h => hi (by
        apply UInt8.toNat_inj.1; simpa using h)
      obtain ⟨v, hv⟩ : ∃ v, i.toNat = v + 1 := ⟨i.toNat - 1, by omega⟩
      have e := zleDecode_run zeros hz 1 ((ZleSymbol.number i :: syms).map symbolIndex) (by
        simp [NoRunHead, symbolIndex]; omega)
      rw [← List.map_append] at e
      rw [e] at hlen ⊢
      simp only [Nat.one_mul, List.map_cons, symbolIndex, hv, zleDecode, List.length_append,
        List.length_replicate, List.length_cons] at hlen ⊢
      have hiv : UInt8.ofNat (v + 1) = i := by rw [← hv]; simp
      unfold decodeZleLoop
      split
      · rename_i h
        have : zeros = [] := by simpa using h
        subst this
        rw [ih [] _ (by simp) hn' (by simpa using by omega)]
        simp [runValue, hiv]
      · rw [decodeZeroAmount_eq zeros hz (by omega), Res.ok_bind,
          ih [] _ (by simp) hn' (by simpa using by omega)]
        simp [hiv]

/-- The library's zero-run decoder is the specified one as long as the run lengths fit a `usize`. -/
theorem decodeZle_eq (syms : List ZleSymbol)
    (hn : ∀ n, ZleSymbol.number n ∈ syms → n ≠ 0)
    (hlen : (zleDecode 1 (syms.map symbolIndex)).length + 1 ≤ 2 ^ 63) :
    decodeZle syms = Res.ok ((zleDecode 1 (syms.map symbolIndex)).map UInt8.ofNat) := by
  have := decodeZleLoop_eq syms [] [] (by simp) hn (by simpa using hlen)
  simpa [decodeZle] using this

theorem decodeZle_encode (d : List UInt8) (h : d.length + 1 ≤ 2 ^ 63) :
    decodeZle (zleEncode 0 d) = Res.ok d := by
  have e := zleDecode_encode 0 d
  simp only [List.replicate_zero, List.nil_append] at e
  rw [decodeZle_eq _ (fun n hn => (zleEncode_number 0 d n hn).1) (by rw [e]; simpa using h), e,
    List.map_map, show UInt8.ofNat ∘ UInt8.toNat = id by funext x; simp, List.map_id]

end Ribzip2
