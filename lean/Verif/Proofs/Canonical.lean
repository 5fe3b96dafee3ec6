import Mathlib.Algebra.BigOperators.Group.List.Basic
import Verif.Proofs.Decoder
import Verif.Proofs.Sort
import Verif.Spec.Huffman
namespace Ribzip2
open Spec

theorem pairwise_forall {α : Type} {R : α → α → Prop} {l : List α} (hs : ∀ a b, R a b → R b a)
    (hr : ∀ a ∈ l, R a a) (h : l.Pairwise R) : ∀ a b, a ∈ l → b ∈ l → R a b := by
  induction l with
  | nil => simp
  | cons c l ih =>
    rw [List.pairwise_cons] at h
    intro a b ha hb
    rcases List.mem_cons.1 ha with e1 | h1 <;> rcases List.mem_cons.1 hb with e2 | h2
    · rw [e1, e2]; exact hr _ (by simp)
    · rw [e1]; exact h.1 b h2
    · rw [e2]; exact hs _ _ (h.1 a h1)
    · exact ih (fun x hx => hr x (by simp [hx])) h.2 a b h1 h2

/-! ### The order of the sort -/

theorem cteLe_total (x y : CodeTableEntry) : CodeTableEntry.le x y = true ∨ CodeTableEntry.le y x = true := by
  simp only [CodeTableEntry.le, Bool.or_eq_true, Bool.and_eq_true, decide_eq_true_eq, beq_iff_eq]
  omega

theorem cteLe_trans (x y z : CodeTableEntry) (h1 : CodeTableEntry.le x y = true)
    (h2 : CodeTableEntry.le y z = true) : CodeTableEntry.le x z = true := by
  simp only [CodeTableEntry.le, Bool.or_eq_true, Bool.and_eq_true, decide_eq_true_eq, beq_iff_eq] at *
  omega

/-- Symbols have pairwise different ranks. -/
def RankInj (E : List CodeTableEntry) : Prop := E.Pairwise (fun x y => x.symbol.rank ≠ y.symbol.rank)

theorem cteLe_antisymm {E : List CodeTableEntry} (hE : RankInj E) {x y : CodeTableEntry} (hx : x ∈ E)
    (hy : y ∈ E) (h1 : CodeTableEntry.le x y = true) (h2 : CodeTableEntry.le y x = true) : x = y := by
  by_contra hne
  have hr : x.symbol.rank ≠ y.symbol.rank := by
    have := pairwise_forall (R := fun x y : CodeTableEntry => x ≠ y → x.symbol.rank ≠ y.symbol.rank)
      (l := E) (fun a b h hn e => h hn.symm e.symm) (fun a _ hn => absurd rfl hn)
      (List.Pairwise.imp (S := fun x y : CodeTableEntry => x ≠ y → x.symbol.rank ≠ y.symbol.rank)
        (fun h _ => h) hE) x y hx hy
    exact this hne
  simp only [CodeTableEntry.le, Bool.or_eq_true, Bool.and_eq_true, decide_eq_true_eq, beq_iff_eq] at *
  omega

theorem stableSort_of_perm {α : Type} (le : α → α → Bool)
    (total : ∀ a b, le a b = true ∨ le b a = true)
    (trans : ∀ a b c, le a b = true → le b c = true → le a c = true) {l₁ l₂ : List α}
    (hp : l₁.Perm l₂) (anti : ∀ a b, a ∈ l₁ → b ∈ l₁ → le a b = true → le b a = true → a = b) :
    stableSort le l₁ = stableSort le l₂ := by
  have hp' : (stableSort le l₁).Perm (stableSort le l₂) :=
    ((stableSort_perm le l₁).trans hp).trans (stableSort_perm le l₂).symm
  exact hp'.eq_of_pairwise (fun a b ha hb h1 h2 =>
    anti a b (mem_stableSort.1 ha) (hp.mem_iff.2 (mem_stableSort.1 hb)) h1 h2)
    (stableSort_sorted le total trans l₁) (stableSort_sorted le total trans l₂)

/-! ### Codes handed out along a sorted list -/

/-- Sum of the room taken by the entries of `pre` among codes of length `l`. -/
def room (l : Nat) (pre : List CodeTableEntry) : Nat := (pre.map fun x => 2 ^ (l - x.code)).sum

theorem room_append (l : Nat) (a b : List CodeTableEntry) : room l (a ++ b) = room l a + room l b := by
  simp [room]

theorem room_shift (l l' : Nat) (pre : List CodeTableEntry) (h : ∀ x ∈ pre, x.code ≤ l) (hl : l ≤ l') :
    room l' pre = room l pre * 2 ^ (l' - l) := by
  induction pre with
  | nil => simp [room]
  | cons x pre ih =>
    have hx := h x (by simp)
    have ih := ih (fun y hy => h y (by simp [hy]))
    simp only [room, List.map_cons, List.sum_cons, Nat.add_mul] at *
    rw [ih, ← Nat.pow_add, show l' - x.code = l - x.code + (l' - l) by omega]

/-- The codes handed out after the entries `pre`. -/
def codesFrom (pre : List CodeTableEntry) : List CodeTableEntry → List CanonicalEntry
  | [] => []
  | e :: rest => ⟨natToBits e.code (room e.code pre), e.symbol⟩ :: codesFrom (pre ++ [e]) rest

theorem natToBits_shift (n k v : Nat) : natToBits n v ++ List.replicate k false = natToBits (n + k) (v * 2 ^ k) := by
  apply bitsToNat_inj
  · simp
  · rw [bitsToNat_append, bitsToNat_natToBits, bitsToNat_natToBits]
    have : bitsToNat (List.replicate k false) = 0 := by
      have := bitsToNat_replicate_false k []
      simpa [bitsToNat] using this
    rw [this, List.length_replicate, Nat.add_zero, Nat.pow_add, Nat.mul_mod_mul_right]

theorem canonicalLoop_eq (L : Nat) (hL : L ≤ 63) (pre rest : List CodeTableEntry) (last : CodeTableEntry)
    (v : Nat) (hv : v + 1 = room last.code (pre ++ [last]))
    (hpre : ∀ x ∈ pre, x.code ≤ last.code)
    (hsorted : (last :: rest).Pairwise (fun x y => x.code ≤ y.code))
    (hbound : ∀ x ∈ last :: rest, x.code ≤ L)
    (hk : room L (pre ++ [last]) + room L rest ≤ 2 ^ L) :
    canonicalLoop (natToBits last.code v) rest = Res.ok (codesFrom (pre ++ [last]) rest) := by
  induction rest generalizing pre last v with
  | nil => rfl
  | cons e rest ih =>
    have hpre' : ∀ x ∈ pre ++ [last], x.code ≤ last.code := by
      intro x hx
      rcases List.mem_append.1 hx with h | h
      · exact hpre x h
      · simp at h; subst h; exact Nat.le_refl _
    have hll : last.code ≤ L := hbound last (by simp)
    have heL : e.code ≤ L := hbound e (by simp)
    have hle : last.code ≤ e.code := (List.pairwise_cons.1 hsorted).1 e (by simp)
    have hkv : room L (pre ++ [last]) = (v + 1) * 2 ^ (L - last.code) := by
      rw [hv]; exact room_shift _ _ _ hpre' hll
    have hepos : 0 < room L (e :: rest) := by
      simp only [room, List.map_cons, List.sum_cons]
      have := Nat.pow_pos (n := L - e.code) (show 0 < 2 by omega)
      omega
    have hlt : v + 1 < 2 ^ last.code := by
      have h1 : (v + 1) * 2 ^ (L - last.code) < 2 ^ last.code * 2 ^ (L - last.code) := by
        rw [← Nat.pow_add, Nat.add_sub_cancel' hll]; omega
      exact Nat.lt_of_mul_lt_mul_right h1
    have h64 : v + 1 < 2 ^ 64 := by
      have := Nat.pow_le_pow_right (n := 2) (by omega) (show last.code ≤ 64 by omega)
      omega
    rw [canonicalLoop]
    have hinc : incrementSymbol (natToBits last.code v) = Res.ok (natToBits last.code (v + 1)) := by
      unfold incrementSymbol
      rw [convertToNumber_eq, bitsToNat_natToBits, Nat.mod_eq_of_lt (by omega), if_pos h64]
      rw [show (natToBits last.code v).length = last.code by simp, convertToCodePadToNBits_eq _ _ hlt]
    rw [hinc, Res.ok_bind]
    simp only [natToBits_length]
    rw [natToBits_shift, Nat.add_sub_cancel' hle]
    have hroom : (v + 1) * 2 ^ (e.code - last.code) = room e.code (pre ++ [last]) := by
      rw [hv]; exact (room_shift _ _ _ hpre' hle).symm
    rw [hroom]
    have := ih (pre ++ [last]) e (room e.code (pre ++ [last])) (by
        rw [room_append e.code (pre ++ [last]) [e]]; simp [room])
      (fun x hx => Nat.le_trans (hpre' x hx) hle) (List.pairwise_cons.1 hsorted).2
      (fun x hx => hbound x (by simp only [List.mem_cons] at hx ⊢; exact Or.inr hx))
      (by
        rw [room_append]
        have e2 : room L (e :: rest) = room L [e] + room L rest := by simp [room]
        omega)
    rw [this, Res.ok_bind]
    rfl

/-- Value of the code of `e` in a set of entries: room taken by the entries before it. -/
def codeVal (E : List CodeTableEntry) (e : CodeTableEntry) : Nat :=
  room e.code (E.filter fun x => !(CodeTableEntry.le e x))

theorem codeVal_perm {E E' : List CodeTableEntry} (h : E.Perm E') (e : CodeTableEntry) :
    codeVal E e = codeVal E' e := by
  unfold codeVal room
  exact ((h.filter _).map _).sum_eq

/-- Strictly sorted. -/
def StrictSorted (E : List CodeTableEntry) : Prop :=
  E.Pairwise (fun x y => CodeTableEntry.le x y = true ∧ CodeTableEntry.le y x = false)

theorem codesFrom_eq (pre rest : List CodeTableEntry) (h : StrictSorted (pre ++ rest)) :
    codesFrom pre rest = rest.map fun e => ⟨natToBits e.code (codeVal (pre ++ rest) e), e.symbol⟩ := by
  induction rest generalizing pre with
  | nil => rfl
  | cons e rest ih =>
    rw [codesFrom, List.map_cons]
    congr 1
    · congr 2
      unfold codeVal
      congr 1
      rw [List.filter_append, List.filter_cons]
      unfold StrictSorted at h
      rw [List.pairwise_append] at h
      obtain ⟨_, h2, h3⟩ := h
      rw [List.pairwise_cons] at h2
      have hee : CodeTableEntry.le e e = true := (cteLe_total e e).elim id id
      have hr : rest.filter (fun x => !(CodeTableEntry.le e x)) = [] := by
        rw [List.filter_eq_nil_iff]
        intro x hx
        simp [(h2.1 x hx).1]
      have hp : pre.filter (fun x => !(CodeTableEntry.le e x)) = pre := by
        rw [List.filter_eq_self]
        intro x hx
        simp [(h3 x hx e (by simp)).2]
      rw [hp, hr]
      simp [hee]
    · rw [ih (pre ++ [e]) (by simpa using h)]
      simp

theorem strictSorted_stableSort (E : List CodeTableEntry) (hE : RankInj E) :
    StrictSorted (stableSort CodeTableEntry.le E) := by
  have h1 := stableSort_sorted CodeTableEntry.le cteLe_total cteLe_trans E
  have h2 : (stableSort CodeTableEntry.le E).Pairwise (fun x y => x.symbol.rank ≠ y.symbol.rank) :=
    (stableSort_perm _ E).symm.pairwise hE (fun h => h.symm)
  refine (h1.and h2).imp ?_
  rintro x y ⟨h1, h2⟩
  refine ⟨h1, ?_⟩
  rw [Bool.eq_false_iff]
  intro h3
  simp only [CodeTableEntry.le, Bool.or_eq_true, Bool.and_eq_true, decide_eq_true_eq, beq_iff_eq] at *
  omega

/-- The entry's code in the table `E`. -/
def codeEntry (E : List CodeTableEntry) (e : CodeTableEntry) : CanonicalEntry :=
  ⟨natToBits e.code (codeVal E e), e.symbol⟩

/-- `canonicalize` gives each entry its canonical code, in the order of the symbols. -/
theorem canonicalize_eq (L : Nat) (hL : L ≤ 63) (E T : List CodeTableEntry) (hp : T.Perm E)
    (hE : E.Pairwise (fun x y => x.symbol.rank < y.symbol.rank)) (hne : E ≠ [])
    (hbound : ∀ x ∈ E, x.code ≤ L) (hk : room L E ≤ 2 ^ L) :
    canonicalize T = Res.ok (E.map (codeEntry E)) := by
  have hinj : RankInj E := hE.imp (fun h => by omega)
  have hinjT : RankInj T := hp.symm.pairwise hinj (fun h => h.symm)
  have hS := strictSorted_stableSort T hinjT
  have hSp : (stableSort CodeTableEntry.le T).Perm E := (stableSort_perm _ T).trans hp
  unfold canonicalize
  cases hs : stableSort CodeTableEntry.le T with
  | nil => rw [hs] at hSp; exact absurd hSp.symm.eq_nil hne
  | cons first rest =>
    rw [hs] at hS hSp
    have hloop := canonicalLoop_eq L hL [] rest first 0 (by simp [room]) (by simp)
      (hS.imp (fun h => by
        have := h.1
        simp only [CodeTableEntry.le, Bool.or_eq_true, Bool.and_eq_true, decide_eq_true_eq, beq_iff_eq] at this
        omega))
      (fun x hx => hbound x (hSp.mem_iff.1 hx)) (by
        rw [← room_append]
        have : room L ([] ++ [first] ++ rest) = room L E := by
          unfold room; exact (hSp.map _).sum_eq
        omega)
    have hz : natToBits first.code 0 = List.replicate first.code false := by
      have := natToBits_pad first.code 0 0 (by simp)
      simpa [natToBits] using this
    rw [hz] at hloop
    dsimp only
    rw [hloop, Res.ok_bind, Res.pure_eq]
    congr 1
    have hcodes := codesFrom_eq [] (first :: rest) (by simpa using hS)
    have hfirst : codesFrom [] (first :: rest) =
        ⟨List.replicate first.code false, first.symbol⟩ :: codesFrom ([] ++ [first]) rest := by
      rw [codesFrom]; simp [room, hz]
    rw [← hfirst, hcodes]
    have hval : ((first :: rest).map fun e => (⟨natToBits e.code (codeVal ([] ++ (first :: rest)) e), e.symbol⟩ : CanonicalEntry))
        = (first :: rest).map (codeEntry E) := by
      apply List.map_congr_left
      intro e _
      rw [codeEntry, List.nil_append, codeVal_perm hSp]
    rw [hval]
    have hpm : ((first :: rest).map (codeEntry E)).Perm (E.map (codeEntry E)) := hSp.map _
    have hEs : (E.map (codeEntry E)).Pairwise (fun x y => x.symbol.rank < y.symbol.rank) := by
      rw [List.pairwise_map]; exact hE
    have hsorted : stableSort (fun x y : CanonicalEntry => decide (x.symbol.rank ≤ y.symbol.rank))
        (E.map (codeEntry E)) = E.map (codeEntry E) :=
      stableSort_of_pairwise _ _ (hEs.imp (fun h => by simp; omega))
    rw [← hsorted]
    have hinj2 : ∀ a b : CanonicalEntry, a ∈ E.map (codeEntry E) → b ∈ E.map (codeEntry E) →
        a.symbol.rank = b.symbol.rank → a = b := by
      intro a b ha hb
      exact pairwise_forall (R := fun a b : CanonicalEntry => a.symbol.rank = b.symbol.rank → a = b)
        (fun a b h e => (h e.symm).symm) (fun a _ _ => rfl) (hEs.imp (fun h e => by omega)) a b ha hb
    exact stableSort_of_perm _ (by intro a b; simp; omega) (by intro a b c; simp; omega) hpm
      (by
        intro a b ha hb h1 h2
        simp only [decide_eq_true_eq] at h1 h2
        exact hinj2 a b (hpm.mem_iff.1 ha) (hpm.mem_iff.1 hb) (by omega))

end Ribzip2
