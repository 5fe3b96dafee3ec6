import Verif.Model.Crc
import Verif.Spec.Crc
import Verif.Proofs.Bits
namespace Ribzip2
open Spec

/-! ### Linearity of the shift register -/

theorem crcBit_linear (r s : BitVec 32) (b c : Bool) :
    crcBit (r ^^^ s) (b != c) = crcBit r b ^^^ crcBit s c := by
  have h : (r ^^^ s).msb = (r.msb != s.msb) := by simp
  have h2 : (r ^^^ s) <<< 1 = (r <<< 1) ^^^ (s <<< 1) := by
    exact BitVec.shiftLeft_xor_distrib r s 1
  unfold crcBit
  rw [h, h2]
  generalize r <<< 1 = x
  generalize s <<< 1 = y
  cases r.msb <;> cases s.msb <;> cases b <;> cases c <;>
    (simp; try (first | ac_rfl | (rw [show ∀ p : BitVec 32, x ^^^ p ^^^ (y ^^^ p) = x ^^^ y ^^^ (p ^^^ p) from fun p => by ac_rfl]; simp)))

theorem crcFold_linear (l1 l2 : List Bool) (r s : BitVec 32) (h : l1.length = l2.length) :
    (List.zipWith (fun b c => b != c) l1 l2).foldl crcBit (r ^^^ s)
      = l1.foldl crcBit r ^^^ l2.foldl crcBit s := by
  induction l1 generalizing l2 r s with
  | nil => cases l2 <;> simp_all
  | cons b l1 ih =>
    cases l2 with
    | nil => simp at h
    | cons c l2 =>
      simp only [List.zipWith_cons_cons, List.foldl_cons, crcBit_linear]
      exact ih _ _ _ (by simpa using h)

def zeros8 : List Bool := List.replicate 8 false

theorem fold8_self : ∀ d : Fin 256,
    (byteBits (UInt8.ofNat d.val)).foldl crcBit (BitVec.ofNat 32 d.val <<< 24) = 0#32 := by
  decide +kernel

theorem fold8_table : ∀ d : Fin 256,
    zeros8.foldl crcBit (BitVec.ofNat 32 d.val <<< 24) = crcTable.getD d.val 0 := by
  decide +kernel

attribute [local irreducible] crcTable

theorem crcBit_false_small (r : BitVec 32) (h : r.toNat < 2 ^ 31) : crcBit r false = r <<< 1 := by
  have : r.msb = false := by
    rw [BitVec.msb_eq_decide]; simp; omega
  simp [crcBit, this]

theorem fold8_low (r : BitVec 32) (h : r.toNat < 2 ^ 24) : zeros8.foldl crcBit r = r <<< 8 := by
  have step : ∀ k n (x : BitVec 32), k + n = 8 → x = r <<< n →
      (List.replicate k false).foldl crcBit x = r <<< 8 := by
    intro k
    induction k with
    | zero => intro n x hn hx; have : n = 8 := by omega
              subst this; simpa using hx
    | succ k ih =>
      intro n x hn hx
      rw [List.replicate_succ, List.foldl_cons]
      have hx' : x.toNat < 2 ^ 31 := by
        rw [hx, BitVec.toNat_shiftLeft, Nat.shiftLeft_eq]
        have h1 : 2 ^ n ≤ 2 ^ 7 := Nat.pow_le_pow_right (by omega) (by omega)
        have h2 : r.toNat * 2 ^ n < 2 ^ 24 * 2 ^ 7 :=
          Nat.lt_of_le_of_lt (Nat.mul_le_mul_left _ h1) (Nat.mul_lt_mul_of_pos_right h (by simp))
        rw [Nat.mod_eq_of_lt] <;> omega
      rw [crcBit_false_small _ hx']
      apply ih (n + 1) _ (by omega)
      rw [hx, BitVec.shiftLeft_add]
  exact step 8 0 r rfl (by simp)

theorem split24 (x : BitVec 32) : x = (x >>> 24) <<< 24 ^^^ (x &&& 0x00ffffff#32) := by
  apply BitVec.eq_of_getLsbD_eq
  intro i hi
  have hm : (0x00ffffff#32 : BitVec 32).getLsbD i = decide (i < 24) := by
    have : ∀ i : Fin 32, (0x00ffffff#32 : BitVec 32).getLsbD i.val = decide (i.val < 24) := by
      decide
    exact this ⟨i, hi⟩
  simp only [BitVec.getLsbD_xor, BitVec.getLsbD_shiftLeft, BitVec.getLsbD_ushiftRight,
    BitVec.getLsbD_and, hm, hi]
  by_cases h24 : i < 24
  · simp [h24]
  · simp [h24]
    congr 1; omega

theorem fold8_split (x : BitVec 32) :
    zeros8.foldl crcBit x = (x &&& 0x00ffffff#32) <<< 8 ^^^ crcTable.getD (x >>> 24).toNat 0 := by
  have hlt : (x >>> 24).toNat < 256 := by
    rw [BitVec.toNat_ushiftRight, Nat.shiftRight_eq_div_pow]
    have := x.isLt; omega
  have h1 := crcFold_linear zeros8 zeros8 ((x >>> 24) <<< 24) (x &&& 0x00ffffff#32) rfl
  rw [← split24] at h1
  have hz : List.zipWith (fun b c => b != c) zeros8 zeros8 = zeros8 := by
    simp [zeros8, List.replicate]
  rw [hz] at h1
  have h2 := fold8_table ⟨(x >>> 24).toNat, hlt⟩
  simp only [BitVec.ofNat_toNat, BitVec.setWidth_eq] at h2
  have h3 : (x &&& 0x00ffffff#32).toNat < 2 ^ 24 := by
    rw [BitVec.toNat_and]
    exact Nat.lt_of_le_of_lt Nat.and_le_right (by decide)
  rw [h1, h2, fold8_low _ h3, BitVec.xor_comm]

/-- A byte step of the table-driven code is eight bit steps. -/
theorem crcStep_eq (crc : BitVec 32) (d : UInt8) :
    crcStep crc d = (byteBits d).foldl crcBit crc := by
  have hd : d.toNat < 256 := d.toNat_lt
  let s : BitVec 32 := BitVec.ofNat 32 d.toNat <<< 24
  let x : BitVec 32 := crc ^^^ s
  -- feeding the byte is feeding zeros after xoring it into the top
  have e1 : (byteBits d).foldl crcBit crc = zeros8.foldl crcBit x := by
    have h0 := fold8_self ⟨d.toNat, hd⟩
    simp only [UInt8.ofNat_toNat] at h0
    have := crcFold_linear zeros8 (byteBits d) x s (by simp [zeros8])
    rw [show List.foldl crcBit s (byteBits d) = 0#32 from h0] at this
    have hz : List.zipWith (fun b c => b != c) zeros8 (byteBits d) = byteBits d := by
      simp [zeros8, byteBits, natToBits, List.replicate]
    have hx : x ^^^ s = crc := by simp [x, BitVec.xor_assoc]
    rw [hz, hx] at this
    simpa using this
  have hidx : (x >>> 24) = (crc >>> 24) ^^^ BitVec.ofNat 32 d.toNat := by
    apply BitVec.eq_of_getLsbD_eq
    intro i hi
    simp only [x, s, BitVec.getLsbD_ushiftRight, BitVec.getLsbD_xor, BitVec.getLsbD_shiftLeft]
    by_cases h8 : i < 8
    · have : 24 + i < 32 := by omega
      simp [this, hi]
    · have h1 : 32 ≤ 24 + i := by omega
      have h2 : d.toNat.testBit i = false :=
        Nat.testBit_lt_two_pow (Nat.lt_of_lt_of_le hd (by
          rw [show 256 = 2 ^ 8 from rfl]; exact Nat.pow_le_pow_right (by omega) (by omega)))
      simp [BitVec.getLsbD_of_ge, h1, hi, h2, BitVec.getElem_eq_testBit_toNat]
  have e2 := fold8_split x
  have e3 : (x &&& 0x00ffffff#32) <<< 8 = crc <<< 8 := by
    apply BitVec.eq_of_getLsbD_eq
    intro i hi
    simp only [x, s, BitVec.getLsbD_shiftLeft, BitVec.getLsbD_and, BitVec.getLsbD_xor]
    by_cases h8 : i < 8
    · simp [h8]
    · have hm : (0x00ffffff#32 : BitVec 32).getLsbD (i - 8) = true := by
        have : ∀ j : Fin 24, (0x00ffffff#32 : BitVec 32).getLsbD j.val = true := by decide
        exact this ⟨i - 8, by omega⟩
      have : i - 8 < 24 := by omega
      simp [h8, hm, this]
  rw [e1, e2, hidx, e3, crcStep]

theorem crc32_eq_spec (d : List UInt8) : Ribzip2.crc32 d = Spec.crc32 d := by
  have : ∀ (l : List UInt8) (r : BitVec 32), l.foldl crcStep r = (bytesBits l).foldl crcBit r := by
    intro l
    induction l with
    | nil => intro r; rfl
    | cons b l ih =>
      intro r
      rw [List.foldl_cons, ih, crcStep_eq, bytesBits_cons, List.foldl_append]
  rw [Ribzip2.crc32, Spec.crc32, crcBits, this, ← BitVec.xor_allOnes]
  rfl

/-! ### Burst detection -/

theorem crcBit_low (r : BitVec 32) (b : Bool) : (crcBit r b).getLsbD 0 = (r.msb != b) := by
  unfold crcBit
  split <;> simp_all

theorem burst_aux (l1 l2 : List Bool) (hl : l1.length = l2.length) (h32 : l1.length ≤ 32)
    (r1 r2 : BitVec 32) (h : l1.foldl crcBit r1 = l2.foldl crcBit r2) :
    r1 <<< l1.length = r2 <<< l1.length ∧ (r1 = r2 → l1 = l2) := by
  induction l1 generalizing l2 r1 r2 with
  | nil => cases l2 <;> simp_all
  | cons b l1 ih =>
    cases l2 with
    | nil => simp at hl
    | cons c l2 =>
      simp only [List.length_cons, List.foldl_cons, Nat.add_right_cancel_iff] at *
      obtain ⟨h1, h2⟩ := ih l2 hl (by omega) _ _ h
      have hf : (r1.msb != b) = (r2.msb != c) := by
        rw [← crcBit_low, ← crcBit_low]
        have := congrArg (fun x => x.getLsbD l1.length) h1
        simpa [BitVec.getLsbD_shiftLeft, show l1.length < 32 by omega] using this
      refine ⟨?_, ?_⟩
      · unfold crcBit at h1
        rw [hf] at h1
        split at h1
        · simp only [BitVec.shiftLeft_xor_distrib, BitVec.xor_left_inj] at h1
          simpa [← BitVec.shiftLeft_add, Nat.add_comm] using h1
        · simpa [← BitVec.shiftLeft_add, Nat.add_comm] using h1
      · intro hr
        subst hr
        have hbc : b = c := by
          revert hf
          cases r1.msb <;> cases b <;> cases c <;> simp
        subst hbc
        rw [h2 rfl]

theorem crcBit_inj (r1 r2 : BitVec 32) (b : Bool) (h : crcBit r1 b = crcBit r2 b) : r1 = r2 := by
  have hf : (r1.msb != b) = (r2.msb != b) := by rw [← crcBit_low, ← crcBit_low, h]
  have hm : r1.msb = r2.msb := by
    revert hf
    cases r1.msb <;> cases r2.msb <;> cases b <;> simp
  have hs : r1 <<< 1 = r2 <<< 1 := by
    unfold crcBit at h
    rw [hf] at h
    split at h
    · simpa using h
    · exact h
  apply BitVec.eq_of_getLsbD_eq
  intro i hi
  by_cases h31 : i = 31
  · subst h31
    simpa [BitVec.msb_eq_getLsbD_last] using hm
  · have := congrArg (fun x => x.getLsbD (i + 1)) hs
    simpa [BitVec.getLsbD_shiftLeft, show i + 1 < 32 by omega, hi] using this

theorem crcFold_inj (l : List Bool) (r1 r2 : BitVec 32) (h : l.foldl crcBit r1 = l.foldl crcBit r2) :
    r1 = r2 := by
  induction l generalizing r1 r2 with
  | nil => simpa using h
  | cons b l ih => exact crcBit_inj _ _ _ (ih _ _ h)

/-- Bit strings that differ only inside a window of at most 32 bits have different CRCs. -/
theorem crcBits_burst (pre w1 w2 post : List Bool) (hl : w1.length = w2.length)
    (h32 : w1.length ≤ 32) (hne : w1 ≠ w2) :
    crcBits (pre ++ w1 ++ post) ≠ crcBits (pre ++ w2 ++ post) := by
  intro h
  simp only [crcBits, List.foldl_append, BitVec.xor_left_inj] at h
  have := crcFold_inj _ _ _ h
  exact hne ((burst_aux w1 w2 hl h32 _ _ this).2 rfl)

end Ribzip2
