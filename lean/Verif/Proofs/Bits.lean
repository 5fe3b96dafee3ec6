import Verif.Model.Bitwise
import Verif.Spec.Bits
/- Lemmas on bit strings, the bit writer and the bit reader. -/
namespace Ribzip2
open Spec

/-! ### natToBits / bitsToNat -/

@[simp] theorem natToBits_length (n x : Nat) : (natToBits n x).length = n := by
  induction n with
  | zero => rfl
  | succ n ih => simp [natToBits, ih]

theorem bitsToNat_lt (l : List Bool) : bitsToNat l < 2 ^ l.length := by
  induction l with
  | nil => simp [bitsToNat]
  | cons b l ih =>
    have : b.toNat ≤ 1 := by cases b <;> simp
    have h2 : b.toNat * 2 ^ l.length ≤ 1 * 2 ^ l.length := Nat.mul_le_mul_right _ this
    simp only [bitsToNat, List.length_cons, Nat.pow_succ]; omega

theorem bitsToNat_natToBits (n x : Nat) : bitsToNat (natToBits n x) = x % 2 ^ n := by
  induction n with
  | zero => simp [bitsToNat, natToBits, Nat.mod_one]
  | succ n ih =>
    simp only [natToBits, bitsToNat, natToBits_length, ih]
    rw [Nat.mod_pow_succ, Nat.toNat_testBit, Nat.mul_comm, Nat.add_comm]

theorem natToBits_mod (n x m : Nat) (h : n ≤ m) : natToBits n (x % 2 ^ m) = natToBits n x := by
  induction n with
  | zero => rfl
  | succ n ih =>
    simp only [natToBits]
    rw [ih (by omega), Nat.testBit_mod_two_pow]
    simp; intro; omega

theorem natToBits_add_mul (n x m k : Nat) (h : n ≤ m) :
    natToBits n (k * 2 ^ m + x) = natToBits n x := by
  rw [← natToBits_mod n (k * 2 ^ m + x) m h, ← natToBits_mod n x m h]
  congr 1
  rw [Nat.mul_comm, Nat.mul_add_mod]

theorem natToBits_bitsToNat (l : List Bool) : natToBits l.length (bitsToNat l) = l := by
  induction l with
  | nil => rfl
  | cons b l ih =>
    simp only [bitsToNat, List.length_cons, natToBits]
    rw [natToBits_add_mul _ _ _ _ (Nat.le_refl _), ih]
    congr 1
    have := bitsToNat_lt l
    cases b
    · simp; exact Nat.testBit_lt_two_pow this
    · rw [show true.toNat = 1 from rfl, Nat.one_mul, Nat.testBit_two_pow_add_eq,
        Nat.testBit_lt_two_pow this]; rfl

theorem bitsToNat_append (a b : List Bool) :
    bitsToNat (a ++ b) = bitsToNat a * 2 ^ b.length + bitsToNat b := by
  induction a with
  | nil => simp [bitsToNat]
  | cons x a ih =>
    simp only [List.cons_append, bitsToNat, ih, List.length_append, Nat.pow_add, Nat.add_mul,
      Nat.mul_assoc, Nat.add_assoc]

theorem bitsToNat_replicate_false (k : Nat) (l : List Bool) :
    bitsToNat (List.replicate k false ++ l) = bitsToNat l := by
  induction k with
  | zero => simp
  | succ k ih => simp [List.replicate_succ, bitsToNat, ih]

theorem foldl_number (l : List Bool) (a : Nat) :
    l.foldl (fun ct digit => ct * 2 + (if digit then 1 else 0)) a = a * 2 ^ l.length + bitsToNat l := by
  induction l generalizing a with
  | nil => simp [bitsToNat]
  | cons b l ih =>
    simp only [List.foldl_cons, ih, bitsToNat, List.length_cons, Nat.pow_succ]
    cases b <;> simp [Nat.add_mul] <;> grind

theorem convertToNumber_eq (l : List Bool) : convertToNumber l = bitsToNat l := by
  rw [convertToNumber, foldl_number]; simp

theorem bitsToNat_inj {a b : List Bool} (h : a.length = b.length) (e : bitsToNat a = bitsToNat b) :
    a = b := by
  rw [← natToBits_bitsToNat a, ← natToBits_bitsToNat b, h, e]

/-! ### `lsbLoop` and the padding conversions -/

theorem lsbLoop_spec (fuel x : Nat) (h : x ≤ fuel) :
    ∃ m, lsbLoop fuel x = (natToBits m x).reverse ∧ x < 2 ^ m ∧ (∀ n, x < 2 ^ n → m ≤ n) := by
  induction fuel generalizing x with
  | zero => exact ⟨0, by simp [lsbLoop, natToBits], by simp; omega, by simp⟩
  | succ fuel ih =>
    unfold lsbLoop
    by_cases hx : x > 0
    · obtain ⟨m, h1, h2, h3⟩ := ih (x / 2) (by omega)
      refine ⟨m + 1, ?_, by rw [Nat.pow_succ]; omega, ?_⟩
      · simp only [hx, if_true, h1]
        have : ∀ m x, natToBits (m + 1) x = natToBits m (x / 2) ++ [x % 2 == 1] := by
          intro m
          induction m with
          | zero => intro x; simp [natToBits, Nat.testBit_zero]; grind
          | succ m ihm =>
            intro x
            rw [natToBits, ihm, natToBits, Nat.testBit_succ]; rfl
        rw [this]; simp
      · intro n hn
        cases n with
        | zero => simp at hn; omega
        | succ n => have := h3 n (by rw [Nat.pow_succ] at hn; omega); omega
    · have : x = 0 := by omega
      subst this
      exact ⟨0, by simp [natToBits], by simp, by simp⟩

theorem natToBits_pad (k m x : Nat) (h : x < 2 ^ m) :
    natToBits (k + m) x = List.replicate k false ++ natToBits m x := by
  induction k with
  | zero => simp
  | succ k ih =>
    rw [show k + 1 + m = (k + m) + 1 by omega, natToBits, ih, List.replicate_succ]
    simp
    apply Nat.testBit_lt_two_pow
    exact Nat.lt_of_lt_of_le h (Nat.pow_le_pow_right (by omega) (by omega))

theorem convertToCodePadToNBits_eq (x n : Nat) (h : x < 2 ^ n) :
    convertToCodePadToNBits x n = natToBits n x := by
  obtain ⟨m, h1, h2, h3⟩ := lsbLoop_spec x x (Nat.le_refl _)
  have := h3 n h
  simp only [convertToCodePadToNBits, h1, List.reverse_append, List.length_reverse,
    natToBits_length, List.reverse_reverse, List.reverse_replicate]
  rw [← natToBits_pad _ _ _ h2]
  congr 1; omega

theorem convertToCodePadToByte_eq (b : UInt8) : convertToCodePadToByte b = byteBits b := by
  obtain ⟨m, h1, h2, h3⟩ := lsbLoop_spec b.toNat b.toNat (Nat.le_refl _)
  have := h3 8 b.toNat_lt
  simp only [convertToCodePadToByte, h1, List.reverse_append, List.length_reverse,
    natToBits_length, List.reverse_reverse, List.reverse_replicate, byteBits]
  rw [← natToBits_pad _ _ _ h2]
  congr 1; omega

theorem convertToCodePadToBytes_eq (bs : List UInt8) :
    convertToCodePadToBytes bs = bytesBits bs := by
  simp only [convertToCodePadToBytes, bytesBits]
  congr 1; funext b; exact convertToCodePadToByte_eq b

theorem convertToCodePadTo15Bits_eq (x : UInt16) (h : x.toNat < 2 ^ 15) :
    convertToCodePadTo15Bits x = Res.ok (natToBits 15 x.toNat) := by
  obtain ⟨m, h1, h2, h3⟩ := lsbLoop_spec x.toNat x.toNat (Nat.le_refl _)
  have := h3 15 h
  simp only [convertToCodePadTo15Bits, h1, List.length_reverse, natToBits_length, subU]
  simp only [this, if_true, Res.ok_bind, Res.pure_eq, List.reverse_append, List.reverse_reverse,
    List.reverse_replicate]
  rw [← natToBits_pad _ _ _ h2]
  congr 2; omega

@[simp] theorem byteBits_length (b : UInt8) : (byteBits b).length = 8 := natToBits_length _ _

@[simp] theorem bytesBits_length (bs : List UInt8) : (bytesBits bs).length = 8 * bs.length := by
  induction bs with
  | nil => rfl
  | cons b bs ih => simp only [bytesBits, List.flatMap_cons, List.length_append, byteBits_length,
      List.length_cons] at *; omega

@[simp] theorem bytesBits_nil : bytesBits [] = [] := rfl
@[simp] theorem bytesBits_cons (b : UInt8) (bs : List UInt8) :
    bytesBits (b :: bs) = byteBits b ++ bytesBits bs := rfl
theorem bytesBits_append (a b : List UInt8) : bytesBits (a ++ b) = bytesBits a ++ bytesBits b := by
  simp [bytesBits]

theorem byteBits_ofBits (l : List Bool) (h : l.length = 8) :
    byteBits (UInt8.ofNat (convertToNumber l)) = l := by
  have := bitsToNat_lt l
  rw [h] at this
  rw [byteBits, convertToNumber_eq, UInt8.toNat_ofNat_of_lt' (by simpa using this), ← h,
    natToBits_bitsToNat]

theorem convertToNumber_byteBits (b : UInt8) : UInt8.ofNat (convertToNumber (byteBits b)) = b := by
  rw [convertToNumber_eq, byteBits, bitsToNat_natToBits, Nat.mod_eq_of_lt b.toNat_lt]
  simp

theorem byteBits_inj {a b : UInt8} (h : byteBits a = byteBits b) : a = b := by
  rw [← convertToNumber_byteBits a, ← convertToNumber_byteBits b, h]

theorem bytesBits_inj {a b : List UInt8} (h : bytesBits a = bytesBits b) : a = b := by
  induction a generalizing b with
  | nil => cases b with
    | nil => rfl
    | cons y b =>
      have := congrArg List.length h; simp at this; omega
  | cons x a ih => cases b with
    | nil => have := congrArg List.length h; simp at this
    | cons y b =>
      simp only [bytesBits_cons] at h
      have := List.append_inj h (by simp)
      rw [byteBits_inj this.1, ih this.2]

/-! ### the bit writer on a reliable writer -/

/-- All bits given to the writer so far. -/
def BitWriter.bits (bw : BitWriter) : List Bit := bytesBits bw.w.out ++ bw.pending

/-- Between calls: fewer than 8 pending bits, and a writer that accepts everything. -/
def BitWriter.Good (bw : BitWriter) : Prop := bw.pending.length < 8 ∧ bw.w.script = []

theorem writeChunks_good (p : List Bit) (out : List UInt8) (l : List Bit) :
    ∃ bw, writeChunks p ⟨out, []⟩ l = (bw, Res.ok ()) ∧ bw.Good ∧
      bw.bits = bytesBits out ++ l := by
  induction h : l.length using Nat.strongRecOn generalizing l out with
  | _ n ih =>
    match l with
    | b0 :: b1 :: b2 :: b3 :: b4 :: b5 :: b6 :: b7 :: rest =>
      simp only [writeChunks, Writer.write]
      obtain ⟨bw, h1, h2, h3⟩ := ih rest.length (by simp at h; omega)
        (out ++ [UInt8.ofNat (convertToNumber [b0, b1, b2, b3, b4, b5, b6, b7])]) rest rfl
      refine ⟨bw, h1, h2, ?_⟩
      rw [h3, bytesBits_append, bytesBits_cons, byteBits_ofBits _ rfl]
      simp
    | [] => exact ⟨_, rfl, ⟨by simp, rfl⟩, by simp [BitWriter.bits]⟩
    | [_] => exact ⟨_, rfl, ⟨by simp, rfl⟩, by simp [BitWriter.bits]⟩
    | [_, _] => exact ⟨_, rfl, ⟨by simp, rfl⟩, by simp [BitWriter.bits]⟩
    | [_, _, _] => exact ⟨_, rfl, ⟨by simp, rfl⟩, by simp [BitWriter.bits]⟩
    | [_, _, _, _] => exact ⟨_, rfl, ⟨by simp, rfl⟩, by simp [BitWriter.bits]⟩
    | [_, _, _, _, _] => exact ⟨_, rfl, ⟨by simp, rfl⟩, by simp [BitWriter.bits]⟩
    | [_, _, _, _, _, _] => exact ⟨_, rfl, ⟨by simp, rfl⟩, by simp [BitWriter.bits]⟩
    | [_, _, _, _, _, _, _] => exact ⟨_, rfl, ⟨by simp, rfl⟩, by simp [BitWriter.bits]⟩

theorem BitWriter.writeBits_good (bw : BitWriter) (l : List Bit) (h : bw.Good) :
    ∃ bw', bw.writeBits l = (bw', Res.ok ()) ∧ bw'.Good ∧ bw'.bits = bw.bits ++ l := by
  obtain ⟨p, out, script⟩ := bw
  obtain ⟨_, h2⟩ := h
  simp at h2; subst h2
  obtain ⟨bw', h1, h2, h3⟩ := writeChunks_good (p ++ l) out (p ++ l)
  exact ⟨bw', h1, h2, by rw [h3]; simp [BitWriter.bits]⟩

theorem BitWriter.finalize_good (bw : BitWriter) (h : bw.Good) :
    ∃ bw', bw.finalize = (bw', Res.ok ()) ∧ PaddedTo8 bw.bits (bytesBits bw'.w.out) := by
  obtain ⟨p, out, script⟩ := bw
  obtain ⟨h1, h2⟩ := h
  simp at h1 h2; subst h2
  by_cases hp : p = []
  · subst hp
    exact ⟨⟨[], out, []⟩, by simp [BitWriter.finalize], 0, by simp, by simp [BitWriter.bits],
      by simp; omega⟩
  · refine ⟨⟨p ++ List.replicate (8 - p.length) false,
      out ++ [UInt8.ofNat (convertToNumber (p ++ List.replicate (8 - p.length) false))], []⟩,
      by simp [BitWriter.finalize, Writer.write, hp], 8 - p.length, ?_, ?_, ?_⟩
    · have := List.length_pos_iff.mpr hp; omega
    · simp only [BitWriter.bits, bytesBits_append, bytesBits_cons, bytesBits_nil]
      rw [byteBits_ofBits _ (by simp; omega)]; simp
    · simp; omega

theorem BitWriter.good_from (out : List UInt8) : (BitWriter.fromWriter ⟨out, []⟩).Good :=
  ⟨by simp [BitWriter.fromWriter], rfl⟩

end Ribzip2
