import Verif.Proofs.Bits
import Verif.Spec.Reader
import Verif.Model.Stream
/- The bit reader refines a plain list of bits; the reading functions of the decoder as parsers on
lists of bits. -/
namespace Ribzip2
open Spec

theorem readByte_nil {es : List REvent} (h : delivered es = []) : readByte es = Res.err := by
  induction es with
  | nil => rfl
  | cons e es ih =>
    match e with
    | REvent.intr => simp only [delivered] at h; simp only [readByte]; exact ih h
    | REvent.fail => rfl
    | REvent.data [] => rfl
    | REvent.data (b :: bs) => simp [delivered] at h

theorem readByte_cons {es : List REvent} {b : UInt8} {rest : List UInt8}
    (h : delivered es = b :: rest) : ∃ es', readByte es = Res.ok (b, es') ∧ delivered es' = rest ∧
      eventsSize es' < eventsSize es := by
  induction es with
  | nil => simp [delivered] at h
  | cons e es ih =>
    match e with
    | REvent.intr => simp only [delivered] at h; simp only [readByte, eventsSize]; exact ih h
    | REvent.fail => simp [delivered] at h
    | REvent.data [] => simp [delivered] at h
    | REvent.data [c] =>
      simp [delivered] at h
      exact ⟨es, by simp [readByte, h.1], h.2, by simp [eventsSize]⟩
    | REvent.data (c :: d :: bs) =>
      simp [delivered] at h
      exact ⟨REvent.data (d :: bs) :: es, by simp [readByte, h.1], by simp [delivered, h.2],
        by simp [eventsSize]⟩

theorem delivered_size (es : List REvent) : (delivered es).length ≤ eventsSize es := by
  induction es with
  | nil => simp [delivered]
  | cons e es ih =>
    match e with
    | REvent.intr => simpa [delivered, eventsSize] using ih
    | REvent.fail => simp [delivered]
    | REvent.data bs =>
      by_cases h : bs = []
      · simp [delivered, h]
      · simp [delivered, eventsSize, h]; omega

@[simp] theorem delivered_data (bs : List UInt8) : delivered [REvent.data bs] = bs := by
  cases bs <;> simp [delivered]

/-- The bits the reader can still deliver. -/
def BitReader.bits (br : BitReader) : List Bit :=
  (match br.current with
   | none => []
   | some b => (byteBits b).drop br.cursor) ++ bytesBits (delivered br.events)

theorem BitReader.bits_lt_fuel (br : BitReader) : br.bits.length < br.fuel := by
  have := delivered_size br.events
  unfold BitReader.bits BitReader.fuel
  cases br.current <;> simp <;> omega

@[simp] theorem BitReader.fromReader_bits (r : Reader) :
    (BitReader.fromReader r).bits = bytesBits (delivered r.events) := by
  simp [BitReader.bits, BitReader.fromReader]

/-- A parser on lists of bits. -/
abbrev Parser (α : Type) := List Bit → Res (α × List Bit)

/-- Read `n` bits, fail if there are not that many. -/
def takeBits (n : Nat) : Parser (List Bit) := fun bs =>
  if n ≤ bs.length then Res.ok (bs.take n, bs.drop n) else Res.err

/-- Forget the representation of the reader. -/
def absR {α : Type} (x : Res (α × BitReader)) : Res (α × List Bit) :=
  match x with
  | Res.ok (a, br) => Res.ok (a, br.bits)
  | Res.err => Res.err
  | Res.panic => Res.panic
  | Res.div => Res.div

@[simp] theorem absR_ok {α : Type} (a : α) (br : BitReader) :
    absR (Res.ok (a, br)) = Res.ok (a, br.bits) := rfl
@[simp] theorem absR_err {α : Type} : absR (Res.err : Res (α × BitReader)) = Res.err := rfl
@[simp] theorem absR_panic {α : Type} : absR (Res.panic : Res (α × BitReader)) = Res.panic := rfl
@[simp] theorem absR_div {α : Type} : absR (Res.div : Res (α × BitReader)) = Res.div := rfl

theorem absR_unwrap {α : Type} (x : Res (α × BitReader)) : absR x.unwrap = (absR x).unwrap := by
  rcases x with ⟨a, br⟩ | _ | _ | _ <;> rfl

theorem absR_eq_ok {α : Type} {x : Res (α × BitReader)} {a : α} {bs : List Bit}
    (h : absR x = Res.ok (a, bs)) : ∃ br, x = Res.ok (a, br) ∧ br.bits = bs := by
  rcases x with ⟨a', br⟩ | _ | _ | _ <;> simp at h
  exact ⟨br, by rw [h.1], h.2⟩

/-- Sequencing respects the refinement. -/
theorem absR_bind {α β : Type} {x : Res (α × BitReader)} {y : Res (α × List Bit)}
    {f : α × BitReader → Res (β × BitReader)} {g : α × List Bit → Res (β × List Bit)}
    (h : absR x = y) (hf : ∀ a br, absR (f (a, br)) = g (a, br.bits)) :
    absR (x >>= f) = (y >>= g) := by
  subst h
  rcases x with ⟨a, br⟩ | _ | _ | _ <;> simp [hf]

theorem absR_bindPure {α β : Type} {x : Res α}
    {f : α → Res (β × BitReader)} {g : α → Res (β × List Bit)}
    (hf : ∀ a, absR (f a) = g a) :
    absR (x >>= f) = (x >>= g) := by
  rcases x with a | _ | _ | _ <;> simp [hf]

theorem drop_byteBits (b : UInt8) (c : Nat) (h : c < 8) :
    (byteBits b).drop c = ((b.toNat / 2 ^ (8 - c - 1)) % 2 != 0) :: (byteBits b).drop (c + 1) := by
  have : c = 0 ∨ c = 1 ∨ c = 2 ∨ c = 3 ∨ c = 4 ∨ c = 5 ∨ c = 6 ∨ c = 7 := by omega
  rcases this with h | h | h | h | h | h | h | h <;> subst h <;>
    simp [byteBits, natToBits, Nat.testBit, Nat.shiftRight_eq_div_pow]

theorem BitReader.refill_nil {br : BitReader} (h : br.bits = []) : br.refill = Res.err := by
  obtain ⟨es, c, cur⟩ := br
  cases cur with
  | none =>
    simp [BitReader.bits] at h
    have : delivered es = [] := by
      apply bytesBits_inj; simpa using h
    simp [BitReader.refill, readByte_nil this]
  | some b =>
    simp [BitReader.bits] at h
    have h2 : delivered es = [] := by
      apply bytesBits_inj; simpa using h.2
    simp [BitReader.refill, readByte_nil h2, h.1]

theorem BitReader.refill_cons {br : BitReader} {x : Bit} {rest : List Bit} (h : br.bits = x :: rest) :
    ∃ b br', br.refill = Res.ok (b, br') ∧
      ((b.toNat / 2 ^ (8 - br'.cursor - 1)) % 2 != 0) = x ∧
      ({ br' with cursor := br'.cursor + 1 } : BitReader).bits = rest := by
  obtain ⟨es, c, cur⟩ := br
  have key : ∀ (hd : bytesBits (delivered es) = x :: rest),
      ∃ b es', readByte es = Res.ok (b, es') ∧ ((b.toNat / 2 ^ (8 - 0 - 1)) % 2 != 0) = x ∧
        (byteBits b).drop 1 ++ bytesBits (delivered es') = rest := by
    intro hd
    match hdel : delivered es with
    | [] => simp [hdel] at hd
    | b :: bs =>
      obtain ⟨es', h1, h2, _⟩ := readByte_cons hdel
      refine ⟨b, es', h1, ?_⟩
      rw [hdel, bytesBits_cons] at hd
      have := drop_byteBits b 0 (by omega)
      rw [List.drop_zero] at this
      rw [this, List.cons_append, List.cons.injEq] at hd
      rw [h2]; exact hd
  cases cur with
  | none =>
    simp only [BitReader.bits, List.nil_append] at h
    obtain ⟨b, es', h1, h2, h3⟩ := key h
    refine ⟨b, ⟨es', 0, some b⟩, by simp [BitReader.refill, h1], h2, ?_⟩
    simpa [BitReader.bits] using h3
  | some b =>
    by_cases hc : c ≥ 8
    · simp only [BitReader.bits] at h
      rw [List.drop_eq_nil_of_le (by simp; exact hc), List.nil_append] at h
      obtain ⟨b', es', h1, h2, h3⟩ := key h
      refine ⟨b', ⟨es', 0, some b'⟩, by simp [BitReader.refill, h1, hc], h2, ?_⟩
      simpa [BitReader.bits] using h3
    · simp only [BitReader.bits] at h
      rw [drop_byteBits b c (by omega), List.cons_append, List.cons.injEq] at h
      refine ⟨b, ⟨es, c, some b⟩, by simp [BitReader.refill, hc], h.1, ?_⟩
      simpa [BitReader.bits] using h.2

theorem absR_readBits (n : Nat) (br : BitReader) : absR (br.readBits n) = takeBits n br.bits := by
  induction n generalizing br with
  | zero => simp [BitReader.readBits, takeBits]
  | succ n ih =>
    match h : br.bits with
    | [] => simp [BitReader.readBits, BitReader.refill_nil h, takeBits]
    | x :: rest =>
      obtain ⟨b, br', h1, h2, h3⟩ := BitReader.refill_cons h
      simp only [BitReader.readBits, h1, Res.ok_bind, h2]
      have ih' := ih { br' with cursor := br'.cursor + 1 }
      rw [h3] at ih'
      simp only [takeBits, List.length_cons, Nat.add_le_add_iff_right, List.take_succ_cons,
        List.drop_succ_cons] at *
      by_cases hn : n ≤ rest.length
      · simp only [hn, if_true] at *
        obtain ⟨br'', e1, e2⟩ := absR_eq_ok ih'
        rw [e1]; simp [e2]
      · simp only [hn, if_false] at *
        revert ih'
        generalize (BitReader.readBits _ n) = y
        rcases y with ⟨a, br⟩ | _ | _ | _ <;> simp

theorem takeBits_append {xs rest : List Bit} {n : Nat} (h : xs.length = n) :
    takeBits n (xs ++ rest) = Res.ok (xs, rest) := by
  subst h; simp [takeBits]

theorem takeBits_ok {n : Nat} {bs xs rest : List Bit} (h : takeBits n bs = Res.ok (xs, rest)) :
    bs = xs ++ rest ∧ xs.length = n := by
  unfold takeBits at h
  split at h
  · simp at h
    rw [← h.1, ← h.2]; simp; omega
  · simp at h

theorem takeBits_mono {n : Nat} {bs xs rest : List Bit} (e : List Bit)
    (h : takeBits n bs = Res.ok (xs, rest)) : takeBits n (bs ++ e) = Res.ok (xs, rest ++ e) := by
  obtain ⟨h1, h2⟩ := takeBits_ok h
  rw [h1, List.append_assoc, takeBits_append h2]

end Ribzip2
