import Verif.Proofs.Crc
import Mathlib.Dynamics.PeriodicPts.Defs
import Mathlib.Tactic.Ring
import Mathlib.Data.Nat.Prime.Basic
import Mathlib.Tactic.NormNum
import Mathlib.Tactic.NormNum.Prime
/- The shift register of the CRC has period 2^32 - 1 (its polynomial is primitive). -/
namespace Ribzip2
open Spec

/-- One step of the register on a zero bit. -/
def crcZ (r : BitVec 32) : BitVec 32 := crcBit r false

def app : List (BitVec 32) → BitVec 32 → Nat → BitVec 32
  | [], _, _ => 0#32
  | c :: cs, v, i => (if v.getLsbD i then c else 0#32) ^^^ app cs v (i + 1)

def Additive' (f : BitVec 32 → BitVec 32) : Prop := ∀ a b, f (a ^^^ b) = f a ^^^ f b

theorem Additive'.zero {f : BitVec 32 → BitVec 32} (h : Additive' f) : f 0#32 = 0#32 := by
  have := h 0#32 0#32
  simpa using this

theorem app_map {f : BitVec 32 → BitVec 32} (h : Additive' f) (cs : List (BitVec 32)) (v : BitVec 32) (i : Nat) :
    app (cs.map f) v i = f (app cs v i) := by
  induction cs generalizing i with
  | nil => exact h.zero.symm
  | cons c cs ih =>
    rw [List.map_cons, app, app, h, ih]
    split
    · rfl
    · rw [h.zero]

theorem app_add (cs : List (BitVec 32)) (i : Nat) : Additive' fun v => app cs v i := by
  intro a b
  induction cs generalizing i with
  | nil => simp [app]
  | cons c cs ih =>
    simp only [app] at ih ⊢
    rw [ih, BitVec.getLsbD_xor]
    cases a.getLsbD i <;> cases b.getLsbD i <;> simp
    · rw [← BitVec.xor_assoc, ← BitVec.xor_assoc, BitVec.xor_comm (app cs a _) c]
    · rw [← BitVec.xor_assoc]
    · rw [BitVec.xor_comm c (app cs b _), ← BitVec.xor_assoc, BitVec.xor_assoc c, BitVec.xor_comm c, BitVec.xor_assoc, BitVec.xor_self]
      simp

def basis : List (BitVec 32) := (List.range' 0 32).map fun i => BitVec.twoPow 32 i

theorem app_basis_aux (v : BitVec 32) (k i j : Nat) (hj : j < 32) :
    (app ((List.range' i k).map fun i => BitVec.twoPow 32 i) v i).getLsbD j
      = (v.getLsbD j && decide (i ≤ j ∧ j < i + k)) := by
  induction k generalizing i with
  | zero =>
    have : ¬ (i ≤ j ∧ j < i) := by omega
    simp [app, this]
  | succ k ih =>
    rw [List.range'_succ, List.map_cons, app, BitVec.getLsbD_xor, ih]
    by_cases hij : i = j
    · subst hij
      have h1 : ¬ (i + 1 ≤ i ∧ i < i + 1 + k) := by omega
      have h2 : i ≤ i ∧ i < i + (k + 1) := by omega
      simp only [h1, h2, decide_true, decide_false, Bool.and_true, Bool.and_false, Bool.xor_false, and_self]
      cases v.getLsbD i <;> simp [hj]
    · have h1 : (if v.getLsbD i then BitVec.twoPow 32 i else 0#32).getLsbD j = false := by
        split
        · simp [BitVec.getLsbD_twoPow, hij]
        · simp
      rw [h1, Bool.false_xor]
      congr 2
      apply propext
      omega

theorem app_basis (v : BitVec 32) : app basis v 0 = v := by
  apply BitVec.eq_of_getLsbD_eq
  intro j hj
  rw [basis, app_basis_aux v 32 0 j hj]
  simp [hj]

theorem crcZ_add : Additive' crcZ := by
  intro a b
  have := crcBit_linear a b false false
  simpa [crcZ] using this

def cols1 : List (BitVec 32) := basis.map crcZ

theorem app_cols1 (v : BitVec 32) : app cols1 v 0 = crcZ v := by
  rw [cols1, app_map crcZ_add, app_basis]

def square (m : List (BitVec 32)) : List (BitVec 32) := m.map fun c => app m c 0

theorem app_square (m : List (BitVec 32)) (v : BitVec 32) : app (square m) v 0 = app m (app m v 0) 0 :=
  app_map (app_add m 0) m v 0

/-- `crcZ` applied `n` times, by repeated squaring. -/
def fast : Nat → List (BitVec 32) → Nat → BitVec 32 → BitVec 32
  | 0, _, _, v => v
  | k + 1, m, n, v => fast k (square m) (n / 2) (if n % 2 = 1 then app m v 0 else v)

theorem fast_eq (k : Nat) (m : List (BitVec 32)) (e : Nat) (hm : ∀ v, app m v 0 = crcZ^[e] v) (n : Nat) (hn : n < 2 ^ k)
    (v : BitVec 32) : fast k m n v = crcZ^[e * n] v := by
  induction k generalizing m e n v with
  | zero =>
    have : n = 0 := by simpa using hn
    subst this
    rfl
  | succ k ih =>
    rw [fast, ih (square m) (e * 2) (fun v => by rw [app_square, hm, hm, ← Function.iterate_add_apply, Nat.mul_two])
      (n / 2) (by rw [Nat.pow_succ] at hn; omega)]
    have h2 := Nat.div_add_mod n 2
    rcases Nat.mod_two_eq_zero_or_one n with h0 | h0
    · rw [if_neg (by omega), show e * 2 * (n / 2) = e * n by rw [Nat.mul_assoc]; congr 1; omega]
    · rw [if_pos h0, hm, ← Function.iterate_add_apply]
      rw [show e * 2 * (n / 2) + e = e * n by rw [Nat.mul_assoc, ← Nat.mul_succ]; congr 1; omega]

theorem crcZ_iter (n : Nat) (hn : n < 2 ^ 32) (v : BitVec 32) : crcZ^[n] v = fast 32 cols1 n v := by
  rw [fast_eq 32 cols1 1 (fun v => by rw [app_cols1]; rfl) n hn, Nat.one_mul]

theorem period_values : fast 32 cols1 0xFFFFFFFF 0x04C11DB7#32 = 0x04C11DB7#32 ∧
    fast 32 cols1 0x55555555 0x04C11DB7#32 ≠ 0x04C11DB7#32 ∧ fast 32 cols1 0x33333333 0x04C11DB7#32 ≠ 0x04C11DB7#32 ∧
    fast 32 cols1 0x0F0F0F0F 0x04C11DB7#32 ≠ 0x04C11DB7#32 ∧ fast 32 cols1 0x00FF00FF 0x04C11DB7#32 ≠ 0x04C11DB7#32 ∧
    fast 32 cols1 0x0000FFFF 0x04C11DB7#32 ≠ 0x04C11DB7#32 := by
  decide +kernel

theorem crcZ_period : Function.minimalPeriod crcZ 0x04C11DB7#32 = 0xFFFFFFFF := by
  obtain ⟨h0, h1, h2, h3, h4, h5⟩ := period_values
  rw [← crcZ_iter _ (by omega)] at h0 h1 h2 h3 h4 h5
  have hd : Function.minimalPeriod crcZ 0x04C11DB7#32 ∣ 0xFFFFFFFF := Function.IsPeriodicPt.minimalPeriod_dvd h0
  have key : ∀ p q : Nat, p * q = 0xFFFFFFFF → crcZ^[q] 0x04C11DB7#32 ≠ 0x04C11DB7#32 →
      ¬ Function.minimalPeriod crcZ 0x04C11DB7#32 ∣ q := by
    intro p q _ hne h
    exact hne ((Function.isPeriodicPt_minimalPeriod crcZ _).trans_dvd h)
  generalize Function.minimalPeriod crcZ 0x04C11DB7#32 = n at *
  obtain ⟨m, hm⟩ := hd
  by_contra hne
  have hm1 : m ≠ 1 := by rintro rfl; omega
  obtain ⟨p, hp, hpm⟩ := Nat.exists_prime_and_dvd hm1
  obtain ⟨c, rfl⟩ := hpm
  have hpd : p ∣ 3 * 5 * 17 * 257 * 65537 := by
    rw [show 3 * 5 * 17 * 257 * 65537 = 0xFFFFFFFF by norm_num, hm]
    exact ⟨n * c, by ring⟩
  have hn : ∀ q : Nat, p * q = 0xFFFFFFFF → n ∣ q := by
    intro q hq
    refine ⟨c, ?_⟩
    apply Nat.eq_of_mul_eq_mul_left hp.pos
    rw [hq, hm]; ring
  have hpr : p = 3 ∨ p = 5 ∨ p = 17 ∨ p = 257 ∨ p = 65537 := by
    have f : ∀ a : Nat, a.Prime → p ∣ a → p = a := fun a ha h => (Nat.prime_dvd_prime_iff_eq hp ha).1 h
    rcases (Nat.Prime.dvd_mul hp).1 hpd with h | h
    · rcases (Nat.Prime.dvd_mul hp).1 h with h | h
      · rcases (Nat.Prime.dvd_mul hp).1 h with h | h
        · rcases (Nat.Prime.dvd_mul hp).1 h with h | h
          · exact Or.inl (f 3 (by norm_num) h)
          · exact Or.inr (Or.inl (f 5 (by norm_num) h))
        · exact Or.inr (Or.inr (Or.inl (f 17 (by norm_num) h)))
      · exact Or.inr (Or.inr (Or.inr (Or.inl (f 257 (by norm_num) h))))
    · exact Or.inr (Or.inr (Or.inr (Or.inr (f 65537 (by norm_num) h))))
  rcases hpr with rfl | rfl | rfl | rfl | rfl
  · exact key 3 0x55555555 (by norm_num) h1 (hn _ (by norm_num))
  · exact key 5 0x33333333 (by norm_num) h2 (hn _ (by norm_num))
  · exact key 17 0x0F0F0F0F (by norm_num) h3 (hn _ (by norm_num))
  · exact key 257 0x00FF00FF (by norm_num) h4 (hn _ (by norm_num))
  · exact key 65537 0x0000FFFF (by norm_num) h5 (hn _ (by norm_num))

/-- The difference of two registers evolves, on the same bits, like a register on zero bits. -/
theorem fold_diff (m : List Bool) (r s : BitVec 32) :
    m.foldl crcBit r ^^^ m.foldl crcBit s = crcZ^[m.length] (r ^^^ s) := by
  induction m generalizing r s with
  | nil => rfl
  | cons b m ih =>
    rw [List.foldl_cons, List.foldl_cons, ih, List.length_cons, Function.iterate_succ_apply, ← crcBit_linear]
    simp [crcZ]

theorem crcBit_flip (r s : BitVec 32) (b : Bool) :
    crcBit r b ^^^ crcBit s (!b) = crcZ (r ^^^ s) ^^^ 0x04C11DB7#32 := by
  rw [← crcBit_linear, show (b != !b) = true by cases b <;> rfl]
  have h1 : crcBit ((r ^^^ s) ^^^ 0#32) (false != true) = crcBit (r ^^^ s) false ^^^ crcBit 0#32 true := crcBit_linear _ _ _ _
  rw [BitVec.xor_zero] at h1
  rw [show (true : Bool) = (false != true) from rfl, h1]
  rfl

theorem iterate_add (k : Nat) : Additive' crcZ^[k] := by
  induction k with
  | zero => intro a b; rfl
  | succ k ih => intro a b; rw [Function.iterate_succ_apply', Function.iterate_succ_apply', Function.iterate_succ_apply', ih, crcZ_add]

/-- The registers after two flipped bits that are `m.length + 1` apart are equal iff the polynomial has come back. -/
theorem two_flips (pre m post : List Bool) (b c : Bool) :
    crcBits (pre ++ [b] ++ m ++ [c] ++ post) = crcBits (pre ++ [!b] ++ m ++ [!c] ++ post) ↔
      crcZ^[m.length + 1] 0x04C11DB7#32 = 0x04C11DB7#32 := by
  have hz : ∀ x y : BitVec 32, x ^^^ y = 0#32 ↔ x = y := fun x y => BitVec.xor_eq_zero_iff
  simp only [crcBits, List.foldl_append, BitVec.xor_left_inj, List.foldl_cons, List.foldl_nil]
  generalize pre.foldl crcBit 0xFFFFFFFF#32 = r
  constructor
  · intro h
    have h := crcFold_inj _ _ _ h
    rw [← hz, crcBit_flip, fold_diff, crcBit_flip, hz, BitVec.xor_self, (show crcZ 0#32 = 0#32 from crcZ_add.zero),
      BitVec.zero_xor] at h
    rw [Function.iterate_succ_apply']
    exact h
  · intro h
    congr 1
    rw [← hz, crcBit_flip, fold_diff, crcBit_flip, hz, BitVec.xor_self, (show crcZ 0#32 = 0#32 from crcZ_add.zero),
      BitVec.zero_xor]
    rw [Function.iterate_succ_apply'] at h
    exact h

theorem crcBits_two_flips (pre m post : List Bool) (b c : Bool) (hm : m.length + 1 < 0xFFFFFFFF) :
    crcBits (pre ++ [b] ++ m ++ [c] ++ post) ≠ crcBits (pre ++ [!b] ++ m ++ [!c] ++ post) := by
  rw [Ne, two_flips]
  intro h
  have hp : Function.IsPeriodicPt crcZ (m.length + 1) 0x04C11DB7#32 := h
  have := hp.minimalPeriod_dvd
  rw [crcZ_period] at this
  have := Nat.le_of_dvd (by omega) this
  omega

theorem crcBits_two_flips_far (pre m post : List Bool) (b c : Bool) (hm : m.length + 1 = 0xFFFFFFFF) :
    crcBits (pre ++ [b] ++ m ++ [c] ++ post) = crcBits (pre ++ [!b] ++ m ++ [!c] ++ post) := by
  rw [two_flips, hm]
  have := Function.iterate_minimalPeriod (f := crcZ) (x := 0x04C11DB7#32)
  rwa [crcZ_period] at this

end Ribzip2
