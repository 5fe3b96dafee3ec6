import Mathlib.Data.List.Infix
import Verif.Spec.Rle
/- The run-length encoding of the standard encoder is the shortest, and no other of that length exists, for data
without 256 equal bytes in a row that does not end in four equal bytes. -/
namespace Ribzip2
open Spec

/-- No 256 equal bytes in a row. -/
def NoLongRun (d : List UInt8) : Prop := ∀ b, ¬ List.replicate 256 b <:+: d

theorem NoLongRun.suffix {x d : List UInt8} (h : NoLongRun (x ++ d)) : NoLongRun d :=
  fun b hb => h b (hb.trans (List.suffix_append x d).isInfix)

theorem NoLongRun.le {a : UInt8} {m : Nat} {d : List UInt8} (h : NoLongRun (List.replicate m a ++ d)) : m ≤ 255 := by
  by_contra hm
  refine h a (List.IsPrefix.isInfix ?_)
  rw [show m = 256 + (m - 256) by omega, ← List.replicate_append_replicate, List.append_assoc]
  exact List.prefix_append _ _

theorem peel_run (a : UInt8) (d : List UInt8) :
    ∃ k e, d = List.replicate k a ++ e ∧ ∀ x, e.head? = some x → x ≠ a := by
  induction d with
  | nil => exact ⟨0, [], by simp, by simp⟩
  | cons b d ih =>
    by_cases h : b = a
    · obtain ⟨k, e, h1, h2⟩ := ih
      exact ⟨k + 1, e, by rw [List.replicate_succ, h1, h]; rfl, h2⟩
    · exact ⟨0, b :: d, by simp, by simpa using h⟩

theorem runsFrom_rep (a : UInt8) (n j : Nat) (e : List UInt8) (h : n + j ≤ 255) :
    runsFrom a n (List.replicate j a ++ e) = runsFrom a (n + j) e := by
  induction j generalizing n with
  | zero => simp
  | succ j ih =>
    rw [List.replicate_succ, List.cons_append, runsFrom, if_pos ⟨rfl, by omega⟩, ih (n + 1) (by omega)]
    congr 1; omega

theorem runsFrom_other (a : UInt8) (n : Nat) (e : List UInt8) (h : ∀ x, e.head? = some x → x ≠ a) :
    runsFrom a n e = (a, n) :: runs e := by
  cases e with
  | nil => rfl
  | cons c e => rw [runsFrom, if_neg (fun hc => h c rfl hc.1), runs]

theorem encode_one_run (a : UInt8) (m : Nat) (e : List UInt8) (h1 : 1 ≤ m) (h2 : m ≤ 255)
    (h : ∀ x, e.head? = some x → x ≠ a) :
    rle1Encode (List.replicate m a ++ e) = encodeRun (a, m) ++ rle1Encode e := by
  obtain ⟨m, rfl⟩ : ∃ k, m = k + 1 := ⟨m - 1, by omega⟩
  rw [List.replicate_succ, List.cons_append]
  rw [rle1Encode, rle1Encode, runs, runsFrom_rep a 1 m e (by omega), runsFrom_other _ _ _ h, show 1 + m = m + 1 by omega]
  simp

theorem rle1Decode_take (l : List UInt8) : (rle1Decode l).take 4 = l.take 4 := by
  suffices h : ∀ n l, n ≤ 4 → (rle1Decode l).take n = l.take n from h 4 l (by omega)
  intro n
  induction n with
  | zero => simp
  | succ n ih =>
    intro l hn
    rw [rle1Decode.eq_def]
    split
    · rename_i a b c d m rest
      split
      · rename_i h
        obtain ⟨rfl, rfl, rfl⟩ := h
        rw [show 4 + m.toNat = m.toNat + 1 + 1 + 1 + 1 by omega]
        simp only [List.replicate_succ, List.cons_append, List.take_succ_cons]
        match n, hn with
        | 0, _ => rfl
        | 1, _ => rfl
        | 2, _ => rfl
        | 3, _ => rfl
      · simp only [List.take_succ_cons, ih _ (by omega : n ≤ 4)]
    · simp only [List.take_succ_cons, ih _ (by omega : n ≤ 4)]
    · rfl

/-- A string that does not end in four equal bytes. -/
def EndsMixed (d : List UInt8) : Prop := ∀ a, ¬ List.replicate 4 a <:+ d

theorem EndsMixed.suffix {x d : List UInt8} (h : EndsMixed (x ++ d)) : EndsMixed d :=
  fun a ha => h a (ha.trans (List.suffix_append x d))

theorem encode_literal (a : UInt8) (d : List UInt8) (h : ¬ [a, a, a] <+: d) :
    rle1Encode (a :: d) = a :: rle1Encode d := by
  obtain ⟨k, e, rfl, he⟩ := peel_run a d
  have hk : k ≤ 2 := by
    by_contra hk
    apply h
    rw [show k = 3 + (k - 3) by omega, ← List.replicate_append_replicate, List.append_assoc]
    exact List.prefix_append _ _
  have h1 := encode_one_run a (k + 1) e (by omega) (by omega) he
  rw [List.replicate_succ, List.cons_append] at h1
  rw [h1]
  by_cases h0 : k = 0
  · subst h0; simp [encodeRun]
  · rw [encode_one_run a k e (by omega) (by omega) he]
    have a1 : k + 1 < 4 := by omega
    have a2 : k < 4 := by omega
    simp [encodeRun, a1, a2, List.replicate_succ]

theorem literal_step (a : UInt8) (rest : List UInt8)
    (hs : ¬ ∃ n more, rest = a :: a :: a :: n :: more)
    (he : EndsMixed (a :: rle1Decode rest)) (hno : NoLongRun (a :: rle1Decode rest))
    (ih : NoLongRun (rle1Decode rest) → EndsMixed (rle1Decode rest) →
      (rle1Encode (rle1Decode rest)).length ≤ rest.length ∧
      (rest.length = (rle1Encode (rle1Decode rest)).length → rest = rle1Encode (rle1Decode rest))) :
    (rle1Encode (a :: rle1Decode rest)).length ≤ (a :: rest).length ∧
      ((a :: rest).length = (rle1Encode (a :: rle1Decode rest)).length →
        a :: rest = rle1Encode (a :: rle1Decode rest)) := by
  have hnp : ¬ [a, a, a] <+: rle1Decode rest := by
    intro hp
    have h1 : (rle1Decode rest).take 3 = [a, a, a] := by
      have := List.prefix_iff_eq_take.1 hp
      simpa using this.symm
    have h2 : rest.take 3 = [a, a, a] := by
      have h4 := congrArg (List.take 3) (rle1Decode_take rest)
      rw [List.take_take, List.take_take] at h4
      simpa [h1] using h4.symm
    have h3 : rest = [a, a, a] ++ rest.drop 3 := by rw [← h2, List.take_append_drop]
    rcases hd : rest.drop 3 with _ | ⟨n, more⟩
    · rw [hd] at h3
      rw [h3] at he
      exact he a (by simp [rle1Decode, List.replicate])
    · rw [hd] at h3
      exact hs ⟨n, more, by simpa using h3⟩
  obtain ⟨i1, i2⟩ := ih (NoLongRun.suffix (x := [a]) hno) (EndsMixed.suffix (x := [a]) he)
  rw [encode_literal a _ hnp]
  refine ⟨by simpa using i1, fun h => ?_⟩
  rw [← i2 (by simpa using h)]

/-- The standard encoding is the shortest and the only one of its length. -/
theorem rle_minimal (s : List UInt8) (hno : NoLongRun (rle1Decode s)) (he : EndsMixed (rle1Decode s)) :
    (rle1Encode (rle1Decode s)).length ≤ s.length ∧
      (s.length = (rle1Encode (rle1Decode s)).length → s = rle1Encode (rle1Decode s)) := by
  induction s using rle1Decode.induct with
  | case1 a b c d n rest h ih =>
    obtain ⟨rfl, rfl, rfl⟩ := h
    have hdec : rle1Decode (a :: a :: a :: a :: n :: rest) = List.replicate (4 + n.toNat) a ++ rle1Decode rest := by
      rw [rle1Decode]; simp
    rw [hdec] at hno he ⊢
    have hm := hno.le
    obtain ⟨i1, i2⟩ := ih hno.suffix he.suffix
    obtain ⟨k, e, hk, hhead⟩ := peel_run a (rle1Decode rest)
    rw [hk] at hno i1 i2 ⊢
    rw [← List.append_assoc, List.replicate_append_replicate] at hno ⊢
    have hmk := hno.le
    rw [encode_one_run a _ e (by omega) hmk hhead]
    have hlong : ∀ m, 4 ≤ m → encodeRun (a, m) = [a, a, a, a, UInt8.ofNat (m - 4)] := by
      intro m hm
      have : ¬ m < 4 := by omega
      simp [encodeRun, this, List.replicate_succ]
    rw [hlong _ (by omega)]
    by_cases h0 : k = 0
    · subst h0
      simp only [List.replicate_zero, List.nil_append, Nat.add_zero] at i1 i2 ⊢
      have hn : UInt8.ofNat (4 + n.toNat - 4) = n := by
        rw [show 4 + n.toNat - 4 = n.toNat by omega]; simp
      rw [hn]
      refine ⟨by simpa using i1, fun h => ?_⟩
      rw [← i2 (by simpa using h)]
      rfl
    · rw [encode_one_run a k e (by omega) (by omega) hhead] at i1
      have hpos : 1 ≤ (encodeRun (a, k)).length := by
        unfold encodeRun
        split <;> simp; omega
      simp only [List.length_append, List.length_cons, List.length_nil] at i1 ⊢
      constructor
      · omega
      · intro h; omega
  | case2 a b c d n rest h ih =>
    have hdec : rle1Decode (a :: b :: c :: d :: n :: rest) = a :: rle1Decode (b :: c :: d :: n :: rest) := by
      rw [rle1Decode]; simp only [h, if_false]
    rw [hdec] at hno he ⊢
    refine literal_step a _ ?_ he hno ih
    rintro ⟨m, more, e⟩
    simp only [List.cons.injEq] at e
    exact h ⟨e.1.symm, e.2.1.symm, e.2.2.1.symm⟩
  | case3 a rest h ih =>
    have hs : ¬ ∃ n more, rest = a :: a :: a :: n :: more := by
      rintro ⟨n, more, rfl⟩
      exact h _ _ _ _ _ rfl
    have hdec : rle1Decode (a :: rest) = a :: rle1Decode rest := by
      rw [rle1Decode]; exact h
    rw [hdec] at hno he ⊢
    exact literal_step a rest hs he hno ih
  | case4 => simp [rle1Decode, rle1Encode, runs]

end Ribzip2
