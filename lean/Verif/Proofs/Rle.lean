import Verif.Model.Rle
import Verif.Spec.Rle
namespace Ribzip2
open Spec

/-- Well-formed list of runs: sizes 1..255, and equal neighbours only after a full run. -/
def RunsOk : List (UInt8 × Nat) → Prop
  | [] => True
  | [(_, n)] => 1 ≤ n ∧ n ≤ 255
  | (b, n) :: (c, m) :: rest => (1 ≤ n ∧ n ≤ 255) ∧ (c = b → n = 255) ∧ RunsOk ((c, m) :: rest)

def expandRuns (rs : List (UInt8 × Nat)) : List UInt8 := rs.flatMap fun r => List.replicate r.2 r.1

theorem runsFrom_head (b : UInt8) (n : Nat) (d : List UInt8) :
    ∃ m rest, runsFrom b n d = (b, m) :: rest ∧ n ≤ m := by
  induction d generalizing n with
  | nil => exact ⟨n, [], rfl, Nat.le_refl _⟩
  | cons c d ih =>
    unfold runsFrom
    split
    · obtain ⟨m, rest, h1, h2⟩ := ih (n + 1); exact ⟨m, rest, h1, by omega⟩
    · exact ⟨n, _, rfl, Nat.le_refl _⟩

theorem runsFrom_ok (b : UInt8) (n : Nat) (d : List UInt8) (h1 : 1 ≤ n) (h2 : n ≤ 255) :
    RunsOk (runsFrom b n d) := by
  induction d generalizing b n with
  | nil => exact ⟨h1, h2⟩
  | cons c d ih =>
    unfold runsFrom
    split
    · exact ih b (n + 1) (by omega) (by omega)
    · rename_i hc
      have := ih c 1 (by omega) (by omega)
      obtain ⟨m, rest, e, _⟩ := runsFrom_head c 1 d
      rw [e] at this ⊢
      exact ⟨⟨h1, h2⟩, fun hcb => by
        by_cases hn : n < 255
        · exact absurd ⟨hcb, hn⟩ hc
        · omega, this⟩

theorem runs_ok (d : List UInt8) : RunsOk (runs d) := by
  cases d with
  | nil => trivial
  | cons b d => exact runsFrom_ok b 1 d (by omega) (by omega)

theorem runsFrom_expand (b : UInt8) (n : Nat) (d : List UInt8) :
    expandRuns (runsFrom b n d) = List.replicate n b ++ d := by
  induction d generalizing b n with
  | nil => simp [runsFrom, expandRuns]
  | cons c d ih =>
    unfold runsFrom
    split
    · rename_i h
      rw [ih, h.1, List.replicate_succ']
      simp
    · have := ih c 1
      simp only [expandRuns, List.flatMap_cons] at this ⊢
      rw [this]; simp

theorem runs_expand (d : List UInt8) : expandRuns (runs d) = d := by
  cases d with
  | nil => rfl
  | cons b d => rw [runs, runsFrom_expand]; simp

theorem RunsOk.tail {r : UInt8 × Nat} {rs : List (UInt8 × Nat)} (h : RunsOk (r :: rs)) : RunsOk rs := by
  cases rs with
  | nil => trivial
  | cons r' rs => exact h.2.2

theorem RunsOk.head {r : UInt8 × Nat} {rs : List (UInt8 × Nat)} (h : RunsOk (r :: rs)) :
    1 ≤ r.2 ∧ r.2 ≤ 255 := by
  cases rs with
  | nil => exact h
  | cons r' rs => exact h.1

/-! ### The model computes the standard encoder -/

/-- Pending run of the model's state. -/
def pendingRun (s : RleResult) : List UInt8 := rleAugment [] s.counter s.lastByte

theorem rleAugment_eq (x : List UInt8) (c : Nat) (l : Option UInt8) :
    rleAugment x c l = x ++ rleAugment [] c l := by
  unfold rleAugment
  cases l with
  | none => simp
  | some b => simp only; split <;> simp

theorem rle_fold (d : List UInt8) (data : List UInt8) (n : Nat) (b : UInt8) (h1 : 1 ≤ n)
    (h2 : n ≤ 255) :
    let s := d.foldl rleStep ⟨data, n, some b⟩
    rleAugment s.data s.counter s.lastByte = data ++ (runsFrom b n d).flatMap encodeRun ∧
      1 ≤ s.counter ∧ s.counter ≤ 255 := by
  induction d generalizing data n b with
  | nil =>
    simp only [List.foldl_nil, runsFrom, List.flatMap_cons, List.flatMap_nil, List.append_nil]
    refine ⟨?_, h1, h2⟩
    unfold rleAugment encodeRun
    simp only
    by_cases h4 : n ≥ 4
    · rw [if_pos h4, if_neg (by omega)]; simp
    · rw [if_neg h4, if_pos (by omega)]
  | cons c d ih =>
    simp only [List.foldl_cons]
    by_cases hc : c = b ∧ n < 255
    · have : rleStep ⟨data, n, some b⟩ c = ⟨data, n + 1, some b⟩ := by
        simp [rleStep, hc.1]; omega
      rw [this]
      have := ih data (n + 1) b (by omega) (by omega)
      simpa [runsFrom, hc] using this
    · have hcond : (b != c || decide (n + 1 > 255)) = true := by
        by_cases hcb : c = b
        · have : ¬ n < 255 := fun h => hc ⟨hcb, h⟩
          simp; right; omega
        · simp; left; exact fun h => hcb h.symm
      have : rleStep ⟨data, n, some b⟩ c = ⟨data ++ encodeRun (b, n), 1, some c⟩ := by
        simp only [rleStep, hcond, if_true, encodeRun]
        by_cases h4 : n + 1 ≥ 5
        · rw [if_pos h4, if_neg (by omega)]
          simp only [List.append_assoc, RleResult.mk.injEq, and_true]
          rw [show n + 1 - 5 = n - 4 by omega]
        · rw [if_neg h4, if_pos (by omega)]
          simp
      rw [this]
      have := ih (data ++ encodeRun (b, n)) 1 c (by omega) (by omega)
      rw [runsFrom, if_neg hc]
      simpa using this

/-- `rle` continued over a list of refills, as in lib/src/stream/mod.rs:150-156. -/
def rleChunks (chunks : List (List UInt8)) : RleResult :=
  chunks.foldl (fun s chunk =>
    let r := rle chunk s.counter s.lastByte
    ⟨s.data ++ r.data, r.counter, r.lastByte⟩) ⟨[], 0, none⟩

theorem foldl_rleStep_data (d data : List UInt8) (n : Nat) (l : Option UInt8) :
    d.foldl rleStep ⟨data, n, l⟩ =
      ⟨data ++ (d.foldl rleStep ⟨[], n, l⟩).data, (d.foldl rleStep ⟨[], n, l⟩).counter,
        (d.foldl rleStep ⟨[], n, l⟩).lastByte⟩ := by
  induction d generalizing data n l with
  | nil => simp
  | cons c d ih =>
    have hs : ∀ x, ∃ e n' l', (rleStep ⟨x, n, l⟩ c) = ⟨x ++ e, n', l'⟩ ∧
        rleStep ⟨[], n, l⟩ c = ⟨e, n', l'⟩ := by
      intro x
      unfold rleStep
      cases l with
      | none => exact ⟨[], n + 1, some c, by simp, by simp⟩
      | some b =>
        simp only
        split
        · split
          · exact ⟨List.replicate 4 b ++ [UInt8.ofNat (n + 1 - 5)], 1, some c,
              by simp only [List.append_assoc], by simp⟩
          · exact ⟨List.replicate (n + 1 - 1) b, 1, some c, rfl, by simp⟩
        · exact ⟨[], n + 1, some c, by simp, by simp⟩
    obtain ⟨e, n', l', g1, g2⟩ := hs data
    simp only [List.foldl_cons, g1, g2]
    rw [ih (data ++ e), ih e]
    simp

theorem rleChunks_eq (chunks : List (List UInt8)) : rleChunks chunks = rle chunks.flatten 0 none := by
  have : ∀ (s : RleResult), chunks.foldl (fun s chunk =>
      let r := rle chunk s.counter s.lastByte
      (⟨s.data ++ r.data, r.counter, r.lastByte⟩ : RleResult)) s = chunks.flatten.foldl rleStep s := by
    induction chunks with
    | nil => intro s; rfl
    | cons c cs ih =>
      intro s
      simp only [List.foldl_cons, List.flatten_cons, List.foldl_append, ih]
      congr 1
      rw [rle]
      exact (foldl_rleStep_data c s.data s.counter s.lastByte).symm
  exact this _

theorem rle_eq (d : List UInt8) :
    rleAugment (rle d 0 none).data (rle d 0 none).counter (rle d 0 none).lastByte = rle1Encode d := by
  cases d with
  | nil => rfl
  | cons b d =>
    have : rleStep ⟨[], 0, none⟩ b = ⟨[], 1, some b⟩ := rfl
    rw [rle, List.foldl_cons, this]
    have := (rle_fold d [] 1 b (by omega) (by omega)).1
    simpa [rle1Encode, runs] using this

theorem rle_counter (d : List UInt8) (hd : d ≠ []) :
    1 ≤ (rle d 0 none).counter ∧ (rle d 0 none).counter ≤ 255 ∧ (rle d 0 none).lastByte.isSome := by
  cases d with
  | nil => simp at hd
  | cons b d =>
    have : rleStep ⟨[], 0, none⟩ b = ⟨[], 1, some b⟩ := rfl
    rw [rle, List.foldl_cons, this]
    obtain ⟨_, h1, h2⟩ := rle_fold d [] 1 b (by omega) (by omega)
    refine ⟨h1, h2, ?_⟩
    have : ∀ (d : List UInt8) (s : RleResult), s.lastByte.isSome → (d.foldl rleStep s).lastByte.isSome := by
      intro d
      induction d with
      | nil => intro s h; exact h
      | cons c d ih =>
        intro s h
        rw [List.foldl_cons]
        apply ih
        unfold rleStep
        dsimp only
        split
        · split
          · split <;> rfl
          · rfl
        · rfl
    exact this d _ rfl

theorem rleTotalSize_eq (x : List UInt8) (c : Nat) (l : Option UInt8) :
    rleTotalSize x.length c l = (rleAugment x c l).length := by
  unfold rleTotalSize rleAugment
  cases l with
  | none => rfl
  | some b => simp only; split <;> simp

/-! ### The standard decoder inverts it -/

theorem rle1Decode_short (n : Nat) (b : UInt8) (y : List UInt8) (hn : n ≤ 3)
    (hy : y.head? ≠ some b) : rle1Decode (List.replicate n b ++ y) = List.replicate n b ++ rle1Decode y := by
  have step : ∀ z, (∀ a1 a2 a3 n' r, b :: z = a1 :: a1 :: a2 :: a3 :: n' :: r → ¬ (a1 = a2 ∧ a1 = a3)) →
      rle1Decode (b :: z) = b :: rle1Decode z := by
    intro z hz
    match z with
    | [] => rfl
    | [_] => rfl
    | [_, _] => rfl
    | [_, _, _] => rfl
    | c :: d :: e :: n' :: r =>
      rw [rle1Decode]
      rw [if_neg]
      rintro ⟨h1, h2, h3⟩
      subst h1
      exact hz b d e n' r rfl ⟨h2, h3⟩
  have hy' : ∀ (c : UInt8) r, y = c :: r → c ≠ b := by
    intro c r e hc; subst hc; simp [e] at hy
  have hn4 : n = 0 ∨ n = 1 ∨ n = 2 ∨ n = 3 := by omega
  rcases hn4 with h | h | h | h <;> subst h
  · simp
  · show rle1Decode (b :: y) = _
    rw [step]; rfl
    intro a1 a2 a3 n' r e _
    simp at e
    exact hy' _ _ e.2 e.1.symm
  · show rle1Decode (b :: b :: y) = _
    rw [step, step]; rfl
    · intro a1 a2 a3 n' r e _
      simp at e
      exact hy' _ _ e.2 e.1.symm
    · intro a1 a2 a3 n' r e h
      simp at e
      exact hy' _ _ e.2 (by rw [← h.1, ← e.1])
  · show rle1Decode (b :: b :: b :: y) = _
    rw [step, step, step]; rfl
    · intro a1 a2 a3 n' r e _
      simp at e
      exact hy' _ _ e.2 e.1.symm
    · intro a1 a2 a3 n' r e h
      simp at e
      exact hy' _ _ e.2 (by rw [← h.1, ← e.1])
    · intro a1 a2 a3 n' r e h
      simp at e
      exact hy' _ _ e.2.2 (by rw [← h.2, ← e.1])

theorem encodeRun_head (b : UInt8) (n : Nat) (h : 1 ≤ n) (rest : List UInt8) :
    (encodeRun (b, n) ++ rest).head? = some b := by
  unfold encodeRun
  split
  · obtain ⟨m, rfl⟩ : ∃ m, n = m + 1 := ⟨n - 1, by omega⟩
    simp [List.replicate_succ]
  · simp [List.replicate_succ]

theorem rle1Decode_runs (rs : List (UInt8 × Nat)) (h : RunsOk rs) :
    rle1Decode (rs.flatMap encodeRun) = expandRuns rs := by
  induction rs with
  | nil => rfl
  | cons r rs ih =>
    obtain ⟨b, n⟩ := r
    have hh := h.head
    simp only at hh
    simp only [List.flatMap_cons, expandRuns]
    rw [← expandRuns, ← ih h.tail]
    by_cases h4 : n < 4
    · rw [show encodeRun (b, n) = List.replicate n b by simp [encodeRun, h4]]
      apply rle1Decode_short _ _ _ (by omega)
      cases rs with
      | nil => simp
      | cons r' rs =>
        obtain ⟨c, m⟩ := r'
        have := h.tail.head
        simp only at this
        rw [List.flatMap_cons, encodeRun_head c m this.1]
        intro e
        simp at e
        have := h.2.1 e
        omega
    · rw [show encodeRun (b, n) = [b, b, b, b, UInt8.ofNat (n - 4)] by
        simp [encodeRun, h4, List.replicate_succ]]
      simp only [List.cons_append, List.nil_append]
      rw [rle1Decode, if_pos ⟨rfl, rfl, rfl⟩]
      rw [UInt8.toNat_ofNat_of_lt' (show _ < 256 by omega), show 4 + (n - 4) = n by omega]

theorem rle1Decode_encode (d : List UInt8) : rle1Decode (rle1Encode d) = d := by
  rw [rle1Encode, rle1Decode_runs _ (runs_ok d), runs_expand]

/-! ### The library's own inverse -/

theorem inv_fresh (s : InvRle) (c : UInt8) (m : Nat) (h1 : 1 ≤ m) (h2 : m ≤ 255)
    (he : s.equalCount ≤ 2) (hz : s.previous = none → s.equalCount = 0) (hp : s.previous ≠ some c) :
    (encodeRun (c, m)).foldl invRleStep s =
      if m < 4 then ⟨s.output ++ List.replicate m c, m - 1, some c⟩
      else ⟨s.output ++ List.replicate m c, 0, some (UInt8.ofNat (m - 4))⟩ := by
  obtain ⟨out, ec, prev⟩ := s
  simp only at *
  have first : invRleStep ⟨out, ec, prev⟩ c = ⟨out ++ [c], 0, some c⟩ := by
    cases prev with
    | none => simp [invRleStep, hz]
    | some p =>
      have : p ≠ c := fun h => hp (by rw [h])
      simp [invRleStep, this, show ec ≠ 3 by omega]
  have eq1 : ∀ out, invRleStep ⟨out, 0, some c⟩ c = ⟨out ++ [c], 1, some c⟩ := by
    intro out; simp [invRleStep]
  have eq2 : ∀ out, invRleStep ⟨out, 1, some c⟩ c = ⟨out ++ [c], 2, some c⟩ := by
    intro out; simp [invRleStep]
  have eq3 : ∀ out, invRleStep ⟨out, 2, some c⟩ c = ⟨out ++ [c], 3, some c⟩ := by
    intro out; simp [invRleStep]
  by_cases h4 : m < 4
  · have : m = 1 ∨ m = 2 ∨ m = 3 := by omega
    rcases this with h | h | h <;> subst h
    · simp [encodeRun, first]
    · simp [encodeRun, List.replicate_succ, first, eq1]
    · simp [encodeRun, List.replicate_succ, first, eq1, eq2]
  · rw [if_neg h4, show encodeRun (c, m) = [c, c, c, c, UInt8.ofNat (m - 4)] by
        simp [encodeRun, h4, List.replicate_succ]]
    simp only [List.foldl_cons, List.foldl_nil, first, eq1, eq2, eq3]
    simp only [invRleStep, if_true, InvRle.mk.injEq, and_true]
    rw [UInt8.toNat_ofNat_of_lt' (show _ < 256 by omega)]
    obtain ⟨k, rfl⟩ : ∃ k, m = k + 4 := ⟨m - 4, by omega⟩
    simp only [Nat.add_sub_cancel, List.append_assoc]
    congr 1

theorem inv_collide (s : InvRle) (c : UInt8) (m : Nat) (h1 : 1 ≤ m) (h3 : m ≤ 3)
    (he : s.equalCount = 0) (hp : s.previous = some c) :
    (encodeRun (c, m)).foldl invRleStep s = ⟨s.output ++ List.replicate m c, m, some c⟩ := by
  obtain ⟨out, ec, prev⟩ := s
  simp only at *
  subst he hp
  have eq : ∀ out k, k < 3 → invRleStep ⟨out, k, some c⟩ c = ⟨out ++ [c], k + 1, some c⟩ := by
    intro out k hk; simp [invRleStep]; omega
  have : m = 1 ∨ m = 2 ∨ m = 3 := by omega
  rcases this with h | h | h <;> subst h <;>
    simp [encodeRun, List.replicate_succ, eq]

end Ribzip2
