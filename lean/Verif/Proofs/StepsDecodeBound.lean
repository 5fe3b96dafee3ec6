import Verif.Proofs.StepsDecode
import Mathlib.Tactic.Ring
/- The number of steps of the decoder: reading takes a bounded number of steps per bit, the stages after it a bounded
number per byte of output, except for sorting. -/
namespace Ribzip2
open Spec Cost

theorem cost_bind {α β : Type} {x : Cost α} {f : α → Cost β} {b : β} {n : Nat} (h : (x >>= f).run = Res.ok (b, n)) :
    ∃ a k l, x.run = Res.ok (a, k) ∧ (f a).run = Res.ok (b, l) ∧ n = k + l := by
  have h : (Res.bind x fun a => Res.bind (f a.1) fun b => Res.ok (b.1, a.2 + b.2)) = Res.ok (b, n) := h
  obtain ⟨⟨a, k⟩, h1, h2⟩ := bind_is_ok.1 h
  obtain ⟨⟨c, l⟩, h3, h4⟩ := bind_is_ok.1 h2
  simp only [Res.ok.injEq, Prod.mk.injEq] at h4
  obtain ⟨rfl, rfl⟩ := h4
  exact ⟨a, k, l, h1, h3, rfl⟩

theorem cost_tick {β : Type} {m : Nat} {f : Unit → Cost β} {b : β} {n : Nat} (h : (tick m >>= f).run = Res.ok (b, n)) :
    ∃ l, (f ()).run = Res.ok (b, l) ∧ n = m + l := by
  obtain ⟨a, k, l, h1, h2, h3⟩ := cost_bind h
  have h1 : (Res.ok ((), m) : Res (Unit × Nat)) = Res.ok (a, k) := h1
  simp only [Res.ok.injEq, Prod.mk.injEq] at h1
  exact ⟨l, h2, by omega⟩

theorem cost_lift {β α : Type} {r : Res α} {f : α → Cost β} {b : β} {n : Nat} (h : (lift r >>= f).run = Res.ok (b, n)) :
    ∃ a, r = Res.ok a ∧ (f a).run = Res.ok (b, n) := by
  obtain ⟨a, k, l, h1, h2, h3⟩ := cost_bind h
  obtain ⟨c, h4, h5⟩ := bind_is_ok.1 h1
  simp only [Res.ok.injEq, Prod.mk.injEq] at h5
  obtain ⟨rfl, rfl⟩ := h5
  exact ⟨c, h4, by rw [h2, h3, Nat.zero_add]⟩

theorem cost_pure {α : Type} {a b : α} {n : Nat} (h : (pure a : Cost α).run = Res.ok (b, n)) : b = a ∧ n = 0 := by
  have h : (Res.ok (a, 0) : Res (α × Nat)) = Res.ok (b, n) := h
  simp only [Res.ok.injEq, Prod.mk.injEq] at h
  exact ⟨h.1.symm, h.2.symm⟩

theorem cost_lifted {α : Type} {r : Res α} {b : α} {n : Nat} (h : (lift r).run = Res.ok (b, n)) : r = Res.ok b ∧ n = 0 := by
  obtain ⟨c, h4, h5⟩ := bind_is_ok.1 h
  simp only [Res.ok.injEq, Prod.mk.injEq] at h5
  exact ⟨by rw [h4, h5.1], h5.2.symm⟩

theorem cost_unwrap {α : Type} {x : Cost α} {p : α × Nat} (h : x.unwrap.run = Res.ok p) : x.run = Res.ok p := by
  have h : Res.unwrap x.run = Res.ok p := h
  cases hx : x.run <;> rw [hx] at h <;> simp at h
  rw [h]

theorem erase_of_run {α : Type} {x : Cost α} {a : α} {k : Nat} (h : x.run = Res.ok (a, k)) : x.erase = Res.ok a := by
  rw [Cost.erase, h]
  rfl

/-! ### reading -/

theorem readBits_bits {n : Nat} {br br' : BitReader} {bits : List Bit} (h : br.readBits n = Res.ok (bits, br')) :
    bits.length = n ∧ n + br'.bits.length = br.bits.length := by
  have := absR_readBits n br
  rw [h, absR_ok, takeBits] at this
  split at this
  · simp only [Res.ok.injEq, Prod.mk.injEq] at this
    rw [this.1, this.2]
    simp only [List.length_take, List.length_drop]
    omega
  · simp at this

theorem readBitsC_steps {n : Nat} {br br' : BitReader} {bits : List Bit} {k : Nat}
    (h : (br.readBitsC n).run = Res.ok ((bits, br'), k)) :
    k = 2 * n ∧ bits.length = n ∧ n + br'.bits.length = br.bits.length := by
  have h1 := erase_of_run h
  rw [readBitsC_erase] at h1
  refine ⟨?_, readBits_bits h1⟩
  clear h1
  induction n generalizing br bits k with
  | zero => exact (cost_pure h).2
  | succ n ih =>
    rw [BitReader.readBitsC] at h
    obtain ⟨l, h0, rfl⟩ := cost_tick h
    obtain ⟨⟨b, br2⟩, -, h00⟩ := cost_lift h0
    obtain ⟨⟨bits2, br3⟩, k1, k2, h1, h2, rfl⟩ := cost_bind h00
    obtain ⟨h3, rfl⟩ := cost_pure h2
    simp only [Prod.mk.injEq] at h3
    obtain ⟨rfl, rfl⟩ := h3
    have := ih h1
    omega

theorem numberC_steps {bits : List Bit} {n k : Nat} (h : (convertToNumberC bits).run = Res.ok (n, k)) :
    n = convertToNumber bits ∧ k = bits.length := by
  obtain ⟨l, h0, rfl⟩ := cost_tick h
  obtain ⟨h1, rfl⟩ := cost_pure h0
  exact ⟨h1, rfl⟩

theorem readBytesC_steps {n : Nat} {br br' : BitReader} {bytes : List UInt8} {k : Nat}
    (h : (br.readBytesC n).run = Res.ok ((bytes, br'), k)) : k = 25 * n ∧ 8 * n + br'.bits.length = br.bits.length := by
  induction n generalizing br bytes k with
  | zero =>
    obtain ⟨h1, rfl⟩ := cost_pure h
    simp only [Prod.mk.injEq] at h1
    exact ⟨rfl, by rw [h1.2]; omega⟩
  | succ n ih =>
    rw [BitReader.readBytesC] at h
    obtain ⟨l, h0, rfl⟩ := cost_tick h
    obtain ⟨⟨bits, br2⟩, k1, k2, h1, h2, rfl⟩ := cost_bind h0
    obtain ⟨num, k3, k4, h3, h4, rfl⟩ := cost_bind h2
    obtain ⟨⟨bytes2, br3⟩, k5, k6, h5, h6, rfl⟩ := cost_bind h4
    obtain ⟨h7, rfl⟩ := cost_pure h6
    simp only [Prod.mk.injEq] at h7
    obtain ⟨rfl, rfl⟩ := h7
    have a1 := readBitsC_steps h1
    have a2 := numberC_steps h3
    have a3 := ih h5
    omega

theorem getUsedSymbols_length (regions : List Nat) (bits : List Bit) :
    (getUsedSymbolsFromRegions regions bits).length ≤ bits.length := by
  unfold getUsedSymbolsFromRegions
  generalize regions.flatMap (fun x => (List.range 16).map (fun position => (position, x))) = l
  induction l generalizing bits with
  | nil => simp
  | cons x l ih =>
    cases bits with
    | nil => simp
    | cons b bits =>
      have := ih bits
      rw [List.zip_cons_cons, List.flatMap_cons, List.length_append, List.length_cons]
      dsimp only
      split <;> simp only [List.length_cons, List.length_nil] <;> omega

theorem readSymbolTableC_steps {br br' : BitReader} {symbols : List UInt8} {k : Nat}
    (h : (readSymbolTableC br).run = Res.ok ((symbols, br'), k)) :
    k + 7 * br'.bits.length ≤ 7 * br.bits.length ∧ 16 + br'.bits.length ≤ br.bits.length ∧ symbols.length ≤ 256 := by
  obtain ⟨⟨index, br2⟩, k1, k2, h1, h2, rfl⟩ := cost_bind h
  obtain ⟨l, h3, rfl⟩ := cost_tick h2
  obtain ⟨⟨regions, br3⟩, k3, k4, h4, h5, rfl⟩ := cost_bind h3
  obtain ⟨l, h6, rfl⟩ := cost_tick h5
  obtain ⟨h7, rfl⟩ := cost_pure h6
  simp only [Prod.mk.injEq] at h7
  obtain ⟨rfl, rfl⟩ := h7
  have a1 := readBitsC_steps h1
  have a2 := readBitsC_steps h4
  have a3 : (getUsedRegions index).length ≤ 16 := by
    rw [getUsedRegions, List.length_map]
    refine le_trans (List.length_filter_le _ _) ?_
    rw [List.length_zipIdx]
    omega
  have a4 := getUsedSymbols_length (getUsedRegions index) regions
  omega

theorem readUnaryLoopC_steps (amount fuel : Nat) (br br' : BitReader) (out out' : List UInt8) (c n k : Nat)
    (h : (readUnaryLoopC amount fuel br out c n).run = Res.ok ((out', br'), k)) :
    k + 3 * br'.bits.length ≤ 3 * br.bits.length ∧ 1 + br'.bits.length ≤ br.bits.length ∧
      out'.length + br'.bits.length ≤ out.length + br.bits.length := by
  induction fuel generalizing br out c n k with
  | zero => exact absurd (cost_lifted h).1 (by simp)
  | succ fuel ih =>
    rw [readUnaryLoopC] at h
    obtain ⟨l, h0, rfl⟩ := cost_tick h
    obtain ⟨⟨bits, br2⟩, k1, k2, h1, h2, rfl⟩ := cost_bind h0
    have a1 := readBitsC_steps h1
    have done : ∀ (o : List UInt8) (m : Nat), (pure (o, br2) : Cost (List UInt8 × BitReader)).run = Res.ok ((out', br'), m) →
        o = out' ∧ br2 = br' ∧ m = 0 := fun o m hp => by
      obtain ⟨h3, rfl⟩ := cost_pure hp
      simp only [Prod.mk.injEq] at h3
      exact ⟨h3.1.symm, h3.2.symm, rfl⟩
    match bits, h2 with
    | [], h2 => exact absurd (cost_lifted h2).1 (by simp)
    | true :: _ :: _, h2 => simp at a1
    | false :: _ :: _, h2 => simp at a1
    | [true], h2 =>
      dsimp only at h2
      split at h2
      · split at h2
        · obtain ⟨rfl, rfl, rfl⟩ := done _ _ h2
          omega
        · have := ih _ _ _ _ _ h2
          omega
      · exact absurd (cost_lifted h2).1 (by simp)
    | [false], h2 =>
      dsimp only at h2
      split at h2
      · obtain ⟨rfl, rfl, rfl⟩ := done _ _ h2
        simp only [List.length_append, List.length_cons, List.length_nil]
        omega
      · have := ih _ _ _ _ _ h2
        simp only [List.length_append, List.length_cons, List.length_nil] at this
        omega

theorem readDeltaLoopC_steps (amount fuel : Nat) (br br' : BitReader) (out out' : List UInt8) (c n k : Nat)
    (h : (readDeltaLoopC amount fuel br out c n).run = Res.ok ((out', br'), k)) :
    k + 3 * br'.bits.length ≤ 3 * br.bits.length ∧ out'.length + br'.bits.length ≤ out.length + br.bits.length := by
  induction fuel generalizing br out c n k with
  | zero => exact absurd (cost_lifted h).1 (by simp)
  | succ fuel ih =>
    rw [readDeltaLoopC] at h
    obtain ⟨l, h0, rfl⟩ := cost_tick h
    obtain ⟨⟨bits, br2⟩, k1, k2, h1, h2, rfl⟩ := cost_bind h0
    have a1 := readBitsC_steps h1
    have done : ∀ (b : BitReader) (o : List UInt8) (m : Nat),
        (pure (o, b) : Cost (List UInt8 × BitReader)).run = Res.ok ((out', br'), m) →
        o = out' ∧ b = br' ∧ m = 0 := fun b o m hp => by
      obtain ⟨h3, rfl⟩ := cost_pure hp
      simp only [Prod.mk.injEq] at h3
      exact ⟨h3.1.symm, h3.2.symm, rfl⟩
    match bits, h2 with
    | [], h2 => simp at a1
    | true :: _ :: _, h2 => simp at a1
    | false :: _ :: _, h2 => simp at a1
    | [true], h2 =>
      dsimp only at h2
      obtain ⟨⟨bits3, br3⟩, k3, k4, h3, h4, rfl⟩ := cost_bind h2
      have a2 := readBitsC_steps h3
      obtain ⟨start, -, h5⟩ := cost_lift h4
      dsimp only at h5
      split at h5
      · obtain ⟨rfl, rfl, rfl⟩ := done _ _ _ h5
        omega
      · have := ih _ _ _ _ _ h5
        omega
    | [false], h2 =>
      dsimp only at h2
      split at h2
      · obtain ⟨rfl, rfl, rfl⟩ := done _ _ _ h2
        simp only [List.length_append, List.length_cons, List.length_nil]
        omega
      · have := ih _ _ _ _ _ h2
        simp only [List.length_append, List.length_cons, List.length_nil] at this
        omega

theorem readDeltaC_steps {amount : Nat} {br br' : BitReader} {tree : List UInt8} {k : Nat}
    (h : (readDeltaC br amount).run = Res.ok ((tree, br'), k)) :
    k + 3 * br'.bits.length ≤ 3 * br.bits.length ∧ tree.length + 5 + br'.bits.length ≤ br.bits.length := by
  obtain ⟨⟨bits, br2⟩, k1, k2, h1, h2, rfl⟩ := cost_bind h
  obtain ⟨num, k3, k4, h3, h4, rfl⟩ := cost_bind h2
  have a1 := readBitsC_steps h1
  have a2 := numberC_steps h3
  have a3 := readDeltaLoopC_steps _ _ _ _ _ _ _ _ _ h4
  simp only [List.length_nil] at a3
  omega

theorem readTreesC_steps (amount n : Nat) (br br' : BitReader) (trees : List (List UInt8)) (k : Nat)
    (h : (readTreesC amount n br).run = Res.ok ((trees, br'), k)) :
    k + 4 * br'.bits.length ≤ 4 * br.bits.length ∧
      (trees.map List.length).sum + br'.bits.length ≤ br.bits.length := by
  induction n generalizing br trees k with
  | zero =>
    obtain ⟨h1, rfl⟩ := cost_pure h
    simp only [Prod.mk.injEq] at h1
    obtain ⟨rfl, rfl⟩ := h1
    simp
  | succ n ih =>
    rw [readTreesC] at h
    obtain ⟨l, h0, rfl⟩ := cost_tick h
    obtain ⟨⟨tree, br2⟩, k1, k2, h1, h2, rfl⟩ := cost_bind h0
    obtain ⟨⟨more, br3⟩, k3, k4, h3, h4, rfl⟩ := cost_bind h2
    obtain ⟨h5, rfl⟩ := cost_pure h4
    simp only [Prod.mk.injEq] at h5
    obtain ⟨rfl, rfl⟩ := h5
    have a1 := readDeltaC_steps (cost_unwrap h1)
    have a2 := ih _ _ _ h3
    simp only [List.map_cons, List.sum_cons]
    omega

/-! ### tables -/

theorem lsbLoop_length_log (n fuel x : Nat) (h : x < 2 ^ n) : (lsbLoop fuel x).length ≤ n := by
  induction fuel generalizing x n with
  | zero => simp [lsbLoop]
  | succ fuel ih =>
    rw [lsbLoop]
    split
    · cases n with
      | zero => omega
      | succ n =>
        have := ih n (x / 2) (by rw [pow_succ] at h; omega)
        simp only [List.length_cons]
        omega
    · simp

theorem incrementSymbol_length {l u : List Bit} (h : incrementSymbol l = Res.ok u) : u.length ≤ max 64 l.length := by
  unfold incrementSymbol at h
  split at h
  · rename_i hlt
    simp only [Res.ok.injEq] at h
    subst h
    have := lsbLoop_length_log 64 (convertToNumber l + 1) _ hlt
    rw [convertToCodePadToNBits, List.length_reverse, List.length_append, List.length_replicate]
    omega
  · simp at h

theorem canonicalLoop_lengths (T : List CodeTableEntry) (last : List Bit) (out : List CanonicalEntry)
    (hl : last.length ≤ 255) (hT : ∀ e ∈ T, e.code ≤ 255) (h : canonicalLoop last T = Res.ok out) :
    out.length = T.length ∧ ∀ e ∈ out, e.code.length ≤ 255 := by
  induction T generalizing last out with
  | nil =>
    simp only [canonicalLoop, Res.ok.injEq] at h
    subst h
    simp
  | cons e T ih =>
    rw [canonicalLoop] at h
    obtain ⟨u, h1, h2⟩ := bind_is_ok.1 h
    dsimp only at h2
    obtain ⟨more, h3, h4⟩ := bind_is_ok.1 h2
    simp only [Res.pure_eq, Res.ok.injEq] at h4
    subst h4
    have hu := incrementSymbol_length h1
    have he := hT e (by simp)
    have hc : (u ++ List.replicate (e.code - u.length) false).length ≤ 255 := by
      rw [List.length_append, List.length_replicate]
      omega
    obtain ⟨i1, i2⟩ := ih _ more hc (fun x hx => hT x (by simp [hx])) h3
    refine ⟨by simp [i1], fun x hx => ?_⟩
    rcases List.mem_cons.1 hx with rfl | hx
    · exact hc
    · exact i2 x hx

theorem canonicalize_lengths {T : List CodeTableEntry} {out : List CanonicalEntry} (hT : ∀ e ∈ T, e.code ≤ 255)
    (h : canonicalize T = Res.ok out) : out.length = T.length ∧ ∀ e ∈ out, e.code.length ≤ 255 := by
  unfold canonicalize at h
  have hp := stableSort_perm CodeTableEntry.le T
  generalize stableSort CodeTableEntry.le T = S at *
  match S, h with
  | [], h => simp at h
  | first :: rest, h =>
    dsimp only at h
    obtain ⟨more, h1, h2⟩ := bind_is_ok.1 h
    simp only [Res.pure_eq, Res.ok.injEq] at h2
    have hS : ∀ e ∈ first :: rest, e.code ≤ 255 := fun e he => hT e (hp.mem_iff.1 he)
    have hf : (List.replicate first.code false : List Bit).length ≤ 255 := by
      rw [List.length_replicate]
      exact hS first (by simp)
    obtain ⟨i1, i2⟩ := canonicalLoop_lengths rest _ more hf (fun e he => hS e (by simp [he])) h1
    have hq := stableSort_perm (fun x y : CanonicalEntry => decide (x.symbol.rank ≤ y.symbol.rank))
      (⟨List.replicate first.code false, first.symbol⟩ :: more)
    rw [h2] at hq
    refine ⟨?_, fun e he => ?_⟩
    · rw [hq.length_eq, ← hp.length_eq]
      simp [i1]
    · rcases List.mem_cons.1 (hq.mem_iff.1 he) with rfl | hm
      · exact hf
      · exact i2 e hm

theorem fromWeights_lengths {l : List UInt8} {T : List CodeTableEntry} (h : fromWeights l = Res.ok T) :
    3 ≤ l.length ∧ l.length ≤ 258 ∧ T.length = l.length ∧ ∀ e ∈ T, e.code ≤ 255 := by
  unfold fromWeights at h
  obtain ⟨k, h1, h2⟩ := bind_is_ok.1 h
  have hk : 3 ≤ l.length ∧ k = l.length - 3 := by
    unfold subU at h1
    split at h1
    · simp only [Res.ok.injEq] at h1
      omega
    · simp at h1
  dsimp only at h2
  split at h2
  · simp only [Res.pure_eq, Res.ok.injEq] at h2
    subst h2
    refine ⟨hk.1, by omega, ?_, ?_⟩
    · simp
      omega
    · intro e he
      obtain ⟨⟨s, x⟩, -, rfl⟩ := List.mem_map.1 he
      exact Nat.le_of_lt_succ x.toNat_lt
  · simp at h2

/-- A table as the decoder makes them: at most 258 entries, with codes of at most 255 bits. -/
def SmallTable (T : List CanonicalEntry) : Prop := T.length ≤ 258 ∧ ∀ e ∈ T, e.code.length ≤ 255

theorem buildTablesC_steps (trees : List (List UInt8)) (tables : List (List CanonicalEntry)) (k : Nat)
    (h : (buildTablesC trees).run = Res.ok (tables, k)) :
    k ≤ 2000 * (trees.map List.length).sum ∧ ∀ T ∈ tables, SmallTable T := by
  induction trees generalizing tables k with
  | nil =>
    obtain ⟨rfl, rfl⟩ := cost_pure h
    simp
  | cons t trees ih =>
    rw [buildTablesC] at h
    obtain ⟨l, h0, rfl⟩ := cost_tick h
    obtain ⟨w, k1, k2, h1, h2, rfl⟩ := cost_bind h0
    obtain ⟨c, k3, k4, h3, h4, rfl⟩ := cost_bind h2
    obtain ⟨more, k5, k6, h5, h6, rfl⟩ := cost_bind h4
    obtain ⟨rfl, rfl⟩ := cost_pure h6
    obtain ⟨l2, h7, rfl⟩ := cost_tick h1
    obtain ⟨h8, rfl⟩ := cost_lifted h7
    obtain ⟨w1, w2, w3, w4⟩ := fromWeights_lengths h8
    have hc := erase_of_run h3
    rw [canonicalizeC_erase] at hc
    obtain ⟨c1, c2⟩ := canonicalize_lengths w4 hc
    obtain ⟨k', r1, r2⟩ := canonicalizeC_runs 255 w t.length w3 c hc c2
    rw [h3, Res.ok.injEq, Prod.mk.injEq] at r2
    obtain ⟨-, rfl⟩ := r2
    obtain ⟨i1, i2⟩ := ih _ _ h5
    refine ⟨?_, ?_⟩
    · have hm : t.length * t.length ≤ 258 * t.length := Nat.mul_le_mul_right _ w2
      simp only [List.map_cons, List.sum_cons]
      omega
    · intro T hT
      rcases List.mem_cons.1 hT with rfl | hT
      · exact ⟨by omega, c2⟩
      · exact i2 T hT

theorem readFromTableC_steps (symbols : List Bit) (T : List CanonicalEntry) (hT : ∀ e ∈ T, e.code.length ≤ 255)
    (o : Option HSym) (k : Nat) (h : (readFromTableC symbols T).run = Res.ok (o, k)) : k ≤ 256 * T.length := by
  induction T generalizing k with
  | nil =>
    obtain ⟨-, rfl⟩ := cost_pure h
    simp
  | cons e T ih =>
    rw [readFromTableC] at h
    obtain ⟨l, h0, rfl⟩ := cost_tick h
    have he := hT e (by simp)
    have h1 : (if e.code.length = symbols.length then symbols.length else 0) ≤ 255 := by split <;> omega
    rw [List.length_cons]
    split at h0
    · obtain ⟨-, rfl⟩ := cost_pure h0
      omega
    · have := ih (fun x hx => hT x (by simp [hx])) _ h0
      omega

theorem readSymbolsLoopC_steps (T : List CanonicalEntry) (hT : SmallTable T) (m fuel : Nat) (br br' : BitReader)
    (all all' : List ZleSymbol) (cur : List Bit) (n k : Nat)
    (h : (readSymbolsLoopC T m fuel br all cur n).run = Res.ok ((all', br'), k)) :
    k + 66052 * br'.bits.length ≤ 66052 * br.bits.length ∧ 1 + br'.bits.length ≤ br.bits.length ∧
      all'.length + br'.bits.length ≤ all.length + br.bits.length := by
  induction fuel generalizing br all cur n k with
  | zero => exact absurd (cost_lifted h).1 (by simp)
  | succ fuel ih =>
    rw [readSymbolsLoopC] at h
    obtain ⟨l, h0, rfl⟩ := cost_tick h
    obtain ⟨⟨bits, br2⟩, k1, k2, h1, h2, rfl⟩ := cost_bind h0
    have a1 := readBitsC_steps h1
    dsimp only at h2
    obtain ⟨found, k3, k4, h3, h4, rfl⟩ := cost_bind h2
    have a2 := readFromTableC_steps _ T hT.2 _ _ h3
    have hlen := hT.1
    have done : ∀ (o : List ZleSymbol) (m : Nat),
        (pure (o, br2) : Cost (List ZleSymbol × BitReader)).run = Res.ok ((all', br'), m) →
        o = all' ∧ br2 = br' ∧ m = 0 := fun o m hp => by
      obtain ⟨h3, rfl⟩ := cost_pure hp
      simp only [Prod.mk.injEq] at h3
      exact ⟨h3.1.symm, h3.2.symm, rfl⟩
    match found, h4 with
    | some (HSym.normal s), h4 =>
      dsimp only at h4
      split at h4
      · obtain ⟨rfl, rfl, rfl⟩ := done _ _ h4
        simp only [List.length_append, List.length_cons, List.length_nil]
        omega
      · have := ih _ _ _ _ _ h4
        simp only [List.length_append, List.length_cons, List.length_nil] at this
        omega
    | some HSym.eob, h4 =>
      obtain ⟨rfl, rfl, rfl⟩ := done _ _ h4
      omega
    | none, h4 =>
      dsimp only at h4
      split at h4
      · obtain ⟨rfl, rfl, rfl⟩ := done _ _ h4
        omega
      · have := ih _ _ _ _ _ h4
        omega

theorem readGroupsC_steps (tables : List (List CanonicalEntry)) (hT : ∀ T ∈ tables, SmallTable T) (sel : List UInt8)
    (br br' : BitReader) (zle : List ZleSymbol) (k : Nat)
    (h : (readGroupsC tables sel br).run = Res.ok ((zle, br'), k)) :
    k + 66054 * br'.bits.length ≤ 66054 * br.bits.length ∧ zle.length + br'.bits.length ≤ br.bits.length := by
  induction sel generalizing br zle k with
  | nil =>
    obtain ⟨h1, rfl⟩ := cost_pure h
    simp only [Prod.mk.injEq] at h1
    obtain ⟨rfl, rfl⟩ := h1
    simp
  | cons s sel ih =>
    rw [readGroupsC] at h
    obtain ⟨l, h0, rfl⟩ := cost_tick h
    obtain ⟨T, hTi, h00⟩ := cost_lift h0
    obtain ⟨⟨syms, br2⟩, k1, k2, h1, h2, rfl⟩ := cost_bind h00
    obtain ⟨l2, h3, rfl⟩ := cost_tick h2
    obtain ⟨⟨more, br3⟩, k3, k4, h4, h5, rfl⟩ := cost_bind h3
    obtain ⟨h6, rfl⟩ := cost_pure h5
    simp only [Prod.mk.injEq] at h6
    obtain ⟨rfl, rfl⟩ := h6
    have hTm : T ∈ tables := by
      unfold idx at hTi
      cases hg : tables[s.toNat]? with
      | none => rw [hg] at hTi; simp at hTi
      | some t =>
        rw [hg] at hTi
        simp only [Res.ofOption_some, Res.ok.injEq] at hTi
        subst hTi
        exact List.mem_of_getElem? hg
    have a1 := readSymbolsLoopC_steps T (hT T hTm) _ _ _ _ _ _ _ _ _ (cost_unwrap h1)
    have a2 := ih _ _ _ h4
    simp only [List.length_append]
    simp only [List.length_nil] at a1
    omega

/-! ### stages -/

theorem decodeZerosC_steps {zeros : List ZleSymbol} {n k : Nat} (hz : zeros.isEmpty = false)
    (h : (decodeZerosC zeros).run = Res.ok (n, k)) : k ≤ 6 * zeros.length + 2 * n := by
  obtain ⟨l, h1, rfl⟩ := cost_tick h
  obtain ⟨m, -, h2⟩ := cost_lift h1
  obtain ⟨l2, h3, rfl⟩ := cost_tick h2
  obtain ⟨rfl, rfl⟩ := cost_pure h3
  have : 1 ≤ zeros.length := by cases zeros <;> simp at hz ⊢
  omega

theorem decodeZleLoopC_steps (input zeros : List ZleSymbol) (out out' : List UInt8) (k : Nat)
    (h : (decodeZleLoopC input zeros out).run = Res.ok (out', k)) :
    k + 2 * out.length ≤ 7 * input.length + 6 * zeros.length + 2 * out'.length := by
  induction input generalizing zeros out k with
  | nil =>
    rw [decodeZleLoopC] at h
    split at h
    · obtain ⟨rfl, rfl⟩ := cost_pure h
      omega
    · rename_i hz
      obtain ⟨n, k1, k2, h1, h2, rfl⟩ := cost_bind h
      obtain ⟨rfl, rfl⟩ := cost_pure h2
      have := decodeZerosC_steps (by simpa using hz) h1
      rw [List.length_append, List.length_replicate]
      omega
  | cons s input ih =>
    have other : ∀ s : ZleSymbol, (∃ l, (decodeZleLoopC input (zeros ++ [s]) out).run = Res.ok (out', l) ∧ k = 1 + l) →
        k + 2 * out.length ≤ 7 * (s :: input).length + 6 * zeros.length + 2 * out'.length := by
      rintro s ⟨l, h1, rfl⟩
      have := ih _ _ _ h1
      simp only [List.length_append, List.length_cons, List.length_nil] at this ⊢
      omega
    cases s with
    | number e =>
      rw [decodeZleLoopC] at h
      obtain ⟨l, h0, rfl⟩ := cost_tick h
      split at h0
      · have := ih _ _ _ h0
        simp only [List.length_append, List.length_cons, List.length_nil] at this ⊢
        omega
      · rename_i hz
        obtain ⟨n, k1, k2, h1, h2, rfl⟩ := cost_bind h0
        have a1 := decodeZerosC_steps (by simpa using hz) h1
        have := ih _ _ _ h2
        simp only [List.length_append, List.length_replicate, List.length_cons, List.length_nil] at this ⊢
        omega
    | runA =>
      rw [decodeZleLoopC] at h
      · exact other _ (cost_tick h)
      · simp
    | runB =>
      rw [decodeZleLoopC] at h
      · exact other _ (cost_tick h)
      · simp

theorem inverseMtfLoopC_steps (input dict out : List UInt8) (k : Nat)
    (h : (inverseMtfLoopC input dict).run = Res.ok (out, k)) :
    out.length = input.length ∧ k = input.length * (1 + 2 * dict.length) := by
  induction input generalizing dict out k with
  | nil =>
    obtain ⟨rfl, rfl⟩ := cost_pure h
    simp
  | cons i input ih =>
    rw [inverseMtfLoopC] at h
    obtain ⟨l, h0, rfl⟩ := cost_tick h
    obtain ⟨value, -, h1⟩ := cost_lift h0
    obtain ⟨l2, h2, rfl⟩ := cost_tick h1
    obtain ⟨pos, -, h3⟩ := cost_lift h2
    obtain ⟨pos2, -, h4⟩ := cost_lift h3
    obtain ⟨dict', k1, k2, h5, h6, rfl⟩ := cost_bind h4
    obtain ⟨more, k3, k4, h7, h8, rfl⟩ := cost_bind h6
    obtain ⟨rfl, rfl⟩ := cost_pure h8
    obtain ⟨l3, h9, rfl⟩ := cost_tick h5
    obtain ⟨h10, rfl⟩ := cost_lifted h9
    have a1 := bringToFront_length _ _ _ h10
    obtain ⟨i1, i2⟩ := ih _ _ _ h7
    rw [a1] at i2
    refine ⟨by simp [i1], ?_⟩
    rw [List.length_cons, Nat.add_mul, i2]
    omega

theorem inverseMtfC_steps {input dict out : List UInt8} {k : Nat}
    (h : (inverseMtfC input dict).run = Res.ok (out, k)) :
    out.length = input.length ∧ k = dict.length + input.length * (1 + 2 * dict.length) := by
  obtain ⟨l, h0, rfl⟩ := cost_tick h
  obtain ⟨h1, h2⟩ := inverseMtfLoopC_steps _ _ _ _ h0
  exact ⟨h1, by rw [h2]⟩

theorem inverseBwtLoopC_steps (pairs : List (Nat × UInt8)) (n start : Nat) (out : List UInt8) (k : Nat)
    (h : (inverseBwtLoopC pairs n start).run = Res.ok (out, k)) : out.length = n ∧ k = n := by
  induction n generalizing start out k with
  | zero =>
    obtain ⟨rfl, rfl⟩ := cost_pure h
    simp
  | succ n ih =>
    rw [inverseBwtLoopC] at h
    obtain ⟨l, h0, rfl⟩ := cost_tick h
    obtain ⟨pair, -, h1⟩ := cost_lift h0
    obtain ⟨more, k1, k2, h2, h3, rfl⟩ := cost_bind h1
    obtain ⟨rfl, rfl⟩ := cost_pure h3
    have := ih _ _ _ h2
    simp only [List.length_cons]
    omega

theorem inverseBwtC_steps {data out : List UInt8} {p k : Nat} (h : (inverseBwtC data p).run = Res.ok (out, k)) :
    out.length = data.length ∧ k = 4 * data.length + data.length * Nat.log2 data.length := by
  obtain ⟨l, h0, rfl⟩ := cost_tick h
  obtain ⟨l1, h1, rfl⟩ := cost_tick h0
  obtain ⟨l2, h2, rfl⟩ := cost_tick h1
  obtain ⟨start, -, h3⟩ := cost_lift h2
  obtain ⟨h4, rfl⟩ := inverseBwtLoopC_steps _ _ _ _ _ h3
  refine ⟨h4, ?_⟩
  rw [Nat.mul_add]
  omega

theorem invRleLoopC_steps (input : List UInt8) (s s' : InvRle) (k : Nat) (hs : s.equalCount ≤ 3)
    (h : (invRleLoopC input s).run = Res.ok (s', k)) :
    k + 2 * s.output.length ≤ input.length + 2 * s'.output.length ∧
      3 * input.length + s'.equalCount + 4 * s.output.length ≤ s.equalCount + 4 * s'.output.length ∧
      s'.equalCount ≤ 3 := by
  induction input generalizing s k with
  | nil =>
    obtain ⟨rfl, rfl⟩ := cost_pure h
    simp
    exact hs
  | cons e input ih =>
    rw [invRleLoopC] at h
    obtain ⟨l, h0, rfl⟩ := cost_tick h
    have hstep : 3 + (invRleStep s e).equalCount + 4 * s.output.length ≤ s.equalCount + 4 * (invRleStep s e).output.length ∧
        (invRleStep s e).equalCount ≤ 3 := by
      unfold invRleStep
      split
      · split
        · simp only [List.length_append]
          omega
        · split <;> simp only [List.length_append, List.length_cons, List.length_nil] <;> omega
      · simp only [List.length_append, List.length_cons, List.length_nil]
        omega
    obtain ⟨i1, i2, i3⟩ := ih _ _ hstep.2 h0
    have hlen : s.output.length ≤ (invRleStep s e).output.length := by
      unfold invRleStep
      split
      · split
        · simp
        · split <;> simp
      · simp
    rw [List.length_cons]
    omega

theorem inverseRleC_steps {input out : List UInt8} {k : Nat} (h : (inverseRleC input).run = Res.ok (out, k)) :
    k ≤ input.length + 2 * out.length ∧ 3 * input.length ≤ 4 * out.length := by
  obtain ⟨s, k1, k2, h1, h2, rfl⟩ := cost_bind h
  obtain ⟨rfl, rfl⟩ := cost_pure h2
  have := invRleLoopC_steps _ _ _ _ (by simp) h1
  simp only [List.length_nil] at this
  omega

/-! ### blocks -/

theorem convertToNumber_lt (bits : List Bit) : convertToNumber bits < 2 ^ bits.length := by
  have key : ∀ (l : List Bit) (c : Nat),
      l.foldl (fun ct digit => ct * 2 + (if digit then 1 else 0)) c < (c + 1) * 2 ^ l.length := by
    intro l
    induction l with
    | nil => intro c; simp
    | cons b l ih =>
      intro c
      refine lt_of_lt_of_le (ih _) ?_
      rw [List.length_cons, pow_succ, show (c + 1) * (2 ^ l.length * 2) = (2 * c + 2) * 2 ^ l.length by ring]
      exact Nat.mul_le_mul_right _ (by dsimp only; split <;> omega)
  have := key bits 0
  rw [Nat.zero_add, Nat.one_mul] at this
  exact this

theorem log2_le_succ {a b : Nat} (h : a ≤ 2 * b) : Nat.log2 a ≤ Nat.log2 b + 1 := by
  by_cases ha : a = 0
  · subst ha; simp
  · have h1 : b < 2 ^ (Nat.log2 b + 1) := Nat.lt_log2_self
    have h2 : 2 ^ Nat.log2 a ≤ a := Nat.log2_self_le ha
    have h3 : 2 ^ Nat.log2 a < 2 ^ (Nat.log2 b + 2) := by
      rw [pow_succ]
      omega
    have := (Nat.pow_lt_pow_iff_right (by omega)).1 h3
    omega

theorem block_sum {b b4 b9 b11 b14 b16 K1 K2 K3 K4 K5 K6 M X : Nat} (r1 : K1 + 4 * b4 ≤ 4 * b) (s1 : 57 + b4 ≤ b)
    (r2 : K2 + 7 * b9 ≤ 7 * b4) (s2 : b9 ≤ b4) (r3 : K3 + 32 * b11 ≤ 32 * b9) (s3 : b11 ≤ b9)
    (r4 : K4 + 2004 * b14 ≤ 2004 * b11) (s4 : b14 ≤ b11) (r5 : K5 + 66061 * b16 ≤ 66061 * b14 + M) (s5 : b16 ≤ b14)
    (r6 : M + K6 ≤ 512 + X) : K1 + K2 + K3 + K4 + K5 + K6 + 66100 * b16 ≤ 66100 * b + X := by
  omega

theorem decodeBlockDataC_steps {br br' : BitReader} {d : List UInt8} {k : Nat}
    (h : (decodeBlockDataC br).run = Res.ok ((d, br'), k)) :
    k + 66100 * br'.bits.length ≤ 66100 * br.bits.length + d.length * (2 * Nat.log2 d.length + 700) ∧
      br'.bits.length ≤ br.bits.length := by
  obtain ⟨⟨b1, br1⟩, k1, j1, h1, g1, rfl⟩ := cost_bind h
  obtain ⟨n2, k2, j2, h2, g2, rfl⟩ := cost_bind g1
  obtain ⟨⟨b3, br3⟩, k3, j3, h3, g3, rfl⟩ := cost_bind g2
  obtain ⟨⟨b4, br4⟩, k4, j4, h4, g4, rfl⟩ := cost_bind g3
  obtain ⟨n5, k5, j5, h5, g5, rfl⟩ := cost_bind g4
  obtain ⟨⟨symbols, br6⟩, k6, j6, h6, g6, rfl⟩ := cost_bind g5
  obtain ⟨⟨b7, br7⟩, k7, j7, h7, g7, rfl⟩ := cost_bind g6
  obtain ⟨n8, k8, j8, h8, g8, rfl⟩ := cost_bind g7
  obtain ⟨⟨b9, br9⟩, k9, j9, h9, g9, rfl⟩ := cost_bind g8
  obtain ⟨n10, k10, j10, h10, g10, rfl⟩ := cost_bind g9
  obtain ⟨⟨sel, br11⟩, k11, j11, h11, g11, rfl⟩ := cost_bind g10
  obtain ⟨j12, g12, rfl⟩ := cost_tick g11
  obtain ⟨sel2, k13, j13, h13, g13, rfl⟩ := cost_bind g12
  obtain ⟨⟨trees, br14⟩, k14, j14, h14, g14, rfl⟩ := cost_bind g13
  obtain ⟨tables, k15, j15, h15, g15, rfl⟩ := cost_bind g14
  obtain ⟨⟨zle, br16⟩, k16, j16, h16, g16, rfl⟩ := cost_bind g15
  obtain ⟨mtf, k17, j17, h17, g17, rfl⟩ := cost_bind g16
  obtain ⟨bwt, k18, j18, h18, g18, rfl⟩ := cost_bind g17
  obtain ⟨rle, k19, j19, h19, g19, rfl⟩ := cost_bind g18
  obtain ⟨dec, k20, j20, h20, g20, rfl⟩ := cost_bind g19
  obtain ⟨crc, k21, j21, h21, g21, rfl⟩ := cost_bind g20
  have hn8 : n8 ≤ 7 := by
    have a7 := readBitsC_steps (cost_unwrap h7)
    have a8 := numberC_steps h8
    have := convertToNumber_lt b7
    rw [a7.2.1, ← a8.1] at this
    omega
  have r1 : k1 + k2 + k3 + k4 + k5 + 4 * br4.bits.length ≤ 4 * br.bits.length ∧
      57 + br4.bits.length ≤ br.bits.length := by
    have a1 := readBitsC_steps (cost_unwrap h1)
    have a2 := numberC_steps h2
    have a3 := readBitsC_steps h3
    have a4 := readBitsC_steps (cost_unwrap h4)
    have a5 := numberC_steps h5
    omega
  have a6 := readSymbolTableC_steps (cost_unwrap h6)
  have hsym := a6.2.2
  have r2 : k6 + k7 + k8 + k9 + k10 + 7 * br9.bits.length ≤ 7 * br4.bits.length ∧
      br9.bits.length ≤ br4.bits.length := by
    have a7 := readBitsC_steps (cost_unwrap h7)
    have a8 := numberC_steps h8
    have a9 := readBitsC_steps (cost_unwrap h9)
    have a10 := numberC_steps h10
    clear r1
    omega
  have r3 : k11 + n8 + k13 + 32 * br11.bits.length ≤ 32 * br9.bits.length ∧ br11.bits.length ≤ br9.bits.length := by
    have a11 := readUnaryLoopC_steps _ _ _ _ _ _ _ _ _ (cost_unwrap h11)
    have a13 := (inverseMtfC_steps h13).2
    simp only [List.length_map, List.length_range, List.length_nil] at a11 a13
    have e13 : sel.length * (1 + 2 * n8) ≤ sel.length * 15 := Nat.mul_le_mul_left _ (by omega)
    clear r1 r2 a6
    omega
  have a15 := buildTablesC_steps _ _ _ h15
  have r4 : k14 + k15 + 2004 * br14.bits.length ≤ 2004 * br11.bits.length ∧ br14.bits.length ≤ br11.bits.length := by
    have a14 := readTreesC_steps _ _ _ _ _ _ h14
    have a15 := a15.1
    clear r1 r2 r3 a6
    omega
  have r5 : k16 + k17 + 66061 * br16.bits.length ≤ 66061 * br14.bits.length + 2 * mtf.length ∧
      br16.bits.length ≤ br14.bits.length := by
    have a16 := readGroupsC_steps _ a15.2 _ _ _ _ _ h16
    have a17 := decodeZleLoopC_steps _ _ _ _ _ h17
    simp only [List.length_nil] at a17
    clear r1 r2 r3 r4 a6
    omega
  have r6 : 2 * mtf.length + (k18 + k19 + k20 + 256 + dec.length) ≤
      512 + (2 * (dec.length * (Nat.log2 dec.length + 1)) + 698 * dec.length) := by
    have a18 := inverseMtfC_steps h18
    have a19 := inverseBwtC_steps h19
    have a20 := inverseRleC_steps h20
    clear r1 r2 r3 r4 r5 a6
    have e18 : mtf.length * (1 + 2 * symbols.length) ≤ mtf.length * 513 := Nat.mul_le_mul_left _ (by omega)
    have hlog : Nat.log2 bwt.length ≤ Nat.log2 dec.length + 1 := log2_le_succ (by omega)
    have e19 : bwt.length * Nat.log2 bwt.length ≤ bwt.length * (Nat.log2 dec.length + 1) := Nat.mul_le_mul_left _ hlog
    have e20 : 3 * (bwt.length * (Nat.log2 dec.length + 1)) ≤ 4 * (dec.length * (Nat.log2 dec.length + 1)) := by
      rw [← Nat.mul_assoc, ← Nat.mul_assoc]
      exact Nat.mul_le_mul_right _ (by omega)
    generalize dec.length * (Nat.log2 dec.length + 1) = X at *
    generalize bwt.length * (Nat.log2 dec.length + 1) = Y at *
    generalize bwt.length * Nat.log2 bwt.length = Z at *
    generalize mtf.length * (1 + 2 * symbols.length) = V at *
    omega
  obtain ⟨j22, g22, rfl⟩ := cost_tick h21
  obtain ⟨rfl, rfl⟩ := cost_pure g22
  split at g21
  · obtain ⟨g23, rfl⟩ := cost_pure g21
    simp only [Prod.mk.injEq] at g23
    obtain ⟨rfl, rfl⟩ := g23
    have e21 : d.length * (2 * Nat.log2 d.length + 700) = 2 * (d.length * (Nat.log2 d.length + 1)) + 698 * d.length := by
      ring
    rw [e21]
    refine ⟨le_trans (Nat.add_le_add_right (Nat.le_of_eq ?_) _) (block_sum r1.1 r1.2 r2.1 r2.2 r3.1 r3.2 r4.1 r4.2 r5.1 r5.2
      r6), le_trans r5.2 (le_trans r4.2 (le_trans r3.2 (le_trans r2.2 (le_trans (Nat.le_add_left _ 57) r1.2))))⟩
    clear r1 r2 r3 r4 r5 r6 a6 a15 hn8 hsym e21
    ring
  · exact absurd (cost_lifted g21).1 (by simp)

end Ribzip2
