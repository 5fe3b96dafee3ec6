import Verif.Model.Mtf
import Verif.Spec.Mtf
import Verif.Proofs.Sort
namespace Ribzip2
open Spec

theorem usedFlags_length (d : List UInt8) : (usedFlags d).length = 256 := by
  unfold usedFlags
  suffices ∀ (l : List Bool), (d.foldl (fun dict i => dict.set i.toNat true) l).length = l.length by
    rw [this, List.length_replicate]
  induction d with
  | nil => intro l; rfl
  | cons a d ih => intro l; rw [List.foldl_cons, ih]; simp

theorem usedFlags_get (d : List UInt8) (i : Nat) (hi : i < 256) :
    (usedFlags d)[i]? = some (decide (UInt8.ofNat i ∈ d)) := by
  unfold usedFlags
  suffices ∀ (l : List Bool) (b : Bool), l[i]? = some b →
      (d.foldl (fun dict i => dict.set i.toNat true) l)[i]? = some (b || decide (UInt8.ofNat i ∈ d)) by
    have := this (List.replicate 256 false) false (by rw [List.getElem?_replicate, if_pos hi])
    rw [this, Bool.false_or]
  induction d with
  | nil => intro l b h; simpa using h
  | cons a d ih =>
    intro l b h
    have hl : i < l.length := by
      rw [List.getElem?_eq_some_iff] at h; exact h.1
    rw [List.foldl_cons]
    by_cases ha : a.toNat = i
    · have : UInt8.ofNat i = a := by rw [← ha]; simp
      rw [ih _ true (by rw [List.getElem?_set]; simp [ha, hl])]
      simp [this]
    · have : UInt8.ofNat i ≠ a := by
        intro h; apply ha; rw [← h]; simp; omega
      rw [ih _ b (by rw [List.getElem?_set]; simp [ha, h])]
      simp [this]

theorem usedFlags_eq (d : List UInt8) :
    usedFlags d = (List.range 256).map (fun i => decide (UInt8.ofNat i ∈ d)) := by
  apply List.ext_getElem?
  intro i
  by_cases hi : i < 256
  · rw [usedFlags_get d i hi]; simp [hi]
  · rw [List.getElem?_eq_none (by rw [usedFlags_length]; omega),
      List.getElem?_eq_none (by simp; omega)]

theorem zipIdx_filter_flags (p : Nat → Bool) (n k : Nat) :
    (((List.range' k n).map p).zipIdx k).filter (fun x => x.1) =
      ((List.range' k n).filter p).map (fun i => (true, i)) := by
  induction n generalizing k with
  | zero => rfl
  | succ n ih =>
    rw [List.range'_succ, List.map_cons, List.zipIdx_cons, List.filter_cons, List.filter_cons, ih]
    by_cases hp : p k = true <;> simp [hp]

theorem usedSymbols_eq (d : List UInt8) : usedSymbols d = usedBytes d := by
  unfold usedSymbols usedBytes allBytes
  rw [usedFlags_eq, List.range_eq_range', zipIdx_filter_flags, List.map_map, List.filter_map]
  rfl

theorem allBytes_pairwise : allBytes.Pairwise (· < ·) := by decide +kernel

theorem mem_allBytes (b : UInt8) : b ∈ allBytes := by
  unfold allBytes
  refine List.mem_map.2 ⟨b.toNat, List.mem_range.2 b.toNat_lt, by simp⟩

theorem mem_usedBytes {d : List UInt8} {b : UInt8} : b ∈ usedBytes d ↔ b ∈ d := by
  simp [usedBytes, mem_allBytes]

theorem usedBytes_pairwise (d : List UInt8) : (usedBytes d).Pairwise (· < ·) :=
  allBytes_pairwise.filter _

theorem usedBytes_nodup (d : List UInt8) : (usedBytes d).Nodup :=
  (usedBytes_pairwise d).imp (fun h => by
    intro e; subst e; exact absurd h (by simp))

theorem usedBytes_length (d : List UInt8) : (usedBytes d).length ≤ 256 := by
  have := List.length_filter_le (fun b => decide (b ∈ d)) allBytes
  simpa [usedBytes, allBytes] using this

theorem createDict_eq (d : List UInt8) : createDict d = (usedBytes d, usedBytes d) := by
  unfold createDict
  rw [usedSymbols_eq]
  dsimp only
  rw [stableSort_of_pairwise]
  exact (usedBytes_pairwise d).imp (fun h => by
    simp only [decide_eq_true_eq, UInt8.le_iff_toNat_le, UInt8.lt_iff_toNat_lt] at *; omega)

/-- In a list of at most 256 entries containing `b`, `find_pos` finds its first position. -/
theorem findPos_ok (b : UInt8) (dict : List UInt8) (k : Nat) (hk : k + dict.length ≤ 256)
    (hb : b ∈ dict) :
    ∃ p, findPos b dict k = Res.ok (UInt8.ofNat (k + p)) ∧ p < dict.length ∧ dict[p]? = some b := by
  induction dict generalizing k with
  | nil => simp at hb
  | cons a dict ih =>
    simp only [List.length_cons] at hk
    unfold findPos
    by_cases hab : a = b
    · exact ⟨0, by simp [hab], by simp, by simp [hab]⟩
    · rw [if_neg hab]
      obtain ⟨p, h1, h2, h3⟩ := ih (k + 1) (by omega) (by
        rcases List.mem_cons.1 hb with h | h
        · exact absurd h.symm hab
        · exact h)
      exact ⟨p + 1, by rw [h1]; congr 2; omega, by simpa using h2, by simpa using h3⟩

theorem bringToFront_ok {dict : List UInt8} {p : Nat} {b : UInt8} (h : dict[p]? = some b) :
    bringToFront p dict = Res.ok (b :: dict.eraseIdx p) := by
  simp [bringToFront, idx, h]

theorem eraseIdx_perm {α : Type} {l : List α} {p : Nat} {b : α} (h : l[p]? = some b) :
    (b :: l.eraseIdx p).Perm l := by
  induction l generalizing p with
  | nil => simp at h
  | cons a l ih =>
    cases p with
    | zero => simp at h; subst h; exact List.Perm.refl _
    | succ p =>
      simp only [List.getElem?_cons_succ] at h
      rw [List.eraseIdx_cons_succ]
      exact (List.Perm.swap a b _).trans ((ih h).cons a)

/-- The encoder's loop inverts the specification of move-to-front decoding. -/
theorem mtfLoop_spec (d dict : List UInt8) (hlen : dict.length ≤ 256) (hd : ∀ b ∈ d, b ∈ dict) :
    ∃ enc, mtfLoop d dict = Res.ok enc ∧ mtfDecode dict (enc.map UInt8.toNat) = some d ∧
      enc.length = d.length ∧ ∀ i ∈ enc, i.toNat < dict.length := by
  induction d generalizing dict with
  | nil => exact ⟨[], rfl, rfl, rfl, by simp⟩
  | cons b d ih =>
    obtain ⟨p, h1, h2, h3⟩ := findPos_ok b dict 0 (by omega) (hd b (by simp))
    have hp : (UInt8.ofNat p).toNat = p := UInt8.toNat_ofNat_of_lt' (show p < 256 by omega)
    have hperm := eraseIdx_perm h3
    obtain ⟨enc, g1, g2, g3, g4⟩ := ih (b :: dict.eraseIdx p) (by rw [hperm.length_eq]; exact hlen)
      (fun c hc => hperm.mem_iff.2 (hd c (by simp [hc])))
    refine ⟨UInt8.ofNat p :: enc, ?_, ?_, by simp [g3], ?_⟩
    · rw [Nat.zero_add] at h1
      simp only [mtfLoop, h1, Res.ok_bind, hp, bringToFront_ok h3, g1, Res.pure_eq]
    · simp only [List.map_cons, mtfDecode, hp, h3, g2]
    · intro i hi
      rcases List.mem_cons.1 hi with rfl | hi
      · rw [hp]; exact h2
      · have := g4 i hi; rwa [hperm.length_eq] at this

theorem findIdx?_of_nodup {dict : List UInt8} (hn : dict.Nodup) {p : Nat} {b : UInt8}
    (h : dict[p]? = some b) : dict.findIdx? (fun v => v == b) = some p := by
  rw [List.findIdx?_eq_some_iff_getElem]
  rw [List.getElem?_eq_some_iff] at h
  obtain ⟨hp, hb⟩ := h
  refine ⟨hp, by simp [hb], fun j hj => ?_⟩
  simp only [beq_iff_eq]
  intro e
  have := (List.pairwise_iff_getElem.1 hn) j p (by omega) hp hj
  exact this (by rw [e, hb])

/-- The library's inverse is the specified decoder on duplicate-free dictionaries; positions outside
the dictionary are panics. -/
theorem inverseMtfLoop_spec (enc dict : List UInt8) (hn : dict.Nodup) :
    inverseMtfLoop enc dict = Res.ofOption (mtfDecode dict (enc.map UInt8.toNat)) := by
  induction enc generalizing dict with
  | nil => rfl
  | cons i enc ih =>
    simp only [inverseMtfLoop, List.map_cons, mtfDecode, idx]
    cases h : dict[i.toNat]? with
    | none => rfl
    | some v =>
      have hi := i.toNat_lt
      have hperm := eraseIdx_perm h
      simp only [Res.ofOption_some, Res.ok_bind, findIdx?_of_nodup hn h, if_pos hi,
        bringToFront_ok h]
      rw [ih _ (hperm.nodup_iff.2 hn)]
      cases mtfDecode (v :: dict.eraseIdx i.toNat) (enc.map UInt8.toNat) <;> rfl

theorem mtf_spec (d : List UInt8) :
    ∃ enc, mtf d = Res.ok (enc, usedBytes d) ∧
      mtfDecode (usedBytes d) (enc.map UInt8.toNat) = some d ∧
      enc.length = d.length ∧ ∀ i ∈ enc, i.toNat < (usedBytes d).length := by
  obtain ⟨enc, h1, h2, h3, h4⟩ := mtfLoop_spec d (usedBytes d) (usedBytes_length d)
    (fun b hb => mem_usedBytes.2 hb)
  refine ⟨enc, ?_, h2, h3, h4⟩
  simp [mtf, createDict_eq, h1]

theorem mtfDecode_length {α : Type} (dict : List α) (is : List Nat) (d : List α)
    (h : mtfDecode dict is = some d) : d.length = is.length := by
  induction is generalizing dict d with
  | nil => simp [mtfDecode] at h; subst h; rfl
  | cons i is ih =>
    rw [mtfDecode] at h
    split at h
    · simp at h
    · split at h
      · simp at h
      · rename_i rest hr
        simp at h; subst h; simp [ih _ _ hr]

end Ribzip2
