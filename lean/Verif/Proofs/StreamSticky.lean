import Verif.Proofs.StreamErrors
/- Readers that may fail, but report end of file only when they have nothing left: the works are the same
for every number of threads. -/
namespace Ribzip2
open Spec

theorem readToEnd_sticky (es : List REvent) (limit : Nat) (h : NoEof es) :
    NoEof (readToEnd false es limit).2.1 ∧
      (1 ≤ limit → (readToEnd false es limit).2.2 = true → (readToEnd false es limit).1 = [] →
        (readToEnd false es limit).2.1 = []) := by
  induction es generalizing limit with
  | nil => cases limit <;> simp [readToEnd, NoEof]
  | cons e es ih =>
    cases limit with
    | zero => exact ⟨by simpa [readToEnd] using h, by simp⟩
    | succ l =>
      cases e with
      | intr => simpa [readToEnd] using ih (l + 1) (noEof_tail h)
      | fail => simpa [readToEnd] using noEof_tail h
      | data bs =>
        have hne : bs ≠ [] := by
          intro hb; subst hb; exact h _ (by simp) rfl
        have hb : bs.isEmpty = false := by simp [hne]
        rw [readToEnd, hb]
        simp only [Bool.false_eq_true, if_false]
        split
        · exact ⟨(ih _ (noEof_tail h)).1, fun _ _ => by simp [hne]⟩
        · refine ⟨?_, fun _ _ => by simp [hne]⟩
          intro x hx
          rcases List.mem_cons.1 hx with rfl | hx
          · intro hc
            simp only [REvent.data.injEq, List.drop_eq_nil_iff] at hc
            omega
          · exact noEof_tail h x hx

theorem fillLoop_sticky (fuel : Nat) (s : FillState) (h : FillInv s) (hn : NoEof s.events)
    (s' : FillState) (fin : Bool) (hr : fillLoop false fuel s = Res.ok (s', fin)) :
    NoEof s'.events ∧ (fin = true → s'.events = []) := by
  induction fuel generalizing s with
  | zero => simp [fillLoop] at hr
  | succ fuel ih =>
    rw [fillLoop] at hr
    split at hr
    · rename_i hlt
      have hR : s.rleData.length ≤ 899998 := by
        rw [h.data]
        rw [h.total, rleLimit] at hlt
        by_cases hb : s.buf = []
        · rw [hb]; simp [rle]
        · have := rle_data_lt s.buf hb
          omega
      have : subU rleLimit s.rleData.length = Res.ok (900000 - s.rleData.length) := by
        unfold subU rleLimit; rw [if_pos (by omega)]
      rw [this, Res.ok_bind] at hr
      have hsz := readToEnd_size false s.events ((900000 - s.rleData.length) * 4 / 5)
      have hm := readToEnd_sticky s.events ((900000 - s.rleData.length) * 4 / 5) hn
      have hpos : 1 ≤ (900000 - s.rleData.length) * 4 / 5 := by omega
      dsimp only at hr
      rcases hrd : readToEnd false s.events ((900000 - s.rleData.length) * 4 / 5) with ⟨bs, es, ok⟩
      rw [hrd] at hsz hr hm
      simp only at hm
      cases ok with
      | false =>
        simp only [Res.pure_eq, Res.ok.injEq, Prod.mk.injEq] at hr
        rw [← hr.1, ← hr.2]
        exact ⟨hm.1, by simp⟩
      | true =>
        dsimp only at hr
        split at hr
        · rename_i hb
          simp only [Res.pure_eq, Res.ok.injEq, Prod.mk.injEq] at hr
          rw [← hr.1, ← hr.2]
          exact ⟨hm.1, fun _ => hm.2 hpos rfl (List.length_eq_zero_iff.1 hb)⟩
        · have happ := rle_append s.buf bs
          rw [← h.count, ← h.last, ← h.data] at happ
          exact ih _ ⟨by simp only [happ], by simp only [happ], by simp only [happ],
            by simp only [← total_eq, happ, List.length_append],
            size_bound _ _ (by rw [← h.data]; omega) (by rw [← h.data]; exact hsz.2)⟩ hm.1 hr
    · simp only [Res.ok.injEq, Prod.mk.injEq] at hr
      rw [← hr.1, ← hr.2]
      exact ⟨hn, by simp⟩

theorem nextBlock_sticky (es : List REvent) (hn : NoEof es) (w : Option Work) (es' : List REvent)
    (fin : Bool) (hr : nextBlock false es = Res.ok (w, es', fin)) : NoEof es' ∧ (fin = true → es' = []) := by
  rw [nextBlock] at hr
  obtain ⟨⟨s, f⟩, h1, h2⟩ := bind_eq_ok hr
  have := fillLoop_sticky _ _
    (⟨rfl, rfl, rfl, by simp [rle1Encode, runs], by simp [rle1Encode, runs]⟩ :
      FillInv ⟨[], [], 0, 0, none, es⟩) hn _ _ h1
  dsimp only at h2
  split at h2 <;>
  · simp only [Res.pure_eq, Res.ok.injEq, Prod.mk.injEq] at h2
    rw [← h2.2.1, ← h2.2.2]; exact this

theorem nextBlock_end : nextBlock false [] = Res.ok (none, [], true) := by
  decide +kernel

/-- The works a reader gives, one after the other. -/
def worksOf : Nat → List REvent → List Work
  | 0, _ => []
  | fuel + 1, es =>
    match nextBlock false es with
    | Res.ok (w, es', fin) => w.toList ++ (if fin then [] else worksOf fuel es')
    | _ => []

theorem worksOf_fuel (f₁ f₂ : Nat) (es : List REvent) (h1 : measureOf es < f₁) (h2 : measureOf es < f₂) :
    worksOf f₁ es = worksOf f₂ es := by
  induction f₁ generalizing f₂ es with
  | zero => omega
  | succ f₁ ih =>
    obtain ⟨f₂, rfl⟩ : ∃ f, f₂ = f + 1 := ⟨f₂ - 1, by omega⟩
    rw [worksOf, worksOf]
    obtain ⟨w, es', fin, hb, -⟩ := nextBlock_total false es
    obtain ⟨m1, m2, m3⟩ := nextBlock_measure false es w es' fin hb
    rw [hb]
    dsimp only
    cases fin with
    | true => rfl
    | false =>
      have hne : es ≠ [] := by intro he; have := (m3 rfl he).1; simp at this
      have := m2 hne
      simp only [Bool.false_eq_true, if_false]
      rw [ih f₂ es' (by omega) (by omega)]

def allWorks (es : List REvent) : List Work := worksOf (measureOf es + 1) es

theorem allWorks_step (es : List REvent) (w : Option Work) (es' : List REvent) (fin : Bool)
    (hb : nextBlock false es = Res.ok (w, es', fin)) :
    allWorks es = w.toList ++ (if fin then [] else allWorks es') := by
  rw [allWorks, worksOf, hb]
  dsimp only
  cases fin with
  | true => rfl
  | false =>
    obtain ⟨m1, m2, m3⟩ := nextBlock_measure false es w es' false hb
    have hne : es ≠ [] := by intro he; have := (m3 rfl he).1; simp at this
    have := m2 hne
    simp only [Bool.false_eq_true, if_false]
    rw [allWorks, worksOf_fuel (measureOf es) (measureOf es' + 1) es' (by omega) (by omega)]

theorem sendLoop_end (k : Nat) : sendLoop false k [] true = Res.ok ([], [], true) := by
  cases k with
  | zero => rfl
  | succ k => rw [sendLoop, nextBlock_end]; rfl

theorem sendLoop_sticky (k : Nat) (es : List REvent) (hn : NoEof es) (ws : List Work) (es' : List REvent)
    (fin : Bool) (hr : sendLoop false k es false = Res.ok (ws, es', fin)) :
    NoEof es' ∧ allWorks es = ws ++ (if fin then [] else allWorks es') := by
  induction k generalizing es ws es' fin with
  | zero =>
    simp only [sendLoop, Res.ok.injEq, Prod.mk.injEq] at hr
    obtain ⟨rfl, rfl, rfl⟩ := hr
    exact ⟨hn, by simp⟩
  | succ k ih =>
    rw [sendLoop] at hr
    obtain ⟨⟨w, es1, f⟩, h1, h2⟩ := bind_eq_ok hr
    obtain ⟨s1, s2⟩ := nextBlock_sticky es hn w es1 f h1
    have hstep := allWorks_step es w es1 f h1
    dsimp only at h2
    cases w with
    | none =>
      simp only [Res.pure_eq, Res.ok.injEq, Prod.mk.injEq, Bool.false_or] at h2
      obtain ⟨rfl, rfl, rfl⟩ := h2
      exact ⟨s1, by simpa using hstep⟩
    | some work =>
      obtain ⟨⟨ws', es2, f2⟩, i1, i2⟩ := bind_eq_ok h2
      simp only [Res.pure_eq, Res.ok.injEq, Prod.mk.injEq] at i2
      obtain ⟨rfl, rfl, rfl⟩ := i2
      cases f with
      | true =>
        have he := s2 rfl
        subst he
        rw [Bool.false_or, sendLoop_end] at i1
        simp only [Res.ok.injEq, Prod.mk.injEq] at i1
        obtain ⟨rfl, rfl, rfl⟩ := i1
        exact ⟨by simp [NoEof], by simpa using hstep⟩
      | false =>
        obtain ⟨j1, j2⟩ := ih es1 s1 _ _ _ i1
        refine ⟨j1, ?_⟩
        rw [hstep, j2]
        simp

theorem mainLoop_sticky (gen : Work → Res (List Bit)) (t : Nat) (ht : 1 ≤ t) (fuel : Nat)
    (es : List REvent) (hn : NoEof es) (bw : BitWriter) (crc : BitVec 32) (hf : measureOf es + 2 ≤ fuel) :
    mainLoop gen false t fuel es false bw crc = flushLoop gen (allWorks es) bw crc := by
  induction fuel generalizing es bw crc with
  | zero => omega
  | succ fuel ih =>
    rw [mainLoop]
    simp only [Bool.false_eq_true, if_false]
    obtain ⟨bs, es', fin', h1, -⟩ := sendLoop_total false t es false
    obtain ⟨g1, g2, g3, g4⟩ := sendLoop_measure t es false _ _ _ h1
    obtain ⟨s1, s2⟩ := sendLoop_sticky t es hn _ _ _ h1
    rw [h1]
    dsimp only
    rw [s2, flushLoop_append]
    rcases flushLoop gen (bs.map workOf) bw crc with ⟨bw1, r⟩
    cases r with
    | ok c =>
      simp only [andThen]
      cases fin' with
      | true =>
        obtain ⟨fuel, rfl⟩ : ∃ f, fuel = f + 1 := ⟨fuel - 1, by omega⟩
        simp [mainLoop, flushLoop]
      | false =>
        have hne : es ≠ [] := by intro he; have := g3 ht he; simp at this
        simp only [Bool.false_eq_true, if_false]
        exact ih es' s1 bw1 c (by have := g2 ht hne; omega)
    | err => rfl
    | panic => rfl
    | div => rfl

/-- For such a reader `encode_stream` does the same for every number of threads. -/
theorem encodeStream_sticky (dist : Distance) (es : List REvent) (hn : NoEof es) (w : Writer) (t₁ t₂ : Nat)
    (h₁ : 1 ≤ t₁) (h₂ : 1 ≤ t₂) (strategy : Strategy) :
    encodeStream dist ⟨es, false⟩ w t₁ strategy = encodeStream dist ⟨es, false⟩ w t₂ strategy := by
  have key : ∀ t, 1 ≤ t → ∀ bw crc,
      mainLoop (fun work => generateBlockData dist strategy work.crc work.rleTotal) false t
        (eventsSize es + es.length + 2) es false bw crc
      = flushLoop (fun work => generateBlockData dist strategy work.crc work.rleTotal) (allWorks es) bw crc :=
    fun t ht bw crc => mainLoop_sticky _ t ht _ es hn bw crc (by unfold measureOf; omega)
  unfold encodeStream encodeStreamFuel
  simp only [key t₁ h₁, key t₂ h₂]

end Ribzip2
