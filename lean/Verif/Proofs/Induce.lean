import Mathlib.Data.List.Perm.Subperm
import Mathlib.Data.List.Nodup
import Verif.Model.Bwt
/- Induced sorting, abstractly: one pass over the slots of an array, in the order in which the pass
visits them ("time"); slots of both directions are described by the time at which they are visited. -/
namespace Ribzip2.Induce

/-- A pass: `N` slots, positions below `n`; the positions `act` are to be placed, position `j` in the
bucket `ch j`, whose region begins at slot `base (ch j)`. -/
structure Pass where
  N : Nat
  n : Nat
  act : Nat → Bool
  ch : Nat → Nat
  base : Nat → Nat

variable (P : Pass)

def Pass.actives (c : Nat) : List Nat := (List.range P.n).filter fun j => P.act j && (P.ch j == c)

def Pass.size (c : Nat) : Nat := (P.actives c).length

def Pass.InRegion (x : Nat) : Prop := ∃ c k, k < P.size c ∧ x = P.base c + k

structure Pass.Ok (B0 : Nat → Option Nat) : Prop where
  bound : ∀ c k, k < P.size c → P.base c + k < P.N
  disj : ∀ c k c' k', k < P.size c → k' < P.size c' → P.base c + k = P.base c' + k' → c = c'
  act_lt : ∀ j, P.act j = true → j < P.n
  next : ∀ j, P.act j = true →
    (∃ x, x < P.base (P.ch j) ∧ ¬ P.InRegion x ∧ B0 x = some (j + 1)) ∨
    (P.act (j + 1) = true ∧ (P.ch (j + 1) = P.ch j ∨
      P.base (P.ch (j + 1)) + P.size (P.ch (j + 1)) ≤ P.base (P.ch j)))
  static_inact : ∀ x p, x < P.N → ¬ P.InRegion x → B0 x = some p → P.act p = false
  static_inj : ∀ x x' p, x < P.N → x' < P.N → ¬ P.InRegion x → ¬ P.InRegion x' → B0 x = some p →
    B0 x' = some p → x = x'

/-- A slot whose content is final. -/
def Pass.Filled (cnt : Nat → Nat) (x : Nat) : Prop :=
  ¬ P.InRegion x ∨ ∃ c k, k < cnt c ∧ x = P.base c + k

structure Pass.Inv (B0 : Nat → Option Nat) (i : Nat) (B : Nat → Option Nat) (cnt : Nat → Nat) : Prop where
  le : ∀ c, cnt c ≤ P.size c
  rest : ∀ x, ¬ (∃ c k, k < cnt c ∧ x = P.base c + k) → B x = B0 x
  entry : ∀ c k, k < cnt c → ∃ j y, B (P.base c + k) = some j ∧ P.act j = true ∧ P.ch j = c ∧
    y < i ∧ y < P.base c + k ∧ B y = some (j + 1)
  order : ∀ c k k', k < k' → k' < cnt c → ∃ j j' y y', B (P.base c + k) = some j ∧
    B (P.base c + k') = some j' ∧ y < y' ∧ y' < i ∧ B y = some (j + 1) ∧ B y' = some (j' + 1)
  visited : ∀ y, y < i → P.Filled cnt y
  placed : ∀ y, y < i → ∀ j, B y = some (j + 1) → P.act j = true →
    ∃ k, k < cnt (P.ch j) ∧ B (P.base (P.ch j) + k) = some j
  inj : ∀ x x' p, x < P.N → x' < P.N → P.Filled cnt x → P.Filled cnt x' → B x = some p →
    B x' = some p → x = x'

variable {P}

theorem mem_actives {c j : Nat} (hlt : P.act j = true → j < P.n) :
    j ∈ P.actives c ↔ P.act j = true ∧ P.ch j = c := by
  unfold Pass.actives
  simp only [List.mem_filter, List.mem_range, Bool.and_eq_true, beq_iff_eq]
  exact ⟨fun h => h.2, fun h => ⟨hlt h.1, h⟩⟩

theorem actives_nodup (c : Nat) : (P.actives c).Nodup := List.nodup_range.filter _

/-- The positions placed so far in bucket `c`. -/
def logOf (P : Pass) (B : Nat → Option Nat) (cnt : Nat → Nat) (c : Nat) : List Nat :=
  (List.range (cnt c)).map fun k => (B (P.base c + k)).getD 0

theorem mem_log {B0 B : Nat → Option Nat} {cnt : Nat → Nat} {i : Nat} (h : P.Inv B0 i B cnt) (c j : Nat) :
    j ∈ logOf P B cnt c ↔ ∃ k, k < cnt c ∧ B (P.base c + k) = some j := by
  unfold logOf
  simp only [List.mem_map, List.mem_range]
  constructor
  · rintro ⟨k, hk, rfl⟩
    obtain ⟨j, y, h1, -⟩ := h.entry c k hk
    exact ⟨k, hk, by rw [h1]; rfl⟩
  · rintro ⟨k, hk, e⟩
    exact ⟨k, hk, by rw [e]; rfl⟩

theorem log_nodup {B0 B : Nat → Option Nat} {cnt : Nat → Nat} {i : Nat} (hok : P.Ok B0)
    (h : P.Inv B0 i B cnt) (c : Nat) : (logOf P B cnt c).Nodup := by
  unfold logOf
  refine List.Nodup.map_on ?_ List.nodup_range
  intro k hk k' hk' e
  rw [List.mem_range] at hk hk'
  obtain ⟨j, y, h1, -⟩ := h.entry c k hk
  obtain ⟨j', y', h1', -⟩ := h.entry c k' hk'
  rw [h1, h1'] at e
  simp only [Option.getD_some] at e
  subst e
  have hle := h.le c
  have := h.inj _ _ j (hok.bound c k (by omega)) (hok.bound c k' (by omega)) (Or.inr ⟨c, k, hk, rfl⟩)
    (Or.inr ⟨c, k', hk', rfl⟩) h1 h1'
  omega

theorem log_subset {B0 B : Nat → Option Nat} {cnt : Nat → Nat} {i : Nat} (hok : P.Ok B0)
    (h : P.Inv B0 i B cnt) (c : Nat) : logOf P B cnt c ⊆ P.actives c := by
  intro j hj
  obtain ⟨k, hk, e⟩ := (mem_log h c j).1 hj
  obtain ⟨j', y, h1, h2, h3, -⟩ := h.entry c k hk
  rw [e] at h1
  simp only [Option.some.injEq] at h1
  subst h1
  exact (mem_actives (hok.act_lt j)).2 ⟨h2, h3⟩

theorem log_length (B : Nat → Option Nat) (cnt : Nat → Nat) (c : Nat) : (logOf P B cnt c).length = cnt c := by
  simp [logOf]

/-- If every active position of a bucket is placed the bucket is full. -/
theorem full_of_all {B0 B : Nat → Option Nat} {cnt : Nat → Nat} {i : Nat} (hok : P.Ok B0)
    (h : P.Inv B0 i B cnt) (c : Nat)
    (hall : ∀ j, P.act j = true → P.ch j = c → ∃ k, k < cnt c ∧ B (P.base c + k) = some j) :
    P.size c ≤ cnt c := by
  rw [← log_length (P := P) B cnt c]
  refine (List.subperm_of_subset (actives_nodup c) ?_).length_le
  intro j hj
  obtain ⟨h1, h2⟩ := (mem_actives (hok.act_lt j)).1 hj
  exact (mem_log h c j).2 (hall j h1 h2)

/-- If a bucket is full every active position of it is placed. -/
theorem all_of_full {B0 B : Nat → Option Nat} {cnt : Nat → Nat} {i : Nat} (hok : P.Ok B0)
    (h : P.Inv B0 i B cnt) (c : Nat) (hfull : P.size c ≤ cnt c) (j : Nat) (h1 : P.act j = true)
    (h2 : P.ch j = c) : ∃ k, k < cnt c ∧ B (P.base c + k) = some j := by
  have hs := List.subperm_of_subset (log_nodup hok h c) (log_subset hok h c)
  have hp := hs.perm_of_length_le (by rw [log_length]; exact hfull)
  exact (mem_log h c j).1 (hp.mem_iff.2 ((mem_actives (hok.act_lt j)).2 ⟨h1, h2⟩))

/-- The slot about to be visited has its final content. -/
theorem filled_now {B0 B : Nat → Option Nat} {cnt : Nat → Nat} {i : Nat} (hok : P.Ok B0)
    (h : P.Inv B0 i B cnt) : P.Filled cnt i := by
  by_cases hreg : P.InRegion i
  · obtain ⟨c, k, hk, rfl⟩ := hreg
    by_cases hkc : k < cnt c
    · exact Or.inr ⟨c, k, hkc, rfl⟩
    · exfalso
      have hall : ∀ m j, P.n - j = m → P.act j = true → P.ch j = c →
          ∃ k, k < cnt c ∧ B (P.base c + k) = some j := by
        intro m
        induction m using Nat.strongRecOn with
        | _ m ih =>
          intro j hm hj hc
          have hjn := hok.act_lt j hj
          have fin : ∀ y, y < P.base c + k → B y = some (j + 1) →
              ∃ k, k < cnt c ∧ B (P.base c + k) = some j := by
            intro y hy hb
            have := h.placed y hy j hb hj
            rwa [hc] at this
          rcases hok.next j hj with ⟨x, hx, hnr, hb⟩ | ⟨ha, hcase⟩
          · rw [hc] at hx
            refine fin x (by omega) ?_
            rw [h.rest x ?_, hb]
            rintro ⟨c', k', hk', rfl⟩
            have := h.le c'
            exact hnr ⟨c', k', by omega, rfl⟩
          · by_cases hce : P.ch (j + 1) = c
            · have := hok.act_lt (j + 1) ha
              obtain ⟨k', hk', hb⟩ := ih (P.n - (j + 1)) (by omega) (j + 1) rfl ha hce
              exact fin _ (by omega) hb
            · have hle : P.base (P.ch (j + 1)) + P.size (P.ch (j + 1)) ≤ P.base c := by
                rcases hcase with h' | h'
                · rw [h', hc] at hce; exact absurd rfl hce
                · rw [hc] at h'; exact h'
              have hfull : P.size (P.ch (j + 1)) ≤ cnt (P.ch (j + 1)) := by
                by_contra hlt
                have hf := h.visited (P.base (P.ch (j + 1)) + cnt (P.ch (j + 1))) (by omega)
                rcases hf with hf | ⟨c', k', hk', e⟩
                · exact hf ⟨_, _, by omega, rfl⟩
                · have hle' := h.le c'
                  have := hok.disj _ _ _ _ (show cnt (P.ch (j + 1)) < P.size (P.ch (j + 1)) by omega)
                    (show k' < P.size c' by omega) e
                  subst this
                  omega
              obtain ⟨k', hk', hb⟩ := all_of_full hok h _ hfull (j + 1) ha rfl
              have := h.le (P.ch (j + 1))
              exact fin _ (by omega) hb
      have := full_of_all hok h c fun j h1 h2 => hall _ j rfl h1 h2
      omega
  · exact Or.inl hreg

/-- One step of a pass. -/
def stepB (P : Pass) (B : Nat → Option Nat) (cnt : Nat → Nat) (j : Nat) : Nat → Option Nat :=
  fun x => if x = P.base (P.ch j) + cnt (P.ch j) then some j else B x

def stepCnt (P : Pass) (cnt : Nat → Nat) (j : Nat) : Nat → Nat :=
  fun c => if c = P.ch j then cnt c + 1 else cnt c

theorem room {B0 B : Nat → Option Nat} {cnt : Nat → Nat} {i j : Nat} (hok : P.Ok B0)
    (h : P.Inv B0 i B cnt) (hi : i < P.N) (hb : B i = some (j + 1)) (hj : P.act j = true) :
    (¬ ∃ k, k < cnt (P.ch j) ∧ B (P.base (P.ch j) + k) = some j) ∧ cnt (P.ch j) < P.size (P.ch j) := by
  have hne : ¬ ∃ k, k < cnt (P.ch j) ∧ B (P.base (P.ch j) + k) = some j := by
    rintro ⟨k, hk, e⟩
    obtain ⟨j', y, h1, -, -, h4, -, h6⟩ := h.entry _ k hk
    rw [e] at h1
    simp only [Option.some.injEq] at h1
    subst h1
    have := h.inj y i _ (by omega) hi (h.visited y h4) (filled_now hok h) h6 hb
    omega
  refine ⟨hne, ?_⟩
  by_contra hge
  exact hne (all_of_full hok h _ (by omega) j hj rfl)

theorem filled_step {cnt : Nat → Nat} {j x : Nat} (hx : P.Filled (stepCnt P cnt j) x) :
    P.Filled cnt x ∨ x = P.base (P.ch j) + cnt (P.ch j) := by
  rcases hx with hx | ⟨c, k, hk, rfl⟩
  · exact Or.inl (Or.inl hx)
  · unfold stepCnt at hk
    split at hk
    · rename_i hc
      subst hc
      by_cases hk' : k = cnt (P.ch j)
      · right; rw [hk']
      · exact Or.inl (Or.inr ⟨_, k, by omega, rfl⟩)
    · exact Or.inl (Or.inr ⟨c, k, hk, rfl⟩)

theorem filled_mono {cnt : Nat → Nat} {j x : Nat} (hx : P.Filled cnt x) : P.Filled (stepCnt P cnt j) x := by
  rcases hx with hx | ⟨c, k, hk, rfl⟩
  · exact Or.inl hx
  · refine Or.inr ⟨c, k, ?_, rfl⟩
    unfold stepCnt
    split <;> omega

theorem inv_place {B0 B : Nat → Option Nat} {cnt : Nat → Nat} {i j : Nat} (hok : P.Ok B0)
    (h : P.Inv B0 i B cnt) (hi : i < P.N) (hb : B i = some (j + 1)) (hj : P.act j = true) :
    P.Inv B0 (i + 1) (stepB P B cnt j) (stepCnt P cnt j) := by
  obtain ⟨hne, hroom⟩ := room hok h hi hb hj
  have hnow := filled_now hok h
  -- the slot written was not filled
  have hunf : ¬ P.Filled cnt (P.base (P.ch j) + cnt (P.ch j)) := by
    rintro (hf | ⟨c, k, hk, e⟩)
    · exact hf ⟨_, _, hroom, rfl⟩
    · have := h.le c
      have := hok.disj _ _ _ _ hroom (show k < P.size c by omega) e
      subst this
      omega
  have hlater : i < P.base (P.ch j) + cnt (P.ch j) := by
    by_contra hge
    rcases Nat.lt_or_eq_of_le (Nat.not_lt.1 hge) with hlt | heq
    · exact hunf (h.visited _ hlt)
    · rw [heq] at hunf; exact hunf hnow
  have hsame : ∀ x, P.Filled cnt x → stepB P B cnt j x = B x := by
    intro x hx
    unfold stepB
    rw [if_neg]
    intro he
    rw [he] at hx
    exact hunf hx
  have hnew : stepB P B cnt j (P.base (P.ch j) + cnt (P.ch j)) = some j := if_pos rfl
  have hcntj : stepCnt P cnt j (P.ch j) = cnt (P.ch j) + 1 := if_pos rfl
  have hcnto : ∀ c, c ≠ P.ch j → stepCnt P cnt j c = cnt c := fun c hc => if_neg hc
  have hfillk : ∀ c k, k < cnt c → P.Filled cnt (P.base c + k) := fun c k hk => Or.inr ⟨c, k, hk, rfl⟩
  have hdone : ∀ x, P.Filled cnt x → x < P.N → B x ≠ some j := by
    intro x hx hxN e
    rcases hx with hx | ⟨c, k, hk, rfl⟩
    · have hr := h.rest x (by
        rintro ⟨c, k, hk, rfl⟩
        have := h.le c
        exact hx ⟨c, k, by omega, rfl⟩)
      rw [hr] at e
      have := hok.static_inact x j hxN hx e
      rw [hj] at this
      exact Bool.noConfusion this
    · obtain ⟨j', y, h1, h2, h3, -⟩ := h.entry c k hk
      rw [e] at h1
      simp only [Option.some.injEq] at h1
      subst h1
      subst h3
      exact hne ⟨k, hk, e⟩
  refine ⟨?_, ?_, ?_, ?_, ?_, ?_, ?_⟩
  · intro c
    have := h.le c
    by_cases hc : c = P.ch j
    · subst hc; rw [hcntj]; omega
    · rw [hcnto c hc]; exact this
  · intro x hx
    unfold stepB
    rw [if_neg]
    · refine h.rest x ?_
      rintro ⟨c, k, hk, rfl⟩
      refine hx ⟨c, k, ?_, rfl⟩
      unfold stepCnt; split <;> omega
    · intro he
      exact hx ⟨P.ch j, cnt (P.ch j), by rw [hcntj]; omega, he⟩
  · intro c k hk
    have old : k < cnt c → ∃ j_1 y, stepB P B cnt j (P.base c + k) = some j_1 ∧ P.act j_1 = true ∧
        P.ch j_1 = c ∧ y < i + 1 ∧ y < P.base c + k ∧ stepB P B cnt j y = some (j_1 + 1) := by
      intro hk
      obtain ⟨j', y, h1, h2, h3, h4, h5, h6⟩ := h.entry c k hk
      exact ⟨j', y, by rw [hsame _ (hfillk c k hk), h1], h2, h3, by omega, h5,
        by rw [hsame _ (h.visited y h4), h6]⟩
    by_cases hc : c = P.ch j
    · subst hc
      by_cases hk' : k = cnt (P.ch j)
      · subst hk'
        exact ⟨j, i, hnew, hj, rfl, by omega, hlater, by rw [hsame _ hnow, hb]⟩
      · exact old (by rw [hcntj] at hk; omega)
    · exact old (by rw [hcnto c hc] at hk; exact hk)
  · intro c k k' hkk hk'
    have old : k' < cnt c → ∃ j_1 j' y y', stepB P B cnt j (P.base c + k) = some j_1 ∧
        stepB P B cnt j (P.base c + k') = some j' ∧ y < y' ∧ y' < i + 1 ∧
        stepB P B cnt j y = some (j_1 + 1) ∧ stepB P B cnt j y' = some (j' + 1) := by
      intro hk'
      obtain ⟨j1, j2, y1, y2, h1, h2, h3, h4, h5, h6⟩ := h.order c k k' hkk hk'
      exact ⟨j1, j2, y1, y2, by rw [hsame _ (hfillk c k (by omega)), h1],
        by rw [hsame _ (hfillk c k' hk'), h2], h3, by omega,
        by rw [hsame _ (h.visited y1 (by omega)), h5], by rw [hsame _ (h.visited y2 h4), h6]⟩
    by_cases hc : c = P.ch j
    · subst hc
      by_cases hk2 : k' = cnt (P.ch j)
      · subst hk2
        obtain ⟨j', y, h1, h2, h3, h4, h5, h6⟩ := h.entry _ k hkk
        exact ⟨j', j, y, i, by rw [hsame _ (hfillk _ k hkk), h1], hnew, h4, by omega,
          by rw [hsame _ (h.visited y h4), h6], by rw [hsame _ hnow, hb]⟩
      · exact old (by rw [hcntj] at hk'; omega)
    · exact old (by rw [hcnto c hc] at hk'; exact hk')
  · intro y hy
    rcases Nat.lt_or_eq_of_le (Nat.lt_succ_iff.1 hy) with hlt | rfl
    · exact filled_mono (h.visited y hlt)
    · exact filled_mono hnow
  · intro y hy j' hby hj'
    have hfy : P.Filled cnt y := by
      rcases Nat.lt_or_eq_of_le (Nat.lt_succ_iff.1 hy) with hlt | rfl
      · exact h.visited y hlt
      · exact hnow
    rw [hsame y hfy] at hby
    rcases Nat.lt_or_eq_of_le (Nat.lt_succ_iff.1 hy) with hlt | rfl
    · obtain ⟨k, hk, e⟩ := h.placed y hlt j' hby hj'
      refine ⟨k, ?_, by rw [hsame _ (hfillk _ k hk), e]⟩
      unfold stepCnt; split <;> omega
    · rw [hb] at hby
      simp only [Option.some.injEq, Nat.add_right_cancel_iff] at hby
      subst hby
      exact ⟨cnt (P.ch j), by rw [hcntj]; omega, hnew⟩
  · intro x x' p hx hx' hf hf' hb1 hb2
    rcases filled_step hf with hf | rfl
    · rw [hsame x hf] at hb1
      rcases filled_step hf' with hf' | rfl
      · rw [hsame x' hf'] at hb2
        exact h.inj x x' p hx hx' hf hf' hb1 hb2
      · rw [hnew] at hb2
        simp only [Option.some.injEq] at hb2
        subst hb2
        exact absurd hb1 (hdone x hf hx)
    · rw [hnew] at hb1
      simp only [Option.some.injEq] at hb1
      subst hb1
      rcases filled_step hf' with hf' | rfl
      · rw [hsame x' hf'] at hb2
        exact absurd hb2 (hdone x' hf' hx')
      · rfl

theorem inv_skip {B0 B : Nat → Option Nat} {cnt : Nat → Nat} {i : Nat} (hok : P.Ok B0)
    (h : P.Inv B0 i B cnt) (hskip : ∀ j, B i = some (j + 1) → P.act j = false) :
    P.Inv B0 (i + 1) B cnt := by
  have hnow := filled_now hok h
  refine ⟨h.le, h.rest, ?_, ?_, ?_, ?_, h.inj⟩
  · intro c k hk
    obtain ⟨j', y, h1, h2, h3, h4, h5, h6⟩ := h.entry c k hk
    exact ⟨j', y, h1, h2, h3, by omega, h5, h6⟩
  · intro c k k' hkk hk'
    obtain ⟨j1, j2, y1, y2, h1, h2, h3, h4, h5, h6⟩ := h.order c k k' hkk hk'
    exact ⟨j1, j2, y1, y2, h1, h2, h3, by omega, h5, h6⟩
  · intro y hy
    rcases Nat.lt_or_eq_of_le (Nat.lt_succ_iff.1 hy) with hlt | rfl
    · exact h.visited y hlt
    · exact hnow
  · intro y hy j hb hj
    rcases Nat.lt_or_eq_of_le (Nat.lt_succ_iff.1 hy) with hlt | rfl
    · exact h.placed y hlt j hb hj
    · rw [hskip j hb] at hj; exact Bool.noConfusion hj

theorem inv_init {B0 : Nat → Option Nat} (hok : P.Ok B0) : P.Inv B0 0 B0 (fun _ => 0) := by
  refine ⟨fun _ => Nat.zero_le _, fun _ _ => rfl, by simp, by simp, by simp, by simp, ?_⟩
  intro x x' p hx hx' hf hf' h1 h2
  have : ∀ x, P.Filled (fun _ => 0) x → ¬ P.InRegion x := by
    rintro x (h | ⟨c, k, hk, -⟩)
    · exact h
    · exact absurd hk (Nat.not_lt_zero _)
  exact hok.static_inj x x' p hx hx' (this x hf) (this x' hf') h1 h2

/-- What holds after a complete pass. -/
structure Pass.Done (P : Pass) (B0 B : Nat → Option Nat) : Prop where
  static : ∀ x, ¬ P.InRegion x → B x = B0 x
  entry : ∀ c k, k < P.size c → ∃ j y, B (P.base c + k) = some j ∧ P.act j = true ∧ P.ch j = c ∧
    y < P.base c + k ∧ B y = some (j + 1)
  order : ∀ c k k' j j' y y', k < k' → k' < P.size c → B (P.base c + k) = some j →
    B (P.base c + k') = some j' → y < P.N → y' < P.N → B y = some (j + 1) → B y' = some (j' + 1) → y < y'
  inj : ∀ x x' p, x < P.N → x' < P.N → B x = some p → B x' = some p → x = x'
  all : ∀ j, P.act j = true → ∃ k, k < P.size (P.ch j) ∧ B (P.base (P.ch j) + k) = some j

theorem done_of_inv {B0 B : Nat → Option Nat} {cnt : Nat → Nat} (hok : P.Ok B0)
    (h : P.Inv B0 P.N B cnt) : P.Done B0 B := by
  have hfull : ∀ c, cnt c = P.size c := by
    intro c
    refine Nat.le_antisymm (h.le c) ?_
    by_contra hlt
    have hb := hok.bound c (cnt c) (by omega)
    rcases h.visited _ hb with hf | ⟨c', k', hk', e⟩
    · exact hf ⟨c, cnt c, by omega, rfl⟩
    · have := h.le c'
      have := hok.disj _ _ _ _ (show cnt c < P.size c by omega) (show k' < P.size c' by omega) e
      subst this
      omega
  have hinj : ∀ x x' p, x < P.N → x' < P.N → B x = some p → B x' = some p → x = x' :=
    fun x x' p hx hx' => h.inj x x' p hx hx' (h.visited x hx) (h.visited x' hx')
  refine ⟨?_, ?_, ?_, hinj, ?_⟩
  · intro x hx
    refine h.rest x ?_
    rintro ⟨c, k, hk, rfl⟩
    exact hx ⟨c, k, by rw [← hfull]; exact hk, rfl⟩
  · intro c k hk
    obtain ⟨j, y, h1, h2, h3, h4, h5, h6⟩ := h.entry c k (by rw [hfull]; exact hk)
    exact ⟨j, y, h1, h2, h3, h5, h6⟩
  · intro c k k' j j' y y' hkk hk' e1 e2 hy hy' e3 e4
    obtain ⟨j1, j2, y1, y2, h1, h2, h3, h4, h5, h6⟩ := h.order c k k' hkk (by rw [hfull]; exact hk')
    rw [e1] at h1
    rw [e2] at h2
    simp only [Option.some.injEq] at h1 h2
    subst h1; subst h2
    rw [hinj y y1 _ hy (by omega) e3 h5, hinj y' y2 _ hy' (by omega) e4 h6]
    exact h3
  · intro j hj
    have := all_of_full hok h (P.ch j) (Nat.le_of_eq (hfull _).symm) j hj rfl
    rw [hfull] at this
    exact this

end Ribzip2.Induce
