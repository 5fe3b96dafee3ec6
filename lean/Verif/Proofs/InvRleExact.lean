import Verif.Proofs.Rle
/- Exactly when `inverse_rle` undoes the run-length stage. -/
namespace Ribzip2
open Spec

theorem inv_out (l : List UInt8) (s : InvRle) : s.output <+: (l.foldl invRleStep s).output := by
  induction l generalizing s with
  | nil => exact List.prefix_refl _
  | cons a l ih =>
    refine List.IsPrefix.trans ?_ (ih _)
    unfold invRleStep
    split
    · split
      · exact List.prefix_append _ _
      · split <;> exact List.prefix_append _ _
    · exact List.prefix_append _ _

/-- If the output after a part of the input is not a prefix of the target, the target is missed. -/
theorem inv_miss {l1 l2 : List UInt8} {s : InvRle} {out p t : List UInt8} {e : Nat} {q : Option UInt8}
    (h1 : l1.foldl invRleStep s = ⟨out ++ p, e, q⟩) (h2 : ¬ p <+: t) :
    ((l1 ++ l2).foldl invRleStep s).output ≠ out ++ t := by
  intro h
  rw [List.foldl_append, h1] at h
  have := inv_out l2 ⟨out ++ p, e, q⟩
  rw [h] at this
  exact h2 ((List.prefix_append_right_inj out).1 this)

theorem expandRuns_cons (c : UInt8) (m : Nat) (rs : List (UInt8 × Nat)) :
    expandRuns ((c, m) :: rs) = List.replicate m c ++ expandRuns rs := by simp [expandRuns]

theorem head_mismatch (a b : UInt8) (l l' : List UInt8) (h : a ≠ b) : ¬ (a :: l) <+: (b :: l') := by
  intro g
  rw [List.cons_prefix_cons] at g
  exact h g.1

/-- A different byte before the end of a run. -/
theorem run_mismatch (c k : UInt8) (a m : Nat) (e : List UInt8) (h : a < m) (hk : k ≠ c) :
    ¬ (List.replicate a c ++ [k]) <+: (List.replicate m c ++ e) := by
  intro g
  rw [show m = a + (m - a) by omega, ← List.replicate_append_replicate, List.append_assoc,
    List.prefix_append_right_inj] at g
  rw [show m - a = (m - a - 1) + 1 by omega, List.replicate_succ] at g
  exact head_mismatch k c _ _ hk g

/-- A run that goes on too long. -/
theorem run_overlong (c : UInt8) (a m : Nat) (rest : List (UInt8 × Nat)) (h : m < a) (hm : m < 255)
    (hok : RunsOk ((c, m) :: rest)) (l : List UInt8) :
    ¬ (List.replicate a c ++ l) <+: expandRuns ((c, m) :: rest) := by
  intro g
  rw [expandRuns_cons, show a = m + (a - m) by omega, ← List.replicate_append_replicate, List.append_assoc,
    List.prefix_append_right_inj, show a - m = (a - m - 1) + 1 by omega, List.replicate_succ] at g
  cases rest with
  | nil => simp [expandRuns] at g
  | cons r rest =>
    obtain ⟨y, n⟩ := r
    have hn := hok.tail.head
    simp only at hn
    rw [expandRuns_cons, show n = (n - 1) + 1 by omega, List.replicate_succ] at g
    refine head_mismatch c y _ _ ?_ g
    intro hc
    have := hok.2.1 hc.symm
    omega

theorem step_eq (out : List UInt8) (c : UInt8) (k : Nat) (h : k < 3) :
    invRleStep ⟨out, k, some c⟩ c = ⟨out ++ [c], k + 1, some c⟩ := by
  simp [invRleStep]; omega

theorem step_ne (out : List UInt8) (c d : UInt8) (k : Nat) (h : k < 3) (hd : c ≠ d) :
    invRleStep ⟨out, k, some c⟩ d = ⟨out ++ [d], 0, some d⟩ := by
  simp [invRleStep, hd]; omega

theorem step_count (out : List UInt8) (c d : UInt8) :
    invRleStep ⟨out, 3, some c⟩ d = ⟨out ++ List.replicate d.toNat c, 0, some d⟩ := by
  simp [invRleStep]

/-- The elements of a run. -/
theorem encodeRun_succ (y : UInt8) (m : Nat) (h : 1 ≤ m) :
    ∃ l, encodeRun (y, m) = y :: l := by
  unfold encodeRun
  split
  · exact ⟨List.replicate (m - 1) y, by simp only; rw [← List.replicate_succ]; congr 1; omega⟩
  · exact ⟨[y, y, y, UInt8.ofNat (m - 4)], rfl⟩

theorem encodeRun_long (c : UInt8) (m : Nat) (h : 4 ≤ m) :
    encodeRun (c, m) = [c, c, c, c, UInt8.ofNat (m - 4)] := by
  simp [encodeRun, List.replicate_succ]; omega

/-- Once a zero byte is lost it stays lost. -/
theorem inv_lost_zero (rs : List (UInt8 × Nat)) (s : InvRle) (hok : RunsOk rs) (hs : s.equalCount ≤ 2)
    (hz : s.previous = none → s.equalCount = 0)
    (hp : ∀ y m rest, rs = (y, m) :: rest → s.previous = some 0 → y ≠ 0) :
    ((rs.flatMap encodeRun).foldl invRleStep s).output ≠ s.output ++ 0 :: expandRuns rs := by
  induction rs generalizing s with
  | nil => simp [expandRuns]
  | cons r rs ih =>
    obtain ⟨y, m⟩ := r
    have hh := hok.head
    simp only at hh
    by_cases hy : y = 0
    · subst hy
      have hp' : s.previous ≠ some 0 := fun h => hp 0 m rs rfl h rfl
      rw [List.flatMap_cons, List.foldl_append, inv_fresh s 0 m hh.1 hh.2 hs hz hp', expandRuns_cons]
      have e : s.output ++ 0 :: (List.replicate m 0 ++ expandRuns rs)
          = s.output ++ List.replicate m 0 ++ 0 :: expandRuns rs := by
        have : (0 : UInt8) :: (List.replicate m 0 ++ expandRuns rs)
            = List.replicate m 0 ++ 0 :: expandRuns rs := by
          rw [← List.cons_append, ← List.replicate_succ, List.replicate_succ']; simp
        rw [this]; simp
      rw [e]
      split
      · rename_i h4
        refine ih _ hok.tail (by simp only; omega) (by simp) ?_
        intro y' m' rest' e' _ hy'
        subst e'
        have := hok.2.1 hy'
        omega
      · rename_i h4
        refine ih _ hok.tail (by simp) (by simp) ?_
        intro y' m' rest' e' hp2 hy'
        subst e'
        have := hok.2.1 hy'
        subst this
        simp at hp2
    · obtain ⟨l, hl⟩ := encodeRun_succ y m hh.1
      rw [List.flatMap_cons, hl, List.cons_append, ← List.singleton_append]
      have h1 : [y].foldl invRleStep s = ⟨s.output ++ [y], (invRleStep s y).equalCount, some y⟩ := by
        obtain ⟨out, ec, prev⟩ := s
        simp only [List.foldl_cons, List.foldl_nil]
        cases prev with
        | none => simp [invRleStep]
        | some q =>
          simp only at hs
          by_cases hq : q = y
          · subst hq; rw [step_eq _ _ _ (by omega)]
          · rw [step_ne _ _ _ _ (by omega) hq]
      exact inv_miss h1 (head_mismatch y 0 _ _ hy)

/-- Three bytes equal to the count before them, and then something else. -/
theorem inv_miss_three (out : List UInt8) (c : UInt8) (rs : List (UInt8 × Nat)) (hok : RunsOk rs) (hne : rs ≠ [])
    (hc : ∀ y m rest, rs = (y, m) :: rest → y ≠ c) :
    ((rs.flatMap encodeRun).foldl invRleStep ⟨out, 3, some c⟩).output ≠ out ++ expandRuns rs := by
  match rs, hne with
  | (x, n) :: rest, _ =>
    have hh := hok.head
    simp only at hh
    have hxc := hc x n rest rfl
    obtain ⟨l, hl⟩ := encodeRun_succ x n hh.1
    by_cases hx : x = 0
    · subst hx
      rw [List.flatMap_cons, List.foldl_append, expandRuns_cons]
      have key : ∃ e q, (encodeRun (0, n)).foldl invRleStep ⟨out, 3, some c⟩
            = ⟨out ++ List.replicate (n - 1) 0, e, some q⟩ ∧ e ≤ 2 ∧ (q = 0 → n < 255) := by
        by_cases h4 : n < 4
        · have : n = 1 ∨ n = 2 ∨ n = 3 := by omega
          rcases this with h | h | h <;> subst h <;>
            simp [encodeRun, List.replicate_succ, step_count, step_eq]
        · rw [encodeRun_long 0 n (by omega)]
          simp only [List.foldl_cons, List.foldl_nil, step_count, UInt8.toNat_zero, List.replicate_zero,
            List.append_nil]
          rw [step_eq _ _ _ (by omega), step_eq _ _ _ (by omega), step_eq _ _ _ (by omega), step_count]
          refine ⟨0, UInt8.ofNat (n - 4), ?_, by omega, ?_⟩
          · congr 1
            rw [UInt8.toNat_ofNat_of_lt' (show _ < 256 by omega)]
            obtain ⟨k, rfl⟩ : ∃ k, n = k + 4 := ⟨n - 4, by omega⟩
            simp [List.replicate_succ]
          · intro h0
            have := congrArg UInt8.toNat h0
            rw [UInt8.toNat_ofNat_of_lt' (show _ < 256 by omega)] at this
            simp at this; omega
      obtain ⟨e, q, h1, h2, h3⟩ := key
      rw [h1]
      have e2 : out ++ (List.replicate n 0 ++ expandRuns rest)
          = (out ++ List.replicate (n - 1) 0) ++ 0 :: expandRuns rest := by
        obtain ⟨k, rfl⟩ : ∃ k, n = k + 1 := ⟨n - 1, by omega⟩
        rw [List.replicate_succ']; simp
      rw [e2]
      refine inv_lost_zero rest ⟨_, e, some q⟩ hok.tail h2 (by simp) ?_
      intro y m rest' e' hq hy
      subst e'
      simp only [Option.some.injEq] at hq
      have := hok.2.1 hy
      have := h3 hq
      omega
    · rw [List.flatMap_cons, hl, List.cons_append, ← List.singleton_append]
      have h1 : [x].foldl invRleStep ⟨out, 3, some c⟩ = ⟨out ++ List.replicate x.toNat c, 0, some x⟩ := by
        simp [step_count]
      refine inv_miss h1 ?_
      have hx0 : x.toNat ≠ 0 := by
        intro h; exact hx (UInt8.toNat_inj.1 (by simpa using h))
      rw [expandRuns_cons, show x.toNat = (x.toNat - 1) + 1 by omega, show n = (n - 1) + 1 by omega,
        List.replicate_succ, List.replicate_succ]
      exact head_mismatch c x _ _ (Ne.symm hxc)

/-- Four bytes equal to the byte before them: the fourth is taken for a count. -/
theorem four_eq (out : List UInt8) (c : UInt8) :
    [c, c, c, c].foldl invRleStep ⟨out, 0, some c⟩ = ⟨out ++ List.replicate (3 + c.toNat) c, 0, some c⟩ := by
  simp only [List.foldl_cons, List.foldl_nil]
  rw [step_eq _ _ _ (by omega), step_eq _ _ _ (by omega), step_eq _ _ _ (by omega), step_count]
  congr 1
  rw [← List.replicate_append_replicate]
  simp [List.replicate_succ]

/-- Once a count has been taken for a byte of the output, the output stays wrong. -/
theorem inv_miss_surplus (out : List UInt8) (k : UInt8) (rs : List (UInt8 × Nat)) (hok : RunsOk rs)
    (hk : k.toNat ≤ 250) :
    ((rs.flatMap encodeRun).foldl invRleStep ⟨out ++ [k], 0, some k⟩).output ≠ out ++ expandRuns rs := by
  match rs with
  | [] => simp [expandRuns]
  | (y, n) :: rest =>
    have hh := hok.head
    simp only at hh
    by_cases hy : y = k
    · subst hy
      rw [List.flatMap_cons]
      by_cases h4 : n < 4
      · have h1 : (encodeRun (y, n)).foldl invRleStep ⟨out ++ [y], 0, some y⟩
            = ⟨out ++ List.replicate (n + 1) y, n, some y⟩ := by
          have : n = 1 ∨ n = 2 ∨ n = 3 := by omega
          rcases this with h | h | h <;> subst h <;>
            simp [encodeRun, List.replicate_succ, step_eq]
        refine inv_miss h1 ?_
        have := run_overlong y (n + 1) n rest (by omega) (by omega) hok []
        simpa using this
      · rw [encodeRun_long y n (by omega),
          show [y, y, y, y, UInt8.ofNat (n - 4)] = [y, y, y, y] ++ [UInt8.ofNat (n - 4)] from rfl]
        have hv : (UInt8.ofNat (n - 4)).toNat = n - 4 := UInt8.toNat_ofNat_of_lt' (show _ < 256 by omega)
        by_cases hlt : n < 4 + y.toNat
        · rw [List.append_assoc]
          refine inv_miss (p := List.replicate (4 + y.toNat) y) (e := 0) (q := some y) ?_ ?_
          · rw [four_eq]
            congr 1
            rw [show 4 + y.toNat = 1 + (3 + y.toNat) by omega, ← List.replicate_append_replicate (n := 1)]
            simp
          · have := run_overlong y (4 + y.toNat) n rest hlt (by omega) hok []
            simpa using this
        · by_cases heq : n = 4 + y.toNat
          · have hve : UInt8.ofNat (n - 4) = y := UInt8.toNat_inj.1 (by rw [hv]; omega)
            refine inv_miss (p := List.replicate (5 + y.toNat) y) (e := 1) (q := some y) ?_ ?_
            · rw [List.foldl_append, four_eq, hve, List.foldl_cons, List.foldl_nil, step_eq _ _ _ (by omega)]
              congr 1
              rw [show 5 + y.toNat = (1 + (3 + y.toNat)) + 1 by omega,
                ← List.replicate_append_replicate (m := 1),
                ← List.replicate_append_replicate (n := 1)]
              simp
            · have := run_overlong y (5 + y.toNat) n rest (by omega) (by omega) hok []
              simpa using this
          · have hne : UInt8.ofNat (n - 4) ≠ y := by
              intro h; rw [← h, hv] at heq; omega
            refine inv_miss (p := List.replicate (4 + y.toNat) y ++ [UInt8.ofNat (n - 4)]) (e := 0)
              (q := some (UInt8.ofNat (n - 4))) ?_ ?_
            · rw [List.foldl_append, four_eq, List.foldl_cons, List.foldl_nil,
                step_ne _ _ _ _ (by omega) (Ne.symm hne)]
              congr 1
              rw [show 4 + y.toNat = 1 + (3 + y.toNat) by omega, ← List.replicate_append_replicate (n := 1)]
              simp
            · rw [expandRuns_cons]
              exact run_mismatch y _ _ _ _ (by omega) hne
    · have := inv_miss (l1 := []) (l2 := ((y, n) :: rest).flatMap encodeRun) (s := ⟨out ++ [k], 0, some k⟩)
        (out := out) (p := [k]) (t := expandRuns ((y, n) :: rest)) (e := 0) (q := some k) rfl (by
          rw [expandRuns_cons, show n = (n - 1) + 1 by omega, List.replicate_succ]
          exact head_mismatch k y _ _ (Ne.symm hy))
      simpa using this

/-- A run of four or more bytes equal to the count before it, with another count. -/
theorem inv_miss_long (out : List UInt8) (c : UInt8) (m : Nat) (rest : List (UInt8 × Nat))
    (hok : RunsOk ((c, m) :: rest)) (hc : c.toNat ≤ 251) (hm : 4 ≤ m) (hne : m - 4 ≠ c.toNat) :
    ((((c, m) :: rest).flatMap encodeRun).foldl invRleStep ⟨out, 0, some c⟩).output
      ≠ out ++ expandRuns ((c, m) :: rest) := by
  have hh := hok.head
  simp only at hh
  have hv : (UInt8.ofNat (m - 4)).toNat = m - 4 := UInt8.toNat_ofNat_of_lt' (show _ < 256 by omega)
  have hne' : c ≠ UInt8.ofNat (m - 4) := by
    intro h; rw [← hv, ← h] at hne; exact hne rfl
  rw [List.flatMap_cons, encodeRun_long c m hm,
    show [c, c, c, c, UInt8.ofNat (m - 4)] = [c, c, c, c] ++ [UInt8.ofNat (m - 4)] from rfl]
  have h1 : ([c, c, c, c] ++ [UInt8.ofNat (m - 4)]).foldl invRleStep ⟨out, 0, some c⟩
      = ⟨out ++ (List.replicate (3 + c.toNat) c ++ [UInt8.ofNat (m - 4)]), 0, some (UInt8.ofNat (m - 4))⟩ := by
    rw [List.foldl_append, four_eq, List.foldl_cons, List.foldl_nil, step_ne _ _ _ _ (by omega) hne']
    simp
  rcases Nat.lt_trichotomy (3 + c.toNat) m with h | h | h
  · refine inv_miss h1 ?_
    rw [expandRuns_cons]
    exact run_mismatch c _ _ _ _ h (Ne.symm hne')
  · rw [List.foldl_append, h1, expandRuns_cons, h, ← List.append_assoc, ← List.append_assoc]
    exact inv_miss_surplus (out ++ List.replicate m c) _ rest hok.tail (by rw [hv]; omega)
  · refine inv_miss h1 ?_
    exact run_overlong c _ m rest h (by omega) hok _

/-- The head of the runs, met with the state `s`, is harmless. -/
def HeadHarmless (s : InvRle) : List (UInt8 × Nat) → Prop
  | (c, m) :: rest => s.previous = some c → m ≤ 2 ∨ (m = 3 ∧ rest = []) ∨ (m = 4 + c.toNat ∧ m < 255)
  | [] => True

theorem inverseRle_runs_iff (rs : List (UInt8 × Nat)) (s : InvRle) (hok : RunsOk rs)
    (hq : (∀ m, ((251 : UInt8), m) ∈ rs → m < 255) ∨ (HeadHarmless s rs ∧ noCountCollision rs = true))
    (hs : rs ≠ [] → s.equalCount ≤ 2) (hz : s.previous = none → s.equalCount = 0)
    (hprev : ∀ c m rest, rs = (c, m) :: rest → s.previous = some c → s.equalCount = 0 ∧ c.toNat ≤ 251) :
    ((rs.flatMap encodeRun).foldl invRleStep s).output = s.output ++ expandRuns rs ↔
      HeadHarmless s rs ∧ noCountCollision rs = true := by
  induction rs generalizing s with
  | nil => simp [expandRuns, HeadHarmless, noCountCollision]
  | cons r rs ih =>
    obtain ⟨c, m⟩ := r
    have hh := hok.head
    simp only at hh
    have hs2 := hs (by simp)
    -- what the state behind a run says about the next one
    have nextNe : m < 255 → ∀ c' m' rest', rs = (c', m') :: rest' → c' ≠ c := by
      intro hm c' m' rest' e h
      subst e
      have := hok.2.1 h
      omega
    have headOf : ∀ {out : List UInt8} {e : Nat}, m < 255 →
        HeadHarmless ⟨out, e, some c⟩ rs := by
      intro out e hm
      cases rs with
      | nil => trivial
      | cons r' rs' =>
        intro h
        simp only [Option.some.injEq] at h
        exact absurd h.symm (nextNe hm _ _ _ rfl)
    have noCollide : m < 4 ∨ (m = 4 + c.toNat ∧ m < 255) →
        (noCountCollision ((c, m) :: rs) = true ↔ noCountCollision rs = true) := by
      intro hm
      cases rs with
      | nil => simp [noCountCollision]
      | cons r' rs' =>
        obtain ⟨c', m'⟩ := r'
        rw [noCountCollision]
        have : (decide (4 ≤ m) && (c'.toNat == m - 4)) = false := by
          rcases hm with hm | hm
          · simp; omega
          · have : c' ≠ c := nextNe hm.2 _ _ _ rfl
            have : c'.toNat ≠ c.toNat := fun h => this (UInt8.toNat_inj.1 h)
            simp; omega
        simp [this]
    have hq1 : (∀ m', ((251 : UInt8), m') ∈ (c, m) :: rs → m' < 255) → ∀ m', ((251 : UInt8), m') ∈ rs → m' < 255 :=
      fun h m' hm' => h m' (List.mem_cons_of_mem _ hm')
    rw [expandRuns_cons, ← List.append_assoc]
    by_cases hp : s.previous = some c
    · obtain ⟨he, hc⟩ := hprev c m rs rfl hp
      have hS : s = ⟨s.output, 0, some c⟩ := by
        obtain ⟨a, b, d⟩ := s; simp at he hp ⊢; exact ⟨he, hp⟩
      by_cases h2 : m ≤ 2
      · rw [List.flatMap_cons, List.foldl_append, inv_collide s c m hh.1 (by omega) he hp]
        have hA : HeadHarmless s ((c, m) :: rs) ∧ noCountCollision ((c, m) :: rs) = true ↔
            HeadHarmless ⟨s.output ++ List.replicate m c, m, some c⟩ rs ∧ noCountCollision rs = true := by
          rw [noCollide (by omega)]
          exact ⟨fun h => ⟨headOf (by omega), h.2⟩, fun h => ⟨fun _ => Or.inl h2, h.2⟩⟩
        rw [hA, ← ih ⟨_, m, some c⟩ hok.tail (hq.imp hq1 hA.1) (by intro; exact h2) (by simp) ?_]
        intro c' m' rest' e hp'
        simp only [Option.some.injEq] at hp'
        exact absurd hp'.symm (nextNe (by omega) _ _ _ e)
      · by_cases h3 : m = 3
        · subst h3
          by_cases hr : rs = []
          · subst hr
            rw [List.flatMap_cons, List.foldl_append, inv_collide s c 3 hh.1 (by omega) he hp]
            simp [expandRuns, HeadHarmless, noCountCollision]
          · constructor
            · intro h
              exfalso
              rw [List.flatMap_cons, List.foldl_append, inv_collide s c 3 hh.1 (by omega) he hp] at h
              exact inv_miss_three _ c rs hok.tail hr (fun y n rest e => nextNe (by omega) y n rest e) h
            · intro h
              exfalso
              rcases h.1 hp with g | g | g
              · omega
              · exact hr g.2
              · omega
        · by_cases hk : m - 4 = c.toNat
          · have hm255 : m < 255 := by
              rcases hq with g | g
              · by_cases hm : m < 255
                · exact hm
                · exfalso
                  have hc251 : c = 251 := UInt8.toNat_inj.1 (by rw [← hk]; simp; omega)
                  exact hm (g m (by rw [hc251]; exact List.mem_cons_self))
              · rcases g.1 hp with g | g | g
                · omega
                · omega
                · exact g.2
            have hve : UInt8.ofNat (m - 4) = c :=
              UInt8.toNat_inj.1 (by rw [UInt8.toNat_ofNat_of_lt' (show _ < 256 by omega)]; omega)
            have h1 : (encodeRun (c, m)).foldl invRleStep s = ⟨s.output ++ List.replicate m c, 1, some c⟩ := by
              rw [encodeRun_long c m (by omega), hve,
                show [c, c, c, c, c] = [c, c, c, c] ++ [c] from rfl, List.foldl_append, hS, four_eq,
                List.foldl_cons, List.foldl_nil, step_eq _ _ _ (by omega)]
              congr 1
              rw [show m = (3 + c.toNat) + 1 by omega, ← List.replicate_append_replicate (m := 1)]
              simp
            have hA : HeadHarmless s ((c, m) :: rs) ∧ noCountCollision ((c, m) :: rs) = true ↔
                HeadHarmless ⟨s.output ++ List.replicate m c, 1, some c⟩ rs ∧ noCountCollision rs = true := by
              rw [noCollide (Or.inr ⟨by omega, hm255⟩)]
              exact ⟨fun h => ⟨headOf hm255, h.2⟩,
                fun h => ⟨fun _ => Or.inr (Or.inr ⟨by omega, hm255⟩), h.2⟩⟩
            rw [List.flatMap_cons, List.foldl_append, h1]
            rw [hA, ← ih ⟨_, 1, some c⟩ hok.tail (hq.imp hq1 hA.1) (by intro; simp) (by simp) ?_]
            intro c' m' rest' e hp'
            simp only [Option.some.injEq] at hp'
            exact absurd hp'.symm (nextNe hm255 _ _ _ e)
          · constructor
            · intro h
              exfalso
              rw [hS, List.append_assoc, ← expandRuns_cons] at h
              exact inv_miss_long s.output c m rs hok hc (by omega) hk h
            · intro h
              exfalso
              rcases h.1 hp with g | g | g
              · omega
              · omega
              · omega
    · have hH : HeadHarmless s ((c, m) :: rs) := fun h => absurd h hp
      rw [List.flatMap_cons, List.foldl_append, inv_fresh s c m hh.1 hh.2 hs2 hz hp]
      by_cases h4 : m < 4
      · have hA : HeadHarmless s ((c, m) :: rs) ∧ noCountCollision ((c, m) :: rs) = true ↔
            HeadHarmless ⟨s.output ++ List.replicate m c, m - 1, some c⟩ rs ∧ noCountCollision rs = true := by
          rw [noCollide (Or.inl h4)]
          exact ⟨fun h => ⟨headOf (by omega), h.2⟩, fun h => ⟨hH, h.2⟩⟩
        rw [if_pos h4, hA,
          ← ih ⟨_, m - 1, some c⟩ hok.tail (hq.imp hq1 hA.1) (by intro; simp; omega) (by simp) ?_]
        intro c' m' rest' e hp'
        simp only [Option.some.injEq] at hp'
        exact absurd hp'.symm (nextNe (by omega) _ _ _ e)
      · have hv : (UInt8.ofNat (m - 4)).toNat = m - 4 := UInt8.toNat_ofNat_of_lt' (show _ < 256 by omega)
        have hA : HeadHarmless s ((c, m) :: rs) ∧ noCountCollision ((c, m) :: rs) = true ↔
            HeadHarmless ⟨s.output ++ List.replicate m c, 0, some (UInt8.ofNat (m - 4))⟩ rs ∧
              noCountCollision rs = true := by
          simp only [hH, true_and]
          cases rs with
          | nil => simp [HeadHarmless, noCountCollision]
          | cons r' rs' =>
            obtain ⟨c', m'⟩ := r'
            have hm' := hok.tail.head
            simp only at hm'
            rw [noCountCollision, Bool.and_eq_true]
            refine and_congr_left fun _ => ?_
            simp only [HeadHarmless, Option.some.injEq]
            by_cases hc : UInt8.ofNat (m - 4) = c'
            · have hc' : c'.toNat = m - 4 := by rw [← hc, hv]
              simp only [hc, hc', forall_const, Bool.not_eq_true', Bool.and_eq_false_iff,
                decide_eq_false_iff_not, beq_eq_false_iff_ne, Bool.or_eq_false_iff, Bool.not_eq_false',
                List.isEmpty_iff, ne_eq, Bool.and_eq_true, decide_eq_true_eq]
              constructor
              · rintro ((g | g) | ⟨g1, g2⟩)
                · omega
                · exact absurd trivial g
                · by_cases m' ≤ 2
                  · left; assumption
                  · right
                    rcases g2 with g2 | g2
                    · left
                      refine ⟨by omega, ?_⟩
                      rcases g1 with g1 | g1
                      · omega
                      · exact g1
                    · right; omega
              · rintro (g | g | g)
                · right; exact ⟨Or.inl (by omega), Or.inl (by omega)⟩
                · right; exact ⟨Or.inr g.2, Or.inl (by omega)⟩
                · right; exact ⟨Or.inl (by omega), Or.inr ⟨by omega, by omega⟩⟩
            · have hc' : c'.toNat ≠ m - 4 := by
                intro h; exact hc (UInt8.toNat_inj.1 (by rw [hv, h]))
              simp [hc, hc']
        rw [if_neg h4, hA, ← ih ⟨_, 0, some (UInt8.ofNat (m - 4))⟩ hok.tail (hq.imp hq1 hA.1)
          (by intro; simp) (by simp) ?_]
        intro c' m' rest' e hp'
        simp only [Option.some.injEq] at hp'
        exact ⟨rfl, by rw [← hp', hv]; omega⟩

theorem headHarmless_start (rs : List (UInt8 × Nat)) : HeadHarmless ⟨[], 0, none⟩ rs := by
  cases rs with
  | nil => trivial
  | cons r rs => intro h; simp at h

/-- `inverse_rle` undoes the standard encoder if there is no collision. -/
theorem inverseRle_encode (d : List UInt8) (h : noCountCollision (runs d) = true) :
    inverseRle (rle1Encode d) = d := by
  have := (inverseRle_runs_iff (runs d) ⟨[], 0, none⟩ (runs_ok d) (Or.inr ⟨headHarmless_start _, h⟩)
    (by simp) (by simp) (by simp)).2 ⟨headHarmless_start _, h⟩
  rw [runs_expand] at this
  simpa [inverseRle, rle1Encode] using this

theorem mem_expand (b : UInt8) (n : Nat) (rs : List (UInt8 × Nat)) (h : (b, n) ∈ rs) :
    List.replicate n b <:+: expandRuns rs := by
  induction rs with
  | nil => simp at h
  | cons r rs ih =>
    obtain ⟨c, m⟩ := r
    rw [expandRuns_cons]
    rcases List.mem_cons.1 h with h | h
    · simp only [Prod.mk.injEq] at h
      obtain ⟨rfl, rfl⟩ := h
      exact (List.prefix_append _ _).isInfix
    · obtain ⟨p, q, e⟩ := ih h
      exact ⟨List.replicate m c ++ p, q, by rw [← e, List.append_assoc, List.append_assoc, List.append_assoc]⟩

/-- ... and, unless there are 255 bytes 251 in a row, only then. -/
theorem inverseRle_encode_iff (d : List UInt8) (h : ¬ List.replicate 255 251 <:+: d) :
    inverseRle (rle1Encode d) = d ↔ noCountCollision (runs d) = true := by
  have := inverseRle_runs_iff (runs d) ⟨[], 0, none⟩ (runs_ok d) (Or.inl ?_) (by simp) (by simp) (by simp)
  · rw [runs_expand] at this
    simp only [List.nil_append] at this
    rw [inverseRle, rle1Encode, this]
    exact and_iff_right (headHarmless_start _)
  · intro m hm
    by_cases h5 : m < 255
    · exact h5
    · exfalso
      apply h
      have := mem_expand _ _ _ hm
      rw [runs_expand] at this
      refine List.IsInfix.trans ?_ this
      rw [show m = 255 + (m - 255) by omega, ← List.replicate_append_replicate]
      exact (List.prefix_append _ _).isInfix

end Ribzip2
