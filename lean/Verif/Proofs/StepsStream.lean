import Verif.Model.StepsStream
import Verif.Proofs.StepsDecodeBound
import Verif.Proofs.StreamTrace
import Verif.Proofs.StreamErrors
import Verif.Proofs.Size
import Verif.Proofs.RoundTrip
import Verif.Proofs.GenNoDiv
/- The number of steps of `encode_stream`. -/
namespace Ribzip2
open Spec Cost

/-- The counted computation and what it computes. -/
theorem run_of_erase {α : Type} {x : Cost α} {a : α} (h : x.erase = Res.ok a) : ∃ k, x.run = Res.ok (a, k) := by
  rw [Cost.erase] at h
  obtain ⟨⟨b, k⟩, h1, h2⟩ := bind_is_ok.1 h
  simp only [Res.ok.injEq] at h2
  exact ⟨k, by rw [h1, h2]⟩

theorem readToEndC_erase (ft : Bool) (es : List REvent) (limit : Nat) :
    (readToEndC ft es limit).erase = Res.ok (readToEnd ft es limit) := by
  induction es generalizing limit with
  | nil => cases limit <;> rfl
  | cons e es ih =>
    cases limit with
    | zero => cases e <;> rfl
    | succ l =>
      cases e with
      | intr => rw [readToEndC, readToEnd, erase_tick]; exact ih _
      | fail => rfl
      | data bs =>
        rw [readToEndC, readToEnd, erase_tick, erase_ite, erase_ite]
        split
        · rfl
        · split
          · rw [erase_tick, erase_bind, ih]
            rfl
          · rfl

theorem readToEndC_steps (ft : Bool) (es : List REvent) (limit : Nat) (r : List UInt8 × List REvent × Bool) (k : Nat)
    (h : (readToEndC ft es limit).run = Res.ok (r, k)) :
    r = readToEnd ft es limit ∧ k + r.2.1.length ≤ 2 * r.1.length + es.length + 1 := by
  refine ⟨?_, ?_⟩
  · have := erase_of_run h
    rw [readToEndC_erase] at this
    simpa using this.symm
  · induction es generalizing limit r k with
    | nil =>
      cases limit with
      | zero =>
        obtain ⟨rfl, rfl⟩ := cost_pure h
        simp
      | succ l =>
        obtain ⟨l2, h1, rfl⟩ := cost_tick h
        obtain ⟨rfl, rfl⟩ := cost_pure h1
        simp
    | cons e es ih =>
      cases limit with
      | zero =>
        have h : (pure ([], e :: es, true) : Cost _).run = Res.ok (r, k) := by cases e <;> exact h
        obtain ⟨rfl, rfl⟩ := cost_pure h
        simp
      | succ l =>
        cases e with
        | intr =>
          rw [readToEndC] at h
          obtain ⟨l2, h1, rfl⟩ := cost_tick h
          have := ih _ _ _ h1
          rw [List.length_cons]
          omega
        | fail =>
          obtain ⟨l2, h1, rfl⟩ := cost_tick h
          obtain ⟨rfl, rfl⟩ := cost_pure h1
          simp
          omega
        | data bs =>
          rw [readToEndC] at h
          obtain ⟨l2, h1, rfl⟩ := cost_tick h
          split at h1
          · obtain ⟨rfl, rfl⟩ := cost_pure h1
            simp
            omega
          · split at h1
            · obtain ⟨l3, h2, rfl⟩ := cost_tick h1
              obtain ⟨⟨more, rest, ok⟩, k1, k2, h3, h4, rfl⟩ := cost_bind h2
              obtain ⟨rfl, rfl⟩ := cost_pure h4
              have := ih _ _ _ h3
              simp only [List.length_cons, List.length_append] at *
              omega
            · obtain ⟨l3, h2, rfl⟩ := cost_tick h1
              obtain ⟨rfl, rfl⟩ := cost_pure h2
              simp only [List.length_cons, List.length_take]
              omega

theorem rleLoopC_erase (input : List UInt8) (s : RleResult) :
    (rleLoopC input s).erase = Res.ok (input.foldl rleStep s) := by
  induction input generalizing s with
  | nil => rfl
  | cons c input ih =>
    rw [rleLoopC, erase_tick, ih]
    rfl

theorem rleC_steps (input : List UInt8) (n : Nat) (l : Option UInt8) (r : RleResult) (k : Nat)
    (h : (rleC input n l).run = Res.ok (r, k)) :
    r = rle input n l ∧ k ≤ 6 * input.length ∧ r.data.length ≤ 5 * input.length := by
  have key : ∀ (input : List UInt8) (s : RleResult) (k : Nat), (rleLoopC input s).run = Res.ok (r, k) →
      k + s.data.length = input.length + r.data.length ∧ r.data.length ≤ s.data.length + 5 * input.length := by
    intro input
    induction input with
    | nil =>
      intro s k h
      obtain ⟨rfl, rfl⟩ := cost_pure h
      simp
    | cons c input ih =>
      intro s k h
      rw [rleLoopC] at h
      obtain ⟨k1, h1, rfl⟩ := cost_tick h
      have h2 := ih _ _ h1
      have hs : s.data.length ≤ (rleStep s c).data.length ∧ (rleStep s c).data.length ≤ s.data.length + 5 := by
        unfold rleStep
        dsimp only
        split
        · split
          · split
            · simp
            · simp; omega
          · simp
        · simp
      rw [List.length_cons]
      omega
  refine ⟨?_, ?_⟩
  · have h1 := erase_of_run h
    rw [rleC, rleLoopC_erase, Res.ok.injEq] at h1
    exact h1.symm
  · have := key _ _ _ h
    simp only [List.length_nil] at this
    omega

theorem fillLoopC_erase (ft : Bool) (fuel : Nat) (s : FillState) :
    (fillLoopC ft fuel s).erase = fillLoop ft fuel s := by
  induction fuel generalizing s with
  | zero => rfl
  | succ fuel ih =>
    rw [fillLoopC, fillLoop, erase_tick, erase_ite]
    split
    · refine erase_lift_bind _ fun room => ?_
      dsimp only
      rw [erase_bind, readToEndC_erase, Res.ok_bind]
      rcases readToEnd ft s.events (room * 4 / 5) with ⟨buf, es, ok⟩
      cases ok with
      | false => rfl
      | true =>
        dsimp only
        rw [erase_ite]
        split
        · rfl
        · rw [erase_bind, rleC, rleLoopC_erase, Res.ok_bind, erase_tick, ih]
          rfl
    · rfl

theorem fillLoopC_steps (ft : Bool) (fuel : Nat) (s s' : FillState) (fin : Bool) (k : Nat)
    (h : (fillLoopC ft fuel s).run = Res.ok ((s', fin), k)) :
    k + 16 * eventsSize s'.events + s'.events.length ≤ 16 * eventsSize s.events + s.events.length + 2 := by
  induction fuel generalizing s k with
  | zero => exact absurd (cost_lifted h).1 (by simp)
  | succ fuel ih =>
    rw [fillLoopC] at h
    obtain ⟨k1, h1, rfl⟩ := cost_tick h
    split at h1
    · obtain ⟨room, -, h2⟩ := cost_lift h1
      obtain ⟨⟨buf, es, ok⟩, k2, k3, h3, h4, rfl⟩ := cost_bind h2
      obtain ⟨r1, r2⟩ := readToEndC_steps _ _ _ _ _ h3
      have r3 := (readToEnd_size ft s.events (room * 4 / 5)).1
      rw [← r1] at r3
      dsimp only at r2 r3
      cases ok with
      | false =>
        obtain ⟨g, rfl⟩ := cost_pure h4
        simp only [Prod.mk.injEq] at g
        rw [g.1]
        dsimp only
        omega
      | true =>
        dsimp only at h4
        split at h4
        · obtain ⟨g, rfl⟩ := cost_pure h4
          simp only [Prod.mk.injEq] at g
          rw [g.1]
          dsimp only
          omega
        · obtain ⟨r, k4, k5, h5, h6, rfl⟩ := cost_bind h4
          obtain ⟨k6, h7, rfl⟩ := cost_tick h6
          obtain ⟨-, q1, q2⟩ := rleC_steps _ _ _ _ _ h5
          have := ih _ _ h7
          dsimp only at this
          omega
    · obtain ⟨g, rfl⟩ := cost_pure h1
      simp only [Prod.mk.injEq] at g
      rw [g.1]
      omega

theorem nextBlockC_erase (ft : Bool) (es : List REvent) : (nextBlockC ft es).erase = nextBlock ft es := by
  rw [nextBlockC, nextBlock]
  refine erase_bind_of (fillLoopC_erase _ _ _) fun ⟨s, fin⟩ => ?_
  dsimp only
  rw [erase_ite]
  split
  · rfl
  · rfl

theorem nextBlockC_steps (ft : Bool) (es es' : List REvent) (w : Option Work) (fin : Bool) (k : Nat)
    (h : (nextBlockC ft es).run = Res.ok ((w, es', fin), k)) :
    4 * k + 73 * eventsSize es' + 4 * es'.length ≤ 73 * eventsSize es + 4 * es.length + 1072 := by
  rw [nextBlockC] at h
  obtain ⟨⟨s, f⟩, k1, k2, h1, h2, rfl⟩ := cost_bind h
  have a1 := fillLoopC_steps _ _ _ _ _ _ h1
  have he := erase_of_run h1
  rw [fillLoopC_erase] at he
  have hinv : FillInv ⟨[], [], 0, 0, none, es⟩ :=
    ⟨rfl, rfl, rfl, by simp [rle1Encode, runs], by simp [rle1Encode, runs]⟩
  obtain ⟨s2, f2, t1, t2⟩ := fillLoop_total ft (eventsSize es + 2) ⟨[], [], 0, 0, none, es⟩ hinv
    (by dsimp only; omega)
  rw [he, Res.ok.injEq, Prod.mk.injEq] at t1
  rw [← t1.1] at t2
  obtain ⟨c, c1, c2, -⟩ := fillLoop_trace ft _ _ hinv _ _ he
  have hc := c2.length_le
  rw [List.length_append, ← eventsSize_eq, ← eventsSize_eq] at hc
  dsimp only at h2 a1 hc
  rw [List.nil_append] at c1
  rw [← c1] at hc
  split at h2
  · obtain ⟨g, rfl⟩ := cost_pure h2
    simp only [Prod.mk.injEq] at g
    rw [g.2.1]
    omega
  · rename_i hne
    obtain ⟨rt, k3, k4, h3, h4, rfl⟩ := cost_bind h2
    obtain ⟨crc, k5, k6, h5, h6, rfl⟩ := cost_bind h4
    obtain ⟨g, rfl⟩ := cost_pure h6
    obtain ⟨k7, h7, rfl⟩ := cost_tick h3
    obtain ⟨-, rfl⟩ := cost_pure h7
    obtain ⟨k8, h8, rfl⟩ := cost_tick h5
    obtain ⟨-, rfl⟩ := cost_pure h8
    simp only [Prod.mk.injEq] at g
    rw [g.2.1]
    have d1 := rle_data_lt s.buf (by intro h0; exact hne (by rw [h0]; rfl))
    rw [← t2.data] at d1
    have d2 := rle1Encode_length s.buf
    omega

theorem sendLoopC_erase (ft : Bool) (k : Nat) (es : List REvent) (fin : Bool) :
    (sendLoopC ft k es fin).erase = sendLoop ft k es fin := by
  induction k generalizing es fin with
  | zero => rfl
  | succ k ih =>
    rw [sendLoopC, sendLoop, erase_tick]
    refine erase_bind_of (nextBlockC_erase _ _) fun ⟨w, es1, f⟩ => ?_
    cases w with
    | none => rfl
    | some work => exact erase_bind_of (ih _ _) fun ⟨more, es2, fin2⟩ => rfl

theorem sendLoopC_steps (ft : Bool) (n : Nat) (es es' : List REvent) (fin fin' : Bool) (ws : List Work) (k : Nat)
    (h : (sendLoopC ft n es fin).run = Res.ok ((ws, es', fin'), k)) :
    4 * k + 73 * eventsSize es' + 4 * es'.length ≤
      73 * eventsSize es + 4 * es.length + 1076 * (ws.length + 1) := by
  induction n generalizing es fin ws k with
  | zero =>
    obtain ⟨g, rfl⟩ := cost_pure h
    simp only [Prod.mk.injEq] at g
    obtain ⟨rfl, rfl, rfl⟩ := g
    simp
  | succ n ih =>
    rw [sendLoopC] at h
    obtain ⟨k1, h1, rfl⟩ := cost_tick h
    obtain ⟨⟨w, es1, f⟩, k2, k3, h2, h3, rfl⟩ := cost_bind h1
    have a1 := nextBlockC_steps _ _ _ _ _ _ h2
    cases w with
    | none =>
      obtain ⟨g, rfl⟩ := cost_pure h3
      simp only [Prod.mk.injEq] at g
      obtain ⟨rfl, rfl, rfl⟩ := g
      simp only [List.length_nil]
      omega
    | some work =>
      obtain ⟨⟨more, es2, fin2⟩, k4, k5, h4, h5, rfl⟩ := cost_bind h3
      obtain ⟨g, rfl⟩ := cost_pure h5
      simp only [Prod.mk.injEq] at g
      obtain ⟨rfl, rfl, rfl⟩ := g
      have := ih _ _ _ _ h4
      rw [List.length_cons]
      omega

/-! ### flushing -/

theorem writeChunks_pending (old : List Bit) (w : Writer) (bits : List Bit) (bw : BitWriter)
    (h : writeChunks old w bits = (bw, Res.ok ())) : bw.pending.length < 8 := by
  fun_induction writeChunks old w bits with
  | case1 w b0 b1 b2 b3 b4 b5 b6 b7 rest w' u hw ih => exact ih h
  | case2 w b0 b1 b2 b3 b4 b5 b6 b7 rest w' r hr hw =>
    simp only [Prod.mk.injEq] at h
    exact absurd (by rw [h.2]) (hr ())
  | case3 w rest hr =>
    simp only [Prod.mk.injEq, and_true] at h
    rw [← h]
    by_contra hlt
    match rest, hr, hlt with
    | b0 :: b1 :: b2 :: b3 :: b4 :: b5 :: b6 :: b7 :: rest, hr, _ => exact hr _ _ _ _ _ _ _ _ _ rfl
    | [], _, hlt => simp at hlt
    | [_], _, hlt => simp at hlt
    | [_, _], _, hlt => simp at hlt
    | [_, _, _], _, hlt => simp at hlt
    | [_, _, _, _], _, hlt => simp at hlt
    | [_, _, _, _, _], _, hlt => simp at hlt
    | [_, _, _, _, _, _], _, hlt => simp at hlt
    | [_, _, _, _, _, _, _], _, hlt => simp at hlt

theorem writeBitsSteps_le (bw : BitWriter) (bits : List Bit) (h : bw.pending.length < 8) :
    writeBitsSteps bw bits ≤ 4 * bits.length + 14 := by
  unfold writeBitsSteps
  omega

/-- What the counted generator does for the block `b`. -/
def GenRuns (gen : Work → Res (List Bit)) (genC : Work → Cost (List Bit)) (c : Nat) (b : List UInt8) : Prop :=
  ∃ bits k, (genC (workOf b)).run = Res.ok (bits, k) ∧ gen (workOf b) = Res.ok bits ∧ k + 4 * bits.length ≤ c

theorem flushLoopC_runs (gen : Work → Res (List Bit)) (genC : Work → Cost (List Bit)) (cost : List UInt8 → Nat)
    (bs : List (List UInt8)) (hg : ∀ b ∈ bs, GenRuns gen genC (cost b) b) (bw : BitWriter) (hp : bw.pending.length < 8)
    (crc : BitVec 32) (s0 : Nat) :
    ∃ k, k ≤ s0 + (bs.map cost).sum + 15 * bs.length ∧
      flushLoopC genC (bs.map workOf) bw crc s0 = ((flushLoop gen (bs.map workOf) bw crc).1,
        (flushLoop gen (bs.map workOf) bw crc).2 >>= fun c => Res.ok (c, k)) ∧
      (∀ c, (flushLoop gen (bs.map workOf) bw crc).2 = Res.ok c →
        (flushLoop gen (bs.map workOf) bw crc).1.pending.length < 8) := by
  induction bs generalizing bw crc s0 with
  | nil => exact ⟨s0, by simp, rfl, fun _ _ => hp⟩
  | cons b bs ih =>
    obtain ⟨bits, k, g1, g2, g3⟩ := hg b (by simp)
    rw [List.map_cons, List.map_cons, flushLoopC, flushOneC, g1, flushLoop, flushOne, g2]
    dsimp only
    have hws := writeBitsSteps_le bw bits hp
    rcases hw : bw.writeBits bits with ⟨bw1, r⟩
    cases r with
    | ok u =>
      dsimp only
      have hp1 := writeChunks_pending _ _ _ _ hw
      obtain ⟨k2, i1, i2, i3⟩ := ih (fun x hx => hg x (by simp [hx])) bw1 hp1
        (combineCrc crc (workOf b).crc) (s0 + (1 + k + writeBitsSteps bw bits))
      refine ⟨k2, ?_, i2, i3⟩
      simp only [List.sum_cons, List.length_cons]
      omega
    | err => exact ⟨0, by omega, rfl, by simp⟩
    | panic => exact ⟨0, by omega, rfl, by simp⟩
    | div => exact ⟨0, by omega, rfl, by simp⟩

theorem main_sum {s0 k t E E' e e' S1 S2 n1 n2 K k2 : Nat} (hk : 4 * k + 73 * E' + 4 * e' ≤ 73 * E + 4 * e + 1076 * (n1 + 1))
    (hK : K ≤ s0 + 1 + k + t + S1 + 15 * n1)
    (hk2 : 4 * k2 ≤ 4 * K + 73 * E' + 4 * e' + 4 * S2 + (4 * t + 2300) * (n2 + 1) + 4) (hn : 1 ≤ n1) :
    4 * k2 ≤ 4 * s0 + 73 * E + 4 * e + 4 * (S1 + S2) + (4 * t + 2300) * (n1 + n2 + 1) + 4 := by
  have : (4 * t + 2300) * (n1 + n2 + 1) = (4 * t + 2300) * (n2 + 1) + (4 * t + 2300) * n1 := by ring
  rw [this]
  have h3 : (4 * t + 2300) * n1 = 4 * t * n1 + 2300 * n1 := by ring
  have h4 : 4 * t * 1 ≤ 4 * t * n1 := Nat.mul_le_mul_left _ hn
  omega

theorem mainLoopC_runs (gen : Work → Res (List Bit)) (genC : Work → Cost (List Bit)) (cost : List UInt8 → Nat)
    (hg : ∀ b : List UInt8, b ≠ [] → (rle1Encode b).length ≤ 900005 → GenRuns gen genC (cost b) b) (t : Nat)
    (ht : 1 ≤ t) (fuel : Nat) (es : List REvent) (h : Steady es) (fin : Bool) (hfin : fin = true → scriptBytes es = [])
    (bw : BitWriter) (hp : bw.pending.length < 8) (crc : BitVec 32) (hfuel : (scriptBytes es).length + 2 ≤ fuel)
    (s0 : Nat) :
    ∃ k, 4 * k ≤ 4 * s0 + 73 * eventsSize es + 4 * es.length + 4 * ((blocksOf (scriptBytes es)).map cost).sum
        + (4 * t + 2300) * ((blocksOf (scriptBytes es)).length + 1) + 4 ∧
      mainLoopC genC false t fuel es fin bw crc s0 = ((mainLoop gen false t fuel es fin bw crc).1,
        (mainLoop gen false t fuel es fin bw crc).2 >>= fun c => Res.ok (c, k)) ∧
      (∀ c, (mainLoop gen false t fuel es fin bw crc).2 = Res.ok c →
        (mainLoop gen false t fuel es fin bw crc).1.pending.length < 8) := by
  induction fuel generalizing es fin bw crc s0 with
  | zero => omega
  | succ fuel ih =>
    rw [mainLoopC, mainLoop]
    cases fin with
    | true => exact ⟨s0 + 1, by omega, rfl, fun _ _ => hp⟩
    | false =>
      simp only [Bool.false_eq_true, if_false]
      obtain ⟨es', fin', n, h1, h2, h3, h4, h5, h6, h7⟩ := sendLoop_steady t es h false (by simp)
      obtain ⟨ks, hs⟩ := run_of_erase ((sendLoopC_erase false t es false).trans h1)
      have hst := sendLoopC_steps _ _ _ _ _ _ _ _ hs
      rw [h1, hs]
      dsimp only
      generalize hd : scriptBytes es = d at *
      obtain ⟨kf, f1, f2, f3⟩ := flushLoopC_runs gen genC cost ((blocksOf d).take n)
        (fun b hb => hg b (blocksOf_ne_nil d b (List.mem_of_mem_take hb)) (blocksOf_size d b (List.mem_of_mem_take hb)))
        bw hp crc (s0 + 1 + ks + t)
      rw [f2]
      rcases hfl : flushLoop gen (((blocksOf d).take n).map workOf) bw crc with ⟨bw', r⟩
      rw [hfl] at f3
      dsimp only at f3
      rw [List.length_map] at hst
      have hsplit1 : (blocksOf d).length = ((blocksOf d).take n).length + (blocksOf (scriptBytes es')).length := by
        rw [h3, ← List.length_append, List.take_append_drop]
      have hsplit2 : ((blocksOf d).map cost).sum = (((blocksOf d).take n).map cost).sum
          + ((blocksOf (scriptBytes es')).map cost).sum := by
        rw [h3, ← List.sum_append, ← List.map_append, List.take_append_drop]
      cases r with
      | ok c =>
        dsimp only [Res.ok_bind]
        by_cases hd0 : d = []
        · have hf := h5 ht hd0
          subst hf
          have he := h4 rfl
          obtain ⟨fuel, rfl⟩ : ∃ f, fuel = f + 1 := ⟨fuel - 1, by omega⟩
          subst hd0
          rw [mainLoopC, mainLoop, if_pos rfl, if_pos rfl]
          refine ⟨kf + 1, ?_, rfl, f3⟩
          simp only [blocksOf_nil, List.take_nil, List.map_nil, List.sum_nil, List.length_nil] at *
          omega
        · have hlt := h6 ht hd0
          obtain ⟨k2, i1, i2, i3⟩ := ih es' h2 fin' h4 bw' (f3 c rfl) c (by omega) kf
          refine ⟨k2, ?_, i2, i3⟩
          rw [hsplit1, hsplit2]
          refine main_sum hst f1 i1 ?_
          by_contra hn0
          have hn0 : ((blocksOf d).take n).length = 0 := by omega
          have : (blocksOf (scriptBytes es')) = blocksOf d := by
            rw [h3]
            rw [List.length_take] at hn0
            rcases Nat.min_eq_zero_iff.1 hn0 with hz | hz
            · rw [hz]; rfl
            · rw [List.length_eq_zero_iff.1 hz, List.drop_nil]
          have := congrArg List.flatten this
          rw [blocksOf_flatten, blocksOf_flatten] at this
          rw [this] at hlt
          omega
      | err => exact ⟨0, by omega, rfl, by simp⟩
      | panic => exact ⟨0, by omega, rfl, by simp⟩
      | div => exact ⟨0, by omega, rfl, by simp⟩

end Ribzip2
