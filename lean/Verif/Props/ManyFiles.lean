import Verif.Props.CliRelease
/- Property C94: many files in one command. -/
namespace Ribzip2
open Spec

/-- Nothing disturbs the processing of a file: no other process, opening and creating is allowed, the reads deliver the
content of the file (however split), no write fails. -/
structure Undisturbed (env : ArgEnv) : Prop where
  alone : Alone env
  reads : ReadsAll env
  opens : env.openOk = true
  creates : env.createOk = true
  writes : NoFileError env.script

theorem contentAt_none {fs : FileSys} {p : Path} : contentAt fs p = none ↔ fs.dir p = none := by
  simp [contentAt]

/-- One argument with a run that ends well: only the output is new. -/
theorem one_content (c : Command) (env : ArgEnv) (p : Path) (w : World) (d bytes : List UInt8) (o : Outcome)
    (hwf : WellFormed w.fs) (hd : contentAt w.fs p = some d) (hn : contentAt w.fs (c.outName p) = none) (ha : Alone env)
    (hop : env.openOk = true) (hcr : env.createOk = true) (hr : c.run (env.reader d) env.script = (bytes, o)) :
    ∃ w', c.one env p w = (w', o) ∧ WellFormed w'.fs ∧ contentAt w'.fs (c.outName p) = some bytes ∧
      ∀ q, q ≠ c.outName p → contentAt w'.fs q = contentAt w.fs q := by
  have hn := contentAt_none.1 hn
  rcases hi : w.fs.dir p with _ | i
  · simp [contentAt, hi] at hd
  · simp only [contentAt, hi, Option.map_some, Option.some.injEq] at hd
    subst hd
    have hone : c.one env p w = (⟨(w.fs.create (c.outName p)).1.put (w.fs.create (c.outName p)).2 bytes,
        (w.fs.create (c.outName p)).2 :: (w.fs.create (c.outName p)).2 :: w.touched⟩, o) := by
      simp only [Command.one, openBoth, (ha _).1, (ha _).2.1, (ha _).2.2, hi, hop, hcr, if_true, hn, hr]
    rw [create_fresh _ _ hn] at hone
    refine ⟨_, hone, ?_, ?_, ?_⟩
    · intro q j hq
      simp only [FileSys.put] at hq ⊢
      by_cases h : q = c.outName p
      · rw [if_pos h, Option.some.injEq] at hq
        omega
      · rw [if_neg h] at hq
        have := hwf q j hq
        omega
    · simp [contentAt, FileSys.put]
    · intro q hq
      simp only [contentAt, FileSys.put, if_neg hq]
      rcases hj : w.fs.dir q with _ | j
      · rfl
      · have := hwf q j hj
        simp only [Option.map_some, Option.some.injEq]
        rw [if_neg (by omega), if_neg (by omega)]

/-- Many arguments whose runs end well. -/
theorem main_content (c : Command) (env : Path → ArgEnv) (out : Path → List UInt8) (ps : List Path) (w : World)
    (hwf : WellFormed w.fs)
    (h : ∀ p ∈ ps, Alone (env p) ∧ (env p).openOk = true ∧ (env p).createOk = true ∧
      contentAt w.fs (c.outName p) = none ∧
      ∃ d, contentAt w.fs p = some d ∧ c.run ((env p).reader d) (env p).script = (out p, Outcome.ok))
    (hnd : (ps.map c.outName).Nodup) :
    ∃ w', c.main (ps.map fun p => (p, env p)) w = (w', Outcome.ok) ∧ WellFormed w'.fs ∧
      (∀ p ∈ ps, contentAt w'.fs (c.outName p) = some (out p)) ∧
      ∀ q, q ∉ ps.map c.outName → contentAt w'.fs q = contentAt w.fs q := by
  induction ps generalizing w with
  | nil => exact ⟨w, rfl, hwf, by simp, fun _ _ => rfl⟩
  | cons p ps ih =>
    rw [List.map_cons, List.nodup_cons] at hnd
    obtain ⟨h1, h2, h3, h4, d, h5, h6⟩ := h p (by simp)
    obtain ⟨w1, k1, k2, k3, k4⟩ := one_content c (env p) p w d _ _ hwf h5 h4 h1 h2 h3 h6
    have hne : ∀ q, contentAt w.fs q ≠ none → q ≠ c.outName p := by
      intro q hq he
      rw [he] at hq
      exact hq h4
    obtain ⟨w', m1, m2, m3, m4⟩ := ih w1 k2 (by
      intro q hq
      obtain ⟨g1, g2, g3, g4, e, g5, g6⟩ := h q (by simp [hq])
      refine ⟨g1, g2, g3, ?_, e, ?_, g6⟩
      · rw [k4 _ (fun he => hnd.1 (by rw [← he]; exact List.mem_map_of_mem hq)), g4]
      · rw [k4 _ (hne _ (by rw [g5]; simp)), g5]) hnd.2
    refine ⟨w', ?_, m2, ?_, ?_⟩
    · simp only [List.map_cons, Command.main, k1, m1]
    · intro q hq
      rcases List.mem_cons.1 hq with rfl | hq
      · rw [m4 _ hnd.1, k3]
      · exact m3 q hq
    · intro q hq
      rw [List.map_cons, List.mem_cons, not_or] at hq
      rw [m4 q hq.2, k4 q hq.1]

theorem compress_run (threads : Nat) (ht : 1 ≤ threads) (strategy : Strategy) (env : ArgEnv) (he : Undisturbed env)
    (d bytes : List UInt8) (hb : encodeBytes euclid d threads strategy = Res.ok bytes) :
    (Command.compress threads strategy).run (env.reader d) env.script = (bytes, Outcome.ok) := by
  obtain ⟨b, res, k1, k2, k3⟩ := compressData_noError euclid (env.reader d) threads strategy env.script he.writes
  obtain ⟨es, f1, f2, f3⟩ := he.reads d
  rw [f1, encodeStream_steady _ _ _ _ _ f2 ht, f3, ← encodeStream_ofBytes _ _ _ _ _ ht] at k1
  unfold encodeBytes at hb
  rw [k1] at hb
  cases res with
  | ok u =>
    simp only [Res.ok.injEq] at hb
    exact Prod.ext ((k3 (by simp)).trans hb) k2
  | err => simp at hb
  | panic => simp at hb
  | div => simp at hb

theorem decompress_run (release : Bool) (env : ArgEnv) (he : Undisturbed env)
    (hs : env.script = []) (d bytes : List UInt8) (hb : decodeBytes bytes = Res.ok d) :
    (if release then Command.decompressRelease else Command.decompress).run (env.reader bytes) env.script
      = (d, Outcome.ok) := by
  obtain ⟨es, f1, f2, f3⟩ := he.reads bytes
  have r2 : decodeStream (env.reader bytes) ⟨[], []⟩ = decodeStream (Reader.ofBytes bytes) Writer.empty := by
    rw [f1, Writer.empty, decodeStream_reliable, decodeStream_reliable, delivered_steady _ f2, f3]
    simp [Reader.ofBytes]
  have hk : decompressData (env.reader bytes) [] = (d, Outcome.ok) ∧
      (decodeStream (env.reader bytes) ⟨[], []⟩).2 ≠ Res.panic := by
    unfold decompressData
    unfold decodeBytes at hb
    simp only [List.map_nil, r2]
    generalize decodeStream (Reader.ofBytes bytes) Writer.empty = x at hb ⊢
    obtain ⟨wr, (_ | _ | _ | _)⟩ := x <;> simp at hb ⊢
    exact hb
  rw [hs]
  cases release
  · exact hk.1
  · exact (decompressData_agrees _ [] hk.2).trans hk.1

/-- Deleting files. -/
def removeAll (ps : List Path) (w : World) : World := ps.foldl (fun w p => remove p w) w

theorem remove_content (p : Path) (w : World) (q : Path) :
    contentAt (remove p w).fs q = if q = p then none else contentAt w.fs q := by
  unfold remove contentAt
  dsimp only
  split <;> rfl

theorem removeAll_spec (ps : List Path) (w : World) (hwf : WellFormed w.fs) :
    WellFormed (removeAll ps w).fs ∧ ∀ q, contentAt (removeAll ps w).fs q = if q ∈ ps then none else contentAt w.fs q := by
  induction ps generalizing w with
  | nil => exact ⟨hwf, by simp [removeAll]⟩
  | cons p ps ih =>
    have h : WellFormed (remove p w).fs := by
      intro q j hq
      simp only [remove] at hq ⊢
      split at hq
      · simp at hq
      · exact hwf q j hq
    obtain ⟨h1, h2⟩ := ih (remove p w) h
    refine ⟨h1, fun q => ?_⟩
    rw [show removeAll (p :: ps) w = removeAll ps (remove p w) from rfl, h2, remove_content]
    by_cases hq : q = p <;> by_cases hm : q ∈ ps <;> simp [hq, hm]

/-- `.bz2` behind a path. -/
abbrev withBz2 (p : Path) : Path := p ++ [46, 98, 122, 50]

/-- The situation before a command line with many files: each path ends in a file name, the file exists, its `.bz2`
does not, no path is given twice. -/
structure ManyFiles (ps : List Path) (fs : FileSys) : Prop where
  names : ∀ p ∈ ps, ∃ dir name, p = dir ++ name ∧ FilePath dir name
  there : ∀ p ∈ ps, contentAt fs p ≠ none
  free : ∀ p ∈ ps, contentAt fs (withBz2 p) = none
  different : ps.Nodup
  sane : WellFormed fs

theorem ManyFiles.compressName {ps : List Path} {fs : FileSys} (h : ManyFiles ps fs) {p : Path} (hp : p ∈ ps) :
    compressName p = withBz2 p ∧ decompressName (withBz2 p) = p := by
  obtain ⟨dir, name, rfl, hf⟩ := h.names p hp
  obtain ⟨h1, h2⟩ := C41_names_round_trip dir name hf
  rw [h1] at h2
  exact ⟨h1, h2⟩

theorem withBz2_inj {p q : Path} (h : withBz2 p = withBz2 q) : p = q := List.append_cancel_right h

theorem map_nodup {α β : Type} (f : α → β) (l : List α) (h : l.Nodup) (hf : ∀ a ∈ l, ∀ b ∈ l, f a = f b → a = b) :
    (l.map f).Nodup := by
  induction l with
  | nil => simp
  | cons a l ih =>
    rw [List.nodup_cons] at h
    rw [List.map_cons, List.nodup_cons]
    refine ⟨fun hm => ?_, ih h.2 fun x hx y hy => hf x (by simp [hx]) y (by simp [hy])⟩
    obtain ⟨b, hb, he⟩ := List.mem_map.1 hm
    exact h.1 (hf a (by simp) b (by simp [hb]) he.symm ▸ hb)

/-- **C94**, compressing: one command with many files ends with status 0; behind each file its compressed form is there,
nothing else is changed. For every file system, every number of files, of threads and every strategy for which the library
compresses the files. -/
theorem C94_compress_many (threads : Nat) (ht : 1 ≤ threads) (strategy : Strategy) (ps : List Path) (w : World)
    (h : ManyFiles ps w.fs) (env : Path → ArgEnv) (he : ∀ p ∈ ps, Undisturbed (env p)) (out : Path → List UInt8)
    (hlib : ∀ p ∈ ps, ∀ d, contentAt w.fs p = some d → encodeBytes euclid d threads strategy = Res.ok (out p)) :
    ∃ w', (Command.compress threads strategy).main (ps.map fun p => (p, env p)) w = (w', Outcome.ok) ∧
      WellFormed w'.fs ∧ (∀ p ∈ ps, contentAt w'.fs (withBz2 p) = some (out p)) ∧
      ∀ q, q ∉ ps.map withBz2 → contentAt w'.fs q = contentAt w.fs q := by
  have hname : ∀ p ∈ ps, (Command.compress threads strategy).outName p = withBz2 p := fun p hp => (h.compressName hp).1
  have hmap : ps.map (Command.compress threads strategy).outName = ps.map withBz2 := List.map_congr_left hname
  obtain ⟨w', h1, h2, h3, h4⟩ := main_content (Command.compress threads strategy) env out ps w h.sane (by
    intro p hp
    refine ⟨(he p hp).alone, (he p hp).opens, (he p hp).creates, by rw [hname p hp]; exact h.free p hp, ?_⟩
    rcases hc : contentAt w.fs p with _ | d
    · exact absurd hc (h.there p hp)
    · exact ⟨d, rfl, compress_run threads ht strategy (env p) (he p hp) d _ (hlib p hp d hc)⟩)
    (by rw [hmap]; exact map_nodup _ _ h.different fun a _ b _ => withBz2_inj)
  rw [hmap] at h4
  exact ⟨w', h1, h2, fun p hp => by rw [← hname p hp]; exact h3 p hp, h4⟩

/-- **C94.** Many files, compressed with one command, deleted, and decompressed with one command: if each of them by itself
comes back from the library, all of them are back, every other file is as it was, and only the `.bz2` files are new. Both
commands end with status 0. For both kinds of build. -/
theorem C94_many_round_trip (release : Bool) (threads : Nat) (ht : 1 ≤ threads) (strategy : Strategy) (ps : List Path)
    (w : World) (h : ManyFiles ps w.fs) (e1 e2 : Path → ArgEnv)
    (he1 : ∀ p ∈ ps, Undisturbed (e1 p)) (he2 : ∀ p ∈ ps, Undisturbed (e2 p) ∧ (e2 p).script = [])
    (hlib : ∀ p ∈ ps, ∀ d, contentAt w.fs p = some d →
      ∃ bytes, encodeBytes euclid d threads strategy = Res.ok bytes ∧ decodeBytes bytes = Res.ok d) :
    ∃ w1 w2, (Command.compress threads strategy).main (ps.map fun p => (p, e1 p)) w = (w1, Outcome.ok) ∧
      (if release then Command.decompressRelease else Command.decompress).main
        (ps.map fun p => (withBz2 p, e2 p)) (removeAll ps w1) = (w2, Outcome.ok) ∧
      ∀ q, q ∉ ps.map withBz2 → contentAt w2.fs q = contentAt w.fs q := by
  have hout : ∃ out : Path → List UInt8, ∀ p ∈ ps, ∀ d, contentAt w.fs p = some d →
      encodeBytes euclid d threads strategy = Res.ok (out p) ∧ decodeBytes (out p) = Res.ok d := by
    refine ⟨fun p => match contentAt w.fs p with
      | some d => match encodeBytes euclid d threads strategy with | Res.ok b => b | _ => []
      | none => [], ?_⟩
    intro p hp d hd
    obtain ⟨bytes, b1, b2⟩ := hlib p hp d hd
    simp only [hd, b1, b2, and_self]
  obtain ⟨out, hout⟩ := hout
  obtain ⟨w1, c1, c2, c3, c4⟩ := C94_compress_many threads ht strategy ps w h e1 he1 out fun p hp d hd => (hout p hp d hd).1
  obtain ⟨r1, r2⟩ := removeAll_spec ps w1 c2
  generalize hc : (if release then Command.decompressRelease else Command.decompress) = c
  have hname : c.outName = decompressName := by rw [← hc]; cases release <;> rfl
  have hnot : ∀ p ∈ ps, withBz2 p ∉ ps := fun p hp hq => h.there _ hq (h.free p hp)
  -- the name without `.bz2`
  let back : Path → Path := fun q => q.take (q.length - 4)
  have hback : ∀ p, back (withBz2 p) = p := by
    intro p
    simp [back, withBz2]
  obtain ⟨w2, d1, -, d3, d4⟩ := main_content c (fun q => e2 (back q))
    (fun q => (contentAt w.fs (back q)).getD []) (ps.map withBz2) (removeAll ps w1) r1 (by
      intro q hq
      obtain ⟨p, hp, rfl⟩ := List.mem_map.1 hq
      rw [hback, hname, (h.compressName hp).2]
      refine ⟨(he2 p hp).1.alone, (he2 p hp).1.opens, (he2 p hp).1.creates, by rw [r2, if_pos hp], out p, ?_, ?_⟩
      · rw [r2, if_neg (hnot p hp), c3 p hp]
      · rcases hd : contentAt w.fs p with _ | d
        · exact absurd hd (h.there p hp)
        · rw [← hc]
          exact decompress_run release (e2 p) (he2 p hp).1 (he2 p hp).2 d _ (hout p hp d hd).2)
    (by
      rw [hname, List.map_map]
      refine map_nodup _ _ h.different ?_
      intro a ha b hb hab
      rwa [Function.comp, Function.comp, (h.compressName ha).2, (h.compressName hb).2] at hab)
  have harg : (ps.map withBz2).map (fun q => (q, e2 (back q))) = ps.map fun p => (withBz2 p, e2 p) := by
    rw [List.map_map]
    refine List.map_congr_left fun p _ => ?_
    rw [Function.comp, hback]
  have hdn : (ps.map withBz2).map c.outName = ps := by
    rw [hname, List.map_map]
    conv => rhs; rw [← List.map_id ps]
    exact List.map_congr_left fun p hp => (h.compressName hp).2
  rw [harg] at d1
  rw [hdn] at d4
  refine ⟨w1, w2, c1, d1, fun q hq => ?_⟩
  by_cases hm : q ∈ ps
  · have := d3 (withBz2 q) (List.mem_map_of_mem hm)
    rw [hname, (h.compressName hm).2, hback] at this
    rw [this]
    rcases hd : contentAt w.fs q with _ | d
    · exact absurd hd (h.there q hm)
    · rfl
  · rw [d4 q hm, r2, if_neg hm, c4 q hq]

theorem decompress_bad (env : ArgEnv) (he : Undisturbed env) (hs : env.script = []) (bytes : List UInt8)
    (hb : decodeBytes bytes = Res.err ∨ decodeBytes bytes = Res.panic) :
    ∃ part, Command.decompress.run (env.reader bytes) env.script = (part, Outcome.panic) := by
  obtain ⟨es, f1, f2, f3⟩ := he.reads bytes
  have r2 : decodeStream (env.reader bytes) ⟨[], []⟩ = decodeStream (Reader.ofBytes bytes) Writer.empty := by
    rw [f1, Writer.empty, decodeStream_reliable, decodeStream_reliable, delivered_steady _ f2, f3]
    simp [Reader.ofBytes]
  rw [hs]
  simp only [Command.run]
  unfold decompressData
  unfold decodeBytes at hb
  simp only [List.map_nil, r2]
  generalize decodeStream (Reader.ofBytes bytes) Writer.empty = x at hb ⊢
  obtain ⟨wr, (_ | _ | _ | _)⟩ := x <;> simp at hb ⊢

/-- **C94**, when one of the files is damaged: the files before it are there, the program panics at the first damaged one,
and nothing else is touched: no `.bz2` file is changed, and the files behind it can still be decompressed. -/
theorem C94_bad_file (good : List Path) (bad : Path) (rest : List Path) (w : World) (env : Path → ArgEnv)
    (dec : Path → List UInt8) (badBytes : List UInt8) (hwf : WellFormed w.fs) (hnd : (good ++ [bad]).Nodup)
    (hnames : ∀ p ∈ good ++ [bad], ∃ dir name, p = dir ++ name ∧ FilePath dir name)
    (henv : ∀ p ∈ good ++ [bad], Undisturbed (env p) ∧ (env p).script = [])
    (hfree : ∀ p ∈ good ++ [bad], contentAt w.fs p = none)
    (hgood : ∀ p ∈ good, ∃ bytes, contentAt w.fs (withBz2 p) = some bytes ∧ decodeBytes bytes = Res.ok (dec p))
    (hthere : contentAt w.fs (withBz2 bad) = some badBytes)
    (hbad : decodeBytes badBytes = Res.err ∨ decodeBytes badBytes = Res.panic) :
    ∃ w', Command.decompress.main ((good ++ bad :: rest).map fun p => (withBz2 p, env p)) w = (w', Outcome.panic) ∧
      (∀ p ∈ good, contentAt w'.fs p = some (dec p)) ∧
      ∀ q, q ∉ good → q ≠ bad → contentAt w'.fs q = contentAt w.fs q := by
  let back : Path → Path := fun q => q.take (q.length - 4)
  have hback : ∀ p, back (withBz2 p) = p := by
    intro p
    simp [back, withBz2]
  have hn : ∀ p ∈ good ++ [bad], decompressName (withBz2 p) = p := by
    intro p hp
    obtain ⟨dir, name, rfl, hf⟩ := hnames p hp
    obtain ⟨h1, h2⟩ := C41_names_round_trip dir name hf
    rw [h1] at h2
    exact h2
  have hng : ∀ p ∈ good, decompressName (withBz2 p) = p := fun p hp => hn p (by simp [hp])
  have hnb : decompressName (withBz2 bad) = bad := hn bad (by simp)
  have hdn : (good.map withBz2).map Command.decompress.outName = good := by
    rw [List.map_map]
    conv => rhs; rw [← List.map_id good]
    exact List.map_congr_left hng
  obtain ⟨w1, d1, d2, d3, d4⟩ := main_content Command.decompress (fun q => env (back q)) (fun q => dec (back q))
    (good.map withBz2) w hwf (by
      intro q hq
      obtain ⟨p, hp, rfl⟩ := List.mem_map.1 hq
      obtain ⟨bytes, b1, b2⟩ := hgood p hp
      have he := henv p (by simp [hp])
      rw [hback, show Command.decompress.outName (withBz2 p) = p from hng p hp]
      exact ⟨he.1.alone, he.1.opens, he.1.creates, hfree p (by simp [hp]), bytes, b1,
        decompress_run false (env p) he.1 he.2 _ _ b2⟩)
    (by rw [hdn]; exact (List.nodup_append.1 hnd).1)
  rw [hdn] at d4
  have hb : bad ∉ good := fun hm => (List.nodup_append.1 hnd).2.2 bad hm bad (by simp) rfl
  have heb := henv bad (by simp)
  obtain ⟨part, hp⟩ := decompress_bad (env bad) heb.1 heb.2 badBytes hbad
  have hwb : withBz2 bad ∉ good := by
    intro hm
    have := hfree (withBz2 bad) (by simp [hm])
    rw [this] at hthere
    simp at hthere
  obtain ⟨w2, k1, -, k3, k4⟩ := one_content Command.decompress (env bad) (withBz2 bad) w1 badBytes part _ d2
    (by rw [d4 _ hwb]; exact hthere)
    (by rw [show Command.decompress.outName (withBz2 bad) = bad from hnb, d4 _ hb]; exact hfree bad (by simp))
    heb.1.alone heb.1.opens heb.1.creates hp
  rw [show Command.decompress.outName (withBz2 bad) = bad from hnb] at k4
  have harg : (good.map withBz2).map (fun q => (q, env (back q))) = good.map fun p => (withBz2 p, env p) := by
    rw [List.map_map]
    refine List.map_congr_left fun p _ => ?_
    rw [Function.comp, hback]
  rw [harg] at d1
  refine ⟨w2, ?_, ?_, ?_⟩
  · rw [List.map_append, main_append _ _ _ _ _ _ d1, if_pos rfl]
    simp only [List.map_cons, Command.main, k1]
  · intro p hp
    have h1 : p ≠ bad := fun h => hb (h ▸ hp)
    have := d3 (withBz2 p) (List.mem_map_of_mem hp)
    rw [show Command.decompress.outName (withBz2 p) = p from hng p hp, hback] at this
    rw [k4 p h1, this]
  · intro q h1 h2
    rw [k4 q h2, d4 q h1]

/-- Files `a` and `b`. -/
def filesAB (x y : List UInt8) : FileSys where
  dir := fun q => if q = [97] then some 0 else if q = [98] then some 1 else none
  data := fun i => if i = 0 then x else y
  next := 2

theorem calmReads_undisturbed : Undisturbed calmReads :=
  ⟨calmReads_ok.1, calmReads_ok.2, rfl, rfl, by intro e he; simp [calmReads, calm] at he⟩

theorem filesAB_many (x y : List UInt8) : ManyFiles [[97], [98]] (filesAB x y) where
  names := by
    intro p hp
    refine ⟨[], p, rfl, ?_⟩
    simp only [List.mem_cons, List.not_mem_nil, or_false] at hp
    rcases hp with rfl | rfl <;> exact ⟨Or.inl rfl, by decide, by decide, by decide, by decide⟩
  there := by
    intro p hp
    simp only [List.mem_cons, List.not_mem_nil, or_false] at hp
    rcases hp with rfl | rfl <;> simp [contentAt, filesAB]
  free := by
    intro p hp
    simp only [List.mem_cons, List.not_mem_nil, or_false] at hp
    rcases hp with rfl | rfl <;> simp [contentAt, filesAB, withBz2]
  different := by decide
  sane := by
    intro p i h
    simp only [filesAB] at h ⊢
    split at h
    · simp at h; omega
    · split at h
      · simp at h; omega
      · simp at h

/-- The hypotheses are met: two files. -/
example : ∃ w1 w2, (Command.compress 4 Strategy.single).main [([97], calmReads), ([98], calmReads)]
      ⟨filesAB [3, 2, 1] [7, 0], []⟩ = (w1, Outcome.ok) ∧
    Command.decompressRelease.main [([97, 46, 98, 122, 50], calmReads), ([98, 46, 98, 122, 50], calmReads)]
      (removeAll [[97], [98]] w1) = (w2, Outcome.ok) ∧
    contentAt w2.fs [97] = some [3, 2, 1] ∧ contentAt w2.fs [98] = some [7, 0] := by
  obtain ⟨w1, w2, h1, h2, h3⟩ := C94_many_round_trip true 4 (by omega) Strategy.single [[97], [98]]
    ⟨filesAB [3, 2, 1] [7, 0], []⟩ (filesAB_many _ _) (fun _ => calmReads) (fun _ => calmReads)
    (fun _ _ => calmReads_undisturbed) (fun _ _ => ⟨calmReads_undisturbed, rfl⟩) (by
      intro p hp d hd
      simp only [List.mem_cons, List.not_mem_nil, or_false] at hp
      rcases hp with rfl | rfl
      · have : d = [3, 2] ++ [1] := by simpa [contentAt, filesAB] using hd.symm
        subst this
        exact C01_round_trip_terminated_partial euclid [3, 2] 1 4 (by omega) (by simp) (by decide) (by decide)
      · have : d = [7] ++ [0] := by simpa [contentAt, filesAB] using hd.symm
        subst this
        exact C01_round_trip_terminated_partial euclid [7] 0 4 (by omega) (by simp) (by decide) (by decide))
  refine ⟨w1, w2, h1, h2, ?_, ?_⟩
  · rw [h3 [97] (by decide)]; rfl
  · rw [h3 [98] (by decide)]; rfl

/-- Files `a.bz2` and `b.bz2`. -/
def filesBz2 (x y : List UInt8) : FileSys where
  dir := fun q => if q = withBz2 [97] then some 0 else if q = withBz2 [98] then some 1 else none
  data := fun i => if i = 0 then x else y
  next := 2

/-- The hypotheses of `C94_bad_file` are met: `b.bz2` is empty; `a` comes back all the same, `c` is not looked at. -/
example : ∃ w', Command.decompress.main ((([[97]] ++ [98] :: [[99]] : List Path)).map fun p => (withBz2 p, calmReads))
      ⟨filesBz2 sampleA [], []⟩ = (w', Outcome.panic) ∧
    contentAt w'.fs [97] = some [97] ∧ contentAt w'.fs [97, 46, 98, 122, 50] = some sampleA := by
  obtain ⟨w', h1, h2, h3⟩ := C94_bad_file [[97]] [98] [[99]] ⟨filesBz2 sampleA [], []⟩ (fun _ => calmReads)
    (fun _ => [97]) [] (by
      intro p i h
      simp only [filesBz2] at h ⊢
      split at h
      · simp at h; omega
      · split at h
        · simp at h; omega
        · simp at h)
    (by decide) (by
      intro p hp
      refine ⟨[], p, rfl, ?_⟩
      simp only [List.cons_append, List.nil_append, List.mem_cons, List.not_mem_nil, or_false] at hp
      rcases hp with rfl | rfl <;> exact ⟨Or.inl rfl, by decide, by decide, by decide, by decide⟩)
    (fun _ _ => ⟨calmReads_undisturbed, rfl⟩) (by
      intro p hp
      simp only [List.cons_append, List.nil_append, List.mem_cons, List.not_mem_nil, or_false] at hp
      rcases hp with rfl | rfl <;> simp [contentAt, filesBz2, withBz2])
    (by
      intro p hp
      simp only [List.mem_cons, List.not_mem_nil, or_false] at hp
      subst hp
      exact ⟨sampleA, rfl, by decide +kernel⟩)
    rfl (Or.inl (by decide +kernel))
  exact ⟨w', h1, h2 [97] (by simp), by rw [h3 _ (by decide) (by decide)]; rfl⟩

end Ribzip2
