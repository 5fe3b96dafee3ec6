import Verif.Props.ManyFiles
import Verif.Props.Injective
/- Property C58 for files: copies can be found among compressed files without decompressing them. -/
namespace Ribzip2
open Spec

/-- **C58** at the command line: after one `compress` command with many files (single table, any number of threads),
undisturbed, two of the `.bz2` files hold the same exactly if the two files do. -/
theorem C58_same_files (threads : Nat) (ht : 1 ≤ threads) (ps : List Path) (w : World) (h : ManyFiles ps w.fs)
    (env : Path → ArgEnv) (he : ∀ p ∈ ps, Undisturbed (env p)) :
    ∃ w', (Command.compress threads Strategy.single).main (ps.map fun p => (p, env p)) w = (w', Outcome.ok) ∧
      ∀ p ∈ ps, ∀ q ∈ ps, contentAt w'.fs (withBz2 p) = contentAt w'.fs (withBz2 q) ↔
        contentAt w.fs p = contentAt w.fs q := by
  obtain ⟨enc, hout⟩ : ∃ enc : List UInt8 → List UInt8, ∀ d,
      encodeBytes euclid d threads Strategy.single = Res.ok (enc d) :=
    ⟨fun d => (C39_always_succeeds euclid d threads ht).choose,
      fun d => (C39_always_succeeds euclid d threads ht).choose_spec⟩
  obtain ⟨w', h1, -, h3, -⟩ := C94_compress_many threads ht Strategy.single ps w h env he
    (fun p => enc ((contentAt w.fs p).getD [])) fun p hp d hd => by rw [hd]; exact hout d
  refine ⟨w', h1, fun p hp q hq => ?_⟩
  rw [h3 p hp, h3 q hq]
  rcases hd : contentAt w.fs p with _ | d
  · exact absurd hd (h.there p hp)
  rcases hd' : contentAt w.fs q with _ | d'
  · exact absurd hd' (h.there q hq)
  simp only [Option.getD_some, Option.some.injEq]
  constructor
  · intro e
    exact C58_encoder_is_injective euclid euclid d d' threads threads ht ht (enc d) (hout d) (e ▸ hout d')
  · rintro rfl
    rfl

/-- The hypotheses are met: two files with different contents, one of which `decompress` does not restore
(`C51_refuted`); their compressed forms differ all the same. -/
example : ∃ w', (Command.compress 4 Strategy.single).main [([97], calmReads), ([98], calmReads)]
      ⟨filesAB [65, 46, 10, 10, 66, 46, 10] [7, 0], []⟩ = (w', Outcome.ok) ∧
    contentAt w'.fs [97, 46, 98, 122, 50] ≠ contentAt w'.fs [98, 46, 98, 122, 50] := by
  obtain ⟨w', h1, h2⟩ := C58_same_files 4 (by omega) [[97], [98]]
    ⟨filesAB [65, 46, 10, 10, 66, 46, 10] [7, 0], []⟩ (filesAB_many _ _) (fun _ => calmReads)
    (fun _ _ => calmReads_undisturbed)
  refine ⟨w', h1, fun h => ?_⟩
  have := (h2 [97] (by simp) [98] (by simp)).1 h
  simp [contentAt, filesAB] at this

end Ribzip2
