import Verif.Props.Options
import Verif.Props.BlockWiseRefuted
/- Property C51 with the subcommand `k-means`. -/
namespace Ribzip2
open Spec

/-- **C51 is false** also with `compress f k-means`, all options left at their defaults: 52 different bytes are
compressed with status 0, and `decompress` then fails. -/
theorem C51_refuted_kmeans (threads : Option Nat) (numCpus : Nat) (ht : ThreadsOk threads numCpus) :
    ∃ w1, tryMain numCpus (Opt.compress [[97]] threads (some (kMeansOf none none))) (fun _ => calmReads)
        ⟨oneFile (zigzag 51), []⟩ = (w1, Outcome.ok) ∧
      (tryMain numCpus (Opt.decompress [[97, 46, 98, 122, 50]]) (fun _ => calmReads) (remove [97] w1)).2
        = Outcome.panic := by
  obtain ⟨bytes, h1, h2⟩ := C28_refuted_gap (cliThreads threads numCpus) (threadsOk_pos ht)
  obtain ⟨w1, k1, k2, -⟩ := compress_decompress [] [97] ⟨Or.inl rfl, by decide, by decide, by decide, by decide⟩
    (cliThreads threads numCpus) (threadsOk_pos ht) (cliStrategy (some (kMeansOf none none)))
    ⟨oneFile (zigzag 51), []⟩ 0 bytes calmReads calmReads rfl rfl
    calmReads_ok.1 calmReads_ok.1 calmReads_ok.2 calmReads_ok.2 ⟨rfl, rfl⟩ ⟨rfl, rfl⟩
    (by intro e he; simp [calmReads, calm] at he) rfl h1
  exact ⟨w1, k1, k2 (Or.inl h2)⟩

end Ribzip2
