import Verif.Proofs.Banana
import Verif.Props.Crc
import Verif.Props.Decode
import Verif.Props.Rle
import Verif.Props.Stages
import Verif.Props.Huffman
import Verif.Props.Bwt
import Verif.Props.Stream
import Verif.Props.Format
import Verif.Props.RoundTrip
import Verif.Props.Threads
import Verif.Props.BlockWise
import Verif.Props.BlockWiseRefuted
import Verif.Props.Cli
import Verif.Props.Size
import Verif.Props.Robust
import Verif.Props.Injective
import Verif.Props.InjectiveFiles
import Verif.Props.Resources
import Verif.Props.Append
import Verif.Props.Release
import Verif.Props.Position
import Verif.Props.Eof
import Verif.Props.ValidExact
import Verif.Props.Panic
import Verif.Props.Options
import Verif.Props.OptionsRefuted
import Verif.Props.KMeans
import Verif.Props.SizeOptimal
import Verif.Props.Writers
import Verif.Props.Recover
import Verif.Props.TableCount
import Verif.Props.ReadErrors
import Verif.Props.Ieee
import Verif.Proofs.Killed
import Verif.Props.Killed
import Verif.Proofs.Parallel
import Verif.Props.Parallel
import Verif.Proofs.CrcOrder
import Verif.Proofs.Fields
import Verif.Props.Fields
import Verif.Proofs.Depth
import Verif.Props.Depth
import Verif.Model.HashOrder
import Verif.Model.Steps
import Verif.Proofs.Steps
import Verif.Props.HashOrder
import Verif.Props.Steps
import Verif.Model.StepsBlock
import Verif.Proofs.StepsBlock
import Verif.Proofs.StepsHuffman
import Verif.Proofs.StepsStats
import Verif.Proofs.StepsEmit
import Verif.Props.StepsBlock
import Verif.Proofs.Truncate
import Verif.Proofs.TruncateRelease
import Verif.Props.Truncate
import Verif.Props.ValidStreams
import Verif.Proofs.Surplus
import Verif.Props.Surplus
import Verif.Model.StepsDecode
import Verif.Proofs.StepsDecode
import Verif.Proofs.StepsDecodeBound
import Verif.Props.StepsDecode
import Verif.Model.StepsStream
import Verif.Proofs.StepsStream
import Verif.Props.StepsStream
import Verif.Model.Messages
import Verif.Proofs.Messages
import Verif.Props.Messages
import Verif.Props.DocName
import Verif.Model.CliMessages
import Verif.Props.CliMessages
import Verif.Proofs.TextFiles
import Verif.Props.TextFiles
import Verif.Spec.Strict
import Verif.Proofs.Strict
import Verif.Props.Strict
import Verif.Spec.StrictRelease
import Verif.Proofs.StrictRelease
import Verif.Props.StrictRelease
import Verif.Props.SelfContained
import Verif.Model.Word
import Verif.Proofs.WordHuffman
import Verif.Proofs.WordEncode
import Verif.Proofs.WordStream
import Verif.Proofs.WordDecode
import Verif.Props.Word
import Verif.Model.Calls
import Verif.Proofs.Calls
import Verif.Props.Calls
import Verif.Model.Together
import Verif.Spec.Together
import Verif.Proofs.Together
import Verif.Proofs.TogetherApart
import Verif.Proofs.TogetherSame
import Verif.Props.Together
import Verif.Props.Pace
import Verif.Props.ReleaseRobust
import Verif.Props.CliRelease
import Verif.Props.Unreadable
import Verif.Props.ManyFiles
import Verif.Props.Interrupted
import Verif.Props.Links
