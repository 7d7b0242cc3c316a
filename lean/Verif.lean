import Verif.Model.Base64
import Verif.Model.Basic
import Verif.Model.Batch
import Verif.Model.BinaryHeap
import Verif.Model.Cli
import Verif.Model.Cost
import Verif.Model.CostLattice
import Verif.Model.CostTrain
import Verif.Model.Counting
import Verif.Model.EvalAll
import Verif.Model.ExactRegex
import Verif.Model.Filter
import Verif.Model.Flags
import Verif.Model.Float64
import Verif.Model.Float64Train
import Verif.Model.Generate
import Verif.Model.GenerateBytes
import Verif.Model.Json
import Verif.Model.Lattice
import Verif.Model.Marginal
import Verif.Model.Merge
import Verif.Model.Messages
import Verif.Model.Mine
import Verif.Model.Model
import Verif.Model.NBest
import Verif.Model.Number64
import Verif.Model.Parallel
import Verif.Model.Patterns
import Verif.Model.Plots
import Verif.Model.Processor
import Verif.Model.Progress
import Verif.Model.Prune
import Verif.Model.PruneCount
import Verif.Model.Python
import Verif.Model.Recipes
import Verif.Model.Regex
import Verif.Model.Scripts
import Verif.Model.Serde
import Verif.Model.Shrink
import Verif.Model.Sort
import Verif.Model.Sources
import Verif.Model.SplitterBytes
import Verif.Model.Task
import Verif.Model.TaskRelaxed
import Verif.Model.Tokenizer
import Verif.Model.TrainBpe
import Verif.Model.Trie
import Verif.Model.U32
import Verif.Model.Utf8
import Verif.Proofs.Base64
import Verif.Proofs.Batch
import Verif.Proofs.BinaryHeap
import Verif.Proofs.BinaryHeap2
import Verif.Proofs.Chance
import Verif.Proofs.ClassText
import Verif.Proofs.Cli
import Verif.Proofs.Cost
import Verif.Proofs.CostLattice
import Verif.Proofs.CountF64
import Verif.Proofs.Counting
import Verif.Proofs.Determined
import Verif.Proofs.Determined2
import Verif.Proofs.Digamma
import Verif.Proofs.DigammaF64
import Verif.Proofs.DigammaTailF64
import Verif.Proofs.Dropout
import Verif.Proofs.EM
import Verif.Proofs.EM2
import Verif.Proofs.EM3
import Verif.Proofs.EM4
import Verif.Proofs.EStepF64
import Verif.Proofs.Encode
import Verif.Proofs.Feed
import Verif.Proofs.Filter
import Verif.Proofs.Flags
import Verif.Proofs.Float64
import Verif.Proofs.Generate
import Verif.Proofs.GenerateBytes
import Verif.Proofs.GenerateF64
import Verif.Proofs.IntNumbers
import Verif.Proofs.Json
import Verif.Proofs.JsonFuel
import Verif.Proofs.JsonGrammar
import Verif.Proofs.JsonPrefix
import Verif.Proofs.JsonText
import Verif.Proofs.Lattice
import Verif.Proofs.Loader
import Verif.Proofs.LogF64
import Verif.Proofs.LogSumExp
import Verif.Proofs.LossF64
import Verif.Proofs.LseF64
import Verif.Proofs.Marginal
import Verif.Proofs.Marginal2
import Verif.Proofs.MarginalAny
import Verif.Proofs.MarginalF64
import Verif.Proofs.Merge
import Verif.Proofs.Merge2
import Verif.Proofs.MergeDup
import Verif.Proofs.ModelWF
import Verif.Proofs.Monad
import Verif.Proofs.NBest
import Verif.Proofs.NBest2
import Verif.Proofs.NBest3
import Verif.Proofs.NBestFirst
import Verif.Proofs.NBestFirstF64
import Verif.Proofs.NBestNear
import Verif.Proofs.NearF64
import Verif.Proofs.Number64
import Verif.Proofs.Parallel
import Verif.Proofs.ParallelFold
import Verif.Proofs.PatternText
import Verif.Proofs.Patterns
import Verif.Proofs.Progress
import Verif.Proofs.Prune
import Verif.Proofs.Prune2
import Verif.Proofs.Prune3
import Verif.Proofs.Prune4
import Verif.Proofs.PruneCount
import Verif.Proofs.PruneFuel
import Verif.Proofs.Psi
import Verif.Proofs.PsiLip
import Verif.Proofs.Python
import Verif.Proofs.Reading
import Verif.Proofs.Regex
import Verif.Proofs.RegexText
import Verif.Proofs.Reread
import Verif.Proofs.Reread2
import Verif.Proofs.ReturnsF64
import Verif.Proofs.Rounding
import Verif.Proofs.Rounding2
import Verif.Proofs.Runs
import Verif.Proofs.Serde
import Verif.Proofs.Shortest
import Verif.Proofs.Shrink
import Verif.Proofs.Sources
import Verif.Proofs.Split
import Verif.Proofs.SplitterBytes
import Verif.Proofs.SpreadF64
import Verif.Proofs.Stable
import Verif.Proofs.StableCore
import Verif.Proofs.TablesF64
import Verif.Proofs.Task
import Verif.Proofs.TaskRelaxed
import Verif.Proofs.Ties
import Verif.Proofs.Tokenizer
import Verif.Proofs.Trie
import Verif.Proofs.U32
import Verif.Proofs.Utf8
import Verif.Proofs.Viterbi
import Verif.Proofs.WrittenScores
import Verif.Props.Base64
import Verif.Props.Batch
import Verif.Props.BinaryHeap
import Verif.Props.Cli
import Verif.Props.CliHistory
import Verif.Props.Concat
import Verif.Props.Cost
import Verif.Props.CostLattice
import Verif.Props.CostTrain
import Verif.Props.CountF64
import Verif.Props.Counting
import Verif.Props.Datagen
import Verif.Props.DefaultVocab
import Verif.Props.Distinct
import Verif.Props.Dropout
import Verif.Props.EM
import Verif.Props.EncodePieces
import Verif.Props.EvalAll
import Verif.Props.EvalScripts
import Verif.Props.ExactRegex
import Verif.Props.Filter
import Verif.Props.FindScripts
import Verif.Props.Flags
import Verif.Props.Float64
import Verif.Props.Float64Ops
import Verif.Props.Framing
import Verif.Props.Generate
import Verif.Props.GenerateBytes
import Verif.Props.GenerateF64
import Verif.Props.History
import Verif.Props.Infilling
import Verif.Props.InsertChance
import Verif.Props.JsonGrammar
import Verif.Props.Lattice
import Verif.Props.Likelihood
import Verif.Props.Lines
import Verif.Props.Locality
import Verif.Props.LogSumExp
import Verif.Props.LseF64
import Verif.Props.Marginal
import Verif.Props.MarginalF64
import Verif.Props.Merge
import Verif.Props.MergeDefault
import Verif.Props.MergeLength
import Verif.Props.Messages
import Verif.Props.Model
import Verif.Props.Monotone
import Verif.Props.NBest
import Verif.Props.NBestAny
import Verif.Props.Number64
import Verif.Props.Overflow
import Verif.Props.PatternLines
import Verif.Props.PatternText
import Verif.Props.Plots
import Verif.Props.Processor
import Verif.Props.Progress
import Verif.Props.Prune
import Verif.Props.PruneF64
import Verif.Props.PruneLossF64
import Verif.Props.PruneOnly
import Verif.Props.PrunePanic
import Verif.Props.PrunePanicF64
import Verif.Props.Python
import Verif.Props.Reading
import Verif.Props.RecipeFlags
import Verif.Props.Recipes
import Verif.Props.Reestimate
import Verif.Props.ReestimateF64
import Verif.Props.Regex
import Verif.Props.Relative
import Verif.Props.RelativeF64
import Verif.Props.Reproducible
import Verif.Props.ReturnsF64
import Verif.Props.Rounding
import Verif.Props.Serde
import Verif.Props.Shrink
import Verif.Props.Size
import Verif.Props.Sources
import Verif.Props.Spared
import Verif.Props.SplitterBytes
import Verif.Props.Stable
import Verif.Props.Streaming
import Verif.Props.Task
import Verif.Props.TaskRelaxed
import Verif.Props.Tokenizer
import Verif.Props.TrainBpe
import Verif.Props.TrainF64
import Verif.Props.TrainingTexts
import Verif.Props.U32
import Verif.Props.UnitTests
import Verif.Props.WrittenFiles
import Verif.Spec.Base64
import Verif.Spec.BinaryHeap
import Verif.Spec.Chance
import Verif.Spec.Cli
import Verif.Spec.Concat
import Verif.Spec.Counting
import Verif.Spec.Crlf
import Verif.Spec.Dropout
import Verif.Spec.EM
import Verif.Spec.EMF64
import Verif.Spec.ExactRegex
import Verif.Spec.Flags
import Verif.Spec.Float64
import Verif.Spec.Framing
import Verif.Spec.Generate
import Verif.Spec.History
import Verif.Spec.Json
import Verif.Spec.JsonGrammar
import Verif.Spec.Lattice
import Verif.Spec.Likelihood
import Verif.Spec.Lines
import Verif.Spec.LogF64
import Verif.Spec.MarginalF64
import Verif.Spec.Merge
import Verif.Spec.NBest
import Verif.Spec.Number64
import Verif.Spec.Overflow
import Verif.Spec.PatternText
import Verif.Spec.Patterns
import Verif.Spec.Prune
import Verif.Spec.PruneF64
import Verif.Spec.Psi
import Verif.Spec.Python
import Verif.Spec.Reading
import Verif.Spec.Real
import Verif.Spec.RealTraining
import Verif.Spec.Recipes
import Verif.Spec.Regex
import Verif.Spec.Reload
import Verif.Spec.Rounding
import Verif.Spec.Scripts
import Verif.Spec.Segmentation
import Verif.Spec.Serde
import Verif.Spec.Sources
import Verif.Spec.Split
import Verif.Spec.Tokenizer
import Verif.Spec.TrainF64
import Verif.Spec.Training
import Verif.Audit
