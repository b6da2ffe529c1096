import Verif.Model.Basic
import Verif.Model.IntDict
import Verif.Model.StatDict
import Verif.Model.Builder
import Verif.Model.SeqCoder
import Verif.Model.Tokenizer
import Verif.Model.Stream
import Verif.Model.StringVGram
import Verif.Model.Persist
import Verif.Model.JsonText
import Verif.Model.Misc
import Verif.Model.PairKey
import Verif.Spec.Parse
import Verif.Spec.Score
import Verif.Spec.Instances
import Verif.Spec.Count
import Verif.Spec.Env
import Verif.Spec.Codes
import Verif.Spec.Decimal
import Verif.Spec.Text
import Verif.Spec.Gain
import Verif.Spec.Learn
import Verif.Spec.Patience
import Verif.Spec.Schedule
import Verif.Spec.Readme
import Verif.Spec.Rounded
import Verif.Spec.Finite
import Verif.Proofs.Basic
import Verif.Proofs.Order
import Verif.Proofs.Init
import Verif.Proofs.Search
import Verif.Proofs.Linear
import Verif.Proofs.Weighted
import Verif.Proofs.Optimal
import Verif.Proofs.Fits
import Verif.Proofs.Stat
import Verif.Proofs.StatParse
import Verif.Proofs.Healthy
import Verif.Proofs.Expand
import Verif.Proofs.Reduce
import Verif.Proofs.MinProb
import Verif.Proofs.Gain
import Verif.Proofs.ExpandShape
import Verif.Proofs.Builder
import Verif.Proofs.Coder
import Verif.Proofs.Tokenizer
import Verif.Proofs.Stream
import Verif.Proofs.Decimal
import Verif.Proofs.IntVGram
import Verif.Proofs.Text
import Verif.Proofs.Persist
import Verif.Proofs.JsonLex
import Verif.Proofs.JsonNum
import Verif.Proofs.JsonParse
import Verif.Proofs.JsonValue
import Verif.Proofs.Utf8
import Verif.Proofs.Saved
import Verif.Proofs.Patience
import Verif.Proofs.Bounds
import Verif.Spec.Loading
import Verif.Proofs.Loading
import Verif.Props.Dict
import Verif.Props.DictReal
import Verif.Props.Stat
import Verif.Props.Expand
import Verif.Props.Builder
import Verif.Props.Train
import Verif.Props.CodeLength
import Verif.Props.Learn
import Verif.Props.Gain
import Verif.Props.Patience
import Verif.Props.Bounds
import Verif.Props.Counts
import Verif.Props.Publish
import Verif.Props.Coder
import Verif.Props.Tokenizer
import Verif.Props.Stream
import Verif.Props.StreamBest
import Verif.Props.Rounded
import Verif.Props.IntVGram
import Verif.Props.Text
import Verif.Props.Persist
import Verif.Props.PersistText
import Verif.Props.JsonText
import Verif.Props.File
import Verif.Props.Loading
import Verif.Props.Format
import Verif.Model.Grisu
import Verif.Model.Double
import Verif.Spec.Double
import Verif.Proofs.Grisu
import Verif.Proofs.Double
import Verif.Props.Double
import Verif.Spec.Repro
import Verif.Proofs.Repro
import Verif.Props.Reproduce
import Verif.Spec.Ieee
import Verif.Proofs.Ieee
import Verif.Props.Ieee
import Verif.Props.IeeeBest
import Verif.Props.Schedule
import Verif.Props.Computed
import Verif.Props.UnitTests
import Verif.Props.Readme
import Verif.Model.CodeMap
import Verif.Props.CodeMap
import Verif.Model.Gamma
import Verif.Spec.Gamma
import Verif.Proofs.Gamma
import Verif.Props.Gamma
import Verif.Model.Narrow
import Verif.Spec.Narrow
import Verif.Proofs.Narrow
import Verif.Props.Narrow
import Verif.Model.HashTable
import Verif.Proofs.HashTable
import Verif.Props.HashTable
import Verif.Spec.Sign
import Verif.Proofs.Sign
import Verif.Props.Sign
import Verif.Spec.Sort
import Verif.Model.Sort
import Verif.Proofs.Sort
import Verif.Props.Sort
import Verif.Spec.Grammar
import Verif.Proofs.GrammarString
import Verif.Proofs.GrammarNumber
import Verif.Proofs.GrammarParse
import Verif.Proofs.GrammarSound
import Verif.Props.Grammar
import Verif.Props.Misc
import Verif.Props.Axioms
import Verif.Props.Interrupt
