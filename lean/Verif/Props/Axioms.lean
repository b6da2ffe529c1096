import Lean.Elab.Command
import Lean.Util.CollectAxioms
import Verif.Props.DictReal
import Verif.Props.Stat
import Verif.Props.Expand
import Verif.Props.Train
import Verif.Props.CodeLength
import Verif.Props.Learn
import Verif.Props.Gain
import Verif.Props.Coder
import Verif.Props.Tokenizer
import Verif.Props.Stream
import Verif.Props.StreamBest
import Verif.Props.Rounded
import Verif.Props.Patience
import Verif.Props.Bounds
import Verif.Props.Counts
import Verif.Props.Publish
import Verif.Props.IntVGram
import Verif.Props.Text
import Verif.Props.Persist
import Verif.Props.PersistText
import Verif.Props.JsonText
import Verif.Props.File
import Verif.Props.Loading
import Verif.Props.Format
import Verif.Props.Double
import Verif.Props.Interrupt
import Verif.Props.Reproduce
import Verif.Props.Ieee
import Verif.Props.IeeeBest
import Verif.Props.Schedule
import Verif.Props.Computed
import Verif.Props.UnitTests
import Verif.Props.Readme
import Verif.Props.CodeMap
import Verif.Props.Gamma
import Verif.Props.Narrow
import Verif.Props.HashTable
import Verif.Props.Sign
import Verif.Props.Sort
import Verif.Props.Grammar
import Verif.Props.Misc

/-!
# Axiom check

Fails to compile if a theorem of `VGram.Props` depends on anything but the three standard axioms.
-/

namespace VGram.Props

open Lean Elab Command

elab "#check_axioms" : command => do
  let env ← getEnv
  let names := env.constants.fold (init := #[]) fun acc n _ =>
    if (`VGram.Props).isPrefixOf n && !n.isInternal then acc.push n else acc
  for n in names do
    let axs ← collectAxioms n
    for a in axs do
      unless a == ``propext || a == ``Classical.choice || a == ``Quot.sound do
        throwError "{n} depends on axiom {a}"

#check_axioms

end VGram.Props
