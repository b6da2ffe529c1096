import Verif.Model.StatDict

/-!
# Model of `IntVGramBuilderImpl`

core/src/main/cpp/algorithm/int_vgram_builder.h, int_vgram_builder_p.h, int_vgram_builder_p.cc
-/

namespace VGram

/-- The data members of `IntVGramBuilderImpl`, int_vgram_builder_p.h:38-48.
`current_` and `result_` are `shared_ptr`s and may be equal, so the statistics dictionaries
live in an append-only heap `stats` and the pointers are indices into it.  Not modelled: `verbose_`. -/
structure Builder (F : Type) where
  size : Int
  symbAlphabet : List IntSeq
  stats : List (StatDict F)
  current : Nat
  result : Option Nat
  populate : Bool
  probFound : F
  bestRate : F
  noRate : Int
  deriving DecidableEq

namespace Builder

variable {F : Type}

/-- `StatDictImpl::kMaxMinProbability = 0.002` stat_dict_p.h:20. -/
def kMaxMinProbability (O : FloatOps F) : F := O.lit 2 3

/-- `IntVGramBuilderImpl(int size, int verbose)` int_vgram_builder_p.cc:10-16, with the member
initialisers of int_vgram_builder_p.h:42-46. -/
def new (O : FloatOps F) (size : Int) : Builder F :=
  ⟨size, [], [StatDict.new (kMaxMinProbability O)], 0, none, true, O.lit 1 1, O.ofInt 1, 0⟩

/-- `IntVGramBuilderImpl(const IntDict&, int, int)` and `init`, int_vgram_builder_p.cc:18-20, 39-45. -/
def ofAlphabet (O : FloatOps F) (alphabet : IntDict) (size : Int) : M (Builder F) := do
  let s ← StatDict.ofSeqs alphabet.seqs (kMaxMinProbability O) none
  pure ⟨size, alphabet.seqs, [s], 0, none, true, O.lit 1 1, O.ofInt 1, 0⟩

/-- `IntVGramBuilderImpl(const IntSeq&, int, int)` int_vgram_builder_p.cc:22-25. -/
def ofSymbols (O : FloatOps F) (alphabet : IntSeq) (size : Int) : M (Builder F) := do
  let d ← IntDict.initSymbols alphabet
  ofAlphabet O d size

/-- `IntVGramBuilderImpl(dict, freqs, alphabet, min_probability, verbose)` int_vgram_builder_p.cc:27-37. -/
def ofSaved (O : FloatOps F) (dict : IntDict) (freqs : List Int) (alphabet : List IntSeq) (minProb : F) :
    M (Builder F) := do
  let s ← StatDict.ofSeqs dict.seqs minProb (some freqs)
  pure ⟨(dict.size : Int), alphabet, [s], 0, some 0, true, O.lit 1 1, O.ofInt 1, 0⟩

/-- `*current_`. -/
def cur (b : Builder F) : M (StatDict F) := rd b.stats (b.current : Int)

/-- The object whose `dict_` is returned by `result()`, int_vgram_builder_p.cc:47-49. -/
def resultIdx (b : Builder F) : Nat :=
  match b.result with
  | some i => i
  | none => b.current

/-- `IntVGramBuilderImpl::alpha` int_vgram_builder_p.cc:51-56. -/
def alpha (b : Builder F) : M IntDict := do
  let s ← rd b.stats (b.resultIdx : Int)
  IntDict.init s.dict.seqs

/-- `enough(prob_found_) || power_ > kMaxPower` int_vgram_builder_p.cc:61, 67; int_vgram_builder.h:14. -/
def ready (O : FloatOps F) (b : Builder F) (s : StatDict F) : Bool :=
  s.enough O b.probFound || decide ((20000000 : Int) < s.power)

/-- The loop over the words computing `sum` and `text_length`, int_vgram_builder_p.cc:69-76. -/
def rateLoop (O : FloatOps F) (s : StatDict F) : List Nat → F → Int → M (F × Int)
  | [], sum, tl => .ok (sum, tl)
  | i :: rest, sum, tl => do
    let f := s.freq (i : Int)
    let w ← s.dict.get (i : Int)
    let sum' := if 0 < f then O.sub sum (O.div (StatDict.xlogx O f) (O.log (O.ofInt 2))) else sum
    rateLoop O s rest sum' (tl + (w.length : Int) * f)

/-- `compression_rate` int_vgram_builder_p.cc:77-78. -/
def compressionRate (O : FloatOps F) (s : StatDict F) : M F := do
  let (sum, tl) ← rateLoop O s (List.range s.size) (O.ofInt 0) 0
  let codeLength := O.div (O.add sum (O.div (StatDict.xlogx O s.power) (O.log (O.ofInt 2)))) (O.ofInt 8)
  pure (O.div codeLength (O.ofInt tl))

/-- The loop extending `symb_alphabet_`, int_vgram_builder_p.cc:108-116; `n` is `alpha_accum_num`,
the result are the words pushed. -/
def newSymbols (d : IntDict) (alphabetSize : Nat) : List Nat → Nat → M (List IntSeq)
  | [], _ => .ok []
  | i :: rest, n => do
    let p ← d.parent (i : Int)
    if p < 0 then
      if alphabetSize < n then do
        let w ← d.get (i : Int)
        let ws ← newSymbols d alphabetSize rest (n + 1)
        pure (w :: ws)
      else newSymbols d alphabetSize rest (n + 1)
    else newSymbols d alphabetSize rest n

/-- The number of slots for an expansion, int_vgram_builder_p.cc:95-99; `kExtensionFactor = 1.3`
int_vgram_builder.h:13. -/
def expandSlots (O : FloatOps F) (b : Builder F) (s : StatDict F) : Int :=
  let scaled := O.mul (O.ofInt (s.size : Int)) (O.lit 13 1)
  if O.lt scaled (O.ofInt 10) then b.size - (b.symbAlphabet.length : Int) else O.trunc scaled

/-- Adjusting `best_compression_rate_`, `no_rate_increase_turns_` and `prob_found_`,
int_vgram_builder_p.cc:79-84. -/
def noteRate (O : FloatOps F) (b : Builder F) (rate : F) : Builder F :=
  if O.lt rate b.bestRate then { b with bestRate := rate, noRate := 0 }
  else if 3 < b.noRate + 1 then { b with noRate := b.noRate + 1, probFound := O.mul b.probFound (O.lit 8 1) }
  else { b with noRate := b.noRate + 1 }

/-- The new word list of an update, int_vgram_builder_p.cc:90-105. -/
def rebuild (E : Env F) (b : Builder F) (s : StatDict F) : M (List IntSeq × List Int × F) :=
  if b.populate then s.expand E (b.expandSlots E.ops s)
  else s.reduce E (b.size - (b.symbAlphabet.length : Int))

/-- `IntVGramBuilderImpl::update` int_vgram_builder_p.cc:66-118. -/
def update (E : Env F) (b : Builder F) : M (Builder F) := do
  let O := E.ops
  let s ← b.cur
  if !(b.ready O s) then pure b
  else do
    let rate ← compressionRate O s
    let b1 := b.noteRate O rate
    let alphabetSize := b.symbAlphabet.length
    let (words, freqs, mp) ← b.rebuild E s
    let s' ← StatDict.ofSeqs words mp (some freqs)
    let fresh ← newSymbols s'.dict alphabetSize (List.range s'.size) 0
    pure { b1 with
      stats := b.stats ++ [s']
      current := b.stats.length
      result := if b.populate then b.result else some b.stats.length
      symbAlphabet := b.symbAlphabet ++ fresh
      populate := !b.populate }

/-- `IntVGramBuilderImpl::accept` int_vgram_builder_p.cc:58-64. -/
def accept (E : Env F) (b : Builder F) (seq : IntSeq) : M (Builder F) := do
  let s ← b.cur
  let (s', _, _) ← s.parse E.ops seq []
  let b' := { b with stats := b.stats.set b.current s' }
  if b'.ready E.ops s' then b'.update E else pure b'

/-- `IntVGramBuilderImpl::result_freqs` int_vgram_builder_p.cc:120-137: extends the statistics of
the published dictionary (without touching `parse_freqs_`) and *appends* them to `freqs`. -/
def resultFreqs (b : Builder F) (freqs : List Int) : M (Builder F × List Int) := do
  let s ← rd b.stats (b.resultIdx : Int)
  let sf := StatDict.padTo s.symbolFreqs s.size
  pure ({ b with stats := b.stats.set b.resultIdx { s with symbolFreqs := sf } }, freqs ++ sf)

/-- `IntVGramBuilderImpl::code_length` int_vgram_builder_p.cc:139-141. -/
def codeLength (O : FloatOps F) (b : Builder F) : M F :=
  match b.result with
  | none => .error .nullDeref
  | some i => do
    let s ← rd b.stats (i : Int)
    pure (s.codeLengthPerChar O)

/-- `IntVGramBuilderImpl::get_min_probability` int_vgram_builder_p.cc:143-145. -/
def getMinProbability (O : FloatOps F) (b : Builder F) : M F :=
  match b.result with
  | none => .ok (O.ofInt (-1))
  | some i => do
    let s ← rd b.stats (i : Int)
    pure s.minProb

end Builder

end VGram
