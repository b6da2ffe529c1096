import Verif.Spec.Learn

/-!
# Environments that differ only in what the C++ standard leaves open

The iteration order of the hash table `pairs_freqs_` and the order in which `std::sort` leaves items with equal scores.
-/

namespace VGram.Spec

variable {F : Type}

/-- The same arithmetic and the same random variates. -/
def SameNumbers (E E' : Env F) : Prop := E'.ops = E.ops ∧ E'.gammas = E.gammas

/-- The hash table is visited the other way round. -/
def backwardHash (E : Env F) : Env F := { E with pairOrder := fun p => (E.pairOrder p).reverse }

/-- The items are reversed before they are sorted, so that a stable sort leaves equal items in the opposite order. -/
def backwardTies (E : Env F) : Env F := { E with sortItems := fun l => E.sortItems l.reverse }

/-- The variates are the expected values of the distributions, so that a score is the plain estimate from the counts. -/
def meanVariates (E : Env F) : Env F := { E with gammas := fun ps i => (ps[i]?).getD (E.ops.ofInt 1) }

def backwardHash_laws {E : Env F} (L : EnvLaws E) : EnvLaws (backwardHash E) :=
  { L with order := fun p => (List.reverse_perm _).trans (L.order p) }

def backwardTies_laws {E : Env F} (L : EnvLaws E) : EnvLaws (backwardTies E) :=
  { L with
    sort := fun l h => by
      obtain ⟨a, b⟩ := L.sort l.reverse fun x hx => h x (List.mem_reverse.1 hx)
      exact ⟨a.trans (List.reverse_perm _), b⟩ }

def meanVariates_laws {E : Env F} (L : EnvLaws E) : EnvLaws (meanVariates E) :=
  { L with
    gamma := fun ns _ h i _ => by
      show L.Pos 160 (((ns.map E.ops.ofInt)[i]?).getD (E.ops.ofInt 1))
      rw [List.getElem?_map]
      cases e : ns[i]? with
      | none => exact L.monoPos (by omega) L.one
      | some n => exact L.monoPos (by omega) (L.intPos n (h n (List.mem_of_getElem? e))) }

/-- The score of a pair of ids, from the counts of adjacent ids. -/
def scoreOfPair (E : Env F) (outs : List (List Int)) (k : Int × Int) : M F :=
  let f : Int := followed outs k.1 k.2
  let l : Int := leading outs k.1
  let t : Int := trailing outs k.2
  StatDict.pairScore E f f (l - f) (t - f) ((pairsOf outs).length - l - t + f)

/-- The score of a word: what its best replacement by other used words would cost. -/
def scoreOfWord (O : FloatOps F) (s : StatDict F) (n : Nat) : M F := do
  let unused ← s.unusedIds (List.range s.size)
  let w ← s.dict.get (n : Int)
  let alt ← StatDict.weightedParse O s.dict w s.symbolFreqs s.power ((n : Int) :: unused)
  pure (s.itemScore O (O.mul (s.codeLengthPerChar O) (O.ofInt s.totalChars)) (s.freq (n : Int)) alt)

/-- The two scores are ordered by the comparator of the sort. -/
def Apart (O : FloatOps F) (x y : F) : Prop := O.lt (O.neg x) (O.neg y) = true ∨ O.lt (O.neg y) (O.neg x) = true

/-- Two outcomes of a rebuild with the same words, the same count for each and the same minimal probability, listed in a
possibly different order. -/
def SameSelection (a b : M (List IntSeq × List Int × F)) : Prop :=
  ∃ words freqs words' freqs' mp, a = .ok (words, freqs, mp) ∧ b = .ok (words', freqs', mp) ∧
    words.length = freqs.length ∧ words'.length = freqs'.length ∧ (words.zip freqs).Perm (words'.zip freqs')

end VGram.Spec
