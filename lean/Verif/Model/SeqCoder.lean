import Verif.Model.Basic

/-!
# Model of `SeqCoder`

core/src/main/cpp/interfaces/seq_coder.h, seq_coder.cc
-/

namespace VGram

/-- `forward_code_`, `backward_code_` of `SeqCoder`, seq_coder.h:25-26. -/
structure SeqCoder where
  forward : AMap Int Int
  backward : AMap Int Int
  deriving DecidableEq, Repr

namespace SeqCoder

/-- `SeqCoder::SeqCoder()` seq_coder.cc:12-15. -/
def new : SeqCoder := ⟨[], []⟩

/-- One iteration of the loop of `encode`, seq_coder.cc:20-25: the new state and the pushed code. -/
def encodeOne (c : SeqCoder) (symbol : Int) : SeqCoder × Int :=
  match c.forward.get? symbol with
  | some k => (c, k)
  | none =>
    let size : Int := c.forward.length
    (⟨c.forward.set symbol size, c.backward.set size symbol⟩, size)

/-- `SeqCoder::encode` seq_coder.cc:17-28. -/
def encode (c : SeqCoder) : List Int → SeqCoder × List Int
  | [] => (c, [])
  | x :: xs =>
    let r := c.encodeOne x
    let rest := r.1.encode xs
    (rest.1, r.2 :: rest.2)

/-- `SeqCoder::encode_immutable` seq_coder.cc:30-38. -/
def encodeImm (c : SeqCoder) (seq : List Int) : List Int := seq.filterMap c.forward.get?

/-- `SeqCoder::decode` seq_coder.cc:40-47; `at` throws `std::out_of_range`. -/
def decode (c : SeqCoder) : List Int → M (List Int)
  | [] => .ok []
  | x :: xs =>
    match c.backward.get? x with
    | none => .error .outOfRange
    | some y => do
      let ys ← c.decode xs
      pure (y :: ys)

/-- `SeqCoder::code_map` seq_coder.cc:49-51. -/
def codeMap (c : SeqCoder) : AMap Int Int := c.forward

end SeqCoder

end VGram
