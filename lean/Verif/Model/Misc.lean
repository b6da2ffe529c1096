import Verif.Model.Stream

/-!
# Model of the free functions of int_dict.cc and of `Encoder` in list_dict.h
-/

namespace VGram

/-- The loop of `to_string(const IntSeq&)`, int_dict.cc:23-25 (`operator<<`, :11-13, prints the same characters):
`n` iterations are left and `i` is the loop variable. -/
def seqToStringLoop (seq : IntSeq) : Nat → Nat → Str → M Str
  | 0, _, res => .ok res
  | n + 1, i, res => do
    let x ← rd seq i
    seqToStringLoop seq n (i + 1) (res ++ IntVGram.decInt x ++ [' '])

/-- `to_string(const IntSeq&)` int_dict.cc:21-31 (same characters as `operator<<`, :8-19).  `seq.size() - 1` is computed
in `size_t`, so it wraps around for the empty sequence. -/
def seqToString (seq : IntSeq) : M Str := do
  let res ← seqToStringLoop seq ((seq.length + (2 ^ 64 - 1)) % 2 ^ 64) 0 ['(']
  match seq with
  | [] => pure (res ++ [')'])
  | _ :: _ => do
    let x ← rd seq ((seq.length : Int) - 1)
    pure (res ++ IntVGram.decInt x ++ [')'])

/-- `Encoder<T>` list_dict.h:15-34. -/
structure ListEncoder where
  mapping : AMap Int Int
  nextId : Int
  deriving DecidableEq, Repr

/-- `Encoder::encode` list_dict.h:17-25.  `code_ptr` is computed before the insertion; for a new
symbol it is still `mapping.end()` at `push_back(code_ptr->second)`, and dereferencing it is undefined (reported as `oob`). -/
def ListEncoder.encode (e : ListEncoder) : List Int → List Int → M (ListEncoder × List Int)
  | [], out => .ok (e, out)
  | x :: xs, out =>
    match e.mapping.get? x with
    | some k => e.encode xs (out ++ [k])
    | none => .error .oob

/-- The buffer handed to the delegate by `ListDict::parse`, list_dict.h:42-43: `temp` already has `input.size()` zeros. -/
def ListEncoder.encodeBuffer (e : ListEncoder) (input : List Int) : M (ListEncoder × List Int) :=
  e.encode input (List.replicate input.length 0)

end VGram
