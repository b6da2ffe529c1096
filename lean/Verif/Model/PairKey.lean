/-!
# Model of the packed pair key

core/src/main/cpp/algorithm/stat_dict_p.cc:97, 115-118, 125-128.  `int` is `BitVec 32`,
`std::int64_t` is `BitVec 64` (two's complement).
-/

namespace VGram

/-- `(((std::int64_t) prev) << 32) | symbol` stat_dict_p.cc:97; `symbol` is promoted to 64 bits
with sign extension. -/
def packPair (prev symbol : BitVec 32) : BitVec 64 := (prev.signExtend 64 <<< 32) ||| symbol.signExtend 64

/-- `static_cast<int>(code >> 32)` stat_dict_p.cc:117, 127. -/
def unpackFirst (code : BitVec 64) : BitVec 32 := (code.sshiftRight 32).setWidth 32

/-- `static_cast<int>(code & 0xFFFFFFFFL)` stat_dict_p.cc:118, 128. -/
def unpackSecond (code : BitVec 64) : BitVec 32 := (code &&& 0xFFFFFFFF#64).setWidth 32

end VGram
