import Verif.Model.Basic

/-!
# Model of the shortest decimal digits of a double: `dtoa_impl` of json.h

core/src/main/cpp/interfaces/json.h:9712-10587.  A double is the number whose binary digits are its 64 bits.  Unsigned arithmetic is on natural numbers,
reduced modulo `2^64` (`2^32` for `uint32_t`) wherever the code could wrap around; signed arithmetic is on integers.  The `assert`s of the code are kept: a failed
one is the outcome `assertion`.  The character buffer is a list of digits, last one first: the code only ever appends to it and changes its last character.
-/

namespace VGram.Grisu

/-- What can go wrong: a failed `assert`, or a loop that does not end. -/
inductive GFault
  | assertion | diverge
  deriving DecidableEq, Repr

/-- Result of a call. -/
abbrev G (α : Type) := Except GFault α

/-- `assert(b)`. -/
def assert (b : Bool) : G Unit := if b then .ok () else .error .assertion

/-- `uint64_t` arithmetic. -/
def u64 (n : Nat) : Nat := n % 2 ^ 64

/-- `uint32_t` arithmetic. -/
def u32 (n : Nat) : Nat := n % 2 ^ 32

/-- `uint64_t` subtraction. -/
def sub64 (a b : Nat) : Nat := u64 (a + 2 ^ 64 - b)

/-- `diyfp` json.h:9725-9732: the number `f * 2^e`. -/
structure Diyfp where
  f : Nat
  e : Int
  deriving DecidableEq, Repr

namespace Diyfp

/-- `diyfp::sub` json.h:9738-9744. -/
def sub (x y : Diyfp) : G Diyfp := do
  assert (x.e = y.e)
  assert (y.f ≤ x.f)
  pure ⟨sub64 x.f y.f, x.e⟩

/-- `diyfp::mul` json.h:9750-9806. -/
def mul (x y : Diyfp) : Diyfp :=
  let uLo := x.f % 2 ^ 32
  let uHi := x.f / 2 ^ 32
  let vLo := y.f % 2 ^ 32
  let vHi := y.f / 2 ^ 32
  let p0 := u64 (uLo * vLo)
  let p1 := u64 (uLo * vHi)
  let p2 := u64 (uHi * vLo)
  let p3 := u64 (uHi * vHi)
  let p0Hi := p0 / 2 ^ 32
  let p1Lo := p1 % 2 ^ 32
  let p1Hi := p1 / 2 ^ 32
  let p2Lo := p2 % 2 ^ 32
  let p2Hi := p2 / 2 ^ 32
  let q := u64 (u64 (p0Hi + p1Lo + p2Lo) + 2 ^ 31)
  ⟨u64 (p3 + p2Hi + p1Hi + q / 2 ^ 32), x.e + y.e + 64⟩

/-- The loop of `diyfp::normalize`, json.h:9819-9823. -/
def normalizeLoop : Nat → Diyfp → G Diyfp
  | 0, _ => .error .diverge
  | fuel + 1, x => if x.f / 2 ^ 63 = 0 then normalizeLoop fuel ⟨u64 (x.f * 2), x.e - 1⟩ else .ok x

/-- `diyfp::normalize` json.h:9815-9826. -/
def normalize (x : Diyfp) : G Diyfp := do
  assert (x.f ≠ 0)
  normalizeLoop 65 x

/-- `diyfp::normalize_to` json.h:9832-9840. -/
def normalizeTo (x : Diyfp) (target : Int) : G Diyfp := do
  let delta := x.e - target
  assert (0 ≤ delta)
  assert (u64 (x.f * 2 ^ delta.toNat) / 2 ^ delta.toNat = x.f)
  pure ⟨u64 (x.f * 2 ^ delta.toNat), target⟩

end Diyfp

/-- `boundaries` json.h:9843-9848. -/
structure Boundaries where
  w : Diyfp
  minus : Diyfp
  plus : Diyfp
  deriving DecidableEq, Repr

/-- The exponent field of a positive double, json.h:9880. -/
def expField (bits : Nat) : Nat := bits / 2 ^ 52

/-- The fraction field of a double, json.h:9881. -/
def fracField (bits : Nat) : Nat := bits % 2 ^ 52

/-- `compute_boundaries` json.h:9857-9922, for `double`: `kPrecision = 53`, `kBias = 1075`. -/
def computeBoundaries (bits : Nat) : G Boundaries := do
  assert (expField bits < 2047)
  assert (0 < bits)
  let E := expField bits
  let F := fracField bits
  let v : Diyfp := if E = 0 then ⟨F, 1 - 1075⟩ else ⟨F + 2 ^ 52, (E : Int) - 1075⟩
  let mPlus : Diyfp := ⟨u64 (2 * v.f + 1), v.e - 1⟩
  let mMinus : Diyfp := if F = 0 ∧ 1 < E then ⟨sub64 (4 * v.f) 1, v.e - 2⟩ else ⟨sub64 (2 * v.f) 1, v.e - 1⟩
  let wPlus ← mPlus.normalize
  let wMinus ← mMinus.normalizeTo wPlus.e
  let w ← v.normalize
  pure ⟨w, wMinus, wPlus⟩

/-- `kCachedPowers` json.h:10054-10132: `(f, e, k)` with `f * 2^e` close to `10^k`. -/
def cachedPowers : List (Nat × Int × Int) := [
  (0xAB70FE17C79AC6CA, -1060, -300), (0xFF77B1FCBEBCDC4F, -1034, -292), (0xBE5691EF416BD60C, -1007, -284),
  (0x8DD01FAD907FFC3C, -980, -276), (0xD3515C2831559A83, -954, -268), (0x9D71AC8FADA6C9B5, -927, -260),
  (0xEA9C227723EE8BCB, -901, -252), (0xAECC49914078536D, -874, -244), (0x823C12795DB6CE57, -847, -236),
  (0xC21094364DFB5637, -821, -228), (0x9096EA6F3848984F, -794, -220), (0xD77485CB25823AC7, -768, -212),
  (0xA086CFCD97BF97F4, -741, -204), (0xEF340A98172AACE5, -715, -196), (0xB23867FB2A35B28E, -688, -188),
  (0x84C8D4DFD2C63F3B, -661, -180), (0xC5DD44271AD3CDBA, -635, -172), (0x936B9FCEBB25C996, -608, -164),
  (0xDBAC6C247D62A584, -582, -156), (0xA3AB66580D5FDAF6, -555, -148), (0xF3E2F893DEC3F126, -529, -140),
  (0xB5B5ADA8AAFF80B8, -502, -132), (0x87625F056C7C4A8B, -475, -124), (0xC9BCFF6034C13053, -449, -116),
  (0x964E858C91BA2655, -422, -108), (0xDFF9772470297EBD, -396, -100), (0xA6DFBD9FB8E5B88F, -369, -92),
  (0xF8A95FCF88747D94, -343, -84), (0xB94470938FA89BCF, -316, -76), (0x8A08F0F8BF0F156B, -289, -68),
  (0xCDB02555653131B6, -263, -60), (0x993FE2C6D07B7FAC, -236, -52), (0xE45C10C42A2B3B06, -210, -44),
  (0xAA242499697392D3, -183, -36), (0xFD87B5F28300CA0E, -157, -28), (0xBCE5086492111AEB, -130, -20),
  (0x8CBCCC096F5088CC, -103, -12), (0xD1B71758E219652C, -77, -4), (0x9C40000000000000, -50, 4),
  (0xE8D4A51000000000, -24, 12), (0xAD78EBC5AC620000, 3, 20), (0x813F3978F8940984, 30, 28),
  (0xC097CE7BC90715B3, 56, 36), (0x8F7E32CE7BEA5C70, 83, 44), (0xD5D238A4ABE98068, 109, 52),
  (0x9F4F2726179A2245, 136, 60), (0xED63A231D4C4FB27, 162, 68), (0xB0DE65388CC8ADA8, 189, 76),
  (0x83C7088E1AAB65DB, 216, 84), (0xC45D1DF942711D9A, 242, 92), (0x924D692CA61BE758, 269, 100),
  (0xDA01EE641A708DEA, 295, 108), (0xA26DA3999AEF774A, 322, 116), (0xF209787BB47D6B85, 348, 124),
  (0xB454E4A179DD1877, 375, 132), (0x865B86925B9BC5C2, 402, 140), (0xC83553C5C8965D3D, 428, 148),
  (0x952AB45CFA97A0B3, 455, 156), (0xDE469FBD99A05FE3, 481, 164), (0xA59BC234DB398C25, 508, 172),
  (0xF6C69A72A3989F5C, 534, 180), (0xB7DCBF5354E9BECE, 561, 188), (0x88FCF317F22241E2, 588, 196),
  (0xCC20CE9BD35C78A5, 614, 204), (0x98165AF37B2153DF, 641, 212), (0xE2A0B5DC971F303A, 667, 220),
  (0xA8D9D1535CE3B396, 694, 228), (0xFB9B7CD9A4A7443C, 720, 236), (0xBB764C4CA7A44410, 747, 244),
  (0x8BAB8EEFB6409C1A, 774, 252), (0xD01FEF10A657842C, 800, 260), (0x9B10A4E5E9913129, 827, 268),
  (0xE7109BFBA19C0C9D, 853, 276), (0xAC2820D9623BF429, 880, 284), (0x80444B5E7AA7CF85, 907, 292),
  (0xBF21E44003ACDD2D, 933, 300), (0x8E679C2F5E44FF8F, 960, 308), (0xD433179D9C8CB841, 986, 316),
  (0x9E19DB92B4E31BA9, 1013, 324)]

/-- `get_cached_power_for_binary_exponent` json.h:9996-10154; `/` truncates towards zero. -/
def cachedPower (e : Int) : G (Nat × Int × Int) := do
  assert (-1500 ≤ e)
  assert (e ≤ 1500)
  let f := -60 - e - 1
  let k := Int.tdiv (f * 78913) 262144 + if 0 < f then 1 else 0
  let index := Int.tdiv (300 + k + 7) 8
  assert (0 ≤ index)
  match cachedPowers[index.toNat]? with
  | none => .error .assertion
  | some c => do
    assert (-60 ≤ c.2.1 + e + 64)
    assert (c.2.1 + e + 64 ≤ -32)
    pure c

/-- `find_largest_pow10` json.h:10160-10214: `k` and `pow10`. -/
def findLargestPow10 (n : Nat) : Nat × Nat :=
  if 1000000000 ≤ n then (10, 1000000000)
  else if 100000000 ≤ n then (9, 100000000)
  else if 10000000 ≤ n then (8, 10000000)
  else if 1000000 ≤ n then (7, 1000000)
  else if 100000 ≤ n then (6, 100000)
  else if 10000 ≤ n then (5, 10000)
  else if 1000 ≤ n then (4, 1000)
  else if 100 ≤ n then (3, 100)
  else if 10 ≤ n then (2, 10)
  else (1, 1)

/-- The loop of `grisu2_round`, json.h:10243-10250; `buf` has the last digit first. -/
def roundLoop (dist delta tenK : Nat) : Nat → List Nat → Nat → G (List Nat)
  | 0, _, _ => .error .diverge
  | fuel + 1, buf, rest =>
    if rest < dist ∧ tenK ≤ sub64 delta rest ∧ (u64 (rest + tenK) < dist ∨ sub64 (u64 (rest + tenK)) dist < sub64 dist rest) then
      match buf with
      | [] => .error .assertion
      | d :: buf => if d = 0 then .error .assertion else roundLoop dist delta tenK fuel ((d - 1) :: buf) (u64 (rest + tenK))
    else .ok buf

/-- `grisu2_round` json.h:10216-10251. -/
def round (buf : List Nat) (dist delta rest tenK : Nat) : G (List Nat) := do
  assert (1 ≤ buf.length)
  assert (dist ≤ delta)
  assert (rest ≤ delta)
  assert (0 < tenK)
  roundLoop dist delta tenK 11 buf rest

/-- The loop over the digits of the integral part, json.h:10321-10381.  `sh` is `-one.e`.  `inl` when it returned, `inr` the digits when it ended. -/
def integralLoop (sh p2 delta dist : Nat) : Nat → Nat → Nat → List Nat → Int → G ((List Nat × Int) ⊕ List Nat)
  | 0, _, _, buf, _ => .ok (.inr buf)
  | n + 1, p1, pow10, buf, dexp => do
    let d := p1 / pow10
    let r := p1 % pow10
    assert (d ≤ 9)
    let buf := d :: buf
    let rest := u64 (u64 (r * 2 ^ sh) + p2)
    if rest ≤ delta then do
      let tenN := u64 (pow10 * 2 ^ sh)
      let buf ← round buf dist delta rest tenN
      pure (.inl (buf, dexp + n))
    else integralLoop sh p2 delta dist n r (pow10 / 10) buf dexp

/-- The loop over the digits of the fractional part, json.h:10422-10462, and the end of the function, :10464-10475. -/
def fractionalLoop (sh : Nat) : Nat → Nat → Nat → Nat → List Nat → Int → G (List Nat × Int)
  | 0, _, _, _, _, _ => .error .diverge
  | fuel + 1, p2, delta, dist, buf, dexp => do
    assert (p2 ≤ (2 ^ 64 - 1) / 10)
    let p2 := u64 (p2 * 10)
    let d := p2 / 2 ^ sh
    let r := p2 % 2 ^ sh
    assert (d ≤ 9)
    let buf := d :: buf
    let delta := u64 (delta * 10)
    let dist := u64 (dist * 10)
    if r ≤ delta then do
      let buf ← round buf dist delta r (u64 (2 ^ sh))
      pure (buf, dexp - 1)
    else fractionalLoop sh fuel r delta dist buf (dexp - 1)

/-- `grisu2_digit_gen` json.h:10257-10489: the digits, last one first, and the decimal exponent. -/
def digitGen (mMinus w mPlus : Diyfp) (dexp : Int) : G (List Nat × Int) := do
  assert (-60 ≤ mPlus.e)
  assert (mPlus.e ≤ -32)
  let delta ← mPlus.sub mMinus
  let dist ← mPlus.sub w
  let sh := (-mPlus.e).toNat
  let p1 := u32 (mPlus.f / 2 ^ sh)
  let p2 := mPlus.f % 2 ^ sh
  assert (0 < p1)
  let k := findLargestPow10 p1
  match ← integralLoop sh p2 delta.f dist.f k.1 p1 k.2 [] dexp with
  | .inl r => pure r
  | .inr buf => do
    assert (delta.f < p2)
    fractionalLoop sh 20 p2 delta.f dist.f buf dexp

/-- `grisu2` json.h:10497-10548. -/
def grisu2Core (mMinus v mPlus : Diyfp) : G (List Nat × Int) := do
  assert (mPlus.e = mMinus.e)
  assert (mPlus.e = v.e)
  let c ← cachedPower mPlus.e
  let w := v.mul ⟨c.1, c.2.1⟩
  let wMinus := mMinus.mul ⟨c.1, c.2.1⟩
  let wPlus := mPlus.mul ⟨c.1, c.2.1⟩
  digitGen ⟨u64 (wMinus.f + 1), wMinus.e⟩ w ⟨sub64 wPlus.f 1, wPlus.e⟩ (-c.2.2)

/-- `grisu2` json.h:10555-10587 for a positive finite double: the digits, first one first, and the decimal exponent. -/
def grisu2 (bits : Nat) : G (List Nat × Int) := do
  let b ← computeBoundaries bits
  let r ← grisu2Core b.minus b.w b.plus
  pure (r.1.reverse, r.2)

end VGram.Grisu
