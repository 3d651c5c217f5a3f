/-!
Model of the bit mixing functions: `splitmix64`, `xoroshiro128cplus`, the seeding of
`rng_decorator`, and the hash functions built on them.  `uint64_t` (and `size_t`, which
`numeric/hash.hpp:21-23` requires to be no wider) is `BitVec 64`.
-/

namespace Actl.Random

abbrev W := BitVec 64

/-- `numeric/random/splitmix64.hpp:19-24`, `splitmix64::next`. -/
def splitmixNext (x : W) : W :=
  let x := x + 0x9e3779b97f4a7c15#64
  let x := (x ^^^ (x >>> 30)) * 0xbf58476d1ce4e5b9#64
  let x := (x ^^^ (x >>> 27)) * 0x94d049bb133111eb#64
  x ^^^ (x >>> 31)

/-- `numeric/random/splitmix64.hpp:28-30`, `operator()`: the state becomes `next(state)`, which
is also the returned value. -/
def splitmixCall (state : W) : W × W :=
  let s := splitmixNext state
  (s, s)

/-- State of `xoroshiro128cplus` (`numeric/random/xoroshiro128cplus.hpp:39`). -/
structure Xoro where
  s0 : W
  s1 : W
deriving DecidableEq, Repr

/-- Default member initializer, `numeric/random/xoroshiro128cplus.hpp:39`. -/
def Xoro.default : Xoro := ⟨0x2b2226c33510fa6#64, 0xf3ce5935970031d3#64⟩

/-- `numeric/random/xoroshiro128cplus.hpp:18-28`, `operator()`: new state and output. -/
def xoroNext (s : Xoro) : Xoro × W :=
  let x := s.s0
  let y := s.s1
  let r := x + y
  let y := y ^^^ x
  let x := ((x <<< 55) ^^^ (x >>> 9)) ^^^ y ^^^ (y <<< 14)
  let y := (y <<< 36) ^^^ (y >>> 28)
  (⟨x, y⟩, r + (if x + y < y then 1#64 else 0#64))

/-- The state after `n` calls. -/
def xoroIter : Nat → Xoro → Xoro
  | 0, s => s
  | n + 1, s => xoroIter n (xoroNext s).1

/-- `numeric/random/rng_decorator.hpp:54-56`: the characters of the seed string are added to
`state[0]` (each converted to `uint64_t`; a character is given here by its converted value). -/
def addChars (s : Xoro) (value : List W) : Xoro :=
  ⟨value.foldl (· + ·) s.s0, s.s1⟩

/-- `numeric/random/rng_decorator.hpp:48-58`, `seed(string_view)`: the `do … while` loop, with
the number of attempts bounded by `fuel` (`none`: more attempts would be needed).
`dflt` is the local `default_rng`.  In `base() == base()` both calls advance the state. -/
def seedLoop (value : List W) : Nat → Xoro → Option Xoro
  | 0, _ => none
  | fuel + 1, dflt =>
    let dflt := (xoroNext dflt).1
    let base := addChars dflt value
    let (base1, r1) := xoroNext base
    let (base2, r2) := xoroNext base1
    if r1 = r2 then seedLoop value fuel dflt else some base2

/-- `rng_decorator::seed`, starting from a default-constructed generator. -/
def seed (value : List W) (fuel : Nat) : Option Xoro := seedLoop value fuel Xoro.default

/-! ### Hashing -/

/-- `numeric/hash.hpp:27-29`, `randomized_hash::compute`, `seed` being the per-process constant. -/
def hashCompute (seed x : W) : W := splitmixNext (x + seed)

/-- `numeric/hash.hpp:36-47`, `hash_value` of an arithmetic value of `n` bytes given by its bit
pattern: the bytes are copied to the last `n` of the 8 bytes of a zero word, that is (on a
little-endian machine) shifted up by `64 - 8 n` bits. -/
def hashArith (seed : W) (n : Nat) (x : BitVec (8 * n)) : W :=
  hashCompute seed (x.setWidth 64 <<< (64 - 8 * n))

/-- `numeric/hash.hpp:60-63`, `hash_combine(seed, x)` where `h = hash_value(x)`. -/
def hashCombine (seed h : W) : W :=
  seed ^^^ ((seed <<< 6) + (seed >>> 2) + 0x9e3779b9#64 + h)

/-- `numeric/hash.hpp:65-71`, variadic `hash_value(x, xs...)`, elements given by their hashes. -/
def hashTuple (h : W) (hs : List W) : W := hs.foldl hashCombine h

/-- `numeric/hash.hpp:73-78`, `hash_value` of a range, elements given by their hashes. -/
def hashRange (hs : List W) : W := hs.foldl hashCombine 0

end Actl.Random
