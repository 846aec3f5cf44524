import Verif.Basic

/-!
# Model of XXH32 (`src/vendor/xxhash/xxhash.h`) and of the key functions of `key_hash.c`

A `BitVec 32` is an `xxh_u32`, a `UInt8` a byte.  The machine is little-endian, and `XXH32_ENDJMP` is 0 (the loops of `XXH32_finalize`, which
do the same steps as the switch).  Alignment makes no difference to the value.
-/

namespace Verif.Xxh

abbrev W := BitVec 32

/-- xxhash.h L2560-2564. -/
def p1 : W := 0x9E3779B1#32
def p2 : W := 0x85EBCA77#32
def p3 : W := 0xC2B2AE3D#32
def p4 : W := 0x27D4EB2F#32
def p5 : W := 0x165667B1#32

/-- L2453 `XXH_rotl32`. -/
def rotl (x : W) (r : Nat) : W := (x <<< r) ||| (x >>> (32 - r))

/-- L2585-2589 `XXH32_round`. -/
def round (acc input : W) : W := rotl (acc + input * p2) 13 * p1

/-- L2642-2650 `XXH32_avalanche`. -/
def avalanche (h : W) : W :=
  let h := h ^^^ (h >>> 15)
  let h := h * p2
  let h := h ^^^ (h >>> 13)
  let h := h * p3
  h ^^^ (h >>> 16)

/-- L2672-2675 `XXH_PROCESS1`. -/
def process1 (h : W) (b : UInt8) : W := rotl (h + BitVec.ofNat 32 b.toNat * p5) 11 * p1

/-- L2677-2681 `XXH_PROCESS4`, for a word. -/
def process4 (h w : W) : W := rotl (h + w * p3) 17 * p4

/-- L2521 `XXH_readLE32`: four bytes, the lowest first. -/
def word (a b c d : UInt8) : W := BitVec.ofNat 32 (a.toNat + 256 * (b.toNat + 256 * (c.toNat + 256 * d.toNat)))

/-- L2686-2694: the two loops of `XXH32_finalize`. -/
def tail : W → List UInt8 → W
  | h, a :: b :: c :: d :: r => tail (process4 h (word a b c d)) r
  | h, a :: r => tail (process1 h a) r
  | h, [] => h

/-- The four accumulators of L2768-2771. -/
structure Lanes where
  v1 : W
  v2 : W
  v3 : W
  v4 : W

/-- L2773-2778: the loop over stripes of 16 bytes, as long as 16 are left; the accumulators and the rest. -/
def stripes : Lanes → List UInt8 → Lanes × List UInt8
  | v, a0 :: a1 :: a2 :: a3 :: b0 :: b1 :: b2 :: b3 :: c0 :: c1 :: c2 :: c3 :: d0 :: d1 :: d2 :: d3 :: r =>
    stripes ⟨round v.v1 (word a0 a1 a2 a3), round v.v2 (word b0 b1 b2 b3), round v.v3 (word c0 c1 c2 c3), round v.v4 (word d0 d1 d2 d3)⟩ r
  | v, r => (v, r)

/-- L2758-2789 `XXH32_endian_align`, L2792-2808 `XXH32`. -/
def xxh32 (input : List UInt8) (seed : W) : W :=
  if 16 ≤ input.length then
    let (v, r) := stripes ⟨seed + p1 + p2, seed + p2, seed + 0, seed - p1⟩ input
    avalanche (tail (rotl v.v1 1 + rotl v.v2 7 + rotl v.v3 12 + rotl v.v4 18 + BitVec.ofNat 32 input.length) r)
  else avalanche (tail (seed + p5 + BitVec.ofNat 32 input.length) input)

/-- The `n` bytes of a number in memory, the lowest first. -/
def bytes : Nat → Nat → List UInt8
  | 0, _ => []
  | n + 1, x => UInt8.ofNat (x % 256) :: bytes n (x / 256)

/-- key_hash.c L14-18 `apr_off_t_key_hash`: an `apr_off_t` has 8 bytes. -/
def sizeHash (s : Nat) : UInt32 := UInt32.ofBitVec (xxh32 (bytes 8 s) 0)

/-- key_hash.c L41-45 `gid_t_key_hash`: a `gid_t` has 4 bytes. -/
def gidHash (g : Nat) : UInt32 := UInt32.ofBitVec (xxh32 (bytes 4 g) 0)

/-- napr_hash.c L56-60 `str_hash`.  A `Char` stands for a byte. -/
def strHash (s : List Char) : UInt32 := UInt32.ofBitVec (xxh32 (s.map (fun c => UInt8.ofNat c.toNat)) 0)

/-! The published test values. -/

example : strHash [] = 0x02CC5D05 := by decide +kernel
example : strHash ['a'] = 0x550D7456 := by decide +kernel
example : strHash ['a', 'b', 'c'] = 0x32D153FF := by decide +kernel
example : strHash "abcdefghijklmnopqrstuvwxyz".toList = 0x63A14D5F := by decide +kernel
example : strHash "Nobody inspects the spammish repetition".toList = 0xE2293B2F := by decide +kernel

/-! Values computed by a separate program: exactly one stripe, and two group numbers. -/

example : strHash "abcdefghijklmnop".toList = 0x9D2D8B62 := by decide +kernel
example : gidHash 0 = 0x08D6D969 := by decide +kernel
example : gidHash 1000 = 0x498AA832 := by decide +kernel

end Verif.Xxh
