import Verif.Basic

/-!
# Model of XXH3 with 128 bits (`src/vendor/xxhash/xxhash.h`), in one call and in pieces

`ft_file.c` calls `XXH3_128bits` on a mapped file (L65) and `XXH3_128bits_reset`, `_update`, `_digest` on a file that is read (L92-125).  The seed is 0 and the secret is
`XXH3_kSecret`, as both interfaces have it then.  A `BitVec 64` is an `xxh_u64`.  The machine is little-endian with 64-bit pointers, `XXH_SIZE_OPT` is 0, and the scalar versions of the accumulator
functions are modelled (L5319-5405), which the vector versions are written to agree with.  Reading outside the bytes that were passed, outside the secret, and writing outside the buffer is `Res.ub`.
-/

namespace Verif.Xxh3

abbrev D := BitVec 64

abbrev Bytes := List UInt8

/-- L3093-3097 `XXH_PRIME64_1` to `5`. -/
def q1 : D := 0x9E3779B185EBCA87#64
def q2 : D := 0xC2B2AE3D27D4EB4F#64
def q3 : D := 0x165667B19E3779F9#64
def q4 : D := 0x85EBCA77C2B2AE63#64
def q5 : D := 0x27D4EB2F165667C5#64

/-- L2560-2562 `XXH_PRIME32_1` to `3`, as 64-bit numbers. -/
def s1 : D := 0x9E3779B1#64
def s2 : D := 0x85EBCA77#64
def s3 : D := 0xC2B2AE3D#64

/-- L3990-3991 `PRIME_MX1`, `PRIME_MX2`. -/
def mx1 : D := 0x165667919E3779F9#64
def mx2 : D := 0x9FB21C651E98DF25#64

/-- L3975-3988 `XXH3_kSecret`, 192 bytes. -/
def secret : Bytes := [0xb8, 0xfe, 0x6c, 0x39, 0x23, 0xa4, 0x4b, 0xbe, 0x7c, 0x01, 0x81, 0x2c, 0xf7, 0x21, 0xad, 0x1c,
  0xde, 0xd4, 0x6d, 0xe9, 0x83, 0x90, 0x97, 0xdb, 0x72, 0x40, 0xa4, 0xa4, 0xb7, 0xb3, 0x67, 0x1f,
  0xcb, 0x79, 0xe6, 0x4e, 0xcc, 0xc0, 0xe5, 0x78, 0x82, 0x5a, 0xd0, 0x7d, 0xcc, 0xff, 0x72, 0x21,
  0xb8, 0x08, 0x46, 0x74, 0xf7, 0x43, 0x24, 0x8e, 0xe0, 0x35, 0x90, 0xe6, 0x81, 0x3a, 0x26, 0x4c,
  0x3c, 0x28, 0x52, 0xbb, 0x91, 0xc3, 0x00, 0xcb, 0x88, 0xd0, 0x65, 0x8b, 0x1b, 0x53, 0x2e, 0xa3,
  0x71, 0x64, 0x48, 0x97, 0xa2, 0x0d, 0xf9, 0x4e, 0x38, 0x19, 0xef, 0x46, 0xa9, 0xde, 0xac, 0xd8,
  0xa8, 0xfa, 0x76, 0x3f, 0xe3, 0x9c, 0x34, 0x3f, 0xf9, 0xdc, 0xbb, 0xc7, 0xc7, 0x0b, 0x4f, 0x1d,
  0x8a, 0x51, 0xe0, 0x4b, 0xcd, 0xb4, 0x59, 0x31, 0xc8, 0x9f, 0x7e, 0xc9, 0xd9, 0x78, 0x73, 0x64,
  0xea, 0xc5, 0xac, 0x83, 0x34, 0xd3, 0xeb, 0xc3, 0xc5, 0x81, 0xa0, 0xff, 0xfa, 0x13, 0x63, 0xeb,
  0x17, 0x0d, 0xdd, 0x51, 0xb7, 0xf0, 0xda, 0x49, 0xd3, 0x16, 0x55, 0x26, 0x29, 0xd4, 0x68, 0x9e,
  0x2b, 0x16, 0xbe, 0x58, 0x7d, 0x47, 0xa1, 0xfc, 0x8f, 0xf8, 0xb8, 0xd1, 0x7a, 0xd0, 0x31, 0xce,
  0x45, 0xcb, 0x3a, 0x8f, 0x95, 0x16, 0x04, 0x28, 0xaf, 0xd7, 0xfb, 0xca, 0xbb, 0x4b, 0x40, 0x7e]

/-- The number that bytes in memory stand for, the lowest first. -/
def leNat : Bytes → Nat
  | [] => 0
  | b :: r => b.toNat + 256 * leNat r

/-- `XXH_readLE64(m + i)`. -/
def rd64 (m : Bytes) (i : Nat) : Res D := if i + 8 ≤ m.length then .ok (BitVec.ofNat 64 (leNat ((m.drop i).take 8))) else .ub

/-- `XXH_readLE32(m + i)`, as a 64-bit number. -/
def rd32 (m : Bytes) (i : Nat) : Res D := if i + 4 ≤ m.length then .ok (BitVec.ofNat 64 (leNat ((m.drop i).take 4))) else .ub

/-- `m[i]`. -/
def rd8 (m : Bytes) (i : Nat) : Res D := match m[i]? with
  | some b => .ok (BitVec.ofNat 64 b.toNat)
  | none => .ub

/-- L4183-4188 `XXH_xorshift64`. -/
def xorshift (v : D) (s : Nat) : D := v ^^^ (v >>> s)

/-- L4041-4170 `XXH_mult64to128`: the low and the high half of the product. -/
def mulLo (a b : D) : D := a * b
def mulHi (a b : D) : D := BitVec.ofNat 64 (a.toNat * b.toNat / 2 ^ 64)

/-- L4175-4180 `XXH3_mul128_fold64`. -/
def fold64 (a b : D) : D := mulLo a b ^^^ mulHi a b

/-- L3125-3133 `XXH64_avalanche`. -/
def avalanche64 (h : D) : D := xorshift (xorshift (xorshift h 33 * q2) 29 * q3) 32

/-- L4193-4199 `XXH3_avalanche`. -/
def avalanche3 (h : D) : D := xorshift (xorshift h 37 * mx1) 32

/-- `XXH_swap64` (L2960-2970): the bytes in the opposite order. -/
def swap64 (x : D) : D :=
  ((x <<< 56) &&& 0xff00000000000000#64) ||| ((x <<< 40) &&& 0x00ff000000000000#64) ||| ((x <<< 24) &&& 0x0000ff0000000000#64) |||
  ((x <<< 8) &&& 0x000000ff00000000#64) ||| ((x >>> 8) &&& 0x00000000ff000000#64) ||| ((x >>> 24) &&& 0x0000000000ff0000#64) |||
  ((x >>> 40) &&& 0x000000000000ff00#64) ||| ((x >>> 56) &&& 0x00000000000000ff#64)

/-- `XXH_swap32` (L2477-2483) of the low half. -/
def swap32 (x : D) : D :=
  ((x <<< 24) &&& 0xff000000#64) ||| ((x <<< 8) &&& 0x00ff0000#64) ||| ((x >>> 8) &&& 0x0000ff00#64) ||| ((x >>> 24) &&& 0x000000ff#64)

/-- `XXH_rotl32(x, 13)` of a number of 32 bits. -/
def rotl13 (x : D) : D := ((x <<< 13) &&& 0xffffffff#64) ||| (x >>> 19)

/-- `XXH128_hash_t`. -/
structure Hash128 where
  lo : D
  hi : D
  deriving DecidableEq

/-- L6144-6171 `XXH3_len_1to3_128b`, with seed 0. -/
def len1to3 (m : Bytes) : Res Hash128 := do
  let c1 ← rd8 m 0
  let c2 ← rd8 m (m.length >>> 1)
  let c3 ← rd8 m (m.length - 1)
  let l := (c1 <<< 16) ||| (c2 <<< 24) ||| c3 ||| (BitVec.ofNat 64 m.length <<< 8)
  let h := rotl13 (swap32 l)
  let a ← rd32 secret 0
  let b ← rd32 secret 4
  let c ← rd32 secret 8
  let d ← rd32 secret 12
  .ok ⟨avalanche64 (l ^^^ (a ^^^ b)), avalanche64 (h ^^^ (c ^^^ d))⟩

/-- L6173-6198 `XXH3_len_4to8_128b`. -/
def len4to8 (m : Bytes) : Res Hash128 := do
  let lo ← rd32 m 0
  let hi ← rd32 m (m.length - 4)
  let a ← rd64 secret 16
  let b ← rd64 secret 24
  let keyed := (lo + (hi <<< 32)) ^^^ (a ^^^ b)
  let c := q1 + (BitVec.ofNat 64 m.length <<< 2)
  let pl := mulLo keyed c
  let ph := mulHi keyed c + (pl <<< 1)
  let pl := pl ^^^ (ph >>> 3)
  .ok ⟨xorshift (xorshift pl 35 * mx2) 28, avalanche3 ph⟩

/-- L6200-6270 `XXH3_len_9to16_128b`, the version for 64-bit pointers. -/
def len9to16 (m : Bytes) : Res Hash128 := do
  let a ← rd64 secret 32
  let b ← rd64 secret 40
  let c ← rd64 secret 48
  let d ← rd64 secret 56
  let lo ← rd64 m 0
  let hi ← rd64 m (m.length - 8)
  let x := lo ^^^ hi ^^^ (a ^^^ b)
  let pl := mulLo x q1 + (BitVec.ofNat 64 (m.length - 1) <<< 54)
  let hi := hi ^^^ (c ^^^ d)
  let ph := mulHi x q1 + (hi + (hi &&& 0xffffffff#64) * (s2 - 1))
  let pl := pl ^^^ swap64 ph
  .ok ⟨avalanche3 (mulLo pl q2), avalanche3 (mulHi pl q2 + ph * q2)⟩

/-- L6275-6289 `XXH3_len_0to16_128b`. -/
def len0to16 (m : Bytes) : Res Hash128 :=
  if 8 < m.length then len9to16 m
  else if 4 ≤ m.length then len4to8 m
  else if m.length ≠ 0 then len1to3 m
  else do
    let a ← rd64 secret 64
    let b ← rd64 secret 72
    let c ← rd64 secret 80
    let d ← rd64 secret 88
    .ok ⟨avalanche64 (a ^^^ b), avalanche64 (c ^^^ d)⟩

/-- L4342-4372 `XXH3_mix16B(m + i, secret + s, 0)`. -/
def mix16 (m : Bytes) (i s : Nat) : Res D := do
  let lo ← rd64 m i
  let hi ← rd64 m (i + 8)
  let a ← rd64 secret s
  let b ← rd64 secret (s + 8)
  .ok (fold64 (lo ^^^ a) (hi ^^^ b))

/-- L6294-6303 `XXH128_mix32B(acc, m + i, m + j, secret + s, 0)`. -/
def mix32 (acc : Hash128) (m : Bytes) (i j s : Nat) : Res Hash128 := do
  let x ← mix16 m i s
  let j0 ← rd64 m j
  let j1 ← rd64 m (j + 8)
  let y ← mix16 m j (s + 16)
  let i0 ← rd64 m i
  let i1 ← rd64 m (i + 8)
  .ok ⟨(acc.lo + x) ^^^ (j0 + j1), (acc.hi + y) ^^^ (i0 + i1)⟩

/-- L6338-6346, L6396-6404: from the accumulator to the digest. -/
def finish (acc : Hash128) (len : Nat) : Hash128 :=
  ⟨avalanche3 (acc.lo + acc.hi), 0 - avalanche3 (acc.lo * q1 + acc.hi * q4 + BitVec.ofNat 64 len * q2)⟩

/-- L6306-6348 `XXH3_len_17to128_128b`. -/
def len17to128 (m : Bytes) : Res Hash128 := do
  let n := m.length
  let acc : Hash128 := ⟨BitVec.ofNat 64 n * q1, 0⟩
  let acc ← if 96 < n then mix32 acc m 48 (n - 64) 96 else .ok acc
  let acc ← if 64 < n then mix32 acc m 32 (n - 48) 64 else .ok acc
  let acc ← if 32 < n then mix32 acc m 16 (n - 32) 32 else .ok acc
  let acc ← mix32 acc m 0 (n - 16) 0
  .ok (finish acc n)

/-- L6383-6389: the second loop of `XXH3_len_129to240_128b`, with `i` from 160 on in steps of 32; `k` rounds are left. -/
def mid (m : Bytes) : Nat → Nat → Hash128 → Res Hash128
  | 0, _, acc => .ok acc
  | k + 1, i, acc => do
    let acc ← mix32 acc m (i - 32) (i - 16) (3 + i - 160)
    mid m k (i + 32) acc

/-- L6350-6406 `XXH3_len_129to240_128b`.  The second loop has `(n - 160) / 32 + 1` rounds if `n ≥ 160`, else none. -/
def len129to240 (m : Bytes) : Res Hash128 := do
  let n := m.length
  let acc : Hash128 := ⟨BitVec.ofNat 64 n * q1, 0⟩
  let acc ← mix32 acc m 0 16 0
  let acc ← mix32 acc m 32 48 32
  let acc ← mix32 acc m 64 80 64
  let acc ← mix32 acc m 96 112 96
  let acc ← mid m (n / 32 - 4) 160 ⟨avalanche3 acc.lo, avalanche3 acc.hi⟩
  let acc ← mix32 acc m (n - 16) (n - 32) (136 - 17 - 16)
  .ok (finish acc n)

/-! ## Long inputs -/

/-- The eight accumulators. -/
abbrev Acc := List D

/-- L5595-5596 `XXH3_INIT_ACC`, L5861-5868. -/
def initAcc : Acc := [s3, q1, q2, q3, q4, s2, q5, s1]

/-- L5325-5341 `XXH3_scalarRound` at lane `k`. -/
def scalarRound (m : Bytes) (s : Nat) (acc : Acc) (k : Nat) : Res Acc := do
  let v ← rd64 m (8 * k)
  let c ← rd64 secret (s + 8 * k)
  let key := v ^^^ c
  let acc := acc.set (k ^^^ 1) (acc.getD (k ^^^ 1) 0 + v)
  .ok (acc.set k ((key &&& 0xffffffff#64) * (key >>> 32) + acc.getD k 0))

/-- L5347-5365 `XXH3_accumulate_512_scalar(acc, m, secret + s)`. -/
def accumulate512 (acc : Acc) (m : Bytes) (s : Nat) : Res Acc := (List.range 8).foldlM (scalarRound m s) acc

/-- L4506-4523 `XXH3_accumulate(acc, m, secret + s, n)`. -/
def accumulate : Nat → Acc → Bytes → Nat → Res Acc
  | 0, acc, _, _ => .ok acc
  | n + 1, acc, m, s => do
    let acc ← accumulate512 acc m s
    accumulate n acc (m.drop 64) (s + 8)

/-- L5374-5390 `XXH3_scalarScrambleRound`. -/
def scrambleRound (s : Nat) (acc : Acc) (k : Nat) : Res Acc := do
  let c ← rd64 secret (s + 8 * k)
  .ok (acc.set k ((xorshift (acc.getD k 0) 47 ^^^ c) * s1))

/-- L5396-5403 `XXH3_scrambleAcc_scalar(acc, secret + s)`. -/
def scramble (acc : Acc) (s : Nat) : Res Acc := (List.range 8).foldlM (scrambleRound s) acc

/-- L5543-5546: the loop over whole blocks of 16 stripes. -/
def blocks : Nat → Acc → Bytes → Res Acc
  | 0, acc, _ => .ok acc
  | n + 1, acc, m => do
    let acc ← accumulate 16 acc m 0
    let acc ← scramble acc 128
    blocks n acc (m.drop 1024)

/-- L5528-5559 `XXH3_hashLong_internal_loop`, with a secret of 192 bytes: blocks of 16 stripes, 1024 bytes. -/
def longLoop (m : Bytes) : Res Acc := do
  let nb := (m.length - 1) / 1024
  let acc ← blocks nb initAcc m
  let acc ← accumulate ((m.length - 1 - 1024 * nb) / 64) acc (m.drop (nb * 1024)) 0
  accumulate512 acc (m.drop (m.length - 64)) (192 - 64 - 7)

/-- L5561-5567 `XXH3_mix2Accs(acc + 2 * i, secret + s)`. -/
def mix2 (acc : Acc) (i s : Nat) : Res D := do
  let a ← rd64 secret s
  let b ← rd64 secret (s + 8)
  .ok (fold64 (acc.getD (2 * i) 0 ^^^ a) (acc.getD (2 * i + 1) 0 ^^^ b))

/-- L5569-5594 `XXH3_mergeAccs`. -/
def mergeAccs (acc : Acc) (s : Nat) (start : D) : Res D := do
  let r ← (List.range 4).foldlM (fun r i => do let x ← mix2 acc i (s + 16 * i); .ok (r + x)) start
  .ok (avalanche3 r)

/-- L6417-6429, L6613-6622: from the accumulators to the digest. -/
def finishLong (acc : Acc) (len : Nat) : Res Hash128 := do
  let lo ← mergeAccs acc 11 (BitVec.ofNat 64 len * q1)
  let hi ← mergeAccs acc (192 - 64 - 11) (~~~(BitVec.ofNat 64 len * q2))
  .ok ⟨lo, hi⟩

/-- L6408-6430 `XXH3_hashLong_128b_internal`. -/
def hashLong (m : Bytes) : Res Hash128 := do
  let acc ← longLoop m
  finishLong acc m.length

/-- L6496-6514 `XXH3_128bits_internal`, L6521-6526 `XXH3_128bits`: the digest of the bytes `m`. -/
def xxh128 (m : Bytes) : Res Hash128 :=
  if m.length ≤ 16 then len0to16 m
  else if m.length ≤ 128 then len17to128 m
  else if m.length ≤ 240 then len129to240 m
  else hashLong m

/-! ## In pieces -/

/-- L1536-1590 `XXH3_state_s`, as far as it changes: `nbStripesPerBlock` is 16, `secretLimit` 128, the seed 0. -/
structure State where
  acc : Acc
  buffer : Bytes
  buffered : Nat
  soFar : Nat
  total : Nat

/-- L5851-5875 `XXH3_reset_internal`, L6571-6575 `XXH3_128bits_reset`: the buffer keeps what was in it, which after `XXH3_createState` is anything. -/
def reset (junk : Bytes) : State := ⟨initAcc, junk, 0, 0, 0⟩

/-- `memcpy(buf + off, src, …)`. -/
def blit (buf : Bytes) (off : Nat) (src : Bytes) : Res Bytes :=
  if off + src.length ≤ buf.length then .ok (buf.take off ++ src ++ buf.drop (off + src.length)) else .ub

/-- L5952-5963: the loop of `XXH3_consumeStripes`; `s` is the offset of `initialSecret`.  The accumulators, the input behind, and the stripes that are left. -/
def consumeLoop : Nat → Acc → Bytes → Nat → Nat → Nat → Res (Acc × Bytes × Nat)
  | 0, _, _, _, _, _ => .div
  | fuel + 1, acc, m, s, this, nb => do
    let acc ← accumulate this acc m s
    let acc ← scramble acc 128
    let m := m.drop (64 * this)
    let nb := nb - this
    if 16 ≤ nb then consumeLoop fuel acc m 0 16 nb else .ok (acc, m, nb)

/-- L5938-5972 `XXH3_consumeStripes`: the accumulators and `nbStripesSoFar`.  It returns the input behind `nb` stripes. -/
def consume (acc : Acc) (soFar : Nat) (m : Bytes) (nb : Nat) : Res (Acc × Nat) :=
  if 16 - soFar ≤ nb then do
    let (acc, m, nb) ← consumeLoop (nb + 1) acc m (8 * soFar) (16 - soFar) nb
    if 0 < nb then do
      let acc ← accumulate nb acc m 0
      .ok (acc, nb)
    else .ok (acc, 0)
  else if 0 < nb then do
    let acc ← accumulate nb acc m (8 * soFar)
    .ok (acc, soFar + nb)
  else .ok (acc, soFar)

/-- L6024-6034: a buffer that is not empty is completed from the input and consumed. -/
def drain (st : State) (input : Bytes) : Res (State × Bytes) :=
  if st.buffered ≠ 0 then do
    let load := 256 - st.buffered
    let buf ← blit st.buffer st.buffered (input.take load)
    let (acc, soFar) ← consume st.acc st.soFar buf 4
    .ok ({ st with acc := acc, soFar := soFar, buffer := buf, buffered := 0 }, input.drop load)
  else .ok (st, input)

/-- L6036-6045: if more than 256 bytes are left, all but the last piece are consumed, and the last stripe is kept at the end of the buffer. -/
def bulk (st : State) (input : Bytes) : Res (State × Bytes) :=
  if 256 < input.length then do
    let nb := (input.length - 1) / 64
    let (acc, soFar) ← consume st.acc st.soFar input nb
    let buf ← blit st.buffer (256 - 64) ((input.drop (64 * nb - 64)).take 64)
    .ok ({ st with acc := acc, soFar := soFar, buffer := buf }, input.drop (64 * nb))
  else .ok (st, input)

/-- L5982-6059 `XXH3_update` with an input that is not NULL, L6600-6603 `XXH3_128bits_update`. -/
def update (st : State) (input : Bytes) : Res State :=
  let st := { st with total := (st.total + input.length) % 2 ^ 64 }
  if input.length ≤ 256 - st.buffered then do
    let buf ← blit st.buffer st.buffered input
    .ok { st with buffer := buf, buffered := st.buffered + input.length }
  else do
    let (st, input) ← drain st input
    let (st, input) ← bulk st input
    let buf ← blit st.buffer 0 input
    .ok { st with buffer := buf, buffered := input.length }

/-- L6070-6104 `XXH3_digest_long`. -/
def digestLong (st : State) : Res Acc :=
  if 64 ≤ st.buffered then do
    let (acc, _) ← consume st.acc st.soFar (st.buffer.take st.buffered) ((st.buffered - 1) / 64)
    accumulate512 acc ((st.buffer.take st.buffered).drop (st.buffered - 64)) (128 - 7)
  else
    let catchup := 64 - st.buffered
    accumulate512 st.acc ((st.buffer.drop (256 - catchup)).take catchup ++ st.buffer.take st.buffered) (128 - 7)

/-- L6606-6629 `XXH3_128bits_digest`, with seed 0: `XXH3_128bits_withSecret` with the standard secret does the same as `XXH3_128bits` (L6453-6461, L6529-6535). -/
def digest (st : State) : Res Hash128 :=
  if 240 < st.total then do
    let acc ← digestLong st
    finishLong acc st.total
  else xxh128 (st.buffer.take st.total)

/-- The input of the published tests: `g` is multiplied for each byte, of which the highest eight bits are taken. -/
def testBytes : Nat → Nat → Bytes
  | 0, _ => []
  | n + 1, g => UInt8.ofNat (g / 2 ^ 56) :: testBytes n (g * 11400714785074694797 % 2 ^ 64)

def testHash (n : Nat) : Res Hash128 := xxh128 (testBytes n 2654435761)

/-! The published test values, for each kind of length. -/

example : testHash 0 = .ok ⟨0x6001C324468D497F#64, 0x99AA06D3014798D8#64⟩ := by decide +kernel
example : testHash 1 = .ok ⟨0xC44BDFF4074EECDB#64, 0xA6CD5E9392000F6A#64⟩ := by decide +kernel
example : testHash 6 = .ok ⟨0x3E7039BDDA43CFC6#64, 0x082AFE0B8162D12A#64⟩ := by decide +kernel
example : testHash 12 = .ok ⟨0x061A192713F69AD9#64, 0x6E3EFD8FC7802B18#64⟩ := by decide +kernel
example : testHash 24 = .ok ⟨0x1E7044D28B1B901D#64, 0x0CE966E4678D3761#64⟩ := by decide +kernel
example : testHash 48 = .ok ⟨0xF942219AED80F67B#64, 0xA002AC4E5478227E#64⟩ := by decide +kernel
example : testHash 81 = .ok ⟨0x5E8BAFB9F95FB803#64, 0x4952F58181AB0042#64⟩ := by decide +kernel
example : testHash 222 = .ok ⟨0xF1AEBD597CEC6B3A#64, 0x337E09641B948717#64⟩ := by decide +kernel
example : testHash 403 = .ok ⟨0xCDEB804D65C6DEA4#64, 0x1B6DE21E332DD73D#64⟩ := by decide +kernel
example : testHash 2240 = .ok ⟨0x6E73A90539CF2948#64, 0xCCB134FBFA7CE49D#64⟩ := by decide +kernel

end Verif.Xxh3
