import Verif.Basic

/-!
# Model of `src/ft_file.c` (checksum and comparison)

A file being read is the list of bytes still to come plus a schedule saying what each
`apr_file_read` does: fail, or return at most `k + 1` bytes (short reads); with the schedule used up every
read returns all that is asked for or left.  `apr_file_read` returns `APR_EOF` with zero bytes
at the end of the file and `APR_SUCCESS` at once when zero bytes are asked for.

XXH3 is a parameter `H` on byte lists; the streaming interface hashes the concatenation of
the updates (the library's contract, proved of its source in `Xxh/Props128.lean`).  `memcmp` is the difference of the first differing bytes.
Opening, mapping and closing may fail; unmapping failures (L66-71, L189-211) are merged with
closing failures.  A mapping longer than the file reads as zero up to the end of the page in which the
file ends; reading it beyond that page is undefined behaviour (`SIGBUS`).  Pages have 4096 bytes.
-/

namespace Verif.File

abbrev Bytes := List UInt8

/-- L44 `HUGE_LEN`. -/
def hugeLen : Nat := 64 * 1024

/-- An open file positioned for reading. -/
structure Stream where
  rest : Bytes
  sched : List (Option Nat)

/-- Result of `apr_file_read`. -/
inductive Read where
  | data (b : Bytes)
  | eof
  | err
  deriving DecidableEq

/-- `apr_file_read(fd, buf, &n)`. -/
def Stream.read (s : Stream) (n : Nat) : Read × Stream :=
  if n = 0 then (.data [], s)
  else
    match s.sched with
    | none :: t => (.err, { s with sched := t })
    | some k :: t =>
      if s.rest = [] then (.eof, { s with sched := t })
      else (.data (s.rest.take (min n (k + 1))), { rest := s.rest.drop (min n (k + 1)), sched := t })
    | [] => if s.rest = [] then (.eof, s) else (.data (s.rest.take n), { s with rest := s.rest.drop n })

/-- A file on disk as the code meets it: its bytes now, the read schedule, and which of open,
mmap and close succeed. -/
structure OnDisk where
  bytes : Bytes
  sched : List (Option Nat) := []
  openOk : Bool := true
  mapOk : Bool := true
  closeOk : Bool := true

/-- The stream obtained by opening the file. -/
def OnDisk.stream (f : OnDisk) : Stream := ⟨f.bytes, f.sched⟩

/-- L104-116: the read/update loop of `checksum_big_file`; returns the bytes hashed and
whether the loop ended at end of file. -/
def sumLoop : Nat → Stream → Bytes → Res (Bool × Bytes)
  | 0, _, _ => .div
  | fuel + 1, s, acc =>
    match s.read hugeLen with
    | (.data b, s') => sumLoop fuel s' (acc ++ b)
    | (.eof, _) => .ok (true, acc)
    | (.err, _) => .ok (false, acc)

/-- L82-135 `checksum_big_file`: `none` is a failure status.  The digest is written before the
file is closed; on a close failure the caller sees the failure. -/
def checksumBig (H : Bytes → β) (fuel : Nat) (f : OnDisk) : Res (Option β) :=
  if f.openOk then do
    let (eof, acc) ← sumLoop fuel f.stream []
    if eof then .ok (if f.closeOk then some (H acc) else none) else .ok none
  else .ok none

/-- The first `size` bytes of a mapping of the file (L60, L74; L169, L183). -/
def mapped (f : OnDisk) (size : Nat) : Res Bytes :=
  if size ≤ (f.bytes.length + 4095) / 4096 * 4096 then .ok (f.bytes.take size ++ List.replicate (size - f.bytes.length) 0) else .ub

/-- L46-80 `checksum_small_file`. -/
def checksumSmall (H : Bytes → β) (fuel : Nat) (f : OnDisk) (size : Nat) : Res (Option β) :=
  if f.openOk then
    if f.mapOk then do
      let b ← mapped f size
      .ok (if f.closeOk then some (H b) else none)
    else checksumBig H fuel f
  else .ok none

/-- L137-144 `checksum_file`. -/
def checksum (H : Bytes → β) (fuel : Nat) (f : OnDisk) (size excess : Nat) : Res (Option β) :=
  if size < excess then checksumSmall H fuel f size else checksumBig H fuel f

/-- `memcmp` on buffers of equal length. -/
def memcmp : Bytes → Bytes → Int
  | a :: as, b :: bs => if a = b then memcmp as bs else (a.toNat : Int) - b.toNat
  | _, _ => 0

/-- L251-259: the loop of `big_filecmp`.  Returns the final `*result_out`, whether either status
was `APR_EOF`, and whether `status1` was `APR_SUCCESS`. -/
def cmpLoop : Nat → Stream → Stream → Int → Res (Int × Bool × Bool)
  | 0, _, _, _ => .div
  | fuel + 1, s1, s2, r =>
    let (x1, s1') := s1.read hugeLen
    let n1 := match x1 with | .data b => b.length | _ => 0
    let (x2, s2') := s2.read n1
    match x1, x2 with
    | .data b1, .data b2 =>
      if b2.length = b1.length then
        let r' := memcmp b1 b2
        if r' = 0 then cmpLoop fuel s1' s2' r' else .ok (r', false, true)
      else .ok (r, false, true)
    | _, _ => .ok (r, x1 = .eof ∨ x2 = .eof, match x1 with | .data _ => true | _ => false)

/-- Status (`true` for `APR_SUCCESS`) and `*result_out`. -/
abbrev Cmp := Bool × Int

/-- L220-283 `big_filecmp`; `r0` is the value of `*result_out` on entry. -/
def bigFilecmp (fuel : Nat) (f1 f2 : OnDisk) (size : Nat) (r0 : Int) : Res Cmp :=
  if size = 0 then .ok (true, 0)
  else if !f1.openOk then .ok (false, r0)
  else if !f2.openOk then .ok (false, r0)
  else do
    let (r, eof, ok1) ← cmpLoop fuel f1.stream f2.stream r0
    if !eof && r == 0 then .ok (ok1, r)
    else .ok (f2.closeOk && f1.closeOk, r)

/-- L146-218 `small_filecmp`. -/
def smallFilecmp (fuel : Nat) (f1 f2 : OnDisk) (size : Nat) (r0 : Int) : Res Cmp :=
  if size = 0 then .ok (true, 0)
  else if !f1.openOk then .ok (false, r0)
  else if !f1.mapOk then bigFilecmp fuel f1 f2 size r0
  else if !f2.openOk then .ok (false, r0)
  else if !f2.mapOk then bigFilecmp fuel f1 f2 size r0
  else do
    let b1 ← mapped f1 size
    let b2 ← mapped f2 size
    .ok (f2.closeOk && f1.closeOk, memcmp b1 b2)

/-- L285-292 `filecmp`. -/
def filecmp (fuel : Nat) (f1 f2 : OnDisk) (size excess : Nat) (r0 : Int) : Res Cmp :=
  if size < excess then smallFilecmp fuel f1 f2 size r0 else bigFilecmp fuel f1 f2 size r0

end Verif.File
