import Verif.File.Model

/-!
# The same functions, counting what they hold open

`src/ft_file.c` once more, now with the descriptors of the process: an `apr_file_open` fails when as many are open as the process may have (`EMFILE`), and it
counts what each function has still open when it returns.  In the report all comparisons use the pool of the whole run (ft_report.c L240, ft_report_json.c L105), so what
is not closed stays open until the end; a digest has a pool of its own (ft_process.c L32, L77).  A failing `close` gives the descriptor back as well.  The second
`apr_file_close(fd2)` in L182 closes the descriptor -1, which fails and changes nothing.  What `-t` opens through libarchive is left out.
-/

namespace Verif.File

/-- Descriptors: how many the process may have, how many it has, the most it ever had, and how many mappings it has. -/
structure Fds where
  limit : Nat
  opened : Nat
  peak : Nat
  maps : Nat
  deriving DecidableEq

/-- Does `apr_file_open` succeed? -/
def Fds.opens (d : Fds) (f : OnDisk) : Bool := f.openOk && decide (d.opened < d.limit)

/-- One more descriptor. -/
def Fds.grab (d : Fds) : Fds := { d with opened := d.opened + 1, peak := max d.peak (d.opened + 1) }

/-- One less. -/
def Fds.drop (d : Fds) : Fds := { d with opened := d.opened - 1 }

/-- One mapping more. -/
def Fds.mapIn (d : Fds) : Fds := { d with maps := d.maps + 1 }

/-- One less. -/
def Fds.unmap (d : Fds) : Fds := { d with maps := d.maps - 1 }

/-- ft_file.c L82-135 `checksum_big_file`: L121 closes after a read error, L128 otherwise. -/
def checksumBigIn (H : Bytes → β) (fuel : Nat) (d : Fds) (f : OnDisk) : Res (Option β × Fds) :=
  if d.opens f then do
    let (eof, acc) ← sumLoop fuel f.stream []
    if eof then .ok (if f.closeOk then some (H acc) else none, d.grab.drop) else .ok (none, d.grab.drop)
  else .ok (none, d)

/-- ft_file.c L46-80 `checksum_small_file`: L61 closes before L62 reads instead of mapping. -/
def checksumSmallIn (H : Bytes → β) (fuel : Nat) (d : Fds) (f : OnDisk) (size : Nat) : Res (Option β × Fds) :=
  if d.opens f then
    if f.mapOk then do
      let b ← mapped f size
      .ok (if f.closeOk then some (H b) else none, d.grab.mapIn.unmap.drop)
    else checksumBigIn H fuel d.grab.drop f
  else .ok (none, d)

/-- ft_file.c L137-144 `checksum_file`. -/
def checksumIn (H : Bytes → β) (fuel : Nat) (d : Fds) (f : OnDisk) (size excess : Nat) : Res (Option β × Fds) :=
  if size < excess then checksumSmallIn H fuel d f size else checksumBigIn H fuel d f

/-- ft_file.c L220-283 `big_filecmp`: L266 returns without closing. -/
def bigFilecmpIn (fuel : Nat) (d : Fds) (f1 f2 : OnDisk) (size : Nat) (r0 : Int) : Res (Cmp × Fds) :=
  if size = 0 then .ok ((true, 0), d)
  else if !d.opens f1 then .ok ((false, r0), d)
  else if !d.grab.opens f2 then .ok ((false, r0), d.grab.drop)
  else do
    let (r, eof, ok1) ← cmpLoop fuel f1.stream f2.stream r0
    if !eof && r == 0 then .ok ((ok1, r), d.grab.grab)
    else .ok ((f2.closeOk && f1.closeOk, r), d.grab.grab.drop.drop)

/-- ft_file.c L146-218 `small_filecmp`: L181-184 leaves the first mapping. -/
def smallFilecmpIn (fuel : Nat) (d : Fds) (f1 f2 : OnDisk) (size : Nat) (r0 : Int) : Res (Cmp × Fds) :=
  if size = 0 then .ok ((true, 0), d)
  else if !d.opens f1 then .ok ((false, r0), d)
  else if !f1.mapOk then bigFilecmpIn fuel d.grab.drop f1 f2 size r0
  else if !d.grab.mapIn.opens f2 then .ok ((false, r0), d.grab.mapIn.unmap.drop)
  else if !f2.mapOk then bigFilecmpIn fuel d.grab.mapIn.grab.drop.drop f1 f2 size r0
  else do
    let b1 ← mapped f1 size
    let b2 ← mapped f2 size
    .ok ((f2.closeOk && f1.closeOk, memcmp b1 b2), d.grab.mapIn.grab.mapIn.unmap.drop.unmap.drop)

/-- ft_file.c L285-292 `filecmp`. -/
def filecmpIn (fuel : Nat) (d : Fds) (f1 f2 : OnDisk) (size excess : Nat) (r0 : Int) : Res (Cmp × Fds) :=
  if size < excess then smallFilecmpIn fuel d f1 f2 size r0 else bigFilecmpIn fuel d f1 f2 size r0

/-- The comparisons of a report, one after the other (ft_report.c L240, ft_report_json.c L105; `*result_out` is 0 before). -/
def comparisons (fuel excess : Nat) : Fds → List (OnDisk × OnDisk × Nat) → Res (List Cmp × Fds)
  | d, [] => .ok ([], d)
  | d, (f1, f2, size) :: l => do
    let (c, d') ← filecmpIn fuel d f1 f2 size excess 0
    let (cs, d'') ← comparisons fuel excess d' l
    .ok (c :: cs, d'')

end Verif.File
