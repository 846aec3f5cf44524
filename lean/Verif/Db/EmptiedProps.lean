import Verif.Db.Props

/-!
# A leaf that deletions have emptied

Theorem for C41: a third way in which a stored value cannot be read back.  A page that was split
keeps holes, so a leaf that deletions have emptied can have less room than a new page.  A pair that
fits a new page but not this room makes the program split the empty leaf (napr_db_tree.c L553-666,
which does not ask whether there is anything to move).  The pair goes to the new page, and the
divider is read from the header of the new page instead of its first entry (`dividerNow`).
-/

namespace Verif.Db

open Verif.Page

/-- Puts, one deletion, one more put, and the lengths of what `get` then finds. -/
def putsDelPut (l : List (Bytes × Bytes)) (k v : Bytes) (ks : List Bytes) : Res (List Status × Status × Status × List (Option Nat)) := do
  let a ← puts env0 3 txn0 l
  let d ← del env0 a.2 k
  let b ← put env0 3 d.2 k v
  let g ← ks.foldrM (fun x acc => do
    match ← get env0 b.2 5 x with
    | .ok v => .ok (some v.length :: acc)
    | .error _ => .ok (none :: acc)) []
  .ok (a.1, d.1, b.1, g)

/-- C41 is false of the code in a third way: "b", "a", "c" are stored with values of 1900 bytes, "a" is deleted and stored
again with a value of 3000 bytes, all with success; then "a" is not found ("b" and "c" are). -/
theorem replaced_value_lost :
    putsDelPut [([98], val2), ([97], val2), ([99], val2)] [97] (List.replicate 3000 7) [[97], [98], [99]] =
      .ok (List.replicate 3 .success, .success, .success, [none, some 1900, some 1900]) := by
  decide +kernel

/-- The same with a value of 2160 bytes, which has room in the emptied leaf: "a" is found. -/
example : putsDelPut [([98], val2), ([97], val2), ([99], val2)] [97] (List.replicate 2160 7) [[97], [98], [99]] =
    .ok (List.replicate 3 .success, .success, .success, [some 2160, some 1900, some 1900]) := by
  decide +kernel

end Verif.Db
