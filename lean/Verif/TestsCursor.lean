import Verif.TestsDb

/-!
# The longer database tests of the project, run on the model

As in `Verif.TestsDb`: tests of the model, not proofs.
-/

namespace Verif.TestsDb

open Verif.Page Verif.Db

/-! ## check_db_cursor.c -/

def keys4 (n : Nat) : List (String × String) := (List.range n).map fun i => ("key" ++ pad 4 i, "val" ++ pad 4 i)

def cursorDb : Res Env := do
  let e ← newEnv 2560
  let a ← load e (keys4 1000)
  .ok a.1

/-- Operations on one new cursor, and the pairs they give. -/
def cursorOps (e : Env) (l : List Op) : Res (List (Option (Bytes × Bytes))) := do
  let r ← l.foldlM (fun (s : Cursor × List (Option (Bytes × Bytes))) op => do
    let r ← cursorGet e (readTxn e) fuel s.1 op
    .ok (r.1, s.2 ++ [r.2.toOption])) (Cursor.opened, [])
  .ok r.2

def at4 (i : Nat) : Option (Bytes × Bytes) := some (bytes ("key" ++ pad 4 i), bytes ("val" ++ pad 4 i))

#guard Res.holds (do
    let e ← cursorDb
    let a ← cursorOps e [.seek .first]
    let b ← cursorOps e [.seek .last]
    let c ← cursorOps e [.seek (.set (bytes "key0500"))]
    let d ← cursorOps e [.seek (.range (bytes "key0500a"))]
    let f ← scan e (readTxn e) fuel 1001 .first .next
    let g ← scan e (readTxn e) fuel 1001 .last .prev
    let h ← cursorOps e (.seek (.set (bytes "key0500")) :: List.replicate 10 .next ++ List.replicate 5 .prev)
    .ok (a ++ b ++ c ++ d, f, g, h)) (fun r => r.1 == [at4 0, at4 999, at4 500, at4 501] &&
      (r.2.1.1.map some == (List.range 1000).map at4 && r.2.1.2 == .notfound) &&
      (r.2.2.1.1.map some == (List.range 1000).reverse.map at4 && r.2.2.1.2 == .notfound) &&
      r.2.2.2 == (List.range 11).map (fun i => at4 (500 + i)) ++ (List.range 5).map (fun i => at4 (509 - i))) = true

end Verif.TestsDb
