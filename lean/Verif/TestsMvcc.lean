import Verif.TestsDb

/-!
# The longer database tests of the project, run on the model

As in `Verif.TestsDb`: tests of the model, not proofs.
-/

namespace Verif.TestsDb

open Verif.Page Verif.Db

/-! ## check_db_mvcc.c -/

/-! `test_page_reclamation_safety`. -/

def k3 (a b : Nat) : List (String × String) := (List.range (b - a)).map fun i => ("k" ++ pad 3 (a + i) ++ "\x00", "v" ++ pad 3 (a + i) ++ "\x00\x00\x00")

#guard Res.holds (do
    let e ← newEnv 2560
    let a ← load e (k3 0 500)
    let b ← unload a.1 ((k3 250 500).map (·.1))
    match beginRead b.1 7 1 with
    | .error _ => .ub
    | .ok r1 => do
      let c ← load r1.1 (k3 600 900)
      let d ← load (endRead c.1 r1.2 7 1) (k3 900 999)
      .ok (b.2.freed.length, [a.1, b.1, c.1, d.1].map fun e => metaLast e.liveMeta))
  (fun r => decide (0 < r.1) && match r.2 with | [a, b, c, d] => decide (3 < a) && decide (b < c) && decide (d ≤ c) | _ => false) = true

end Verif.TestsDb
