import Verif.Output.JsonSpec
import Verif.Report.Model

/-!
# Model of the document `ft_report_json.c` builds

The loops are in `Verif.Report` (with `json = true`), which gives the groups; here is the construction of the document from them.  Of
jansson this is modelled: `json_string` gives NULL for a text that is not UTF-8, `json_object_set_new` with NULL
fails and sets nothing (its result is not looked at), the other constructors do not fail.  How `json_dumpf` writes the document
is in `Output/JsonText.lean`.  `gmt` is `apr_time_exp_gmt`.
-/

namespace Verif.Output

open Verif.Report (FileEnt Group)

/-- `XXH128_hash_t`. -/
structure Digest where
  high : UInt64
  low : UInt64
  deriving DecidableEq

/-- `apr_time_exp_t`: `year` counts from 1900, `mon` from 0. -/
structure Exp where
  year : Int
  mon : Int
  mday : Int
  hour : Int
  min : Int
  sec : Int

/-- The last `k` digits of a number. -/
def fixed (base : Nat) : Nat → Nat → List Char
  | 0, _ => []
  | k + 1, n => fixed base k (n / base) ++ [Nat.digitChar (n % base)]

/-- A natural number with a conversion such as `%04d` or `%016lx`: at least `k` digits. -/
def padded (base k n : Nat) : List Char := if n < base ^ k then fixed base k n else Nat.toDigits base n

/-- The same for a signed number. -/
def paddedInt (k : Nat) (n : Int) : List Char := if 0 ≤ n then padded 10 k n.toNat else '-' :: padded 10 (k - 1) (-n).toNat

/-- ft_report_json.c L46-55 `ft_format_time_iso8601_utc`. -/
def isoTime (gmt : Int → Option Exp) (t : Int) : List Char :=
  match gmt t with
  | none => "UNKNOWN_TIME".toList
  | some e => paddedInt 4 (e.year + 1900) ++ '-' :: (paddedInt 2 (e.mon + 1) ++ '-' :: (paddedInt 2 e.mday ++ 'T' :: (paddedInt 2 e.hour ++
      ':' :: (paddedInt 2 e.min ++ ':' :: (paddedInt 2 e.sec ++ ['Z'])))))

/-- ft_report_json.c L57-62 `ft_hash_to_hex`. -/
def hexDigest (h : Digest) : List Char := padded 16 16 h.high.toNat ++ padded 16 16 h.low.toNat

/-- jansson's `json_string`: NULL for a text that is not UTF-8. -/
def jsonString (s : List Char) : Option Json := if utf8 (s.map Char.toNat) then some (.str s) else none

/-- jansson's `json_object_set_new` on the members of an object: nothing is set if the value is NULL.  (The keys here differ.) -/
def setNew (m : List (String × Json)) (k : String) (v : Option Json) : List (String × Json) :=
  match v with
  | none => m
  | some j => m ++ [(k, j)]

/-- ft_report_json.c L64-77 `create_file_json_object`, for a file that is no archive member; `untar` is `OPTION_UNTAR`. -/
def fileJson (gmt : Int → Option Exp) (untar : Bool) (f : FileEnt) : Json :=
  let m := setNew [] "path" (jsonString f.path.toList)
  let m := if untar then setNew m "archive_subpath" (some .null) else m
  let m := setNew m "mtime_utc" (jsonString (isoTime gmt f.mtime))
  .obj (setNew m "prioritized" (some (.bool (Report.prioVal f != 0))))

/-- ft_report_json.c L119-131 `create_duplicate_set_json` with the files appended at L160. -/
def groupJson (gmt : Int → Option Exp) (untar : Bool) (g : Group Digest) : Json :=
  let m := setNew [] "size_bytes" (some (.int g.size))
  let m := setNew m "hash_xxh128" (jsonString (hexDigest g.hash))
  .obj (setNew m "duplicates" (some (.arr (g.files.map (fileJson gmt untar)))))

/-- ft_report_json.c L195-224 `ft_report_json`: the document. -/
def jsonReport (gmt : Int → Option Exp) (untar : Bool) (gs : List (Group Digest)) : Json := .arr (gs.map (groupJson gmt untar))

end Verif.Output
