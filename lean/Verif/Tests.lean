import Verif.Ignore.Exec
import Verif.HumanSize.Model
import Verif.Heap.Model
import Verif.Hash.Model
import Verif.Xxh.Model
import Verif.Cache.Witness
import Verif.Main.Argv
import Verif.Main.Images

/-!
# The unit tests of the project, run on the model

These are tests of the model, not proofs of properties: the calls of /repo/check with the results its assertions ask for.
-/

namespace Verif.Tests

/-! ## check/check_human_size.c -/

open HumanSize in
#guard format 0 = .bytes 0 ∧ format 512 = .bytes 512 ∧ format 1023 = .bytes 1023 ∧ format 1024 = .tenths 10 1 ∧ format 1536 = .tenths 15 1 ∧
    format (1024 ^ 2) = .tenths 10 2 ∧ format (1024 ^ 3) = .tenths 10 3 ∧ format (1024 ^ 4) = .tenths 10 4

open HumanSize in
#guard ([("1024", 1024), ("1K", 1024), ("1k", 1024), ("1M", 1048576), ("1m", 1048576), ("1G", 1073741824), ("1g", 1073741824), ("1T", 1099511627776),
    ("1t", 1099511627776), ("1.5K", 1536), ("2.5M", 2621440), ("1Z", -1), ("abc", -1), ("1.5.5K", -1), ("", -1)] : List (String × Int)).all
      (fun x => parse x.1.toList == .ok x.2) = true

/-! ## check/check_napr_heap.c -/

/-- `check_heap_numbers_cmp`. -/
def numCmp (a b : Nat) : Int := if a < b then -1 else if b < a then 1 else 0

/-- Insert all, then extract until nothing is left. -/
def heapRun (l : List Nat) : Res (Nat × List (Option Nat)) := do
  let h ← l.foldlM (Heap.insert numCmp 300) (Heap.make Nat)
  let r ← (List.range (l.length + 1)).foldlM (fun (s : List (Option Nat) × Heap.Heap Nat) _ => do
    let e ← Heap.extract numCmp 300 s.2
    .ok (s.1 ++ [e.1], e.2)) ([], h)
  .ok (Heap.size h, r.1)

#guard heapRun [6298, 43601, 193288, 30460, 193288] = .ok (5, [some 193288, some 193288, some 43601, some 30460, some 6298, none])
#guard heapRun (List.range 257) = .ok (257, (List.range 257).reverse.map some ++ [none])

/-! ## check/check_napr_hash.c -/

/-- Strings that are their own keys. -/
def strFns : Hash.Fns (List Char) (List Char) := ⟨id, Xxh.strHash⟩

def hashFill (nel ff : Nat) (keys : List (List Char)) : Res (List (Option (List Char)) × Hash.Table (List Char)) :=
  keys.foldlM (fun (s : List (Option (List Char)) × Hash.Table (List Char)) k => do
    let r ← Hash.search strFns s.2 k
    let t ← Hash.set strFns 40 s.2 k (Xxh.strHash k)
    .ok (s.1 ++ [r], t)) ([], Hash.makeEx (List Char) nel ff)

def key_ (n : Nat) : List Char := "key_".toList ++ (toString n).toList

/-- What a search for each key gives. -/
def hashAll (t : Hash.Table (List Char)) (keys : List (List Char)) : Res (List (Option (List Char))) := keys.mapM (Hash.search strFns t)

#guard Db.Res.holds (hashFill 16 4 ["key1".toList, "key2".toList]) (fun r => r.1 == [none, none] &&
    hashAll r.2 ["key1".toList, "key2".toList] == .ok [some "key1".toList, some "key2".toList]) = true

#guard Db.Res.holds (hashFill 2 2 ((List.range 50).map key_)) (fun r => r.1.all (· == none) &&
    hashAll r.2 ((List.range 50).map key_) == .ok ((List.range 50).map fun i => some (key_ i))) = true

#guard Db.Res.holds (do
    let r ← hashFill 1 10 ((List.range 5).map key_)
    let t ← Hash.remove strFns r.2 (key_ 1) (Xxh.strHash (key_ 1))
    let a ← hashAll t [key_ 1, key_ 0, key_ 2, key_ 4]
    let t ← Hash.remove strFns t (key_ 4) (Xxh.strHash (key_ 4))
    let b ← hashAll t [key_ 4]
    .ok (a, b)) (fun r => r == ([none, some (key_ 0), some (key_ 2), some (key_ 4)], [none])) = true

#guard Db.Res.holds (hashFill 2 5 ((List.range 8).map key_)) (fun r =>
    Db.Res.holds (Hash.iterate r.2 100 (Hash.first r.2)) fun l => l.length == 8) = true

#guard Db.Res.holds (hashFill 128 4 ["key1".toList, "key2".toList]) (fun r =>
    Db.Res.holds (Hash.iterate r.2 1000 (Hash.first r.2)) fun l => l.length == 2) = true

/-! ## Published values of XXH32 with seed 0 -/

#guard ([("", 0x02CC5D05), ("a", 0x550D7456), ("abc", 0x32D153FF), ("Nobody inspects the spammish repetition", 0xE2293B2F),
    ("0123456789abcdef", 0xC2C45B69)] : List (String × Nat)).all (fun x => (Xxh.strHash x.1.toList).toNat == x.2) = true

/-! ## check/check_ft_ignore.c -/

open Ignore

/-- The patterns of a context. -/
def pats (l : List String) : Res (List Pattern) := l.foldlM (fun ps p => addPattern runEngine ps p.toList) []

/-- One context with the base `/test`, and what it says about some paths. -/
def verdicts (ps : Res (List Pattern)) (l : List (String × Bool)) : Res (List Verdict) := do
  let ps ← ps
  .ok (l.map fun x => ignoreMatch [⟨"/test".toList, ps⟩] x.1.toList x.2)

#guard verdicts (pats ["*.o"]) [("/test/file.o", false), ("/test/file.c", false)] = .ok [.ignored, .none]
#guard verdicts (pats ["build/"]) [("/test/build", true), ("/test/build", false)] = .ok [.ignored, .none]
#guard verdicts (pats ["**/*.tmp"]) [("/test/file.tmp", false), ("/test/subdir/file.tmp", false), ("/test/a/b/c/file.tmp", false), ("/test/file.txt", false)] =
    .ok [.ignored, .ignored, .ignored, .none]
#guard verdicts (pats ["*.log", "!important.log"]) [("/test/debug.log", false), ("/test/important.log", false)] = .ok [.ignored, .whitelisted]
#guard verdicts (pats ["/build"]) [("/test/build", true), ("/test/subdir/build", true)] = .ok [.ignored, .none]
#guard (do
    let a ← pats ["*.o"]
    let b ← pats ["*.tmp"]
    .ok (["/test/subdir/file.o", "/test/subdir/file.tmp", "/test/subdir/file.c"].map fun p =>
      ignoreMatch [⟨"/test/subdir".toList, b⟩, ⟨"/test".toList, a⟩] p.toList false)) = Res.ok [Verdict.ignored, .ignored, .none]
#guard verdicts (loadContent runEngine 20 "*.o\nbuild/\n# This is a comment\n\n*.tmp\n".toList []) [("/test/file.o", false), ("/test/build", true),
    ("/test/file.tmp", false)] = .ok [.ignored, .ignored, .ignored]
#guard verdicts (loadContent runEngine 20 "*.o\r\nbuild/\r\n".toList []) [("/test/file.o", false), ("/test/build", true)] = .ok [.ignored, .ignored]
#guard verdicts (pats [".git/", ".svn/"]) [("/test/.git", true), ("/test/.svn", true), ("/test/.github", true)] = .ok [.ignored, .ignored, .none]
#guard verdicts (pats ["test_*.c"]) [("/test/test_foo.c", false), ("/test/test_bar.c", false), ("/test/mytest.c", false)] =
    .ok [.ignored, .ignored, .none]
#guard verdicts (pats ["*.log", "!important.log", "*.log"]) [("/test/important.log", false)] = .ok [.ignored]
#guard verdicts (pats ["  *.o"]) [("/test/file.o", false)] = .ok [.ignored]
#guard verdicts (pats ["file?.o"]) [("/test/file1.o", false), ("/test/file.o", false)] = .ok [.ignored, .none]
#guard verdicts (pats ["file[0-9].o"]) [("/test/file1.o", false), ("/test/filea.o", false)] = .ok [.ignored, .none]
#guard verdicts (pats ["\\*.o"]) [("/test/*.o", false), ("/test/file.o", false)] = .ok [.ignored, .none]

/-! ## check/check_db_page.c -/

def bytes_ (s : String) : Page.Bytes := s.toUTF8.toList

/-- `create_mock_leaf_page` and `create_mock_branch_page`: the nodes from the end of the page, the last one first. -/
def mockPage (pgno flags : Nat) (nodes : List Page.Bytes) : Page.Page :=
  let hdr := Page.le 8 pgno ++ Page.le 2 flags ++ Page.le 2 nodes.length ++ Page.le 2 (18 + 2 * nodes.length)
  let offs := (List.range nodes.length).map fun i => 4096 - ((nodes.drop i).map List.length).sum
  let p : Page.Page := Page.blit (fun _ => 0) 0 (hdr ++ Page.le 2 (offs.headD 4096))
  let p := Page.blit p 18 (offs.flatMap (Page.le 2))
  (offs.zip nodes).foldl (fun p on => Page.blit p on.1 on.2) p

def leaf_ : Page.Page := mockPage 1 2 ([("aaa", "val1"), ("bbb", "val2"), ("ccc", "val3")].map fun kv => Page.le 2 3 ++ Page.le 2 4 ++ bytes_ kv.1 ++ bytes_ kv.2)
def branch_ : Page.Page := mockPage 2 1 ([(10, "key1"), (20, "key2"), (30, "key3")].map fun nk => Page.le 8 nk.1 ++ Page.le 2 4 ++ bytes_ nk.2)

#guard Page.pgno leaf_ = 1 ∧ Page.flags leaf_ = 2 ∧ Page.numKeys leaf_ = 3
#guard (Page.items leaf_).map (fun it => (it.key, it.val)) = [(bytes_ "aaa", bytes_ "val1"), (bytes_ "bbb", bytes_ "val2"), (bytes_ "ccc", bytes_ "val3")]
#guard Page.pgno branch_ = 2 ∧ Page.flags branch_ = 1 ∧ Page.numKeys branch_ = 3
#guard (Page.items branch_).map (fun it => (it.key, it.child)) = [(bytes_ "key1", 10), (bytes_ "key2", 20), (bytes_ "key3", 30)]
#guard ["aaa", "bbb", "ccc"].map (fun k => Page.search leaf_ (bytes_ k)) = [.ok (some (.found 0)), .ok (some (.found 1)), .ok (some (.found 2))]
#guard ["000", "abc", "bcd", "zzz"].map (fun k => Page.search leaf_ (bytes_ k)) =
  [.ok (some (.notFound 0)), .ok (some (.notFound 1)), .ok (some (.notFound 2)), .ok (some (.notFound 3))]
#guard ["key1", "key2", "key0", "key9"].map (fun k => Page.search branch_ (bytes_ k)) =
  [.ok (some (.found 0)), .ok (some (.found 1)), .ok (some (.notFound 0)), .ok (some (.notFound 3))]
#guard Page.search (mockPage 1 2 []) (bytes_ "test") = .ok (some (.notFound 0))

/-! ## check/check_cache_mark_sweep.c: `test_sweep_integration` -/

open Cache Page Db

def path_ (c : Char) : Bytes := ("/sweep/test/" ++ c.toString ++ ".txt").toUTF8.toList
def entry_ (n : UInt8) : Bytes := List.replicate 40 n

example : Db.Res.holds (do
    let f ← filled [[(path_ 'a', entry_ 1), (path_ 'b', entry_ 2), (path_ 'c', entry_ 3), (path_ 'd', entry_ 4)]]
    let s ← markSweep f.2 [path_ 'a', path_ 'c'] none
    let a ← look s.2.env (path_ 'a')
    let b ← look s.2.env (path_ 'b')
    let c ← look s.2.env (path_ 'c')
    let d ← look s.2.env (path_ 'd')
    let s2 ← markSweep s.2 [path_ 'a'] none
    let a2 ← look s2.2.env (path_ 'a')
    let c2 ← look s2.2.env (path_ 'c')
    .ok ((s.1, s2.1), [a, b, c, d, a2, c2])) (fun r => r.1 == (.success, .success) && decide (r.2.map Except.toOption = [some (entry_ 1), none, some (entry_ 3), none,
      some (entry_ 1), none])) = true := by decide +kernel

/-! ## check/check_ftwin.c: whole runs

The tree check/tests/recurse as it is (three empty files), and the files of 1, 5 and 10 KiB. -/

open Main Traverse

def files_ : List (String × Nat × UInt8) := [("check/tests/1K_file", 1024, 1), ("check/tests/5K_file", 5120, 2), ("check/tests/5K_file_copy", 5120, 2),
  ("check/tests/10K_file", 10240, 3), ("check/tests/recurse/file1", 0, 0), ("check/tests/recurse/.hidden_file", 0, 0), ("check/tests/recurse/subdir/file2", 0, 0)]

def tree_ : FS where
  stat _ p := match files_.find? (fun x => x.1.toList == p) with
    | some x => some { kind := .reg, size := x.2.1 }
    | none => if p = "check/tests/recurse".toList ∨ p = "check/tests/recurse/subdir".toList then some { kind := .dir } else none
  readdir p :=
    if p = "check/tests/recurse".toList then
      some [(".".toList, .dir), ("..".toList, .dir), (".hidden_file".toList, .reg), ("file1".toList, .reg), ("subdir".toList, .dir)]
    else if p = "check/tests/recurse/subdir".toList then some [(".".toList, .dir), ("..".toList, .dir), ("file2".toList, .reg)]
    else none
  ignore _ := none

def machine_ : Machine := { exMachine with
  engine := runEngine
  compile := fun e _ => (Ignore.parse e).map fun r s => r.find true s
  fs := tree_
  disk := fun p => match files_.find? (fun x => x.1 == p) with
    | some x => ⟨List.replicate x.2.1 x.2.2, [], true, true, true⟩
    | none => ⟨[], [], false, true, true⟩
  fuel := 20000 }

/-- The exit status and the text of a run. -/
def run_ (argv : List String) : Option (Int × String) := match ftwinArgv machine_ exPuzzle (fun n => n) [] (argv.map String.toList) with
  | .ok (s, .text t) => some (s, String.ofList t)
  | .ok (s, .failed) => some (s, "failed")
  | _ => none

#guard run_ ["-m", "2K", "-M", "8K", "check/tests/1K_file", "check/tests/5K_file", "check/tests/10K_file", "check/tests/5K_file_copy"] =
    some (0, "check/tests/5K_file\ncheck/tests/5K_file_copy\n\n")
#guard run_ ["-R", "check/tests/recurse"] = some (0, "")
#guard run_ ["check/tests/recurse"] = some (0, "check/tests/recurse/file1\ncheck/tests/recurse/subdir/file2\n\n")
#guard run_ ["-a", "check/tests/recurse"] =
    some (0, "check/tests/recurse/.hidden_file\ncheck/tests/recurse/subdir/file2\ncheck/tests/recurse/file1\n\n")
#guard run_ ["./non-existent-directory"] = some (-1, "failed")
#guard run_ ["check/tests/1K_file", "check/tests/5K_file"] = some (0, "")
#guard run_ ["-j", "foo", "dummy_path"] = some (1, "failed")

end Verif.Tests
