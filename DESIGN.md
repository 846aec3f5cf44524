# Formal model of ftwin in Lean 4: design

Source: `/repo` (ftwin, C).  Everything below is about a hand-written Lean model of that
code; the tie between model and code is the citation (file and lines) carried by every
definition in `lean/Verif/`.

## 1. Trusted base

* Lean 4.33's kernel and the three standard axioms `propext`, `Classical.choice`,
  `Quot.sound`.  No axioms of our own, no `sorry`, no `native_decide`, no `bv_decide`.
* The reading of the C code recorded in the doc comments of the model.
* Modelled as parameters (the theorems hold for every choice unless said otherwise):
  comparators, hash functions (XXH32 except in `Xxh/`, where it is modelled from the vendored source; XXH128 likewise, a parameter elsewhere and modelled in `Xxh/Model128.lean` by its scalar functions for little-endian 64-bit machines, seed 0 and the standard secret, the vector variants being taken to agree), the regular-expression engine outside the
  fragment that glob translation emits, the order in which `qsort` leaves equal elements,
  the scheduler, the outcome of `mmap`, the crash point and the set of unsynced page
  writes that reached the disk.
* Not modelled: memory allocation failure inside APR pools (except where stated), the
  libraries APR, PCRE, XXHash, jansson (only that `json_string` refuses what is not UTF-8, and how `json_dumpf` writes), libpuzzle, libarchive,
  `printf` beyond the conversions used.  In image mode (`ft_image.c`) and archive mode
  (`ft_archive.c`) what the libraries return is a parameter: images, distances, and what reading an archive yields.
* Undefined behaviour (out-of-bounds page access, NULL dereference) and non-termination are
  explicit outcomes of the model (`Res.ub`, fuel exhaustion), never assumed away.

## 2. Layout

Each area `X` has `Verif/X/Model.lean` (the code), `Verif/X/Lemmas*.lean` (helper lemmas)
and `Verif/X/Props.lean` (the property theorems, each followed by a concrete non-vacuity
example; the specification is stated there independently of the model).

| area | C source | properties |
|---|---|---|
| Heap | `napr_heap.c` | C01-C03, C102, C103, C135 |
| Hash | `napr_hash.c`, `key_hash.c` | C04-C07, C97, C130, C137 |
| Pool | `napr_threadpool.c`, `ft_process.c` | C08-C11, C68, C89, C100, C134 |
| Report | `ft_process.c`, `ft_report.c`, `ft_report_json.c` | C12-C19, C31, C64, C65, C110, C128 |
| File | `ft_file.c` | C20-C22, C63, C127 |
| HumanSize | `human_size.c` | C23, C24, C98 |
| Ignore | `ft_ignore.c` | C25-C29, C109 |
| Traverse | `ft_traverse.c`, `ftwin.c` | C30, C69-C75, C127 |
| Config | `ft_config.c` | C32-C34, C61, C62, C66, C67 |
| Page | `napr_db_tree.c` (page level, byte level) | C35-C40, C116 |
| Tree | `napr_db.c`, `napr_db_tree.c`, `napr_db_cursor.c` | C41-C48, C57, C76-C78, C122-C125, C129, C131, C132, C136, C138 |
| Txn | `napr_db.c` (transactions, meta pages, crash) | C49-C56, C79, C88, C101 |
| Cache | `napr_cache.c` | C58-C60, C122, C124, C125, C133, C138 |
| Output | `ft_report.c` (printing), `human_size.c`, `ft_report_json.c` (document) | C80, C82, C99 |
| Image | `ft_image.c`, `ftwin.c` (which report) | C81, C86 |
| Archive | `ft_archive.c`, its callers in `ft_process.c` and `ft_report.c`, `ft_file_make` | C83, C84, C87 |
| Xxh | `vendor/xxhash/xxhash.h` (XXH32, XXH3 with 128 bits), `key_hash.c`, `ft_config.c` (groups) | C90, C91, C111, C112 |
| Main | `ftwin.c`, `ft_config.c` (all together) | C92, C93, C105-C107, C117, C126 |
| Db/Handle | `napr_db.c` L33-390 (opening, closing, flags, several handles) | C94, C95, C96 |

**Checks of the model against the project's tests.**  `Verif/Tests.lean` runs the calls of `check_human_size.c`,
`check_napr_heap.c`, `check_napr_hash.c`, `check_db_page.c`, `check_ft_ignore.c`, the runs of `check_ftwin.c` and the sweep test of `check_cache_mark_sweep.c` on the model and
compares with what their assertions ask for; published values of XXH32 are checked too.  The tests of the database
(`check_db_write.c`, `check_db_split.c` with the 1000 insertions of its root split, `check_db_delete.c`, `check_db_mvcc.c`, `check_db_cursor.c`)
are run by `Verif/TestsDb.lean`, `Verif/TestsCursor.lean` and `Verif/TestsMvcc.lean`, with the used bytes of each page kept in a table between calls.  These are tests of the model,
not part of any proof.

## 3. Plan per property

* **C01-C03** array heap as a list of elements with explicit index arithmetic; sift-up and
  sift-down as recursive functions; heap-order invariant by induction over the operation
  list; multiset conservation by `List.Perm`.  Growth loop over `UInt32`-style modular
  arithmetic for C03.
* **C04-C07** table as a list of buckets with mask and fill factor, `set`/`rebuild` with a
  fuel argument because the real code may diverge; refinement to a finite map; termination
  theorem giving enough fuel under the collision bound; witness of divergence; witness that
  `set` does not update (C07 false of the code, kept partial).
* **C08-C11** transition system with one mutex and one condition variable, any number of
  workers, one submitter; a transition per lock-protected block (sound because all shared fields
  are only touched with the mutex held).  Invariants by induction over executions; a measure that every step
  decreases bounds the length of executions.  Spurious wake-ups of workers are part of the executions; those of the
  submitter are a separate transition, used for the witness of C68.  The hashing phase is tied to the sequential
  model of the Report area: tasks commute.
* **C12-C19** pipeline as functions over lists: size classes, digests, any sorted
  permutation, the nested loops with in-place marking and a NULL-dereference outcome.
* **C20-C22** byte lists, chunk loop, arbitrary read splits; a mapping reads as zero behind the end of the file up to the end of the page.
* **C23-C24** `strtod`'s decimal grammar and IEEE double rounding, exactly (values in units of
  2^-1074), including hexadecimal, `inf` and `nan` (but not `nan(...)`).  APR's `%.1f` is taken to
  round to nearest.
* **C25-C29** translation to text, function by function.  The engine is a parameter; `Engine.Conforms` says that it is
  right about the fragment of PCRE defined in `Ignore/Regex.lean` (a parser and a matching relation).  The engine is also
  assumed not to compile a text that ends inside a class or one with a POSIX element outside a class.  Glob semantics is an
  independent inductive relation; classes hold characters, ranges, escaped characters, a first closing bracket and the
  named classes of the C locale.  `refEngine` shows that a conforming engine exists,
  `runEngine` (`Ignore/Exec.lean`) is one that computes.
* **C30, C69-C75** the file system is a parameter (what `stat`, `opendir` and `.gitignore` give for a path); recursive
  traversal with fuel; inductive reachability specification.  The run of `ftwin.c` composes it with the Report area.
* **C32-C34** fold over option lists.
* **C35-C40** page as 4096 bytes, every field at its byte offset, accesses outside are undefined behaviour; refinement to
  the list of entries read through the slots (`Page/Spec.lean`); the loops are characterised by the bytes they change.
* **C41-C48, C57, C76** trees are read off a view (page number to page) by height (`Db/Spec.lean`); `Holds` ties a transaction to
  a listing, `IsMap` to an abstract map; refinement of `put`, `del` and `get` to the map, with the condition `PutSafe`
  on splits that the code gets wrong.  The allocator is a parameter of the insertion lemmas (`Ext`).
* **C49-C56** (`Db/TxnModel.lean`) environment and transactions as values; a commit is a list of file operations, of which any
  number may happen; `Crash` gives the contents possible afterwards (synced state plus any selection of unsynced bytes; a meta
  page is taken to be written whole).  `DbOk` (`Db/TxnSpec.lean`) says which map a database holds; `Writing` which map a write
  transaction holds; histories (`Run`) refine the map.  The lock and the reader table are transition systems
  (`Db/LockProps.lean`).  Witnesses are runs of the model itself (`Db/Witness.lean`).
* **C58** (`Cache/Lock.lean`) transition system of processes that open, fail to open, close and end; the lock is a record lock of
  `fcntl`, as `apr_file_lock` uses it on POSIX systems.
* **C59, C60** (`Cache/Model.lean`) the cache as a layer over the transactions of the database; histories (`Cache/Hist.lean`) refine
  a map from paths to records.  The sweep moves a cursor while it deletes; `sweepFrom` has no outcome if the cursor comes to a
  page already copied, and the proof shows that it does not in databases without an empty leaf.  `Cache/Live.lean` has the sweep with
  a cursor of pointers and no such question; it has the same outcomes (`sweep_with_pointers`).
* **C80, C82** (`Output/`) the printing code gives a text from the groups of the Report area, the JSON code a document.  The specifications
  are readers (`Output/Spec.lean`, `Output/JsonSpec.lean`): they cut the text into blocks and names, or take members out of objects and
  turn digits and time stamps into numbers.  `apr_time_exp_gmt` is a parameter, assumed right (`GmtOk`).
* **C85** (`Db/ReclaimProps.lean`) the specification reads the entries of the Free DB as pairs of a transaction id and a page (`recorded`);
  `pageNos_written` says that this reading undoes what a commit writes.  An allocation removes one such pair.
* **C81, C86** (`Image/`) the heap holds the numbers of the records, the vectors are kept apart; libpuzzle is a parameter.  The tasks go
  through the pool model, so the theorem is about every complete execution of it.  `Exact` (`Image/Spec.lean`) says in terms of positions in
  the list of files what the groups must tell; the text is read with the reader of C80.
* **C83, C84, C87** (`Archive/`) an archive is the sequence of headers and blocks that libarchive yields, with an error in any place; the
  state is the disk (names and contents), the file creation mask and the number of libarchive objects.  `Assembled` (`Archive/Spec.lean`)
  says position by position what a file made of blocks holds.  The interleaving of the two `umask` calls by several threads is a separate
  small machine (`maskAfter`).  Not modelled: members that are links or directories (`archive_write_header` would create those), a gap behind
  the last block, `apr_file_remove` failing.
* **C88** (`Db/MapProps.lean`) `getPage` of a page beyond the map is undefined; the map size is a field of the environment.
* **C89** (`Pool/Order.lean`, `Pool/Cells.lean`) the order of the events of the pool by the invariant "submitted = begun ++ waiting"; the
  linked list of `napr_threadpool.c` as cells in a memory with a list of free cells, refined to a queue (`spec`).
* **C90** (`Xxh/`) XXH32 on 32-bit vectors.  Every step of it on four bytes can be undone, so for a given upper half of a size and a given hash
  there is exactly one lower half (`sizeHash_upper`); hence at most k sizes below k times 4 GiB share a hash, and the eight sizes of the
  witness are found by solving for the lower half.
* **C91** (`Xxh/Gids.lean`) `getgroups` is a list; the table of groups is the hash table of C04 with XXH32.
* **C92, C93** (`Main/`) `ftwinMain` puts the models of option parsing, group table, traversal, hashing and report together; all tables
  hash with the modelled XXH32.  What a command line asks for (`asked`, `separator`, `place`, `Help` in `Main/Spec.lean`) is read off the list of
  options, not off the configuration.  `apr_getopt_long` is given by its tokens there, and modelled in `Config/Getopt.lean` (C113).  Parameters of a `Machine` are what the program
  meets: file system, contents, user and groups, PCRE, XXH128, `qsort`, clock.  Hashing is sequential in this model; that the pool computes the
  same is C08 and C11.
* **C94-C96** (`Db/Handle.lean`) a handle, the file at its path, and counters of open descriptors and mappings.  Which calls of the operating
  system fail is a parameter.  Assumed of the system: a mapping covers whole pages, reading a page of it beyond the end of the file is undefined
  (`SIGBUS`), `write` and `ftruncate` fail on a descriptor that is not open for writing, and two mutexes made without a name are different.
  A second handle on a file (`onFile`) has its own live meta page, lock and reader table; transactions through two handles are interleaved as
  whole transactions only.
* **C97** (`Hash/Limit.lean`) the table of C04 with a largest power for which the arrays can be had.  Elsewhere memory is unlimited, so that "never
  returns" and "forever" (C06, C61, C90) mean: doubles the table until the memory is used up; what happens then is C97.
* **C98** (`HumanSize/NumSpec.lean`) texts of numbers as inductive relations with the value of the text; the nearest double is described without
  reference to a rounding procedure (`Nearest`) and is unique (`nearest_unique`).
* **C99** (`Output/Color.lean`) a terminal as an interpreter of ESC `[` code `m`.
* **C100** (`Pool/Startup.lean`) the creation loop interleaved with the workers already created; no worker leaves its loop without a shutdown.
* **C101** (`Db/FailProps.lean`) the file operations of a commit up to the failing one; what is then in the file is compared with the state before (`untouched`) and with that of a complete commit (`commit_detail`).
* **C102, C103** (`Heap/Shared.lean`) a NULL array is one without cells; the threads in `napr_heap_insert_r` are interleaved between its statements (round by round in the loop), the invariant is that what the holder of the mutex has still to do ends in the heap of the whole insertion (`finish`). `apr_palloc` is taken to return NULL when memory is short; locking and unlocking do not fail.
* **C41, C42, exact** (`Db/ExactSpec.lean`) `sight` says what a search finds from a page down, without asking that the tree be in order; `Stray` and `Unreached` name the keys that it no longer finds after the splits, level by level, in terms of the tree before. The proof follows the way up (`Db/ExactUp.lean`) as that of the safe case does, with `Halves` in place of well-formed halves. `Db/Check.lean` decides well-formedness of concrete trees, for examples only.
* **C104** (`Db/Desc.lean`, `Db/DescProps.lean`) `cost` adds up the bytes of pairs on a page. `OneLeaf` is the invariant of a descending load into one page: the first entry is the lowest. `descending_refused` is the negation for all such loads, not a single witness.
* **C105-C107** (`Traverse/Order.lean`, `Report/Same.lean`, `Main/Same.lean`) relate two or three runs. `Reordered` file systems list the same entries in another order; `Alike` command lines have the same deciding options; `told` is what a reader of the text gets; `SameSets` compares two lists of groups up to order. All three follow from exactness (C13, C92) and from the traversal finding the same files as often.
* **C92 for images** (`Main/Images.lean`) `image_run_partial` joins C81 to the whole program.
* **C108** (`Db/Begin.lean`, `Db/BeginProps.lean`) a model of its own: the loads of `napr_db_txn_begin` and the stores of `commit_meta_page` one by one, one reader, one writer at a time. `begin_partial` is an invariant over all interleavings with at most one overlapping write transaction. Assumed: sequential consistency, fields stored whole.
* **C109** (`Ignore/Git.lean`, `Ignore/GitProps.lean`) `Wild` and `GitMatch` are gitignore(5) written down; `git_pattern_partial` shows that the code agrees on the patterns of `Agreeing` for all paths without empty components (`Clean`).
* **C110** (`Report/Threads.lean`) `ftwinT` is the run with its digests taken from what the threads of the pool model leave behind; `threads_do_not_matter` shows that it equals the sequential run for every number of workers and every complete execution, `threaded_run_exact_partial` puts C13 on top of it, `runs_out` shows that complete executions exist.
* **C21, C45, C46, C59, C77, exact forms** `read_comparison` gives the answer of the comparison for files that are read, whatever their lengths. `Db/LeavesProps.lean` and
  `Cache/Exact.lean` keep the leaves apart (`leaves`, `untilEmpty`, `sinceEmpty`) and so say what a scan, a series of moves and a sweep do in trees with empty leaves too.
* **C111, C112** (`Xxh/Model128.lean`, `Stream.lean`, `Whole.lean`, `Inj.lean`, `Collide.lean`, `Props128.lean`) XXH3 with 128 bits on 64-bit vectors; reading outside the input, the secret or the buffer is
  undefined behaviour.  The streaming state is related to the bytes passed so far (`Holds`): they are the consumed ones, taken in by `absorbN`, and those in the buffer; `update` keeps this, and `digest`
  finishes the same computation as the call on the whole.  For at most 16 bytes every step can be undone; above, two words of input multiplied with one another are exchanged so that the product is
  zero either way.
* **C64, exact form** (`Report/Crash.lean`, `Report/CrashProps.lean`) the loop over a class breaks off exactly if a marked entry follows an unmarked one of its digest (`Stale`) or will (`Split`); one turn of the loop keeps
  this condition (`turn`).
* **C17, exact form** (`Report/Cut.lean`, `Report/CutProps.lean`) the answers of the comparisons are any function of two files, failures counting as "different".  `Cut` is the form a class must have to be reported to the end.
* **C71, C105-C107** (`Main/Same.lean`) `Tells` is what a reader of either format gets; `any_run` joins the two formats.
* **C74, exact form** (`Traverse/Links.lean`, `Traverse/LinkProps.lean`, `Main/Links.lean`) a file system with symbolic links is a graph (`Graph`, `Mount`): entries stand for nodes directly or through a link, paths through more than `limit` links or of `pathMax` characters do not resolve.  A path with an empty component (`a//b`, `a/`) does not resolve there; the scan never makes one.
* **C113, C114** (`Config/Getopt.lean`, `GetoptLemmas.lean`, `GetoptProps.lean`, `Main/Argv.lean`) the words of a command line.  The table of options is that of ft_config.c with JSON support; `apr_getopt_long` is not in /repo and is modelled after APR 1.7 (misc/unix/getopt.c) with `interleave` unset.  What it prints on the standard error output is not modelled.  The specification is `Spelled`/`Line`, which says how options are written without saying how they are scanned.
* **C92, C64, C17 for whole runs** (`Main/Whole.lean`, `Main/Crash.lean`) `whole_run` gives a run as an equation in the report on the files found; `Calm` replaces `Quiet` (which remains as a simpler sufficient condition) and lets files fail to open; `seen` is what a user of a terminal sees (C99).  `reader` takes the outcome of `checksum` from the model of C14, where a mapping that is no longer valid is undefined; this cannot occur with files of the recorded length.  `run_crashes_iff` quantifies over all sorting routines allowed by the C standard (`Sorts`).
* **C115** (`Report/Messages.lean`, `Output/Dry.lean`) the lines on the standard error output while files are compared, as a function of the pairs compared.  Progress lines and the text of APR errors are not modelled.
* **C116** (`Page/Damage.lean`, `Page/DamageSplit.lean`) the page operations on pages of arbitrary contents: exact conditions for undefined behaviour, from the bytes of the page.  For splits the result is given as long as the copied nodes lie inside the page and fit an empty one.
* **C134** (`Pool/After.lean`, `Pool/AfterProps.lean`) the model of the pool for any program of calls, calls after the shutdown included (the other theorems on the pool ask that the shutdown is the last call).  A second shutdown, which joins threads twice, is not considered.
* **C135** (`Heap/Effort.lean`) the loops of `napr_heap.c` with a record of the pairs compared; `insertT_fst` and `extractT_fst` show that without the record they are the functions of `Heap/Model.lean`.
* **C137** (`Hash/Effort.lean`) the loops of `napr_hash_search` and `napr_hash_remove` element by element, with a record of the elements looked at; `searchT_fst` and `removeT_fst` show that without the record they are the functions of `Hash/Model.lean`.  The bound holds because `napr_hash_set` doubles the table as soon as a bucket has `ffactor` elements; for the same reason the number of buckets does not follow the number of elements (`two_elements_many_buckets`: 2 elements, 2^32 buckets).
* **C117** (`Output/Recipe.lean`, `Main/Recipe.lean`) the clean-up recipe of README.md L125-131 applied to the report of a whole run.  `cut`, `grep` and `read` are not part of the program; they are specified as functions of text (`recipe`), `grep` with a word free of special characters.  C73 says when no path is found twice.  What names stand for is given by a structure `Entries`: the directory entry that `rm` removes and the entries needed to read the file; the theorem asks that no file found needs the entry of another one (`Apart`).  Without that it is false (`recipe_loses`): `ftwin -f` with a link to a file in the prioritised path, or `ftwin . ./tmp`, lose the last copy.
* **C126** (`Traverse/Removed.lean`, `Main/Again.lean`) the recipe repeated.  `FS.without` is the file system after `rm`: a removed path cannot be examined and is not listed.  Between the runs nothing else changes.  Each run may have its own schedule of threads.  Files given as arguments make all later runs fail (`recipe_again_fails`).
* **C127** (`File/Handles.lean`, `File/HandleProps.lean`, `Traverse/Handles.lean`) descriptors.  `ft_file.c` is modelled a second time with the number of files and mappings the process has open and the most it may have; `compare_room` and `digest_closes` show that with enough free descriptors the results are those of the first model.  The scan is modelled a second time with the number of free descriptors, one less at each level.  Left out: libarchive's files, interleaving of the digest threads (each holds at most one file), descriptors for the image library.
* **C128**, **C112** (`Main/Genuine.lean`) runs in which the digest (XXH128), the comparison of digests (`memcmp` over the sixteen bytes in memory, little-endian) and the table of sizes (XXH32) are those of the program and no longer parameters; of `qsort` only that it sorts.
* **C50** (`Db/Remap.lean`) the rewriting of child pointers at a commit, for an arbitrary renumbering of pages.
* **C47, C118** (`Db/SeekProps.lean`) positioning at or after a key and failed positioning, exactly, with all moves that follow.
* **C76, C104** (`Db/Refused.lean`, `Db/RefusedUp.lean`, `Db/RefusedProps.lean`) puts that answer "no space", exactly when the leaf refuses, with a bound when a page above does; two pairs too large for one page.
* **C121** (`Db/Pointer.lean`, `Db/PointerProps.lean`) the pointer `napr_db_get` hands out as a page number, a flag (map or buffer), an offset and a length; `deref` is the caller's later read.  A buffer of the dirty table is never freed before the transaction ends, so a pointer into it stays valid as memory; that a split may replace the table's entry for a number (see `insertHalf`) makes `deref` read the new buffer where C reads the old one, which matters only when an allocation hands out the number of a page the transaction holds already; `Calm` admits puts that add pages at the end (numbers above that of the pointer's page, `Db/PointerSplit.lean`) and no others that allocate.
* **C130** (`Hash/Sweep.lean`, `Hash/SweepProps.lean`) the client's loop with `first`, `next`, `this` and `remove` of the model; the loop is not in the project, the promise about it is (napr_hash.h L160-161).
* **C132** (`Db/PutFrom.lean`, `Db/PutFromProps.lean`) `napr_db_put` with its value given by a `Ptr` of `napr_db_get`: `srcBytes` is what `memcpy` reads, after the header and the key of the node were written; overlapping regions are undefined.  The other functions are those of `Db/Model.lean` with that insertion.  The key is given by its bytes.
* **C133** (`Cache/AlignProps.lean`) the pointer of `napr_cache_lookup_in_txn` is that of `napr_db_get`; reading a record through it is undefined unless its position on the page is a multiple of eight.  The map and the buffers of a transaction are taken to begin at multiples of eight.  No other read in the model asks for alignment: the structures of the pages are `packed`; the arrays of page numbers in the Free DB, which `napr_db.c` L1014 and L1119 read through a `pgno_t *`, are not, and `next_aligned` with keys of eight bytes shows that they too are misaligned every other time.
* **Caller's memory.**  Keys and values passed to `put` and `del` are taken to lie in memory these do not change; the one place where the library itself passes a pointer into a page it modifies is modelled (`putThrough`).
* **C110, C68 with all wake-ups** (`Report/Wakeup.lean`) executions in which the waiting thread may be woken too (`ExecS`); the effect of any list of ended tasks on the records (`work_members`) reduces a run to one with unreadable files.  That ft_process.c L226 destroys the mutex of the counter under the workers is left out.
* **C41, C42, C76** (`Db/QuietProps.lean`) the same in a database whose Free DB exists but gives no page back, because a reader is open that is not newer than its entries; `first_put_exact_partial` says it of whole databases.
* **Small definitions** (`Fixed.lean`) arithmetic, flag tests, character classes and defaults are compared with the C expressions on machine words.
* **C119, C82** (`Output/JsonText.lean`, `JsonTextLemmas.lean`, `JsonTextProps.lean`) the text of a JSON report.  `readText` is a reader for RFC 8259 (integers only); `dump` is a model of jansson's `json_dumpf`, which is not in /repo (after jansson 2.14).
* **C120** (`Report/Effort.lean`) which files are digested and which pairs compared: each file once, each pair at most once, and as many comparisons as the report has files beyond the first of each group, if digests do not collide.

## 4. Places where the code does not satisfy the intended property

Each is established by a theorem (a witness or a general refutation) and, where something
weaker holds, a `_partial` theorem.

* **C07** `napr_hash_set` never updates: a second set of the same key stores a second element
  and search keeps returning the first (`hash_set_never_updates`).
* **C21** `big_filecmp` reports equal when the first file has become a proper prefix of the
  second, or when the second is shorter and the first fits in one chunk; files compared through mappings count lost bytes
  of the last page as zeros (`mapped_comparison`, `shrunk_mapped_reported_equal`).
* **C63** a failing or short read of the *second* file ends the comparison loop with
  `status1 == APR_SUCCESS` and result 0, that is "equal".
* **C23** (documentation) the usage text advertises the suffix `B`, the parser rejects it; and a
  size whose value exceeds the range of `apr_off_t` is converted from double without a range
  check, which is undefined behaviour.
* **C61** repeating one name eight times in `-i` makes the hash table grow forever (C06, C07).
* **C62** an unknown option ends option parsing; what follows is taken as file names (`Main.wrong_option_run`: it acts like `--`).
* **C17** three identical files A, B, C, where comparing A with B fails: C is marked as a
  duplicate of A, then B is compared with the marked (NULL) C (`failing_comparison_crashes`).  The same with a
  digest collision between A and B (**C64**, `digest_collision_crashes`).
* **C65** a path given twice, or reached through two arguments, is reported as a duplicate of itself.
* A file whose digest cannot be computed keeps an uninitialised digest field (`World.junk`).
* **C68** `napr_threadpool_wait` waits once, without testing a predicate in a loop: a spurious wake-up of the submitter
  makes it return early and drop the queue (`spurious_wakeup_loses_task`).  With no worker at all it hangs (`no_workers_hang`).
* **C25** the pattern `a/**/` never matches a directory `a/x` (`trailing_double_star_slash`); `a[!b]c` matches `a/c`
  (`class_matches_slash`); `\d` matches digits and not the name `d` (`escaped_letter`); `[]*]` and `[[:digit:]*]` do not
  match `*`, because the translation takes the first `]` for the end of the class (`bracket_first_class`, `named_then_star`);
  `[:a:]` is not compiled and the pattern dropped (`posix_class_dropped`).
* **C27** the loop over the chain of ignore files goes outwards and keeps overwriting the verdict: the outermost file wins
  (`outermost_match_wins`, `nested_file_overridden`).
* **C28** lines are read in pieces of 4095 characters: the tail of a longer comment is a pattern
  (`long_comment_tail_is_pattern`).
* **C29** a pattern of 1023 question marks overruns the 4096-byte buffer (`translation_overflows`).
* **C69** any failure below any argument (a directory that can be entered but not listed, a file that vanishes) ends the run
  without report (`traversal_succeeds_iff`, `one_bad_directory_fails_run`).
* **C70, C71** the context of the default patterns has base `/`: relative paths are not below it, and of absolute paths
  all components count, so `ftwin /usr/bin` finds nothing; JSON mode makes paths absolute and thus considers other files than text
  mode (`default_patterns_depend_on_spelling`, `json_mode_misses_files`).
* **C74** with `-f`, a failed `stat` reads an uninitialised structure; a link to a parent directory always leads there
  (`link_cycle_undefined`).
* **C75** with `-R -f`, linked directories are scanned (`no_recurse_follows_linked_directories`).
* **C36, C37** sizes of keys and values are not checked: they are converted to `uint16_t`, so a long key is looked up as a prefix
  of itself, and an entry of 65536 bytes or more whose wrapped size fits is written beyond the page
  (`oversized_key_is_truncated`, `oversized_insert_undefined`).
* **C41** a leaf that deletions have emptied can have less room than a new page (splits leave holes).  A pair that fits a new page but
  not this room makes the program split the empty leaf.  The pair goes to the new page, and the divider is read from the header of
  the new page, so the search for the pair does not come there (`replaced_value_lost`).  The model reads the divider where the
  program follows the pointer, after the insertion (`dividerNow`); if the page number is above 4092 the model calls this undefined
  at once, where the program would first compare and then refuse.
* **C41** an entry that falls exactly on the middle of a leaf being split goes in front of the right page, but the separator is
  the key after it, so searches go to the left page (`stored_value_lost`; for every database of one full leaf
  `middle_key_lost`, and `full_leaf_found_iff` shows that no other key is lost in this way).  In a tree of any height `put_exact_partial` says which
  keys are lost: the middle key unless it ends up behind a separator that falls on the middle as well, and with such a separator the whole right half
  of the child below the divider.
* **C42** the first separator of a branch page is not a lower bound of the first child's keys; when that child is split at a key
  smaller than it, the new separator goes in front and the two children swap roles (`put_loses_other_key`).
* **C43** keys of 65536 bytes or more are treated as a proper prefix of themselves (`oversized_del_is_truncated`).
* **C48** in a leaf already touched by the transaction, `put` of a stored key fails with `APR_EEXIST`
  (`put_refused_in_touched_leaf`, `second_put_refused`).
* **C57** the bound on the descent holds, but a damaged branch page with no entries leads to a read outside the page
  (`damaged_branch_undefined`); `napr_db_get` has no bound at all and loops on a cyclic store (`get_loops_on_cycle`).
* **C76** a split that fails half-way leaves the moved entries unreachable: a `put` of an oversized value loses other keys
  (`oversized_put_loses_key`, `failed_put_loses_key`).
* **C44** a tree of more than 32 levels refuses every further key (`deep_tree_refuses_put`); the bulk-load theorem therefore has a
  bound on the number of keys, exponential in the fan-out of branch pages.
  The sizes of the entries must not differ too much (`Limits.Good`): after two small entries, three of 1900 bytes in ascending order
  end in a `put` that fails and loses another key (`mixed_load_fails`).
* **C45, C46** false once a deletion has emptied a leaf: FIRST, NEXT, LAST and PREV stop at an empty leaf (`empty_leaf_hides_keys`).
  The theorems assume that no leaf is empty; `put` keeps this (`put_keeps_full_partial`), only `del` breaks it.
* **C47** SET_RANGE looks at one leaf only; it misses a key in the next leaf (`range_seek_misses`).
* **C45-C47, C77** a cursor keeps pages by value in the model, by pointer in the code: the cursor theorems are about a transaction
  that does not write while the cursor is open.  `Db/Live.lean` has the cursor with pointers; without changes the two are the same (`pointers_are_pages`).
* **C50, C55** false: copy-on-write keeps the page number, so a page listed as freed stays in its tree; every page the allocator
  takes from the Free DB is in use.  `recorded_pages_in_use` (`Db/LiveFree.lean`) proves this of every history from creation on in which
  no page has been taken from the Free DB yet (`Run`).  Three transactions of one 1900-byte `put` each lose the first key (`committed_key_lost`); four
  make a lookup run for ever (`committed_key_unreachable`); a reader that is open does not prevent it (`reader_page_handed_out`).
* **C51** false: dirty pages are written over the live ones before the meta page is; a crash in between shows a mixture
  (`crash_loses_key`).  It holds for the first transaction of a new database (`crash_first_load_partial`).
* **C52** false for the same reason: a reader sees later changes (`snapshot_changes`) and loses keys (`snapshot_loses_key`).
* **C54** false when another thread than the one that began a read transaction ends it (`slot_left_behind`).
* Not proved, seen while modelling commits: a crash during the creation of the file leaves two pages of zeros, which can never be
  opened again (`APR_EINVAL`); the process mutex is anonymous, so separate processes do not exclude each other; nothing checks
  that the file stays within the map; a commit that fails (more than 508 freed pages, or an I/O error) may already have
  overwritten live pages; pages of the Free DB that a commit copies are never listed as free; the keys of the Free DB are
  little-endian, so their order is not that of the ids; a reader takes its snapshot before it is in the reader table and
  without a lock, so a commit may fall in between (the model takes the snapshot in one step).
* **C58** false when a process opens a cache twice: record locks do not exclude their own process (`same_process_twice`), and closing
  either handle, or a second open that fails, gives the lock away while the other handle is in use (`two_processes`,
  `failed_open_unlocks`).
* **C59** false after a sweep that has emptied a leaf: the next one stops there and keeps what it should remove
  (`sweep_keeps_unvisited`).  A sweep whose commit fails has already overwritten pages (`failed_sweep_deletes`).  A sweep, or a second
  begin, forgets an open read transaction, whose reader slot is then lost (`sweep_forgets_reader`).
* **C79** false: all freed pages of a transaction go into one entry of the Free DB, which must fit a page
  (`commit_refuses_many`); from 8191 pages on its size wraps around (`commit_overruns`).  So a cache with more than 44704 entries
  to remove can never be swept: `large_cache_cannot_be_swept` proves this from the creation of the cache on, for every cache loaded
  in one transaction with paths of one length in ascending order.
* `-e` and `-w` apply to directories as well: `-w '\.jpg$'` finds nothing in subdirectories.
* **C80** names are printed as they are: with the default separator, identical files `a`, `c`, `b` and identical files `a`, `c⟨newline⟩b`
  give the same report (`text_report_ambiguous`).
* **C82** `json_string` gives NULL for a name that is not UTF-8 and the result of `json_object_set_new` is not looked at: the entry has no
  `path` (`name_missing`, `json_report_without_name`).
* **C85** `update_or_delete_reclaimed_entry` (napr_db.c L1047-1072) deletes the entry and puts it back under `key`, which points into the leaf.
  If the transaction has copied that leaf before, the deletion and the header of the new node change the bytes under the pointer: after
  two allocations from one entry the remaining pages are filed under a transaction id such as 3 + 8·2^32 + 8·2^48 and never used
  again (`free_page_lost`).
* **C86** `run_ftwin_processing` (ftwin.c L104-107) calls `ft_image_twin_report` before it looks at `OPTION_JSON`: `ftwin -I -J` prints the
  text report (`image_json_is_text`).
* **C83** every failure of `ft_archive_untar_file` returns without `archive_read_free` and `archive_write_free` (L74-147, `untar_leaks`); if
  `mkstemp` fails the mask is not put back (L120-124, `umask_left`); the mask belongs to the process and the hashing threads change it at the
  same time (`mask_race`: two threads, mask 077 at the end).
* **C87** `process_file` (ft_traverse.c L67-75) allocates a record with `apr_palloc` and never sets `subpath`; with `-t` it is read by the
  hashing threads, `get_comparison_paths`, the reports (`traversed_undefined`, `archive_run_undefined`).  `ft_file_make` would set it, and
  `ar_regex` would select archives, but the program uses neither.
* **C88** neither `napr_db_env_open` nor the commit compares the size of the map with the number of pages (`small_map_opened`,
  `commit_beyond_map`).
* **C90** eight files with sizes of one XXH32 value: the table of sizes is doubled forever (`eight_files_hang`).
* **C91** a process in more than 256 groups cannot run the program; in exactly 256, the effective group is forgotten.
* **C93** an unknown option ends the reading of options without an error (C62): status and report are those of the options before it
  (`unknown_option_ignored`).
* **C94** `db_file_open` creates the file and makes it two pages of zeros before anything can be known to work; if the mapping then fails (or the
  process ends there), every later opening reports `APR_EINVAL` (`failed_creation_sticks`).  A file of less than two pages is read through the
  mapping beyond its end (`open_existing`).
* **C95** `env->live_meta` is set when a handle is opened and by its own commits only; `apr_proc_mutex_create` gets no name, so each opening has its
  own lock.  Updates made through two handles get lost (`update_lost`, `other_handle_overwrites`).
* **C96** `NAPR_DB_RDONLY | NAPR_DB_CREATE` leaves an empty file behind (`readonly_create_spoils`).
* **C97** `napr_hash_set` stores the element before it tries to grow; after a failed growth the bucket is full, and the next element of the bucket
  is written behind it (`failed_set_breaks_table`).  No caller looks at the status (ft_config.c L133, L159, L251, L253; ft_traverse.c L85).
* **C98** sizes of 2^63 bytes and more, `inf` and `nan` are converted to `apr_off_t` without a check (`size_text_means`, `special_text_undefined`).
* **C99** names are written to the terminal unfiltered: an escape sequence in a name takes effect (`escape_in_name`).
* **C100** when a worker cannot be created, `napr_threadpool_init` returns without stopping those it has created, and `ft_process_files` destroys the pool's memory, mutex and condition variable under them (`failed_start_undefined`).
* **C101** pages are written in place before the meta page, so a commit that fails after that has changed the committed state (`failed_commit_visible`); and when the last `fsync` fails the new meta page is in the file already (`failed_sync_applied`).
* **C102** a failing insertion sets the array to NULL and leaves the count, so later extractions give NULL although the size is not 0, and a later insertion copies from NULL (`failed_insert_loses_all`).
* **C103** `napr_heap_insert_r` unlocks only when the insertion succeeded, so after a failed one every call waits for ever (`failed_insert_blocks`).
* **Descending loads run out of space (C104).** `db_split_leaf` computes the free space of the left page as the lowest offset of the entries that stay (napr_db_tree.c L623-641). Entries are placed from the end of the page downwards, so after insertions in descending key order the small keys that stay lie lowest and nothing is gained but two bytes of slot per moved entry. The put fails with APR_ENOSPC although half of the pairs have left the page, and, as the new page is not yet linked, they are lost (`descending_refused`; with values of 300 bytes the 14th put fails).
* **C108.** `napr_db_txn_begin` copies the fields of the live meta page without a lock, loading `live_meta` anew for each, and enters the reader table only afterwards. If two write transactions overlap these loads, the second one writes to the page the reader is still reading: `dirty_root`, `dirty_id`. A writer that looks for the oldest reader before the entry does not see the reader: `late_entry`.
* **C109.** `set_pcre_anchors` has the comment "Pattern can match at any level unless it contains a slash", but looks only at a slash at the beginning: `doc/api` is matched in every subdirectory (`inner_slash_floats`). Blanks at the end of a line stay in the pattern, those at its beginning are dropped, both unlike Git (`trailing_blank_kept`, `leading_blank_dropped`); `a**b` matches `a/b` (`double_star_crosses`).
* **C64, C112.** With the vendored XXH128 three files of 32 bytes make ftwin dereference NULL (`real_collision_crashes`): a word of the input that equals the secret at its place makes a product zero whatever the other factor is. XXH128 is not a cryptographic hash, so such files can be written by anyone who may write below a scanned directory (`collisions_medium`, `collisions_long`).
* **C122** splitting a branch page with a single entry leaves an empty branch page (`split_point` is 0), and it stays in the tree.  A lookup or a
  `put` that comes there takes `num_keys - 1` = 65535 as the index of the child and reads outside the page.  Six successful `put`s are
  enough (`lookup_undefined_witness`), also six files with paths of 1340 bytes in the cache, or 71 files of one directory with paths of 255 bytes;
  the cache file then cannot be read by any later run (`cache_lookup_undefined_witness`, `directory_lookup_undefined_witness`).
  What always holds (`lookup_honest_partial`): lookups end and give only values stored under the very key.  The witnesses are found on
  pages as lists (`Db/Sheet.lean`, `Db/Pile.lean`), which the byte-level model refines (`pile_refines`), as evaluating the bytes is too slow.
* **C123** an older value of a key, and a key that `del` did not find, come back after later `put`s of other keys (`older_value_returns`, `absent_key_returns`).
* **C124** what lookups keep although pages in use are handed out again (`Db/Honest.lean`).  The invariant follows every page that can be reached from either meta page, by either tree, and the numbers that the Free DB records: all of these stay pages with well-formed
  contents whose pairs were stored (or, for keys of eight bytes, are lists of such pages).  One simplification of the model matters here: `splitTxn` reads the page to split again after the allocation, where the C code keeps its pointer (they differ if that very
  allocation replaced the buffer). A cursor that has reached its depth limit of 32 reads entries of a branch page as entries of a leaf; with less than `2 ^ 19` pages such an entry cannot be taken for a list of free pages.  A commit that stops in the middle can leave zero pages in the file that are reached later; the invariant allows for them (`Part`), and for databases without such commits says that there are none (`Whole`).
  `Db/Stopped.lean` adds a last transaction whose commit fails at any of its file operations, or is cut off with any selection of its pages written: zero pages are neither leaves nor branches and
  end a lookup, everything else in the file is an old or a new page of the invariant.  `values_after_stops_partial` lets the history go on after such commits, as often as one likes.  A page number 0 can then come out of a zero page, and the lookup goes on in the first meta page;
  as long as this has a small transaction number and root (`Young`, below `2 ^ 16`) it is taken for neither kind of page with keys.  Pages written in part are the Crash model of C51, and there the claim is false (`torn_page_invents_value`).
* **C125** every commit that changes something enters the pages it has copied into the Free DB although they stay in use, and as long as nothing is allocated no entry is ever taken out.  With one leaf in the main tree an entry has 20 bytes, so the
  186th one does not fit the leaf of the Free DB.  Its split takes the new page, and then the page for the new root, from the first entries of the Free DB: both times page 2, which is the root of the main tree.  The branch page written there names itself as
  its second child.  So the 187th change, successful like the others, replaces the whole database by a page that leads to itself and to old entries of the Free DB (`small_database_ruined`); up to then everything is as it should be (`small_database_partial`).  For
  a program that keeps a cache of a few files (`ftwin` itself does not use the cache yet) the 187th run that stores something destroys it; with relative paths the next run never ends, with absolute ones it finds nothing (`small_cache_ruined`).  Larger caches copy more pages per
  commit and come to this point sooner; there it is not proved what exactly happens.
* **C127** `big_filecmp` (ft_file.c L263-266) returns without closing its two files when a read fails or comes back short and the bytes so far are equal; its pool is that of the whole run, so they stay open until the end.  With the usual limit of 1024 descriptors about 510 such comparisons make every later one fail, and the report leaves the pairs out (`failed_reads_hide_duplicates`).  `small_filecmp` L181-184 leaves the first file mapped when the second cannot be mapped, and closes the second twice, which with APR does nothing.  `process_directory` keeps a directory open for each level, so a tree deeper than the limit ends the run (`deep_tree_fails`), and at the last level an ignore file that cannot be opened is taken for a missing one, without a message (`ignore_file_dropped`).
* **C129** copy on write keeps page numbers, so a commit overwrites the Free DB page that the live meta page refers to.  If the sync or the meta page then fails, the entry of the failed transaction is there, the next transaction gets the same number (it is taken from the live meta page), and
  `populate_free_db` answers `APR_EEXIST`: the database can be read, but not be changed any more (`commits_refused_forever`).  The model writes the dirty pages in the order in which they were entered; in the program it is the order of an APR hash table, which is why the theorem starts after they are all written.
  `commits_refused_forever` and `crash_freezes_database` are about databases of one leaf, from their creation on; `failed_commit_blocks` (`Blocked.lean`, `BlockedProps.lean`) has trees of any size and starts from `DbOk`, for transactions that allocate no page.
* **C130** `napr_hash_remove` fills the hole with the last element of the bucket, and `napr_hash_next` goes on behind the hole; so after a deletion one element of the bucket is passed over (`sweep_passes_over`).  The header promises predictable results for this very use.
* **C131** `napr_db_del` discards its last argument (napr_db.c L1864, "reserved for future use"); napr_db.h L231 documents it as a condition (`delIf_ignores_value`).
* **C132** `db_page_insert` writes the header and the key of a node before it reads the value.  When a split has just moved the value's entry to the new page, its old bytes are free space of the left page, and the node is written over them (`copied_value_damaged`, `copied_value_undefined`).
* **C133** `napr_cache_entry_t` is not `packed`, but it is read in place, right after a path of any length.  The second record stored in a new cache is misaligned unless the first path has 4, 12, 20, ... bytes (`record_misaligned`, `next_aligned`).
* **C134** `napr_threadpool_add` does not look at the shutdown flag: a task added after the shutdown is accepted and never run; `napr_threadpool_wait` then blocks for ever, even with nothing added, because it asks for all workers to be waiting and they are gone (`added_after_shutdown`, `wait_after_shutdown_hangs`).
* **C136** a cursor holds a pointer to the leaf it stands on: to the map, if the transaction had not changed the leaf when the cursor came there, else to the transaction's copy.  In the first case it goes on showing the old leaf (`old_leaf_stays`), in the second deletions and insertions move the pairs under it, so that NEXT passes over a pair or shows one again (`deletes_every_other`, `storing_repeats`).  The sweep of the cache begins its own transaction and so is in the first case.  Loops backwards do not have this problem: a deletion leaves the pairs before the cursor where they are (`delete_going_back_partial`).
* **C138** (`Db/Deep.lean`, `Cache/Full.lean`) `put` and `del` give up below 32 levels.  A branch page with room for two keys is split into one entry and two, so that with keys of about 1350 to 2020 bytes in ascending order each `put` splits every page on the right edge and adds a level: after 34 pairs of 1500 bytes, in less than 1000 pages, the database takes and deletes nothing any more, and no later transaction can change that (`long_keys_fill`).  `get` has no limit and still finds the pairs.  The witness is computed with the lists of `Db/Pile.lean`, that it holds for every key is proved from the shape of the tree (`Seen.deep`).  In the same database a cursor shows pairs that nobody has stored (**C45**, `cursor_invents_pair`): its stack has 32 places, `cursor_push` drops the leaf without an error (napr_db_cursor.c L83-L90), and the last branch page is then read as a leaf, the bytes of a child's page number as sizes and key.
