{
 "claims": [
  {
   "property": "C01",
   "status": "proved",
   "theorems": [
    "Verif.Heap.heap_refines_bag",
    "Verif.Heap.fileCmp_isOrder"
   ],
   "note": "any comparator that is a total preorder; the file comparator of the program is one"
  },
  {
   "property": "C02",
   "status": "proved",
   "theorems": [
    "Verif.Heap.heap_conserves",
    "Verif.Heap.heap_drain_sorts",
    "Verif.Heap.heap_refines_bag"
   ],
   "note": ""
  },
  {
   "property": "C03",
   "status": "proved",
   "theorems": [
    "Verif.Heap.heap_insert_in_bounds"
   ],
   "note": ""
  },
  {
   "property": "C04",
   "status": "proved",
   "theorems": [
    "Verif.Hash.hash_refines_map",
    "Verif.Hash.hash_history_completes"
   ],
   "note": "a history may also never end (C06); hash_history_completes gives the histories that do"
  },
  {
   "property": "C05",
   "status": "proved",
   "theorems": [
    "Verif.Hash.hash_iterates_exactly"
   ],
   "note": ""
  },
  {
   "property": "C06",
   "status": "proved",
   "theorems": [
    "Verif.Hash.hash_set_terminates_iff"
   ],
   "note": ""
  },
  {
   "property": "C07",
   "status": "partial",
   "theorems": [
    "Verif.Hash.hash_set_never_updates",
    "Verif.Hash.hash_set_updates_false",
    "Verif.Hash.hash_set_inserts_partial"
   ],
   "note": "false of the code: set never updates (general refutation proved); partial: remove-then-set does"
  },
  {
   "property": "C08",
   "status": "proved",
   "theorems": [
    "Verif.Pool.wait_returns_after_all_tasks",
    "Verif.Pool.no_task_twice"
   ],
   "note": "one submitting thread, fewer than 2^32 queued tasks; spurious wake-ups of workers included, those of the submitter are C68"
  },
  {
   "property": "C09",
   "status": "proved",
   "theorems": [
    "Verif.Pool.pool_cannot_deadlock",
    "Verif.Pool.pool_steps_bounded",
    "Verif.Pool.pool_completes"
   ],
   "note": "no_workers_hang shows that a worker is needed"
  },
  {
   "property": "C10",
   "status": "proved",
   "theorems": [
    "Verif.Pool.shutdown_finishes_running_tasks",
    "Verif.Pool.pool_cannot_deadlock",
    "Verif.Pool.pool_steps_bounded"
   ],
   "note": ""
  },
  {
   "property": "C100",
   "status": "partial",
   "theorems": [
    "Verif.Pool.Startup.failed_start_undefined",
    "Verif.Pool.Startup.failure_after",
    "Verif.Pool.Startup.failed_start_partial"
   ],
   "note": "false: the workers created before the failure are neither stopped nor joined, and the memory of the pool is destroyed under them (failed_start_undefined, for every schedule). True if the first creation fails or none does"
  },
  {
   "property": "C101",
   "status": "partial",
   "theorems": [
    "Verif.Db.refused_commit_unchanged",
    "Verif.Db.failed_commit_partial",
    "Verif.Db.failed_fresh_commit_partial",
    "Verif.Db.failed_sync_applied",
    "Verif.Db.failed_commit_visible",
    "Verif.Db.commit_unlocks"
   ],
   "note": "holds for commits refused before they touch the file and for errors that come before a page of the committed state or the meta page has been written (so for all but the last operation when the transaction writes no such page). False otherwise, in general: an error of the last fsync leaves the new state for whoever opens the file (failed_sync_applied), and after an error of one of the last three operations the handle itself shows the new state if the transaction changed pages in place (failed_commit_visible)"
  },
  {
   "property": "C102",
   "status": "partial",
   "theorems": [
    "Verif.Heap.insert_fails_iff",
    "Verif.Heap.failed_insert_loses_all"
   ],
   "note": "false of the code, for every heap: a failing insertion keeps the size but drops the array, so that every later extraction and look-up gives nothing and every later insertion is undefined (failed_insert_loses_all). Proved: it fails only when the array is full and a larger one cannot be had, and every other insertion adds its element"
  },
  {
   "property": "C103",
   "status": "partial",
   "theorems": [
    "Verif.Heap.shared_insert_safe",
    "Verif.Heap.shared_insert_all",
    "Verif.Heap.failed_insert_blocks"
   ],
   "note": "proved for all schedules in which no allocation fails (nothing undefined, no deadlock, all data there, extraction sorted). False with a failing allocation: the mutex stays locked and no thread gets in again (failed_insert_blocks)"
  },
  {
   "property": "C104",
   "status": "partial",
   "theorems": [
    "Verif.Db.descending_page_partial",
    "Verif.Db.descending_refused",
    "Verif.Db.put_refused_exact",
    "Verif.Db.two_large_pairs"
   ],
   "note": "false of the code, for every load in descending key order: db_split_leaf keeps the page's free space below the lowest entry that stays, and in descending order the entries that stay are the lowest, so a split gives the left page no room but the slots of the moved entries; the put that needs the split fails for lack of space and the larger half of the pairs is lost. Proved: all puts succeed and are found while one page holds the pairs; the first that does not fit by more than those slots is refused, with exactly the larger half lost. Ascending loads are C44, the safe kinds of split C41/C42. Missing: descending loads after a split that did find room in the slots. Two pairs that fit a page each but not one page together cannot both be stored in a fresh database, in either order, and the attempt loses both (two_large_pairs)"
  },
  {
   "property": "C105",
   "status": "partial",
   "theorems": [
    "Verif.Main.order_free_partial",
    "Verif.Main.same_run",
    "Verif.Traverse.scan_agree",
    "Verif.Report.exact_same"
   ],
   "note": "whole runs, with reports in text (also on a terminal) or in JSON, also with files that cannot be opened; missing what is missing in C92. The order inside a group may differ"
  },
  {
   "property": "C106",
   "status": "partial",
   "theorems": [
    "Verif.Main.presentation_free_partial",
    "Verif.Main.same_run"
   ],
   "note": "whole runs, with reports in text (also on a terminal) or in JSON, also with files that cannot be opened; missing what is missing in C92"
  },
  {
   "property": "C107",
   "status": "partial",
   "theorems": [
    "Verif.Main.together_partial",
    "Verif.Traverse.scan_append",
    "Verif.Report.exact_append"
   ],
   "note": "whole runs, with reports in text (also on a terminal) or in JSON, also with files that cannot be opened, both argument lists having at least one file (else the separate run ends with 255, C93); missing what is missing in C92"
  },
  {
   "property": "C108",
   "status": "partial",
   "theorems": [
    "Verif.Db.Begin.begin_partial",
    "Verif.Db.Begin.entered_partial",
    "Verif.Db.Begin.dirty_root",
    "Verif.Db.Begin.dirty_id",
    "Verif.Db.Begin.late_entry"
   ],
   "note": "proved if at most one write transaction overlaps the beginning, whatever its outcome, and for searches after the reader has entered the table; false otherwise: with two the reader can get the root or the id of a transaction that never takes effect (dirty_root, dirty_id), and writers that search before it enters do not see it (late_entry). Sequentially consistent memory and whole stores of eight bytes are assumed; the C program has a data race"
  },
  {
   "property": "C109",
   "status": "partial",
   "theorems": [
    "Verif.Ignore.git_pattern_partial",
    "Verif.Ignore.inner_slash_floats",
    "Verif.Ignore.double_star_crosses",
    "Verif.Ignore.trailing_blank_kept",
    "Verif.Ignore.leading_blank_dropped",
    "Verif.Ignore.bare_marks"
   ],
   "note": "exact for the patterns of Agreeing, to which all those the README shows belong: anchored ones, those without a slash, those that begin with two asterisks and a slash, with double asterisks only as components; directory patterns match also what lies in the directory. False for every plain pattern with a slash in the middle, which matches in every subdirectory (inner_slash_floats, although a comment in set_pcre_anchors says otherwise), for double asterisks inside a name (double_star_crosses), for blanks at the end (trailing_blank_kept) and at the beginning (leading_blank_dropped). Missing: what is missing in C25"
  },
  {
   "property": "C11",
   "status": "proved",
   "theorems": [
    "Verif.Pool.parallel_hashing_deterministic"
   ],
   "note": "equal to the sequential hashing of the Report model, for every schedule"
  },
  {
   "property": "C110",
   "status": "partial",
   "theorems": [
    "Verif.Report.threads_do_not_matter",
    "Verif.Report.threaded_run_exact_partial",
    "Verif.Report.runs_out",
    "Verif.Report.early_run",
    "Verif.Report.early_run_without_digests",
    "Verif.Report.early_run_misses"
   ],
   "note": "for all inputs within the limits of C90, every number n \u2265 1 of workers and every complete execution of the pool model, and such executions exist (runs_out). A wake-up without a reason of the thread that waits for the results is outside the quantifier; what it does is said exactly all the same: the run is the one in which the digests of the files whose tasks have not ended could not be computed (early_run), and for every run this may be all of them (early_run_without_digests), so that three identical files are not reported (early_run_misses). Missing: what is missing in C13 (digest collisions), threads that could not be created (C100), an allocation that fails, and the order of the progress messages, which does depend on the schedule"
  },
  {
   "property": "C111",
   "status": "proved",
   "theorems": [
    "Verif.Xxh3.digest_of_pieces",
    "Verif.Xxh3.file_digest"
   ],
   "note": "the scalar functions of the library on a little-endian 64-bit machine, with seed 0 and the standard secret; the vector variants are taken to agree with them"
  },
  {
   "property": "C112",
   "status": "proved",
   "theorems": [
    "Verif.Xxh3.digest_exact_iff",
    "Verif.Xxh3.short_digest_exact",
    "Verif.Xxh3.short_files_reported",
    "Verif.Xxh3.collisions_medium",
    "Verif.Xxh3.collisions_long",
    "Verif.Main.short_run",
    "Verif.Main.short_quiet"
   ],
   "note": "short_run is about whole runs with -M of at most 16 bytes, with the modelled XXH128, memcmp and XXH32, files that can be read and do not change"
  },
  {
   "property": "C113",
   "status": "proved",
   "theorems": [
    "Verif.Main.argv_run",
    "Verif.Main.argv_total",
    "Verif.Main.spelling_free",
    "Verif.Config.read_exact",
    "Verif.Config.read_total",
    "Verif.Config.read_unique",
    "Verif.Config.line_read",
    "Verif.Config.optTable_sane"
   ],
   "note": "the scanner is apr_getopt_long as APR 1.7 has it, without interleaving; words behind the first path are paths even if they begin with a dash"
  },
  {
   "property": "C114",
   "status": "proved",
   "theorems": [
    "Verif.Config.argument_unread",
    "Verif.Config.read_exact"
   ],
   "note": "that an option declared to take an argument gets one is part of read_exact (Spelled, Wrong)"
  },
  {
   "property": "C115",
   "status": "partial",
   "theorems": [
    "Verif.Output.dry_run_partial",
    "Verif.Report.dry_run_announces_partial",
    "Verif.Report.silent",
    "Verif.Report.verbose_skips"
   ],
   "note": "text reports. With -J or -I the option has no effect: nothing is announced. That -n does not change the report is part of C106"
  },
  {
   "property": "C116",
   "status": "partial",
   "theorems": [
    "Verif.Page.search_any",
    "Verif.Page.insert_any",
    "Verif.Page.delete_any",
    "Verif.Page.cmpAt_exact",
    "Verif.Page.wrNode_exact",
    "Verif.Page.firstKey_any",
    "Verif.Page.flag_bits",
    "Verif.Page.splitLeaf_any",
    "Verif.Page.splitBranch_any"
   ],
   "note": "no offset read from a page is checked, so the statement is false; the theorems give for each operation the exact condition on the bytes under which it stays inside (for search: exact for each comparison, and for the whole search sufficient and, for the first node looked at, necessary), and what it answers then. For splits: the exact result if the nodes of the upper half lie inside the page and fit an empty one, undefined at the first node that does not lie inside or is larger than what is left; missing: what a split makes of nodes that fit only over the slots of the new page"
  },
  {
   "property": "C117",
   "status": "partial",
   "theorems": [
    "Verif.Main.recipe_keeps_partial",
    "Verif.Main.recipe_loses",
    "Verif.Main.image_recipe_loses",
    "Verif.Main.prioritised_have_word",
    "Verif.Output.recipe_names"
   ],
   "note": "for whole runs, if each file is found under one name and not through a link to another one found (Apart). False otherwise (recipe_loses): overlapping arguments, two spellings of one directory, or with -f a link to a file in the prioritised path; then the only copy goes. False also with -I as in EXAMPLES (image_recipe_loses). Excluded: -d (its line is cut too), terminals, and names with commas, line breaks, backslashes or blanks at an end. With -c, as in the README, a directory whose name differs in case from the prioritised one also counts as prioritised; then the last part needs its names to contain the word"
  },
  {
   "property": "C118",
   "status": "partial",
   "theorems": [
    "Verif.Db.failed_set_exact",
    "Verif.Db.seek_range_exact",
    "Verif.Db.failed_set_shows_pair"
   ],
   "note": "false of the code: the cursor stays at the first pair of the leaf the key leads to and is not marked (failed_set_shows_pair, for every database without empty leaves and every key that is not stored). What all later moves answer is said exactly, also with empty leaves. True of a database without a tree and of positioning at the first or last pair"
  },
  {
   "property": "C119",
   "status": "proved",
   "theorems": [
    "Verif.Output.json_output_valid",
    "Verif.Main.json_run_valid"
   ],
   "note": "json_dumpf (jansson, not in /repo) is modelled after dump.c and utf.c of jansson 2.14 with JSON_INDENT(2) and JSON_ENSURE_ASCII; the reader is written from RFC 8259, for numbers without fraction and exponent"
  },
  {
   "property": "C12",
   "status": "proved",
   "theorems": [
    "Verif.Report.report_sound"
   ],
   "note": "for a byte comparison that says equal only for equal contents (C20; for its failures see C63)"
  },
  {
   "property": "C120",
   "status": "proved",
   "theorems": [
    "Verif.Report.digested_exactly",
    "Verif.Report.comparisons_fair",
    "Verif.Report.comparisons_account",
    "Verif.Report.no_comparison_in_vain",
    "Verif.Report.comparisons_linear"
   ],
   "note": "for runs that complete, within the limits of the model (C11-C19); with a text report two different files alone of their size are compared once in vain (pair_compared_in_vain)"
  },
  {
   "property": "C121",
   "status": "partial",
   "theorems": [
    "Verif.Db.get_through_pointer",
    "Verif.Db.pointer_place",
    "Verif.Db.mapped_pointer_kept_partial",
    "Verif.Db.own_pointer_kept_partial",
    "Verif.Db.put_allocates_nothing",
    "Verif.Db.own_pointer_moved",
    "Verif.Db.pointer_reads_value",
    "Verif.Db.pointer_kept_put_partial",
    "Verif.Db.pointer_broken_by_del",
    "Verif.Db.pointer_broken_by_put",
    "Verif.Db.pointer_broken_by_commit",
    "Verif.Db.pointer_kept_split_partial"
   ],
   "note": "false of the code in three ways, each with a history in which every operation reports success: a del of another key of the same leaf puts another value behind the pointer (pointer_broken_by_del), a put that splits the leaf and one after it do (pointer_broken_by_put), and so does the commit of another transaction under a reader (pointer_broken_by_commit). Proved: reading through the pointer at once is get, in every state; a pointer into the map survives everything that does not write its page, including whatever the own transaction does; a pointer into a buffer survives any sequence of puts that allocate no page, puts that add pages at the end and split any leaves (the pointer's own too, if an entry of the first half of that leaf lies at the pointer or below), and dels of keys in other leaves or of nodes below it; what a del of a node above it puts there, exactly. Missing: what exactly lies behind the pointer once its own entry has moved to the new page of a split; puts that take their pages from the Free DB"
  },
  {
   "property": "C122",
   "status": "partial",
   "theorems": [
    "Verif.Db.lookup_honest_partial",
    "Verif.Db.pile_refines",
    "Verif.Db.lookup_undefined_witness",
    "Verif.Cache.cache_lookup_undefined_witness",
    "Verif.Cache.directory_lookup_undefined_witness"
   ],
   "note": "proved for every history: a lookup ends and gives nothing or a value stored under this very key; it is defined when no branch page of the tree is empty. False in general: the split of a branch page with one entry leaves an empty branch page, and a lookup that comes there reads outside the page (lookup_undefined_witness: six successful puts; cache_lookup_undefined_witness: six files with paths of 1340 bytes in a new cache, also in every transaction after the commit; directory_lookup_undefined_witness: 71 files of one directory with paths of 255 bytes). pile_refines: what every history does, with pages as lists, where the lists describe it"
  },
  {
   "property": "C123",
   "status": "partial",
   "theorems": [
    "Verif.Db.history_refines_partial",
    "Verif.Db.lookup_honest_partial",
    "Verif.Db.older_value_returns",
    "Verif.Db.absent_key_returns"
   ],
   "note": "proved for histories whose puts meet PutSafe; false in general: after a split that leaves a page unreachable for its key, the key is stored a second time, and a later split makes the way lead to the first copy again (older_value_returns, absent_key_returns)"
  },
  {
   "property": "C124",
   "status": "partial",
   "theorems": [
    "Verif.Db.values_were_stored_partial",
    "Verif.Cache.cache_answers_stored_partial",
    "Verif.Db.unstored_value_found",
    "Verif.Db.values_after_stop_partial",
    "Verif.Db.values_after_failure_partial",
    "Verif.Db.torn_page_invents_value",
    "Verif.Db.values_after_stops_partial",
    "Verif.Db.Rough.failed"
   ],
   "note": "Proved for all histories, including those in which pages in use are overwritten, operations fail and entries are lost, and after them for a commit that fails at any of its file operations or that the machine cuts off, when each page is written as a whole or not at all; and for histories that go on after such commits, as long as transaction numbers and roots in the first meta page stay below 2^16. False when a page is written in part (torn_page_invents_value, with whole sectors). Missing: keys and paths of exactly eight bytes (the keys of the Free DB, whose pages can be reached from the main tree, have eight bytes), files of more than 2^19 pages (2 GiB), histories that go on after a stopped commit with larger transaction numbers, and other processes that write.; keys of eight bytes have to be left out: unstored_value_found"
  },
  {
   "property": "C125",
   "status": "partial",
   "theorems": [
    "Verif.Db.small_database_partial",
    "Verif.Db.small_database_ruined",
    "Verif.Db.unstored_value_found",
    "Verif.Cache.Wear.small_cache_partial",
    "Verif.Cache.Wear.small_cache_ruined",
    "Verif.Db.small_database_programs_partial"
   ],
   "note": "exact: it holds for up to 186 transactions that change something (with the replacements that a transaction refuses, C48, as part of what is expected), and the 187th one, whatever it is, destroys the database although all calls report success: lookups then run forever or find nothing, and under keys of eight bytes values are found that were never stored. Proved for databases without other readers (the table of a new database); the same when the transactions are spread over programs that open the file one after the other (small_database_programs_partial)"
  },
  {
   "property": "C126",
   "status": "partial",
   "theorems": [
    "Verif.Main.recipe_again_partial",
    "Verif.Main.recipe_again_fails",
    "Verif.Traverse.scan_without",
    "Verif.Traverse.scan_lost"
   ],
   "note": "for all numbers of rounds, by induction over them, each run being a whole run on the file system without what was removed. False if files are given as arguments: once one is removed all runs exit with 255 and compare nothing (recipe_again_fails). Excluded as in C117, and -f, and ignore files among the files found (-a): removing one would bring new files into view"
  },
  {
   "property": "C127",
   "status": "partial",
   "theorems": [
    "Verif.File.digest_closes",
    "Verif.File.compare_room",
    "Verif.File.compare_left",
    "Verif.File.compare_closes",
    "Verif.File.comparisons_closed_partial",
    "Verif.File.failed_reads_hide_duplicates",
    "Verif.Traverse.scan_within_limit",
    "Verif.Traverse.args_within_limit",
    "Verif.Traverse.deep_nested",
    "Verif.Traverse.deep_tree_fails",
    "Verif.Traverse.ignore_file_dropped"
   ],
   "note": "Digests close their file on every path. Comparisons hold two files and close them, except when a read fails or ends early without a difference having been found: then both stay open until the run ends. So comparisons_closed_partial is about files that can be read and do not change, and failed_reads_hide_duplicates proves, for every limit, that enough failed reads make a later comparison of two equal readable files fail. Scans need one descriptor per level and one for an ignore file (scan_within_limit); with fewer a deep tree ends the run (deep_tree_fails) and an ignore file is skipped without a message (ignore_file_dropped). Not modelled: what libarchive opens for -t, and how several digest threads interleave; each of them holds at most one file."
  },
  {
   "property": "C128",
   "status": "proved",
   "theorems": [
    "Verif.Main.sort_order_consistent",
    "Verif.Main.sorted_side_by_side",
    "Verif.Main.digestCmp_order",
    "Verif.Main.genuineFiles_sorts"
   ],
   "note": "chksumCmp is the model of ft_chksum_cmp, digestCmp is memcmp over the 16 bytes of XXH128_hash_t. genuineFiles_sorts is a sorting function for this comparison."
  },
  {
   "property": "C129",
   "status": "partial",
   "theorems": [
    "Verif.Db.failed_commit_harmless_partial",
    "Verif.Db.commits_refused_forever",
    "Verif.Db.crash_freezes_database",
    "Verif.Db.commit_refuses_duplicate",
    "Verif.Db.failed_commit_blocks",
    "Verif.Db.tries_refused",
    "Verif.Db.jammed_refuses"
   ],
   "note": "False: once two transactions have changed something, a commit that fails after its pages were written leaves the entry of the failed transaction in the Free DB, the next transaction gets the same number, and from then on every changing transaction is refused with APR_EEXIST, in this process and in later ones, while lookups show the data of the transaction that was reported as failed (commits_refused_forever), and the same when the machine stops between the sync of the pages and the writing of the meta page (crash_freezes_database). In databases of any size: failed_commit_blocks, for a transaction that allocates no page, and whatever is done afterwards (tries_refused); jammed_refuses without any condition on the tree of the database. Proved where it holds, for databases of one leaf: at most one changing transaction before, or the first operation fails, or the last one fails and the file is opened again."
  },
  {
   "property": "C13",
   "status": "partial",
   "theorems": [
    "Verif.Report.report_exact",
    "Verif.Report.report_completes",
    "Verif.Report.report_all_duplicates_partial",
    "Verif.Report.ftwin_reports_identical_files_partial",
    "Verif.Traverse.run_reports_identical_selected_files_partial",
    "Verif.Xxh3.short_files_reported"
   ],
   "note": "every run that completes is exact for every hash function; completion is proved without digest collisions in a size class (with one the code can crash, C64)"
  },
  {
   "property": "C130",
   "status": "partial",
   "theorems": [
    "Verif.Hash.sweep_once",
    "Verif.Hash.sweep_complete_iff",
    "Verif.Hash.sweep_partial",
    "Verif.Hash.sweep_repeated",
    "Verif.Hash.sweep_passes_over"
   ],
   "note": "False of the code: a deletion moves the last element of the bucket to a place the loop has passed, so that element is never visited (sweep_passes_over, for keys 1 and 5 of four buckets). Proved for every history: no entry is visited twice, and exactly the visited entries that were to be deleted are gone (sweep_once); all entries are visited exactly when no entry to be deleted is followed by another one in its bucket (sweep_complete_iff), and then the loop does what it says (sweep_partial); repeating the loop as often as there are entries always does (sweep_repeated). ftwin itself removes no entry during an iteration."
  },
  {
   "property": "C131",
   "status": "partial",
   "theorems": [
    "Verif.Db.delIf_partial",
    "Verif.Db.delIf_ignores_value"
   ],
   "note": "False of the code, which discards the argument: for every database, stored pair and other value the call reports success and the pair is gone (delIf_ignores_value). With NULL, with the stored value, and for keys that are not stored it does what is documented (delIf_partial)."
  },
  {
   "property": "C132",
   "status": "partial",
   "theorems": [
    "Verif.Db.copied_value_partial",
    "Verif.Db.copied_value_found_partial",
    "Verif.Db.copied_value_damaged",
    "Verif.Db.copied_value_undefined"
   ],
   "note": "False of the code: after a split of the page the value lies in, the header of the new node is written over the bytes of the value before they are copied (copied_value_damaged: all calls succeed, the stored value differs), or memcpy is called with overlapping regions (copied_value_undefined). Proved for every database without a Free DB and every pair of keys: when the value lies in the map, or in a leaf with room, or outside of what the new node takes after the split, storing the pointer is storing a copy, and the pair is found (copied_value_partial, copied_value_found_partial; the latter under the conditions of C41). Not covered: databases that give pages back, and keys that are themselves pointers into a page."
  },
  {
   "property": "C133",
   "status": "partial",
   "theorems": [
    "Verif.Cache.lookup_through_pointer",
    "Verif.Cache.lookup_error_pointer",
    "Verif.Cache.readEntry_iff",
    "Verif.Cache.value_place",
    "Verif.Cache.next_aligned",
    "Verif.Cache.record_aligned_partial",
    "Verif.Cache.record_misaligned"
   ],
   "note": "The claim is false: record_misaligned stores records under /a and /b in a new cache; the record of /b lies at offset 4010, and reading it is undefined, before and after the commit.  value_place and next_aligned say exactly where a stored value comes to lie and when the next one is aligned (its predecessor's path must have a length of four more than a multiple of eight).  record_aligned_partial: if all lengths are multiples of 2 or of 4, so are all pointers, after any history.  Missing: multiples of 8 under the condition of next_aligned for all paths (leaves with lists of free pages, whose keys have eight bytes, do not keep multiples of 8, and the trees of a database may come to share pages)."
  },
  {
   "property": "C134",
   "status": "partial",
   "theorems": [
    "Verif.Pool.nothing_begun_after_shutdown",
    "Verif.Pool.added_after_shutdown",
    "Verif.Pool.wait_after_shutdown",
    "Verif.Pool.wait_after_shutdown_hangs",
    "Verif.Pool.adds_after_shutdown_return"
   ],
   "note": "false: added_after_shutdown shows that the call is accepted whatever happens, wait_after_shutdown_hangs that a later wait never returns, even if nothing was added (the submitter not being woken without a reason). What holds is that no task is begun after the shutdown, that all begun before are finished when it returns, and that the additions return"
  },
  {
   "property": "C135",
   "status": "proved",
   "theorems": [
    "Verif.Heap.insert_comparisons",
    "Verif.Heap.extract_comparisons",
    "Verif.Heap.history_comparisons",
    "Verif.Heap.insertT_fst",
    "Verif.Heap.extractT_fst"
   ],
   "note": "get_nth has no comparison function to call; the copying of the array when it grows is not counted"
  },
  {
   "property": "C136",
   "status": "partial",
   "theorems": [
    "Verif.Db.pointers_are_pages",
    "Verif.Db.old_leaf_stays",
    "Verif.Db.delete_while_iterating_partial",
    "Verif.Db.delete_while_iterating_begun_partial",
    "Verif.Db.deletes_every_other",
    "Verif.Db.deleting_skips",
    "Verif.Db.storing_repeats",
    "Verif.Db.delete_going_back_partial",
    "Verif.Db.delete_going_back_begun_partial"
   ],
   "note": "Cursors are modelled with pointers to pages here. False of the code for loops forwards: on a leaf the transaction has already changed, a deletion moves the following pairs under the cursor and NEXT passes over one; in a one-leaf database the loop sees every other pair and leaves the rest (deletes_every_other for any contents, deleting_skips as a run); storing a smaller key shows a pair twice (storing_repeats). Proved for loops backwards, whatever the transaction has done before (delete_going_back_partial), and for loops forwards in a transaction that has changed no leaf before (delete_while_iterating_partial), both for trees of at most 32 levels without empty leaves (an empty leaf ends a loop, C45); a cursor on an unchanged leaf goes on showing it whatever is done afterwards (old_leaf_stays); without changes the cursor with pointers is that of C45-C47, C77 (pointers_are_pages)."
  },
  {
   "property": "C137",
   "status": "proved",
   "theorems": [
    "Verif.Hash.history_lookups",
    "Verif.Hash.lookup_after_history",
    "Verif.Hash.history_buckets",
    "Verif.Hash.agreeing_elements_grow",
    "Verif.Hash.two_elements_many_buckets",
    "Verif.Hash.searchT_fst",
    "Verif.Hash.removeT_fst"
   ],
   "note": "allocation does not fail here (Hash/Limit.lean has the branches where it does); the elements a rebuild reads are not counted"
  },
  {
   "property": "C138",
   "status": "partial",
   "theorems": [
    "Verif.Db.long_keys_fill",
    "Verif.Cache.cache_full",
    "Verif.Db.deep_tree_refuses_put",
    "Verif.Db.bulk_load_similar_partial",
    "Verif.Db.load_and_commit_partial"
   ],
   "note": "false of the code: 34 keys of 1500 bytes in ascending order make a tree so deep that every later put and delete, of any key, fails, in this transaction and the next ones (long_keys_fill; cache_full for files with such paths); true of keys in ascending order with similar sizes, up to (4078/(key+12)/2)^31 of them, see C44; any order of short keys is not covered"
  },
  {
   "property": "C14",
   "status": "proved",
   "theorems": [
    "Verif.Report.report_disjoint"
   ],
   "note": ""
  },
  {
   "property": "C15",
   "status": "proved",
   "theorems": [
    "Verif.Report.report_prioritised_first"
   ],
   "note": ""
  },
  {
   "property": "C16",
   "status": "proved",
   "theorems": [
    "Verif.Report.report_largest_first"
   ],
   "note": ""
  },
  {
   "property": "C17",
   "status": "partial",
   "theorems": [
    "Verif.Report.report_any_comparison",
    "Verif.Report.one_unreadable",
    "Verif.Report.failing_comparison_crashes",
    "Verif.Report.report_skips_unreadable_partial",
    "Verif.Main.text_run_partial",
    "Verif.Main.json_run_partial"
   ],
   "note": "false of the code (NULL dereference). For every pattern of answers and failures it is said exactly when the run breaks off and what it reports otherwise (report_any_comparison); with one file that can no longer be read it breaks off exactly if that file is sorted neither first nor last among those with its digest (one_unreadable); files that cannot be read when digests are computed are skipped; also in whole runs (text_run_partial, json_run_partial with Calm)"
  },
  {
   "property": "C18",
   "status": "proved",
   "theorems": [
    "Verif.Report.text_json_agree"
   ],
   "note": "for runs that complete"
  },
  {
   "property": "C19",
   "status": "proved",
   "theorems": [
    "Verif.Report.report_reads_only_shared_sizes",
    "Verif.Report.digested_exactly"
   ],
   "note": ""
  },
  {
   "property": "C20",
   "status": "proved",
   "theorems": [
    "Verif.File.filecmp_decides_equality",
    "Verif.File.filecmp_status_and_result"
   ],
   "note": "reads of the second file return all that is asked for (regular files); without that see C63"
  },
  {
   "property": "C21",
   "status": "partial",
   "theorems": [
    "Verif.File.read_comparison",
    "Verif.File.shrunk_first_reported_equal",
    "Verif.File.shrunk_second_reported_equal",
    "Verif.File.mapped_comparison",
    "Verif.File.shrunk_mapped_reported_equal",
    "Verif.File.changed_length_detected_partial"
   ],
   "note": "false of the code. What the comparison answers is said exactly for files that are read, of any lengths (read_comparison), and for mapped files, which are compared with zeros in place of lost bytes (mapped_comparison); two general refutations; partial: differences inside complete 64 KiB chunks are found"
  },
  {
   "property": "C22",
   "status": "proved",
   "theorems": [
    "Verif.File.checksum_strategy_independent",
    "Verif.Xxh3.file_digest"
   ],
   "note": "also with the modelled XXH128 in place of a function of all the bytes (file_digest)"
  },
  {
   "property": "C23",
   "status": "proved",
   "theorems": [
    "Verif.HumanSize.parse_integer_exact",
    "Verif.HumanSize.parse_decimal_close",
    "Verif.HumanSize.parse_dyadic_exact",
    "Verif.HumanSize.parse_rejects_suffix",
    "Verif.HumanSize.parse_rejects_text",
    "Verif.HumanSize.parse_documented_B_rejected",
    "Verif.HumanSize.parse_overflow_ub"
   ],
   "note": "disagreements recorded: the documented suffix B is rejected, huge values are undefined behaviour"
  },
  {
   "property": "C24",
   "status": "proved",
   "theorems": [
    "Verif.HumanSize.format_right"
   ],
   "note": ""
  },
  {
   "property": "C25",
   "status": "partial",
   "theorems": [
    "Verif.Ignore.pattern_matches_glob_partial",
    "Verif.Ignore.class_pattern_partial",
    "Verif.Ignore.unclosed_class_partial",
    "Verif.Ignore.single_pattern_verdict_partial",
    "Verif.Ignore.class_matches_slash",
    "Verif.Ignore.escaped_letter",
    "Verif.Ignore.bracket_first_class",
    "Verif.Ignore.named_then_star",
    "Verif.Ignore.posix_class_dropped",
    "Verif.Ignore.trailing_double_star_slash"
   ],
   "note": "all patterns, with characters, ranges, named classes and a first closing bracket in classes, except those for which the claim is false of the code: a class that contains the slash, as [!b] does, matches a slash (class_matches_slash; the other direction and paths without slashes are proved, class_pattern_partial); an escaped letter or digit is handed to PCRE, where it means something else (escaped_letter); a star or question mark in a class after a closing bracket that does not end the class is translated (bracket_first_class, named_then_star); [:a:] is an error for PCRE (posix_class_dropped); a/**/ (trailing_double_star_slash). Nothing is said of unknown names of classes, a hyphen after a named class, a range from a first closing bracket, and [: ... or [. ... or [= ... when that character comes again in the class. Patterns up to 908 characters (C29)"
  },
  {
   "property": "C26",
   "status": "proved",
   "theorems": [
    "Verif.Ignore.last_match_wins",
    "Verif.Ignore.dir_pattern_skips_files"
   ],
   "note": ""
  },
  {
   "property": "C27",
   "status": "partial",
   "theorems": [
    "Verif.Ignore.outermost_match_wins",
    "Verif.Ignore.nested_file_decides_partial",
    "Verif.Ignore.nested_file_overridden"
   ],
   "note": "false of the code: the outermost matching ignore file decides; holds when no enclosing file has a matching pattern"
  },
  {
   "property": "C28",
   "status": "partial",
   "theorems": [
    "Verif.Ignore.comments_inert_partial",
    "Verif.Ignore.long_comment_tail_is_pattern",
    "Verif.Ignore.long_comment_read"
   ],
   "note": "false for comment lines of 4096 characters: the tail becomes a pattern; holds for lines shorter than 4095; a longer line loses its first 4095 characters and the rest is read as a line of its own (long_comment_read)"
  },
  {
   "property": "C29",
   "status": "partial",
   "theorems": [
    "Verif.Ignore.translation_fits_partial",
    "Verif.Ignore.translation_overflows",
    "Verif.Ignore.translation_bound_sharp"
   ],
   "note": "false of the code: 1023 question marks overflow, and stars and question marks in turn from 909 characters on; safe up to 908 characters, which is the exact bound (translation_bound_sharp)"
  },
  {
   "property": "C30",
   "status": "proved",
   "theorems": [
    "Verif.Traverse.traversal_exact",
    "Verif.Traverse.scanArgs_exact",
    "Verif.Traverse.whitelist_applies_to_directories"
   ],
   "note": "for every scan that succeeds (C69) without undefined behaviour; the expressions apply to directories too"
  },
  {
   "property": "C31",
   "status": "proved",
   "theorems": [
    "Verif.Report.offered_files_counted"
   ],
   "note": ""
  },
  {
   "property": "C32",
   "status": "proved",
   "theorems": [
    "Verif.Config.json_verbose_exclusive"
   ],
   "note": ""
  },
  {
   "property": "C33",
   "status": "proved",
   "theorems": [
    "Verif.Config.numbers_in_range",
    "Verif.Config.parseThreads_iff"
   ],
   "note": ""
  },
  {
   "property": "C34",
   "status": "proved",
   "theorems": [
    "Verif.Config.flags_exact"
   ],
   "note": ""
  },
  {
   "property": "C35",
   "status": "proved",
   "theorems": [
    "Verif.Page.key_compare_is_lexicographic",
    "Verif.Page.key_compare_total_order"
   ],
   "note": ""
  },
  {
   "property": "C36",
   "status": "partial",
   "theorems": [
    "Verif.Page.search_finds_partial",
    "Verif.Page.search_few_probes",
    "Verif.Page.oversized_key_is_truncated"
   ],
   "note": "proved for keys shorter than 65536 bytes; a longer key is looked up as a prefix of itself"
  },
  {
   "property": "C37",
   "status": "partial",
   "theorems": [
    "Verif.Page.insert_keeps_entries_partial",
    "Verif.Page.oversized_insert_undefined",
    "Verif.Page.oversized_insert_witness"
   ],
   "note": "proved for entries of fewer than 65536 bytes; for larger ones the size wraps and the code writes outside the page"
  },
  {
   "property": "C38",
   "status": "proved",
   "theorems": [
    "Verif.Page.delete_removes_exactly_one",
    "Verif.Page.delete_invalid_position"
   ],
   "note": ""
  },
  {
   "property": "C39",
   "status": "proved",
   "theorems": [
    "Verif.Page.split_leaf_partitions"
   ],
   "note": ""
  },
  {
   "property": "C40",
   "status": "proved",
   "theorems": [
    "Verif.Page.split_branch_partitions"
   ],
   "note": ""
  },
  {
   "property": "C41",
   "status": "partial",
   "theorems": [
    "Verif.Db.put_then_get_partial",
    "Verif.Db.put_refines_partial",
    "Verif.Db.history_refines_partial",
    "Verif.Db.stored_value_lost",
    "Verif.Db.middle_key_lost",
    "Verif.Db.full_leaf_found_iff",
    "Verif.Db.put_exact_partial",
    "Verif.Db.put_found_iff_partial",
    "Verif.Db.put_exact_quiet_partial",
    "Verif.Db.first_put_exact_partial",
    "Verif.Db.replaced_value_lost"
   ],
   "note": "false of the code (a, c, b with large values: b is lost; a deleted and stored again with a larger value in a leaf that the deletion emptied: lost, replaced_value_lost). Exactly: in a well-formed tree of any height a key whose put succeeded is found if and only if it is not in Lost, a condition on the tree before the put (put_exact_partial, put_found_iff_partial); Lost is empty when the splits are of the safe kind (safe_none_lost). Missing: pages with at most one entry that split and find room (refusals are C76), a new separator equal to that of a first child (PutDivides), and a Free DB that gives pages back (with one that gives none back, because a reader keeps its entries: put_exact_quiet_partial, first_put_exact_partial)"
  },
  {
   "property": "C42",
   "status": "partial",
   "theorems": [
    "Verif.Db.put_keeps_others_partial",
    "Verif.Db.put_refines_partial",
    "Verif.Db.history_refines_partial",
    "Verif.Db.put_loses_other_key",
    "Verif.Db.put_exact_partial",
    "Verif.Db.put_others_iff_partial",
    "Verif.Db.put_exact_quiet_partial",
    "Verif.Db.first_put_exact_partial"
   ],
   "note": "false of the code (storing a makes b disappear). Exactly: in a well-formed tree of any height another stored key is still found if and only if it is not in Lost (put_exact_partial, put_others_iff_partial). Missing: as for C41"
  },
  {
   "property": "C43",
   "status": "partial",
   "theorems": [
    "Verif.Db.del_refines_partial",
    "Verif.Db.del_then_get_partial",
    "Verif.Db.oversized_del_is_truncated"
   ],
   "note": "proved for keys shorter than 65536 bytes and trees of at most 32 levels; a longer key deletes a prefix of itself"
  },
  {
   "property": "C44",
   "status": "partial",
   "theorems": [
    "Verif.Db.bulk_load_partial",
    "Verif.Db.bulk_load_similar_partial",
    "Verif.Db.mixed_load_fails",
    "Verif.Db.deep_tree_refuses_put",
    "Verif.Db.load_and_commit_partial"
   ],
   "note": "proved for keys and entries of similar sizes (any range of sizes that meets Limits.Good; one size is a special case), up to (4078/(key+12)/2)^31 keys; false for sizes that differ much: a put of the last key can fail and lose another key (mixed_load_fails); the bound on the number keeps the tree at 32 levels or less; a deeper tree refuses keys"
  },
  {
   "property": "C45",
   "status": "partial",
   "theorems": [
    "Verif.Db.forward_scan_exact",
    "Verif.Db.forward_scan_partial",
    "Verif.Db.put_keeps_full_partial",
    "Verif.Db.bulk_then_scan_partial",
    "Verif.Db.empty_leaf_hides_keys",
    "Verif.Db.cursor_invents_pair"
   ],
   "note": "what a scan gives is said exactly for every well-formed tree of at most 32 levels: the keys up to the first empty leaf (forward_scan_exact); the property holds for trees without empty leaves, a condition kept by put of new keys, and is false after a deletion has emptied a leaf (empty_leaf_hides_keys); it is also false of a tree of 33 levels, which 34 keys of 1500 bytes make: FIRST succeeds with a key that nobody has stored (cursor_invents_pair)"
  },
  {
   "property": "C46",
   "status": "partial",
   "theorems": [
    "Verif.Db.backward_scan_exact",
    "Verif.Db.backward_scan_partial",
    "Verif.Db.put_keeps_full_partial",
    "Verif.Db.bulk_then_scan_partial",
    "Verif.Db.empty_leaf_hides_keys"
   ],
   "note": "as C45: exactly the keys behind the last empty leaf (backward_scan_exact); false after a deletion has emptied a leaf"
  },
  {
   "property": "C47",
   "status": "partial",
   "theorems": [
    "Verif.Db.seek_exact_partial",
    "Verif.Db.seek_range_exact",
    "Verif.Db.seek_range_partial",
    "Verif.Db.seek_range_one_leaf",
    "Verif.Db.range_seek_misses"
   ],
   "note": "exact positioning proved for keys under 65536 bytes and at most 32 levels; at-or-after positioning looks at one leaf only, so it reports not-found although a later leaf has a key (range_seek_misses); what it answers, and what the cursor shows afterwards, is said exactly (seek_range_exact)"
  },
  {
   "property": "C48",
   "status": "partial",
   "theorems": [
    "Verif.Db.put_replaces_partial",
    "Verif.Db.put_refines_partial",
    "Verif.Db.put_refused_in_touched_leaf",
    "Verif.Db.second_put_refused",
    "Verif.Db.put_not_longer_partial"
   ],
   "note": "false of the code when the leaf has been touched by the transaction (EEXIST); proved for untouched leaves"
  },
  {
   "property": "C49",
   "status": "proved",
   "theorems": [
    "Verif.Db.abort_restores",
    "Verif.Db.run_refines_partial"
   ],
   "note": "the environment after begin and abort is the one before; that put and del change nothing but the transaction is part of the model's types, as the C code changes only copies in the transaction's pool"
  },
  {
   "property": "C50",
   "status": "partial",
   "theorems": [
    "Verif.Db.commit_saves_partial",
    "Verif.Db.reopen_keeps",
    "Verif.Db.reader_sees_committed",
    "Verif.Db.run_refines_partial",
    "Verif.Db.history_of_database_partial",
    "Verif.Db.create_empty",
    "Verif.Db.committed_key_lost",
    "Verif.Db.committed_key_unreachable",
    "Verif.Db.load_and_commit_partial",
    "Verif.Db.remap_children"
   ],
   "note": "proved for whole histories of commits, aborts, reopenings and readers in which each put meets PutSafe, no allocation takes a page from the Free DB (or the pair fits its leaf), the freed pages fit one Free DB leaf and the file stays within the map; false in general: pages still in use are listed as free and handed out (committed_key_lost, committed_key_unreachable)"
  },
  {
   "property": "C51",
   "status": "partial",
   "theorems": [
    "Verif.Db.crash_atomic_partial",
    "Verif.Db.crash_first_load_partial",
    "Verif.Db.crash_old",
    "Verif.Db.crash_new",
    "Verif.Db.crash_loses_key"
   ],
   "note": "proved for transactions that write no page of the committed state, in particular the first transaction of a new database, for every crash point and every selection of unsynced bytes; and for crashes before the first such write or after the meta page is on disk; false in general because pages are overwritten in place (crash_loses_key)"
  },
  {
   "property": "C52",
   "status": "partial",
   "theorems": [
    "Verif.Db.snapshot_kept_partial",
    "Verif.Db.empty_snapshot_kept",
    "Verif.Db.snapshot_changes",
    "Verif.Db.snapshot_loses_key"
   ],
   "note": "proved as long as no commit writes a page of the snapshot; false in general: pages are overwritten in place (snapshot_changes, snapshot_loses_key)"
  },
  {
   "property": "C53",
   "status": "proved",
   "theorems": [
    "Verif.Db.one_writer",
    "Verif.Db.begin_waits_iff",
    "Verif.Db.commit_unlocks"
   ],
   "note": "threads of one environment; failures of the mutex itself and other processes are outside the model"
  },
  {
   "property": "C54",
   "status": "partial",
   "theorems": [
    "Verif.Db.reader_table_partial",
    "Verif.Db.oldest_spec",
    "Verif.Db.slot_left_behind",
    "Verif.Cache.read_and_end"
   ],
   "note": "proved where each read transaction is ended by the thread that began it; false otherwise: the slot stays in use (slot_left_behind)"
  },
  {
   "property": "C55",
   "status": "partial",
   "theorems": [
    "Verif.Db.pages_fresh_partial",
    "Verif.Db.pinned_quiet",
    "Verif.Db.last_grows",
    "Verif.Db.recorded_pages_in_use",
    "Verif.Db.first_allocation_new_or_in_use",
    "Verif.Db.live_page_handed_out",
    "Verif.Db.reader_page_handed_out"
   ],
   "note": "proved while there is no Free DB or an open reader keeps all its entries back; false otherwise, in every history and not only in the witnesses live_page_handed_out and reader_page_handed_out: after any history from creation on that meets the conditions of Run, every page recorded as free is a page of the committed tree (recorded_pages_in_use), so the first allocation of a transaction either extends the file or hands out a page of its own tree (first_allocation_new_or_in_use)"
  },
  {
   "property": "C56",
   "status": "proved",
   "theorems": [
    "Verif.Db.live_is_newest",
    "Verif.Db.open_fails_iff",
    "Verif.Db.open_selects",
    "Verif.Db.commit_writes_newer",
    "Verif.Db.commit_fails_same",
    "Verif.Db.create_defined_iff"
   ],
   "note": "for ids below 2^64 - 1 and files of at least two pages"
  },
  {
   "property": "C57",
   "status": "partial",
   "theorems": [
    "Verif.Db.descent_bounded_partial",
    "Verif.Db.damaged_branch_undefined",
    "Verif.Db.get_loops_on_cycle"
   ],
   "note": "termination, the 32-page bound and the page-number bound are proved for all stores; on damaged pages the outcome may be undefined behaviour instead of an error; the read descent has no bound; empty branch pages, on which the descent is undefined, are also left by splits (C122)"
  },
  {
   "property": "C58",
   "status": "partial",
   "theorems": [
    "Verif.Cache.Lock.one_handle_partial",
    "Verif.Cache.Lock.open_iff_free_partial",
    "Verif.Cache.Lock.released_partial",
    "Verif.Cache.Lock.exit_releases",
    "Verif.Cache.Lock.lock_excludes_others",
    "Verif.Cache.Lock.same_process_twice",
    "Verif.Cache.Lock.two_processes",
    "Verif.Cache.Lock.failed_open_unlocks"
   ],
   "note": "proved for all histories in which no process opens a cache it has open (any number of processes, any failure point, processes that end at any time); false otherwise, as record locks belong to the process (same_process_twice) and are lost with the first descriptor closed (two_processes, failed_open_unlocks)"
  },
  {
   "property": "C59",
   "status": "partial",
   "theorems": [
    "Verif.Cache.sweep_exact_partial",
    "Verif.Cache.sweep_keeps_visited_partial",
    "Verif.Cache.sweep_visited",
    "Verif.Cache.history_of_cache_partial",
    "Verif.Cache.sweep_keeps_unvisited",
    "Verif.Cache.failed_sweep_deletes",
    "Verif.Cache.sweep_forgets_reader",
    "Verif.Cache.sweep_fails",
    "Verif.Cache.large_cache_cannot_be_swept",
    "Verif.Cache.sweep_with_pointers",
    "Verif.Cache.lsweep_exact_partial"
   ],
   "note": "what a sweep removes is said exactly for every well-formed database in which the changed pages fit the Free DB: the unvisited entries up to the first empty leaf (sweep_exact_partial); the property is proved for databases without an empty leaf in which the changed pages fit the Free DB; false in general: a sweep stops at an empty leaf, which an earlier sweep may have left (sweep_keeps_unvisited), and a failed commit has deleted entries already (failed_sweep_deletes); caches with more than 44704 entries to remove, loaded in one transaction, can never be swept (large_cache_cannot_be_swept, for a whole class of caches); the sweep is modelled with copies of pages in its cursor, and with pointers to pages it has the same outcomes (sweep_with_pointers)"
  },
  {
   "property": "C60",
   "status": "partial",
   "theorems": [
    "Verif.Cache.lookup_answers",
    "Verif.Cache.lookup_size",
    "Verif.Cache.no_transaction",
    "Verif.Cache.upserts_body",
    "Verif.Cache.history_of_cache_partial",
    "Verif.Cache.directory_lookup_undefined_witness"
   ],
   "note": "lookup_size and lookup_answers are unconditional on the contents (paths below 65536 bytes); the record last stored is found in all histories that meet the conditions of C50; false in general: after 71 successful stores into a new cache the lookup of a stored path reads outside its page (directory_lookup_undefined_witness)"
  },
  {
   "property": "C61",
   "status": "partial",
   "theorems": [
    "Verif.Config.ignore_list_exact_partial",
    "Verif.Config.ignore_list_hangs",
    "Verif.Config.accepted_with_names_partial"
   ],
   "note": "false of the code: a name repeated eight times makes the program loop forever; partial: any number of lists, as long as fewer than eight of the names, counted as often as they are given, have one hash (accepted_with_names_partial; five names always fit)"
  },
  {
   "property": "C62",
   "status": "partial",
   "theorems": [
    "Verif.Main.wrong_option_run",
    "Verif.Config.unknown_option_ignored",
    "Verif.Config.unknown_option_rejected_false"
   ],
   "note": "false of the code (refuted in general): a word that is not an option acts like a double dash. The options before it are obeyed, all words behind it are searched as paths (wrong_option_run); APR prints one line on the standard error output"
  },
  {
   "property": "C63",
   "status": "partial",
   "theorems": [
    "Verif.File.filecmp_sound_under_failures_false",
    "Verif.File.filecmp_sound_first_partial"
   ],
   "note": "false of the code when reads of the second file fail or are short; holds for failures of the first"
  },
  {
   "property": "C64",
   "status": "partial",
   "theorems": [
    "Verif.Main.run_crashes_iff",
    "Verif.Report.crash_iff",
    "Verif.Report.safe_iff",
    "Verif.Xxh3.real_collision_crashes",
    "Verif.Report.digest_collision_crashes",
    "Verif.Report.report_exact"
   ],
   "note": "false of the code, also with the XXH128 that is used (real_collision_crashes). When a run breaks off is said exactly: if sorting leaves a different file with the same digest between two identical ones (crash_iff); and which sets of files are reported to the end for every sorting routine (safe_iff). If the run completes the groups are right (report_exact). The same for whole runs: run_crashes_iff"
  },
  {
   "property": "C65",
   "status": "partial",
   "theorems": [
    "Verif.Report.path_given_twice_reported",
    "Verif.Report.no_path_twice_partial",
    "Verif.Traverse.one_argument_no_path_twice_partial"
   ],
   "note": "false of the code; holds if no path is offered twice"
  },
  {
   "property": "C66",
   "status": "proved",
   "theorems": [
    "Verif.Config.values_exact"
   ],
   "note": ""
  },
  {
   "property": "C67",
   "status": "proved",
   "theorems": [
    "Verif.Config.accepted_iff",
    "Verif.Config.accepted_with_names_partial"
   ],
   "note": "accepted_iff: all command lines without -i; accepted_with_names_partial: with any number of -i whose names fit into the table (C61)"
  },
  {
   "property": "C68",
   "status": "partial",
   "theorems": [
    "Verif.Pool.spurious_wakeup_loses_task",
    "Verif.Pool.wait_returns_after_all_tasks",
    "Verif.Pool.nothing_done",
    "Verif.Pool.only_submitted",
    "Verif.Report.early_run"
   ],
   "note": "false of the code if the submitter is woken (no predicate loop around the wait): with any number of workers and any tasks, all of them may be lost (nothing_done); holds if only workers are woken. Under all wake-ups only submitted tasks are carried out (only_submitted) and a run reports what it would report if the digests still missing could not be computed (early_run)"
  },
  {
   "property": "C69",
   "status": "partial",
   "theorems": [
    "Verif.Traverse.traversal_succeeds_iff",
    "Verif.Traverse.one_bad_directory_fails_run",
    "Verif.Traverse.scan_succeeds_iff"
   ],
   "note": "false of the code: the scan succeeds exactly if nothing goes wrong anywhere"
  },
  {
   "property": "C70",
   "status": "partial",
   "theorems": [
    "Verif.Traverse.default_patterns_depend_on_spelling",
    "Verif.Traverse.relative_paths_escape_defaults"
   ],
   "note": "false of the code: default patterns never apply to relative paths, and apply to all components of absolute ones"
  },
  {
   "property": "C71",
   "status": "partial",
   "theorems": [
    "Verif.Main.formats_agree_partial",
    "Verif.Traverse.json_mode_misses_files"
   ],
   "note": "false of the code (consequence of C70); whole runs report the same sets in both formats if every argument is the path it is resolved to"
  },
  {
   "property": "C72",
   "status": "proved",
   "theorems": [
    "Verif.Traverse.traversal_terminates",
    "Verif.Traverse.scan_defined",
    "Verif.Traverse.traversal_defined"
   ],
   "note": ""
  },
  {
   "property": "C73",
   "status": "proved",
   "theorems": [
    "Verif.Traverse.no_file_offered_twice"
   ],
   "note": ""
  },
  {
   "property": "C74",
   "status": "partial",
   "theorems": [
    "Verif.Traverse.scan_links_exact",
    "Verif.Traverse.endless_undefined",
    "Verif.Main.links_run_exact",
    "Verif.Main.cycle_run_undefined",
    "Verif.Traverse.unfollowed_links",
    "Verif.Traverse.unfollowed_links_end",
    "Verif.Traverse.link_cycle_undefined"
   ],
   "note": "false of the code, for every cycle of links that no filter cuts off: the scan goes round until the path no longer resolves and then reads uninitialised memory (endless_undefined, cycle_run_undefined). Said exactly for all file systems with links: with -f a scan is undefined if and only if it comes to a path that leads nowhere (scan_links_exact, links_run_exact; directories that can be listed, short lines in ignore files). Without -f links change nothing (unfollowed_links). Whole runs are with one argument and without -J"
  },
  {
   "property": "C75",
   "status": "partial",
   "theorems": [
    "Verif.Traverse.no_recurse_follows_linked_directories",
    "Verif.Traverse.no_recurse_exact_partial"
   ],
   "note": "false of the code when a link to a directory is followed; exact otherwise (no_recurse_exact_partial)"
  },
  {
   "property": "C76",
   "status": "partial",
   "theorems": [
    "Verif.Db.refused_put_changes_nothing_partial",
    "Verif.Db.failed_put_loses_key",
    "Verif.Db.oversized_put_loses_key",
    "Verif.Db.put_refused_exact",
    "Verif.Db.refused_takes_something",
    "Verif.Db.oversized_put_exact",
    "Verif.Db.refused_put_bound_partial",
    "Verif.Db.refused_pair_is_stored",
    "Verif.Db.put_refused_quiet",
    "Verif.Db.refused_put_bound_quiet_partial"
   ],
   "note": "false of the code for \"no space\", in both directions: pairs disappear (failed_put_loses_key, every oversized put, which takes the upper half of its leaf: oversized_put_exact) and a refused pair can be stored (refused_pair_is_stored). Proved for the refusals EACCES and EEXIST. For \"no space\" decided at the leaf: exactly the upper half of that leaf is lost, the rest is a map (put_refused_exact). For \"no space\" decided anywhere on the way up: every key is not found or has its right value, the new value for the key of the put (refused_put_bound_partial). Missing: which keys exactly when a branch page or the new root refuses; a Free DB that gives pages back (with one that gives none back: put_refused_quiet, refused_put_bound_quiet_partial)"
  },
  {
   "property": "C77",
   "status": "partial",
   "theorems": [
    "Verif.Db.navigation_exact",
    "Verif.Db.navigation_partial"
   ],
   "note": "said exactly for every well-formed tree of at most 32 levels: the cursor moves in the listing cut off at the nearest empty leaf on either side (navigation_exact); the property holds without empty leaves; the transaction does not write while the cursor is open"
  },
  {
   "property": "C78",
   "status": "proved",
   "theorems": [
    "Verif.Db.readonly_refused"
   ],
   "note": ""
  },
  {
   "property": "C79",
   "status": "partial",
   "theorems": [
    "Verif.Db.commit_saves_partial",
    "Verif.Db.commit_refuses_many",
    "Verif.Db.commit_overruns",
    "Verif.Db.commit_refuses_duplicate",
    "Verif.Cache.sweep_of_many_fails",
    "Verif.Cache.large_cache_cannot_be_swept"
   ],
   "note": "commits succeed when the list of changed pages fits the Free DB; false in general: without a Free DB 509 changed pages are refused (commit_refuses_many) and 8191 overrun a buffer (commit_overruns); sweeps of large caches are such transactions (large_cache_cannot_be_swept)"
  },
  {
   "property": "C80",
   "status": "partial",
   "theorems": [
    "Verif.Output.text_report_read_back_partial",
    "Verif.Output.sized_report_read_back_partial",
    "Verif.Output.text_report_ambiguous",
    "Verif.Output.displayed_size_right"
   ],
   "note": "holds if no name contains the separator or a line break; false in general (text_report_ambiguous: with the default separator three files and two files give the same text)"
  },
  {
   "property": "C81",
   "status": "proved",
   "theorems": [
    "Verif.Image.image_report_exact",
    "Verif.Image.groups_overlap"
   ],
   "note": "libpuzzle (loading, distance, comparison with the threshold) is a parameter; symmetry of the distance is assumed. groups_overlap: similarity is not transitive, so a file can be in two groups."
  },
  {
   "property": "C82",
   "status": "partial",
   "theorems": [
    "Verif.Output.json_report_read_back_partial",
    "Verif.Output.json_group_of_its_files",
    "Verif.Output.readTime_isoTime",
    "Verif.Output.readNat_hexDigest",
    "Verif.Output.name_missing",
    "Verif.Output.json_report_without_name",
    "Verif.Output.archive_member_iff",
    "Verif.Output.json_output_read_back_partial"
   ],
   "note": "holds if all names are UTF-8 and the times lie in the years 0 to 9999, for the text on the standard output as well as for the document; the entry of a file whose name is not UTF-8 has no name (name_missing, json_report_without_name)"
  },
  {
   "property": "C83",
   "status": "partial",
   "theorems": [
    "Verif.Archive.untar_extracts_partial",
    "Verif.Archive.untar_succeeds_iff",
    "Verif.Archive.untar_fails_partial",
    "Verif.Archive.member_unique",
    "Verif.Archive.mask_restored_partial",
    "Verif.Archive.untar_leaks",
    "Verif.Archive.umask_left",
    "Verif.Archive.mask_race"
   ],
   "note": "proved of the result and of the files of the disk; false of the rest when an extraction fails (untar_leaks: every failure loses the libarchive objects; umask_left: if no temporary file can be made the mask stays 077) and when two threads extract at once (mask_race)"
  },
  {
   "property": "C84",
   "status": "proved",
   "theorems": [
    "Verif.Archive.hash_no_trace",
    "Verif.Archive.hash_of_contents",
    "Verif.Archive.compare_no_trace",
    "Verif.Archive.compare_contents"
   ],
   "note": "mkstemp gives names not in use; removing a file that exists does not fail; the number of bytes looked at (size of the archive file, -e) is part of the digest and comparison functions, which are parameters"
  },
  {
   "property": "C85",
   "status": "partial",
   "theorems": [
    "Verif.Db.free_page_reused_once_partial",
    "Verif.Db.no_free_page_extends",
    "Verif.Db.first_allocation_partial",
    "Verif.Db.pageNos_written",
    "Verif.Db.free_page_lost",
    "Verif.Db.recorded_pages_in_use"
   ],
   "note": "holds for the first allocation of a transaction, for any allocation while the transaction has not touched the Free DB, and if no entry has more than one page; false for a second allocation from the same entry (free_page_lost: the key is read through a pointer into the page that has just been changed, so the remaining pages are filed under a wrong transaction id and never used); what is recorded as free is always in use (recorded_pages_in_use)"
  },
  {
   "property": "C86",
   "status": "partial",
   "theorems": [
    "Verif.Image.json_iff_asked_partial",
    "Verif.Image.images_ignore_json",
    "Verif.Image.image_json_is_text"
   ],
   "note": "holds for runs that are not for images; with -I the option is ignored (image_json_is_text: a successful run of `ftwin -I -J` prints text that does not begin like JSON)"
  },
  {
   "property": "C87",
   "status": "partial",
   "theorems": [
    "Verif.Archive.made_defined_partial",
    "Verif.Archive.traversed_undefined",
    "Verif.Archive.archive_run_finds_nothing",
    "Verif.Archive.archive_run_undefined"
   ],
   "note": "false: the traversal makes all records without setting the field that names the member, so every digest and every comparison with -t reads it unset (traversed_undefined), and a run that has a defined behaviour is one that compares nothing and finds nothing (archive_run_finds_nothing; archive_run_undefined for two files of one size). With records made by ft_file_make, which the program never calls, all is defined (made_defined_partial)."
  },
  {
   "property": "C88",
   "status": "partial",
   "theorems": [
    "Verif.Db.large_map_partial",
    "Verif.Db.small_map_opened",
    "Verif.Db.commit_beyond_map"
   ],
   "note": "false: nothing compares the map with the file (small_map_opened: opening succeeds and every lookup reads outside the map) or with what is committed (commit_beyond_map: all calls report success, then lookups read outside the map). True if the map reaches beyond the last page (large_map_partial)."
  },
  {
   "property": "C89",
   "status": "proved",
   "theorems": [
    "Verif.Pool.begun_in_order",
    "Verif.Pool.Cells.list_is_queue",
    "Verif.Pool.Cells.take_empty_undefined"
   ],
   "note": "one submitting thread; begun means: taken from the list under the mutex. The linked list is modelled cell by cell (list_is_queue), the pool uses the queue it is proved to be; fewer than 2^64 operations"
  },
  {
   "property": "C90",
   "status": "partial",
   "theorems": [
    "Verif.Xxh.run_hangs_iff",
    "Verif.Xxh.limits_of_small",
    "Verif.Xxh.few_sizes_collide",
    "Verif.Xxh.sizeHash_upper",
    "Verif.Xxh.eight_sizes",
    "Verif.Xxh.eight_files_hang"
   ],
   "note": "false: eight sparse files of the sizes of eight_sizes (all below 32 GiB) make the run never end (eight_files_hang). The exact condition is run_hangs_iff: fewer than eight different sizes with one XXH32 value; it holds if all files are smaller than 28 GiB (limits_of_small). XXH32 is modelled from the vendored source"
  },
  {
   "property": "C91",
   "status": "partial",
   "theorems": [
    "Verif.Xxh.groups_exact_partial",
    "Verif.Xxh.many_groups_fail",
    "Verif.Xxh.effective_group_lost",
    "Verif.Xxh.gidHash_inj"
   ],
   "note": "true of processes with fewer than 256 supplementary groups (XXH32 of four bytes has no collisions, so the table always accepts them). With exactly 256 the effective group is left out, with more the run fails"
  },
  {
   "property": "C92",
   "status": "partial",
   "theorems": [
    "Verif.Main.whole_run",
    "Verif.Main.run_crashes_iff",
    "Verif.Main.text_run_partial",
    "Verif.Main.json_run_partial",
    "Verif.Main.found_iff",
    "Verif.Main.conf_asked",
    "Verif.Main.image_run_partial"
   ],
   "note": "whole runs of ftwin_main with the modelled XXH32 in all tables, in text (to a file, a pipe or a terminal) and in JSON; image runs for every schedule of the worker threads. whole_run is an equation without conditions on the files. Files that cannot be opened are in no group, if what is left in memory in place of their digests is no digest of another file of their size. Without conditions on digests: run_crashes_iff. Missing: archives (C87: undefined), files that change during the run, names with line breaks or separators in text (C80), and the cases in which the tables fail (C06, C61, C90, C91)"
  },
  {
   "property": "C93",
   "status": "partial",
   "theorems": [
    "Verif.Main.exit_status_partial",
    "Verif.Main.loop_cases",
    "Verif.Main.help_first",
    "Verif.Main.unknown_option_ignored"
   ],
   "note": "false of unknown options, which change nothing (unknown_option_ignored). Otherwise: all command lines without -I and -t whose sizes can be converted without overflow (C23) and whose names fit (C61), on trees of finite depth with short ignore lines (C29) and no dangling links followed, files that do not change, some of which may not be readable (C92). The theorem also shows that a single file with nothing to compare gives 0 and an empty report, and that one directory that cannot be read gives 255 and no report"
  },
  {
   "property": "C94",
   "status": "partial",
   "theorems": [
    "Verif.Db.open_all_or_nothing",
    "Verif.Db.open_existing",
    "Verif.Db.open_missing",
    "Verif.Db.handle_leaks_nothing",
    "Verif.Db.create_close_open",
    "Verif.Db.late_failure_partial",
    "Verif.Db.failed_creation_sticks",
    "Verif.Db.never_opens",
    "Verif.Db.open_twice_leaks"
   ],
   "note": "what stays open, and what a successful opening gives, are proved for all failures; false of what is left at the path: a creation whose mapping fails leaves a file that no later opening accepts, with or without NAPR_DB_CREATE (failed_creation_sticks), and a file shorter than two pages is read beyond its end instead of being refused (open_existing, third part). A handle opened twice loses the first descriptor (open_twice_leaks)"
  },
  {
   "property": "C95",
   "status": "partial",
   "theorems": [
    "Verif.Db.other_handle_partial",
    "Verif.Db.other_handle_overwrites",
    "Verif.Db.two_writers",
    "Verif.Db.update_lost"
   ],
   "note": "false: a handle moves its pointer to the live meta page only at its own commits, and the lock is made anew at each opening. After an odd number of commits through another handle it is at the state before the last one (other_handle_partial); its own commit then carries the id of the commit it has not seen and overwrites its meta page (other_handle_overwrites); update_lost is a run in which all calls report success and a stored key is gone. True after an even number of commits"
  },
  {
   "property": "C96",
   "status": "partial",
   "theorems": [
    "Verif.Db.readonly_unchanged",
    "Verif.Db.readonly_commit",
    "Verif.Db.readonly_create_spoils"
   ],
   "note": "true of all transactions; false of opening with NAPR_DB_CREATE as well: a missing file is created, cannot be made longer through the read-only descriptor, and is left empty, after which no opening is defined (readonly_create_spoils). That write and ftruncate fail on such a descriptor is an assumption about the operating system"
  },
  {
   "property": "C97",
   "status": "partial",
   "theorems": [
    "Verif.Hash.limited_set_returns",
    "Verif.Hash.failed_set_breaks_table"
   ],
   "note": "proved: every call returns, success adds exactly the element, it fails if fill-factor elements share a hash and succeeds otherwise when tables of 2^32 buckets can be had; after a failure searches are right. False of the code: after a failure, setting another element of the same bucket writes behind the bucket (failed_set_breaks_table). Memory is limited by the power of the largest table; small allocations do not fail"
  },
  {
   "property": "C98",
   "status": "partial",
   "theorems": [
    "Verif.HumanSize.size_text_means",
    "Verif.HumanSize.size_text_only",
    "Verif.HumanSize.special_text_undefined",
    "Verif.HumanSize.toDouble_nearest",
    "Verif.HumanSize.nearest_unique"
   ],
   "note": "proved for all texts. False of the code for values of 2^63 bytes and more, infinities and not-a-numbers: the conversion to an integer is undefined (size_text_means, special_text_undefined). strtod is modelled in the C locale without nan(...)"
  },
  {
   "property": "C99",
   "status": "partial",
   "theorems": [
    "Verif.Output.colors_end_with_names_partial",
    "Verif.Output.colors_do_not_change_text_partial",
    "Verif.Output.escape_in_name"
   ],
   "note": "all runs in which no name contains an escape character; false otherwise (escape_in_name): names are written to the terminal as they are"
  }
 ]
}
