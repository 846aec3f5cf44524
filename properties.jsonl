{"id": "C01", "title": "Heap extraction always yields a maximal element", "statement": "After any history of insertions and extractions, extracting from a non-empty heap returns an element that no element still held exceeds under the heap's comparator, and extracting from an empty heap returns nothing.", "quantifier": "every comparator that is a total preorder, every finite sequence of insert/extract calls", "why_tests_cant": "the shape of the array depends on the whole history; tests try a handful of insertion orders", "anchors": ["src/napr_heap.c: napr_heap_insert, napr_heap_extract, napr_heap_get_nth, napr_heap_size", "src/ft_config.c: ft_file_cmp"]}
{"id": "C02", "title": "Heap neither loses nor invents elements", "statement": "At every point of any history the elements inserted so far are, as a multiset, exactly the elements extracted so far together with the elements held; size() is the number held, get_nth enumerates precisely the held ones, and draining the heap yields all of them in non-increasing order.", "quantifier": "every comparator (conservation) / every total preorder (order), every finite operation sequence", "why_tests_cant": "conservation is an invariant of unbounded histories; a lost element shows up only for particular shapes", "anchors": ["src/napr_heap.c: napr_heap_insert, napr_heap_extract, napr_heap_get_nth, napr_heap_size"]}
{"id": "C03", "title": "Heap array accesses stay in bounds, growth terminates below 2^31 elements", "statement": "Every array cell an insertion reads or writes lies inside the allocated tree and the capacity-doubling loop ends, as long as fewer than 2^31 elements are held; at capacity 2^31 the doubling loop never ends.", "quantifier": "every heap with any number of elements, 32-bit unsigned arithmetic", "why_tests_cant": "the failing capacity needs two billion insertions", "anchors": ["src/napr_heap.c: napr_heap_insert"]}
{"id": "C04", "title": "Hash table lookup is a faithful map", "statement": "As long as each key is set only when absent, after any history of set, remove and search calls a search returns the element last set under that key and not removed since, and returns nothing when there is none; table growth never changes any answer.", "quantifier": "every hash function, every initial size and fill factor, every finite operation sequence with distinct live keys", "why_tests_cant": "growth is triggered by bucket collisions that depend on the hash of every key inserted before", "anchors": ["src/napr_hash.c: napr_hash_make_ex, napr_hash_search, napr_hash_set, napr_hash_rebuild, napr_hash_remove"]}
{"id": "C05", "title": "Hash iteration visits every stored element exactly once", "statement": "Iterating with first/next until the end yields each stored element exactly once and nothing else.", "quantifier": "every reachable table", "why_tests_cant": "the walk depends on which buckets are empty; off-by-one errors hide at the first and last bucket", "anchors": ["src/napr_hash.c: napr_hash_first, napr_hash_next, napr_hash_this"]}
{"id": "C06", "title": "Setting an element terminates", "statement": "Setting an element returns after finitely many table doublings whenever fewer than fill-factor stored elements share any one full 32-bit hash value; when that many share it the call never returns.", "quantifier": "every hash function, every table, every element", "why_tests_cant": "needs adversarial full 32-bit hash collisions", "anchors": ["src/napr_hash.c: napr_hash_set, napr_hash_rebuild"]}
{"id": "C07", "title": "Setting an existing key replaces its value", "statement": "The header documents that set inserts or updates: after setting a key twice a search should return the second element.", "quantifier": "every table, every key, every two elements with that key", "why_tests_cant": "tests only insert distinct keys", "anchors": ["src/napr_hash.h: napr_hash_set", "src/napr_hash.c: napr_hash_set, napr_hash_search"]}
{"id": "C08", "title": "Every submitted task runs exactly once before wait returns", "statement": "When tasks are submitted and then wait is called, wait returns only after every submitted task has been executed, no task is executed twice and nothing that was not submitted is executed.", "quantifier": "every number of workers at least one, every number of tasks, every interleaving of the threads", "why_tests_cant": "interleavings are unbounded and the losing ones are rare", "anchors": ["src/napr_threadpool.c: napr_threadpool_add, napr_threadpool_wait, process_task, wait_for_task, napr_threadpool_loop"]}
{"id": "C09", "title": "Waiting for the pool cannot deadlock", "statement": "While the submitter is blocked in wait and the workers have not been shut down, some thread can always take a step, and once no more tasks are submitted every execution reaches the state in which wait returns after a bounded number of steps.", "quantifier": "every number of workers at least one, every task list, every interleaving", "why_tests_cant": "lost wake-ups need exact interleavings of signal, wait and unlock", "anchors": ["src/napr_threadpool.c: napr_threadpool_wait, wait_for_task, napr_threadpool_loop"]}
{"id": "C10", "title": "Shutdown stops every worker without abandoning a running task", "statement": "After shutdown is requested every worker finishes the task it is running, then exits; join cannot block forever.", "quantifier": "every number of workers, every interleaving, every moment of the shutdown call", "why_tests_cant": "depends on where each worker is when the flag is raised", "anchors": ["src/napr_threadpool.c: napr_threadpool_shutdown, napr_threadpool_loop"]}
{"id": "C11", "title": "Parallel hashing gives the same digests whatever the schedule", "statement": "After the hashing phase the digest recorded for each file is the digest of that file, independent of the number of threads and the order in which tasks run, and the processed counter equals the number of files hashed successfully.", "quantifier": "every schedule, every thread count, every set of size classes", "why_tests_cant": "data races do not show up deterministically", "anchors": ["src/ft_process.c: hashing_worker_callback, dispatch_hashing_tasks"]}
{"id": "C12", "title": "Reported duplicates are identical", "statement": "Any two files listed in the same group have the same size and the same bytes.", "quantifier": "every set of candidate files, every content, every hash function (including one with collisions), every order the sort leaves equal elements in", "why_tests_cant": "false positives need hash collisions or particular orders", "anchors": ["src/ft_report.c: ft_report_duplicates, process_and_report_duplicates_for_file, compare_and_report_pair", "src/ft_report_json.c: find_and_report_duplicates, process_file_group"]}
{"id": "C13", "title": "All duplicates are reported", "statement": "If two candidate files have identical bytes then both appear in the same group.", "quantifier": "every set of candidate files, every content, every hash function, every sort order of equal elements", "why_tests_cant": "a missed pair depends on the position of other files in the sorted array", "anchors": ["src/ft_report.c: ft_report_duplicates", "src/ft_report_json.c: ft_report_json", "src/ft_process.c: categorize_files, collect_hashing_results"]}
{"id": "C14", "title": "Groups are disjoint and non-trivial", "statement": "Every reported group lists at least two files, no file occurs in two groups or twice in a group, and every listed file is one of the candidates.", "quantifier": "every candidate set, every comparison outcome", "why_tests_cant": "depends on the in-place marking across nested loops", "anchors": ["src/ft_report.c: compare_and_report_pair", "src/ft_report_json.c: find_and_report_duplicates"]}
{"id": "C15", "title": "Prioritised files come first in their group", "statement": "Within each reported group no non-prioritised file precedes a prioritised one; in particular the first listed file is prioritised whenever the group contains a prioritised file.", "quantifier": "every candidate set, every sort order of equal elements", "why_tests_cant": "qsort is unstable and the key is a signed one-bit field", "anchors": ["src/ft_report.c: ft_chksum_cmp", "src/ft_types.h: ft_file_t.prioritized"]}
{"id": "C16", "title": "Groups are reported from the largest file size down", "statement": "The sizes of successive reported groups never increase and all groups of one size are contiguous.", "quantifier": "every candidate set", "why_tests_cant": "depends on heap order over the whole history", "anchors": ["src/ft_report.c: ft_report_duplicates", "src/ft_process.c: categorize_files", "src/napr_heap.c: napr_heap_extract"]}
{"id": "C17", "title": "A failing comparison never crashes the report", "statement": "If comparing some pair of files fails (permission, I/O error) the reporter skips that pair and still completes, listing the remaining duplicates.", "quantifier": "every pattern of failing comparisons", "why_tests_cant": "needs a combination of a failed pair and later equal files in the same hash class", "anchors": ["src/ft_report.c: process_and_report_duplicates_for_file, compare_and_report_pair", "src/ft_report_json.c: perform_file_comparison, find_and_report_duplicates"]}
{"id": "C18", "title": "Text and JSON output describe the same groups", "statement": "For the same candidates the JSON report and the text report contain the same groups as sets of files.", "quantifier": "every candidate set, every hash function, every sort order", "why_tests_cant": "the two modes hash different size classes and use different code", "anchors": ["src/ft_report.c: ft_report_duplicates", "src/ft_report_json.c: ft_report_json", "src/ft_process.c: categorize_files"]}
{"id": "C19", "title": "Files of unique size are never read", "statement": "A file whose size no other candidate shares is neither hashed nor compared, and in text mode a file is hashed only if at least three candidates share its non-zero size.", "quantifier": "every candidate set, both output modes", "why_tests_cant": "depends on counts over the whole traversal", "anchors": ["src/ft_process.c: categorize_files, dispatch_hashing_tasks"]}
{"id": "C20", "title": "File comparison decides equality of content", "statement": "For two readable files that both have the stated length, the comparison reports equality exactly when their bytes are equal, whatever the memory-mapping threshold and whichever mapping attempts fail.", "quantifier": "every pair of contents, every threshold, every subset of failing mmaps", "why_tests_cant": "chunk-boundary behaviour depends on lengths modulo 64 KiB", "anchors": ["src/ft_file.c: filecmp, small_filecmp, big_filecmp"]}
{"id": "C21", "title": "A file that changed length is not reported equal", "statement": "If the two files no longer have the same length when they are compared, the comparison does not report them equal.", "quantifier": "every pair of contents of different length", "why_tests_cant": "needs a race with another writer", "anchors": ["src/ft_file.c: big_filecmp"]}
{"id": "C22", "title": "The digest does not depend on the reading strategy", "statement": "The digest of a file computed through memory mapping and through chunked reading is the digest of exactly its bytes, for every threshold and whatever sizes the individual reads return.", "quantifier": "every content, every threshold, every split of the content into reads", "why_tests_cant": "short reads cannot be provoked in a unit test", "anchors": ["src/ft_file.c: checksum_file, checksum_small_file, checksum_big_file"]}
{"id": "C23", "title": "Size arguments mean what they say", "statement": "A decimal integer with an optional K, M, G or T suffix (either case, optional blanks) parses to the number times the binary unit whenever the product is below 2^53; text that does not start with a number and unknown suffixes are rejected.", "quantifier": "every digit string, every suffix", "why_tests_cant": "unbounded input space", "anchors": ["src/human_size.c: parse_human_size"]}
{"id": "C24", "title": "Human-readable sizes pick the right unit", "statement": "Formatting a non-negative size below 2^53 uses the largest unit not exceeding it and the printed number differs from size/unit by at most one twentieth.", "quantifier": "every size in range", "why_tests_cant": "boundary values at every unit and rounding cases", "anchors": ["src/human_size.c: format_human_size"]}
{"id": "C25", "title": "Ignore patterns match what the glob syntax says", "statement": "A pattern built from literal characters, '?', '*', '**', '**/', character classes and escaped characters matches a relative path exactly when the glob semantics does: '?' one non-slash character, '*' any run of non-slash characters, '**' anything, '**/' zero or more leading components, a class one of its characters, a named class in it included (or, negated, one not in it), but never a slash, a backslash takes the meaning away from the next character; unanchored patterns match at any component boundary, a leading slash anchors, a trailing slash restricts to directories.", "quantifier": "every pattern in the fragment, every path without newline", "why_tests_cant": "two unbounded string domains", "anchors": ["src/ft_ignore.c: ft_glob_to_pcre, convert_glob_body_to_pcre, handle_star, handle_char_class, handle_negation_and_slashes, set_pcre_anchors"]}
{"id": "C26", "title": "Last matching pattern wins inside one ignore file", "statement": "Within one context a path's verdict is that of the last pattern that matches it, whitelisting if negated; directory-only patterns never affect files; with no match the verdict is none.", "quantifier": "every pattern list, every path", "why_tests_cant": "depends on order over unbounded lists", "anchors": ["src/ft_ignore.c: ft_ignore_match"]}
{"id": "C27", "title": "A nested ignore file overrides its parents", "statement": "When patterns of a directory's own ignore file match a path, they decide its verdict, whatever the enclosing directories' ignore files say (gitignore precedence).", "quantifier": "every chain of contexts, every path", "why_tests_cant": "needs conflicting rules at different depths", "anchors": ["src/ft_ignore.c: ft_ignore_match", "src/ft_traverse.c: process_directory"]}
{"id": "C28", "title": "Comments and blank lines are inert", "statement": "Lines that are empty, blank, or whose first non-blank character is '#' change no verdict, wherever they occur in the file.", "quantifier": "every ignore file, every path", "why_tests_cant": "quantifies over all files and positions", "anchors": ["src/ft_ignore.c: ft_ignore_add_pattern_str, ft_ignore_load_file"]}
{"id": "C29", "title": "Pattern translation never overruns its buffer", "statement": "Translating a pattern writes at most 4096 bytes including the terminator.", "quantifier": "every pattern", "why_tests_cant": "needs long patterns dense in wildcards", "anchors": ["src/ft_ignore.c: ft_glob_to_pcre, append_pcre_sequence"]}
{"id": "C30", "title": "Traversal selects exactly the eligible files", "statement": "After traversing a tree the candidates are exactly the regular files (and links when followed) that are reachable through directories not filtered out and that themselves pass every filter: size bounds, hidden, ignored names, regexes, ignore rules, permissions, recursion option.", "quantifier": "every finite file tree, every configuration", "why_tests_cant": "combinations of filters over unbounded trees", "anchors": ["src/ft_traverse.c: traverse_recursive, process_directory, process_directory_entry, process_file, check_permissions"]}
{"id": "C31", "title": "Size classes count the candidates", "statement": "At every moment of a traversal, for each size the recorded number of files equals the number of candidates of that size, and a size is recorded exactly if some candidate has it.", "quantifier": "every sequence of files offered", "why_tests_cant": "invariant over unbounded histories", "anchors": ["src/ft_traverse.c: process_file"]}
{"id": "C32", "title": "JSON output is never mixed with verbose chatter", "statement": "Whatever options are given in whatever order and repetition, JSON mode and verbose mode are never both active after option parsing.", "quantifier": "every sequence of options", "why_tests_cant": "unbounded sequences of options", "anchors": ["src/ft_config.c: handle_flag_option, handle_json_option, process_options"]}
{"id": "C33", "title": "Accepted numeric options are in range", "statement": "If option parsing succeeds the thread count is between 1 and 256 when -j was given (otherwise the detected default), and minimum size, maximum size and mapping threshold are non-negative; malformed values make parsing fail.", "quantifier": "every option sequence and argument string", "why_tests_cant": "all strings", "anchors": ["src/ft_config.c: handle_numeric_option, parse_args"]}
{"id": "C34", "title": "Later flags win, other flags are monotone", "statement": "After parsing, recursion is on exactly if the last of -r/-R given was -r (or none was given), and each other flag is set exactly if it was given at least once.", "quantifier": "every sequence of options", "why_tests_cant": "unbounded sequences", "anchors": ["src/ft_config.c: handle_flag_option, process_options"]}
{"id": "C35", "title": "Database keys are totally ordered", "statement": "Key comparison is a total order: byte-wise lexicographic with a proper prefix first; it is antisymmetric, transitive and equal only on equal keys.", "quantifier": "all byte strings", "why_tests_cant": "infinite domain", "anchors": ["src/napr_db_tree.c: db_key_compare"]}
{"id": "C36", "title": "In-page search finds the key or its insertion point", "statement": "On a page with strictly ascending keys, searching a key reports found with its position when present and otherwise reports not-found with the number of smaller keys, reading only existing slots, and with n keys on the page it compares at most log2 n + 1 of them.", "quantifier": "every sorted page, every key", "why_tests_cant": "binary search off-by-one errors depend on lengths", "anchors": ["src/napr_db_tree.c: db_page_search"]}
{"id": "C37", "title": "Inserting into a page keeps every other entry intact", "statement": "Inserting an entry at a valid position into a well-formed page either reports no space, exactly when the free gap cannot hold node plus slot, and changes nothing, or succeeds and the page then holds exactly the old entries, byte for byte, with the new one at that position; no byte outside the page is touched and the page stays well-formed.", "quantifier": "every well-formed page, every position, every key and value", "why_tests_cant": "layouts with holes and near-full pages are unbounded in number", "anchors": ["src/napr_db_tree.c: db_page_insert"]}
{"id": "C38", "title": "Deleting from a page keeps every other entry intact", "statement": "Deleting a valid position from a well-formed page removes exactly that entry, leaves all others byte-identical and in order, makes exactly the node's bytes plus one slot available again, touches nothing outside the page, and keeps the page well-formed; an invalid position is rejected without change.", "quantifier": "every well-formed page (with or without holes), every position", "why_tests_cant": "compaction shifts depend on the physical order of nodes", "anchors": ["src/napr_db_tree.c: db_page_delete"]}
{"id": "C39", "title": "Splitting a leaf partitions its entries", "statement": "Splitting a leaf leaves the first half of the entries on the old page and the rest on a fresh page, in order, nothing lost or duplicated, both pages well-formed, and the returned divider is the first key of the new page.", "quantifier": "every well-formed leaf with at least two entries", "why_tests_cant": "layout dependent", "anchors": ["src/napr_db_tree.c: db_split_leaf"]}
{"id": "C40", "title": "Splitting a branch partitions its children", "statement": "Splitting a branch page leaves the first half of its child links on the old page and the rest on a fresh page, in order, both well-formed, and the divider is the first key of the new page.", "quantifier": "every well-formed branch page with at least two entries", "why_tests_cant": "layout dependent", "anchors": ["src/napr_db_tree.c: db_split_branch"]}
{"id": "C41", "title": "A stored value can be read back", "statement": "After a successful put of a key and value, get of that key in the same transaction returns exactly that value.", "quantifier": "every database state, every key and value", "why_tests_cant": "depends on tree shape; failing shapes need page splits at particular positions", "anchors": ["src/napr_db.c: napr_db_put, napr_db_get, handle_page_split, propagate_split_up_tree, handle_root_split"]}
{"id": "C42", "title": "Storing one key affects no other key", "statement": "After a successful put of a key, get of every other key gives the same answer as before.", "quantifier": "every database state, every pair of keys", "why_tests_cant": "depends on tree shape", "anchors": ["src/napr_db.c: napr_db_put, handle_page_split, propagate_split_up_tree, handle_root_split"]}
{"id": "C43", "title": "Deleting removes exactly one key", "statement": "After a successful del of a key, get of that key reports not found and get of every other key is unchanged; del of an absent key reports not found and changes nothing.", "quantifier": "every well-formed database state, every key", "why_tests_cant": "depends on tree shape", "anchors": ["src/napr_db.c: napr_db_del", "src/napr_db_tree.c: db_page_delete"]}
{"id": "C44", "title": "Bulk loading in ascending key order is lossless", "statement": "Starting from an empty database, if keys are put in strictly ascending order, every put succeeds for entries of one size small enough that three fit a page, and every stored key is retrievable at every point.", "quantifier": "every ascending key sequence of any length", "why_tests_cant": "deep trees need millions of keys", "anchors": ["src/napr_db.c: napr_db_put"]}
{"id": "C45", "title": "Forward iteration lists every key once in order", "statement": "Positioning a cursor at the first key and advancing until not-found yields every key-value pair exactly once in ascending key order.", "quantifier": "every well-formed database state", "why_tests_cant": "depends on tree shape, including pages emptied by deletions", "anchors": ["src/napr_db_cursor.c: db_cursor_seek, db_cursor_next, napr_db_cursor_get"]}
{"id": "C46", "title": "Backward iteration is the reverse of forward iteration", "statement": "Positioning a cursor at the last key and moving back until not-found yields the forward listing reversed.", "quantifier": "every well-formed database state", "why_tests_cant": "depends on tree shape", "anchors": ["src/napr_db_cursor.c: descend_rightmost, db_cursor_prev"]}
{"id": "C47", "title": "Exact and range positioning", "statement": "Positioning at a key succeeds exactly if the key is stored and yields its pair; positioning at-or-after a key yields the smallest stored pair whose key is not less, and not-found only if there is none.", "quantifier": "every well-formed database state, every key", "why_tests_cant": "depends on where page boundaries fall", "anchors": ["src/napr_db_cursor.c: db_cursor_seek"]}
{"id": "C48", "title": "Replacing a value works like inserting", "statement": "put is an upsert: putting a key that already exists replaces its value, however often and wherever in a transaction it is done.", "quantifier": "every database state, every history inside a transaction", "why_tests_cant": "depends on which pages the transaction has already touched", "anchors": ["src/napr_db.h: napr_db_put", "src/napr_db.c: napr_db_put", "src/napr_cache.c: napr_cache_upsert"]}
{"id": "C49", "title": "Aborted transactions leave no trace", "statement": "After any sequence of operations in a write transaction followed by abort, the database file, the live root and every later transaction are exactly as if the transaction had never begun, and the writer lock is free.", "quantifier": "every database state, every operation sequence", "why_tests_cant": "all histories", "anchors": ["src/napr_db.c: napr_db_txn_abort, napr_db_txn_begin", "src/napr_db_tree.c: db_page_get_writable, db_page_alloc"]}
{"id": "C50", "title": "Committed data is what later transactions see", "statement": "After a successful commit, a new transaction (also after closing and reopening the environment) sees exactly the contents the committing transaction saw at commit.", "quantifier": "every database state, every operation sequence", "why_tests_cant": "all histories", "anchors": ["src/napr_db.c: napr_db_txn_commit, write_dirty_pages_to_disk, commit_meta_page, napr_db_env_open"]}
{"id": "C51", "title": "Commit is atomic under crashes", "statement": "If the machine stops at any moment during a commit, reopening the database shows either exactly the contents before the transaction or exactly the contents after it.", "quantifier": "every database state, every transaction, every crash point, every subset of unsynced page writes that reached the disk", "why_tests_cant": "crash points and write reorderings cannot be enumerated by tests", "anchors": ["src/napr_db.c: napr_db_txn_commit, extend_database_file, write_dirty_pages_to_disk, commit_meta_page, select_live_meta"]}
{"id": "C52", "title": "Readers keep their snapshot", "statement": "A read transaction sees, from begin to end, exactly the contents committed when it began, whatever write transactions commit meanwhile.", "quantifier": "every interleaving of one reader with any number of commits", "why_tests_cant": "all histories and interleavings", "anchors": ["src/napr_db.c: napr_db_txn_begin, write_dirty_pages_to_disk", "src/napr_db_tree.c: db_page_get_writable, db_get_page"]}
{"id": "C53", "title": "At most one writer", "statement": "At no moment are two write transactions of one environment active; every path that ends a write transaction, including failing commits, releases the writer lock exactly once, and operations that fail to begin do not keep it.", "quantifier": "every history of begin, commit, abort by any number of threads", "why_tests_cant": "all histories", "anchors": ["src/napr_db.c: napr_db_txn_begin, napr_db_txn_commit, napr_db_txn_abort, db_writer_lock, db_writer_unlock"]}
{"id": "C54", "title": "The reader table tracks exactly the open readers", "statement": "At every moment the occupied slots of the reader table correspond one to one to the open read transactions with their snapshot ids, at most 126 at a time, the oldest-reader query returns the smallest of those ids (or none), and a slot is reusable once its transaction ends.", "quantifier": "every history of reader begin/commit/abort with non-zero snapshot ids", "why_tests_cant": "all histories", "anchors": ["src/napr_db.c: napr_db_txn_begin, napr_db_txn_commit, napr_db_txn_abort, db_get_oldest_reader_txnid"]}
{"id": "C55", "title": "A page in use is never handed out again", "statement": "A newly allocated page is never one that is reachable from the roots of the allocating transaction or of any open read transaction.", "quantifier": "every database state reachable through the API, every reader set", "why_tests_cant": "needs a history of several transactions", "anchors": ["src/napr_db_tree.c: db_page_alloc, db_page_get_writable", "src/napr_db.c: populate_free_db, db_reclaim_page_from_free_db"]}
{"id": "C56", "title": "Opening picks the newest valid meta page", "statement": "Opening an existing database selects, among the meta pages with correct magic and version, the one with the larger transaction id, and fails if neither is valid; a commit always overwrites the other meta page with a strictly larger id.", "quantifier": "every pair of meta pages, every commit history", "why_tests_cant": "all histories and corruptions", "anchors": ["src/napr_db.c: select_live_meta, validate_meta_page, commit_meta_page, db_init_meta"]}
{"id": "C57", "title": "Descent through a tree terminates and stays inside the file", "statement": "Locating the leaf for a key in a write operation visits at most 32 pages and only page numbers not beyond the last allocated one, whatever the page contents, or fails with an error.", "quantifier": "every page store, including corrupted ones", "why_tests_cant": "corrupted pages are arbitrary", "anchors": ["src/napr_db_tree.c: db_find_leaf_page_with_path_in_tree"]}
{"id": "C58", "title": "Only one process can use a cache at a time", "statement": "Opening a cache succeeds only if no other live handle on the same path exists; after a failed open or a close nothing keeps the lock.", "quantifier": "every history of open and close by any number of processes, every failure point inside open", "why_tests_cant": "all interleavings and failure points", "anchors": ["src/napr_cache.c: napr_cache_open, napr_cache_close"]}
{"id": "C59", "title": "Sweeping keeps exactly the visited entries", "statement": "After a successful sweep the cache contains exactly the entries that existed and were marked visited since the last sweep, with their values unchanged, and the visited set is empty; a failed sweep changes neither the entries nor the visited set.", "quantifier": "every cache content, every marking history", "why_tests_cant": "depends on tree shape and marking history", "anchors": ["src/napr_cache.c: napr_cache_sweep, napr_cache_mark_visited"]}
{"id": "C60", "title": "Cache lookups return the stored record or nothing", "statement": "Looking up a path returns the record last stored for it, a not-found status if there is none, and never a record of the wrong size.", "quantifier": "every cache content, every path", "why_tests_cant": "all contents", "anchors": ["src/napr_cache.c: napr_cache_lookup_in_txn, napr_cache_upsert_in_txn"]}
{"id": "C61", "title": "The ignore-list option adds exactly the listed names", "statement": "After the comma-separated list option, the set of ignored names is the previous set plus every non-empty name between commas, for every list.", "quantifier": "every list, every previously configured set", "why_tests_cant": "all strings; repeated names drive a table into unbounded growth", "anchors": ["src/ft_config.c: ft_hash_add_ignore_list", "src/napr_hash.c: napr_hash_set"]}
{"id": "C62", "title": "Unknown options are rejected", "statement": "A command line containing an option that is not in the documented list makes the program exit with a usage error and process no file.", "quantifier": "every command line", "why_tests_cant": "all command lines", "anchors": ["src/ft_config.c: ft_config_parse_args"]}
{"id": "C63", "title": "A comparison never reports equality of files that differ, even when reads fail", "statement": "Whatever reads, opens, closes or mappings fail or return fewer bytes than asked for, if two files of the recorded length differ in content then the comparison either reports an error or reports a difference.", "quantifier": "every pair of contents, every schedule of failures and short reads", "why_tests_cant": "failure schedules cannot be enumerated", "anchors": ["src/ft_file.c: filecmp, big_filecmp, small_filecmp"]}
{"id": "C64", "title": "A digest collision does not break the report", "statement": "If two files of the same size but different content have the same digest, the report still completes and still lists exactly the sets of identical files.", "quantifier": "every candidate set, every hash function, every sort order of equal elements", "why_tests_cant": "collisions of a 128-bit hash cannot be produced by tests", "anchors": ["src/ft_report.c: process_and_report_duplicates_for_file, compare_and_report_pair", "src/ft_report_json.c: find_and_report_duplicates"]}
{"id": "C65", "title": "A file is never reported as a duplicate of itself", "statement": "No group lists the same path twice, even if a path is given twice on the command line or given directories overlap.", "quantifier": "every list of path arguments", "why_tests_cant": "combinations of overlapping arguments", "anchors": ["src/ftwin.c: run_ftwin_processing", "src/ft_traverse.c: process_file", "src/ft_report.c: ft_report_duplicates"]}
{"id": "C66", "title": "Text-valued options take their last argument", "statement": "After a command line is accepted, the priority path, separator, ignore expression, whitelist expression and image threshold are those of the last option of each kind (an image option stands for its fixed whitelist), and the defaults where no such option was given.", "quantifier": "every sequence of options and arguments", "why_tests_cant": "unbounded sequences of options interleaved in any order", "anchors": ["src/ft_config.c: handle_string_option, handle_image_options, handle_special_option, ft_config_parse_args"]}
{"id": "C67", "title": "Exactly the valid command lines are accepted", "statement": "A command line (without an ignore list) is accepted if and only if every option is valid (thread count in range, sizes well-formed and non-negative, threshold 1 to 5, neither help nor version), a path is given, the user can be looked up and the expressions in effect compile.", "quantifier": "every sequence of options and arguments", "why_tests_cant": "both directions over all argument strings", "anchors": ["src/ft_config.c: process_options, ft_config_parse_args"]}
{"id": "C68", "title": "Waiting survives spurious wake-ups", "statement": "If the platform lets a thread return from a condition wait without a reason, waiting for the pool still returns only after all submitted tasks have been executed, and no task is lost.", "quantifier": "every execution with any number of spurious wake-ups", "why_tests_cant": "spurious wake-ups cannot be provoked by tests", "anchors": ["src/napr_threadpool.c: napr_threadpool_wait"]}
{"id": "C69", "title": "An unreadable directory does not hide other duplicates", "statement": "If one directory met during the scan cannot be listed, duplicates elsewhere are still found and reported.", "quantifier": "every file system, every set of arguments", "why_tests_cant": "needs special permissions at arbitrary places in a tree", "anchors": ["src/ft_traverse.c: traverse_recursive, process_directory, get_file_info", "src/ftwin.c: run_ftwin_processing"]}
{"id": "C70", "title": "Default ignore patterns do not depend on how a path is spelled", "statement": "Whether a default pattern (.git/, build/, bin/, *.o, \u2026) excludes a file below an argument does not depend on whether the argument is given as a relative or as an absolute path, nor on the directories above the argument.", "quantifier": "every argument, every path below it", "why_tests_cant": "needs the tool to be run from and on directories with particular names", "anchors": ["src/ft_config.c: ft_load_defaults, ft_config_create", "src/ft_ignore.c: ft_ignore_match", "src/ft_traverse.c: traverse_recursive"]}
{"id": "C71", "title": "Text mode and JSON mode consider the same files", "statement": "The same arguments and options select the same files whether or not JSON output is asked for.", "quantifier": "every file system, every set of arguments", "why_tests_cant": "depends on the names of all parent directories", "anchors": ["src/ftwin.c: run_ftwin_processing", "src/ft_traverse.c: traverse_recursive"]}
{"id": "C72", "title": "The scan terminates", "statement": "On every file system of finite depth the scan of an argument ends.", "quantifier": "every file system whose directory nesting is finite, every configuration", "why_tests_cant": "termination over unbounded trees", "anchors": ["src/ft_traverse.c: traverse_recursive, process_directory, get_file_info", "src/ftwin.c: run_ftwin_processing"]}
{"id": "C73", "title": "A scan offers no file twice", "statement": "Scanning one argument offers every path at most once.", "quantifier": "every file system with proper directory listings, every configuration", "why_tests_cant": "quantifies over all trees", "anchors": ["src/ft_traverse.c: traverse_recursive, process_directory, get_file_info", "src/ftwin.c: run_ftwin_processing"]}
{"id": "C74", "title": "Links that form a cycle are harmless", "statement": "With -f, a symbolic link to one of its parent directories makes the scan neither loop nor fail.", "quantifier": "every file system with link cycles", "why_tests_cant": "depends on the link resolution limit", "anchors": ["src/ft_traverse.c: traverse_recursive, process_directory, get_file_info", "src/ftwin.c: run_ftwin_processing"]}
{"id": "C75", "title": "Without recursion no subdirectory is scanned", "statement": "With -R only the files directly in the given directories are considered, also when links are followed.", "quantifier": "every file system", "why_tests_cant": "combination of options", "anchors": ["src/ft_traverse.c: process_directory"]}
{"id": "C76", "title": "A failed put changes nothing", "statement": "When put reports an error, the transaction holds exactly the pairs it held before.", "quantifier": "every database state, every key and value", "why_tests_cant": "needs failures in the middle of page splits", "anchors": ["src/napr_db.c: napr_db_put, handle_page_split, propagate_split_up_tree, handle_root_split"]}
{"id": "C77", "title": "A cursor moves like a finger on the sorted listing", "statement": "After positioning at a stored key, any series of next, previous and current requests answers the neighbouring pair each time, and not-found once either end is passed.", "quantifier": "every well-formed database state, every stored key, every series of requests", "why_tests_cant": "the number of request series and tree shapes is unbounded; page boundaries fall anywhere", "anchors": ["src/napr_db_cursor.c: db_cursor_next, db_cursor_prev, napr_db_cursor_get"]}
{"id": "C78", "title": "A read transaction cannot modify the database", "statement": "put and del in a read transaction report an error and leave the transaction and the database as they are.", "quantifier": "every database state, every read transaction, every key and value", "why_tests_cant": "all states and arguments", "anchors": ["src/napr_db.c: napr_db_put, napr_db_del"]}
{"id": "C79", "title": "A transaction may change any number of pages", "statement": "A write transaction in which every operation succeeded, on a database whose file fits the map with room to spare, commits successfully, no matter how many pages it has changed.", "quantifier": "every database, every transaction", "why_tests_cant": "needs databases of hundreds of pages and depends on their shape", "anchors": ["src/napr_db.c: napr_db_txn_commit, populate_free_db"]}
{"id": "C80", "title": "The text report can be read back", "statement": "Written to a pipe or a file, the text report tells a reader who knows the separator exactly which files were listed together and in which order, and, with sizes displayed, the size line of each group; different outcomes give different texts.", "quantifier": "every set of candidates, every outcome of digests and comparisons for which the run completes, every separator", "why_tests_cant": "all lists of groups and all file names; tests look for substrings of the output of small directories", "anchors": ["src/ft_report.c: ft_report, print_duplicate_group", "src/human_size.c: format_human_size"]}
{"id": "C81", "title": "The image report names exactly the pairs of similar images", "statement": "In image mode, whatever the number of worker threads and their scheduling, the report tells a reader who knows the separator exactly which pairs of the files found are similar (both readable as images, distance below the chosen threshold): every such pair is told once, no other pair is, the file that comes first in a group is at least as large as the others in it, and files that cannot be read as images are not listed.", "quantifier": "all lists of files, images and distances (symmetric), thresholds, separators, numbers of workers and schedules; names without the separator and line breaks", "why_tests_cant": "The pairs depend on the order in which a heap gives out the files and on its internal array while the outer loop is emptying it, and the vectors on four threads; a test sees one set of pictures and one schedule", "anchors": ["src/ft_image.c:57-91,103-121,131-187,189-239", "src/napr_heap.c:140-210", "src/ftwin.c:104-107"]}
{"id": "C82", "title": "The JSON report can be read back", "statement": "The JSON report of a completed run gives for every group its size and the digest of its files in hexadecimal, and for every file its name, the second of its last change as an ISO 8601 time stamp, and whether it was prioritised; a consumer recovers these values exactly.", "quantifier": "every set of candidates, digest, time, name", "why_tests_cant": "all names, digests and times; tests parse the output for a few fixed files", "anchors": ["src/ft_report_json.c: ft_report_json, create_file_json_object, create_duplicate_set_json, ft_format_time_iso8601_utc, ft_hash_to_hex"]}
{"id": "C83", "title": "Extracting a member gives its contents and nothing else changes", "statement": "Extracting a named member of an archive succeeds exactly if the archive can be read up to it, all its blocks can be copied and a temporary file can be made; it then gives a file that did not exist before and that holds the contents of the first member of that name; whether it succeeds or fails, no other file, the file creation mask of the process and the number of open archives stay as they were.", "quantifier": "all archives (any sequence of members, blocks with offsets, gaps, overlaps and errors), all disks, all choices of temporary names, any number of extractions at the same time", "why_tests_cant": "Archives with gaps, overlapping blocks or an error in each possible place, full disks and threads that change the mask at the same time are not in a test suite; leaked objects and a changed mask are not visible in the result", "anchors": ["src/ft_archive.c:44-155"]}
{"id": "C84", "title": "Hashing and comparing members leaves no trace on the disk", "statement": "With the archive option the digest of a record and the comparison of two records are those of the contents of the members named (of the files themselves if none is named), and afterwards, whatever the outcome, exactly the same files with the same contents are on the disk as before.", "quantifier": "all records with a defined member name, all archives and disks, all choices of temporary names, all digest and comparison functions", "why_tests_cant": "A temporary file left behind on one of the failure paths (first member extracted, second not) needs an archive that fails at the right place, for every combination of members and files", "anchors": ["src/ft_process.c:38-54", "src/ft_report.c:157-207,230-250", "src/ft_report_json.c:92-112"]}
{"id": "C85", "title": "Free pages are used again, each once", "statement": "When a write transaction needs a page, it gets one that an earlier transaction has freed and that no open read transaction may still need, if there is one recorded, and only otherwise is the file extended; a page that is handed out is no longer recorded as free, and every other page stays recorded under the transaction that freed it.", "quantifier": "every database, every state of a write transaction, every set of open readers", "why_tests_cant": "the record of free pages is not visible through the API; a lost page only shows as a file that grows; tests look at the size of small files after a few transactions", "anchors": ["src/napr_db.c: db_reclaim_page_from_free_db, find_reclaimable_entry, update_or_delete_reclaimed_entry", "src/napr_db_tree.c: db_page_alloc"]}
{"id": "C86", "title": "The report is JSON exactly if JSON was asked for", "statement": "If the command line asks for JSON, the standard output of a successful run is a JSON document; if it does not, the report is the text one.", "quantifier": "all accepted command lines, all lists of files", "why_tests_cant": "Options are handled by different functions and looked at in different places; tests try one or two combinations", "anchors": ["src/ftwin.c:104-131", "src/ft_config.c:490-553"]}
{"id": "C87", "title": "With -t the run is defined and considers archives", "statement": "A run with the archive option has a defined behaviour for all files, and finds duplicates among files and members of archives.", "quantifier": "all lists of files, text and JSON", "why_tests_cant": "The value of a field that is never set depends on what was in the memory before; a test sees one of them", "anchors": ["src/ft_traverse.c:64-88", "src/ft_process.c:38", "src/ft_report.c:160", "src/ft_file.c:307-321"]}
{"id": "C88", "title": "A map that is too small is refused", "statement": "Whatever map size is set, an operation of the database either works or reports an error: a file that does not fit is not opened, and a transaction that would make the database larger than the map is not committed and leaves what was there readable.", "quantifier": "all database files, all map sizes, all transactions", "why_tests_cant": "The size at which a database outgrows its map is reached by one particular transaction; tests set a map of a megabyte and write a few keys", "anchors": ["src/napr_db.c:72-85", "src/napr_db.c:223-240", "src/napr_db.c:296-356", "src/napr_db.c:703-736"]}
{"id": "C89", "title": "Tasks are begun in the order in which they were submitted", "statement": "At every moment of every execution the tasks that have been begun are the first ones submitted, in the order of their submission; the list that holds those waiting gives them back first in, first out, whatever is added, taken and dropped.", "quantifier": "all programs of the submitting thread, all numbers of workers, all interleavings and spurious wake-ups; all sequences of operations on the list", "why_tests_cant": "The order depends on the interleaving and on the list becoming empty at the right moment", "anchors": ["src/napr_threadpool.c:33-155", "src/napr_threadpool.c:245-269", "src/napr_threadpool.c:320-406"]}
{"id": "C90", "title": "The run ends whatever sizes the files have", "statement": "Collecting the files ends for every set of files: which sizes they have does not matter.", "quantifier": "all sequences of files with any sizes below 2^64", "why_tests_cant": "Eight sizes with one 32-bit hash value have to meet; no test has files of such sizes, and random ones practically never do", "anchors": ["src/key_hash.c:14-18", "src/vendor/xxhash/xxhash.h:2642-2808", "src/ft_traverse.c:64-90", "src/napr_hash.c:208-331"]}
{"id": "C91", "title": "Permission is judged by all groups of the process", "statement": "The set of groups by which the program judges whether it may read a file is exactly the set of supplementary groups of the process together with its effective group.", "quantifier": "all processes: all lists of groups, all effective groups", "why_tests_cant": "Needs a process in 256 or more groups", "anchors": ["src/ft_config.c:103-137", "src/ft_config.c:225-247", "src/key_hash.c:33-52"]}
{"id": "C92", "title": "A run does what its command line asks", "statement": "For an accepted command line the program ends with status 0 and its report, read back by a reader who knows only the separator (or by a JSON reader), lists exactly the sets of identical files among the files that the options and arguments ask for: which sizes, which names, which regular expressions, hidden files, links, recursion, priorities and groups of the process are all read off the command line.", "quantifier": "all command lines accepted (any list of options and arguments, options repeated in any order), all file systems, all contents, all groups of the process", "why_tests_cant": "The options interact (the last of -r and -R, -I as a whitelist, -c on all expressions, lists of -i), and each combination would need its own tree; a test checks a few", "anchors": ["src/ftwin.c:74-187", "src/ft_config.c:219-290,543-672", "src/ft_traverse.c:40-330", "src/ft_process.c:135-330", "src/ft_report.c:95-330", "src/ft_report_json.c:75-200"]}
{"id": "C93", "title": "The exit status tells how the run ended", "statement": "The exit status is 0 if help or the version is asked for before any wrong option; 1 if an option is wrong or no path is given; 0, with a report, if the command line is accepted, everything to be visited can be visited, and at least one file is found; 255, without a report, in all other cases.", "quantifier": "all command lines (any list of options, valid or not), all file systems of finite depth", "why_tests_cant": "The case distinction runs over all orders of valid and invalid options and all places at which a traversal can go wrong", "anchors": ["src/ftwin.c:74-187", "src/ft_config.c:193-216,443-540,600-672", "src/ft_traverse.c:225-330"]}
{"id": "C94", "title": "Opening is all or nothing", "statement": "Opening a database handle either succeeds, and then the handle gives access to the newest valid state of the file, or fails, and then nothing stays open and what is at the path can be opened later as if the call had not been made; however often a handle is opened and closed, nothing is left open after closing it.", "quantifier": "all files at the path (also none, short or foreign ones), all flags and map sizes, every subset of operating system calls that fail, all histories of opening and closing", "why_tests_cant": "Failures of mmap, ftruncate, fsync or mutex creation cannot be provoked by a unit test, and the question is what every later opening does", "anchors": ["src/napr_db.c:33-84,172-390"]}
{"id": "C95", "title": "Handles on one database see each other's commits", "statement": "A transaction begun through one handle after a commit through another handle on the same file starts from that commit, and no commit through one handle undoes a commit through another.", "quantifier": "all numbers of commits through the first handle, all transactions through the second", "why_tests_cant": "Needs two processes (or two openings) interleaved at every point; the tests open one handle", "anchors": ["src/napr_db.c:128-162,274-283,497-541,1135-1182", "src/napr_db.h:66-76"]}
{"id": "C96", "title": "A database opened read-only is not changed", "statement": "Through a handle opened with NAPR_DB_RDONLY nothing changes the file: no transaction does, a commit that has something to write reports an error, and opening itself creates or changes nothing.", "quantifier": "all databases, all histories of transactions with any operations", "why_tests_cant": "The property quantifies over all operations of all transactions and over the failing path of commit, which unit tests do not reach", "anchors": ["src/napr_db.c:172-215,223-239,703-776,1135-1262"]}
{"id": "C97", "title": "A table that cannot grow stays a table", "statement": "When memory for a larger table cannot be had, setting an element returns an error; otherwise it adds the element. After an error the table can still be used: searching, and setting further elements, stay within its memory.", "quantifier": "all hash functions, all tables, all elements, all amounts of memory", "why_tests_cant": "allocation failure in the middle of nested rebuilds is not reached by tests; the damage shows only at a later call", "anchors": ["src/napr_hash.c:130-176,208-256,296-331"]}
{"id": "C98", "title": "Every size argument is rejected or means the number written", "statement": "Any text given as a size is rejected unless it is blanks, an optional sign, a decimal or hexadecimal number with optional fraction and exponent, blanks, and nothing more or a unit letter (anything may follow the letter). If it is of this form, the size is the number written, rounded to the nearest double (ties to even), times the unit, truncated towards zero.", "quantifier": "all texts", "why_tests_cant": "the set of texts is infinite; tests try a dozen well-formed ones", "anchors": ["src/human_size.c:37-71"]}
{"id": "C99", "title": "Colours do not leak and do not change the text", "statement": "On a terminal the text report shows file names and size lines in their colours and everything else without colour, and the visible text is the one written to a pipe.", "quantifier": "all sets of candidates and groups, all separators, with and without sizes", "why_tests_cant": "colour codes are only printed on a terminal; tests capture a pipe", "anchors": ["src/ft_report.c:111-116,215-223,252-268", "src/ft_types.h:49-53"]}
{"id": "C100", "title": "A failure to start the workers only fails the run", "statement": "If the operating system refuses to create one of the worker threads, the run ends with an error and no thread is left that uses memory the run has released.", "quantifier": "all numbers of workers, all points at which creation fails, all schedules of the workers created before", "why_tests_cant": "thread creation fails only under resource limits, and what a leftover thread does depends on timing", "anchors": ["src/napr_threadpool.c:203-243,381-398", "src/ft_process.c:113-118,190-195"]}
{"id": "C101", "title": "A commit that reports an error has no effect", "statement": "If a commit returns an error, later transactions of the same handle and of any handle opened later see the database as it was before the transaction, and the writer lock is free.", "quantifier": "all committed states, all transactions, all file operations of the commit that may report an error", "why_tests_cant": "I/O errors at each of the operations of a commit cannot be provoked in a test", "anchors": ["src/napr_db.c: napr_db_txn_commit, extend_database_file, write_dirty_pages_to_disk, commit_meta_page"]}
{"id": "C102", "title": "An insertion that fails changes nothing", "statement": "If inserting into a heap reports a failure, the heap still has all its elements, and they can be extracted or the insertion tried again.", "quantifier": "all heaps, all elements, every allocation that may fail", "why_tests_cant": "memory that runs out at a chosen insertion cannot be arranged in a test", "anchors": ["src/napr_heap.c:85-138"]}
{"id": "C103", "title": "Threads may insert into one heap at the same time", "statement": "Threads that call the reentrant insertion on one heap in any interleaving lose and duplicate nothing: when all calls have returned the heap holds the data of all of them, and extraction returns them in order. A call that fails does not stop the others.", "quantifier": "all heaps, all numbers of threads, all data, all schedules, every allocation that may fail", "why_tests_cant": "schedules of threads cannot be enumerated by a test; the only test of the reentrant functions is single threaded", "anchors": ["src/napr_heap.c:215-251"]}
{"id": "C104", "title": "A pair that fits a page can be stored", "statement": "In a write transaction, putting a key that is not yet stored, with key and value small enough for a page of their own, succeeds and leaves the other pairs as they were.", "quantifier": "every database state, every pair of at most 4072 bytes", "why_tests_cant": "the outcome depends on the order of all earlier insertions and on how the bytes lie on the pages", "anchors": ["src/napr_db.c: napr_db_put, handle_page_split", "src/napr_db_tree.c: db_split_leaf, db_page_insert"]}
{"id": "C105", "title": "The order of directories and arguments does not matter", "statement": "Which sets of identical files a run reports does not depend on the order in which the file system lists the entries of directories, nor on the order of the arguments on the command line.", "quantifier": "all command lines, all pairs of file systems that differ only in the order of directory entries, all permutations of the arguments", "why_tests_cant": "the order reaches the heap, the tables, the sorted arrays and the pairwise comparisons; there are factorially many", "anchors": ["src/ft_traverse.c: process_directory", "src/ftwin.c: run_ftwin_processing", "src/ft_report.c: ft_report_duplicates"]}
{"id": "C106", "title": "Options about presentation do not change what is reported", "statement": "Two command lines that agree on the options deciding which files are looked at (-a -c -f -r -R -i -e -w -I -m -M -J) report the same sets of files, whatever else they have: -d, -s, -p, -v, -n, -o, -j, -x, -T.", "quantifier": "all pairs of accepted command lines with the same deciding options in the same order, all file systems and contents", "why_tests_cant": "the other options change the text, the order inside groups and the way files are read and hashed; all their combinations are too many", "anchors": ["src/ft_config.c: ft_config_parse_args, process_option", "src/ft_report.c: ft_report_duplicates", "src/ft_traverse.c: process_file"]}
{"id": "C107", "title": "Files without duplicates change nothing", "statement": "If no file under some of the arguments has the contents of a file under the others, a run with all arguments reports exactly the sets that separate runs report.", "quantifier": "all pairs of argument lists whose files have no contents in common", "why_tests_cant": "a further file of the same size changes which files are hashed and which are compared directly, and where files stand in the sorted array", "anchors": ["src/ft_process.c: categorize_files", "src/ft_report.c: ft_report_duplicates"]}
{"id": "C108", "title": "A read transaction that begins during commits gets a committed state", "statement": "A read transaction that begins while other threads commit gets the root of a finished commit, is registered with the id of that commit or an earlier one, and no writer reuses pages it can see, from the moment it has its snapshot.", "quantifier": "all interleavings of the loads of the beginning reader with the stores of any number of committing, failing or aborting write transactions", "why_tests_cant": "the beginning takes no lock, so the outcome depends on which of the stores fall between which of the loads; a test cannot choose the interleaving", "anchors": ["src/napr_db.c: napr_db_txn_begin, commit_meta_page, db_get_oldest_reader_txnid, db_reclaim_page_from_free_db"]}
{"id": "C109", "title": "Ignore files mean what they mean to Git", "statement": "A line of an ignore file matches exactly the paths that gitignore(5) says it matches: two asterisks are special only as a component of their own, a slash at the beginning or in the middle ties the pattern to the directory of the file, blanks at the end are dropped.", "quantifier": "every pattern, every path", "why_tests_cant": "two unbounded string domains, and two definitions of a language", "anchors": ["README.md: Git-compatible ignore support", "src/ft_ignore.c: ft_glob_to_pcre, handle_negation_and_slashes, set_pcre_anchors, handle_star, ft_ignore_add_pattern_str"]}
{"id": "C110", "title": "The number of threads does not change the result", "statement": "A run ends and gives the same report, group by group and in the same order, whatever the number of worker threads and however the scheduler interleaves them; in particular the listed groups are exactly the sets of files with the same content.", "quantifier": "every list of files, every number of threads from one on, every interleaving, with any number of spurious wake-ups of workers", "why_tests_cant": "a test sees one interleaving of the many; the number of them grows exponentially with the files and the threads", "anchors": ["src/ft_process.c: hashing_worker_callback, ft_process_files", "src/napr_threadpool.c: napr_threadpool_init, napr_threadpool_add, napr_threadpool_wait, napr_threadpool_shutdown"]}
{"id": "C111", "title": "The digest of some bytes does not depend on how they are passed", "statement": "Passing bytes to the digest in one call or in any number of pieces of any lengths gives the same digest, nothing outside the given bytes and the state is read or written, and so the digest of a file is a function of its bytes however it is read.", "quantifier": "every byte sequence below 2^64 bytes, every division into pieces, every earlier content of the memory of the state", "why_tests_cant": "the buffering has many boundary cases (64, 240, 256 and 1024 bytes) and every division into pieces is a case of its own", "anchors": ["src/vendor/xxhash/xxhash.h: XXH3_128bits, XXH3_128bits_reset, XXH3_128bits_update, XXH3_128bits_digest", "src/ft_file.c: checksum_file, checksum_small_file, checksum_big_file"]}
{"id": "C112", "title": "For which files the digest alone decides equality", "statement": "Files of the same size of at most 16 bytes have equal digests exactly if they are identical, so for them the report needs no assumption about the digest; for every greater size there are different files with the same digest, and for 32, 48 to 240 and more than 240 bytes they can be written down.", "quantifier": "every length, every pair of contents of that length, every candidate set of short files", "why_tests_cant": "no number of tested pairs shows that a digest is injective on 2^128 contents, and collisions are not found by trying", "anchors": ["src/vendor/xxhash/xxhash.h: XXH3_len_0to16_128b, XXH3_len_17to128_128b, XXH3_len_129to240_128b, XXH3_hashLong_128b_internal", "src/ft_report.c: ft_report_duplicates"]}
{"id": "C113", "title": "However an option is written it means the same", "statement": "Long or short, alone or in a run behind one dash, with its argument in the same word, behind an equals sign or in the next word: a run depends only on which options with which arguments were written in which order, and on the paths behind them. Every command line is read in exactly one way.", "quantifier": "every command line, every machine, every schedule", "why_tests_cant": "the ways to write and combine options are unlimited", "anchors": ["src/ft_config.c: opt_option, ft_config_parse_args", "src/ftwin.c: ftwin_main, run_ftwin_processing"]}
{"id": "C114", "title": "No option reads an argument it was not given", "statement": "The options that use an argument are exactly those declared to take one, and the scanner hands one over to each of these; all other options do the same whatever is in the place of the argument.", "quantifier": "every option of the table, every configuration", "why_tests_cant": "a null argument is only dereferenced in the handler that is wrongly declared", "anchors": ["src/ft_config.c: opt_option, process_options, handle_string_option, handle_numeric_option, handle_special_option"]}
{"id": "C115", "title": "A dry run announces exactly what is reported", "statement": "With -n the standard error output has, for each group of the text report, one line for its first file with each of the other files, in the order of the report, and no other line about duplicates; whatever the comparisons of files answer, including failures.", "quantifier": "every list of files within the limits of C90, every pattern of comparison results and failures, every sorting routine", "why_tests_cant": "groups of all sizes and failing comparisons in any position", "anchors": ["src/ft_report.c: compare_and_report_pair, process_and_report_duplicates_for_file", "src/ft_report_json.c: perform_file_comparison"]}
{"id": "C116", "title": "Page operations stay inside the page whatever its bytes are", "statement": "Searching a page, inserting into it, deleting from it and splitting it read and write only the 4096 bytes of the page, for a page of any contents, and a key reported as found is in the page at the reported position.", "quantifier": "every page contents (damaged ones included), every key shorter than 65536 bytes, every position", "why_tests_cant": "a page has 2^32768 contents; damage is arbitrary", "anchors": ["src/napr_db_tree.c: db_page_search, db_page_insert, db_page_delete", "src/napr_db_internal.h: db_page_slot_offset"]}
{"id": "C117", "title": "The clean-up recipe of the README never removes the last copy", "statement": "Running ftwin with -s \",\" on a directory, and then giving to rm what the recipe of the README takes out of the report (the first name of each line, if it contains a given word), removes only files found by the run whose names contain the word, leaves an identical copy of every removed file, removes at most one of identical files, and removes one from the prioritised path whenever that path holds a file that also exists elsewhere.", "quantifier": "every command line, every file tree, every contents of the files, every word", "why_tests_cant": "trees and contents are unbounded; what is lost depends on the whole set of files, not on one report", "anchors": ["README.md: Clean up imported pictures", "EXAMPLES", "src/ft_report.c: ft_report_duplicates", "src/ft_image.c: compare_image_vectors"]}
{"id": "C118", "title": "A cursor whose positioning failed shows no pair", "statement": "After a positioning that reports not-found, asking the cursor for the current, next or previous pair reports not-found until it is positioned again.", "quantifier": "every well-formed database state, every key, every series of moves", "why_tests_cant": "depends on where the key leads in the tree and on all later moves", "anchors": ["src/napr_db_cursor.c: db_cursor_seek, napr_db_cursor_get"]}
{"id": "C119", "title": "The JSON output is one valid JSON text", "statement": "If a run reports in JSON, its standard output is exactly one JSON text as defined by RFC 8259, in ASCII, whatever bytes the names of the files consist of; and it denotes the document that was built.", "quantifier": "every command line, set of files, file names of any bytes, schedule of the worker threads", "why_tests_cant": "the names may contain any sequence of bytes: quotation marks, control characters, broken UTF-8, code points beyond 16 bits", "anchors": ["src/ft_report_json.c: ft_report_json, create_file_json_object"]}
{"id": "C120", "title": "Each file is digested at most once and each pair compared at most once", "statement": "A run digests exactly the files whose digest is needed, each once: those that share their size with another candidate (with a text report: with at least two others, and not empty). It compares two files only if their sizes agree and, as far as digests were taken, their digests agree, no pair twice. The comparisons that answer \"equal\" are exactly those of the first file of each reported group with each of the others; if the digest has no collision among the candidates there are fewer comparisons among the files of a size than such files.", "quantifier": "every candidate set, both output modes, every answer of the comparisons, every digest function", "why_tests_cant": "the amount of work depends on all sizes and digests at once; a quadratic or repeated reading changes no output", "anchors": ["src/ft_process.c: categorize_files, dispatch_hashing_tasks", "src/ft_report.c: ft_report_duplicates", "src/ft_report_json.c: ft_report_json"]}
{"id": "C121", "title": "A value read stays what it was until its transaction ends", "statement": "napr_db_get hands out a pointer and a size instead of a copy, and documents that the data stays valid for the lifetime of the transaction. So the bytes read through the pointer, at any time before the transaction that obtained it is committed or aborted, are the value that was stored under the key when it was obtained: whatever the same transaction stores or deletes meanwhile, and whatever other transactions commit.", "quantifier": "every database, every transaction (read or write), every stored key, and every sequence of put, del and commits of other transactions between the get and the read", "why_tests_cant": "a test reads the value at once, or after one particular operation; whether the bytes are still there depends on where the node lies in its page, whether the page is in the map or in a buffer of the transaction, and on what each later operation moves", "anchors": ["src/napr_db.h", "src/napr_db.c", "src/napr_db_tree.c"]}
{"id": "C122", "title": "A lookup never crashes and gives only what was stored", "statement": "After any sequence of napr_db_put and napr_db_del calls in a write transaction, whatever their answers, napr_db_get returns: either not found, or a value that was stored under this very key before or by one of the calls. It never reads outside a page, never runs forever and never gives the bytes of another key. The same holds for the lookup of a path in the cache, in the same transaction and in every later one.", "quantifier": "every database state without recorded free pages, every sequence of put and del, every key", "why_tests_cant": "The failing histories depend on the order and the lengths of the keys: a split that leaves a branch page with a single entry, and a second split of that page later. Tests with short keys or ascending keys never come there.", "anchors": ["src/napr_db.c:1329-1370", "src/napr_db.c:1436-1640", "src/napr_db_tree.c:172-238", "src/napr_db_tree.c:684-821", "src/napr_cache.c:291-354"]}
{"id": "C123", "title": "An overwritten or deleted value never comes back", "statement": "Once a put has replaced the value of a key, or del has removed or not found it, no later lookup in the transaction gives an older value of the key again, unless it is put again.", "quantifier": "every database state, every sequence of put and del", "why_tests_cant": "Whether an old entry is reachable again depends on which leaf later splits make the way of the key lead to; no finite set of sequences shows that it never happens.", "anchors": ["src/napr_db.c:1436-1640", "src/napr_db.c:1856-1921", "src/napr_db_tree.c:172-238"]}
{"id": "C124", "title": "No lookup ever gives one key the value of another, whatever happened before", "statement": "After any history of a database - transactions of any put and del calls with any answers, committed or aborted, in any number, with any readers, with the file closed and opened again - a value that napr_db_get finds under a key was put under this very key in a transaction that was committed, or earlier in the same transaction. In the same way a record that napr_cache_lookup_in_txn gives for a path was stored for this very path by a transaction that was committed or is still open; a record of a transaction that was given up is never seen. The same holds of what a commit leaves that reports an error in the middle, and of what is found after the machine stopped during a commit: values of the unfinished transaction may be seen, invented ones may not.", "quantifier": "every history of calls from the creation of the database on, every key", "why_tests_cant": "Pages in use are handed out again as free ones (C55), so a page of one part of the tree can come to be reached from another one; that no such accident ever mixes up keys and values is a statement about all histories.", "anchors": ["src/napr_db.c:837-950", "src/napr_db.c:1084-1262", "src/napr_db.c:1329-1640", "src/napr_db.c:1856-1921", "src/napr_db_tree.c:272-376", "src/napr_cache.c:191-354", "src/napr_cache.c:398-514"]}
{"id": "C125", "title": "A small database can be changed as often as one likes", "statement": "If all entries that are ever stored in a database together fit one page, then, whatever transactions of put and del follow each other and however many, every call answers as it would for a map, every commit succeeds, and napr_db_get finds exactly what was stored last. In the same way a cache of a few files can be updated run after run and always gives the record stored last.", "quantifier": "every new database, every finite set of keys whose entries fit one page, every sequence of transactions of any length", "why_tests_cant": "What goes wrong depends on how many transactions were committed before, not on their contents: pages that are recorded as free are used only when the list of free pages itself overflows. Tests commit a handful of transactions.", "anchors": ["src/napr_db.c:837-950", "src/napr_db.c:1047-1127", "src/napr_db.c:1184-1262", "src/napr_db.c:1436-1540", "src/napr_db.c:1856-1921", "src/napr_db_tree.c:272-302", "src/napr_db_tree.c:553-666", "src/napr_cache.c:209-265", "src/napr_cache.c:291-354"]}
{"id": "C126", "title": "Repeating the clean-up recipe empties the prioritised path of duplicates", "statement": "Running ftwin and the clean-up recipe of the README again and again, as many times as the prioritised path has copies of any one file, ends with every run successful, with nothing changed in the files that are left, with a copy left of every file that was found at first, with all files left whose names do not contain the word, and with no file in the prioritised path that has a copy left anywhere.", "quantifier": "every command line, every file tree, every contents of the files, every word, every number of repetitions that is large enough", "why_tests_cant": "A test repeats the recipe on one tree; that it comes to an end and loses nothing for every tree and every number of copies is an induction over runs, each on the file system the last one has left", "anchors": ["src/ftwin.c:74-180", "src/ft_traverse.c:1-195", "README.md:125-131"]}
{"id": "C127", "title": "The number of files a run holds open does not grow with the number of files it handles", "statement": "However many files a run handles, it has at most one file open for each digest it is computing, two for a comparison, and one directory for each level it is inside of and one ignore file while it scans, and all are closed when that step is over; with that many free descriptors the scan, every digest and every comparison give what they give when there is no limit.", "quantifier": "every number and contents of files, every file tree, every limit on open files and every number open already, every outcome of the open, read, map and close calls", "why_tests_cant": "A test stays far below the limit and sees no failing reads; a descriptor left open in one branch shows only after as many files as the limit allows, and for every number of comparisons it needs an induction over the whole report", "anchors": ["src/ft_file.c:46-292", "src/ft_traverse.c:92-176", "src/ft_ignore.c:355-390", "src/ft_process.c:25-90", "src/ft_report.c:225-260"]}
{"id": "C128", "title": "The comparison that sorts the digests is a consistent order", "statement": "The comparison that the report hands to qsort answers as the C standard requires, for any entries: opposite answers for swapped arguments, transitive, and 0 exactly for entries with the same digest and the same priority. So the sorting is defined, puts files with one digest side by side, and puts the prioritised ones of them first.", "quantifier": "every pair and triple of digests (as they lie in memory, little-endian) and priorities", "why_tests_cant": "qsort with a comparison that contradicts itself is undefined, and only on particular inputs visibly so; a test sorts a few arrays, while transitivity is about all triples of 128-bit values", "anchors": ["src/ft_report.c:41-54", "src/ft_report.c:131", "src/ft_report_json.c:186"]}
{"id": "C129", "title": "After a commit that failed, the database can still be changed", "statement": "When napr_db_txn_commit reports an error because a write or sync of the database file failed, or the machine stops during it, the database is none the worse for it: lookups give what was stored before the failed transaction (or all of what it stored), and later transactions, in the same process or after the file was closed and opened again, can change the database and commit as before.", "quantifier": "every database, every number of transactions before, every failing file operation, every sequence of transactions afterwards", "why_tests_cant": "A test would have to make a single fsync or write fail, and then go on using the database; that no later transaction is affected is a statement about all of them.", "anchors": ["src/napr_db.c:497-599", "src/napr_db.c:837-950", "src/napr_db.c:703-774", "src/napr_db.c:1135-1262"]}
{"id": "C130", "title": "Deleting the current entry of a hash iteration", "statement": "A loop over a hash table (napr_hash_first, napr_hash_next) that deletes no entry but the one it is at visits every entry of the table exactly once, and leaves exactly the entries it did not delete: the header says that the results are predictable when only the current entry is deleted.", "quantifier": "every history of set and remove calls before the loop, every initial size and fill factor, every choice of the entries to delete", "why_tests_cant": "Whether an entry is passed over depends on which entries share a bucket and in which order; a test with a handful of keys in their own buckets sees nothing.", "anchors": ["src/napr_hash.h:156-170", "src/napr_hash.c:258-294", "src/napr_hash.c:338-384"]}
{"id": "C131", "title": "A conditional delete spares a pair with another value", "statement": "napr_db_del with a value as its last argument deletes the pair only if the stored value equals the given one; with NULL it deletes the pair in any case; a key that is not stored is reported as APR_NOTFOUND. Other pairs are not affected.", "quantifier": "every database of at most 32 levels, every key shorter than 65536 bytes, every given value", "why_tests_cant": "The documented condition is about all values that differ; a test can only try some.", "anchors": ["src/napr_db.h:224-234", "src/napr_db.c:1856-1921"]}
{"id": "C132", "title": "A value that was read can be stored under another key", "statement": "Within one write transaction, the value that napr_db_get gave for a key can be passed on to napr_db_put for another key: the second key then has that same value, and all other keys keep theirs.", "quantifier": "every database, every pair of keys, every value, every layout of the pages", "why_tests_cant": "It goes wrong only when the put splits the very page the value lies in, the new pair belongs to the first half, and the value had moved; the layout depends on the order in which pairs were stored.", "anchors": ["src/napr_db.h:26-36", "src/napr_db.c:1329-1370", "src/napr_db.c:1436-1580", "src/napr_db_tree.c:398-467", "src/napr_db_tree.c:553-666"]}
{"id": "C133", "title": "A record found by a lookup can be read as a record", "statement": "napr_cache_lookup_in_txn hands out a pointer to a record (napr_cache_entry_t) inside the page.  For every cache, however it came about, and every path found in it, the pointer is aligned as the type requires, so that reading the members mtime, ctime, size and hash through it is defined.", "quantifier": "all histories of transactions on a database, all paths, read and write transactions", "why_tests_cant": "On the machines the tests run on, unaligned reads happen to work, so no assertion fails.  Whether a pointer is aligned depends on the lengths of all paths stored before in the same page and on the splits and deletions since.", "anchors": ["src/napr_cache.h:47-53", "src/napr_cache.h:131-139", "src/napr_cache.c:291-329", "src/napr_db_tree.c:417-470", "src/napr_db_internal.h:155"]}
{"id": "C134", "title": "After a shutdown no task is taken and waiting returns", "statement": "Once the pool has been shut down no further task can be added: the attempt is refused. Waiting for the pool then returns at once, since no task is pending.", "quantifier": "every number of workers, every program of calls with calls after the shutdown, every interleaving", "why_tests_cant": "a call that never returns cannot be told from a slow one by a test, and interleavings are unbounded", "anchors": ["src/napr_threadpool.h: napr_threadpool_shutdown (documentation)", "src/napr_threadpool.c: napr_threadpool_add, napr_threadpool_wait, napr_threadpool_shutdown"]}
{"id": "C135", "title": "Heap operations take logarithmically many comparisons", "statement": "Inserting into a heap of n elements calls the comparison function at most log2(n+1) times and taking out the greatest at most 2*log2(n-1) times; finding the greatest calls it not at all.", "quantifier": "every heap contents, every comparison function (consistent or not), every history of insertions and extractions of up to 2^31 elements", "why_tests_cant": "a bound for all sizes cannot be read off finitely many runs", "anchors": ["src/napr_heap.h: napr_heap_make (documentation)", "src/napr_heap.c: napr_heap_insert, napr_heap_extract, napr_heap_get_nth"]}
{"id": "C136", "title": "Changing the database while a cursor is open", "statement": "A loop that moves a cursor over a write transaction (NAPR_DB_FIRST and NAPR_DB_NEXT, or NAPR_DB_LAST and NAPR_DB_PREV) and deletes pairs as it comes to them sees every pair of the database exactly once, in the order of the keys, and leaves exactly the pairs it did not delete.", "quantifier": "every database contents, every choice of the pairs to delete, every earlier change made by the same transaction, both directions", "why_tests_cant": "whether the loop misses pairs depends on which leaves the transaction has changed before the loop; a test has a small tree and one order of calls", "anchors": ["src/napr_db_cursor.c: db_get_page L21-31, cursor_push L83-90, db_cursor_seek, db_cursor_next L213-289, descend_rightmost, db_cursor_prev L309-377, napr_db_cursor_get L382-443", "src/napr_db.c: napr_db_del L1856-1921", "src/napr_cache.c: napr_cache_sweep L440-474 (a loop of this kind)"]}
{"id": "C137", "title": "A lookup in the hash table looks at fewer elements than the fill factor", "statement": "However many elements a table holds, searching for a key or removing an element looks at fewer stored elements than the fill factor the table was made with, and only at elements whose hash value agrees with the key's in the bits the size of the table uses.  The price is memory: a table that was made for at most 2^31 elements has at most 2^32 buckets, but two elements alone can make it have that many.", "quantifier": "every hash function, every fill factor above 0, every initial size, every history of sets, removals and searches that ends, keys set twice included", "why_tests_cant": "a bound for all histories and hash functions cannot be read off finitely many runs; a table of 2^32 buckets does not fit a test", "anchors": ["src/napr_hash.h: napr_hash_str_make (ffactor: \"the maximum number of collisions for a given key\")", "src/napr_hash.c: napr_hash_search L177-206, napr_hash_remove L258-294, napr_hash_set L296-331, napr_hash_rebuild L208-256"]}
{"id": "C138", "title": "A database takes pairs as long as its map has room", "statement": "A put of a new key succeeds as long as the map has room for the pages it needs; a delete of a stored key always succeeds.  In particular the number of pairs a database, or of files a cache, can hold is limited by the size of the map alone.", "quantifier": "every database that successful puts have made, every key and value that fit a page together with another such pair, every map size", "why_tests_cant": "the limit that is met first is the number of levels of the tree (32); whether it is met depends on the lengths of the keys and on their order, and tests store short keys", "anchors": ["src/napr_db_tree.c: db_find_leaf_page_with_path_in_tree L838-904", "src/napr_db.c: napr_db_put L1436-1540, napr_db_del L1856-1921", "src/napr_cache.c: napr_cache_upsert_in_txn L331-354"]}
