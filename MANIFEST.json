{
 "claims": [
  {
   "property": "C01",
   "status": "proved",
   "theorems": [
    "Rep.Number.C01_plus_exact",
    "Rep.Number.C01_minus_exact",
    "Rep.Number.C01_negate_exact",
    "Rep.Number.C01_plus1_sub1_exact"
   ],
   "note": ""
  },
  {
   "property": "C02",
   "status": "partial",
   "theorems": [
    "Rep.Number.C02_mul_exact_partial",
    "Rep.Number.C02_mul_guard_exact",
    "Rep.Number.C02_mul_violated"
   ],
   "note": "false in the code for two fixnums whose product overflows 64 bits (undefined behaviour); proved otherwise"
  },
  {
   "property": "C03",
   "status": "partial",
   "theorems": [
    "Rep.Number.C03_quotient_remainder_partial",
    "Rep.Number.C03_remainder",
    "Rep.Number.C03_mod_partial",
    "Rep.Number.C03_mod_big_fix_partial",
    "Rep.Number.C03_zero_divisor",
    "Rep.Number.C03_divide_exact_partial",
    "Rep.Number.C03_quotient_violated",
    "Rep.Number.C03_mod_violated",
    "Rep.Number.C03_divide_by_zero_violated"
   ],
   "note": "false in the code for MIN_INT/-1, for mod of a bignum by a fixnum of opposite sign, and (/ a 0 b) crashes; proved otherwise"
  },
  {
   "property": "C04",
   "status": "partial",
   "theorems": [
    "Rep.Number.C04_order_partial",
    "Rep.Number.C04_max_min_partial",
    "Rep.Number.C04_order_violated"
   ],
   "note": "false in the code for two fixnums at distance >= 2^31; proved otherwise"
  },
  {
   "property": "C05",
   "status": "partial",
   "theorems": [
    "Rep.Number.C05_canonical_partial",
    "Rep.Number.C05_canonical_violated"
   ],
   "note": "neg, logical operations, gcd and expt do not demote; proved for the other operations"
  },
  {
   "property": "C06",
   "status": "partial",
   "theorems": [
    "Rep.Number.C06_logand",
    "Rep.Number.C06_logior",
    "Rep.Number.C06_logxor",
    "Rep.Number.C06_lognot",
    "Rep.Number.C06_bits_determine",
    "Rep.Number.C06_ash_left_partial",
    "Rep.Number.C06_ash_right_partial",
    "Rep.Number.C06_ash_violated",
    "Rep.Number.C06_count_violated"
   ],
   "note": "logical operations proved in full; ash proved for fixnum counts outside the shifts that are undefined in C; counts that are bignums are taken modulo 2^62"
  },
  {
   "property": "C07",
   "status": "partial",
   "theorems": [
    "Rep.Number.C07_gcd_partial",
    "Rep.Number.C07_gcd_violated"
   ],
   "note": "false in the code when the gcd is 2^61 and both arguments are fixnums; proved otherwise"
  },
  {
   "property": "C41",
   "status": "proved",
   "theorems": [
    "Rep.Number.C41_expt_nonneg",
    "Rep.Number.C41_expt_neg"
   ],
   "note": ""
  },
  {
   "property": "C13",
   "status": "proved",
   "theorems": [
    "Rep.Lists.C13_append",
    "Rep.Lists.C13_append_none",
    "Rep.Lists.C13_append_error",
    "Rep.Lists.C13_append_circular_last",
    "Rep.Lists.C13_reverse",
    "Rep.Lists.C13_copy_sequence",
    "Rep.Lists.C13_mapcar",
    "Rep.Lists.C13_filter"
   ],
   "note": "for finite lists; append with a circular last argument does not return (C13_append_circular_last)"
  },
  {
   "property": "C14",
   "status": "proved",
   "theorems": [
    "Rep.Lists.C14_nreverse",
    "Rep.Lists.C14_nconc",
    "Rep.Lists.C14_delete",
    "Rep.Lists.C14_delq"
   ],
   "note": "nconc for arguments without common cells; delete for tests that do not read the cdrs being changed"
  },
  {
   "property": "C15",
   "status": "proved",
   "theorems": [
    "Rep.Lists.C15_sort"
   ],
   "note": ""
  },
  {
   "property": "C16",
   "status": "proved",
   "theorems": [
    "Rep.Lists.C16_make_queue",
    "Rep.Lists.C16_step",
    "Rep.Lists.C16_history",
    "Rep.Lists.C16_observers"
   ],
   "note": ""
  },
  {
   "property": "C42",
   "status": "partial",
   "theorems": [
    "Rep.Lists.C42_access_partial",
    "Rep.Lists.C42_access_violated",
    "Rep.Lists.C42_member",
    "Rep.Lists.C42_assoc"
   ],
   "note": "the index of nth/nthcdr is truncated to a C int; proved for indices below 2^31"
  },
  {
   "property": "C17",
   "status": "proved",
   "theorems": [
    "Rep.Ring.C17_ring",
    "Rep.Ring.C17_zero_capacity"
   ],
   "note": "a ring of capacity zero signals an error on every insertion"
  },
  {
   "property": "C18",
   "status": "proved",
   "theorems": [
    "Rep.Trie.C18_contains",
    "Rep.Trie.C18_foreach",
    "Rep.Trie.C18_completions",
    "Rep.Trie.C18_completions_some"
   ],
   "note": ""
  },
  {
   "property": "C19",
   "status": "proved",
   "theorems": [
    "Rep.Base64.C19_encode",
    "Rep.Base64.C19_decode",
    "Rep.Base64.C19_round_trip"
   ],
   "note": ""
  },
  {
   "property": "C20",
   "status": "partial",
   "theorems": [
    "Rep.Url.C20_quote",
    "Rep.Url.C20_unquote",
    "Rep.Url.C20_round_trip",
    "Rep.Url.C20_safe_partial",
    "Rep.Url.C20_safe_violated"
   ],
   "note": "round trip proved for every string; the output is not escaped after an embedded zero byte"
  },
  {
   "property": "C21",
   "status": "partial",
   "theorems": [
    "Rep.Date.C21_epoch",
    "Rep.Date.C21_consecutive_partial",
    "Rep.Date.C21_day_count",
    "Rep.Date.C21_day_count_onto",
    "Rep.Date.C21_day_of_week",
    "Rep.Date.C21_epoch_time_partial",
    "Rep.Date.C21_consecutive_violated",
    "Rep.Date.C21_epoch_time_violated"
   ],
   "note": "false before March of the year 0 (truncating division) and, for the time value, before 1970 (unsigned fix-time); proved otherwise"
  },
  {
   "property": "C22",
   "status": "partial",
   "theorems": [
    "Rep.Utf8.C22_length",
    "Rep.Utf8.C22_substring",
    "Rep.Utf8.C22_substring_rest",
    "Rep.Utf8.C22_split",
    "Rep.Utf8.C22_length_violated",
    "Rep.Utf8.C22_malformed_violated"
   ],
   "note": "proved for well-formed text without NUL; counting stops at an embedded NUL and malformed strings are read past their end"
  },
  {
   "property": "C11",
   "status": "proved",
   "theorems": [
    "Rep.Tables.C11_ref",
    "Rep.Tables.C11_walk_size",
    "Rep.Tables.C11_unset_result",
    "Rep.Equal.C11_equal_table_partial"
   ],
   "note": "for any hash and comparison functions that agree; C11_equal_table_partial instantiates it with equal-hash and equal"
  },
  {
   "property": "C09",
   "status": "partial",
   "theorems": [
    "Rep.Equal.C09_equal_partial",
    "Rep.Equal.C09_equal_names_partial",
    "Rep.Equal.C09_equivalence_partial",
    "Rep.Equal.C09_equal_violated"
   ],
   "note": "false in the code for fixnums a multiple of 2^32 apart and for two symbols with one name; proved otherwise, for finite objects without floats"
  },
  {
   "property": "C10",
   "status": "partial",
   "theorems": [
    "Rep.Equal.C10_hash_partial",
    "Rep.Equal.C10_nonneg_partial",
    "Rep.Equal.C10_fixnum",
    "Rep.Equal.C10_string",
    "Rep.Equal.C10_hash_violated"
   ],
   "note": "false in the code where C09 is, for non-canonical bignums, and cons hashes can be negative; proved otherwise"
  },
  {
   "property": "C30",
   "status": "partial",
   "theorems": [
    "Rep.Gc.C30_collect",
    "Rep.Gc.C30_reachable_allocated",
    "Rep.Gc.C30_cons",
    "Rep.Gc.C30_closure_violated"
   ],
   "note": "proved for every history of a program whose closures contain functions; a closure made of a fixnum (make-closure does not check) makes the next collection undefined"
  },
  {
   "property": "C31",
   "status": "partial",
   "theorems": [
    "Rep.Gc.C31_collect_partial",
    "Rep.Gc.C31_allocated",
    "Rep.Gc.C31_history",
    "Rep.Gc.C31_pop",
    "Rep.Gc.C31_subr_violated",
    "Rep.Gc.C31_subr_reachable",
    "Rep.Gc.C31_fixnum_violated"
   ],
   "note": "proved for objects; subrs (and constant strings) are handed out although reachable, and a registered fixnum makes the next collection undefined"
  },
  {
   "property": "C32",
   "status": "partial",
   "theorems": [
    "Rep.Gc.C32_collect_partial",
    "Rep.Gc.C32_step",
    "Rep.Gc.C32_never_freed",
    "Rep.Gc.C32_subr_violated",
    "Rep.Gc.C32_subr_reachable"
   ],
   "note": "weak references to subrs and constant strings become () although they are reachable; proved otherwise"
  },
  {
   "property": "C12",
   "status": "partial",
   "theorems": [
    "Rep.Gc.C12_eq_partial",
    "Rep.Gc.C12_gc_succeeds",
    "Rep.Gc.C12_equal_violated",
    "Rep.Gc.C12_fixnum_violated"
   ],
   "note": "proved for tables compared by eq with objects as keys; a table compared by equal can lose the entry of a reachable key, and fixnum keys make the next collection undefined"
  },
  {
   "property": "C33",
   "status": "partial",
   "theorems": [
    "Rep.Sdbm.C33_partial",
    "Rep.Sdbm.C33_last_partial",
    "Rep.Sdbm.C33_absent_partial",
    "Rep.Sdbm.C33_defined_partial",
    "Rep.Sdbm.C33_violated"
   ],
   "note": "proved for every history, byte level included, while the directory file is at most one block of 4096 bytes; false beyond that, because maxbno grows by one block at a time"
  },
  {
   "property": "C34",
   "status": "proved",
   "theorems": [
    "Rep.Sdbm.C34_pages",
    "Rep.Sdbm.C34_split"
   ],
   "note": ""
  },
  {
   "property": "C35",
   "status": "partial",
   "theorems": [
    "Rep.Sdbm.C35_partial",
    "Rep.Sdbm.C35_violated"
   ],
   "note": "proved for traversals in which only the key just returned is fetched in between (directory of one block); a fetch of another key makes the traversal skip keys"
  },
  {
   "property": "C36",
   "status": "partial",
   "theorems": [
    "Rep.Sdbm.C36_violated",
    "Rep.Sdbm.C36_keeps",
    "Rep.Sdbm.C36_library_partial",
    "Rep.Sdbm.C36_nul_partial"
   ],
   "note": "false of every key: sdbm-delete deletes the key followed by a NUL byte; the library function does delete"
  },
  {
   "property": "C37",
   "status": "partial",
   "theorems": [
    "Rep.Sdbm.C37_partial",
    "Rep.Sdbm.C37_room",
    "Rep.Sdbm.C37_violated"
   ],
   "note": "proved for insertions, for refused stores and for all other keys; a failed replacement loses the old value"
  },
  {
   "property": "C38",
   "status": "partial",
   "theorems": [
    "Rep.Dyn.C38_scope_partial",
    "Rep.Dyn.C38_restored_partial",
    "Rep.Dyn.C38_inside",
    "Rep.Dyn.C38_violated"
   ],
   "note": "proved for every program unless with-fluids is given something that is not a fluid, in which case its bindings leak"
  },
  {
   "property": "C39",
   "status": "partial",
   "theorems": [
    "Rep.Memo.C39_values",
    "Rep.Memo.C39_once_partial",
    "Rep.Memo.C39_violated"
   ],
   "note": "values proved; a function is called again for arguments on which its value is nil"
  },
  {
   "property": "C40",
   "status": "proved",
   "theorems": [
    "Rep.Datum.C40_opaque",
    "Rep.Datum.C40_unchanged"
   ],
   "note": ""
  },
  {
   "property": "C43",
   "status": "proved",
   "theorems": [
    "Rep.Exn.C43_forms",
    "Rep.Exn.C43_total",
    "Rep.Exn.C43_cleanup"
   ],
   "note": ""
  },
  {
   "property": "C08",
   "status": "partial",
   "theorems": [
    "Rep.NumText.C08_parse_partial",
    "Rep.NumText.C08_round_trip_partial",
    "Rep.NumText.C08_rational",
    "Rep.NumText.C08_violated",
    "Rep.NumText.C08_radix_violated",
    "Rep.NumText.C08_reject_partial",
    "Rep.NumText.C08_reject_violated",
    "Rep.NumText.C08_length_violated"
   ],
   "note": "false in the code for negative fixnums in base 8 and 16, for other bases (abort) and for texts of more than 2^32/27 digits; proved otherwise, and for fractions"
  },
  {
   "property": "C44",
   "status": "partial",
   "theorems": [
    "Rep.Reader.C44_partial",
    "Rep.Reader.C44_number_violated",
    "Rep.Reader.C44_question_violated",
    "Rep.Reader.C44_dot_violated",
    "Rep.Reader.C44_empty_violated",
    "Rep.Reader.C44_long_symbol_violated",
    "Rep.Reader.C44_long_number_violated"
   ],
   "note": "false in the code for symbols that look like numbers to the reader only (0x1f, 1e5, --1), begin with ?, are empty or a single point, and for tokens of 240 characters or more; proved otherwise, floats not modelled"
  },
  {
   "property": "C45",
   "status": "partial",
   "theorems": [
    "Rep.Reader.C45_total",
    "Rep.Reader.C45_defined_partial",
    "Rep.Reader.C45_token_partial"
   ],
   "note": "termination proved for every text; absence of undefined behaviour for texts of fewer than 240 characters, beyond which it is false (C44_long_symbol_violated, C44_long_number_violated)"
  },
  {
   "property": "C29",
   "status": "partial",
   "theorems": [
    "Rep.Timers.C29_no_abort",
    "Rep.Timers.C29_once",
    "Rep.Timers.C29_deleted",
    "Rep.Timers.C29_fires_partial",
    "Rep.Timers.C29_exact_partial",
    "Rep.Timers.C29_early_violated",
    "Rep.Timers.C29_late_violated",
    "Rep.Timers.C29_twice_violated",
    "Rep.Timers.C29_negative_violated"
   ],
   "note": "For every history: the signal handler's assertion holds, a timer is called at most once per setting, a deleted one is not called. Without negative delays every pending timer is called in the end. The calls are exactly the right ones at the right times (refinement to a small specification) when timers are set and deleted while no time of the first pending timer has passed and the event loop keeps up. Otherwise the property fails: see the _violated theorems."
  },
  {
   "property": "C28",
   "status": "partial",
   "theorems": [
    "Rep.Barriers.C28_partial",
    "Rep.Barriers.C28_defined_partial",
    "Rep.Barriers.C28_callable",
    "Rep.Barriers.C28_crossing_violated",
    "Rep.Barriers.C28_functions_violated"
   ],
   "note": "Refusal exactly if a closed barrier would be crossed, and the functions called in the right order, for histories in which no barrier of the present stack is at the stack position of a different barrier in the invoked continuation. Otherwise a closed barrier can be crossed: C28_crossing_violated."
  },
  {
   "property": "C46",
   "status": "partial",
   "theorems": [
    "Rep.Barriers.C46_partial",
    "Rep.Barriers.C46_violated"
   ],
   "note": "Proved under the same condition on stack positions as C28."
  },
  {
   "property": "C26",
   "status": "proved",
   "theorems": [
    "Rep.Threads.C26_sound",
    "Rep.Threads.C26_defined",
    "Rep.Threads.C26_exited",
    "Rep.Threads.C26_fair"
   ],
   "note": "Verif/Threads: the scheduler with its intrusive doubly linked lists, shown by simulation to do the same as one with lists; for every history of make, yield (preemption), suspend, join, wake, delete, exit and throw the queues are sound; loops end; assertions fail exactly for thread-wake on a thread that is not suspended and thread-suspend on one that is; exited threads never run again; a runnable thread with k threads before it runs after at most k turns."
  },
  {
   "property": "C27",
   "status": "partial",
   "theorems": [
    "Rep.Threads.C27_suspend_partial",
    "Rep.Threads.C27_default_violated",
    "Rep.Threads.C27_forever_violated",
    "Rep.Threads.C27_early_violated",
    "Rep.Threads.C27_signal_violated",
    "Rep.Threads.C27_other_violated",
    "Rep.Threads.C27_made_violated"
   ],
   "note": "For every history without signals during a sleep and in which threads suspend only themselves: true is returned only after the milliseconds (but for less than one) and without a wake, false only after a wake. False in the code: without MSECS the call returns true after 1 ms; 0 overflows if no thread can run; up to 999 us early; a signal cuts the sleep; suspension by another thread gives false without a wake; a thread made suspended runs at the next yield."
  },
  {
   "property": "C47",
   "status": "partial",
   "theorems": [
    "Rep.Threads.C47_join_partial",
    "Rep.Threads.C47_deleted_violated",
    "Rep.Threads.C47_woken_violated"
   ],
   "note": "Proved for every history as for C27 in which no thread is deleted while it is suspended; then thread-join returns nil (or t) instead of the default value."
  },
  {
   "property": "C23",
   "status": "partial",
   "theorems": [
    "Rep.Sync.C23_mutex_partial",
    "Rep.Sync.C23_timeout_violated",
    "Rep.Sync.C23_failed_violated",
    "Rep.Sync.C23_abort_violated"
   ],
   "note": "For every interleaving of any number of threads in which no timeout expires (and condition variables are used under their mutex). With timeouts it is false in the code: a thread that gives up stays in the list of the mutex, so it may later own it without asking, be told that it owns another mutex, or make thread-wake abort."
  },
  {
   "property": "C24",
   "status": "partial",
   "theorems": [
    "Rep.Sync.C24_condition_partial",
    "Rep.Sync.C24_timeout_violated",
    "Rep.Sync.C24_abort_violated",
    "Rep.Sync.C24_unlocked_violated"
   ],
   "note": "For every interleaving in which wait, signal and broadcast are called by the owner of the mutex and no timeout expires. A thread that gives up waiting stays in the list and consumes a later signal, or makes it abort; a signal without the mutex can race with a wait."
  },
  {
   "property": "C25",
   "status": "partial",
   "theorems": [
    "Rep.Sync.C25_messages_partial",
    "Rep.Sync.C25_order_partial",
    "Rep.Sync.C25_lost_violated"
   ],
   "note": "For every interleaving in which no timeout expires. message-fetch ignores that it gave up (after 1 ms) waiting for the port's mutex and can lose a message."
  },
  {
   "property": "C48",
   "status": "partial",
   "theorems": [
    "Rep.Peep.C48_peephole_partial",
    "Rep.Peep.C48_exact_partial",
    "Rep.Peep.C48_iff_partial",
    "Rep.Peep.C48_labels",
    "Rep.Peep.C48_alias_violated",
    "Rep.Peep.C48_jtp_jpn_violated",
    "Rep.Peep.C48_scm_test_violated",
    "Rep.Peep.C48_errors_violated",
    "Rep.Peep.C48_loops"
   ],
   "note": "All 32 rules and both loops, for all code, states and machines that obey the laws listed in Machine. Proved for runs of the optimiser in which every rewrite's recorded need holds; the needs exclude the violations: two jumps that share an argument cell, jtp to jpn, test-scm-f, and (unless errors of side-effect-free instructions are excluded from the claim) errors that get lost. The claim that one more stack slot suffices is not proved."
  },
  {
   "property": "C49",
   "status": "partial",
   "theorems": [
    "Rep.Mods.C49_no_cache_partial",
    "Rep.Mods.C49_live_partial",
    "Rep.Mods.C49_circle_violated",
    "Rep.Mods.C49_meta_violated",
    "Rep.Mods.C49_exports_all_violated",
    "Rep.Mods.C49_use_after_free_violated",
    "Rep.Mods.C49_names_violated",
    "Rep.Mods.C49_dangling_violated"
   ],
   "note": "For all histories, with collections and reuse of addresses, in which re-exports of the symbol are not circular at a reference and the operations that forget to invalidate the cache (end of a header that used %meta, structure-exports-all of an opened structure, structure-define on %structures, re-adding a primitive with another export flag) are not used where they matter; each is shown to break the claim. Also makunbound frees a binding and then reads it if it is in the cache."
  },
  {
   "property": "C50",
   "status": "partial",
   "theorems": [
    "Rep.Mods.C50_interface_partial",
    "Rep.Mods.C50_encapsulated_partial",
    "Rep.Mods.C50_unbind_violated",
    "Rep.Mods.C50_exports_all_nil_violated",
    "Rep.Mods.Sharing.C50_unshared_partial",
    "Rep.Mods.Sharing.C50_shared_violated"
   ],
   "note": "For all histories in which the structure's variables are not unbound, no primitive is added to it and structure-exports-all is not used on it, and (in a separate model with cons cells) its interface list shares no cell with another one. Unbinding loses the export, (structure-exports-all s nil) exports everything, and structures made with one named interface share the list that definitions destroy."
  },
  {
   "property": "C51",
   "status": "partial",
   "theorems": [
    "Rep.Mods.C51_immutable_partial",
    "Rep.Mods.C51_unbind_violated"
   ],
   "note": "For all histories in which the variable is not unbound (makunbound removes it and it can be defined again) and not replaced by a primitive, and the structure is not freed."
  },
  {
   "property": "C52",
   "status": "partial",
   "theorems": [
    "Rep.Regex.C52_string_match_partial",
    "Rep.Regex.C52_string_looking_at_partial",
    "Rep.Regex.C52_bad_pattern",
    "Rep.Regex.C52_groups_inside",
    "Rep.Regex.C52_lazy_optional_violated",
    "Rep.Regex.C52_lazy_optional_wild_violated",
    "Rep.Regex.C52_lazy_alternative_violated",
    "Rep.Regex.C52_class_at_end_violated",
    "Rep.Regex.C52_high_byte_violated",
    "Rep.Regex.C52_start_violated",
    "Rep.Regex.C52_depth_violated"
   ],
   "note": "Parser, code generator, search analysis and backtracking matcher, for all patterns and strings without NUL in which no lazy operator ends an alternative, no negated class is under an operator where it would take the NUL and no byte above 127 is compared without case (Re.good), with START inside the string; the one other outcome is the recursion limit. Each excluded case is shown to go wrong: x?? gives an internal error or a wild jump, a lazy group before | matches wrongly, \\W \\S \\D match the end of the string, high bytes index the ctype table with a negative number, START is not checked; for every limit there is a pattern and a string that reach it."
  },
  {
   "property": "C53",
   "status": "partial",
   "theorems": [
    "Rep.Regex.C53_quote_regexp_partial",
    "Rep.Regex.C53_nul_violated"
   ],
   "note": "For strings without NUL (a pattern ends at its first NUL) and bytes below 128 when case is ignored."
  },
  {
   "property": "C54",
   "status": "partial",
   "theorems": [
    "Rep.Regex.C54_expansion_fits",
    "Rep.Regex.C54_expand_partial",
    "Rep.Regex.C54_string_replace_partial",
    "Rep.Regex.C54_string_split_partial",
    "Rep.Regex.C54_ampersand_violated",
    "Rep.Regex.C54_empty_match_violated"
   ],
   "note": "For templates without & (the code takes & for the match and \\& for a plain &, against the manual) and patterns that do not match the empty string (otherwise the loops never end)."
  },
  {
   "property": "C55",
   "status": "partial",
   "theorems": [
    "Rep.Regex.Cache.C55_no_cache_partial",
    "Rep.Regex.Cache.C55_crash_iff",
    "Rep.Regex.Cache.C55_aset_violated",
    "Rep.Regex.Cache.C55_stream_violated"
   ],
   "note": "For all histories that do not crash and in which no string is written to by a stream after it was used as a pattern. aset and translate-string of the pattern at the end of the list follow a null pointer (exactly those: C55_crash_iff)."
  },
  {
   "property": "C56",
   "status": "partial",
   "theorems": [
    "Rep.Lambda.C56_interpreted_partial",
    "Rep.Lambda.C56_compiled_partial",
    "Rep.Lambda.C56_inlined_partial",
    "Rep.Lambda.C56_value_violated",
    "Rep.Lambda.C56_odd_violated",
    "Rep.Lambda.C56_inline_violated",
    "Rep.Lambda.C56_twice_violated"
   ],
   "note": "For distinct parameters and arguments in which no keyword of the function is in the place of a value; inline for lambda expressions without keyword parameters, with not more arguments than parameters or a rest parameter. Each excluded case is shown to differ: a value equal to a keyword is taken for it and may bind a null pointer, keyword-arg and keyword-arg* scan differently, an inline lambda with too many arguments binds the wrong ones, and of two parameters of one name the interpreter binds the last and compiled code the first."
  },
  {
   "property": "C57",
   "status": "partial",
   "theorems": [
    "Rep.Backquote.C57_backquote_partial",
    "Rep.Backquote.C57_nested_partial",
    "Rep.Backquote.C57_innermost_first",
    "Rep.Backquote.C57_ends",
    "Rep.Backquote.C57_vector_violated",
    "Rep.Backquote.C57_lone_violated"
   ],
   "note": "For templates without vectors in which no list is only the splice of a quoted form; nested backquotes by expanding the innermost first (C57_innermost_first), with the result filled in by the outer one when that expansion is such a template. Every template with a vector is refused (append does not take vectors), and `(,@'x) gives the template itself."
  },
  {
   "property": "C58",
   "status": "partial",
   "theorems": [
    "Rep.Asm.C58_assemble_partial",
    "Rep.Asm.C58_once",
    "Rep.Asm.C58_accepts",
    "Rep.Asm.C58_undefined_violated",
    "Rep.Asm.C58_merged_violated",
    "Rep.Asm.C58_long_violated"
   ],
   "note": "For code shorter than 2^16 bytes in which every label that is used is defined; a pushed constant is the given one up to equal. C58_accepts shows that what can be represented is not refused. The excluded cases go wrong silently: an undefined label gives a jump to 0x2020, addresses are stored modulo 2^16, and integers that differ by 2^32 share a constant."
  },
  {
   "property": "C59",
   "status": "partial",
   "theorems": [
    "Rep.Compile.C59_compiled_file_behaves_as_interpreted_partial",
    "Rep.Compile.C59_rebound_loop_variable_violated",
    "Rep.Compile.C59_parameter_named_as_function_violated",
    "Rep.Compile.C59_closure_after_jump_violated",
    "Rep.Compile.C59_loop_in_first_arguments_violated",
    "Rep.Compile.C59_surplus_argument_violated",
    "Rep.Compile.C59_equal_parameters_violated",
    "Rep.Compile.C59_assigned_function_violated",
    "Rep.Compile.C59_redefined_function_violated"
   ],
   "note": "For files that compile (a lambda expression in the place of a function is written as a direct call) in which no name is bound again where it is in scope, names of functions are not assigned, functions of the file and direct calls of lambda expressions get as many arguments as they have parameters, the first call of a named let does not use its name, and no jump to the start of a function assigns a variable that is in the heap. Each condition is needed: a file that breaks it behaves differently. Files on which the interpreter does not come to an end are not covered. Source transformations, constant folding, instructions for subrs, special variables and optional, keyword and rest parameters (see C56) are not in this model; the peephole optimiser and the assembler are C48 and C58."
  },
  {
   "property": "C60",
   "status": "partial",
   "theorems": [
    "Rep.FileName.C60_expand_file_name_partial",
    "Rep.FileName.C60_equal_expansions_same_place",
    "Rep.FileName.C60_tilde_partial",
    "Rep.FileName.C60_directory_and_nondirectory",
    "Rep.FileName.C60_as_directory",
    "Rep.FileName.C60_two_slashes_after_tilde_violated",
    "Rep.FileName.C60_long_name_violated"
   ],
   "note": "For names that together with the directory are not longer than the buffer of the function (PATH_MAX, 4096), and names in a home directory with one slash after ~USER. A longer component is written beyond the end of the buffer, and ~//../b becomes ~//b. Of the file handlers only that of ~ is modelled."
  },
  {
   "property": "C61",
   "status": "partial",
   "theorems": [
    "Rep.Proc.C61_every_change_told_partial",
    "Rep.Proc.C61_event_loop_round_partial",
    "Rep.Proc.C61_not_more_calls_than_changes_partial",
    "Rep.Proc.C61_call_sees_state",
    "Rep.Proc.C61_no_crash_partial",
    "Rep.Proc.C61_exit_value_partial",
    "Rep.Proc.C61_collection_violated",
    "Rep.Proc.C61_unreferenced_violated",
    "Rep.Proc.C61_endless_collection_violated",
    "Rep.Proc.C61_nested_call_process_violated",
    "Rep.Proc.C61_accept_output_violated",
    "Rep.Proc.C61_exit_value_violated"
   ],
   "note": "For histories in which the collector does not run while two objects, or one that is not referenced, wait for the call of their function, and check_for_zombies does not meet the child of call-process; exit values of programs that exit. The sweep of the collector loses all but one of the waiting objects (and waiting for the output of one of them then follows a null pointer), drops unreferenced ones, and does not end if one is linked to itself; an output function that lets the event loop run in call-process makes other children be forgotten; accept-process-output-1 does not see the last of the chain; a child killed by a signal has the exit value 0."
  },
  {
   "property": "C62",
   "status": "proved",
   "theorems": [
    "Rep.Proc.C62_output_in_order",
    "Rep.Proc.C62_all_output_before_the_end",
    "Rep.Proc.C62_close_process_loses"
   ],
   "note": "Pipes with a separate error stream; reading does not fail, and the streams of the object are not nil. C62_close_process_loses shows that the exception for close-process is needed."
  },
  {
   "property": "C63",
   "status": "partial",
   "theorems": [
    "Rep.Gaol.C63_stays_protected",
    "Rep.Gaol.C63_secrecy",
    "Rep.Gaol.C63_integrity_partial",
    "Rep.Gaol.C63_declaration_wins_partial",
    "Rep.Gaol.C63_properties",
    "Rep.Gaol.C63_ordinary_partial",
    "Rep.Gaol.C63_compiled_defvar_violated",
    "Rep.Gaol.C63_compiled_variable_violated",
    "Rep.Gaol.C63_user_function_violated",
    "Rep.Gaol.C63_taken_variable_violated",
    "Rep.Gaol.C63_let_violated",
    "Rep.Gaol.C63_unbound_violated",
    "Rep.Gaol.C63_get_violated",
    "Rep.Gaol.C63_add_hook_violated"
   ],
   "note": "Proved for all programs: protection is not lost, secrecy, integrity of a variable with a value, the interpreted declaration wins over an earlier one by restricted code, property lists, ordinary variables that are not declared special. Eight ways in which the code breaks the full claim are shown on concrete programs (compiled defvar, symbols of the user's structure, declaring an ordinary variable special, let and unbound variables after a weak declaration, get, add-hook)."
  },
  {
   "property": "C64",
   "status": "partial",
   "theorems": [
    "Rep.Md5.C64_string_partial",
    "Rep.Md5.C64_long_violated",
    "Rep.Md5.C64_parts",
    "Rep.Md5.C64_file",
    "Rep.Md5.C64_read_error_violated",
    "Rep.Md5.C64_number_partial",
    "Rep.Md5.C64_signed_violated",
    "Rep.Md5.C64_swapped_violated"
   ],
   "note": "The digest is proved equal to RFC 1321 (whose table is stated with the real sine function) for strings below 8 GiB and all files. The number made of it has the digits of every byte exchanged, and for a byte over 127 the code reads an array at a negative index; a read error gives a number made from uninitialised memory."
  },
  {
   "property": "C65",
   "status": "partial",
   "theorems": [
    "Rep.Stream.C65_output_partial",
    "Rep.Stream.C65_overflow_violated",
    "Rep.Stream.C65_length_violated",
    "Rep.Stream.C65_pair_violated"
   ],
   "note": "Proved for streams which never hold more than a gigabyte and lengths which fit in an int; beyond that the size of the buffer overflows and lengths are taken modulo 2^32. A pair (STRING . N) made by hand is trusted by the code."
  },
  {
   "property": "C66",
   "status": "partial",
   "theorems": [
    "Rep.Stream.C66_input_partial",
    "Rep.Stream.C66_lines",
    "Rep.Stream.C66_copy",
    "Rep.Stream.C66_zero_violated",
    "Rep.Stream.C66_count_violated"
   ],
   "note": "Proved except for lines with zero bytes in files, of which the code loses a part, and for counts given to read-chars which are negative or do not fit on the stack."
  },
  {
   "property": "C67",
   "status": "partial",
   "theorems": [
    "Rep.Stream.C67_format_partial",
    "Rep.Stream.C67_end_partial",
    "Rep.Stream.C67_width_violated",
    "Rep.Stream.C67_cut_violated",
    "Rep.Stream.C67_sign_violated",
    "Rep.Stream.C67_zero_violated",
    "Rep.Stream.C67_digits_violated",
    "Rep.Stream.C67_end_violated"
   ],
   "note": "Proved for formats given as any list of texts and directives, with widths up to 256, `^` only with a width, signs only with numbers; and for arbitrary formats without ten digits in a row it is proved that the end is not passed. Printing of values is a parameter (its text is C08, C44)."
  },
  {
   "property": "C68",
   "status": "partial",
   "theorems": [
    "Rep.Dbl.C68_floor_partial",
    "Rep.Dbl.C68_ceiling_partial",
    "Rep.Dbl.C68_truncate_partial",
    "Rep.Dbl.C68_round_partial",
    "Rep.Dbl.C68_half_violated",
    "Rep.Dbl.C68_odd_violated",
    "Rep.Dbl.C68_floor_violated",
    "Rep.Dbl.C68_truncate_violated",
    "Rep.Dbl.C68_long_violated",
    "Rep.Dbl.C68_round_violated"
   ],
   "note": "floor, ceiling and truncate proved for all doubles, round for all but 1/2 + 2^-53 and the odd integers between 2^52 and 2^53, which the code gets wrong. Rationals go through a truncated double and a long: proved for numerators up to 2^50 (truncate: below 2^53), wrong beyond, and undefined from 2^63 on. Doubles are IEEE binary64, without the sign of zero."
  },
  {
   "property": "C69",
   "status": "partial",
   "theorems": [
    "Rep.Dbl.C69_strict",
    "Rep.Dbl.C69_order_partial",
    "Rep.Dbl.C69_equal_violated",
    "Rep.Dbl.C69_nan_violated"
   ],
   "note": "For all numbers: what is found less is less, what is found greater is greater. That = is equality is proved for exact numbers that a double holds; others are found equal to a double near to them (so = is not transitive), and nan is found equal to everything."
  },
  {
   "property": "C70",
   "status": "partial",
   "theorems": [
    "Rep.Dbl.C70_inexact_partial",
    "Rep.Dbl.C70_fixnum",
    "Rep.Dbl.C70_nearest_violated",
    "Rep.Dbl.C70_mono_violated",
    "Rep.Dbl.C70_exact_partial",
    "Rep.Dbl.C70_towards",
    "Rep.Dbl.C70_round_trip",
    "Rep.Dbl.C70_fraction_violated",
    "Rep.Dbl.C70_infinite_violated",
    "Rep.Dbl.C70_parts_rational",
    "Rep.Dbl.C70_parts_partial",
    "Rep.Dbl.C70_even_violated",
    "Rep.Dbl.C70_epsilon_violated",
    "Rep.Dbl.C70_integer_violated"
   ],
   "note": "exact->inexact: no double lies between the number and the result, for fixnums it is the nearest; bignums and rationals are truncated, so order is not kept. inexact->exact drops the fraction (proved right for integers, and the round trip for all integers that a double holds), and stops the process for infinite numbers. numerator and denominator are right for rationals and for doubles with an odd numerator, apart from three numerators; even doubles, bignums and fixnums are wrong or undefined."
  },
  {
   "property": "C71",
   "status": "partial",
   "theorems": [
    "Rep.Xml.C71_round_trip_partial",
    "Rep.Xml.C71_reading_ends",
    "Rep.Xml.C71_comment_violated",
    "Rep.Xml.C71_question_violated",
    "Rep.Xml.C71_adjacent_violated"
   ],
   "note": "The round trip is proved for items of any depth whose names have no characters that end names, without empty strings and strings next to each other. The printer writes every `(! TEXT)` as `<!()>`, and a `?` item without parameters in a way the reader refuses. Termination and progress of the reader are proved for every input."
  },
  {
   "property": "C72",
   "status": "partial",
   "theorems": [
    "Rep.Rpc.C72_answers",
    "Rep.Rpc.C72_complete_partial",
    "Rep.Rpc.C72_no_error",
    "Rep.Rpc.C72_lost_violated",
    "Rep.Rpc.C72_lost_violated_case",
    "Rep.Rpc.C72_split_violated",
    "Rep.Rpc.C72_foreign_violated",
    "Rep.Rpc.C72_unreadable_violated"
   ],
   "note": "Proved over all reachable states of any number of processes, for data whose text contains no # outside of strings and escapes and tokens of less than 240 characters: answers belong to calls and carry what the servant returned, at most one execution and one answer per call, every call answered when nothing is left to do and neither end has lost the connection, and the handler never fails. Refuted: calls on a lost connection never fail (the socket is deregistered first); a message split behind a # is taken as finished; an answer is accepted on any connection; unreadable values block the connection."
  },
  {
   "property": "C73",
   "status": "partial",
   "theorems": [
    "Rep.Symtab.C73_partial",
    "Rep.Symtab.C73_same",
    "Rep.Symtab.C73_gensym",
    "Rep.Symtab.C73_unintern_violated",
    "Rep.Symtab.C73_twice_violated",
    "Rep.Symtab.C73_nul_violated",
    "Rep.Symtab.C73_empty_violated"
   ],
   "note": "Proved for every history in which no symbol is uninterned from an obarray while it is in another, no symbol is interned beside another one with its name, and obarrays are not of length 0; names are compared up to a zero byte. Outside of that: unintern from the wrong obarray cuts the chain (null pointer, or an endless loop after interning again), duplicates are accepted, names with zero bytes are confused, an obarray of length 0 gives NULL without an error."
  },
  {
   "property": "C74",
   "status": "partial",
   "theorems": [
    "Rep.Macro.C74_same_object",
    "Rep.Macro.C74_partial",
    "Rep.Macro.C74_determined",
    "Rep.Macro.C74_macro_calls",
    "Rep.Macro.C74_redefined_violated",
    "Rep.Macro.C74_environment_violated",
    "Rep.Macro.C74_changed_violated",
    "Rep.Macro.C74_function_violated"
   ],
   "note": "Proved: what is found in the history is what was returned before for that very object, with no collection since; after a collection, as long as nothing that expansion depends on changes and one environment is used, results are the expansions. Refuted: definitions, the environment and the contents of the form are ignored until the next collection; a form whose head is a function (not a macro) makes macroexpand call it."
  },
  {
   "property": "C75",
   "status": "partial",
   "theorems": [
    "Rep.Hook.C75_calls",
    "Rep.Hook.C75_value",
    "Rep.Hook.C75_present_partial",
    "Rep.Hook.C75_removed_violated"
   ],
   "note": "Order, once each, completeness and the value are proved for all histories. That a removed function is not called is proved if no function is removed while it is running; a function that removes itself and then the one behind it leaves that one to be called."
  },
  {
   "property": "C76",
   "status": "partial",
   "theorems": [
    "Rep.Forms.C76_forms_partial",
    "Rep.Forms.C76_case_no_forms_violated",
    "Rep.Forms.C76_case_no_items_violated",
    "Rep.Forms.C76_letrec_no_body_violated",
    "Rep.Forms.C76_capture_violated",
    "Rep.Forms.C76_named_scope_violated"
   ],
   "note": "Proved for every program that binds and assigns variables of its own only, whose case clauses have items and forms and whose letrec forms have a body: whenever the documented meaning is defined, the evaluator run on the text, expanding the macros as it goes, ends with that result and those effects, and with no other. Not shown: that the evaluator does not end when the meaning is undefined. Refuted outside of the guard: the value of clauses without forms, clauses without items, letrec without body, rebinding of t or not; the name of a named let is visible in the initial values."
  },
  {
   "property": "C77",
   "status": "partial",
   "theorems": [
    "Rep.Events.C77_loops",
    "Rep.Events.C77_calls",
    "Rep.Events.C77_marks_kept",
    "Rep.Events.C77_reason_partial",
    "Rep.Events.C77_stale_mark_violated",
    "Rep.Events.C77_stale_report_violated",
    "Rep.Events.C77_nested_violated",
    "Rep.Events.C77_starving_violated",
    "Rep.Events.C77_range_violated"
   ],
   "note": "The report, the turns, completeness and the keeping of marks are proved for all histories. That a call has a reason is proved if a descriptor number is registered only when no mark and no report of its last use is left; the code keeps both. A function that marks its own descriptor starves all others, a nested loop makes the outer one call for input that is gone, and descriptors from FD_SETSIZE on are written outside of the tables. Idle and periodic functions are not modelled."
  },
  {
   "property": "C78",
   "status": "partial",
   "theorems": [
    "Rep.Origin.C78_line_partial",
    "Rep.Origin.C78_origin_partial",
    "Rep.Origin.C78_same_object",
    "Rep.Origin.C78_inner_partial",
    "Rep.Origin.C78_read_line_violated",
    "Rep.Origin.C78_seek_violated",
    "Rep.Origin.C78_guarded_violated",
    "Rep.Origin.C78_circular_violated"
   ],
   "note": "That no other object's origin is returned is proved for all histories. The line is right if no line was read with read-line and no seek to the start failed (neither is taken into account by the code); the origin is there as long as the form was never found unreachable (it is lost if it is got back through another guardian); the search ends for forms without circular structure."
  },
  {
   "property": "C79",
   "status": "partial",
   "theorems": [
    "Rep.Define.C79_defines_partial",
    "Rep.Define.C79_string_body_violated",
    "Rep.Define.C79_macro_name_violated",
    "Rep.Define.C79_only_definitions_violated"
   ],
   "note": "Proved for every program that binds and assigns variables of its own only and does not use the scanner's words as names, without do, while, prog1 and prog2, in which a documented function has a body: the scanner ends, and the evaluator, run on what it makes, ends with the result and effects of the program with letrec in place of the definitions, and with no other. Not shown: that it does not end when the meaning is undefined. Refuted outside of the guard: functions whose body is a string, definitions named like macros, bodies of definitions only."
  },
  {
   "property": "C80",
   "status": "partial",
   "theorems": [
    "Rep.Load.C80_loads_partial",
    "Rep.Load.C80_circular_require_violated",
    "Rep.Load.C80_not_provided_violated",
    "Rep.Load.C80_error_but_provided_violated",
    "Rep.Load.C80_other_name_violated"
   ],
   "note": "Proved, termination included, for every library in which the file of a module consists of the definition of the module with that name, and every program using only such modules (errors anywhere, circles of any kind). Refuted for other files: two files that require each other and provide their features at their ends load each other forever; a file that does not provide its feature is loaded at each require; a syntax error after the module is an error although the feature is provided; a file defining a module with another name."
  },
  {
   "property": "C81",
   "status": "partial",
   "theorems": [
    "Rep.Load.C81_called_right",
    "Rep.Load.C81_called_all_partial",
    "Rep.Load.C81_error_violated",
    "Rep.Load.C81_syntax_violated",
    "Rep.Load.C81_file_name_violated",
    "Rep.Load.C81_again_violated"
   ],
   "note": "That a function is called at most once and at the right time is proved for all finished programs; that all are called, if no registered function ends with an error and no file has a syntax error. Refuted otherwise: an error loses the other functions, a syntax error all; for a file that is a module the name of the module is looked for, not FILE; a function that registers itself again is called forever. Programs that do not end are not covered."
  },
  {
   "property": "C82",
   "status": "partial",
   "theorems": [
    "Rep.Search.C82_search_partial",
    "Rep.Search.C82_no_suffix_violated",
    "Rep.Search.C82_unmodified_violated",
    "Rep.Search.C82_error_pending_violated"
   ],
   "note": "Proved for all paths, arguments and file systems in which asking for a file is no error. Refuted: with NO-SUFFIX the suffix of shared libraries is still added; the name without a suffix is not tried, against the documentation string; after an error in the search a file may be loaded with the error pending."
  },
  {
   "property": "C83",
   "status": "partial",
   "theorems": [
    "Rep.Arr.C83_aref",
    "Rep.Arr.C83_aref_index",
    "Rep.Arr.C83_aset",
    "Rep.Arr.C83_aset_returns",
    "Rep.Arr.C83_aset_error",
    "Rep.Arr.C83_length",
    "Rep.Arr.C83_make_vector_partial",
    "Rep.Arr.C83_vector_partial",
    "Rep.Arr.C83_make_string",
    "Rep.Arr.C83_substring_partial",
    "Rep.Arr.C83_concat_partial",
    "Rep.Arr.C83_concat_substrings",
    "Rep.Arr.C83_copy",
    "Rep.Arr.C83_copy_independent",
    "Rep.Arr.C83_step_partial",
    "Rep.Arr.C83_memory_safe_partial",
    "Rep.Arr.C83_large_vector_violated",
    "Rep.Arr.C83_concat_ignores_violated",
    "Rep.Arr.C83_concat_empty_violated",
    "Rep.Arr.C83_copy_constant_violated"
   ],
   "note": "Reading, writing, length, make-string and copies are proved for all heaps; new vectors for sizes below 2^23, substring below 2^31, concat for a total below 2^32 - 1. Refuted beyond: the header of a vector is computed with int arithmetic, so that a vector of 2^23 elements has a length beyond its memory and one of 2^24 has none. Also refuted: concat leaves out items that are no characters and returns a shared constant for the empty string; the copy of a constant vector is a constant, the copy of a dotted list has no tail."
  },
  {
   "property": "C84",
   "status": "partial",
   "theorems": [
    "Rep.Text.C84_head_eq_partial",
    "Rep.Text.C84_equal_partial",
    "Rep.Text.C84_lessp_partial",
    "Rep.Text.C84_order_partial",
    "Rep.Text.C84_complete_partial",
    "Rep.Text.C84_translate_partial",
    "Rep.Text.C84_nul_violated",
    "Rep.Text.C84_signed_violated",
    "Rep.Text.C84_complete_nul_violated",
    "Rep.Text.C84_translate_same_violated"
   ],
   "note": "Proved for all strings without zero bytes, any mapping to upper or lower case, and a table that is not the string itself. Refuted otherwise: everything after a zero byte is ignored by the comparisons, a template with a zero byte makes complete-string return a string that does not begin with it or read outside of the strings; string-lessp orders characters above 127 before all others; a string translated by itself is changed while it is used as the table. Lengths above 2^31 (int) are not modelled."
  },
  {
   "property": "C85",
   "status": "partial",
   "theorems": [
    "Rep.Handler.C85_dispatch",
    "Rep.Handler.C85_copy",
    "Rep.Handler.C85_rename",
    "Rep.Handler.C85_file",
    "Rep.Handler.C85_expand",
    "Rep.Handler.C85_ends_partial",
    "Rep.Handler.C85_object_violated",
    "Rep.Handler.C85_copy_violated"
   ],
   "note": "The dispatch is proved for all systems of handlers. That every operation ends is proved for handlers whose functions for open files and for copies to and from the local file system do not call these operations again; refuted otherwise: those are called without a search for a handler, so that a close-file handler that calls close-file is entered without end. file-handler-alist is fixed, default-directory a string."
  },
  {
   "property": "C86",
   "status": "partial",
   "theorems": [
    "Rep.Copy.C86_copy_partial",
    "Rep.Copy.C86_same_file_violated",
    "Rep.Copy.C86_error_violated"
   ],
   "note": "Proved for two different files and all behaviours of read and write. Refuted for a file copied to itself (by any name), which is emptied without an error, and for the contents of the destination after an error. A short write is an error. Errors of close are ignored by the code and not modelled."
  },
  {
   "property": "C87",
   "status": "partial",
   "theorems": [
    "Rep.Plist.C87_get",
    "Rep.Plist.C87_put_partial",
    "Rep.Plist.C87_setplist_partial",
    "Rep.Plist.C87_elsewhere",
    "Rep.Plist.C87_history",
    "Rep.Plist.C87_put_again",
    "Rep.Plist.C87_shared_violated",
    "Rep.Plist.C87_circular_violated",
    "Rep.Plist.C87_restricted_violated"
   ],
   "note": "Proved for all heaps in which every symbol has a finite list of its own, dumped (read-only) cells included, and for all histories from such a state. Refuted otherwise: put changes a list in place, so that a list given to another symbol with setplist changes with it; with a circular list get does not end; get is not restricted by the special environment as put and symbol-plist are. `equal` does not depend on the heap."
  },
  {
   "property": "C88",
   "status": "partial",
   "theorems": [
    "Rep.Objects.C88_message_partial",
    "Rep.Objects.C88_unknown_partial",
    "Rep.Objects.C88_total",
    "Rep.Objects.C88_self_violated",
    "Rep.Objects.C88_compiled_violated"
   ],
   "note": "Proved for interpreted and compiled code, all chains of objects and all arguments without the keyword #:self. Refuted with it: the argument after it replaces self (in interpreted code at every place, in compiled code at every second). What methods do is not modelled."
  },
  {
   "property": "C89",
   "status": "partial",
   "theorems": [
    "Rep.Records.C89_records_partial",
    "Rep.Records.C89_start_partial",
    "Rep.Records.C89_define_partial",
    "Rep.Records.C89_captured_violated",
    "Rep.Records.C89_nil_violated"
   ],
   "note": "Proved for all histories of record types, constructors, accessors, modifiers and predicates, with names of fields other than nil; the constructor of define-record-type for lambda lists of distinct parameters as in C56. Refuted: a parameter named like the type, `vector` or `make-record-datum` captures it; an accessor for the field nil can be made. Record types are not changed as vectors, dump and printing are left out."
  },
  {
   "property": "C90",
   "status": "partial",
   "theorems": [
    "Rep.Stack.C90_declared_sizes_suffice_partial",
    "Rep.Stack.C90_operands_are_there",
    "Rep.Stack.C90_call_with_many_arguments_violated"
   ],
   "note": "Proved for every file of the language of C59, all primitives and all reachable states, if the maxima are below 1024; that operands are there and that execution stays in the code without that guard. Refuted: a call with 1023 arguments is told to need no stack, as the fields of the packed sizes have ten bits. The peephole optimiser (which adds to the maximum) and elimination of tail calls by the machine are not included."
  },
  {
   "property": "C91",
   "status": "partial",
   "theorems": [
    "Rep.TailCall.C91_tail_calls_partial",
    "Rep.TailCall.C91_calls_partial",
    "Rep.TailCall.C91_bounded_space",
    "Rep.TailCall.C91_stack_one_short_violated",
    "Rep.TailCall.C91_null_stack_violated"
   ],
   "note": "The bound on space for all histories. Arguments and stacks for all histories in which no apply passes just as many arguments as some function declares for its stack and no function declares none. Refuted: the block for the arguments of apply has one element less than a stack of the same size, but is reused as one; a function that declares no stack may get the null pointer. Keyword arguments and the contents of frames and slots are left out."
  },
  {
   "property": "C92",
   "status": "partial",
   "theorems": [
    "Rep.Canon.C92_canonical_name_partial",
    "Rep.Canon.C92_resolved_names_partial",
    "Rep.Canon.C92_canonical_again_partial",
    "Rep.Canon.C92_root_violated",
    "Rep.Canon.C92_endless_violated",
    "Rep.Canon.C92_file_as_directory_violated",
    "Rep.Canon.C92_long_name_violated"
   ],
   "note": "Proved for all trees of files and all names, for results other than the root: that what is returned is where the name leads, without links, and is its own canonical name; that names which lead somewhere are resolved if the limits suffice. Refuted: the canonical name of the root is empty; a link to itself through a directory is followed for ever; `.` and `..` after a file are accepted; names that are too long leave a buffer without end. The realpath modelled is the one in the sources, used where the system has none."
  },
  {
   "property": "C93",
   "status": "partial",
   "theorems": [
    "Rep.Environ.C93_getenv_partial",
    "Rep.Environ.C93_environment_partial",
    "Rep.Environ.C93_subprocess_partial",
    "Rep.Environ.C93_start_partial",
    "Rep.Environ.C93_name_with_equals_violated",
    "Rep.Environ.C93_empty_environment_violated",
    "Rep.Environ.C93_duplicates_violated"
   ],
   "note": "Proved for all environments and histories, through the model of the pattern compiler and matcher, for names without = or null characters and of fewer than 6500 bytes. Refuted: setting A=B to C sets A to B=C; when all variables have been removed a subprocess gets the environment that this process was started with; if a name is twice in the environment getenv returns the value of the last, the C library that of the first."
  },
  {
   "property": "C94",
   "status": "partial",
   "theorems": [
    "Rep.Prim.C94_values_partial",
    "Rep.Prim.C94_exits_partial",
    "Rep.Prim.C94_same_exits_partial",
    "Rep.Prim.C94_far_violated",
    "Rep.Prim.C94_nth_violated",
    "Rep.Prim.C94_surplus_violated",
    "Rep.Prim.C94_one_argument_violated",
    "Rep.Prim.C94_late_argument_violated",
    "Rep.Prim.C94_fold_violated",
    "Rep.Prim.C94_divide_violated",
    "Rep.Prim.C94_apply_violated",
    "Rep.Prim.C94_log_violated",
    "Rep.Prim.C94_match_violated",
    "Rep.Prim.C94_unequal_violated"
   ],
   "note": "Proved for all forms that compile, without surplus arguments and constant calls of string-match, when no call compares fixnums further apart than an int or takes elements of something that is not a list; with at most two arguments to functions of numbers errors and throws are the same too. Refuted without these guards, each with a witness: (< 0 2^32), (nth 0 5), (nthcdr 2 '(a . b)), surplus arguments not evaluated, (+ x) not accepted, an error before the third argument is evaluated, constant calls with errors not accepted though never reached, (/ 1 0 5), (apply f 5), (apply f), (log x y z), string-match of constants. Floating point numbers, strings and modification of lists are left out."
  },
  {
   "property": "C95",
   "status": "partial",
   "theorems": [
    "Rep.Heights.C95_values_partial",
    "Rep.Heights.C95_errors_partial",
    "Rep.Heights.C95_only_result",
    "Rep.Heights.C95_case_in_loop_violated",
    "Rep.Heights.C95_default_in_loop_violated"
   ],
   "note": "Proved for all forms in which no case and no parameter with a default value comes, in the text, between the start of a loop and its call, unless the loop begins where nothing is on the stack. Refuted otherwise: compile-case does not count the value that it removes, so a later call of a loop that is an argument removes a value too many; push-inline-args counts a default value twice. Loops have one variable; functions, frames of bindings and the allocation of variables are C59. Forms on which the interpreter does not end are not covered."
  },
  {
   "property": "C96",
   "status": "partial",
   "theorems": [
    "Rep.Math.C96_parity",
    "Rep.Math.C96_parity_rational",
    "Rep.Math.C96_sign_partial",
    "Rep.Math.C96_sign_violated",
    "Rep.Math.C96_abs_partial",
    "Rep.Math.C96_abs_magnitude",
    "Rep.Math.C96_abs_violated",
    "Rep.Math.C96_lcm_partial",
    "Rep.Math.C96_lcm_one_violated",
    "Rep.Math.C96_lcm_violated"
   ],
   "note": "Parity is proved for all integers. Signs are proved but for fixnums that do not fit 32 bits, absolute values but for fixnums outside [-2^30, 2^30), and lcm of two such integers that are not both zero. Refuted: 2^32 is not positive, 2^31 is negative, the absolute value of 2^30 is -2^30, (lcm n) is 1 for every n, (lcm 2 3 4) is 24, (lcm 0 0) is an error, the lcm of large fixnums is negative or undefined."
  },
  {
   "property": "C97",
   "status": "partial",
   "theorems": [
    "Rep.Time.C97_time_to_seconds_partial",
    "Rep.Time.C97_roundtrip_partial",
    "Rep.Time.C97_stamp_roundtrip_partial",
    "Rep.Time.C97_difference_partial",
    "Rep.Time.C97_current_time",
    "Rep.Time.C97_fix_time_partial",
    "Rep.Time.C97_fix_time_consistent",
    "Rep.Time.C97_later_partial",
    "Rep.Time.C97_clock_order",
    "Rep.Time.C97_before_epoch_violated",
    "Rep.Time.C97_roundtrip_violated",
    "Rep.Time.C97_fix_time_violated",
    "Rep.Time.C97_later_violated"
   ],
   "note": "Proved for all stamps of fixnums of times since the epoch that fit a long (differences and seconds of stamps also before the epoch). Refuted: seconds->time of every time before the epoch that is not the start of a day is the stamp of the same second a day later; fix-time of such a stamp gives days of which a second fix-time overflows; time-later-p says that every time before the epoch is later than every time since; the stamp of 2^64 seconds cannot be turned back."
  },
  {
   "property": "C98",
   "status": "partial",
   "theorems": [
    "Rep.Lists.C98_position",
    "Rep.Lists.C98_position_false_violated",
    "Rep.Lists.C98_remove_if",
    "Rep.Lists.C98_remove_if_not",
    "Rep.Lists.C98_remove",
    "Rep.Lists.C98_remq",
    "Rep.Lists.C98_remove_dotted_violated",
    "Rep.Lists.C98_member_if",
    "Rep.Lists.C98_some",
    "Rep.Lists.C98_some_dotted_violated",
    "Rep.Lists.C98_option_index",
    "Rep.Lists.C98_vector_to_list",
    "Rep.Lists.C98_mapconcat",
    "Rep.Lists.C98_mapconcat_sequence"
   ],
   "note": "position is proved right and terminating for every list in a closed heap, circular ones included; the others for all proper lists. Refuted: position returns the symbol #f, which is true in a condition, when the item is not found; remove-if and some take the end of a dotted list for an element nil. Predicates do not signal or change existing cells."
  },
  {
   "property": "C99",
   "status": "partial",
   "theorems": [
    "Rep.Remote.C99_server",
    "Rep.Remote.C99_client_partial",
    "Rep.Remote.C99_session_partial",
    "Rep.Remote.C99_put_fails_violated",
    "Rep.Remote.C99_large_file_violated",
    "Rep.Remote.C99_get_error_violated",
    "Rep.Remote.C99_split_violated",
    "Rep.Remote.C99_greeting_violated"
   ],
   "note": "Proved for every sequence of commands with names without null characters, contents and messages shorter than 2^32, writes of the client that arrive whole (data of put divided in any way), replies divided in any way. Refuted: a put whose file cannot be opened leaves the server out of step (it ends when the writes come one by one); files of 2^32 to 2^36 bytes are cut to a sixteenth without an error; an error reply to get in two pieces is a Lisp error in the client; a length in two pieces ends the server; a greeting in two pieces leaves the client waiting. Passwords, the cache of directories and the format of records are not modelled."
  },
  {
   "property": "C100",
   "status": "partial",
   "theorems": [
    "Rep.Sock.C100_once_partial",
    "Rep.Sock.C100_bytes_partial",
    "Rep.Sock.C100_apart_partial",
    "Rep.Sock.C100_delivers",
    "Rep.Sock.C100_close_violated",
    "Rep.Sock.C100_reuse_violated",
    "Rep.Sock.C100_wait_violated",
    "Rep.Sock.C100_echo_violated"
   ],
   "note": "Proved for all histories in which a stream, while it gets bytes of a socket, does not close that socket, does not write in vain and does not wait for input; sentinels and the functions of servers may do anything. Refuted for the others: close-socket called by the stream makes the sentinel run; if the stream then connects again and the system gives the same number, bytes of the new connection go to the old stream; a stream that waits for input, or whose answer fails, makes the sentinel run twice. Addresses, ports and names are not modelled."
  },
  {
   "property": "C101",
   "status": "partial",
   "theorems": [
    "Rep.Ffi.C101_types",
    "Rep.Ffi.C101_roundtrip_partial",
    "Rep.Ffi.C101_layout_partial",
    "Rep.Ffi.C101_array_partial",
    "Rep.Ffi.C101_call_partial",
    "Rep.Ffi.C101_named_partial",
    "Rep.Ffi.C101_padding_violated",
    "Rep.Ffi.C101_block_violated",
    "Rep.Ffi.C101_u64_violated",
    "Rep.Ffi.C101_range_violated",
    "Rep.Ffi.C101_short_violated",
    "Rep.Ffi.C101_conversions_violated",
    "Rep.Ffi.C101_get_violated",
    "Rep.Ffi.C101_nil_violated",
    "Rep.Ffi.C101_empty_violated"
   ],
   "note": "Reading back what was stored, and no other byte changed, proved for all types of basic types and non-empty structures, with unsigned 64-bit integers below 2^63; agreement with the layout of C and calls for types without padding; arrays for types without padding at the end; storing through the first type with conversion functions over a C type. Refuted: fields of structures are stored without padding; blocks for several structures are too small; unsigned integers from 2^63 on lose a bit and are read as negative; values out of range and non-numbers are stored without an error; a short vector is read beyond its end; a second type with conversion functions over the same C type uses those of the first; reading through such a type stores an unset value instead; a type without functions always fails; an empty structure makes the size wrong. Rationals and loading of libraries are not modelled."
  },
  {
   "property": "C102",
   "status": "partial",
   "theorems": [
    "Rep.Dl.C102_once_partial",
    "Rep.Dl.C102_end_partial",
    "Rep.Dl.C102_ends_partial",
    "Rep.Dl.C102_safe_partial",
    "Rep.Dl.C102_failed_violated",
    "Rep.Dl.C102_circle_violated",
    "Rep.Dl.C102_mutual_violated",
    "Rep.Dl.C102_moved_violated",
    "Rep.Dl.C102_first_violated"
   ],
   "note": "Proved for every set of libraries in which none leads back to itself and an initialisation that may fail loads no other library; freedom from undefined behaviour for at most 32 libraries. Refuted: an initialisation that loads a library and then fails takes that one out of the table and leaves itself, closed; a library that requires one whose initialisation loads it is initialised twice; libraries that require each other are loaded without end; the feature is stored in a block that was freed if the array was moved during the initialisation; symbols of the first library are not found by its feature. The contents of libraries are arbitrary; names are not compared with files."
  },
  {
   "property": "C103",
   "status": "partial",
   "theorems": [
    "Rep.Proxy.C103_results",
    "Rep.Proxy.C103_answered_partial",
    "Rep.Proxy.C103_deleted",
    "Rep.Proxy.C103_async_violated",
    "Rep.Proxy.C103_idle_violated",
    "Rep.Proxy.C103_slow_violated",
    "Rep.Proxy.C103_self_violated"
   ],
   "note": "That results are right, in the right thread and come once is proved for all histories. That calls are answered is proved if the function raises nothing in asynchronous calls and does not call its own proxy, no waiting time is over and the proxy is not deleted. Refuted for the rest: an exception in an asynchronous call leaves the dynamic root; with the default waiting time of a millisecond an idle proxy fails and slow calls raise an error. Ports are lists with atomic operations (C25)."
  },
  {
   "property": "C104",
   "status": "partial",
   "theorems": [
    "Rep.Cgi.C104_params",
    "Rep.Cgi.C104_flag_violated",
    "Rep.Cgi.C104_unnamed_violated",
    "Rep.Cgi.C104_digits_violated"
   ],
   "note": "Proved for all well-formed forms with names that are not empty. Refuted for other query strings: a parameter without = becomes a part of the next name, one without a name ends the list, characters that are not digits are decoded. The searches for the fixed patterns are written out."
  },
  {
   "property": "C105",
   "status": "partial",
   "theorems": [
    "Rep.Cgi.C105_parts",
    "Rep.Cgi.C105_parts_name",
    "Rep.Cgi.C105_above",
    "Rep.Cgi.C105_map",
    "Rep.Cgi.C105_downwards",
    "Rep.Cgi.C105_case_violated"
   ],
   "note": "Proved for all names. Refuted: names that differ in case only are taken for different domains."
  },
  {
   "property": "C106",
   "status": "partial",
   "theorems": [
    "Rep.DebugBuf.C106_last_partial",
    "Rep.DebugBuf.C106_free",
    "Rep.DebugBuf.C106_long_violated",
    "Rep.DebugBuf.C106_cut_violated"
   ],
   "note": "Proved for messages that are neither longer than the buffer nor than 255 bytes. Refuted for longer ones: the beginning is kept."
  },
  {
   "property": "C107",
   "status": "partial",
   "theorems": [
    "Rep.Auto.C107_once",
    "Rep.Auto.C107_load",
    "Rep.Auto.C107_call",
    "Rep.Auto.C107_forever_partial",
    "Rep.Auto.C107_macro",
    "Rep.Auto.C107_retry_violated",
    "Rep.Auto.C107_subr_violated",
    "Rep.Auto.C107_chain_violated",
    "Rep.Auto.C107_kind_violated",
    "Rep.Auto.C107_unclosed_violated",
    "Rep.Auto.C107_documented_violated",
    "Rep.Auto.C107_endless_violated"
   ],
   "note": "Proved: each autoload loads at most once in every history; what a load does; calls and expansions are those of the new definition; a closure that has code keeps it for ever. Refuted: a stub whose load failed is never tried again; values that are subrs or autoloads break the other references; a macro in place of a function; unclosed lambda expressions can be called; load-autoload of ordinary functions; endless loading."
  },
  {
   "property": "C108",
   "status": "partial",
   "theorems": [
    "Rep.Prof.C108_counts_partial",
    "Rep.Prof.C108_printed",
    "Rep.Prof.C108_safe_partial",
    "Rep.Prof.C108_load_violated",
    "Rep.Prof.C108_depth_violated",
    "Rep.Prof.C108_share_violated"
   ],
   "note": "Proved for all sequences of samples, with calls counted inside of the innermost load only. Refuted: callers of load; an array of max-lisp-depth elements is overrun if that was lowered; shares above one."
  },
  {
   "property": "C109",
   "status": "partial",
   "theorems": [
    "Rep.Dbl.C109_max_partial",
    "Rep.Dbl.C109_min_partial",
    "Rep.Dbl.C109_nan_violated",
    "Rep.Dbl.C109_far_violated",
    "Rep.Dbl.C109_other_violated"
   ],
   "note": "Proved for all lists without nan and without fixnums 2^31 or more apart. Refuted: nan makes the result depend on the order; fixnums far apart; an argument that is no number is accepted, or followed as a null pointer."
  },
  {
   "property": "C110",
   "status": "partial",
   "theorems": [
    "Rep.Tar.C110_listing",
    "Rep.Tar.C110_get_partial",
    "Rep.Tar.C110_links_partial",
    "Rep.Tar.C110_directory",
    "Rep.Tar.C110_split",
    "Rep.Tar.C110_modes",
    "Rep.Tar.C110_bound_violated",
    "Rep.Tar.C110_leftover_violated",
    "Rep.Tar.C110_error_violated",
    "Rep.Tar.C110_cycle_violated"
   ],
   "note": "Proved for listings whose lines can all be read and are complete. Refuted: the cache is never cut; output ending within a line spoils the next listing; after an error the half-read listing is used; links to themselves are followed for ever."
  },
  {
   "property": "C111",
   "status": "partial",
   "theorems": [
    "Rep.Number.C111_range_partial",
    "Rep.Number.C111_draws",
    "Rep.Number.C111_uniform",
    "Rep.Number.C111_default_violated",
    "Rep.Number.C111_large_violated",
    "Rep.Number.C111_negative_violated"
   ],
   "note": "Proved for bignums and for fixnums from -2^31 up to 2^31 - 1; even distribution for all limits. Refuted: random without an argument always signals an error, as do limits such as 2^31; some negative limits are accepted."
  },
  {
   "property": "C112",
   "status": "partial",
   "theorems": [
    "Rep.Dbl.C112_square",
    "Rep.Dbl.C112_inexact",
    "Rep.Dbl.C112_infinite",
    "Rep.Dbl.C112_negative_partial",
    "Rep.Dbl.C112_big_violated",
    "Rep.Dbl.C112_no_square_violated",
    "Rep.Dbl.C112_fraction_violated",
    "Rep.Dbl.C112_tiny_violated"
   ],
   "note": "Proved for all fixnums that are squares and all inexact numbers. Refuted: a bignum that is a square whose root is wrong; an exact result for a number that is no square; an exact fraction that is a square has an inexact root; a negative fraction near to zero has a root."
  },
  {
   "property": "C113",
   "status": "partial",
   "theorems": [
    "Rep.PrintLimit.C113_cut",
    "Rep.PrintLimit.C113_unlimited",
    "Rep.PrintLimit.C113_ends_partial",
    "Rep.PrintLimit.C113_vector_violated",
    "Rep.PrintLimit.C113_nested_violated"
   ],
   "note": "Proved: the text is that of the object cut by the limits; printing ends for all objects without vectors, however circular. Refuted: a vector that contains itself; lists printed while the stream's function is inside another printing."
  },
  {
   "property": "C114",
   "status": "partial",
   "theorems": [
    "Rep.Dbl.C114_nearest",
    "Rep.Dbl.C114_round_trip_partial",
    "Rep.Dbl.C114_integers_partial",
    "Rep.Dbl.C114_spaced_partial",
    "Rep.Dbl.C114_eight_partial",
    "Rep.Dbl.C114_lost_violated",
    "Rep.Dbl.C114_short_violated",
    "Rep.Dbl.C114_infinite_violated"
   ],
   "note": "Proved: the text is read as the number nearest to a nearest decimal of 16 digits; numbers that 16 digits are enough for, all integers to 2^53, and all numbers that lie farther apart than such decimals come back. Refuted: 0.1 + 0.2 comes back as 0.3; 9.95 is written as 9.949999999999999; infinite numbers and nan can't be read."
  },
  {
   "property": "C115",
   "status": "partial",
   "theorems": [
    "Rep.Disasm.C115_listing_partial",
    "Rep.Disasm.C115_pushed",
    "Rep.Disasm.C115_refn_violated",
    "Rep.Disasm.C115_form_violated"
   ],
   "note": "Proved for code without a refn of two argument bytes and without pushed lists that start with byte-code. Refuted for both: the argument of refn is listed as two instructions, and such a list makes disassemble fail."
  },
  {
   "property": "C116",
   "status": "partial",
   "theorems": [
    "Rep.FileName.Remote.C116_split",
    "Rep.FileName.Remote.C116_join",
    "Rep.FileName.Remote.C116_parts",
    "Rep.FileName.Remote.C116_as_directory",
    "Rep.FileName.Remote.C116_expand_partial",
    "Rep.FileName.Remote.C116_absolute",
    "Rep.FileName.Remote.C116_local",
    "Rep.FileName.Remote.C116_local_violated"
   ],
   "note": "Proved for all names; expansion for names and directories that don't begin with a tilde and that fit into the buffer of 4096 bytes. Refuted: expanding the local names /./h:x, or h:x in the root directory, gives a remote name."
  },
  {
   "property": "C117",
   "status": "partial",
   "theorems": [
    "Rep.Repdoc.C117_found_partial",
    "Rep.Repdoc.C117_long_text_violated",
    "Rep.Repdoc.C117_long_line_violated",
    "Rep.Repdoc.C117_last_violated"
   ],
   "note": "Proved for lines of at most 510 characters, documentation that fits into the buffer of 16384 bytes and files that end in a line break. Refuted: longer documentation makes the program loop forever; a mark across the end of the line buffer isn't seen; unfinished documentation at the end of a file without a line break loses a character."
  },
  {
   "property": "C118",
   "status": "partial",
   "theorems": [
    "Rep.DateText.C118_mail_date_partial",
    "Rep.DateText.C118_case_violated",
    "Rep.DateText.C118_order_violated"
   ],
   "note": "Proved for instants from 1970 on and names in their usual case (see C21 for instants). Refuted: names of months in other case are recognized but not found in the table, so an error is signalled; a month's name behind the time is taken for a zone and the date is lost."
  },
  {
   "property": "C119",
   "status": "partial",
   "theorems": [
    "Rep.StructWalk.C119_bindings",
    "Rep.StructWalk.C119_walk_partial",
    "Rep.StructWalk.C119_adding_violated",
    "Rep.StructWalk.C119_removing_violated"
   ],
   "note": "The map is proved for all histories. The walk is proved for functions that change values and remove other bindings. Refuted: if the function adds a binding and the table grows, some bindings are not visited and some twice; if it makes the symbol it is called for unbound, freed memory is read."
  },
  {
   "property": "C120",
   "status": "partial",
   "theorems": [
    "Rep.CmdLine.C120_absent",
    "Rep.CmdLine.C120_flag",
    "Rep.CmdLine.C120_joined",
    "Rep.CmdLine.C120_next",
    "Rep.CmdLine.C120_missing",
    "Rep.CmdLine.C120_all",
    "Rep.CmdLine.C120_interpreter_partial",
    "Rep.CmdLine.C120_twice_violated",
    "Rep.CmdLine.C120_name_violated"
   ],
   "note": "Single options are proved for all command lines. The interpreter is proved for flags given at most once and names that can't be taken for flags. Refuted: a flag given twice is taken for a file to load; a name that looks like a flag is taken out, and the next argument becomes the name."
  },
  {
   "property": "C121",
   "status": "partial",
   "theorems": [
    "Rep.Xgettext.C121_found_partial",
    "Rep.Xgettext.C121_empty_let_violated",
    "Rep.Xgettext.C121_listed_once",
    "Rep.Xgettext.C121_template"
   ],
   "note": "The list of strings and the template are proved for all strings. Scanning is proved for programs without `let` that has no variables. Refuted: strings in the body of `(let () ...)` are not found, as nil is taken for the name of a loop."
  },
  {
   "property": "C122",
   "status": "partial",
   "theorems": [
    "Rep.SelfTest.C122_status_partial",
    "Rep.SelfTest.C122_exit_violated",
    "Rep.SelfTest.C122_missed_violated"
   ],
   "note": "Proved if loading a library defines tests for registered modules only and no action is `exit`. Refuted otherwise: with the action `exit` a failed test gives status 0, as the throw is not one for `quit`; a module is missed, with status 0 though its test fails, if a library defines a test for a new module while the table is walked."
  },
  {
   "property": "C123",
   "status": "partial",
   "theorems": [
    "Rep.Ispell.C123_answers_partial",
    "Rep.Ispell.C123_free",
    "Rep.Ispell.C123_late_violated",
    "Rep.Ispell.C123_two_words_violated"
   ],
   "note": "Proved for all pieces if no wait times out and each string is one word. Refuted otherwise: an answer that comes after the timeout, or the second line for a string of two words, is taken for the answer to the next word, and so on for all later words. Death of the process is not modelled."
  },
  {
   "property": "C124",
   "status": "partial",
   "theorems": [
    "Rep.Forbid.C124_inside_partial",
    "Rep.Forbid.C124_outside_partial",
    "Rep.Forbid.C124_blocked_partial",
    "Rep.Forbid.C124_interrupt_violated"
   ],
   "note": "Proved for all histories if no user interrupt comes when `thread-forbid` is about to be called. Refuted otherwise: `thread-permit` is then called without `thread-forbid`, so that the lock is -1; as only a lock of 0 permits preemption, the thread isn't preempted outside, and is preempted inside the next `without-interrupts`. call/cc is not modelled."
  },
  {
   "property": "C125",
   "status": "partial",
   "theorems": [
    "Rep.EditLoop.C125_depth",
    "Rep.EditLoop.C125_throw_partial",
    "Rep.EditLoop.C125_outermost_partial",
    "Rep.EditLoop.C125_quit_violated",
    "Rep.EditLoop.C125_term_violated",
    "Rep.EditLoop.C125_mode_violated"
   ],
   "note": "The depth is proved for all histories; so are all throws except those that are to end the program, which do so in the outermost loop only. Refuted: `(throw 'quit 3)` ends the program with status 0 in the outermost loop, and in an inner loop it leaves this loop only; so does a signal to terminate; `error-mode` `exit` has no effect in an inner loop. Programs that aren't driven by input are not modelled."
  },
  {
   "property": "C126",
   "status": "partial",
   "theorems": [
    "Rep.Idle.C126_once_partial",
    "Rep.Idle.C126_priority",
    "Rep.Idle.C126_interrupt_violated"
   ],
   "note": "Proved for all histories in which no interrupt is pending at a timeout. Refuted otherwise: the flag isn't reset if an interrupt is pending at the first timeout, and the hook is not called in that period. Functions of the hook that run an event loop are not modelled."
  },
  {
   "property": "C127",
   "status": "partial",
   "theorems": [
    "Rep.DocFile.C127_documentation_partial",
    "Rep.DocFile.C127_incore",
    "Rep.DocFile.C127_names_violated"
   ],
   "note": "Proved for one database and names without `#` that don't begin with the character 0. Refuted for other names: `b#c` in `a` and `c` in `a#b` have the same key. Several databases are modelled, but the theorem is for one."
  },
  {
   "property": "C128",
   "status": "partial",
   "theorems": [
    "Rep.Repl.C128_forms_partial",
    "Rep.Repl.C128_two_forms_violated",
    "Rep.Repl.C128_command"
   ],
   "note": "Proved if each form begins on a new line. Refuted otherwise: text after the first form of a line is ignored. Commands are proved fully. The reader is modelled on tokens (its text is C44, C45), and evaluation is not modelled."
  },
  {
   "property": "C129",
   "status": "partial",
   "theorems": [
    "Rep.CompFile.C129_done",
    "Rep.CompFile.C129_early",
    "Rep.CompFile.C129_stop_partial",
    "Rep.CompFile.C129_stop_violated",
    "Rep.CompFile.C129_close_violated",
    "Rep.CompFile.C129_header_partial",
    "Rep.CompFile.C129_no_header",
    "Rep.CompFile.C129_header_violated"
   ],
   "note": "Success and failure before the copy are proved. Refuted: a crash or an error during the copy leaves a part of the new content; an error of fclose is ignored, so that compile-file succeeds with a truncated file; a header that ends with !!# takes the whole file. Compilation itself is an input."
  },
  {
   "property": "C130",
   "status": "partial",
   "theorems": [
    "Rep.Stepper.C130_transparent",
    "Rep.Stepper.C130_off",
    "Rep.Stepper.C130_step",
    "Rep.Stepper.C130_next",
    "Rep.Stepper.C130_continue_partial",
    "Rep.Stepper.C130_stopped",
    "Rep.Stepper.C130_break_partial",
    "Rep.Stepper.C130_return",
    "Rep.Stepper.C130_order",
    "Rep.Stepper.C130_continue_violated",
    "Rep.Stepper.C130_break_violated"
   ],
   "note": "Values and effects, step, next, return and the order of stops are proved. Continue is proved for the form at which it is given; refuted for what follows: after a form around it that was stepped into, the debugger stops again. A break inside of a form that was continued is forgotten when that form ends. Macros, errors and calls with other numbers of arguments are not modelled."
  },
  {
   "property": "C131",
   "status": "partial",
   "theorems": [
    "Rep.Gdbm.C131_sound_partial",
    "Rep.Gdbm.C131_closed",
    "Rep.Gdbm.C131_usable",
    "Rep.Gdbm.C131_kill_partial",
    "Rep.Gdbm.C131_walk_violated"
   ],
   "note": "Proved if no function given to gdbm-walk closes the database that is walked. Refuted otherwise: the next key is asked for with a null pointer. The content of databases, which belongs to an external library, and nested walks are not modelled."
  }
 ]
}