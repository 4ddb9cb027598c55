{"id": "C01", "title": "Exact addition and subtraction", "statement": "For exact integers, (+ a b ...) and (- a b ...) return the mathematically exact sum or difference, whatever mixture of fixnums and bignums the arguments and the intermediate results are.", "quantifier": "all finite lists of integers of any magnitude, in any fixnum/bignum representation", "why_tests_cant": "The fixnum/bignum boundary (2^61) can be crossed at any argument of an argument list of any length.", "anchors": ["src/numbers.c: rep_number_add, rep_number_sub, number_foldv, rep_make_long_int, promote_dup, maybe_demote, Fplus, Fminus"]}
{"id": "C02", "title": "Exact multiplication", "statement": "For exact integers, (* a b) is the mathematically exact product.", "quantifier": "all pairs of integers, in any representation", "why_tests_cant": "A product overflows the machine word only for rare large operand pairs.", "anchors": ["src/numbers.c: rep_number_mul, rep_make_longlong_int, Fproduct"]}
{"id": "C03", "title": "Division law", "statement": "For integers a and b, b non-zero: (quotient a b) and (remainder a b) satisfy a = b*q + r with |r| < |b| and r zero or of the sign of a; (mod a b) is the residue congruent to a with the sign of b; when b is zero every one of them signals arith-error and nothing else happens.", "quantifier": "all pairs of integers, in any mixture of representations", "why_tests_cant": "Sign and representation combinations interact; extreme values are missed by samples.", "anchors": ["src/numbers.c: rep_number_div, Fquotient, Fremainder, Fmod"]}
{"id": "C04", "title": "Numeric order is the mathematical order", "statement": "For integers, (= a b), (< a b), (> a b), (<= a b) and (>= a b) hold exactly when the mathematical relation does; in particular < is a strict total order.", "quantifier": "all pairs of integers of any magnitude", "why_tests_cant": "Order laws quantify over pairs and triples of unbounded values; truncation appears only for far-apart operands.", "anchors": ["src/numbers.c: rep_compare_numbers, number_cmp", "src/lispcmds.c: APPLY_COMPARISON, Fnum_eq, Fltthan", "src/values.c: rep_value_cmp"]}
{"id": "C05", "title": "Canonical integers", "statement": "Every integer-valued result of an arithmetic operation that fits a fixnum is a fixnum (so fixnump, eq and functions that require a fixnum index accept it).", "quantifier": "all operations and all argument values", "why_tests_cant": "Canonicity must hold for results of every chain of operations; a non-canonical result only shows when it is later used as an index.", "anchors": ["src/numbers.c: maybe_demote, rep_number_neg, rep_number_logand, rep_integer_gcd, Fexpt, Fash"]}
{"id": "C06", "title": "Bitwise operations and shifts", "statement": "logand, logior, logxor and lognot compute on the infinite two's complement representation of their integer arguments and (ash n c) equals floor(n * 2^c).", "quantifier": "all integers and all shift counts", "why_tests_cant": "Shift counts and magnitudes are unbounded.", "anchors": ["src/numbers.c: rep_number_logand, rep_number_logior, rep_number_logxor, rep_number_lognot, Fash"]}
{"id": "C07", "title": "gcd", "statement": "(gcd a b) returns the non-negative greatest common divisor of its integer arguments.", "quantifier": "all pairs of integers", "why_tests_cant": "Termination and correctness of Euclid's loop for every pair of any size.", "anchors": ["src/numbers.c: rep_integer_gcd, Fgcd"]}
{"id": "C08", "title": "Integer text round trip", "statement": "(string->number (number->string n r) r) is n, for every exact integer n and every supported radix r.", "quantifier": "all integers and radixes 2, 8, 10 and 16", "why_tests_cant": "The text length is unbounded and the parser switches algorithm on the length.", "anchors": ["src/numbers.c: rep_print_number_to_string, rep_parse_number, Fnumber_to_string, Fstring_to_number"]}
{"id": "C09", "title": "equal is structural equality", "statement": "equal returns true exactly when its arguments are structurally the same (same type and recursively equal parts, strings by bytes, numbers by value, symbols by identity), hence it is an equivalence relation.", "quantifier": "all finite acyclic data", "why_tests_cant": "Equivalence laws quantify over all pairs and triples of unboundedly deep values.", "anchors": ["src/values.c: rep_value_cmp, cons_cmp, vector_cmp, string_cmp, rep_type_cmp, rep_ptr_cmp", "src/lispcmds.c: Fequal", "src/numbers.c: number_cmp"]}
{"id": "C10", "title": "equal implies equal hash", "statement": "If (equal x y) then (equal-hash x) = (equal-hash y), for every depth argument; and every hash function returns a non-negative fixnum.", "quantifier": "all pairs of finite data, all depths", "why_tests_cant": "A hash mismatch of equal keys silently loses table entries; the pairs range over unbounded data.", "anchors": ["src/tables.c: Fequal_hash, Fstring_hash, Fsymbol_hash, Feq_hash, hash_string"]}
{"id": "C11", "title": "Hash tables are finite maps", "statement": "After any history of table-set and table-unset, table-ref returns the value most recently set for the key and not unset since (under the table's comparison), table-bound-p tells whether there is one, table-size is the number of such keys, and table-walk visits each such pair exactly once.", "quantifier": "all histories of operations, all keys, all hash functions compatible with the comparison, all table sizes including across growth", "why_tests_cant": "Rehashing happens at unbounded sizes and the history is unbounded.", "anchors": ["src/tables.c: lookup, hash_key, Ftable_ref, Ftable_bound_p, Ftable_set, Ftable_unset, Ftable_walk, Ftable_size"]}
{"id": "C12", "title": "Weak tables keep live keys", "statement": "A weak table never loses the entry of a key that is still reachable, and after a collection no entry remains for a key that was unreachable.", "quantifier": "all histories of set, unset and collection, all reachability situations", "why_tests_cant": "Depends on when collections happen and on which objects are reachable then.", "anchors": ["src/tables.c: Ftable_set, Ftables_after_gc, Fmake_weak_table", "src/values.c: Fguardian_push, Fguardian_pop, run_guardians"]}
{"id": "C13", "title": "Non-destructive list functions", "statement": "append, reverse, copy-sequence, mapcar, filter, list-valued member/nthcdr leave every existing cons cell unchanged, and append returns the concatenation sharing its last argument, reverse a fresh reversal, mapcar the images in order, filter the accepted elements in order.", "quantifier": "all lists of any length in any heap, including shared structure", "why_tests_cant": "Aliasing situations and lengths are unbounded.", "anchors": ["src/lispcmds.c: Fappend, Freverse, Fmapcar, Ffilter, Fcopy_sequence, Fmember, Fmemq, Fnthcdr"]}
{"id": "C14", "title": "Destructive list functions", "statement": "nreverse returns the reversed list, nconc the concatenation, and delete/delq/delete-if the list without the matching elements in the original order; they modify only cells of their arguments and every other cell keeps its contents.", "quantifier": "all lists of any length in any heap", "why_tests_cant": "Frame conditions quantify over the whole heap; pointer reversal is only correct for every length by induction.", "anchors": ["src/lispcmds.c: Fnreverse, Fnconc, Fdelete, Fdelq, Fdelete_if, Fdelete_if_not"]}
{"id": "C15", "title": "sort is a stable sort", "statement": "For every list and every strict weak order PRED, (sort list pred) is a permutation of the list, sorted by PRED, and elements that PRED does not distinguish keep their order; it terminates.", "quantifier": "all lists and all strict weak orders", "why_tests_cant": "Stability and permutation are claims over all inputs of all lengths.", "anchors": ["lisp/rep/data/sort.jl: sort"]}
{"id": "C16", "title": "Queues are FIFO", "statement": "Dequeue returns the enqueued elements in the order in which they were enqueued, each once; queue-empty-p, queue-length, queue->list and delete-from-queue agree with that sequence.", "quantifier": "all histories of enqueue, dequeue and delete", "why_tests_cant": "The tail pointer must stay right after every history, including emptying and deletion of the last element.", "anchors": ["lisp/rep/data/queues.jl"]}
{"id": "C17", "title": "Rings keep the newest elements", "statement": "After any history of add-to-ring on a ring of capacity n, get-from-ring with depth k returns the k-th most recent element (for k up to the number of stored elements, at most n), set-ring-head and ring-replace act on the newest element, and ring->list is consistent.", "quantifier": "all capacities, histories and depths", "why_tests_cant": "Wrap-around occurs for every capacity and history length.", "anchors": ["lisp/rep/data/ring.jl"]}
{"id": "C18", "title": "Tries contain exactly what was inserted", "statement": "trie-contains-string? holds exactly for the inserted strings, and the completions of a prefix are exactly the inserted strings with that prefix.", "quantifier": "all sequences of inserted strings and all queries", "why_tests_cant": "Prefix and sharing relations between unboundedly many strings.", "anchors": ["lisp/rep/data/trie.jl"]}
{"id": "C19", "title": "Base64 round trip", "statement": "Decoding the output of base64-encode yields the original bytes, for every input, and the encoder's output consists of lines of at most 76 alphabet characters.", "quantifier": "all byte strings", "why_tests_cant": "Input length modulo 3, line wrapping and byte values interact; the length is unbounded.", "anchors": ["lisp/rep/util/base64.jl: base64-encode, base64-decode"]}
{"id": "C20", "title": "URL quoting round trip", "statement": "unquote-url (quote-url s) = s for every string, and quote-url's output contains only unreserved characters and %XX escapes.", "quantifier": "all strings", "why_tests_cant": "All strings of all lengths.", "anchors": ["lisp/rep/www/quote-url.jl"]}
{"id": "C21", "title": "Calendar arithmetic", "statement": "The date module's conversion from a calendar date to a day count is the proleptic Gregorian count used by the system time values: consecutive days map to consecutive numbers and the epoch maps to 0.", "quantifier": "all years, months and days", "why_tests_cant": "Century and leap rules make counterexamples rare.", "anchors": ["lisp/rep/util/date.jl"]}
{"id": "C22", "title": "UTF-8 strings are indexed by character", "statement": "For a valid UTF-8 string, utf8-string-length is the number of characters and (utf8-substring s i j) is the encoding of characters i to j-1, for every 0 <= i <= j <= length; other indices signal an error.", "quantifier": "all valid UTF-8 strings and all index pairs", "why_tests_cant": "All byte lengths and all characters.", "anchors": ["src/utf8.c: utf8_strlen, utf8_offset_to_pointer, Futf8_string_length, Futf8_substring"]}
{"id": "C23", "title": "Mutual exclusion", "statement": "Whenever obtain-mutex returns true the calling thread owns the mutex, no two threads own it, and ownership is handed over in the order of the calls; a thread told that it failed to obtain the mutex never owns it without asking again.", "quantifier": "all numbers of threads, all schedules, all timeouts", "why_tests_cant": "Interleavings and timeouts are unbounded.", "anchors": ["lisp/rep/threads/mutex.jl", "src/continuations.c: thread_suspend, thread_wake, thread_yield, Fthread_suspend, Fthread_wake"]}
{"id": "C24", "title": "Condition variables lose no wake-up", "statement": "A condition-variable-signal with at least one thread waiting wakes the longest waiting thread, and broadcast wakes all of them; a signal is never consumed by a thread that is no longer waiting.", "quantifier": "all schedules and timeouts", "why_tests_cant": "Races between timeouts and signals.", "anchors": ["lisp/rep/threads/condition-variable.jl"]}
{"id": "C25", "title": "Message ports deliver exactly once, in order", "statement": "Messages sent to a port are fetched in order of sending, each exactly once, by whichever threads fetch.", "quantifier": "all schedules of senders and receivers", "why_tests_cant": "Interleavings are unbounded.", "anchors": ["lisp/rep/threads/message-port.jl", "lisp/rep/data/queues.jl"]}
{"id": "C26", "title": "Scheduler integrity and fairness", "statement": "At any time every live thread of a dynamic root is in exactly one of the runnable queue or the suspended queue, the suspended queue is ordered by wake time, exited threads are in neither and never run again, and with n runnable threads each of them runs again within n yields.", "quantifier": "all histories of make, yield, suspend, wake and delete", "why_tests_cant": "Intrusive doubly linked lists are updated in many places; histories are unbounded.", "anchors": ["src/continuations.c: enqueue_thread, unlink_thread, thread_wake, thread_yield, thread_suspend, thread_delete, thread_invoke, poll_threads"]}
{"id": "C27", "title": "Suspension lasts until wake or timeout", "statement": "thread-suspend returns true only if MSECS milliseconds have passed, false only if another thread woke it; without MSECS it returns only after a wake.", "quantifier": "all schedules and all clock readings", "why_tests_cant": "Depends on timing of other threads.", "anchors": ["src/continuations.c: Fthread_suspend, thread_suspend, thread_invoke, Fthread_wake"]}
{"id": "C28", "title": "Continuations respect barriers", "statement": "Invoking a continuation from a point runs the OUT functions of exactly the open barriers left, innermost first, then the IN functions of exactly the open barriers entered, outermost first; it is refused with an error, without side effect, if and only if a closed barrier would have to be crossed.", "quantifier": "all barrier stacks at capture and at invocation", "why_tests_cant": "Barrier nesting is unbounded and the search uses a skipping heuristic.", "anchors": ["src/continuations.c: rep_call_with_barrier, trace_barriers, common_ancestor, primitive_invoke_continuation, primitive_call_cc, Fcontinuation_callable_p"]}
{"id": "C29", "title": "Timers fire after their delay, once, in order", "statement": "A timer fires once, not before and not later (up to scheduling latency) than its delay after it was last set, unless deleted; timers fire in the order of their due times.", "quantifier": "all histories of make-timer, set-timer, delete-timer and passing time", "why_tests_cant": "The pending timers are kept as a chain of differences; every insertion and deletion rewrites neighbours.", "anchors": ["src/timers.c: insert_timer, delete_timer, timer_signal_handler, timer_fd_handler, Fset_timer"]}
{"id": "C30", "title": "The collector frees exactly the unreachable cells", "statement": "After garbage-collect every cell reachable from the roots is retained with its contents unchanged, no freed cell is reachable, and every cell that is not reachable (and not guarded) is put on the free list exactly once.", "quantifier": "all heaps, including cyclic ones, and all root sets", "why_tests_cant": "Heap shapes are unbounded.", "anchors": ["src/values.c: rep_mark_value, cons_sweep, Fgarbage_collect, Fcons"]}
{"id": "C31", "title": "Guardians", "statement": "An object registered with a guardian is returned by it once per registration, only after a collection at which it was not otherwise reachable, and objects held in this way are never freed before being returned.", "quantifier": "all histories of registrations, collections and retrievals", "why_tests_cant": "Depends on collection timing and on reachability.", "anchors": ["src/values.c: make_primitive_guardian, Fprimitive_guardian_push, Fprimitive_guardian_pop, run_guardians"]}
{"id": "C32", "title": "Weak references", "statement": "A weak reference yields its object as long as the object is reachable and nil after a collection at which it is not; it never yields a freed object.", "quantifier": "all heaps and histories", "why_tests_cant": "Depends on reachability at each collection.", "anchors": ["src/weak-refs.c: Fmake_weak_ref, Fweak_ref, rep_scan_weak_refs"]}
{"id": "C33", "title": "sdbm is a persistent map", "statement": "After any history of sdbm-store (insert or replace), sdbm-fetch and sdbm-delete at the level of the database library, a fetch returns the value last stored under the key, or nothing.", "quantifier": "all histories and all keys and values within the size limit", "why_tests_cant": "Pages split at data dependent times, to any depth of the hash trie.", "anchors": ["src/sdbm.c: sdbm_fetch, sdbm_store, sdbm_delete, makroom, getpage, setdbit", "src/sdbm_pair.c", "src/sdbm_hash.c"]}
{"id": "C34", "title": "sdbm pages", "statement": "Within a page every stored pair is recoverable unchanged after any sequence of insertions and deletions, pairs never overlap, and splitting a page distributes its pairs by the hash bit without losing or altering any.", "quantifier": "all page contents and operation sequences", "why_tests_cant": "Offsets into a 1 KB page are recomputed by each deletion.", "anchors": ["src/sdbm_pair.c: fitpair, putpair, getpair, delpair, seepair, splpage, getnkey, duppair"]}
{"id": "C35", "title": "sdbm traversal", "statement": "On an unmodified database sdbm-firstkey followed by sdbm-nextkey enumerates each stored key exactly once.", "quantifier": "all database states", "why_tests_cant": "All page directories.", "anchors": ["src/sdbm.c: sdbm_firstkey, sdbm_nextkey, getnext"]}
{"id": "C36", "title": "sdbm-delete removes the entry", "statement": "After (sdbm-delete db key), (sdbm-fetch db key) returns nil.", "quantifier": "all databases and keys", "why_tests_cant": "A claim about all keys and states.", "anchors": ["src/repsdbm.c: Fsdbm_delete, Fsdbm_store, Fsdbm_fetch"]}
{"id": "C37", "title": "Failed stores have no effect", "statement": "If sdbm-store fails, the database still holds the binding it held before.", "quantifier": "all states, keys and values", "why_tests_cant": "Failure happens only at rare page configurations.", "anchors": ["src/sdbm.c: sdbm_store, makroom"]}
{"id": "C38", "title": "Dynamic bindings are restored", "statement": "with-fluids and special variable binding give the new values inside the dynamic extent of the body and restore the previous ones after it, however the body is left; other fluids are unaffected.", "quantifier": "all nestings, all fluids, all exits", "why_tests_cant": "Nesting depth and exit paths are unbounded.", "anchors": ["src/fluids.c: Fwith_fluids, Ffluid, Ffluid_set", "src/symbols.c: rep_bind_special, rep_unbind_symbols, search_special_bindings"]}
{"id": "C39", "title": "memoize is transparent", "statement": "A memoized pure function returns the same values as the function, and calls it at most once for each argument list.", "quantifier": "all functions and call histories", "why_tests_cant": "All histories.", "anchors": ["lisp/rep/util/memoize.jl"]}
{"id": "C40", "title": "Datums are opaque", "statement": "The value of a datum can only be read or changed with the key it was created with; every other access signals an error and leaves it unchanged.", "quantifier": "all histories of datum operations", "why_tests_cant": "All histories and keys.", "anchors": ["src/datums.c: Fmake_datum, Fdatum_ref, Fdatum_set, Fhas_type_p"]}
{"id": "C41", "title": "Exact exponentiation", "statement": "For an integer b and a fixnum n >= 0, (expt b n) is the integer b^n; for n < 0 it is the exact rational 1/b^(-n), or arith-error if b is zero.", "quantifier": "all integer bases and all fixnum exponents", "why_tests_cant": "Unbounded bases and exponents.", "anchors": ["src/numbers.c: Fexpt"]}
{"id": "C42", "title": "List access functions", "statement": "(length l) is the number of elements of a finite list, (nth i l) its element i or nil when the list is too short, (nthcdr i l) the tail after i cells, (last l) its last element; member/memq return the first tail whose element matches, assoc/assq/rassoc/rassq the first matching pair, skipping elements that are not pairs.", "quantifier": "all finite lists of any length in any heap, all indices and tests", "why_tests_cant": "Lengths and indices are unbounded, and the index passes through a narrower C type.", "anchors": ["src/lispcmds.c: Fnth, Fnthcdr, Flast, Flength, Fmember, Fmemq, Fassoc, Fassq, Frassoc, Frassq"]}
{"id": "C43", "title": "Exceptions, handlers and cleanup", "statement": "A throw ends the innermost active catch whose tag is eq to it and gives it the value; other exceptions pass through. condition-case calls the first handler that is for the error, and lets other exceptions pass. The cleanup forms of unwind-protect are evaluated exactly once after the body, whether it returns or throws, and the exit of the body goes on afterwards unless they throw themselves.", "quantifier": "all programs made of these forms, nested and sequenced in any way, with handlers and cleanup forms that may throw", "why_tests_cant": "Nesting is unbounded and exits interact.", "anchors": ["lisp/rep/lang/interpreter.jl: call-with-catch, call-with-unwind-protect, call-with-error-handlers, throw", "src/lispcmds.c: Fcall_with_exception_handler, Fraise_exception", "src/lisp.c: Fsignal"]}
{"id": "C44", "title": "Reading what was printed", "statement": "For an object made of exact numbers, strings, symbols, keywords, pairs, vectors and byte code, the text that prin1/format %S writes is read back by `read` as an object of the same structure and contents, and the input is left just after the text, whatever follows it (if that starts with a delimiter).", "quantifier": "all such objects, of any size and depth of nesting, all values of print-escape, everything that may follow the text", "why_tests_cant": "Objects, names and strings are unbounded, and the printer's idea of what must be escaped has to agree with the reader's idea of a number, a delimiter and a prefix for every name.", "anchors": ["src/lisp.c: rep_lisp_prin, rep_string_princ, readl, read_list, read_vector, read_symbol, read_str", "src/symbols.c: symbol_princ", "src/streams.c: rep_stream_read_esc, Fread"]}
{"id": "C45", "title": "The reader ends and stays inside its buffers", "statement": "For every text, `read` ends: it returns an object, having consumed at least one character, or signals an error. It never writes or reads outside its buffers.", "quantifier": "all texts (including malformed ones), and everything that may have been read before", "why_tests_cant": "Texts are unbounded, and the reader keeps static buffers between calls.", "anchors": ["src/lisp.c: readl, read_list, read_comment, read_symbol, read_str, skip_chars"]}
{"id": "C46", "title": "dynamic-wind calls BEFORE and AFTER in turn", "statement": "For every call of dynamic-wind, BEFORE and AFTER are called alternately, BEFORE first, whatever continuations are invoked; BEFORE has been called once more than AFTER if and only if control is inside THUNK.", "quantifier": "all histories of dynamic-wind, call/cc and invocations", "why_tests_cant": "Control can enter and leave in unboundedly many ways.", "anchors": ["lisp/rep/lang/interpreter.jl: dynamic-wind", "src/continuations.c: rep_call_with_barrier, primitive_invoke_continuation, primitive_call_cc"]}
{"id": "C47", "title": "thread-join returns the value of the thread", "statement": "thread-join returns the value returned by the function of the other thread once that has exited; it returns DEFAULT-VALUE only if the thread was deleted, the calling thread was woken, or TIMEOUT milliseconds have passed.", "quantifier": "all histories of the threads of a dynamic root, all times at which threads exit, are deleted, suspended and woken, all timeouts", "why_tests_cant": "The value is right only if no interleaving of the other threads' actions and of the clock confuses the reason for which the caller runs again.", "anchors": ["src/continuations.c: Fthread_join, thread_join_poller, thread_invoke, thread_yield, thread_delete, make_thread"]}
{"id": "C48", "title": "Optimised byte code means the same", "statement": "Compiling with the peephole optimiser does not change what a program does: run in the same state, the optimised code returns the same value with the same effects, raises the same error, or runs forever, exactly when the unoptimised code does.", "quantifier": "all lists of instructions, all states of the machine, all sequences of rewrites the optimiser makes until nothing changes any more", "why_tests_cant": "The optimiser has over thirty rewrite rules that fire on each other's output in any order and update shared list structure; only a proof over all instruction sequences rules out a combination that changes the meaning.", "anchors": ["lisp/rep/vm/peephole.jl: peephole-optimizer", "lisp/rep/vm/bytecodes.jl", "src/lispmach.h"]}
{"id": "C49", "title": "Variables are found as if there were no cache", "statement": "Every reference to a variable of a structure, and every reference through the name of an accessed structure, gives what a search of the structure itself, then of the structures it opens (following re-exports) gives in the current state, whatever was looked up, defined, opened, exported, unbound or collected before.", "quantifier": "all histories of making, naming, opening, accessing, defining, setting, unbinding and exporting, with garbage collections anywhere and any reuse of addresses", "why_tests_cant": "A cache stands before the search; any change that could affect the result of any search must invalidate the right entries in every history.", "anchors": ["src/structures.c: lookup, lookup_or_add, lookup_recursively, search_imports, enter_cache, lookup_cache, cache_invalidate_symbol, cache_invalidate_struct, cache_flush, structure_sweep, Fopen_structures, Fname_structure, Fmake_structure"]}
{"id": "C50", "title": "Structures export exactly their interface", "statement": "A symbol is exported by a structure exactly if it is in the interface last given for it or was exported since; a reference from outside never yields a binding the structure does not export.", "quantifier": "all histories of definitions, changes of interfaces and references, all structures", "why_tests_cant": "The interface is stored in two places (flags of bindings, and a list of names not yet bound) that must be kept in step by every operation.", "anchors": ["src/structures.c: Fmake_structure, Fset_interface, Fexport_binding, Fstructure_exports_p, lookup_or_add, rep_structure_exports_all", "lisp/rep/structures.jl: parse-interface, make-interface"]}
{"id": "C51", "title": "Immutable bindings keep their value", "statement": "After make-binding-immutable the variable keeps its value for ever, and any attempt to set or define it signals an error.", "quantifier": "all histories after the call", "why_tests_cant": "Every way to reach the binding must respect the flag, in every order of operations.", "anchors": ["src/structures.c: Fmake_binding_immutable, Fstructure_define, Fstructure_set, remove_binding, rep_add_subr"]}
{"id": "C52", "title": "Regular expressions find the leftmost preferred match", "statement": "(string-match RE STR START) succeeds exactly if the expression RE, read by the grammar in the manual, matches some part of STR at or after START; match-start and match-end then give the first place at which it matches and, of the matches there, the one preferred by the rules (earlier alternatives first, greedy operators as long, lazy ones as short as possible), with the group positions of that match. string-looking-at does the same at START only. A malformed expression gives an error.", "quantifier": "all patterns, all strings, all starts, both settings of case folding", "why_tests_cant": "Patterns and strings are unbounded; the compiled program uses search shortcuts (first character, required substring, anchors) and a recursive backtracking matcher that must agree with the meaning of the pattern in every combination of operators.", "anchors": ["src/regexp.c: rep_regcomp, reg, regbranch, regpiece, regatom, regtail, regoptail, rep_regexec2, regtry, regmatch, regrepeat, rep_regmatch_string", "src/find.c: Fstring_match, Fstring_looking_at, Fmatch_start, Fmatch_end", "man/lang.texi: Regular Expressions"]}
{"id": "C53", "title": "Quoted text matches only itself", "statement": "(quote-regexp S) is a pattern that matches exactly at the places where the text S occurs.", "quantifier": "all strings S, all texts, all places", "why_tests_cant": "Every character and every neighbour of it must be escaped so that the parser reads it as itself.", "anchors": ["src/find.c: Fquote_regexp", "src/regexp.c: rep_regcomp, regatom"]}
{"id": "C54", "title": "Replacing and splitting", "statement": "(expand-last-match T) is T with its escape sequences replaced by the text of the groups of the last match, as the manual describes; (string-replace RE T STR) returns STR with every match of RE replaced by that expansion, (string-split RE STR) the parts between the matches.", "quantifier": "all patterns, templates and strings", "why_tests_cant": "The number of matches is unbounded, and termination of the loop depends on the pattern.", "anchors": ["src/regsub.c: rep_default_regsub, rep_default_regsublen", "src/find.c: Fexpand_last_match", "lisp/rep/regexp.jl: string-replace, string-split"]}
{"id": "C55", "title": "Matching uses the present text of the pattern", "statement": "The result of string-match and string-looking-at depends only on the present contents of their arguments, whatever patterns were used before and however the strings were changed since.", "quantifier": "all histories of matches, changes of strings and garbage collections", "why_tests_cant": "Compiled patterns are cached by string; every way of changing a string, in every order, must invalidate the right entries.", "anchors": ["src/find.c: rep_compile_regexp, rep_string_modified, mark_cached_regexps", "src/lispcmds.c: Faset", "src/misc.c: Ftranslate_string", "src/streams.c: rep_stream_putc, rep_stream_puts"]}
{"id": "C56", "title": "Parameters are bound as the manual says, interpreted, compiled or inlined", "statement": "A call of a function binds its required, optional, keyword and rest parameters to the arguments as the manual describes, evaluating the defaults of those not given from left to right, or signals missing-arg; and it is the same whether the function is interpreted, compiled, or a lambda expression compiled inline.", "quantifier": "all lambda lists, all arguments, all default forms with any effects or failures", "why_tests_cant": "Three separate implementations (interpreter, byte-code prologue, inliner) must agree on an unbounded family of lambda lists and argument lists.", "anchors": ["src/lisp.c: bind_lambda_list_1", "lisp/rep/vm/compiler/basic.jl: compile-lambda-spec", "src/lispmach.h: OP_REQUIRED_ARG, OP_OPTIONAL_ARG, OP_REST_ARG, OP_KEYWORD_ARG, OP_OPTIONAL_ARG_, OP_KEYWORD_ARG_", "lisp/rep/vm/compiler/inline.jl: push-inline-args, pop-inline-args, compile-lambda-inline", "man/lang.texi: Lambda Expressions"]}
{"id": "C57", "title": "Backquote builds what the template describes", "statement": "Evaluating a backquoted template gives the template with every unquoted form replaced by its value and every spliced form by the elements of its value, the forms being evaluated once each from left to right; it fails only if a form fails or a value spliced before the end of a list is not a list. Vectors work like lists, the innermost of nested backquotes is expanded first, and the expansion always ends.", "quantifier": "all templates (of any depth, nested, with dotted tails), all evaluators for which quote and the list functions have their usual meaning, all effects and failures of the unquoted forms", "why_tests_cant": "Templates are arbitrary trees, and the macro chooses among quote, list, cons, list* and append by the shape of every sublist.", "anchors": ["lisp/rep/lang/backquote.jl: backquote, backquote-process, backquote-listify, backquote-eval", "src/lispcmds.c: append, list*"]}
{"id": "C58", "title": "The machine reads back what was assembled", "statement": "(assemble INSNS) returns byte code from which the virtual machine fetches exactly the instructions of INSNS in order: each with its argument, pushes with the given constant, jumps to the place of their label; or it signals an error if a label is undefined or defined twice or an argument cannot be represented.", "quantifier": "all lists of instructions and labels, of any length", "why_tests_cant": "Instructions have four lengths, forward jumps are patched later, and constants are shared; every combination of these must decode to the input.", "anchors": ["lisp/rep/vm/assembler.jl: assemble", "lisp/rep/vm/bytecode-defs.jl", "lisp/rep/vm/bytecodes.jl: byte-two-byte-insns, byte-three-byte-insns", "src/lispmach.h: FETCH, FETCH2, BEGIN_INSN_WITH_ARG, OP_PUSHI, OP_PUSHIWN, OP_PUSHIWP"]}
{"id": "C59", "title": "Compiled code does what the interpreter does", "statement": "Loading the compiled form of a file has the same effect as loading the file itself: if evaluating the form ends with a value, running the byte code ends with the same value; if it ends with an error, the byte code ends with the same error; and the global variables are the same afterwards. The byte code never reads an element of the stack, a slot, a binding or a table that is not there.", "quantifier": "all files of function definitions followed by a form, made of constants, variables, setq, progn, cond, while, lambda, calls, let, let*, letrec and named let, nested to any depth; all subrs that do not look into closures; all results and errors", "why_tests_cant": "Whether a variable is in a slot or in the heap, and whether a call is a jump, depends on the whole function around it; an error in one combination of loops, closures, frames of bindings and jumps is only seen by a program that has that combination.", "anchors": ["lisp/rep/vm/compiler/basic.jl: compile-form-1, compile-lambda, find-lambda, call-with-lambda-record", "lisp/rep/vm/compiler/bindings.jl: allocate-bindings, identify-captured-bindings, heap-binding-p, emit-varref, emit-varset, emit-binding", "lisp/rep/vm/compiler/inline.jl: compile-lambda-inline, compile-tail-call", "lisp/rep/vm/compiler/rep.jl: compile-cond, compile-while, compile-let*, compile-letrec, compile-setq", "src/lispmach.h: vm", "src/lisp.c: eval, apply, bind_lambda_list", "lisp/rep/lang/interpreter.jl: let, let*, letrec, while"]}
{"id": "C60", "title": "Expanded file names lead to the same place", "statement": "(expand-file-name NAME DIR) returns a name that leads to where NAME leads from DIR, in which nothing is left to simplify (no empty or \".\" components, \"..\" only at the start of a relative name), with the same file part; expanding it again changes nothing. file-name-directory and file-name-nondirectory split a name at its last slash, file-name-as-directory and directory-file-name keep the place and undo each other.", "quantifier": "all file names and base directories of any length, with any number of slashes, dots and \"..\" in any order", "why_tests_cant": "Names are arbitrary strings; the simplifier works backwards over what it has already written, and a mistake shows only for certain sequences of components.", "anchors": ["src/unix_files.c: rep_expand_file_name, rep_file_name_nondirectory, rep_file_name_directory, rep_file_name_as_directory, rep_directory_file_name", "src/files.c: Fexpand_file_name", "lisp/rep/io/file-handlers/tilde.jl: tilde-file-handler", "man/lang.texi: File Names"]}
{"id": "C61", "title": "The function of a process is called for every change of its state", "statement": "FUN of a process object is called after every change of the state of its process (stopped, continued, ended): when the event loop has gone through all that has happened, no change is left untold, every child that has ended is known to have ended and process-exit-status gives its status; FUN sees the state the process is in and is not called more often than the state changes. process-exit-value is the value the program exited with, or nil if it exited abnormally.", "quantifier": "all sequences of starting, stopping, continuing, ending, waiting for, calling and collecting any number of processes, in any interleaving with the kernel's reports", "why_tests_cant": "Reports arrive at any time and in any order, several objects wait at once, and the collector may run between any two steps.", "anchors": ["src/unix_processes.c: queue_notify, proc_notification, notify_1, check_for_zombies, proc_periodically, run_process, proc_sweep, Fcontinue_process, Fprocess_exit_value, Faccept_process_output_1", "man/interface.texi: Processes"]}
{"id": "C62", "title": "The output of a process arrives in order, before its end is told", "statement": "What a child writes to one of its output streams arrives at the stream of its process object in the same order, nothing twice and nothing else; and everything it has written has arrived before FUN is told that it has ended, unless close-process was called.", "quantifier": "all sequences of writing, reading, ending and waiting for any number of processes, synchronous and asynchronous", "why_tests_cant": "Reading happens at four places (event loop, when the end is noticed, call-process for each stream), each at any time relative to the end of the child.", "anchors": ["src/unix_processes.c: read_from_one_fd, read_from_process, check_for_zombies, run_process, close_proc_files"]}
{"id": "C63", "title": "A structure with a restricted special environment protects the special variables of other code", "statement": "Code that runs in a structure whose special environment is restricted (`set-special-environment`, as the gaol uses for code that is not trusted) can neither learn nor change the value of a special variable that unrestricted code has declared with `defvar` and that is not in its environment, nor can it make itself able to: every attempt signals an error, and unrestricted code that it calls or that runs afterwards sees the value unrestricted code has given, also when the restricted code has declared the variable before unrestricted code did. It does not change property lists of such symbols, nor ordinary variables of other structures.", "quantifier": "all programs of reading, testing, assigning, declaring, binding, unbinding and property functions running in any structures and calling functions of others, all environments, all histories", "why_tests_cant": "The protection depends on three flags of the symbol, on the environment of each structure and on the order of the declarations; a test tries one order of one attack.", "anchors": ["src/symbols.c: search_special_environment, rep_bind_symbol, Fdefvar, Fsymbol_value, Fdefault_value, Fdefault_boundp, do_set, Fset_default, Fput, Fsetplist, Fmake_variable_special", "src/structures.c: F_structure_ref, Fstructure_set, Fstructure_define, rep_get_initial_special_value", "lisp/rep/util/gaol.jl", "lisp/rep/vm/compiler/rep.jl: trans-defvar", "lisp/rep/system.jl: add-hook"]}
{"id": "C64", "title": "md5-string and md5-local-file give the MD5 digest", "statement": "For every string, `md5-string` returns the number that its MD5 message digest (RFC 1321) stands for; `md5-local-file` returns the same number for the contents of the file, however the reading is divided into parts, and signals an error if the file cannot be read.", "quantifier": "all strings and file contents of any length, all divisions into parts by fread, all read errors", "why_tests_cant": "The code treats lengths around multiples of 64 and 4096 and counters of 32 bits in different branches; test vectors reach few of them, and no test has a string of gigabytes.", "anchors": ["src/md5.c: md5_process_block, md5_process_bytes, md5_finish_ctx, md5_read_ctx, md5_buffer, md5_stream", "src/rep-md5.c: digest_to_repv, Fmd5_string, Fmd5_local_file"]}
{"id": "C65", "title": "A string output stream collects exactly what is written to it", "statement": "After any sequence of writing characters, strings and parts of strings to a stream made by `make-string-output-stream`, and of calls of `get-output-stream-string`, every string returned holds the characters written since the call before, in order, and every `write` returns their number or refuses a length which the string has not. Strings returned earlier, and other strings, are not changed by later writing.", "quantifier": "all sequences of operations, characters and strings (with any bytes), all lengths", "why_tests_cant": "The stream reuses and enlarges its buffer depending on the sizes written so far, and gives the buffer itself away when it is exactly full; a test tries a few sizes.", "anchors": ["src/streams.c: rep_stream_putc, rep_stream_puts, Fwrite, Fmake_string_output_stream, Fget_output_stream_string", "src/values.c: rep_make_string, rep_string_dupn"]}
{"id": "C66", "title": "Reading from a stream gives its characters in order, once each", "statement": "For string streams and files, any sequence of `read-char`, `peek-char`, `read-chars` and `read-line` gives the characters of the stream from the start on, each once, in order: `peek-char` consumes nothing, `read-line` returns everything up to and with the next newline (or the end), of whatever length, and nil only at the end. `copy-stream` appends all that is left to the output stream and returns its length.", "quantifier": "all contents (any bytes), all starting positions, all sequences of operations, all lengths of lines", "why_tests_cant": "Lines are read in buffers doubled from 500 bytes, copies are made in blocks; the cases at the boundaries depend on the contents.", "anchors": ["src/streams.c: rep_stream_getc, rep_stream_ungetc, Fpeek_char, Fread_chars, Fread_line, Fcopy_stream, Fmake_string_input_stream"]}
{"id": "C67", "title": "format replaces each directive by its argument in its field", "statement": "`(format nil FORMAT ARGS...)` returns the text of FORMAT with every directive `%[N$][flags][width][.precision]conversion` replaced: the argument is the one with that number, or the one after the last used, or nil if there are too few; its text is as `princ`, `prin1` or the number in the radix would print it, with the sign asked for, padded to the width on the side and with the character asked for, or cut to it; `%%` is a percent sign, conversions in `format-hooks-alist` call their function, and others are an error. No format, however malformed, makes it read outside the string.", "quantifier": "all formats, all arguments, all hooks", "why_tests_cant": "Flags, widths, positions and text combine freely; a test tries a few formats, and reading past the end of a format is not visible in the result.", "anchors": ["src/streams.c: Fformat, rep_stream_puts, rep_stream_putc"]}
{"id": "C68", "title": "floor, ceiling, truncate and round give the right integer", "statement": "`(floor X)` is the greatest integer not greater than X, `(ceiling X)` the least not less than X, `(truncate X)` the nearest towards zero, `(round X)` the nearest integer, the even one if there are two; the result is exact if X is, and infinite numbers are not changed.", "quantifier": "all numbers: fixnums, bignums, rationals of any size, all doubles", "why_tests_cant": "Rounding goes wrong only for single numbers next to boundaries (a half, powers of two), among 2^64 doubles and infinitely many rationals.", "anchors": ["src/numbers.c: Ffloor, Fceiling, Ftruncate, Fround, rep_get_float, rep_make_long_int"]}
{"id": "C69", "title": "Exact and inexact numbers are ordered by value", "statement": "`(< X Y)`, `(= X Y)` and `(> X Y)` tell the order of the values also if X or Y or both are inexact: exactly one of them holds (unless one is not a number), and `=` only if the values are the same.", "quantifier": "all pairs of numbers of which at least one is a double, infinite ones included", "why_tests_cant": "The numbers for which the conversion loses the difference lie next to doubles; a test takes small numbers, for which it loses nothing.", "anchors": ["src/numbers.c: rep_compare_numbers, promote, promote_to, number_cmp"]}
{"id": "C70", "title": "Exact and inexact numbers are converted into each other, and taken apart", "statement": "`exact->inexact` gives the double nearest to the number, keeping order; `inexact->exact` the exact number of the same value; going to a double and back keeps every integer that a double holds. `numerator` and `denominator` give the numerator and denominator of the value in lowest terms, as exact as the number.", "quantifier": "all fixnums, bignums, rationals and doubles", "why_tests_cant": "The conversions round in three different ways and loop until a fraction is below a threshold; the exceptions are single numbers.", "anchors": ["src/numbers.c: Fexact_to_inexact, Finexact_to_exact, rationalize, Fnumerator, Fdenominator, rep_get_float, rep_make_float"]}
{"id": "C71", "title": "XML items are read back as they were printed", "statement": "`read-xml-item` reads what `print-xml-item` has written as the same item: strings with any characters, elements with their parameters in order and their contents nested to any depth, processing instructions, declarations; it stops right behind the item. On any text whatever, reading an item ends, and consumes something unless the text is at its end.", "quantifier": "all items of any depth and size, all texts that follow, all inputs of the reader", "why_tests_cant": "Nesting, quoting and the characters that end a token combine without bound; malformed input is unlimited.", "anchors": ["lisp/rep/xml/reader.jl: read-item, read-item-1, read-token, read-params, read-tag, read-exclam, substitute-params", "lisp/rep/xml/printer.jl: print-item, print-params, substitute-params"]}
{"id": "C72", "title": "Remote calls are carried out and answered once, with the right values", "statement": "For every call of a remote servant, over any number of connections between processes: the servant is called at most once, with the arguments of the call, and the callback is called at most once, with success and the value the servant returned or with failure and what it raised, never with anything else; when all text has arrived and has been handled and no servant is running, every call has been answered. This holds in whatever pieces the text arrives, while servants call back, and if other connections are lost; a call on a connection that is lost fails.", "quantifier": "all sequences of calls, arrivals of any number of characters, rounds of the output handlers, returns of servants in any order, creations and removals of servants and losses of connections; all arguments and values that can be printed and read", "why_tests_cant": "The interleavings of processes, the split of messages into pieces and the loss of connections cannot be enumerated; a test on one machine sees whole messages in one order.", "anchors": ["lisp/rep/net/rpc.jl: rpc-output-handler, dispatch-pending-call, record-pending-call, make-call-id, invoke-method, invoke-oneway-method, deregister-rpc-server", "src/lisp.c: read_list, readl", "src/streams.c: Fread"]}
{"id": "C73", "title": "Symbols with the same name in an obarray are the same symbol", "statement": "`intern` of two names in an obarray gives the same symbol exactly if the names are equal, whatever is interned, made, uninterned or looked for in between, as long as that symbol is not uninterned; `find-symbol` gives the symbol of the obarray with that name, and `nil` if there is none; `unintern` takes out that symbol and no other; `intern-symbol` refuses a symbol that is in an obarray; `make-keyword` gives one keyword per name; `gensym` never gives the same name twice.", "quantifier": "all histories of operations on any number of obarrays of any sizes, all names", "why_tests_cant": "Which names share a chain and in which order they were put there depends on the whole history; a test meets no collision.", "anchors": ["src/symbols.c: hash, Ffind_symbol, Fintern_symbol, Fintern, Funintern, Fmake_symbol, Fgensym, Fmake_keyword, Fkeywordp"]}
{"id": "C74", "title": "macroexpand expands the form it is given", "statement": "`macroexpand FORM` returns what FORM expands to by the present definitions of macros: it is expanded while it is a macro call. That expansions are remembered is not noticed: another object at the same address is never taken for one that was expanded before, and nothing that was freed is returned.", "quantifier": "all sequences of definitions, expansions (nested to any depth, by arbitrary expanders), allocations, changes of forms and collections at any point", "why_tests_cant": "Whether an address is used again depends on the collector; whether an expansion is still remembered depends on when it ran last.", "anchors": ["src/macros.c: Fmacroexpand, Fmacroexpand_1, rep_macros_before_gc, rep_macros_clear_history", "src/values.c: Fgarbage_collect", "src/lisp.c: eval"]}
{"id": "C75", "title": "call-hook calls each function of the hook once, in order", "statement": "`call-hook` calls the functions that are in the hook, in the order of the hook, each once, and returns what the last one returned; with `and` it stops after the first nil, with `or` after the first non-nil, and after an error. This holds also while the functions add functions to the hook (at the end: these are called too, last), remove functions, themselves included, or call the hook again: a function that stays in the hook is called exactly once, and one that has been removed is not called.", "quantifier": "all sequences of additions, removals and nested calls of the hook, made by any function at any time; hooks of any length", "why_tests_cant": "The list is changed in place while it is walked; which cells are still linked depends on the order of changes and calls.", "anchors": ["src/lispcmds.c: Fcall_hook, Fdelete, Fdelete_if, Fnconc_", "lisp/rep/system.jl: add-hook, remove-hook, remove-hook-by-name"]}
{"id": "C76", "title": "let, let*, letrec, if, case, when, unless, or, and, do, while, prog1 and prog2 mean what is documented", "statement": "A program written with these forms, nested in any way, does what their documentation says: the parts are evaluated in the documented order, once, in the documented scope, only those that are to be evaluated, with the documented value; errors in a part end the whole. The variables used by their expansions are never confused with those of the program, and the rebinding of variables by a program does not change the meaning of the forms.", "quantifier": "all programs made of constants, variables, functions, calls, assignments, cond, progn and these forms, of any depth; all functions with arbitrary effects; all initial values of global variables; all runs however long", "why_tests_cant": "The forms are macros whose expansions contain each other and the program's own forms; how scopes and evaluation orders combine depends on the nesting, which is unbounded.", "anchors": ["lisp/rep/lang/interpreter.jl: let, let*, letrec, if, case, when, unless, or, and, do, while, prog1, prog2", "src/lisp.c: eval, rep_apply, Fprogn, Fcond, eval_list, apply_lambda", "src/symbols.c: Fsetq, Fgensym"]}
{"id": "C77", "title": "Each input is handed to the function registered for it, once", "statement": "A loop that waits for input handles exactly the descriptors that were asked for and are marked as pending, or else those on which the system reports input: each has one turn, in order, in which the function registered for it at that moment is called (none if it was deregistered in between); unless there is an interrupt, none is left out; a mark is not lost. A function is called only for input (or a mark) that came since it was registered. Other descriptors get their turn too.", "quantifier": "all sequences of registrations, deregistrations, marks, arrivals of input, interrupts and loops, nested or concurrent, entered and left by any function at any time", "why_tests_cant": "Which descriptors are marked, reported or reused when a function is called depends on what all functions and loops did before.", "anchors": ["src/unix_main.c: rep_register_input_fd, rep_deregister_input_fd, rep_mark_input_pending, wait_for_input, handle_input, rep_event_loop, rep_accept_input_for_callbacks, rep_accept_input_for_fds"]}
{"id": "C78", "title": "lexical-origin tells where a form was read", "statement": "For a list that was read from a file while origins were recorded, `lexical-origin` returns the name of the file and the number of the line its opening parenthesis is in; for a closure that of its function; for another form the origin of the first form in it that has one. An object that takes the address of a collected one never gets its origin. The line number of a file, as in the reader's error messages, is that of the present position.", "quantifier": "all sequences of reading (by the reader, with any nesting of lists, or otherwise), seeking, allocation, changes of forms and collections, with origin-after-gc run at any time later", "why_tests_cant": "Whether an address is used again while its old entry is still there depends on the collector and on when the hook runs; the line number on everything read before.", "anchors": ["src/origin.c: rep_record_origin, Flexical_origin, Forigin_after_gc, rep_mark_origins", "src/lisp.c: read_list, fast_getc", "src/streams.c: rep_stream_getc, rep_stream_ungetc, Fread_chars, Fread_line", "src/files.c: Fopen_file, Fseek_file", "src/values.c: run_guardians"]}
{"id": "C79", "title": "Internal definitions are local and may refer to each other", "statement": "Definitions at the start of a body (of `with-internal-definitions`, a definition, a function or a `let` form, at any depth) bind their names in that body and only there, as `letrec` does: each may refer to all of them; `(define (NAME PARAMETERS...) BODY...)` defines a function, and a list in place of NAME a function returning functions; documentation strings do not matter. Everything else in the body keeps its value and effects.", "quantifier": "all programs made of constants, variables, functions, calls, assignments, conditionals and binding forms, with bodies that begin with any definitions, nested in any way; all functions and global variables they use", "why_tests_cant": "The scanner rewrites the whole text of a body, expanding macros in it, before anything is evaluated; whether a form deep inside keeps its meaning depends on all that surrounds it.", "anchors": ["lisp/rep/lang/define.jl: define-parse, define-scan-internals, define-scan-body, define-scan-form, with-internal-definitions"]}
{"id": "C80", "title": "Libraries that need each other are loaded, each once", "statement": "A program that requires or opens modules, which open and require each other in any way, circles included, comes to an end whatever errors the modules contain. The file of a module is loaded again only after an earlier attempt to make it failed; a module left behind is complete; when the body of a module begins, everything it opens is complete, or was already being made when the module was begun (they open each other).", "quantifier": "all libraries of files, all programs and all errors in them", "why_tests_cant": "Whether a circle of modules is loaded in an order that works, or without end, depends on the graph of the whole library, and on where in it an error happens.", "anchors": ["src/structures.c: Frequire, Fprovide, Ffeaturep, Fopen_structures, Fintern_structure, Fmake_structure, Fname_structure, Fget_structure", "src/lispcmds.c: Fload, Fload_file", "src/unix_files.c: rep_structure_file"]}
{"id": "C81", "title": "Functions registered with call-after-load are called once, when the library is loaded", "statement": "A function registered with `call-after-load` is called at most once, by a `load` of its library that has read the file and has not returned. When a `load` of a library returns, every function registered for it has been called (or a `load` of the same library in which this one is nested is going to call it). LIBRARY is the FILE argument of `load`.", "quantifier": "all programs and libraries, all functions, which may load libraries (also the same one), register further functions and fail", "why_tests_cant": "Functions that load the library again, or register others, change the list that is being worked on; whether one is lost or called twice depends on the nesting of all loads.", "anchors": ["src/lispcmds.c: Fload", "lisp/rep/io/files.jl: call-after-load"]}
{"id": "C82", "title": "load finds the right file", "statement": "`load` loads the file from the first directory of `load-path` that has one: the compiled file, unless the source is newer or there is no compiled file (in interpreted mode, the source only); with NO-SUFFIX the name itself; with NO-PATH from the working directory. Only if there is none it looks for shared libraries in `dl-load-path`. Directories are not taken for files. If nothing is found that is an error, unless NO-ERROR.", "quantifier": "all paths, file systems, modification times, suffixes and arguments", "why_tests_cant": "The combinations of files that may exist in all directories of a path, and their ages, cannot be enumerated.", "anchors": ["src/lispcmds.c: Fload, load_file_exists_p", "src/unix_files.c: rep_file_newer_than"]}
{"id": "C83", "title": "Strings and vectors are arrays", "statement": "`aref` returns what `aset` last stored at that index, or the initial item; `aset` changes that item and nothing else, in no other object; an index out of range, a constant and a wrong type are errors and change nothing. `length` is the number of items. `make-vector`, `vector` and `make-string` return a new array with these items; `substring` the bytes from START to END in a new string, `concat` the bytes of all arguments, `copy-sequence` a new sequence with the same elements, which shares no storage with the first. No call accesses memory outside of an array.", "quantifier": "all sequences of calls with all arguments (integers of any size, lists that may be circular), on all heaps", "why_tests_cant": "Arrays share elements and may be changed through any reference to them, so that what a call changes concerns the whole heap; the lengths that fail are larger than a test would try.", "anchors": ["src/lispcmds.c: Faref, Faset, Flength, Fmake_vector, Fvector, Fmake_string, Fsubstring, Fconcat, Fcopy_sequence", "src/values.c: rep_make_vector, rep_make_string, rep_string_dupn, rep_null_string", "src/rep_lisp.h: rep_SET_VECT_LEN, rep_VECT_SIZE"]}
{"id": "C84", "title": "Strings are compared, completed and translated character by character", "statement": "`string-head-eq` tells whether the second string is at the start of the first. `string-equal` and `string-lessp` compare the strings in upper case: `string-lessp` is a strict order, and of two strings exactly one is less unless they are `string-equal`. `complete-string` returns nil if no string in LIST begins with TEMPLATE, otherwise the longest text that all those that do begin with have in common (up to case with FOLD-CASE, written as in the first of them). `translate-string` replaces every character as TABLE says, and changes no other string.", "quantifier": "all strings, lists of strings, tables and case mappings of the C library", "why_tests_cant": "An order must be transitive over all triples of strings, and a completion the longest over all common beginnings.", "anchors": ["src/lispcmds.c: Fstring_head_eq, Fstring_equal, Fstring_lessp", "src/misc.c: Fcomplete_string, Ftranslate_string"]}
{"id": "C85", "title": "File operations go to the handler of the file", "statement": "Every operation on a file name goes to the first handler in `file-handler-alist` whose pattern matches the name and which is not at work on the same operation already; without one, to the local file system. A handler may thus call the operation it implements, to reach the next handler. It is not entered again for that operation until it returns, by an error too; afterwards nothing is blocked that was not before. An operation comes to an end if the handlers' own code does.", "quantifier": "all lists of handlers and patterns, all functions of handlers (which may call any operation, on any files, and fail), all programs", "why_tests_cant": "Handlers call operations, which call handlers, to any depth; whether a handler is entered twice, or stays blocked after an error, depends on the whole nesting.", "anchors": ["src/files.c: rep_get_file_handler, rep_call_file_handler, rep_expand_and_get_handler, rep_localise_and_get_handler, Fexpand_file_name, Flocal_file_name, Fdelete_file, Frename_file, Fcopy_file, Fclose_file, Fflush_file, Fseek_file", "src/repint.h: enum file_ops, rep_blocked_ops"]}
{"id": "C86", "title": "copy-file copies the file", "statement": "When `copy-file` returns, the destination has the contents and modes the source had; the source and all other files are unchanged. If a system call fails, an error is signalled. It ends, however short the reads are.", "quantifier": "all files, names, and all results the system calls may have, at every point", "why_tests_cant": "The sequences of short reads, short writes and errors cannot be produced by a test, nor enumerated.", "anchors": ["src/unix_files.c: rep_copy_file"]}
{"id": "C87", "title": "Symbols have properties", "statement": "`get` returns the value that `put` last stored under that property of that symbol, else nil; `put` changes this value and no other property of any symbol. Properties are compared by identity if they are symbols, else by `equal`. `setplist` replaces all properties of the symbol and no other's. `symbol-plist` returns the list of properties and values.", "quantifier": "all histories of calls, all symbols, properties and values, lists of any length, cells that may be read-only", "why_tests_cant": "The lists are shared Lisp data that is changed in place: whether another symbol is affected depends on the whole heap.", "anchors": ["src/symbols.c: Fget, Fput, Fsetplist, Fsymbol_plist"]}
{"id": "C88", "title": "Messages to objects", "statement": "A message to an `object` is handled by the first method of that name in the object, its base object, the base of that, and so on. In the method `self` is the object to which the message was sent, also in methods of base objects; the parameters are the arguments (nil if missing), a rest parameter the list of the others. Without such a method the error `unknown-method` is signalled with the name of the message. The same holds for interpreted and compiled code.", "quantifier": "all objects, chains of bases of any length, methods and arguments", "why_tests_cant": "Chains of objects of any length pass on the message and the arguments with keyword arguments among them.", "anchors": ["lisp/rep/data/objects.jl: object, object-lambda, make-let-bindings"]}
{"id": "C89", "title": "Records have their own fields", "statement": "A constructor returns a new record in which the fields given have the values of the arguments, and the others are nil. An accessor returns the value last stored in that field of that record; a modifier changes it and nothing else. Applied to anything but a record of their type, or for a field the type does not have, they signal an error and change nothing. A predicate tells whether a value is a record of the type.", "quantifier": "all record types, all histories of calls, all values, all lambda lists of constructors", "why_tests_cant": "Records share types, fields share names between types, and values may be records themselves; which history of modifications precedes a call is open.", "anchors": ["lisp/rep/data/records.jl: make-record-type, record-constructor, record-accessor, record-modifier, record-predicate, field-index, make-record-constructor, define-record-type", "src/datums.c: Fmake_datum, Fdatum_ref, Fhas_type_p"]}
{"id": "C90", "title": "The sizes of the stacks that compiled code declares are enough", "statement": "Wherever the execution of a compiled file gets, every activation of a compiled function, the running one and those that wait, has at most as many values, frames and slots as the machine allocated for it from the sizes in the compiled function. No instruction takes a value or a frame that is not there, and execution does not run past the end of the code.", "quantifier": "all files of the modelled language, all primitives, all reachable states of the machine", "why_tests_cant": "The maxima are computed along the text of a program, in a compiler that inlines functions, compiles loops twice and jumps to the starts of functions; whether they bound every execution is a statement about all programs and all paths.", "anchors": ["lisp/rep/vm/compiler/utils.jl: increment-stack, increment-b-stack", "lisp/rep/vm/compiler/basic.jl: get-assembly, compile-lambda-spec, assemble-assembly-to-form, assemble-assembly-to-subr, compile-form-1", "lisp/rep/vm/compiler/inline.jl: push-inline-args, compile-lambda-inline, compile-tail-call", "lisp/rep/vm/compiler/rep.jl: compile-cond, compile-while, compile-set, compile-let*, compile-letrec", "lisp/rep/vm/compiler/bindings.jl: allocate-bindings-1", "src/lispmach.h: vm, inline_apply_bytecode", "src/lispmach.c: Frun_byte_code"]}
{"id": "C91", "title": "Tail calls in compiled code keep arguments and stack apart and take bounded space", "statement": "However many tail calls a compiled function and those it calls make, through calls and through apply, each function gets exactly the arguments it was called with and has its own stack with the room it declared; no memory is used that was not allocated. The memory taken by a loop of tail calls is bounded by the sizes the functions declare, whatever the number of calls.", "quantifier": "all histories of pushes, pops, arguments taken and tail calls, all values, all sizes of functions", "why_tests_cant": "The stack and the array of arguments change places or are allocated anew depending on the whole history of sizes; a block that is too small or shared shows only in some orders of calls, and bounded space is a statement about loops of every length.", "anchors": ["src/lispmach.h: vm (OP_CALL, OP_APPLY, do_tail_recursion, again, OP_REQUIRED_ARG, OP_OPTIONAL_ARG, OP_REST_ARG)"]}
{"id": "C92", "title": "Canonical names of files", "statement": "canonical-file-name returns the absolute name of the place that the system comes to when it follows the name: no component of the result is a link, `.`, `..` or empty, and every directory on the way exists. If the name leads nowhere it is returned as it is, without slashes at the end. The canonical name of a canonical name is that name, in every directory. The function always returns.", "quantifier": "all file systems (trees of directories, files and links), all current directories, all names", "why_tests_cant": "Links may lead through each other, through directories and back, to absolute and relative names; the claim is about every file system, and that the function returns about every cycle of links.", "anchors": ["src/realpath.c: realpath", "src/unix_files.c: rep_canonical_file_name", "src/files.c: canonical-file-name"]}
{"id": "C93", "title": "Environment variables", "statement": "After any history of setenv and unsetenv, getenv returns for each name the value that was last set, nil if the variable was removed since, or the value it had before. Names are not taken for patterns. A subprocess gets exactly the variables that getenv sees, and at the start these are the variables of the process.", "quantifier": "all environments, all histories of setenv and unsetenv, all names (with any characters that are special in patterns) and values", "why_tests_cant": "A name is turned into a pattern and matched against each string; which characters are special, whether one name may be the beginning of another, and what a history leaves behind can only be tested for some names.", "anchors": ["lisp/rep/system/environ.jl: getenv, setenv, unsetenv", "src/unix_main.c: rep_sys_os_init", "src/unix_processes.c: child_build_environ", "src/find.c: quote-regexp, string-looking-at"]}
{"id": "C94", "title": "Calls of built-in functions give the same results in compiled code", "statement": "A form made of calls of built-in functions on numbers, lists and truth values, of apply and of calls of other functions gives the same value compiled as interpreted, after the same calls of other functions with the same arguments in the same order. If evaluation ends with an error or a throw, so does compiled code.", "quantifier": "all nested forms, all values of variables, all behaviours of the functions called, all contents of the stack below", "why_tests_cant": "The compiler folds constants, turns calls into instructions with their own special cases for small integers and literal indices, and splits calls with many arguments; the claim is about every nesting of them and every value.", "anchors": ["lisp/rep/vm/compiler/src.jl: fold-constants", "lisp/rep/vm/compiler/rep.jl: compile-binary-op, compile-transitive-relation, compile-nth, compile-nthcdr, compile-apply, compile-log, compile-1-args, compile-2-args, constant-functions", "lisp/rep/vm/compiler/basic.jl: compile-form-1", "src/lispmach.h: vm", "src/lispcmds.c: APPLY_COMPARISON, Fnth, Fnthcdr", "src/numbers.c: foldv, rep_number_max, rep_number_min"]}
{"id": "C95", "title": "case, conditionals and loops do in compiled code what they do interpreted", "statement": "A form made of case, cond, progn, setq, calls of built-in functions and loops (named let), nested in any way, has in compiled code the value that the interpreter gives it and leaves the variables the same; if the interpreter ends with an error so does compiled code. The call of a loop leaves on the stack what was there when the loop began.", "quantifier": "all forms, nested in any way, all numbers of iterations, all values, all built-in functions", "why_tests_cant": "Before a jump to the start of a loop the compiled code removes values from the stack; how many, the compiler knows from a counter that every handler must keep right. Whether it is right depends on which forms come between, at any depth.", "anchors": ["lisp/rep/vm/compiler/rep.jl: compile-case, compile-cond, compile-letrec, compile-set, compile-2-args", "lisp/rep/vm/compiler/inline.jl: push-inline-args, compile-lambda-inline, pop-between, compile-tail-call", "lisp/rep/vm/compiler/utils.jl: increment-stack, decrement-stack", "lisp/rep/vm/compiler/basic.jl: compile-body, compile-form-1", "src/lispmach.h: OP_POP, OP_POP_ALL, OP_SWAP, OP_MEMQL, OP_EQL"]}
{"id": "C96", "title": "Sign, parity, absolute value and least common multiple", "statement": "oddp and evenp tell the parity of every integer. positivep and negativep tell the sign and abs the absolute value of every exact number. The lcm of integers is the non-negative common multiple that divides every other common multiple.", "quantifier": "all integers of any size and all rationals", "why_tests_cant": "The functions are defined through comparison, multiplication and remainder, each with its own limits at the sizes of machine words; the claim is about numbers of every size.", "anchors": ["lisp/rep/lang/math.jl: positivep, negativep, oddp, evenp, abs, lcm", "src/numbers.c: Fmod, Fquotient, Fproduct, Fgcd, rep_number_max, rep_number_cmp"]}
{"id": "C97", "title": "Time stamps", "statement": "A time stamp stands for days * 86400 + seconds. current-time returns the stamp of the clock, with seconds less than a day; time->seconds and seconds->time are inverse to each other; time- is the difference in seconds; fix-time makes the halves consistent without changing the time, and doing so twice changes nothing more; time-later-p tells which of two stamps is the later time.", "quantifier": "all times (before and after the epoch), all stamps, consistent or not, all readings of the clock", "why_tests_cant": "The functions in Lisp divide with quotient and mod, those in C with unsigned words; whether they agree depends on signs and sizes of both halves.", "anchors": ["lisp/rep/util/time.jl: time->seconds, seconds->time, time-", "src/misc.c: Fcurrent_time, Ffix_time, Ftime_later_p", "src/rep_lisp.h: rep_MAKE_TIME, rep_GET_TIME, rep_TIMEP"]}
{"id": "C98", "title": "List functions of the Lisp library", "statement": "position returns for every list, also one that ends in an atom or comes round, the index of the first element equal to the item, and false if there is none. remove-if, remove-if-not, remove and remq return a list in new cells of exactly the elements that are to stay, in order, and do not change their argument. member-if returns the rest of the list from the first element that passes; some tells whether one passes; option-index gives the index of an option. vector->list and mapconcat keep elements and order.", "quantifier": "all lists (proper, dotted, circular), all predicates that do not modify lists, all vectors", "why_tests_cant": "That position returns for every circular list depends on two pointers meeting, for every length of the cycle and of the part before it; that the result of remove-if shares nothing with its argument is a statement about cells.", "anchors": ["lisp/rep/util/misc.jl: position, option-index, some", "lisp/rep/data.jl: member-if, remove-if, remove-if-not, remove, remq, vector->list", "lisp/rep/data/string-util.jl: mapconcat", "src/lispcmds.c: Fnreverse, Fcar, Fcdr"]}
{"id": "C99", "title": "Protocol of remote files", "statement": "A command on a file of another machine (get, put, remove, rename, copy, make a directory, change modes, make and read links, read a directory) has the result and the effect of the same command applied to the files there directly, however the replies are divided into pieces on the way, and the client does not take a command for finished before its reply has come whole. After it both ends are in step, so that a sequence of commands has the results of the sequence applied directly.", "quantifier": "all file systems, all sequences of commands, all names and contents, all divisions of the replies and all ways in which the writes of the client arrive together", "why_tests_cant": "Pieces can end anywhere: inside a length, a message, a record. Tests over a local pipe see one division only.", "anchors": ["src/rep-remote.c: main, read_char, read_long, read_string, send_long, send_string, send_errno, do_get, do_put, do_readlink, do_readdir", "lisp/rep/io/file-handlers/remote/rep.jl: remote-rep-output-filter, remote-rep-command, remote-rep-read-length, remote-rep-read-string, remote-rep-get, remote-rep-put, remote-rep-read-symlink, remote-rep-dircache-callback"]}
{"id": "C100", "title": "Sockets", "statement": "The stream of a socket gets the bytes that the other side sends on its connection, in order and none twice. When the other side closes the connection the sentinel is called, once, after all bytes. After close-socket nothing is called for the socket, and other sockets are not affected, whatever numbers the system gives to connections. Each connection that is asked for is accepted once.", "quantifier": "all histories of connecting, listening, accepting, closing, writing, arriving bytes and hang-ups, all functions used as streams, sentinels and servers, all numbers given by the system", "why_tests_cant": "Functions in Lisp run in the middle of the loop that reads; what they close, open or wait for, and which numbers are used again, depends on the history.", "anchors": ["src/sockets.c: client_socket_output, server_socket_output, shutdown_socket, shutdown_socket_and_call_sentinel, socket_for_fd, make_client_socket, make_server_socket, Fsocket_accept, Fclose_socket, blocking_write, socket_sweep", "src/unix_main.c: rep_register_input_fd, rep_deregister_input_fd"]}
{"id": "C101", "title": "Foreign function interface", "statement": "A value stored in a C variable with ffi-set! is what ffi-get reads, for every type made of the basic types, structures and conversion functions, if the type can hold the value; only the bytes of the variable change. A C program finds the value where C lays it out, a C function finds its arguments and its result is returned; the elements of a block made by ffi-new lie in the block and do not overlap. The number of a type means that type whatever types are made later.", "quantifier": "all types (structures of structures to any depth), all values, all memories and addresses, all C functions, all histories of making types", "why_tests_cant": "Sizes, alignments and padding of nested structures and the ranges of the integer types combine without bound; the layout of C is not visible from Lisp.", "anchors": ["src/ffi.c: rep_ffi_marshal, rep_ffi_demarshal, ffi_types_equal_p, ffi_alloc_type, Fffi_struct, Fffi_type, Fffi_interface, Fffi_apply, Fffi_new, Fffi_address_of, Fffi_set_, Fffi_get", "src/numbers.c: rep_get_long_int, rep_get_long_uint, rep_make_long_int, rep_make_long_uint, rep_get_float", "lisp/rep/ffi/util.jl: ffi-type-enum"]}
{"id": "C102", "title": "Loading of shared libraries", "statement": "A library is opened and initialised once, however often it is asked for, by the program, by a library that requires it or by an initialisation that loads it. The handle that was given stands for that library for the rest of the session, and no other library has it. A library that cannot be opened, or whose initialisation fails, leaves nothing behind and can be loaded later. Every load ends. When the program ends each loaded library that has a function for it is told, once.", "quantifier": "all sets of libraries, all ways in which they require each other and load each other while they are initialised, all sequences of loads", "why_tests_cant": "Loading is recursive: the table of libraries changes while an entry of it is being made, to any depth and in any order.", "anchors": ["src/unix_dl.c: find_dl, find_dl_by_feature, load_requires, rep_intern_dl_library, rep_kill_dl_libraries, rep_find_dl_symbol"]}
{"id": "C103", "title": "Functions in a thread of their own", "statement": "A function made by make-thread-proxy is carried out in its own thread: the calls of all threads are carried out one after the other, in the order in which they were made. A call returns in the thread that made it, once, with the value or the exception that the function has for it; a call by thread-proxy-async-call does not wait. Every call is answered. After thread-proxy-delete the function is not carried out again.", "quantifier": "all functions with a state of their own, all sequences of calls by any number of threads, all schedules", "why_tests_cant": "Which result goes to which thread depends on the interleaving of the sending of calls, the work and the fetching of results.", "anchors": ["lisp/rep/threads/proxy.jl: make-thread-proxy, thread-proxy-async-call, thread-proxy-delete", "lisp/rep/threads/message-port.jl: message-fetch, message-send", "src/continuations.c: make_thread", "src/lispcmds.c: Fcall_with_exception_handler, Fraise_exception"]}
{"id": "C104", "title": "Parameters of CGI requests", "statement": "cgi-get-params returns the names and values of a form, in order, however the form was written: characters as themselves, spaces as + or %20, any byte as % and two hexadecimal digits of either case, the pairs separated by &. An empty value is nil. Every query string is read to its end.", "quantifier": "all lists of names and values, all ways to encode them", "why_tests_cant": "The number of pairs, their lengths and the choice of encoding for each character are unbounded, and decoding interacts with splitting.", "anchors": ["lisp/rep/www/cgi-get.jl: cgi-get-params, unquote, hexdigit, unquote-plus-map", "src/misc.c: Ftranslate_string", "src/lispcmds.c: Fconcat"]}
{"id": "C105", "title": "Domain names", "statement": "domain-parts gives the labels of a name, and every name is its labels with dots between. domain-above-p is true exactly if the labels of the second name are some more labels and then those of the first, domain-below-p the other way round. map-domains calls the function with the domain and then with each domain above it, in order; map-domains-downwards with the same names in the reverse order.", "quantifier": "all domain names", "why_tests_cant": "Suffixes of lists of any length.", "anchors": ["lisp/rep/net/domain-name.jl: domain-parts, domain-above, compare-domains, domain-above-p, domain-below-p, map-domains, map-domains-downwards", "lisp/rep/regexp.jl: string-split"]}
{"id": "C106", "title": "Debug buffers", "statement": "When debug buffers are written out, each shows the last bytes of all that was printed into it, as many as its size, in the order they were printed. Printing never touches memory outside the buffer. A buffer that was freed is not shown and the others are unaffected.", "quantifier": "all sizes, all sequences of messages, all sets of buffers", "why_tests_cant": "The write position wraps around at any point of any message.", "anchors": ["src/debug-buffer.c: rep_db_alloc, rep_db_free, rep_db_vprintf, rep_db_spew, rep_db_spew_all, rep_db_kill"]}
{"id": "C107", "title": "Autoloaded functions and macros", "statement": "Calling a function that was declared with autoload loads its file, exactly once, and is then a call of the value that the file gave to the symbol. From then on every reference to the autoload is that function: it runs the same code without loading anything, whatever else happens. A macro declared with autoload-macro is expanded by the macro of its file. If the load fails the next call can try again.", "quantifier": "all files, all functions and whatever they define, call and autoload themselves, all histories of calls, expansions and changes of files", "why_tests_cant": "Files may call, redefine or autoload anything, the symbol being loaded included, and the stub changes its contents under all references to it.", "anchors": ["src/lisp.c: rep_load_autoload, apply, Fload_autoload", "src/macros.c: Fmacroexpand_1", "lisp/rep/lang/interpreter.jl: make-autoload, autoload, autoload-macro"]}
{"id": "C108", "title": "The profiler", "statement": "After any number of samples the profile gives for each function in how many of them it was running, and in how many it had been called and not returned, however deep and however often. print-profile has one line for each function that was found running; its divisor is never zero and the first counts add up to it. Taking a sample never damages memory.", "quantifier": "all stacks of calls at the times of the samples, all numbers of samples", "why_tests_cant": "Samples are taken at arbitrary moments; recursion and unnamed functions interact with the counting.", "anchors": ["src/record-profile.c: test_interrupt, Fstart_profiler, Ffetch_profile", "lisp/rep/lang/profiler.jl: print-profile"]}
{"id": "C109", "title": "max and min of any numbers", "statement": "max of any numbers, exact or not, in any order: if all of them are exact it is the greatest of them itself; otherwise it is inexact and as near to the greatest one as conversion allows: no inexact number lies between them. min likewise with the least. Arguments that are not numbers are refused with an error.", "quantifier": "all non-empty lists of numbers of all types, of any length", "why_tests_cant": "The result is folded over arguments of four types with conversions in between; the number of arguments is unbounded.", "anchors": ["src/numbers.c: rep_number_max, rep_number_min, Fmax, Fmin, foldv, rep_compare_numbers"]}
{"id": "C110", "title": "Files inside TAR archives", "statement": "However the listing of an archive is divided into pieces as it arrives, each member is found once, in order. Any sequence of questions about members of archives is answered from the present contents of the archive, although listings are cached, and at most five are kept. Symbolic links are followed to what they lead to. directory-files has each file and directory of a directory once. The name of a member is taken apart at the first #tar. The modes of a member are the ones whose text file-modes-as-string gives.", "quantifier": "all archives, all ways of dividing the listing, all sequences of questions with modifications in between, all modes", "why_tests_cant": "The pieces of output, the order of questions and the state of the cache are unbounded.", "anchors": ["lisp/rep/io/file-handlers/tar.jl: tarfh-output-function, tarfh-get-file, tarfh-lookup-file, tarfh-directory-files, tarfh-split-filename, tarfh-file-get-modes", "src/unix_files.c: rep_file_modes_as_string"]}
{"id": "C111", "title": "random", "statement": "(random LIMIT) with a positive integer LIMIT, however great, is an integer that is not negative and less than LIMIT; without LIMIT the greatest fixnum is taken. A LIMIT that is not positive is refused with an error. If random is made from the C library's generator, every number less than LIMIT is given by equally many pairs of its draws.", "quantifier": "all limits, all generators that keep to their contract, all sequences of draws", "why_tests_cant": "Limits are unbounded integers; that the distribution is even is a statement about all pairs of draws.", "anchors": ["src/numbers.c: Frandom, random_new, rep_compare_numbers"]}
{"id": "C112", "title": "sqrt", "statement": "(sqrt (* n n)) is exactly n for every integer n that is not negative. The root of an inexact number is the inexact number nearest to its root. Exact results are exact roots. The root of a negative number signals an arithmetic error.", "quantifier": "all integers, all inexact numbers, all negative numbers; for every implementation of the C library's sqrt that is correctly rounded", "why_tests_cant": "The squares of integers above 2^26 are rounded before the root is taken; that the two roundings always cancel is a statement about all of them.", "anchors": ["src/numbers.c: Fsqrt, rep_get_float, rep_make_float"]}
{"id": "C113", "title": "print-length and print-level", "statement": "An object that doesn't contain itself is printed as what the limits leave of it would be printed without limits: of each list at most print-length elements, at most print-level lists inside each other, with dots for what is left out; without limits it is printed completely. With both limits the printing of any object ends, even if it contains itself.", "quantifier": "all objects made of lists and vectors, also those that contain themselves, all values of both variables", "why_tests_cant": "Depth, length and shape of the objects are unbounded, and objects with cycles have no finite text without the limits.", "anchors": ["src/lisp.c: rep_lisp_prin", "src/values.c: rep_print_val", "man/lang.texi: print-length, print-level"]}
{"id": "C114", "title": "Text of inexact numbers", "statement": "An inexact number that is written with number->string or print and read again is the same number, and a number read from a decimal text of few digits is written as that text. The text always denotes a decimal number of 16 digits nearest to the number, and reading gives the inexact number nearest to the text.", "quantifier": "all finite inexact numbers, infinite numbers and nan", "why_tests_cant": "There are 2^64 of them; whether digits are lost depends on how decimal and binary numbers lie between each other.", "anchors": ["src/numbers.c: rep_print_number_to_string, rep_parse_number, Fstring_to_number, Fnumber_to_string, number_prin"]}
{"id": "C115", "title": "Listings of byte code", "statement": "The listing that disassemble makes of a compiled function has one line for each instruction which the virtual machine would fetch, in the same order, with the address, the name and the operand of the instruction; numbers that the instruction pushes are shown as that number.", "quantifier": "all code made of complete instructions that exist, of any length, and all vectors of constants", "why_tests_cant": "Code has any length and instructions have one to three bytes; one wrong length shifts every later line.", "anchors": ["lisp/rep/vm/disassembler.jl: disassemble-1, disassembler-opcodes", "src/lispmach.h: BEGIN_INSN_WITH_ARG, FETCH, FETCH2", "src/bytecodes.h"]}
{"id": "C116", "title": "Names of files on other machines", "statement": "A text names a remote file exactly if it has the form /USER@HOST:FILE or /HOST:FILE, and it is then taken apart into these parts and put together again unchanged. The operations on file names keep user and host: directory part and rest together are the name, the forms as directory and as file lead to the same place, and a relative name expanded in a remote directory is the simplest name of the place it leads to on that machine. Names that are not remote are treated as local ones, and the operations don't make remote names of them.", "quantifier": "all texts, users, hosts, files and directories", "why_tests_cant": "The names are arbitrary texts, and each operation has to be right for all combinations of user, host, empty parts, dots and slashes.", "anchors": ["lisp/rep/io/file-handlers/remote/utils.jl: remote-split-filename, remote-join-filename, remote-file-regexp", "lisp/rep/io/file-handlers/remote.jl: remote-file-handler", "src/files.c: Fexpand_file_name, Ffile_name_directory, Ffile_name_nondirectory, Ffile_name_as_directory, Fdirectory_file_name, Ffile_name_absolute_p"]}
{"id": "C117", "title": "Documentation collected from source files", "statement": "After the program repdoc has read a source file, the data base of documentation has under each name the text that the file has last between the marks ::doc:NAME:: and ::end::, without other lines and without the final line break, and for all other names what it had before; and the program ends.", "quantifier": "all source files, with any number of marks, lines and characters, and all previous contents of the data base", "why_tests_cant": "Files have any length; the program reads them through two buffers of fixed size, and what happens at their ends depends on where marks and line breaks lie.", "anchors": ["src/repdoc.c: scanfile"]}
{"id": "C118", "title": "Dates in the headers of messages", "statement": "`parse-date` reads a date as mail messages have it (perhaps a day of the week and a comma; then day, name of the month and year, or YYYY-MM-DD; then hours, minutes and perhaps seconds; then a zone by name or as hours and minutes to the east or west; perhaps a comment in parentheses) as this date, time and zone, and the instant it gives is the number of seconds from the beginning of 1970 to the instant that is written.", "quantifier": "all such texts, with any numbers, any of the names, and any number of blanks between the parts", "why_tests_cant": "The reader takes the text apart with five regular expressions tried in order, each of which could claim a part meant for another; tests try a few dates.", "anchors": ["lisp/rep/util/date.jl: parse-date"]}
{"id": "C119", "title": "Walking over the bindings of a structure", "statement": "However many symbols are defined in a structure or symbol table and made unbound again, each has the value it was last given. `structure-walk` and `symbol-table-walk` call the function once for each symbol that is bound, with the value it has at that moment, also if the function changes values, or defines or unbinds symbols; a throw or error ends the walk.", "quantifier": "all histories of definitions and removals of any number of symbols at any addresses, and all functions, whatever they do to the bindings", "why_tests_cant": "Order and growth of the table depend on addresses of symbols and on the number of bindings; a function that changes the table while it is walked hits a resize only at certain sizes.", "anchors": ["src/structures.c: lookup, lookup_or_add, remove_binding, Fstructure_define, Fstructure_walk", "lisp/rep/data/symbol-table.jl: symbol-table-set, symbol-table-walk"]}
{"id": "C120", "title": "The command line", "statement": "`get-command-line-option` finds the first argument that is the option, alone or followed by `=`, gives the parameter if one is required (behind `=`, or the next argument), signals an error if there is none, and takes out of `command-line-args` what it used and nothing else. So asking repeatedly gives all parameters in order. The stand-alone interpreter calls and loads what the command line says, in order, until an option ends it, and obeys `--batch`, `--interp`, `--no-rc` and `--debug` wherever they stand and however often.", "quantifier": "all command lines, with any number of arguments of any text, and all options", "why_tests_cant": "The arguments are looked through several times and shortened each time; which argument belongs to which option depends on all of them.", "anchors": ["src/main.c: rep_get_option, get_main_options", "src/misc.c: Fget_command_line_option", "lisp/rep/user.jl: parse-options"]}
{"id": "C121", "title": "Strings for translation", "statement": "`rep-xgettext` finds every string that a program passes to `_` in a place where it may be evaluated, lists each string once with exactly the files it was found in, and writes a template in which each message, read with the usual rules (quoted lines are joined, escapes), is the string.", "quantifier": "all programs made of calls and special forms nested to any depth, all strings, and all sequences of files and strings", "why_tests_cant": "Programs nest without bound and every special form has its own places for expressions; strings may contain quotes, backslashes and line breaks in any combination.", "anchors": ["lisp/rep/i18n/xgettext.jl: register, scan, scan-list, output-strings", "src/lisp.c: rep_string_print"]}
{"id": "C122", "title": "The self tests", "statement": "`rep --check` leaves with status 0 exactly if nothing is wrong in any module whose tests are registered: no enabled test fails, no check or assertion with an action other than nothing fails, no test function signals an error. Tests in libraries that are loaded when they are needed count too.", "quantifier": "all sets of registered modules, test functions, libraries, settings of actions and disabled kinds", "why_tests_cant": "The order of modules is that of a hash table that loading a library may change while it is walked; a missed module shows as success.", "anchors": ["lisp/rep/test/framework.jl: run-self-tests-and-exit, run-all-self-tests, run-module-self-tests, abort-if-fatal, set-self-test-action", "lisp/rep/util/autoloader.jl: make-autoloader, autoloader-ref", "src/main.c: rep_top_level_exit"]}
{"id": "C123", "title": "Checking words with ispell", "statement": "The result of `ispell-word` is ispell's answer to that word, for each of any number of words in turn, and however the answers arrive in pieces; afterwards the process can be used again.", "quantifier": "all sequences of words and answers, and all ways to cut the output into pieces or to delay it", "why_tests_cant": "The operating system may cut the output at any place and delay any piece; a wrong assignment of answers only shows as a wrong verdict on a later word.", "anchors": ["lisp/rep/util/ispell.jl: output-filter, ispell-read-line, mutex, ispell-word, ispell-test-word"]}
{"id": "C124", "title": "Code that is not preempted", "statement": "While the forms of `without-interrupts` are evaluated, no other thread runs unless the thread itself yields or waits; after it was left, normally or not, nested or not, the thread can be preempted again just as before. `thread-forbid` and `thread-permit` return whether preemption is blocked.", "quantifier": "all programs of any number of threads, all nestings and ways to leave the forms, all points where the time of a thread is over, and all choices of the next thread", "why_tests_cant": "The time of a thread may be over at any call, and the lock of a thread is saved and loaded at each switch; a test sees few schedules.", "anchors": ["src/rep_lisp.h: rep_MAY_YIELD, rep_FORBID, rep_PERMIT, rep_PREEMPTABLE_P", "src/continuations.c: thread_invoke, inner_thread_invoke, Fthread_forbid, Fthread_permit", "lisp/rep/threads/utils.jl: without-interrupts"]}
{"id": "C125", "title": "Event loops and what is thrown out of them", "statement": "A throw that reaches an event loop leads where the manual says: `exit` leaves the innermost loop unless it is the outermost, `quit` terminates the program with the given status, `term-interrupt` terminates it after cleaning up, errors and interrupts are handled in the current or outermost loop or end the program according to `error-mode` and `interrupt-mode`, other tags go to the innermost `catch` around a `recursive-edit`, or are reported and lead to the outermost loop. `recursion-depth` is the number of calls of `recursive-edit` that have not returned.", "quantifier": "all nestings of event loops and catches, all settings of the modes, all histories of throws", "why_tests_cant": "Event loops nest to any depth, and a throw may pass any number of them; tests seldom run nested loops.", "anchors": ["src/main.c: rep_handle_input_exception, Frecursive_edit, rep_top_level_recursive_edit, Frecursion_depth, rep_top_level_exit", "src/unix_main.c: rep_event_loop", "man/lang.texi: Catch and Throw"]}
{"id": "C126", "title": "The idle hook", "statement": "While the program waits for input, `idle-hook` is called once in each idle period, at the first timeout at which there is nothing else to do; saving of files and collection of garbage take precedence.", "quantifier": "all histories of input and timeouts, with any work to be done at each timeout", "why_tests_cant": "The counter of timeouts and the flag survive from one idle period to the next, so that a wrong reset shows only after certain histories.", "anchors": ["src/main.c: rep_on_idle", "src/unix_main.c: handle_input"]}
{"id": "C127", "title": "Documentation strings", "statement": "`documentation` gives the last string that was recorded for a symbol in a structure, be it with `document-variable` or `add-documentation`, or else the one recorded without structure; a string in the function itself goes before. What is recorded for the parameters of a function is kept apart.", "quantifier": "all histories of recorded strings, all names of symbols and structures", "why_tests_cant": "Names of symbols and structures are joined to one key; whether two pairs have the same key depends on the characters of both.", "anchors": ["lisp/rep/lang/doc.jl: make-key, doc-file-ref, doc-file-set, documentation-property, documentation, document-variable, add-documentation, add-documentation-params, describe-value"]}
{"id": "C128", "title": "The read-eval-print loop", "statement": "Every form that is typed at the prompt, on one line or several, is evaluated once, in order. A command of the loop may be abbreviated if the abbreviation is not ambiguous.", "quantifier": "all forms, all ways to type them on lines, all sets of commands and names", "why_tests_cant": "Forms nest without bound and may be broken at any token; what is pending depends on all lines before.", "anchors": ["lisp/rep/util/repl.jl: repl-iterate, repl, find-command", "src/readline.c: Freadline", "src/streams.c: Fread_line"]}
{"id": "C129", "title": "Compiling a file", "statement": "When compile-file returns, the compiled file has the whole result and the permissions of the source; if compilation fails, the compiled file is unchanged and no temporary file is left; if the system stops at any point, the compiled file has either its old or its new content. A text between #! and !# at the start of the file is kept, and the program after it is compiled.", "quantifier": "all contents of the compiled file before, all results, all points of failure and of crash; all headers and programs", "why_tests_cant": "The crash may come after any write; headers are arbitrary texts.", "anchors": ["lisp/rep/vm/compiler.jl: compile-file", "src/unix_files.c: rep_copy_file", "src/files.c: Fclose_file"]}
{"id": "C130", "title": "Stepping through a program", "statement": "The debugger doesn't change the value or the effects of a program unless the user returns a value in place of a form. Step stops at every form, next runs a form without a stop and stops at the form after it, continue runs all that follows up to the next break, and after break the next form is stopped at. No form is stopped at twice.", "quantifier": "all forms, all sequences of commands given to the debugger, all states", "why_tests_cant": "Forms nest without bound, and any command may be given at any stop.", "anchors": ["src/lisp.c: rep_eval, Fbreak, Fstep", "lisp/rep/lang/debugger.jl: do-step, do-next, do-continue, do-set-result"]}
{"id": "C131", "title": "Database objects of the gdbm module", "statement": "A database made by gdbm-open stays usable until it is closed by gdbm-close or collected when nothing refers to it; calls with a closed database signal an error and have no effect. The library is never called with a handle that is not open, no handle stays open without an object, and at shutdown each handle is closed exactly once.", "quantifier": "all histories of calls, of garbage collections with any live objects, and of calls made by functions during a walk", "why_tests_cant": "Depends on all interleavings of calls, walks and collections.", "anchors": ["src/repgdbm.c: Fgdbm_open, Fgdbm_close, Fgdbm_fetch, Fgdbm_store, Fgdbm_delete, Fgdbm_walk, dbm_sweep, rep_dl_kill"]}
