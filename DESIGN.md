# Formal model of librep: design

Target: SawfishWM/librep at the commit checked out in /repo. The model is
written in Lean 4 under `lean/Verif/`. Nothing in /repo is built or run; the
model is a hand translation of the source text, function by function, and every
definition cites the file and lines it translates.

## 1. Trusted base

* Lean's kernel (4.33.0), and the three standard axioms `propext`,
  `Classical.choice`, `Quot.sound`. No axiom is added; there is no `sorry`,
  `native_decide` or `bv_decide`. Each `*Props.lean` file ends with
  `#print axioms` comments only where useful; `vcheck` re-checks all of them.
* The translation from C and Lisp to Lean, which is by hand. Its faithfulness is
  what the citing comments let a reader check.
* The specifications (files `*Spec.lean`, or the section `Spec` of a file).

Build configuration modelled: LP64 (64 bit `long`, `long long` and pointers,
32 bit `int`, 8 bit signed `char`), `HAVE_GMP` defined, assertions enabled (the
build system never defines `NDEBUG`), `WITH_CONTINUATIONS`, stack growing down.
GMP itself is trusted: `mpz` operations are Lean `Int` operations.

Undefined behaviour, aborts and failed assertions of the C code are modelled as
distinct outcomes, not as values, wherever a modelled function can reach them.

## 2. Layout

One directory per area, `lean/Verif/<Area>/`:

* `Model.lean`   definitions translated from the code, with citations;
* `Spec.lean`    (if the statement needs vocabulary) the independent specification;
* `Lemmas.lean`  proofs about the model;
* `Props.lean`   the property theorems, each next to an `example` showing that a
  concrete non-trivial case meets its hypotheses.

Where the code does not satisfy a property, `Props.lean` contains a theorem
`…_violated` that proves the negation of the full statement on a concrete
witness, and a theorem `…_partial` that proves the property under the exact guard
that excludes the defect. Section 4 lists the defects.

## 3. Plan by property

| id | area | what is modelled | how it is proved |
|----|------|------------------|------------------|
| C01 | Num | `rep_number_add/sub`, `promote_dup` (with its aliasing), `maybe_demote`, `rep_make_long_int`, `number_foldv` on tagged integers (fixnum word / bignum) | case analysis on representation, wrap-around arithmetic shown absent by range bounds, induction over the argument list |
| C02 | Num | `rep_number_mul` with 64-bit wrap | violation witness; exact theorem under "product fits 64 bits or one operand is a bignum" |
| C03 | Num | `Fquotient`, `Fremainder`, `Fmod` including the operand aliasing of `promote_dup` | Int division lemmas; violation witnesses for the alias bug and for `MIN_INT / -1` |
| C04 | Num | `rep_compare_numbers`, `number_cmp`, truncation of `long` to `int` | violation witness; exact theorem under the range guard; bignum case unconditional |
| C05 | Num | the result tag of every integer operation | which operations are canonical (proved), which are not (witness) |
| C06 | Num | logical operations and `Fash` on 64-bit words and `Int` | Int bit lemmas; witness for the overflowing shift |
| C07 | Num | Euclid loop of `rep_integer_gcd` | refinement to `Int.gcd`; witness at the most negative fixnum |
| C08 | NumText | digit printing and `rep_parse_number` | induction on digit lists; witness for negative radix 16/8 |
| C09 | Equal | `rep_value_cmp` and the per type comparison functions on a value type with identities | structural induction |
| C10 | Equal | `equal-hash` and friends with 64-bit wrap-around | structural induction, witnesses for non-canonical numbers |
| C11 | Tables | buckets, `lookup`, `table-set` with growth, `table-unset`, walk, size | representation invariant and refinement to a partial map |
| C12 | Tables | weak tables + guardian + `tables-after-gc` | witness of the lost live key; partial theorem for `eq` tables |
| C13, C14 | Heap | cons heap as a finite map from addresses, the loops as pointer programs | separation style predicates (`lseg`), induction on the list |
| C15 | Lists | `sort.jl` | induction; Mathlib `List.Perm`, `List.Pairwise` |
| C16, C17, C18 | Lists | `queues.jl` (on the cons heap), `ring.jl`, `trie.jl` | refinement to a list / bounded list / set of strings |
| C19, C20 | Codec | `base64.jl`, `quote-url.jl` as byte transducers | induction on the input in blocks |
| C21 | Date | integer formulas of `date.jl` | comparison with a recursively defined calendar |
| C22 | Utf8 | byte list with terminator, skip table | induction on characters |
| C23–C25 | Threads | mutex, condition variable and message port as step machines over the scheduler model | invariants over all interleavings; witnesses for the timeout defects |
| C26, C27 | Threads | runnable/suspended queues, all thread operations | invariant, refinement of the linked lists to Lean lists |
| C28 | Barriers | barrier stack, continuation's saved stack, `common_ancestor` | induction, characterisation as longest common suffix up to the first closed barrier |
| C29 | Timers | delta chain, signal handler, dispatch, explicit clock | representation invariant; witness for the lost elapsed time |
| C30–C32 | Gc | mark (worklist and recursive), sweep, guardians, weak refs on a heap graph | reachability invariant |
| C33–C37 | Sdbm | pages as byte arrays with offset tables, directory bit trie, hash | page refinement to association lists, trie invariant, refinement to a map |
| C38 | Dyn | special binding list, fluids | stack discipline invariant |
| C39 | Memo | table lookup wrapper | induction on call history; witness for nil results |
| C40 | Lang | datum cells | case analysis over histories |
| C41 | Num | the loop of `expt` on integers and rationals | loop invariant |
| C42 | Heap | `length`, `nth`, `nthcdr`, `last`, `member`, `memq`, `assoc` on the cons heap | induction; witness for the truncated index |
| C43 | Lang | `catch`, `throw`, `condition-case`, `unwind-protect` as an evaluator with a pending exception | induction on expressions |
| C44, C45 | Reader | `read.c`/`print.c` as functions on character lists with the token buffer | induction on the printed text; termination by the length of the input |
| C46 | Barriers | dynamic wind with continuations | as C28 |
| C47 | Threads | `thread-join` over the scheduler | invariant on the log of calls and wakes |
| C48 | Peephole | the peephole optimiser of the byte code compiler, over an abstract virtual machine | each rule by simulation, all passes by induction |
| C49–C51 | Modules | structures with their tables of bindings, the recursive search and the cache before it; interface lists as cons cells | refinement to structures as finite maps with a search and no cache; the cache by an invariant over histories; C50, C51 by invariants of the refined machine |
| C52, C53 | Regex | the parser, the code generator with its linked nodes, the analysis for search shortcuts and the recursive matcher of regexp.c, with the pattern as a syntax tree in between | grammar after the manual and list of all matches in order of preference as the specification; compiler and matcher by induction on the tree with a continuation; the search by correctness of the analysis |
| C54 | Regex/Subst | `regsub`, `regsublen`, the loops of `string-replace` and `string-split` over the same matcher | relations for expansion, replacement and splitting; induction on the rest of the string |
| C55 | Regex/Cache | the list of compiled patterns keyed by string object, collections, changes of strings | invariant over histories: each entry was compiled from the present text of its string |
| C56 | Lambda/Model, Lambda/Spec | `bind_lambda_list_1`; the code of `compile-lambda-spec` on a stack machine; `push-inline-args`/`pop-inline-args` | induction over the sections of the lambda list; each equals a function written after the manual |
| C57 | Backquote | the macro of backquote.jl; the evaluator is any function for which `quote` and the list functions have their usual equations | induction on the template with the loop state as a partial value; a count of nested backquotes for termination |
| C58 | Asm | assembler.jl function by function (labels, back-patching, constants by `equal`, the replay of stores into a string of spaces); the specification is the machine's fetch | invariant relating the stores to a list of symbolic bytes, then decoding per instruction |
| C59 | Compile | an interpreter with a store and fuel; the compiler form by form (lexical environments, tags of variables, lambda records, tail calls as jumps, inlined lambda expressions and named `let`, trial compilation of loops, allocation to heap or slots); the virtual machine with activations | forward simulation by strong induction on the fuel, in continuation form, with worlds that relate bindings of the interpreter to heap cells and slots; tags of the compiler are shown to mean what a separate syntactic test says |
| C60 | FileName | `rep_expand_file_name` with its buffer as a reversed list of limited length, the other functions on names, `expand-file-name` with the handler of `~` | invariant: the buffer is the text of the place reached so far; induction on the length of the rest; the meaning of a name (following its components) is a separate specification |
| C61, C62 | Proc | process objects, children and the kernel's reports; `queue_notify`, `proc_notification`, `notify_1`, `check_for_zombies` one round at a time, `run_process`, reading, the sweep of the collector, as operations in any order | invariants of all histories: the chain of waiting objects is a list or a ring with a lead and holds everything untold; counts and flags agree with the children; received ++ pipe = sent. Termination by a measure |
| C63 | Gaol | symbols with their flags, structures with special environments, dynamic and lexical bindings, property lists; 17 functions and `let`, `condition-case` and calls across structures, run by an interpreter that records every result. Protection kept: invariant. Secrecy: two runs from states that differ in the value stay so, with equal events. Integrity: the value (and what trusted readers see) is constant along the run. Not modelled: buffer-local values, constants, changes of imports or of `*user-structure*`, closures with lexical environments |
| C64 | Md5 | `md5_process_block` with its 64 operations as data, the buffer of 128 bytes with checked copies, the counters of 32 bits, `md5_stream` over files with any sizes of reads, `digest_to_repv` with signed `char`. Specification: RFC 1321, the table as integer parts of real sines. Refinement: each operation is a step of the RFC (the constants by bounds on the exponential series); invariant: registers, buffer and counter stand for the message so far |
| C65 | Stream | strings in a heap as allocated bytes with a length in the header, `int` arithmetic which may overflow, stores and loads checked against the block; `write` and `get-output-stream-string`. Invariant: the buffer holds what was written and is larger than it, a string given away is never written again. Specification: the bytes since the last call |
| C66 | Stream | string streams and files; the loops of `read-chars`, `read-line` (buffer doubled from 500) and `copy-stream` (blocks of 8192). Specification: take and drop on the bytes left. Refinement by induction over operations and over the loops |
| C67 | Stream | `Fformat`: the scanner over the bytes and the final zero, all conversions and hooks, as calls of putc and puts that are then run on the string stream of C65. Specification: pieces (text, directive), their rendering as a format and what they stand for; the scanner is proved to invert the rendering. Totality for arbitrary bytes |
| C68 | Dbl | IEEE binary64 over the rationals (53 bits, subnormal numbers, overflow to infinity; rounding to nearest even for operations, towards zero for `mpq_get_d`), conversion to `long` may be undefined; the four functions. Specification: floor, ceiling and nearest integer of the value. Proof: numbers on the grid of multiples of the last place, the rounded sum `d + 0.5` by cases |
| C69 | Dbl | `rep_compare_numbers` with promotion to double and the sign of the rounded difference. Specification: the order of the rationals with two infinities. Proof: rounding does not pass doubles; a rounded difference is zero only for equal doubles |
| C70 | Dbl | `exact->inexact`, `rationalize` (loop with `DBL_EPSILON`), `inexact->exact`, `numerator`, `denominator`. Specification: values, nearest double, numerator and denominator of a rational. Proof: the number of doublings of the loop by induction |
| C71 | Xml | the printer as a function to text, the reader function by function on the rest of the stream (recursion bounded by a number that is shown to be enough). Specification: which items text can stand for. Proof: induction on items; a measure for the reader |
| C72 | Rpc | processes with the tables of the module, the text under way to each socket, the running servants; events for calls, arrivals of some characters, rounds of the handler, returns, lost connections. Messages are printed and read by the functions of Reader. Specification: which data is sent, when nothing is left to do. Proof: an invariant that says which messages the text consists of and where each call is; any beginning of a message reads as unfinished (Reader/Prefix) |
| C73 | Symtab | symbols with the fields `next` and name, chains of each obarray, hash with its 64-bit arithmetic; loops walk the links. Specification: each obarray is a set of symbols (`Spec.Abs`), what the manual says of each function (`Spec.Does`). Proof: a simulation relation that says which symbols each chain consists of; uninterning reverses the chain |
| C74 | Macro | addresses and identities of objects, the history with its chains, nested calls of `macroexpand` waiting for expanders, which are arbitrary: events for allocation, collection, changes of definitions and forms. Specification: `Expands`, repeated expansion by present definitions. Proof: an invariant on the history and on what waiting calls protect; induction over the events |
| C75 | Hook | cells with `cdr`, the variable, the calls of `call-hook` in progress with the cell they are at; `delete` and `nconc` as the loops over links that they are; events for additions, removals, calls and returns in any order. Specification: the order of the list at the beginning and of additions. Proof: an invariant that splits what is ahead of each call into cells that were taken out and a tail of the hook |
| C76 | Forms | Evaluator on list structure (`step`/`ev`: variables, calls, lambda, quote, cond, setq, progn) in which a form whose head is a macro is expanded by that macro's own function (each macro of interpreter.jl is one definition, with `gensym`) and the expansion is evaluated. The specification is a separate syntax tree with a direct meaning of every form (`sstep`), and its text (`Src.text`). Proof: simulation with an injection of locations (the evaluator makes locations of its own for generated variables), one lemma per form, over the fuel of the meaning. |
| C77 | Events/{Model,Props,Fresh}.lean | A state machine: tables of registered functions, the set and count of pending marks, what the system has input for, and any number of active loops, each somewhere between entry, `select`, its `for` loop and a call; events interleave freely. Invariant over all histories: the count is the number of marks, and each loop's set, position and remaining number agree with the report and the turns so far. A second invariant, with the guard on registrations, for the reason of calls. Idle actions, timeouts' lengths and the periodic functions are left out. |
| C78 | Origin/{Model,Props}.lean | A state machine of files (text, position, line number, flag), the reader as any sequence of characters read and put back with lists begun and ended, addresses that are used again, the table of items, its guardian, and collections with any choice of what is reachable. Invariant: every item belongs to the object now at its address, which the guardian holds, and to the list read as that object; the lines agree with the text up to those not counted. The tree search is shown equal to the first hit in an inductively specified order. The chains of items are lists (no free list). |
| C79 | Define/{Model,Spec,Scan,Forms,Sim,Step,Props}.lean | The scanner as a function on list structure, with the list of names taken as bound, using the macro expanders of Forms/ and followed by the evaluator of Forms/. Specification: a syntax of programs with definitions at the start of bodies, and its translation, which puts `letrec` for them and changes nothing else, with the reference meaning of C76. Proved in three steps: the scanner run on the text ends with the text of an explicitly given program (induction on the program); that program has the same reference meaning as the translation, by a simulation between the two (bodies wrapped in `progn`, `if`, `when`, `unless`, `or`, `and` and named `let` expanded); C76 gives the evaluator. Which constants are strings is a parameter. A definition that is not at the start of a body (it would be global), and macros of the user, are left out. |
| C80 | Load/{Model,Spec,Modules,Make,Does,Ends,Props}.lean | Programs, files and functions are lists of commands (any form, an error, provide, require, load, call-after-load, open-structures, define-structure, condition-case). The state has the structures with their features and imports, the table of names, after-load-alist, the pending error and a log of events; running is a function with fuel. Specification: predicates on the log. Proved by an invariant that relates, for each module, the number of loads, failures and the table of names, and an effect of each job (what is bound stays bound, and nothing is loaded of it); termination by induction on the number of modules that are not bound and the size of the text, for an order on fuel. The bindings of structures are those of C49–C51 and left out here; `%meta` and the module system's own forms are left out. |
| C81 | Load/{After,AfterProps}.lean | The same model, with all commands. Specification: predicates on the log, in which registrations and loads have numbers. Proved by an invariant for all jobs, with the functions taken out of the list by the loads around a job as a ghost argument: every number is once in the list, with such a load, or called. |
| C82 | Load/Search.lean | The search of `load` with its variables (among them `try`, which keeps an old value if a suffix is not a string); `expand-file-name`, the test for a file and the comparison of times are parameters. Specification: the first directory with an offer, by findSome?. Proved by induction on the paths. |
| C83 | Array/{Model,Spec,Props}.lean | Values are integers, addresses and symbols; the heap is a list of objects, a vector having both the length in its header (computed as the macros do, with the width of `int`) and its memory. Each function is a function of the heap. Specification: items as lists, lists of cells by a relation, texts by a relation. Proved by cases; that a list is finite exactly if the loop ends within the number of objects is proved by counting addresses; histories by induction. |
| C84 | Text/{Model,Props}.lean | A `char *` is the list of the bytes left in its object, the terminator included; reading beyond is an outcome of its own. The functions are loops over such lists; case mappings are parameters. Specification: prefixes of lists, a lexicographic order defined inductively, `List.map`. Proved by induction on the strings; completion by an invariant relating the match and its length to all strings seen. |
| C85 | Handler/{Model,Props}.lean | Operations as programs over searches for handlers, calls of handlers and local operations; handlers as arbitrary programs. The blocked handlers per operation are a list each. Proved by induction on the run: the lists are stacks of the handlers at work; termination by the number of handlers not blocked for each operation. |
| C86 | Handler/Copy.lean | A file system of names, files, contents and modes; the system calls behave as an arbitrary schedule says. Proved by an invariant of the loop: the destination is the beginning of the source up to the position. |
| C87 | Plist/{Model,Props}.lean | A heap of cells, some read-only, and the lists of symbols. The cells of a list are given by an inductive predicate; that they are distinct follows from its being finite. Proved: refinement to a map, by the invariant that each symbol has cells of its own. |
| C88 | Objects/{Model,Props}.lean | An object is its base and methods; calling it binds parameters with the functions of Verif/Lambda (interpreted or compiled). Specification: the first method in the chain, inductively. Proved by induction on the chain. |
| C89 | Records/{Model,Props}.lean | A heap of datums with a type and items, record types as lists of fields. Refinement to records with a map of fields, for all histories. The constructor of `define-record-type` uses C56 for the binding of its parameters. |
| C90 | Stack/{Model,Spec,Typing,Good,Forms,File,Run,Props}.lean | The accounting of `max-stack`, `max-b-stack` and `max-slot` beside the compiler of C59, with the same cases. A check of code assigns heights to labels; by mutual induction on forms every piece of code passes it within the maxima, and a simulation shows that execution follows the heights. Machine: that of C59. |
| C91 | TailCall/{Model,Spec,Mem,Props,Space}.lean | Blocks of memory allocated by `alloca`, with the machine's pointers into them; a history of pushes, pops, arguments and tail calls. Invariant: the stack, the old stack and the arguments are in different blocks of known sizes; refinement to a view of a stack and a list of arguments. Space by a potential: every allocation raises the sum of the two sizes the machine keeps. |
| C92 | Canon/{Model,Spec,Text,Props}.lean | `realpath` as passes of its loop over texts, with the places of null characters in its buffer; the file system is a tree. The walk along a name is specified as an inductive relation on lists of components; soundness by induction on passes, completeness by induction on the walk. |
| C93 | Environ/{Looking,Model,Spec,Props}.lean | The three functions as loops over a list of strings, with patterns made by the model of `quote-regexp` and matched by the model of the regular expressions (C12, C13). That a quoted name matches exactly the strings that begin with it comes from the compiler and matcher of patterns; the claim about histories by induction on operations. |
| C94 | Prim/{Model,Spec,Ops,Sim,Props}.lean | Interpreter, constant folding, handlers of the compiler and instructions of the machine for calls of built-in functions, with other functions, variables, logarithm and matching of strings as parameters; arithmetic from the model of numbers. By induction on forms: the run of the code agrees with the evaluation, with a relation that lets errors come earlier when functions of numbers have more than two arguments. |
| C95 | Heights/{Model,Spec,Sim,Props}.lean | The compiler with its counter `current-stack`, the machine with a program counter, and an interpreter with a bound on the depth. By induction on the bound: the run of the code gets to the place that belongs to the result (a value, an error, the call of a loop), with an invariant that relates the counter to the stack for every loop that may still be called. |
| C96 | Math/{Model,Spec,Props}.lean | The definitions of math.jl over the model of the arithmetic in C (`Num`). Parity from the theorems on `mod` (also where `mod` of a bignum has the wrong sign), sign and absolute value from those on comparison, lcm from those on product, gcd and quotient. |
| C97 | Time/{Model,Spec,Props}.lean | The Lisp functions over the model of arithmetic (`Num`), those in C with signed overflow as an outcome of its own and the conversion to an unsigned word. Arithmetic of quotients and remainders. `current-time-string` is not modelled (the C library formats). |
| C98 | ListLib/{Model,Spec,Props}.lean | Programs on the cons heap of `Heap` with loops that need not end. `position`: positions 2k+1 and k of the two pointers meet because the cells of an endless list repeat (pigeonhole), and when they meet every cell has been seen. `remove-if`: invariant on the new cells, then `C14_nreverse`. `mapconcat` works on the strings that the function returns. |
| C99 | Remote/{Model,Spec,Lemmas,Server,Client,Props}.lean | Server and client as functions on pieces of byte strings; what the commands do to files is a parameter. `Arrives` relates the writes of the client to what `read` returns; the server is proved to read each command exactly. The client is proved right by an invariant on the part of the reply still to come, for each kind of reply; sessions by induction on the commands. |
| C100 | Sock/{Model,Spec,Inv,Steps,Props}.lean | A machine of sockets, open files and connections whose operations include those of the other side; functions in Lisp are arbitrary functions from states to operations, called where the C code calls them. An invariant (numbers and connections are not shared, bytes handed on and bytes waiting make up bytes sent, nothing was called after the end) is proved for every operation; the loop that reads needs that its socket stays open. |
| C101 | Ffi/{Model,Spec,Lemmas,Walk,Types,Props}.lean | Memory is a map from addresses to bytes; `rep_ffi_marshal` and `rep_ffi_demarshal` walk over it as in C, on a table of types that refer to older ones. The specification has C types as trees, with the sizes, alignments and offsets of C and a relation that memory at an address holds a value. Proofs by induction on the type: what is stored lies packed at the address, what lies packed is read, and packed is the layout of C exactly when there is no padding. |
| C102 | Dl/{Model,Spec,Inv,Props}.lean | What a library requires and what its initialisation does are arbitrary programs that load libraries and go on by the result; `rep_intern_dl_library` is recursive with the table, its capacity and a log of what happened to libraries as state. Invariant: no file is twice in the table, and each file was initialised once more than closed if it is there and as often otherwise. By induction on the depth of nested loads a load keeps it and only adds entries of a rank below; termination from the rank. |
| C103 | Proxy/{Model,Spec,Inv,Props}.lean | The port of the proxy, its thread, the ports for results and the waiting threads as a step machine; histories are arbitrary lists of steps. Specification: the function applied to all arguments one after the other. Invariant: the port holds the calls after the first k, the state of the function is that after k calls, the ports for results hold the ends of calls before k that have not returned. Answers: a measure goes down with each step, and while a thread waits some step is possible. |
| C104 | Cgi/{Model,Spec,Props}.lean | `unquote` with its fragments, the loop of `cgi-get-params`; the searches for the three fixed patterns are written out. Specification: a relation between a list of names and values and the strings that encode it. Induction on the encoding. |
| C105 | Cgi/{Model,Spec,Props}.lean | The functions of domain-name.jl on lists of bytes, against lists of labels. Induction on the labels. |
| C106 | DebugBuf/{Model,Props}.lean | The ring with checked copies. Invariant: what would be shown is the end of what was printed. |
| C107 | Auto/{Model,Props}.lean | Closures and autoload lists as objects with identity, an evaluator (with fuel) for files and function bodies that define, call, expand and fail. An order on states that everything preserves: code and disabled lists stay as they are. |
| C108 | Prof/{Model,Props}.lean | The loop over the stack of calls with the bounded array `seen`, the table of counts. Induction on the stack and the samples. |
| C109 | Dbl/{MaxMinModel,MaxMin}.lean | The fold over two-argument `max` with the conversion to inexact. Invariant by induction on the list: the accumulator is the greatest argument, or the closest inexact number. |
| C110 | Tar/{Model,Props,Modes}.lean | The loop over lines with pending output, the cache with its order, the loop along links, the matching of names. Induction on the text, on the pieces, on the questions with the invariant that cached listings are those of their modification time. |
| C111 | Num/{RandomModel,Random}.lean | The check of the limit with the comparison of C04, the GMP generator as a parameter, the loop over pairs of draws. A bijection between pairs of draws and residues gives the even distribution. |
| C112 | Dbl/{SqrtModel,Sqrt}.lean | Conversion, the C library's root as a parameter with the contract of IEEE 754, conversion back. The error of the first rounding is less than half the distance between doubles at the root; real analysis. |
| C113 | PrintLimit/{Model,Props}.lean | Heap of cells, possibly circular; the printer with fuel. Trees and the cutting of trees as specification; mutual induction on trees, and for circular heaps induction on what is left of the limits. |
| C114 | Dbl/{TextModel,Text}.lean | `%.16g`, the added point, the choice of the type and `strtod` on characters, values as rationals. The scanner on each form of text, the sixteen-digit decimal nearest to a rational, then spacing of doubles against spacing of decimals. |
| C115 | Disasm/{Model,Spec,Props}.lean | `disassemble-1` with its table against the instructions which the machine fetches (`Rep.Asm.Spec.fetch`) and the names in src/bytecodes.h. Induction over the instructions; the table is compared entry by entry. |
| C116 | FileName/{RemoteModel,Remote}.lean | The scanner for `/USER@HOST:`, the operations of the remote handler on names and the dispatch to it, on the model of C60. The scanner is shown to accept exactly the names of the form, then each operation follows from the local one. |
| C117 | Repdoc/{Model,Props}.lean | `scanfile` on characters, with `fgets` and its buffer sizes; the specification works on lines. `strstr` is the first index; reading a line that fits gives the line; then induction over the lines. |
| C118 | DateText/{Model,Props}.lean | The five regular expressions of `parse-date` as scanners, the loop over them, and the arithmetic of C21. The specification is a grammar with values. One lemma per kind of part says that earlier expressions fail on it and that it is taken as a whole. |
| C119 | StructWalk/{Model,Props}.lean | The hash table of a structure with chains, growth and removal; `structure-walk` with its pointer into a chain, and a function that may change the table. Invariant: each node is in the bucket of its symbol, no symbol twice. The walk is compared with calls over an abstract map. |
| C120 | CmdLine/{Model,Props}.lean | `rep_get_option` on strings with identities, the loop of `parse-options`, and the start of the interpreter. The specification lists items and how they are written. Taking out one flag leaves the text of the other items; then induction over the items. |
| C121 | Xgettext/{Model,Props}.lean | `scan` as the list of strings it registers; the specification says inductively where a form may evaluate a call of `_`. `register` keeps a list without repetition. The template is read by an inductive grammar; induction over the string, with a second statement for a text that begins behind a backslash. |
| C122 | SelfTest/{Model,Props}.lean | The function called for each module over the walk of C119; a test function is the list of its forms. The table keeps an invariant under loading of libraries, under which the function only redefines bound symbols, so that the theorem of C119 applies; then induction over the order of the calls. |
| C123 | Ispell/{Model,Props}.lean | The pending text and the list of pieces to arrive. Reading a line gives the first line of the pending text followed by all pieces (induction over the pieces); then induction over the words. |
| C124 | Forbid/{Model,Props}.lean | Programs as trees, whose actions carry a flag telling whether they are inside; the lock as an integer that is saved and loaded at switches. Invariant: the lock of each thread is the number of levels it is in, and what it has still to do fits this number. |
| C125 | EditLoop/{Model,Props}.lean | The calls of `recursive-edit` as a list of the catches around them, with the depth as a separate number; a throw passes the loops one after the other. The specification gives the destination from the whole list. Invariant for the depth; induction over the list. |
| C126 | Idle/{Model,Props}.lean | The two static variables and a step for input and for timeouts; the specification looks at the list of timeouts since the last input. Invariant by induction from the end of the history. |
| C127 | DocFile/{Model,Props}.lean | Databases as maps from keys to strings; the specification looks up the history. Keys are injective for plain names; the state is described by the history, by induction from its end. |
| C128 | Repl/{Model,Props}.lean | Lines as lists of tokens and the reader as a function with the depth of lists; forms by an inductive grammar. A form is read to its end, what was read stays so when text is added, hence a beginning of a form is premature; induction over the lines. |
| C129 | CompFile/{Model,Props}.lean | The compiled and the temporary file after each write as a list of states, with points of failure as inputs; theorems for all states of the list (crash points) and for the last. The scanner of headers by recursion on the text, two characters at a time. |
| C130 | Stepper/{Model,Props}.lean | Forms as binary trees with labels, the commands as a function from the number of the stop; the evaluator with its single-step flag, and lists of the forms stopped at and completed. All by induction on forms, for all scripts. |
| C131 | Gdbm/{Model,Props}.lean | The chain of objects, the handle of each, and the handles that the library has open, with a flag for undefined behaviour; an invariant by induction on histories, with collections by any set of live objects, and walks whose functions make any calls. |

## 4. Places where the code does not meet the property

Each is proved by the `_violated` theorem named in the manifest for the property.

| id | what goes wrong |
|----|-----------------|
| C02 | the product of two fixnums that does not fit in 64 bits is computed with signed overflow |
| C03 | `(quotient MIN -1)` traps; `mod` of a bignum by a fixnum changes its first operand; `(/ 1 0 2)` divides by zero |
| C04 | comparison truncates a 64 bit difference to `int` |
| C06 | `ash` by a large amount is an undefined shift; a count that is a bignum is taken modulo 2^62 (`C06_count_violated`, Num/Shift.lean) |
| C06 | `ash` by a large amount is an undefined shift |
| C07 | `gcd` of the most negative fixnum |
| C08 | negative fixnums in base 8 and 16; other bases abort; long texts go to GMP, which accepts spaces, a second sign and stops at NUL; the estimate of the bits wraps at 159072863 digits |
| C09, C10 | fixnums 2^32 apart compare as equal; symbols with the same name; hash values that differ for equal values, negative hash of a cons |
| C12 | weak tables with `equal` and keys that are fixnums |
| C13 | `append` with a circular last argument but one does not end |
| C20 | NUL is not escaped |
| C21 | dates before March of year 0, and before 1970 |
| C22 | NUL, malformed sequences |
| C23–C25 | a thread that gives up waiting stays in the list of the mutex or condition variable; `message-fetch` goes on without the mutex |
| C27, C47 | default timeout of 1 ms; timeout 0 overflows when nothing can run; early by up to 999 microseconds; signals; suspension by another thread; a thread made suspended runs at the next yield; a deleted suspended thread |
| C28, C46 | barriers of different calls at the same stack position are taken for the same barrier |
| C29 | timers called early, late or twice when they are set while others are pending; negative delays |
| C30–C32 | closures of fixnums; subrs and fixnums in guardians and weak references |
| C33, C35–C37 | the file grows only one block at a time; interleaved fetch skips keys; `sdbm-delete` deletes the key with its NUL; a failed replace loses the old value |
| C38 | `with-fluids` leaks its bindings if given something that is not a fluid |
| C39 | nil results are not remembered |
| C42 | the index of `nth` and `nthcdr` is truncated to 32 bits |
| C44, C45 | symbols that the reader takes for numbers or characters; tokens of 240 characters or more overflow |
| C48 | `(if (if a (and b c) d) e f)` is compiled to code that evaluates `f` when `a`, `b`, `c` are true, because two jumps share a list cell; `jtp` to a `jpn` pops the value; `#f`; errors of unused or trivial computations are lost; `X: jnp X` is rewritten forever |
| C49 | with circular re-exports the result depends on earlier references; no invalidation at the end of a header with `%meta`, by `structure-exports-all` and by `structure-define` on `%structures` (stale or dangling entries); unbinding reads a freed node |
| C50, C51 | unbinding loses the export and removes immutable bindings; `(structure-exports-all s nil)` switches it on; structures made with the same named interface share its list, which definitions destroy |
| C52 | `x??` leads to an internal error or a jump to a random address, `(x*?)|y` matches wrongly; `\W`, `\S`, `\D` match the NUL at the end of the string and go beyond it; bytes above 127 with case folding; START is not checked; deep recursion is an error |
| C53 | a NUL in the quoted text |
| C54 | `\&` gives `&` and `&` the match, against the documentation; `string-replace` and `string-split` never end on an empty match |
| C55 | `aset` of the string whose compiled pattern is the oldest in the cache follows a null pointer; output to a string stream leaves the old compiled pattern |
| C56 | a value equal to a keyword of the function is taken for the keyword, and compiled code may then bind a null pointer; `keyword-arg` looks at every place and `keyword-arg*` at every second; `((lambda (a) a) 1 2)` compiled gives 2; of two parameters with one name the interpreter uses the last, compiled code the first |
| C57 | a vector in a template is always an error; `` `(,@'x) `` gives the template itself |
| C58 | a jump to an undefined label is assembled to a jump to 0x2020; addresses over 65535 are cut to 16 bits; constants that are `equal` but different (integers 2^32 apart, see C09) are merged |
| C59 | compiled code differs from the interpreter if a loop variable is bound again inside the loop, a parameter has the name of its function, a closure over a loop variable is written after the jump, the first arguments of a named `let` use its name, a lambda expression is called with surplus arguments, two parameters have one name, or a function that calls itself is assigned or redefined |
| C60 | `expand-file-name` writes beyond a buffer of 4096 bytes for long names; `~//../b` expands to `~//b`, another file |
| C61 | `proc_sweep` follows a link it has just overwritten: all but one of the objects that wait for the call of their function are lost, later `accept-process-output-1` follows a null pointer; unreferenced waiting objects are dropped; an object linked to itself (queued twice) makes the collector loop for ever; `call-process` whose output function runs the event loop makes `process_run_count` wrong, other children are never waited for; `accept-process-output-1` does not see the last waiting object; `process-exit-value` of a killed child is 0 |
| C63 | compiled `defvar` (`make-variable-special`, `setq` unless bound) keeps a value that restricted code has given in advance, and the variable stays usable by that code; a variable declared only by compiled code is taken by restricted `defvar` | `C63_compiled_defvar_violated`, `C63_compiled_variable_violated` |
| C63 | restricted `defvar` moves the value which the symbol has in the user's structure, even imported functions, into the special variable it may use; it makes ordinary variables of every structure special | `C63_user_function_violated`, `C63_taken_variable_violated` |
| C63 | `rep_bind_special` does not look at `rep_SF_WEAK_MOD`, and `Fdefvar` defines an unbound variable also when it is set: restricted code can bind, or give a value to, a variable taken from it | `C63_let_violated`, `C63_unbound_violated` |
| C63 | `get` reads the properties of every symbol; the safe function `add-hook` changes any variable | `C63_get_violated`, `C63_add_hook_violated` |
| C64 | `digest_to_repv` puts the low digit of every byte first, and reads `hex_digits` at a negative index for bytes over 127; `md5-local-file` ignores read errors (a directory); lengths from 2^33 bytes are counted wrongly | `C64_swapped_violated`, `C64_signed_violated`, `C64_read_error_violated`, `C64_long_violated` |
| C65 | the size of a stream's buffer is an `int` that overflows at 2^30 characters; the LENGTH of `write` is taken modulo 2^32; a pair `(STRING . N)` is trusted, and written past its end | `C65_overflow_violated`, `C65_length_violated`, `C65_pair_violated` |
| C66 | `read-line` on a file uses `strlen`: text after a zero in the line is lost, and a line starting with zero reads as the end; `read-chars` gives any count to `alloca` | `C66_zero_violated`, `C66_count_violated` |
| C67 | padding stops at 256 characters; `%^s` without a width writes nothing, and with a sign the length -1 is passed on (the whole text, up to a zero); signs are put before strings; a zero ends the format | `C67_width_violated`, `C67_cut_violated`, `C67_sign_violated`, `C67_zero_violated` |
| C67 | a width or position of ten digits overflows `int`; a hook for the character zero lets a final `%` read past the end | `C67_digits_violated`, `C67_end_violated` |
| C68 | `round` of 0.5 + 2^-53 is 0, and of an odd double between 2^52 and 2^53 the next integer | `C68_half_violated`, `C68_odd_violated` |
| C68 | rationals are rounded after conversion to a double, which is truncated: `(floor (- -1 (/ (expt 2 60))))` is -1; beyond 2^53 all four are wrong, from 2^63 on a double is converted to a `long` it does not fit | `C68_floor_violated`, `C68_truncate_violated`, `C68_round_violated`, `C68_long_violated` |
| C69 | 2^53 + 1 `=` 2^53 as a double `=` 2^53; nan `=` everything | `C69_equal_violated`, `C69_nan_violated` |
| C70 | `exact->inexact` rounds fixnums but truncates bignums and rationals, so a greater number may become the smaller double | `C70_nearest_violated`, `C70_mono_violated` |
| C70 | `inexact->exact` divides the two parts it has found and drops the fraction: 0.5 becomes 0; infinite numbers abort in GMP | `C70_fraction_violated`, `C70_infinite_violated` |
| C70 | `numerator` of a fixnum reads the type of the number at an address made of it; of 2^70 is 1; of 6.0 is 3 (denominator 1/2); of 2^52 + 1.0 is 1 + 2^-52 | `C70_integer_violated`, `C70_even_violated`, `C70_epsilon_violated` |
| C71 | the printer writes `(nth 1 stream)` for `(! TEXT)`: always `<!()>`; `?` does not end a token, so `<?xml?>` is an error; strings next to each other become one | `C71_comment_violated`, `C71_question_violated`, `C71_adjacent_violated` |
| C72 | `deregister-rpc-server` removes the socket before it lets the pending calls fail, which is an error then: their callbacks are never called; `read` takes `(result 1 t #` at the end of the text for a whole list, so a message split there is misread; answers are accepted on any connection; a value without read syntax (`#<…`) blocks the connection for good | `C72_lost_violated`, `C72_split_violated`, `C72_foreign_violated`, `C72_unreadable_violated` |
| C73 | `unintern` clears the link of a symbol also if it is in another obarray: the chain is cut (`(unintern KEYWORD)` and then any keyword of that chain follows a null pointer), or becomes a circle when it is interned again; `intern-symbol` accepts a second symbol of the same name; names are compared up to a zero byte; an obarray of length 0 makes functions return NULL without an error | `C73_unintern_violated`, `C73_twice_violated`, `C73_nul_violated`, `C73_empty_violated` |
| C74 | `macroexpand` (and so evaluation) uses a remembered expansion although the macro was defined anew, another ENVIRONMENT is given, or the form was changed; a form whose head is a function object is taken for a macro call | `C74_redefined_violated`, `C74_environment_violated`, `C74_changed_violated`, `C74_function_violated` |
| C75 | a function that removes itself from the hook and then removes the next one: the next one is called although it is not in the hook | `C75_removed_violated` |
| C76 | `case` clauses without forms return the value of the test, without items match `()`; `letrec` without body returns the last value; rebinding `t` or `not` changes `if`, `unless`, `case`; the name of a named `let` is visible in its initial values. | `C76_case_no_forms_violated`, `C76_case_no_items_violated`, `C76_letrec_no_body_violated`, `C76_capture_violated`, `C76_named_scope_violated` |
| C77 | `rep_deregister_input_fd` leaves the mark, and `handle_input` its copy of the set: a new descriptor with that number is called without input. `wait_for_input` does not look at the system while marks are left: a function that marks its own descriptor starves the others. A nested loop makes the outer one call for input already read. Descriptors are not checked against FD_SETSIZE. | `C77_stale_mark_violated`, `C77_stale_report_violated`, `C77_starving_violated`, `C77_nested_violated`, `C77_range_violated` |
| C78 | `read-line` on a local file does not count the line, and a seek to the start sets the line number before `fseek` fails: lines of errors and origins are wrong from then on. A form got back through another guardian has lost its origin. `lexical-origin` does not end on circular lists. | `C78_read_line_violated`, `C78_seek_violated`, `C78_guarded_violated`, `C78_circular_violated` |
| C79 | A function whose body is only a string returns false: the string is taken as documentation. An internal definition whose name is that of a macro does not hide the macro in the body (`(define (unless x) x)`, then `(unless 5)` is false). A body of definitions only returns the last value. | `C79_string_body_violated`, `C79_macro_name_violated`, `C79_only_definitions_violated` |
| C80 | Two plain files that require each other never finish loading. A file that does not provide its feature is loaded by each `require`, without an error. After a syntax error at the end of a module's file `require` signals it, but the feature is provided. Opening a file that defines a module with another name succeeds and opens nothing. | `C80_circular_require_violated`, `C80_not_provided_violated`, `C80_error_but_provided_violated`, `C80_other_name_violated` |
| C81 | An error in a function called after a load loses the functions after it, and a syntax error in the file all of them, also for later loads. For the file of a module the functions registered for the name of the module are called, not those for FILE (`a/b` and `a.b`). A function that registers itself again for the library is called forever. | `C81_error_violated`, `C81_syntax_violated`, `C81_file_name_violated`, `C81_again_violated` |
| C82 | NO-SUFFIX still appends `.so`. FILE without a suffix is never tried without NO-SUFFIX. An error in a later test lets `load` go on with the file found before, with the error pending. | `C82_no_suffix_violated`, `C82_unmodified_violated`, `C82_error_pending_violated` |
| C83 | Vectors of 2^23 or more elements have a wrong length (2^24: zero; 2^23: far beyond the memory, so that `aref` reads outside of it). `concat` drops items that are no characters, and returns one shared constant for the empty string. The copy of a constant vector cannot be stored to. | `C83_large_vector_violated`, `C83_concat_ignores_violated`, `C83_concat_empty_violated`, `C83_copy_constant_violated` |
| C84 | Comparison stops at zero bytes. `complete-string` with a zero byte in TEMPLATE reads outside of the strings. `string-lessp` uses signed characters. `translate-string` of a string by itself. | `C84_nul_violated`, `C84_complete_nul_violated`, `C84_signed_violated`, `C84_translate_same_violated` |
| C85 | The operations on open files, and copies to and from the local file system, are not looked up, and may recur without end. | `C85_object_violated`, `C85_copy_violated` |
| C86 | A file copied to itself is emptied; after an error the destination is lost. | `C86_same_file_violated`, `C86_error_violated` |
| C87 | Lists shared through setplist; circular lists; the special environment. | `C87_shared_violated`, `C87_circular_violated`, `C87_restricted_violated` |
| C88 | The keyword `#:self` among the arguments. | `C88_self_violated`, `C88_compiled_violated` |
| C89 | Captured names, the field nil. | `C89_captured_violated`, `C89_nil_violated` |
| C90 | Packing of sizes into fields of ten bits. | `C90_call_with_many_arguments_violated` |
| C91 | Blocks for the arguments of `apply` reused as stacks. | `C91_stack_one_short_violated`, `C91_null_stack_violated` |
| C92 | The root, cycles of links through directories, names that are too long. | `C92_root_violated`, `C92_endless_violated`, `C92_file_as_directory_violated`, `C92_long_name_violated` |
| C93 | Names with `=`; the empty environment; names that are twice in the environment. | `C93_name_with_equals_violated`, `C93_empty_environment_violated`, `C93_duplicates_violated` |
| C94 | Far comparisons; elements of something that is not a list; surplus arguments; one argument; errors before later arguments; folding of calls never reached; (/ 1 0 5); apply without a list; log with three arguments; string-match of constants; /= of more than two. | `C94_far_violated`, `C94_nth_violated`, `C94_surplus_violated`, `C94_one_argument_violated`, `C94_late_argument_violated`, `C94_fold_violated`, `C94_divide_violated`, `C94_apply_violated`, `C94_log_violated`, `C94_match_violated`, `C94_unequal_violated` |
| C95 | A `case`, or a default value of a parameter, before the call of a loop that is an argument. | `C95_case_in_loop_violated`, `C95_default_in_loop_violated` |
| C96 | `positivep`, `negativep`, `abs` and `lcm` inherit the truncation of differences to an int; `lcm` divides the product of all arguments by the gcd, which is right for two arguments only. | `C96_sign_violated`, `C96_abs_violated`, `C96_lcm_violated`, `C96_lcm_one_violated` |
| C97 | Times before the epoch. | `C97_before_epoch_violated`, `C97_roundtrip_violated`, `C97_fix_time_violated`, `C97_later_violated` |
| C98 | `#f` is a symbol and so true; the end of a dotted list is taken for an element. | `C98_position_false_violated`, `C98_remove_dotted_violated`, `C98_some_dotted_violated` |
| C99 | After a failed `put` the length and the data are taken for a command; lengths of nine digits are cut; `aset` with two arguments in `remote-rep-get`; short reads end the server; the signature is only recognised in one piece. | `C99_put_fails_violated`, `C99_large_file_violated`, `C99_get_error_violated`, `C99_split_violated`, `C99_greeting_violated` |
| C100 | The loop that reads goes on with the number after the stream has closed it. | `C100_close_violated`, `C100_reuse_violated`, `C100_wait_violated`, `C100_echo_violated` |
| C101 | The fields of structures are stored without the padding of C, blocks are too small, conversion functions are mixed up or applied to unset values. | `C101_padding_violated`, `C101_block_violated`, `C101_u64_violated`, `C101_range_violated`, `C101_short_violated`, `C101_conversions_violated`, `C101_get_violated`, `C101_nil_violated`, `C101_empty_violated` |
| C102 | A failing initialisation removes the wrong library, circular loads initialise twice or do not end, the table is written after it was moved, the first library is not found by its feature. | `C102_failed_violated`, `C102_circle_violated`, `C102_mutual_violated`, `C102_moved_violated`, `C102_first_violated` |
| C103 | Exceptions of asynchronous calls, the default waiting time and calls of the own proxy. | `C103_async_violated`, `C103_idle_violated`, `C103_slow_violated`, `C103_self_violated` |
| C104 | Parameters without `=`, without a name, with `%` before other characters. | `C104_flag_violated`, `C104_unnamed_violated`, `C104_digits_violated` |
| C105 | Case. | `C105_case_violated` |
| C106 | Long messages. | `C106_long_violated`, `C106_cut_violated` |
| C107 | Failed loads, values that are not closures with code, `load-autoload` of other functions. | `C107_retry_violated`, `C107_subr_violated`, `C107_chain_violated`, `C107_kind_violated`, `C107_unclosed_violated`, `C107_documented_violated`, `C107_endless_violated` |
| C108 | Loads, a lowered `max-lisp-depth`, shares of functions that call unnamed ones. | `C108_load_violated`, `C108_depth_violated`, `C108_share_violated` |
| C109 | nan, fixnums far apart, arguments that are not numbers. | `C109_nan_violated`, `C109_far_violated`, `C109_other_violated` |
| C110 | The cache of listings is never cut (`setcdr` of the last pair); leftover output; a half-read listing stays cached; cycles of links. | `C110_bound_violated`, `C110_leftover_violated`, `C110_error_violated`, `C110_cycle_violated` |
| C111 | The comparison with zero truncates to `int`: `(random)` always fails. | `C111_default_violated`, `C111_large_violated`, `C111_negative_violated` |
| C112 | Bignums are truncated: sqrt of 3037000502 squared is wrong. Exactness of the result does not depend on the argument being a square. | `C112_big_violated`, `C112_no_square_violated`, `C112_fraction_violated`, `C112_tiny_violated` |
| C113 | Neither limit applies to vectors, so a vector inside itself is printed for ever. The depth is a static variable, shared with printing done by the stream's function. | `C113_vector_violated`, `C113_nested_violated` |
| C114 | 16 digits are not enough for all doubles (17 are), and too many for decimals of 15 digits. Infinite numbers and nan are written with a point. | `C114_lost_violated`, `C114_short_violated`, `C114_infinite_violated` |
| C115 | The test for instructions with an argument leaves out 0x3f, which is `refn` with two bytes. A pushed constant `(byte-code ...)` is taken for code. | `C115_refn_violated`, `C115_form_violated` |
| C116 | A local file in the root directory with a colon in its name becomes a remote one when its name is expanded. | `C116_local_violated` |
| C117 | Documentation of 16383 or more characters: `fgets` with room for nothing succeeds, so the loop never ends. Marks across the end of the line buffer. The last character of an unfinished text. | `C117_long_text_violated`, `C117_long_line_violated`, `C117_last_violated` |
| C118 | Names of months in other than the usual case signal an error. A date that follows the time is lost. | `C118_case_violated`, `C118_order_violated` |
| C119 | A function that adds bindings while the table grows misses some and sees others twice. One that unbinds the symbol it is called for makes the walk read freed memory. | `C119_adding_violated`, `C119_removing_violated` |
| C120 | A flag given twice is taken for a file. A file or function whose name looks like a flag. | `C120_twice_violated`, `C120_name_violated` |
| C121 | Strings in the body of a `let` without variables are not found. | `C121_empty_let_violated` |
| C122 | With the action `exit` for tests a failed test gives the exit status 0; a module is missed if a library that is loaded defines a test for a new module. | `C122_exit_violated`, `C122_missed_violated` |
| C123 | An answer after the timeout, or the second line for a string of two words, is taken for the answer to the next word. | `C123_late_violated`, `C123_two_words_violated` |
| C124 | After a user interrupt between the start of `without-interrupts` and `thread-forbid` the lock is -1: the thread isn't preempted outside and is preempted inside the next one. | `C124_interrupt_violated` |
| C125 | `quit` gives status 0 in the outermost loop and leaves only an inner loop; a signal to terminate in an inner loop leaves only this; `error-mode` `exit` has no effect in an inner loop. | `C125_quit_violated`, `C125_term_violated`, `C125_mode_violated` |
| C126 | If an interrupt is pending at the first timeout of a period, the hook isn't called in this period. | `C126_interrupt_violated` |
| C127 | Names with `#` share their keys with others, and their documentation is overwritten. | `C127_names_violated` |
| C128 | A second form on a line is ignored. | `C128_two_forms_violated` |
| C129 | A crash or an error during the copy leaves a part of the compiled file; errors of `fclose` are ignored; `!!#` doesn't end a header. | `C129_stop_violated`, `C129_close_violated`, `C129_header_violated` |
| C130 | Continue only reaches to the end of the form around it that was stepped into; a break in a continued form is forgotten. | `C130_continue_violated`, `C130_break_violated` |
| C131 | A function given to `gdbm-walk` may close the database that is walked, and the library is then called with a null pointer. | `C131_walk_violated` |

## 5. Not modelled

Floating point arithmetic beyond C68-C70 (sums, products, `sqrt` and the functions of the C library, the sign of zero), the operating system interface (sockets, files, dynamic loading;
of processes: pseudo-terminals, process groups, signals and interrupts), the `ffi`, `readline` and `gdbm` modules, signals other
than those of timers and children, `gettext`.
