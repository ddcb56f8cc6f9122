# Formal model of tiancaiamao/cora in Lean 4

## 1. Layout

* `lean/Verif/Model/*.lean`: the model. Each definition cites the file and lines in `/repo` it models, and says what it simplifies.
* `lean/Verif/Spec/*.lean`: small specifications written without the model (prefixes, substrings, finite maps, doubles, ...).
* `lean/Verif/Lemmas/*.lean`: helper lemmas. Nothing there is a claim.
* `lean/Verif/Props/*.lean`: the property theorems, with concrete non-vacuity examples beside them.
* `properties.jsonl`: the English properties. `MANIFEST.json`: property to theorem map. `seeded/LOG.jsonl`: mutation log.

## 2. Trusted base

* Lean 4.33.0's kernel. Theorems depend only on `propext`, `Classical.choice`, `Quot.sound`.
* No axioms of our own, no `sorry`, no `native_decide`, no `bv_decide`.
* The hand translation of C and cora source into Lean definitions. It is checked only by reading; each definition cites its lines.
* Undefined behaviour, failed `assert`s and `exit(1)` are explicit outcomes (`none`, `.trap`, `.ub`), never silently totalised.

## 3. Plan per property

| id | what is modelled | how it is proved |
|----|------------------|------------------|
| C01 | NaN boxing on `BitVec 64`; `makeNumber` as an IEEE-754 binary64 encoder | bit-level lemmas; encoder range lemma for every 64-bit integer |
| C02 | int64 to double rounding (nearest even), double to int64 | arithmetic proof that the encoder/decoder pair is exact up to 2^53; rounding theorem beyond |
| C03 | `primDiv` on the raw bits | negation by witness; what it does compute |
| C04 | `eq` on a recursive value type | structural induction against an independent inductive relation |
| C05 | `str.c` buffers as (allocated bytes, len) with out-of-bounds writes as failure | invariant over all operation sequences |
| C06 | `strCmp` | order lemmas by induction |
| C07 | `strStr`, `strChr`, `strRchr`, contain, prefix | loop invariants against `s = a ++ p ++ b` |
| C08 | `ptrByIdx`, `strSub`, `stringSlice` | case analysis with `omega` |
| C09 | `stringSplit` | induction for the join law; negation of "no piece contains sep" |
| C10 | `stringReplace` | from C07 |
| C11 | `builtinStringAppend` with the `strNew` assertion | partial + negation at `"" ""` |
| C12 | `map.h` trie, parameterised by the hash function | refinement to a finite map |
| C13 | `intern`, `symbolStr` over C12 | history induction |
| C14 | `bindSymbol`, globals array | refinement to a finite map by history induction |
| C15 | `builtinImport` with an abstract loader over an import graph | fuel/termination measure: number of packages not yet in *imported* |
| C16, C17 | vector objects as blocks with capacity | array laws, refinement of append to list snoc |
| C18-C22 | `reader.c` as a function on byte lists, with buffer limits and traps as outcomes | round-trip by structural induction; negations by witness |
| C23-C28 | the VM: stack segments, frames, call, return, curry, dispatch, try/throw, apply | invariants over all runs; negations by witness |
| C29, C30 | size-class tables; 6-bit versions | whole-table check; modular arithmetic |
| C31, C32 | heap graph with versions, gray set, remembered set, roots; every collector and mutator step | invariant over all interleavings |
| C33, C34 | gray queue chunks, block allocation, large-object free list | refinement and non-overlap invariants |
| C35-C37 | the passes of `toc.cora` on a core expression type | free-variable specification, semantic preservation by simulation; negation for `let` shadowing a captured variable |
| C38, C39 | `generateSym`, `escapeStr` | injectivity by a decoding function; negations |
| C40 | `eval.cora` | equivalence with a reference evaluator |
| C41-C45 | the list library and macro expanders of `init.cora` | induction; evaluator-level theorems for macros |
| C46-C56 | the libraries written in cora | refinement to small specifications; negations where the code is wrong |
| C61 | streams of `ukanren.cora` with the three kinds of suspended functions made explicit; goals over any kind of state | the meaning of a goal is an inductive relation; each stream operation preserves it; fairness by induction on the number of forced functions; negation for every goal made by `fresh` |
| C62 | `net-send`, `net-recv` and the handlers of `async.cora` against any list of answers of the operating system | invariant: what was sent plus what is left is the buffer; negations for errors and closed connections |
| C63 | Model/Async: records with next, prev, mode and callbacks, the doubly linked list with its head node, the modes the system watches, the handlers | Invariant relating the links to the list of registered connections, the modes to what is watched and the callbacks to both; simulation of Spec.Waiting; the second waiting send and the second accept are shown to be lost |
| C64 | Model/Async.blockedQueueEmpty, with fuel for the loop | The chain invariant of C63; the fuel is more than the number of connections registered |
| C65 | Model/HashNum.hashToNumber on 64-bit words, with memory and symbol table | Case analysis on the tags; strings and pairs never reach the branches written for them |
| C66 | Model/Cml: a machine with the number of waiting schedule-loop frames, the queue and the world | Every step is a turn or changes nothing; every turn happens within two steps; draining the frames at the end; the frames of a task that yields for ever grow |
| C67 | Model/Io: a file as the bytes left and the end-of-file indicator; fwrite takes what an arbitrary list of answers lets it take | induction on the length left / on the number of bytes still to write; the statements compare with the content itself |
| C68 | Model/Os: the command line handed to system/popen; Spec/Shell: how a shell splits a command of plain characters | induction on the arguments and on their bytes |
| C69 | Model/Infer: unify with its triangular substitution, with fuel because it need not end | most general: induction on the fuel; failures right: size argument; ending: lexicographic measure (unbound variables, size); well-formed substitutions as invariant |
| C70 | Model/Infer: check, checkH; Model/InferRules: the rules for list, tuple, maybe, monad and added ones; Spec/Types: simple types, evaluation with type errors; Spec/TypesData: types of data | soundness: induction on the fuel with the invariant that answers extend the substitution and mention only given and new variables, and that the operator of a call has a known ground type; completeness: induction on the typing derivation, extending the assignment; ending: induction on the program; safety: induction on the evaluation steps with typed values |
| C71 | Model/Loop: the macro on data; Spec/Lang: what programs mean | the expansion computed by induction on the variables; the value of the inner function identified by inversion of evaluation; the body evaluated in an environment that agrees on its free variables |
| C72 | Model/Loop: the two macros on data and the library function; Spec/Lang: what programs mean | the expansions computed; inversion of evaluation through call-with-values, the values object and the receiver; environments that agree on free variables |
| C73 | Model/Tls: the symbol of a machine (its address printed), the association list in it; Spec/Local: the last value set | induction on the history with the invariant that the list of each machine looks up the last value set; printing of addresses is injective and fits the buffer |
| C74 | Model/Md: the callbacks with their growing stack, run on the reports for a tree; Spec/Markdown: the tree and its XML | induction on the tree with a view of the state as the current list and the lists on the stack; composition with the writer of C52 |
| C75 | Model/Parallel: the mailbox under its lock; a schedule is a list of the sections the lock protects; Spec/Mailbox: the messages sent | induction on the schedule: what was received, followed by what is in the mailbox, is the list of messages sent (or a sublist of it); the linked queues hold these lists (invariant on the nodes), whatever malloc gives |
| C76 | Model/Parallel: the 256 slots with linear probing; Spec/Mailbox: firstPublished | invariant over the history: the first mailbox of a name is on the name's path behind slots with other names only; counting of the slots on a path |
| C77 | Spec/CLang: tokens, grammar and declaration rules of a part of C; Model/CodeGen: the generator, as bytes; Model/CodeRun, Model/CodeMachine: what the statements and the entry function do, and the loop of the runtime over texts; Spec/CompileText: conditions on programs | the text is scanned and parsed back to the intended syntax tree (WF pieces and their tokens); each statement of the tree does what the statement of the compiled program does (simulation of C variables); the conditions hold of the output of the compiler (invariants through parse, closure conversion, tailify, liveness analysis and numbering); composed with C35 |
| C78 | Model/Toc: from bytes to bytes, composed of the models of the reader, the expander, the compiler and the generator, plus preprocess; Spec/Source: spelling of data, notes | reading back the text (C57), induction over headers and bodies for preprocess, C45 for the package, recognition of core forms, C77 for the C file; with type checking on: the checks are put before the code (Props/Checked), C44 for what a check is given |
| C79 | Model/SegMachine: the machine of Model/CodeMachine with addresses, segments, malloc and free; Spec/Segments: states inside of a segment, registers of callers | simulation of the machine with one array (C76-C78): every frame lies in one segment and the frames of a segment are those of a run of calls; both directions, so that runs end and give what the language says |
| C80 | Model/HeapMachine: the machine of Model/SegMachine with words instead of values, objects in slots, and the collector of Model/GC, as a relation that leaves open when the collector works; Spec/Heap: which value a word and its objects show | simulation of the segment machine (C79) by every run with the heap: the objects that the machine still needs are held (reachable from registers, result and variables), so by C31's invariant they are not freed; runs step by step (Model/HeapSteps): induction over the run of the machine without a heap shows that no run gets stuck, as there is always room for another object, and that none goes on for ever |
| C81 | Model/Trace: buffer, file, events as bytes, and the reader of tools/trace.go; Spec/Trace: a log per file | invariant: file and buffer together are the encoding of the log; decoding is a left inverse of encoding; threads: Model/TraceThreads splits the recording of an event into steps, and the runs in which no two recordings overlap refine the single-threaded ones |
| C82 | fgets with its buffer, the loop that skips lines, the argument list and the loop of repl over the reader model; expansion and evaluation are a parameter. | Lemmas on what one fgets reads; induction over the text of the file for repl, with the reader theorem of C57; induction over lines for the failing cases. |
| C83 | compile-to-c with the partial evaluator between expansion and compilation (Model/Boot); the models of C55, C77, C79 and C80. | C55 for every prefix of the session and determinism of evaluation give that the values of optimised programs look like those of the source; the relation `looks like` composes with that of C77, C79 and C80. |
| C84 | The three parts of a load as steps on a disk and a process (Model/Load): write the C file, run the command line through the shell and gcc, open the library (dlopen gives a library that is already open under that name); histories of loads (Spec/Load). | Invariant over histories: the libraries that are open are those of the earlier loads, the counter is the number of loads. The words of the command line are computed with the shell of C65. |
| C85 | The sixteen functions over a heap of jansson values at addresses, with the words of Model/NaNBox (Model/Json); documents, paths and questions (Spec/Json). | Induction over documents and paths; the answers to the type, size, string and integer questions along all paths determine the document. |
| C86 | Model/Repl: one step of the loop in main.c made of the models of the reader, the expander, the partial evaluator and the interpreter; the imported packages and export lists are read from the global variables | induction over the forms: C82 for reading, C55 (redone for sessions whose forms see names through packages) for optimising, C40 for interpreting, and an invariant that connects the process with the language's world from form to form (Spec/Repl, Lemmas/Repl) |
| C87 | Objects with a length and memory of one byte more, with arbitrary contents when new; memcpy without checks (Model/Buffer). Arrays of known and unknown bytes (Spec/Buffer). | Simulation: each step of the array specification that is within range is one of the model, and known bytes are in their places. |
| C88 | The functions on the words of Model/NaNBox (Model/Buffer); the value of a numeral (Spec/Buffer). | Induction on the number of digits; C02 for what numbers are stored as. |
| C89 | A tree of directories and files with what POSIX says of mkdir and fopen; the loop of mkdirP over the bytes of the path (Model/Files). Paths as a grammar (Spec/Files). | Invariant of the loop: the directories are the old ones and those of the complete names read so far. |
| C90 | The loop over the entries up to the null entry with the buffers in which the names are built (Model/Register on Model/Str); variables as a map (C14). What names refer to for an importer as in Spec/Register. | Induction over the library; the last entry of a name counts. |
| C91 | walk*, reify-s and reify-state on the terms of Model/Unify (Model/Reify); answers as what all solutions say (Spec/Reify). | The table of names is the list of variables met so far; induction over the term. Equal shown terms pair up the variables of both. |
| C92 | The machine of Model/VM with a code number for `traceWrap`, which runs the block of the function it holds (Model/TraceWrap); the abstract machine with traced functions, and sameness of values and states but for tracing (Spec/Traced). | The machine refines the abstract machine with traced functions (as C23); sameness is a bisimulation between the traced and the untraced program. Untracing is computed. |
| C93 | The table of macros as a list, searched as in the code (Model/MacroTable); rules of expansion without order and bound, and forms with nothing left to expand (Spec/Expand). | The expander and the rules agree in both directions: induction on the bound, and on the derivation with monotonicity in the bound. The table finds the last definition. The expander of C42-C46 is the same function. |
| C94 | No new model: the process at the prompt of C86 and the source file compiled with partial evaluation and loaded as C text of C83. The specification (Spec/Twice) says when a value of the interpreter and one of the machine look the same. | Both are proved to show what the language says (C83, C86); forms one after the other are shown to be one program of the language, and the program of the file is shown to be that of the forms. Left out: what C83 and C86 leave out, names from imported packages, and expansions that depend on the count of generated symbols. |
| C95 | Blocks of bytes with an unknown allocator; malloc, realloc, memcpy, array accesses; what C leaves undefined is an outcome of its own (Model/Growable). | An invariant that the block starts with the bytes of the elements, by induction on the operations. |
| C96 | A table of open descriptors and a system that answers resolve, socket, connect, bind, listen and accept in any way, but gives no descriptor that is open (Model/Sockets). | By induction on the addresses and on the history. |
| C97 | The tables of both kernels, as their manual pages describe them, with the masks of epoll as bits, the change lists of kqueue worked off up to the first failure, and the loops over modes and events (Model/Watch). | A relation between each table and what is watched, kept by every operation; then the answer is compared entry by entry. |
| C98 | The event loop of C63 with the kernel's table of C97 in place of an abstract set of watched modes; both systems through one interface (Model/AsyncSys). | Linux: step by step simulation of the loop of C63. BSD and macOS: simulation of a loop in which a finished send leaves the connection watched, whose invariant includes that the mode lists have no repetitions, so that the array of two changes is enough. |
| C99 | The statistics with 64-bit counters, the 32-bit intermediate, and the doubles as numerators over a power of two, rounded to nearest even (Model/Pace). | 0.4 and 0.6 as doubles add up to exactly 1, and rounding errors of 53-bit numbers stay below a byte; then an invariant over all rounds. |
| C100 | The words the three functions return (Model/Os), on the value representation of C01 and the equality of C04. | The facts about numbers of C01 and C02; bits of the sign extension. |
| C101 | `intern` in three steps over one shared table, any interleaving of the steps of any threads and of making further machines (Model/InternThreads). | An invariant over all schedules: results agree with the table, the one thread inside holds an empty slot that is still empty; linking a node at that slot is the same as `_map_set` in one step. |
| C102 | Model/Pointer: the arenas with their addresses, the search through them, the arithmetic of block and position, on top of the allocator of Model/Alloc (C34) | invariant over histories that the rest of a block is zero; the arenas do not overlap, so the search finds the only one; the objects of an arena for large ones lie side by side and their blocks know the start; division with remainder by the size class |
| C103 | Model/Kinds: memory as bytes, the layouts of the structures, the functions with the checks they make | by cases on the kind; the bits of the double of an integer of 53 bits and of a number with five digits; slices of the name of a symbol |
| C104 | Model/Packages: the number of the next library and of each library, shared by threads; the table of packages of each machine; loading in steps; the variables of C14 | an invariant over all orders of steps: numbers are distinct, each table of a machine belongs to one loaded library; witnesses for two races |
| C105 | Model/Forall: the macro and its helpers on data, the function tvar as a closure of the core language | by induction on the type, over C42 (let) and C44 (quasi-quotation), and on the list of variables |
| C106 | `Model/Export.lean`: each exported function on top of the model of the internal one, with the C types of its arguments (`int` is a 32-bit word, memory of the host is a list of bytes), and the names the header declares and the sources define | the round trips from C02 (numbers), the array theorem of C16 generalised to a capacity above the size, induction over the list for `coraReverse`; the nine missing functions by comparing the two lists of names |
| C107 | the macro (Model/Macro) and the semantics of core forms (Spec/Lang) | induction on the expressions: the expansion is the nested calls; evaluating those is evaluating the expressions and then the fold of Spec/Fold; the same for `->` (Props/Arrow) |
| C108 | the scheduler as a machine with the list of external schedulers (Model/CmlEvents) | refinement: every step is one of the moves of Spec/Events; invariant on the frames for the end; a witness for the wait with two schedulers |
| C109 | words of memory; the object's head, counts, frames and segments at the offsets of the code, sizes as int (Model/Continuation); captured computations in Spec/Capture | the loops write and read frame by frame (inductions over the frames and the segments), an invariant `Captured` that later writes elsewhere keep |
| C110 | Model/Shift: the macro; Model/Monad: reset and cont-bind as core forms; the semantics of Spec/Lang | expansion: the macro's result is a lambda form; evaluation: the laws of C54 and the equivalence of a closure's environment with the one it captured |
| C111 | Model/Registry: the two functions with one step for each read and write of a slot, any number of threads, sequentially consistent memory; a log of calls and returns | invariant: the complete slots are those of the completed publications made one after the other (Model/Parallel), a slot with a mailbox and no name belongs to the proc that is publishing, and what a resolving proc has seen stays true; then C76 gives the answer |
| C112 | Model/GenName: gensym as an address with a tag, symbolStr for both kinds of symbols, the C variable of a symbol (Model/Ident) | the number of the address is 63 bits wide and positive, so the name is x and 19 digits; decimal numerals are injective; C38 for the C variables; C13 for interning |
| C113 | Model/MapCost: the lookup with the list of keys for which the comparison is called; both hash functions on bit vectors. | Invariant of the tree by induction on the insertions (all hashes below a node begin with the digits of the path; no key below itself), induction on the walk; for the integers: x ^ (x >> k) is injective by induction from the top bit, and the factors have inverses. |

## 4. Disagreements between the code and the English property

Where a property is false of the code, the code is modelled as it is, the negation is a theorem with a concrete
witness, and a theorem with the suffix `_partial` keeps what does hold.

| id | what the code does | theorem |
|----|--------------------|---------|
| C02 | integers beyond 2^53 collide; the largest 64-bit integer cannot be read | `C02_beyond_range_collides`, `C02_max_int64_unreadable` |
| C03 | `/` divides the boxed words, not the numbers | `C03_division_wrong` |
| C08 | indices wider than an `int` wrap; the index of a string byte is not checked | `C08_slice_wraps`, `C08_string_index_unchecked` |
| C09 | a separator at the start of the rest ends the splitting | `C09_split_piece_contains_separator` |
| C11 | appending two empty strings fails an assertion | `C11_append_empty_traps` |
| C13 | a NUL byte ends the name of a symbol | `C13_nul_truncates` |
| C14 | a gensym that was never set reads as `()` | `C14_gensym_unset_reads_nil` |
| C16 | vector indices wider than an `int` wrap; negative lengths are undefined | `C16_index_wraps`, `C16_negative_length_undefined` |
| C17 | appending to a vector of capacity zero fails an assertion | `C17_append_to_capacity_zero_traps` |
| C18 | backslashes, integers beyond 32 bits and the byte 255 do not survive printing and reading | `C18_backslash_lost`, `C18_large_integers_change`, `C18_byte_255_lost` |
| C21 | `( )` exits, `(a . b)` is three symbols, an unterminated list recurses for ever, an unterminated bracket is accepted | `C21_blank_in_empty_list_exits`, `C21_dotted_pair_misread`, `C21_unterminated_list_diverges`, `C21_unterminated_bracket_accepted` |
| C22 | long numbers, symbols and strings are written behind the reader's buffers | `C22_long_number_overflows`, `C22_long_symbol_overflows`, `C22_long_string_overflows` |
| C23 | a tail call with too many arguments in a loop runs into the end of the C stack array | `C23_overapplication_traps` |
| C25 | a tail call through `apply` leaves a frame behind | `C25_apply_traps` |
| C26 | `try` at a segment boundary fails; a continuation resumed twice shares its stack; a throw over pending arguments loses them | `C26_try_at_boundary_traps`, `C26_resume_twice`, `C26_throw_over_pending` |
| C27 | the arguments pending in a call with too many arguments are not roots | `C27_pending_arguments_are_not_roots` |
| C31 | the in-place branch of `vectorAppend` has no write barrier, so a reachable object can be reused | `C31_vector_append_unsafe` |
| C32 | a large object can stay allocated for hundreds of cycles, and a dead one counts as in use again | `C32_large_kept_wrong`, `C32_large_revived_wrong` |
| C34 | a request between 16383 blocks and 64 MB passes the assertion and then never ends | `C34_whole_arena_never_ends` |
| C35 | seven forms compile to code with another result | `C35_global_operand_late`, `C35_global_function_late`, `C35_let_shadows_captured`, `C35_let_scope_leaks`, `C35_primitive_shadowed`, `C35_partial_primitive`, `C35_toplevel_frame` |
| C36 | a local variable named like a primitive is not captured in operator position | `C36_primitive_name` |
| C38 | names with digits collide, reserved words are emitted unchanged, non-ASCII names are no identifiers | `C38_digit_names_collide`, `C38_reserved_words_emitted`, `C38_non_ascii_invalid` |
| C39 | a backslash or NUL in a string constant does not survive | `C39_backslash_changes`, `C39_nul_never_survives` |
| C40 | the interpreter does not curry, rejects four parameters, and differs for `integer?`, redefined primitives and imported names | `C40_no_currying`, `C40_four_parameters`, `C40_integer`, `C40_redefined_primitive`, `C40_import_hides` |
| C42 | `or` with a literal `true`, `and` with a literal `false` drop the effects of earlier operands | `C42_or_drops_effects`, `C42_and_drops_effects` |
| C43 | pattern variables named like the scrutinee, guards that change it, effects repeated | `C43_same_name`, `C43_guard_changes_scrutinee`, `C43_effects_repeated` |
| C44 | the dotted tail of a quasi-quotation is dropped | `C44_dotted_tail_lost` |
| C45 | a local variable with `#` in its name captures a global | `C45_capture` |
| C47 | a sent `false` is lost | `C47_false_is_lost` |
| C48 | a waiting choice commits once per alternative; a wrap that answers `false` commits again | `C48_commits_twice`, `C48_wrap_false_commits_again` |
| C50 | deleting a key of a shared bucket removes another key; a negative hash breaks the table | `C50_delete_removes_the_wrong_key`, `C50_negative_hash_breaks_the_table` |
| C51 | a failed alternative is not undone, `@*` loses tokens, a string parser fails at the end | `C51_or_does_not_backtrack`, `C51_star_loses_tokens`, `C51_string_traps_at_the_end` |
| C52 | a backslash is written as `&apos;` | `C52_unescapes_partial` states exactly when the text comes back |
| C53 | the predicate accepts forged vectors; a field named `vector` breaks the constructor | `C53_forged`, `C53_field_named_vector` |
| C54 | the right identity of the state monad needs an action | `C54_state_right_needs_action` |
| C55 | the partial evaluator changes the meaning of six kinds of programs | `C55_capture_wrong`, `C55_function_capture_wrong`, `C55_global_wrong`, `C55_effect_wrong`, `C55_builtin_wrong`, `C55_cons_wrong` |
| C56 | no occurs check; `()` is both success with the empty substitution and failure | `C56_no_occurs_check`, `C56_refuses_unifiable`, `C56_identical_atoms_fail` |
| C61 | `procedure?` knows no function, so every `run` and every goal with `Zzz` fails; `(== 1 1)` in the first state has no answer, since the empty substitution stands for failure | `C61_run_stuck_wrong`, `C61_run_all_stuck_wrong`, `C61_equation_wrong` |
| C62 | an error is taken for a wait at the position given by the error number; `net-recv` loops for ever when the peer closes | `C62_send_error_wrong`, `C62_send_skips_wrong`, `C62_recv_error_wrong`, `C62_recv_closed_wrong` |
| C63 | A task that waits to send on a connection on which a waiting send was completed earlier is never woken: send-handler takes `write` out of what the system watches but leaves it in conn-mode, so event-loop-add sees the mode there and does not watch again. Of two tasks that wait for the same connection and mode the first is forgotten. | C63_second_send_wrong, C63_two_accepts_wrong |
| C65 | hash-to-number looks for strings and pairs under the tag of general pointers, which they do not have: every string and every pair gets 42. All string keys share one bucket, and (C50) deleting one of two deletes the wrong one. | C65_strings_and_pairs, C65_string_keys_wrong |
| C66 | Every yield calls schedule-loop from inside the one that runs the task: a task that yields n times while others are ready leaves n calls waiting on the stack, which grows without bound. | C66_stack_grows_wrong |
| C67 | copy ignores the number of bytes written: after one short write bytes are missing in the middle. write-bytes tests `sz < 0` of a size_t: a file that takes nothing (full disk) makes it loop for ever | C67_copy_short_wrong, C67_write_stuck_wrong |
| C68 | arguments are joined with blanks and not quoted: an argument with a blank is the same command as two arguments, an empty argument is lost | C68_blank_wrong, C68_empty_wrong |
| C69 | the occurs check searches function types only: a variable is unified with a list of itself, and later unifications do not end | C69_list_cycle_wrong, C69_never_ends_wrong |
| C70 | () is accepted as any type; a call forgets what it found about an operator without declared type; do forgets what its first part says; unbound names are accepted; a function declared for all types can be used with one type only; with a function without parameter that is its own result the checker does not end; only a literal pair can be a tuple; every call is accepted as a monad | C70_nil_wrong, C70_call_forgets_wrong, C70_do_forgets_wrong, C70_unbound_wrong, C70_generic_once_wrong, C70_never_ends_wrong, C70_tuple_variable_wrong, C70_monad_wrong |
| C71 | without variables the expansion calls itself at once and for ever, whatever the body | C71_no_variables_wrong |
| C72 | values does not evaluate its operands where it stands, they are evaluated each time the values are taken, and let-values uses a name the program may have bound | C72_late_wrong, C72_again_wrong, C72_captured_wrong |
| C74 | the language of a code block is put in front of the marker for attributes; an address with an entity becomes several strings of which one is written; an empty address makes sxml->xml fail; the title of an image is dropped; a table aborts the program at its first cell | C74_cell_wrong, C74_code_language_wrong, C74_cut_wrong, C74_empty_wrong, C74_image_title_wrong |
| C75 | a receiver that had to wait gets the extra word of its connection, and the message is dropped; the second look of a receiver asks whether 0 is greater than the length of the queue, so a message sent between the two looks wakes nobody; the message false is dropped by the first look | C75_woken_wrong, C75_lost_wakeup_wrong, C75_false_wrong |
| C77 | A function that binds a variable twice (a parameter and a let, or two lets) becomes C that declares a variable twice in a block; variables named like C keywords, like parameters of generated functions or like the array of a call are written as they are; quoted data that are no symbols make the compiler fail; names of symbols are written into C strings without escapes. | C77_let_parameter_wrong, C77_let_twice_wrong, C77_let_itself_wrong, C77_keyword_wrong, C77_machine_variable_wrong, C77_same_name_wrong, C77_args_array_wrong, C77_quoted_number_wrong, C77_quoted_list_wrong, C77_symbol_quote_wrong, C77_symbol_backslash_wrong |
| C78 | In a file of several forms, notes inside a package are called as functions; packages imported after other forms, or in a package that is not the only form, are not imported while compiling, so their exported names resolve to variables of the importing package; a file with nothing but a note is an error. With type checking on, the check of a form that uses quasi-quotation evaluates the expressions in its holes, outside of the function they are in: loading the file stops. | C78_note_in_package_wrong, C78_late_import_wrong, C78_second_form_wrong, C78_only_note_wrong, C78_check_quasi_wrong |
| C79 | Calling a function with more arguments than it takes in tail position keeps the caller's frame, and when such frames fill a second segment, returning fails an assertion: the return frees one segment only. A function of 255 parameters or more can be compiled and never be called. | C79_tail_call_wrong, C79_many_parameters_wrong |
| C80 | When a function is called with more arguments than it takes, the remaining arguments are only in a C array while the function runs. The collector does not look there: a pair among them can be freed and its place reused, and the program gets a wrong result. | C80_pending_arguments_wrong |
| C81 | Turning tracing on while it is on loses the events in the buffer. Calling a traced function whose name has 255 bytes or more fails an assertion, even when tracing is off. Two threads that record at the same moment write to the same place: an event is lost and the tool may not be able to read the file. Threads whose handles agree in the low 16 bits have the same number in the trace. | C81_enable_twice_wrong, C81_long_name_wrong, C81_threads_wrong, C81_tid_wrong |
| C82 | The first line is skipped even if it does not start with #!. A first line of 255 bytes or more is cut: what follows byte 255 is run as a program. With a first line of 254 bytes, or if the uninitialised buffer has a newline in place 254, all short lines are skipped and the process exits with an error. | C82_no_shebang_wrong, C82_long_line_wrong, C82_line_254_wrong, C82_buffer_wrong |
| C84 | A file that is loaded a second time runs its old code if its library is next to it: dlopen returns the library that is open already. Whether a file is in `$CORAPATH` is decided by comparing the names as strings, so every file whose name sorts after `$CORAPATH` counts as in it: its library is written next to it, and if its name has no slash the library is not found. A blank in the path, or a path too long for the buffer of 512 bytes, makes gcc write another file than the one opened. An empty `$CORAPATH` reads the byte before a buffer. Two processes write the same C file in /tmp and can run each other's code. | C84_again_wrong, C84_outside_wrong, C84_no_slash_wrong, C84_blank_wrong, C84_long_wrong, C84_empty_variable_wrong, C84_two_processes_wrong |
| C85 | Integers beyond 2^53 are rounded. There is no function that gives the value of a real number. Indices are cut to 32 bits and keys at the first NUL, so parts that are not there give other parts. `json-array-size` and the like look at the tag bits only, so some numbers count as documents or are taken for addresses. | C85_integer_wrong, C85_real_wrong, C85_index_wrong, C85_key_wrong, C85_number_wrong |
| C86 | a script that defines and calls a function of four parameters ends the process | C86_four_parameters_wrong |
| C87 | `memcpy` checks no range: it overwrites the terminator of a string or the memory after it. Bytes from 128 on are given as negative numbers. | C87_unchecked_wrong, C87_negative_bytes_wrong |
| C89 | The path of the directory is cut at 1023 bytes; files in deeper directories cannot be opened unless the directories are there. | C89_long_path_wrong |
| C90 | With an empty package name `coraRegisterAPI` sets `#name`, the table the plain name. | C90_empty_package_wrong |
| C91 | `reify-name` calls `string.append`, which does not exist: showing an answer with a free variable fails. | C91_free_variable_wrong |
| C92 | `traceWrap` copies the name into 256 bytes with an assertion that it fits: calling a traced function with a longer name stops the process. | C92_long_name_wrong |
| C93 | If the head of a form is a use of a macro that gives the name of a macro, the form is not expanded further; a local variable named like a macro is not seen at the head of a form; of a body with several forms (lambda, defun) all but the first are dropped without a message. | C93_head_wrong, C93_local_name_wrong, C93_body_lost_wrong |
| C95 | The answer of malloc is not looked at when a vector is made; and twice the capacity is computed as an int, so that a vector cannot grow beyond 2^30 elements. | Cora.Growable.C95_init_wrong, Cora.Growable.C95_growth_wrong |
| C96 | net-listen does not close its socket if the port cannot be used, so that every attempt loses a descriptor; it does not look at the host and listens for connections to any; and a port that is not below 65536 is taken modulo 65536. | Cora.Sockets.C96_listen_lost_wrong, Cora.Sockets.C96_listen_host_wrong, Cora.Sockets.C96_port_wrong |
| C97 | On BSD and macOS net-poll-mod only adds: a descriptor that was watched for writing still is after net-poll-mod with reading only, which lib/async.cora relies on; net-poll-del does not remove a descriptor that is watched for writing only, since the first of two changes fails; more than two modes overwrite memory. On Linux a descriptor that has only an error is not reported, and the call ends at once each time. | Cora.Watch.C97_kqueue_narrow_wrong, Cora.Watch.C97_kqueue_delete_wrong, Cora.Watch.C97_kqueue_overflow_wrong, Cora.Watch.C97_error_wrong |
| C98 | On Linux a second waiting send on a connection is never woken (as C63); on BSD and macOS it is, but a connection on which a task once waited to send is reported whenever it is writable, although nobody waits, so the scheduler spins. | Cora.Async.C98_epoll_second_wrong, Cora.Async.C98_kqueue_noisy_wrong |
| C99 | With 2 GB or more in use the sum of the sizes becomes a negative int, is added as a huge unsigned number, and the result is converted to int, which is undefined. | Cora.Pace.C99_large_wrong |
| C100 | `pclose` returns the C int itself and not a number made of it. A status other than 0 becomes a tiny fraction: it equals no integer and comparing or adding it stops the program. When `pclose` fails (−1) the word is taken for a heap object at a wild address. A `popen` that fails returns a stream with the null pointer. | Cora.Os.C100_pclose_wrong, Cora.Os.C100_pclose_fails_wrong, Cora.Os.C100_popen_fails_wrong |
| C101 | There is no lock (`TODO: lock!`). Two threads that use a new name at the same moment are given different symbols for it, and the first is given the other symbol when it asks again. Two threads that use different new names at the same moment: one of the names is lost, and its symbol differs the next time. Making a further machine (`coraInit`, which `new-proc` calls) makes the table all machines share empty: from then on every name is another symbol than the ones the program holds. | Cora.Threads.C101_same_moment_wrong, Cora.Threads.C101_lost_wrong, Cora.Threads.C101_new_machine_wrong |
| C103 | The checks look at the header without looking at the word (vector-ref, vector-set!, car, the string functions, calls), or at the tag without asking whether the word is a number (vector?, set, the functions on C objects). So (vector? 23) ends the process. For each object there is an integer that passes for a reference to it. A symbol with a name of 3, 4, 5 or 7 characters (mod 256) passes for a pair, string, vector or function: (string-length 'list) is 1953720684, and calling a symbol of 263 characters jumps to an address spelled in its name. Compiled car checks nothing. | C103_vector_number_wrong, C103_forged_wrong, C103_number_as_pointer_wrong, C103_symbol_wrong, C103_compiled_car_wrong |
| C60 | `(func f x => 1 y z)`: the patterns behind the last rule are dropped without a word. | C60_leftover_wrong |
| C104 | Neither packageIDAlloc (its comment says: TODO: thread safe) nor the test of packageID in a library is protected. Two threads that load different libraries at the same time may give both the same number; a machine that loads both then uses the table of the later one for both, and the code of the first reads variables of the second. Two threads that load the same library at the same time may give it a second number after the first thread has made its table; the code of the library in the first thread then reads past the end of its table. | C104_two_libraries_wrong, C104_same_library_wrong |
| C105 | A type in which a type variable made before occurs (a number, as in (forall (a) (list 1000))) is refused: replace-tvlist has no rule for numbers. A variable may not be called tvar unless it is the last one: (forall (tvar a) (tvar -> a)) calls the variable. | C105_made_before_wrong, C105_tvar_wrong |
| C106 | The header src/cora.h promises functions for numbers, pairs, strings and vectors. `coraFixnum` answers an `int`, so every number of cora outside 32 bits is read as a different one (`4294967301` as 5). `coraMustCObj`, `coraIsNumber`, `coraMakeBytes`, `coraBytesLen`, `coraCar`, `coraCdr`, `coraVectorAppend`, `coraIsVector` and `coraVectorLength` are declared and defined nowhere. | C106_fixnum_wrong, C106_declared_wrong |
| C108 | schedule waits for all external schedulers one after the other (lib/cml.cora:39-44, 56): with two of them the second is waited for although the first has made a task ready; if nothing comes from the second the program hangs. | C108_waits_wrong, C108_waits_partial |
| C109 | a throw from so deep that activations and segments take 64 megabytes (about two million activations) does not reach its handler: the size is an int and the allocator asserts that it is below one arena; between 64 megabytes and 2 gigabytes the program is stopped by the assertion, beyond that the behaviour is undefined | C109_deep_wrong |
| C110 | shift takes any number of expressions after the variable, but the expander keeps the first expression of a lambda form and drops the others without a word | C110_body_wrong |
| C111 | the registry has no lock. A resolve during a publication reads a name that is not there yet (C111_null_wrong) or fails an assertion (C111_assert_wrong): the process ends. Two publications at the same time can take the same slot: both return, one name then stands for the mailbox of the other and the other for nothing (C111_race_wrong) | C111_null_wrong, C111_assert_wrong, C111_race_wrong |
| C112 | the names of generated symbols are ordinary names: interning such a name, or reading the printed symbol back, gives another symbol with the same name and the same C variable | C112_same_name_wrong |

## 5. What is modelled and what is not

Modelled (the header of each file in `lean/Verif/Model` lists its simplifications):

| source | model |
|--------|-------|
| `src/types.h`, `src/types.c`, `src/gc.h`: the words, numbers, `eq`, vectors, symbols | `NaNBox`, `Eq`, `Vector`, `Symbols` |
| `src/map.h` | `Trie` |
| `src/str.c`, the string functions of `lib/string.c` and `src/runtime.c` | `Str` |
| `src/reader.c` | `Reader` |
| `src/runtime.h`, `src/runtime.c`: stack segments, calls, currying, dispatch, `try`/`throw`/resume, `apply` | `VM` |
| `src/runtime.c`: `load`, `import` | `Import` |
| `src/gc.c`: size classes, versions, gray queue | `GCBase` |
| `src/gc.c`: collector, barriers, sweeping, flips | `GC` |
| `src/gc.c`: allocation of blocks and large objects | `Alloc` |
| `init.cora`: macros, macro expander, namespaces | `Macro` |
| `init.cora`, `lib/sys.cora`: lists | `ListLib` |
| `lib/toc.cora`: parse, closure conversion, tailify, liveness, collecting; the statements of the generated code | `Compile`, `CompileRun`, `CompileMachine` |
| `lib/toc/internal.c` | `Ident` |
| `lib/eval.cora` | `Interp` |
| `lib/peval.cora` | `Peval` |
| `lib/queue.cora`, `lib/chan.cora`, `lib/cml.cora`, `lib/hash.cora`, `lib/monad.cora`, `lib/define-record.cora`, `lib/peg.cora`, `lib/sxml.cora`, `lib/ukanren.cora` | `Queue`, `Chan`, `Shuffle`, `Hash`, `Monad`, `Record`, `Peg`, `Sxml`, `Unify` |
| `lib/ukanren.cora`: search | `Kanren` |
| `lib/net.c`: `net-send`, `net-recv`, addresses; `lib/async.cora`: `send`, `recv` | `Net` |
| lib/async.cora event loop, lib/epoll.c | Model/Async (connections are numbers, a descriptor is not reused after closing, epoll errors other than for missing or closed descriptors are left out, tasks are opaque) |
| lib/hash-h.c hash-to-number | Model/HashNum |
| lib/cml.cora scheduler | Model/Cml (no external schedulers; tasks are given by what they do between two pauses) |
| lib/io.c (read-all, copy, write-bytes) | Model/Io |
| lib/os.c (cmdListStr, exec, popen) | Model/Os |
| lib/infer.cora (unification) | Model/Infer |
| lib/infer.cora (checking) | Model/Infer, Model/InferRules |
| lib/let-loop.cora | Model/Loop |
| lib/sys.cora (values) | Model/Loop |
| lib/sys.cora (thread-local), src/runtime.c:983-995 | Model/Tls |
| lib/md4c/wrap.c (callbacks) | Model/Md (the parser's reports are given; entities are kept as written) |
| lib/parallel/internal.c, lib/parallel.cora | Model/Parallel (the sections under the lock are steps; a write to the pipe of a waiting receiver is its waking up); Model/ParallelMem (the linked queues in memory) |
| lib/parallel/internal.c (registry) | Model/Parallel (publications and resolutions one at a time; the code takes no lock) |
| lib/toc.cora:257-606 (code generation), lib/toc/internal.c | Model/CodeGen (text as bytes), Model/CodeRun and Model/CodeMachine (meaning of the text) |
| lib/toc.cora:607-677 | Model/Toc (names and strings must be UTF-8; importing while compiling is a parameter: macros known after a list of packages; data that is no core form after expansion is not compiled) |
| src/runtime.c:19-87,95-171, src/runtime.h:22-173 | Model/SegMachine (one register is one unit of address; malloc is any function that gives memory that does not overlap what is allocated) |
| src/runtime.c:69-171,325-352,1130-1154, src/types.c:30-76,192-227, lib/toc.cora:301-442 | Model/HeapMachine (relational: the schedule of the collector is open; statements rather than C text; symbols made by gensym are roots; operands are evaluated from left to right) |
| src/trace.h, src/trace.c, lib/trace.c:6-30, tools/trace.go | Model/Trace (one thread; fwrite writes everything at once), Model/TraceThreads (several threads) |
| main.c (repl, shebang) | Model/Script.lean |
| lib/toc.cora:517-524,666-677, init.cora:309-311, lib/eval.cora, src/types.c:171-192 (names when bootstrapping) | Model/Boot.lean |
| src/runtime.c:325-352,387-461 (load, load-so) | Model/Load.lean |
| lib/json.c (all; jansson by what its manual says), src/types.c:48-59 | Model/Json.lean |
| main.c:6-81 with init.cora:304-312, lib/eval.cora | Model/Repl |
| lib/string.c:54-60,84-92,161-194, src/types.c:100-131, src/runtime.c:240-254, lib/net.c:240-245, lib/hash-h.c:63-69, lib/rand.c | Model/Buffer.lean |
| lib/io.c:16-63 | Model/Files.lean (links, `.` and `..` are left out; errors of the system other than refusals too) |
| src/runtime.c:997-1058 | Model/Register.lean (`init` of a module and the heap are left out) |
| lib/ukanren.cora:159-184 | Model/Reify.lean |
| lib/trace.c:19-55 | Model/TraceWrap.lean |
| init.cora:35-88 (table and expander) | Model/MacroTable.lean |
| src/vector.h:8-71 | Model/Growable |
| lib/net.c:39-126, 211-237 | Model/Sockets |
| lib/epoll.c, lib/kqueue.c, lib/net.c:148-153, 247-281 | Model/Watch |
| lib/async.cora:81-262 with lib/epoll.c or lib/kqueue.c | Model/AsyncSys |
| src/gc.c:176-199, 236-241, 270-309, 377-398, 789-805, 898-947 | Model/Pace |
| lib/os.c:20-48 | Model/Os |
| src/types.c:152-168 and src/map.h:28-62 (several threads) | Model/InternThreads |
| src/gc.c:96-99, 311-328, 650-693 | Model/Pointer |
| src/types.c:55-59, 110-146, 275-298, 334-342; src/types.h:54-58, 72-73, 95; src/runtime.h:91-103; src/runtime.c:204-220 | Model/Kinds |
| src/runtime.c:315-323, 1062-1065, 1108-1116; src/runtime.h:36-57, 190-193; lib/toc.cora:568-595 | Model/Packages |
| lib/infer.cora:7-26 | Model/Forall |
| src/export.c | Model/Export |
| lib/cml.cora:33-73 | Model/CmlEvents |
| src/runtime.c:718-796, 805-826 (continuation objects) | Model/Continuation |
| lib/monad.cora:64-67 (shift) | Model/Shift |
| lib/parallel/internal.c:285-329 (mailboxPublish, mailboxResolve as interleaved steps) | Model/Registry |
| src/runtime.c:931-943 (primGenSym), src/types.c:170-191 (symbolStr, both kinds) | Model/GenName |
| src/map.h:28-45, 83-101 | Model/MapCost (with Model/Trie) |

The programs the theorems talk about run in the core language of `Spec/Lang.lean`, an evaluator written from the
language's description and not from the code; the models of the compiler, the interpreter, the macro expander and the partial
evaluator are each related to it.

Not modelled:

* `lib/md4c/md4c.c` (a third-party Markdown parser), the tests, `tools`, `example`, and the libraries not listed above as far as no property names them.
* The C compiler itself. The text of generated C files is modelled (C77); its meaning is that of the part of C in Spec/CLang and Model/CodeRun.
* System calls: files, sockets, threads, `mmap`, `dlopen`. Where a model needs them they are parameters (file contents,
  modification times, addresses of new segments, random numbers).
* Failure of `malloc`. Arithmetic of `int` counters beyond 2^31, except where a definition says that it is modelled.
* Values held only in local variables of C functions between two collection points (C27, C31).
* Most models stand for one layer. For compiled programs the layers are joined: C78 goes from the bytes of a source file through the
  reader, the expander, the compiler and the generator to runs of the C file, and C79 puts these runs on the stack of segments. C80
  adds the heap and the collector, at the level of the compiler's statements (not of the C text). C83 puts the partial evaluator
  between expander and compiler, as the distributed build does.

### Comparison with the repository

`tools/conform.sh` evaluates the model's compiler (reader, expander, partial evaluator, compiler and C generator) on the text of
`/repo/init.cora` and `/repo/lib/toc.cora` and compares the result with the checked-in `init.c` and `lib/toc.c`. Both are the same byte
for byte, and both programs meet the conditions of C55 and C77. This is a test of the model, not a proof; no theorem depends on it.
