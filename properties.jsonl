{"id": "C01", "title": "A value is exactly one of: number, symbol, string, pair, closure, C object, immediate", "statement": "Packing a pointer payload below 2^48 with one of the tags and then asking for its tag and payload gives them back; the kind predicates on the packed value answer true for that kind only; and no integer produced by the runtime is ever mistaken for a boxed value (number? holds of it; the predicates for symbols, strings, pairs, closures, C objects and immediates fail). vector?, which does not ask whether the word is a number, is the subject of C103.", "quantifier": "every payload below 2^48, every tag, every 64-bit integer", "why_tests_cant": "the domain is 2^64 bit patterns; a single integer whose IEEE encoding collides with the tag mask would corrupt the heap", "anchors": ["src/gc.h:OBJ_MASK,MASK,tag,ptr", "src/types.h:isobj,isNumber,iscons,isBytes,iscobj,makeNaNPtr", "src/types.c:makeNumber"]}
{"id": "C02", "title": "Integers up to 2^53 are exact", "statement": "For all integers with absolute value at most 2^53: storing and reading back gives the same integer, distinct integers are distinct values, and +, -, * on values agree with integer arithmetic whenever the result is again in that range; < and > agree with the integer order. Outside the range the stored value is the nearest double.", "quantifier": "every pair of integers (range stated), every 64-bit integer for storage", "why_tests_cant": "rounding errors appear only for particular magnitudes among 2^64 values", "anchors": ["src/types.c:makeNumber", "src/types.h:fixnum,isfixnum", "src/runtime.h:PRIM_ADD,PRIM_SUB,PRIM_MUL,PRIM_GT,PRIM_LT"]}
{"id": "C03", "title": "Division divides", "statement": "(/ a b) for integers a, b with b not 0 is the truncated integer quotient a/b.", "quantifier": "every pair of integers in the exact range, b not 0", "why_tests_cant": "a few literals such as (/ 1 1) give the right answer by accident", "anchors": ["src/runtime.c:primDiv", "init.cora:cora/init#*builtin-prims*"]}
{"id": "C04", "title": "= is structural equality and an equivalence", "statement": "(= a b) is true exactly when a and b are the same number, symbol, immediate or object, or are pairs with = components, or are strings with the same bytes. It is reflexive, symmetric, transitive and a congruence for cons. Pairs nested to any depth are compared fully.", "quantifier": "all pairs and triples of finite values", "why_tests_cant": "values are unboundedly deep; transitivity ranges over triples", "anchors": ["src/types.h:eq", "src/str.c:strCmp"]}
{"id": "C05", "title": "String buffers never overflow and hold exactly what was appended", "statement": "After any sequence of append-character, append-string, copy, reserve and shrink operations on a string buffer the content is the concatenation the operations describe, it is followed by a NUL, and every write stayed inside the allocated capacity.", "quantifier": "every sequence of buffer operations with every argument", "why_tests_cant": "the growth boundary (len+2 > cap) is crossed only at particular lengths", "anchors": ["src/str.c:strAppend,strCat,strCpy,strBufReserve,strShrink,growCap,fromBlk,strNew"]}
{"id": "C06", "title": "String comparison is a total order", "statement": "string-compare gives a total preorder: antisymmetric in sign, transitive, total, and 0 exactly on equal byte sequences (contents below 2^31 bytes).", "quantifier": "all pairs and triples of strings", "why_tests_cant": "transitivity over signed-character comparison and the length difference cannot be enumerated", "anchors": ["src/str.c:strCmp", "lib/string.c:stringCompare"]}
{"id": "C07", "title": "Substring search finds the first occurrence", "statement": "Searching s for p reports the smallest index at which p occurs in s, and reports absence exactly when p occurs nowhere; string-contain? and has-prefix? agree with the mathematical substring and prefix relations; strChr and strRchr report the first and last occurrence of a byte.", "quantifier": "all strings s and patterns p", "why_tests_cant": "off-by-one errors at the end of the text depend on lengths and overlaps", "anchors": ["src/str.c:strStr,strChr,strRchr", "lib/string.c:stringContain,stringHasPrefix"]}
{"id": "C08", "title": "Slicing returns the addressed bytes and never reads outside the string", "statement": "string-slice with in-range indices i <= j returns bytes i..j-1; negative indices count from the end; out-of-range or inverted ranges give the empty string or are refused, and no byte outside the string is read.", "quantifier": "all strings and all integer index pairs", "why_tests_cant": "boundary behaviour at 0, len, -len and inverted ranges for every length", "anchors": ["src/str.c:ptrByIdx,strSub", "lib/string.c:stringSlice"]}
{"id": "C09", "title": "string-split undoes joining", "statement": "Joining the pieces of (string-split s sep) with sep gives back s, and no piece contains sep.", "quantifier": "all strings s, all non-empty separators", "why_tests_cant": "adjacent, leading and trailing separators in every combination", "anchors": ["lib/string.c:stringSplit"]}
{"id": "C10", "title": "string-replace replaces the first occurrence only", "statement": "(string-replace s p r) equals s with its first occurrence of p replaced by r, and s itself when p does not occur.", "quantifier": "all strings s, p, r", "why_tests_cant": "overlap and position of the occurrence vary with the inputs", "anchors": ["lib/string.c:stringReplace"]}
{"id": "C11", "title": "string-append concatenates", "statement": "(string-append a b) has the bytes of a followed by those of b, for all strings, and it never aborts.", "quantifier": "all pairs of strings", "why_tests_cant": "the degenerate case (both empty) reaches an assertion", "anchors": ["src/runtime.c:builtinStringAppend", "src/str.c:strNew"]}
{"id": "C12", "title": "The hash trie is a map, for every hash function", "statement": "After any sequence of insertions, looking a key up returns the value most recently stored for that key and nothing for a key never stored, whatever the hash function, including full 64-bit collisions.", "quantifier": "every sequence of insertions, every key, every hash function", "why_tests_cant": "collisions of a 64-bit hash cannot be produced by tests", "anchors": ["src/map.h:_map_lookup,_map_set,fnv1a64"]}
{"id": "C13", "title": "Interning is injective and stable", "statement": "Interning the same name twice gives the same symbol, interning different names gives different symbols, and symbol->string of an interned symbol gives its name back, after any history of interning.", "quantifier": "every history of intern calls, every NUL-free name", "why_tests_cant": "histories are unbounded and hash collisions cannot be provoked", "anchors": ["src/types.c:intern,symbolStr", "src/map.h"]}
{"id": "C14", "title": "A global variable holds the last value set", "statement": "After any history of set and lookups, (value s) returns the last value set for s and is unaffected by sets of other symbols; the slot index of a symbol never changes once assigned; reading a symbol never set traps; value-or returns its default in that case.", "quantifier": "every history of set/value/value-or operations on every symbol", "why_tests_cant": "the slot table grows with history; interference depends on the order of first uses", "anchors": ["src/runtime.c:bindSymbol,symbolGet,primSet,builtinValue,builtinValueOr", "src/runtime.h:globalRef,globalSet"]}
{"id": "C15", "title": "A package is loaded at most once", "statement": "In any history of import calls the body of a given package is run at most once, and a cyclic import terminates.", "quantifier": "every import graph, every sequence of imports", "why_tests_cant": "import graphs are unbounded and may be cyclic", "anchors": ["src/runtime.c:builtinImport,builtinLoad"]}
{"id": "C16", "title": "Vectors behave as arrays", "statement": "After any sequence of vector-set! on a vector of length n: vector-ref i returns the last value stored at i (or undef), other positions are untouched, the length never changes, and an index outside 0..n-1 traps instead of touching memory.", "quantifier": "every sequence of stores, every index including negative ones", "why_tests_cant": "boundary indices and store orders are unbounded", "anchors": ["src/types.c:makeVector,vectorRef,vectorSet,vectorLength", "src/runtime.c:builtinVectorRef,builtinVectorSet"]}
{"id": "C17", "title": "vector-append extends without losing elements", "statement": "Appending x to a vector of length n yields a vector of length n+1 with the same first n elements and x last, never writing outside the allocated block; repeated appends hold exactly the appended sequence.", "quantifier": "every sequence of appends from every initial vector", "why_tests_cant": "capacity boundaries (powers of two, 1024) are hit at particular lengths", "anchors": ["src/types.c:vectorAppend"]}
{"id": "C18", "title": "Reading back printed data gives the same data", "statement": "For every datum built from integers, booleans, symbols, strings without quote, and proper lists, printing it and reading the text gives an equal datum and consumes exactly the printed text.", "quantifier": "every finite datum of the stated grammar, any nesting", "why_tests_cant": "nesting is unbounded; adjacency of tokens depends on the whole datum", "anchors": ["src/reader.c:sexpRead,readCons,readNumber,printObj,printCons"]}
{"id": "C19", "title": "Whitespace and comments between tokens do not change what is read", "statement": "Putting any amount of whitespace and ;-comments in front of a datum does not change the datum read.", "quantifier": "every datum text and every run of blanks and comments", "why_tests_cant": "runs of blanks and comments are unbounded", "anchors": ["src/reader.c:eatWhitespace,peekFirstChar,sexpRead"]}
{"id": "C20", "title": "Every byte string can be written as a string literal", "statement": "For every byte string (within the reader's size limit) there is an escaped literal that reads back as exactly that string.", "quantifier": "every byte string", "why_tests_cant": "escape handling interacts with each byte value and position", "anchors": ["src/reader.c:sexpRead"]}
{"id": "C21", "title": "List syntax: any spacing, dotted pairs and end of input", "statement": "A list may be written with blanks before the closing parenthesis, (a . b) reads as the pair it prints for, and an unterminated list is reported as an error.", "quantifier": "every list text", "why_tests_cant": "failure needs one particular spacing", "anchors": ["src/reader.c:readCons,printCons"]}
{"id": "C22", "title": "The reader stays inside its buffers", "statement": "Reading any text, however long its tokens, never writes outside the token buffers.", "quantifier": "every input text", "why_tests_cant": "overflow needs tokens longer than a limit", "anchors": ["src/reader.c:readNumber,sexpRead"]}
{"id": "C23", "title": "Calls and returns nest: the caller's registers survive", "statement": "In any well-nested execution of calls and returns, when a call returns the caller resumes at its own label with its own frame base and stack pointer, the stack segment it used is current again, and no register of a suspended caller was overwritten.", "quantifier": "every well-nested sequence of calls, frame sizes and segment overflows, unbounded depth", "why_tests_cant": "segment boundaries are crossed only at particular depth and frame-size combinations", "anchors": ["src/runtime.h:stackAlloc,coraReturn,saveCont", "src/runtime.c:stackAllocSlowPath,coraReturnSlowPath,coraCall"]}
{"id": "C24", "title": "Currying: how arguments are grouped does not matter", "statement": "Applying an n-ary function to its arguments in any number of groups gives the same result as applying it to all of them at once; supplying too few gives a function awaiting the rest; supplying more applies the result to the remaining arguments.", "quantifier": "every arity, every argument list, every grouping", "why_tests_cant": "groupings are exponential in the number of arguments", "anchors": ["src/runtime.c:coraDispatch,callCurry,makeCurry,coraCall"]}
{"id": "C25", "title": "Tail calls run in constant space", "statement": "A loop of any number of tail calls uses the same number of call-stack frames and register slots as one iteration.", "quantifier": "every number of iterations", "why_tests_cant": "leaks show only after a segment has been filled", "anchors": ["src/runtime.h:coraCall1-4", "src/runtime.c:builtinApply,coraCall"]}
{"id": "C26", "title": "try/throw/resume: delimited control is exact", "statement": "Throwing v inside a try body calls that try's handler with v and a resume function, with the stack of the try's caller; calling resume with w continues the body as if throw had returned w; nested tries are matched innermost-first; a body that does not throw returns its value and restores the handler stack.", "quantifier": "every nesting of try, every depth of calls between try and throw", "why_tests_cant": "depth and nesting are unbounded", "anchors": ["src/runtime.c:builtinTryCatch,builtinThrow,makeContinuation,continuationAsClosure"]}
{"id": "C27", "title": "Everything a running program can still use is a collector root", "statement": "At each point where collection may start, every value the rest of the execution can reach is reachable from the declared roots (globals, current frame registers, result register, saved frames).", "quantifier": "every machine state at a collection point", "why_tests_cant": "collection points are triggered by allocation volume, so tests see only a few", "anchors": ["src/runtime.c:coraGCFunc,coraRun,coraDispatch"]}
{"id": "C28", "title": "apply calls with exactly the given arguments", "statement": "(apply f args) calls f with the elements of args in order when their number is f's arity, and never calls f with a wrong number of arguments.", "quantifier": "every argument list and arity", "why_tests_cant": "all list lengths against all arities", "anchors": ["src/runtime.c:builtinApply"]}
{"id": "C29", "title": "Small allocations get a slot large enough, with no smaller class that would do", "statement": "For every request up to the small-object limit the chosen size class holds it, and the next smaller class does not.", "quantifier": "every request size", "why_tests_cant": "off-by-one errors sit at class boundaries", "anchors": ["src/gc.c:sizeClassSz,sizeClassSlot,getSlotBySize"]}
{"id": "C30", "title": "Wrap-around version comparison orders any two live versions correctly", "statement": "Object versions are stored in 6 bits; for any two versions less than half the range apart the comparison gives the order of the unbounded counters they stand for, for counters of any size.", "quantifier": "all pairs of unbounded counters within the window", "why_tests_cant": "wrap-around happens only after many collections", "anchors": ["src/gc.c:versionCmp,nextVersion"]}
{"id": "C31", "title": "The collector never frees an object the program can still reach", "statement": "In every interleaving of allocation, pointer stores through the write barriers, incremental marking steps, cycle starts and sweeps, an object reachable from the roots is never reclaimed or reused.", "quantifier": "every heap, every mutation history, every interleaving of collector steps", "why_tests_cant": "the schedule space is infinite and the failures are rare", "anchors": ["src/gc.c:gcRunIncremental,gcFlip,gcMark,markObject,gcMarkRoot,writeBarrierForIncremental,writeBarrierForGeneration,gcRSet,sweepSizeClass,inuse"]}
{"id": "C32", "title": "Garbage is eventually reclaimed", "statement": "An object that stays unreachable is reclaimed within a bounded number of collection cycles, and each marking phase terminates.", "quantifier": "every heap and every unreachable object", "why_tests_cant": "the bound involves wrap-around versions over many cycles", "anchors": ["src/gc.c:gcRunIncremental,gcFlip,nextVersion,inuse"]}
{"id": "C33", "title": "The gray queue is first-in first-out and loses nothing", "statement": "After any sequence of enqueues and dequeues with any growth of its chunks, dequeued objects are exactly the enqueued ones in order.", "quantifier": "every sequence of operations", "why_tests_cant": "chunk boundaries", "anchors": ["src/gc.c:grayEnqueue,grayDequeue,grayEmpty"]}
{"id": "C34", "title": "Two live objects never share memory", "statement": "Every allocation returns a region that does not overlap any region still in use, stays inside its block, and is at least as large as requested.", "quantifier": "every sequence of allocations and frees of any sizes", "why_tests_cant": "fragmentation patterns are unbounded", "anchors": ["src/gc.c:blockAlloc,gcAlloc,heapArenaAllocLarge,gcAllocLargeObject,sweepLargeObjects"]}
{"id": "C35", "title": "Compiled code computes what the source means", "statement": "For every expression of the core language (constants, variables, lambda, if, do, let, primitive and function application) the program after the compiler's passes evaluates to the same value and performs the same global updates in the same order as the source.", "quantifier": "every closed core expression, every input, any nesting", "why_tests_cant": "programs are unbounded", "anchors": ["lib/toc.cora:parse,closure-convert,tailify,liveness-analyze,collect-cont,collect-lambda,codegen"]}
{"id": "C36", "title": "Free variables are exactly the captured variables", "statement": "The set of variables the compiler captures for a lambda is exactly the set of variables occurring free in it, without duplicates.", "quantifier": "every expression", "why_tests_cant": "shadowing combinations are unbounded", "anchors": ["lib/toc.cora:free-vars,union,diff,closure-convert"]}
{"id": "C37", "title": "No continuation loses a live local", "statement": "At each non-tail call the compiler saves every local variable that the code after the call uses.", "quantifier": "every expression with calls nested anywhere", "why_tests_cant": "liveness depends on the whole program", "anchors": ["lib/toc.cora:liveness-analyze,tailify,collect-cont,save-to-frame,recover-from-frame"]}
{"id": "C38", "title": "Generated C identifiers do not collide", "statement": "Two different cora names are translated to two different C identifiers, each of which is a valid identifier.", "quantifier": "every pair of names", "why_tests_cant": "pairs of strings are infinite", "anchors": ["lib/toc/internal.c:generateSym"]}
{"id": "C39", "title": "String constants survive compilation", "statement": "A string constant in the source is the string the compiled program sees, whatever bytes it contains.", "quantifier": "every string", "why_tests_cant": "escape sequences interact", "anchors": ["lib/toc/internal.c:escapeStr"]}
{"id": "C40", "title": "The interpreter agrees with lexical scoping", "statement": "eval of a core expression gives the value the reference semantics (lexical scope, call by value, left to right) gives.", "quantifier": "every core expression and environment", "why_tests_cant": "programs are unbounded", "anchors": ["lib/eval.cora"]}
{"id": "C41", "title": "List library laws", "statement": "reverse, map, filter, append, length, elem? compute the mathematical functions on proper lists of any length, in order, applying the function argument once per element from left to right.", "quantifier": "every list, every function argument", "why_tests_cant": "lists are unbounded", "anchors": ["init.cora:reverse,map,filter,append,length,elem?"]}
{"id": "C42", "title": "let, cond, and, or, begin mean what they say", "statement": "The expansions evaluate operands left to right, each at most once, stop at the deciding operand, and (let x1 e1 ... body) binds sequentially.", "quantifier": "every operand list of any length with arbitrary (effectful) operands", "why_tests_cant": "number and effects of operands are unbounded", "anchors": ["init.cora:rewrite-let,cond,rewrite-or,rewrite-and,rewrite-begin"]}
{"id": "C43", "title": "match runs the first clause that matches, with the pattern's variables bound", "statement": "(match v p1 a1 p2 a2 ...) evaluates the action of the first pattern that matches the value of v (and whose guard holds), with each pattern variable bound to the corresponding component; v is evaluated once; if none matches an error is raised.", "quantifier": "every pattern nesting, every clause list, every value", "why_tests_cant": "patterns and values are unboundedly deep", "anchors": ["init.cora:match1,match-cons-expander,match-helper,rewrite-match,extract-rule-action"]}
{"id": "C44", "title": "Quasi-quotation builds the template", "statement": "Evaluating `t gives t with every (unquote e) replaced by the value of e and everything else as literal data.", "quantifier": "every template", "why_tests_cant": "templates are unboundedly deep", "anchors": ["init.cora:rewrite-backquote,rcons"]}
{"id": "C45", "title": "Namespaces resolve names deterministically", "statement": "Inside a package, a name bound locally refers to the local binding, a builtin to the builtin, a name exported by an imported package to that package's definition (the most recent import that exports it), and anything else to this package's own global; definitions of different packages do not clash.", "quantifier": "every expression, import list and export table", "why_tests_cant": "combinations of imports and shadowing are unbounded", "anchors": ["init.cora:parse,lookup-var,var-with-ns"]}
{"id": "C46", "title": "The queue is first-in first-out and counts its elements", "statement": "After any sequence of enqueue and dequeue the dequeued elements are the enqueued ones in order, queue-len is the number of elements left, queue-empty? tells whether it is zero.", "quantifier": "every sequence of operations", "why_tests_cant": "the two-stack flip happens at history-dependent points", "anchors": ["lib/queue.cora"]}
{"id": "C47", "title": "Channels deliver each message once, in order", "statement": "Every value sent on a channel is received by exactly one receiver, senders and receivers are paired first-come first-served, and nobody stays blocked while a partner waits. Functions an operation is wrapped in are applied to what it yields, the first one first.", "quantifier": "every interleaving of senders and receivers, every value sent", "why_tests_cant": "interleavings are unbounded; particular values misbehave", "anchors": ["lib/chan.cora", "lib/cml.cora:perform"]}
{"id": "C48", "title": "choice commits to exactly one alternative", "statement": "Performing a choice of operations completes exactly one of them, and resumes the performing coroutine exactly once.", "quantifier": "every set of alternatives and every later history of partners", "why_tests_cant": "the second commit needs a particular schedule", "anchors": ["lib/cml.cora:choice-op,perform", "lib/chan.cora:recv-block,send-block"]}
{"id": "C49", "title": "shuffle is a permutation", "statement": "shuffle returns the same elements with the same multiplicities whatever the random numbers.", "quantifier": "every list and every stream of random numbers", "why_tests_cant": "random streams are infinite", "anchors": ["lib/cml.cora:random-split,random-merge,shuffle"]}
{"id": "C50", "title": "The hash library is a finite map", "statement": "hash-set!, hash-get, hash-del! and hash-count behave as a finite map from keys to values, for any number of buckets and any collisions.", "quantifier": "every history of operations and every key", "why_tests_cant": "collisions and deletions in colliding buckets are rare", "anchors": ["lib/hash.cora", "lib/hash-h.c"]}
{"id": "C51", "title": "Parser combinators follow PEG ordered choice", "statement": "A successful parser consumes a prefix of its input, and @or tries the second alternative on the same input as the first; @* and @+ match maximally and never lose tokens.", "quantifier": "every parser built from the combinators, every token list", "why_tests_cant": "grammars and inputs are unbounded", "anchors": ["lib/peg.cora"]}
{"id": "C52", "title": "XML output is well-escaped", "statement": "No text or attribute value can introduce markup: the escaped text contains no raw <, >, & (other than entity starts) or double quote, and unescaping it gives the original text.", "quantifier": "every string", "why_tests_cant": "all strings", "anchors": ["lib/sxml.cora:string->escaped-xml,buffer-append"]}
{"id": "C53", "title": "Records: getters see the last setter, constructors fill the named fields", "statement": "For any record declaration with distinct field names, a getter returns the value given to the constructor or to the last setter for that field, other fields are untouched, and the predicate recognises exactly its own records among the values for which vector? answers (all but certain numbers, see C103).", "quantifier": "every record declaration, every sequence of sets", "why_tests_cant": "any number of fields", "anchors": ["lib/define-record.cora"]}
{"id": "C54", "title": "State and continuation monads obey the monad laws", "statement": "Left identity, right identity and associativity hold for the bind/return pairs: left identity for everything, the other two for every action, that is a function that uses its continuation as one (and return and bind make actions); reset runs an action with the identity.", "quantifier": "all values, functions and actions, all states", "why_tests_cant": "quantifies over all functions", "anchors": ["lib/monad.cora"]}
{"id": "C55", "title": "Partial evaluation preserves meaning", "statement": "peval of an expression evaluates to the same value with the same effects as the expression.", "quantifier": "every expression and environment", "why_tests_cant": "programs are unbounded", "anchors": ["lib/peval.cora"]}
{"id": "C56", "title": "Unification returns a unifier", "statement": "If unify succeeds the returned substitution makes both terms equal and extends the given one; if it fails no extension of the given substitution makes them equal.", "quantifier": "all pairs of terms and substitutions", "why_tests_cant": "terms are unbounded", "anchors": ["lib/ukanren.cora:unify,walk"]}
{"id": "C57", "title": "A source file is read as all of its forms, in order", "statement": "Reading a file that consists of forms with blanks and comments around them gives the list of those forms in order: a single form as itself, several as (begin form ...).", "quantifier": "every file text of the grammar, any number of forms", "why_tests_cant": "files are unbounded", "anchors": ["src/runtime.c:builtinReadFileAsSexp"]}
{"id": "C58", "title": "An import loads the compiled file exactly when it is not stale", "statement": "(import name) loads $CORAPATH/pkg/name.so if it is readable and no readable $CORAPATH/pkg/name.cora is newer, and compiles and loads $CORAPATH/pkg/name.cora otherwise.", "quantifier": "every package name, every state of the files", "why_tests_cant": "file states are unbounded", "anchors": ["src/runtime.c:builtinImport,safeToUseSo"]}
{"id": "C59", "title": "List notation builds the list", "statement": "[e1 ... en] evaluates its elements once each, from left to right, and gives the list of their values; [e1 ... en . t] gives those values followed by the value of t.", "quantifier": "any number of elements, arbitrary (effectful) element expressions", "why_tests_cant": "element expressions and list lengths are unbounded", "anchors": ["init.cora:rcons,rcons1,list,list-rest"]}
{"id": "C60", "title": "func runs the first rule that matches its arguments", "statement": "A function defined by (func name p11 ... p1n => a1 p21 ... p2n => a2 ...) applied to n arguments runs the action of the first rule whose n patterns match the arguments and whose guard holds, with the pattern variables bound to the matching parts. A definition whose rules have different numbers of patterns is refused.", "quantifier": "every rule list, every argument list", "why_tests_cant": "rules, patterns and arguments are unbounded", "anchors": ["init.cora:func,extract-rules1,rules-arg-count,gen-paramenters"]}
{"id": "C61", "title": "Relational search finds every answer and nothing else", "statement": "(take n s) gives solutions of the goal only, at most n of them, and all of them if there are fewer than n; every solution is among the first answers for some n, also when another branch of the search never ends; (take-all s) and (run * ...) give exactly the solutions when they end.", "quantifier": "every goal built from ==, call/fresh, conj, disj, Zzz, conj+, disj+, fresh and recursive relations, every state, every number of answers", "why_tests_cant": "searches are infinite and goals are unbounded; a test sees the first answers of a few goals", "anchors": ["lib/ukanren.cora:procedure?,mplus,bind,conj,disj,call/fresh,Zzz,pull,take,take-all,run"]}
{"id": "C62", "title": "A finished send has sent the whole buffer, a finished receive has filled it", "statement": "When (send conn buf) returns [ok], the operating system has been given exactly the bytes of buf, each once and in order; when (recv conn buf) returns [ok], buf holds the next bytes of the stream in order and nothing behind them was consumed; an error or a closed connection is reported. An address host:port is split at its first colon.", "quantifier": "every buffer, every stream, every sequence of partial transfers, waits and errors of the operating system", "why_tests_cant": "the operating system may cut a transfer at any byte and interrupt it at any call", "anchors": ["lib/net.c:netSend,netRecv,splitHostAndPort", "lib/async.cora:send,send-op,send-handler,recv,recv-op,recv-handler"]}
{"id": "C63", "title": "The event loop wakes waiting tasks", "statement": "A task that waits to receive, accept or send on an open connection is woken when the connection becomes ready for that, once, in the order of the readiness reports; no task that waits is forgotten.", "quantifier": "all histories of receiving, accepting, sending, readiness reports and closing over any number of connections and tasks", "why_tests_cant": "Which tasks share a connection, in which order connections become ready and when they are closed cannot be enumerated by tests.", "anchors": ["lib/async.cora event-loop-add, add-to-event-loop-conns, del-from-event-loop-conns, recv-handler, send-handler, accept-op, conn-close, scheduler", "lib/epoll.c pollReadAdd, pollWriteAdd, pollCtlMod, pollCtlDel, poll"]}
{"id": "C64", "title": "The event loop stops exactly when nobody waits", "statement": "The scheduler of the event loop answers that there is no more task only if no task waits on an open connection, and it does so when no task waits; the decision always ends.", "quantifier": "all histories of receiving, accepting, sending, readiness reports and closing", "why_tests_cant": "The decision walks a linked list that every operation changes; a wrong link would show only in some histories.", "anchors": ["lib/async.cora blocked-queue-empty?, scheduler, add-to-event-loop-conns, del-from-event-loop-conns"]}
{"id": "C65", "title": "Equal keys have the same hash number", "statement": "Two keys that are equal by = have the same hash number, whatever they are made of, so a table finds what was stored under an equal key; an integer is its own hash number and a short ASCII symbol has a hash number that is not negative.", "quantifier": "all pairs of keys in any memory", "why_tests_cant": "The hash function looks at tags and memory; a key that is equal but laid out differently can only be excluded for all layouts by proof.", "anchors": ["lib/hash-h.c hashToNumberHelp, hashForString", "src/types.h eq"]}
{"id": "C66", "title": "Cooperative tasks take turns", "statement": "Tasks that are ready run first come first served: a task that yields goes to the end of the queue, behind the tasks it made ready; no task that is ready is passed over; cml-entry returns exactly when no task is ready any more.", "quantifier": "all programs of tasks (what a task does in one go is any function of the task and the world), all numbers of tasks and turns", "why_tests_cant": "The order depends on who spawns, yields and blocks when; the scheduler calls itself from inside the tasks it runs, so its own nesting depends on the history.", "anchors": ["lib/cml.cora cml-entry, schedule, schedule-loop, spawn, yield, perform, enqueue-task"]}
{"id": "C67", "title": "Files are read, copied and written exactly", "statement": "read-all returns every byte that is left in the file, and reading again returns nothing. copy appends to the second file exactly the bytes that were left in the first. write-bytes appends exactly the given bytes, in order, however the system splits the transfer, and returns. (The code gives: copy drops the bytes of a short write; write-bytes never returns when the file takes nothing.)", "quantifier": "every content and length of the file, every sequence of answers the system gives to the writes", "why_tests_cant": "contents of every length around the batch size, and every sequence of short writes", "anchors": ["lib/io.c: ioReadAll, ioCopy, ioWrite"]}
{"id": "C68", "title": "A command gets the arguments it was given", "statement": "exec and popen run the program named by the first string with the other strings as its arguments, one argument for each string. (The code gives this for non-empty strings of letters, digits and a few signs: blanks inside a string split it, empty strings vanish.)", "quantifier": "every list of strings", "why_tests_cant": "any number of arguments with any bytes in them", "anchors": ["lib/os.c: cmdListStr, exec, popenFn"]}
{"id": "C69", "title": "Types are unified exactly", "statement": "Two types are unified if and only if some assignment to their type variables makes them equal; the answer has exactly the assignments that make the types equal as solutions, and unification always ends. (The code gives this for types of constants, variables and functions; with lists and functions without parameter it may accept types that no assignment makes equal, and need not end.)", "quantifier": "every list of equations between types, any size and any sharing of variables", "why_tests_cant": "equations of any number and size, solved one after the other", "anchors": ["lib/infer.cora: unify, unify1, occur?, apply-subst"]}
{"id": "C70", "title": "The type checker accepts what has a type, and what it accepts does not go wrong", "statement": "The type checker ends for every program, accepts it if and only if it has a simple type, finds the most general one, and the evaluation of an accepted program never calls a non-function, tests a non-boolean, passes a declared function an argument of another kind or uses an unbound name. (The code gives this for programs that call only functions of declared ground type.)", "quantifier": "every program of constants, variables, conditionals, functions, let and calls; every set of declarations; every behaviour of the declared functions within their types; every number of evaluation steps", "why_tests_cant": "programs of any size and evaluations of any length", "anchors": ["lib/infer.cora: check-type, check-type-h, check-type!, declare"]}
{"id": "C71", "title": "let-loop is a loop", "statement": "(let-loop name (x1 e1 \u2026 xn en) body) evaluates e1 \u2026 en once, from left to right, then body with the variables bound to the values; in body, calling name with n values evaluates body again with the variables bound to them. (The code gives this for n > 0.)", "quantifier": "every name, every list of variables and initial expressions, every body, every environment and state of the program", "why_tests_cant": "programs of any size, any number of variables, any number of turns", "anchors": ["lib/let-loop.cora: let-loop, rewrite-let-loop-macro, extract-params-h, extract-init-h"]}
{"id": "C72", "title": "Several values arrive where they are taken", "statement": "(let-values (x1 \u2026 xn) m body), when m returns (values e1 \u2026 en), evaluates body with x1 \u2026 xn bound to the values that e1 \u2026 en had where the values form was evaluated, each evaluated once there from left to right, whatever the names in the program.", "quantifier": "every number of values, all expressions, every body, every environment and state of the program", "why_tests_cant": "programs of any size, any number of values", "anchors": ["lib/sys.cora: values, let-values, call-with-values"]}
{"id": "C73", "title": "Thread-local variables are local and keep the last value", "statement": "After any history of machines starting and setting thread-local variables, reading a variable gives what this machine last set it to since it started; a variable it did not set is an error; what other machines do has no effect.", "quantifier": "every history of starts and sets, any number of machines at any 64-bit addresses, all keys and values", "why_tests_cant": "any number of machines, any interleaving, any length of history", "anchors": ["lib/sys.cora: thread-local-get, thread-local-set, assq", "src/runtime.c: primVMSymbolForTLS, vmSymbolForTLS, coraNew", "init.cora: filter"]}
{"id": "C74", "title": "Markdown becomes the document it describes", "statement": "Converting a Markdown document gives data with the elements nested exactly as the parser reports them, with all their text and attributes, and writing that data as XML gives the document: every tag matched, every text and attribute value standing for the original.", "quantifier": "every tree of blocks, spans, texts, breaks and rules of any size and depth; all attribute texts; all contents of fresh memory", "why_tests_cant": "documents of any size and nesting depth", "anchors": ["lib/md4c/wrap.c: process-file, md_sxml, enter_block_callback, leave_block_callback, enter_span_callback, leave_span_callback, text_callback, md_html_push, md_html_pop", "lib/sxml.cora: sxml->xml"]}
{"id": "C75", "title": "Every message sent to a mailbox is received exactly once, in order", "statement": "Threads send messages to a mailbox and receive from it. Every message is received by one receiver, messages arrive in the order in which they were sent, and a receiver that waits wakes up when a message comes, with that message.", "quantifier": "all schedules of sends, looks and waits of any number of threads, all messages", "why_tests_cant": "every interleaving of the threads", "anchors": ["lib/parallel/internal.c: mailboxSend, mailboxRecvTry, wakeupBlocked, mailboxEnqueueBlocked", "lib/parallel.cora: mailbox-recv", "lib/cml.cora: perform"]}
{"id": "C76", "title": "A published name stands for the mailbox first published under it", "statement": "After any publications of mailboxes under names, resolving a name gives the mailbox first published under that name, and the empty list when none was; there is room for 255 publications whatever the names.", "quantifier": "all sequences of publications, all names, whatever their hash values", "why_tests_cant": "all sets of names and all their collisions", "anchors": ["lib/parallel/internal.c: mailboxPublish, mailboxResolve, fnv1aHash", "src/str.c: strCmp"]}
{"id": "C77", "title": "The C file that the compiler writes does what the program says", "statement": "The C file written for a program is accepted by a C compiler. Loading it fills its table with the symbols of the program and starts the toplevel code. Each of its functions does what the function of the program does, so loading the files of a session one after the other gives the values and the changes of global variables that the language defines.", "quantifier": "all programs, all sessions of compiled files, all machine states from which a file is loaded, all behaviours of builtin functions", "why_tests_cant": "all programs and all names of variables", "anchors": ["lib/toc.cora: generate-c, generate-entry, generate-toplevel-lambda, generate-cont, generate-inst, generate-call, save-to-frame, recover-from-frame, symbol-offset, add-symbol-to-list", "lib/toc/internal.c: builtinGenerateSym, builtinGenerateStr, builtinGenerateNum, builtinEscapeStr", "src/runtime.h: saveCont, coraReturn, coraCall", "src/runtime.c: builtinLoadSo, coraRun"]}
{"id": "C78", "title": "A source file becomes a C file that does what its text says", "statement": "Compiling the text of a source file, in any layout, gives the C file of its program: the forms of the file in order, derived forms expanded, names resolved (after importing the packages at the start of the file). Notes for the type checker do not change the C file. Loading the C files of a session one after the other gives the values and global variables that the language defines for the texts.", "quantifier": "all source texts, layouts, comments and notes; all packages and headers; all sets of macros beyond those of init.cora; all sessions; all machine states from which a file is loaded", "why_tests_cant": "all source texts, all macros known to the compiler", "anchors": ["lib/toc.cora: handle-import-eagerly, split-type-and-code, extract-typecheck-body, split-type-and-code-toplevel, preprocess, compile-to-c", "init.cora: macroexpand, package", "src/runtime.c: builtinReadFileAsSexp"]}
{"id": "C79", "title": "Compiled programs do what they mean however deep their calls are nested", "statement": "On the runtime's stack, which grows by segments of 256 registers, loading the C files of a session gives the values and global variables that the language defines; it always ends if no function is called with more arguments than it takes. Afterwards every segment that was allocated for calls is freed, no other segment is, and callers find their registers and frames unchanged.", "quantifier": "all sessions of source files and of programs, all depths of nested calls, all addresses that malloc may give, all states of the stack from which a file is loaded", "why_tests_cant": "calls cross a segment border at every possible register, to any depth", "anchors": ["src/runtime.c: segmentStackAlloc, segmentStackFree, stackAllocSlowPath, coraReturnSlowPath, coraRun, coraCall, coraDispatch, builtinLoadSo", "src/runtime.h: struct segmentStack, stackAlloc, coraReturn"]}
{"id": "C80", "title": "Compiled programs do what they mean whatever the collector does", "statement": "Compiled files are loaded one after the other on the collected heap. The collector may start a cycle between any two blocks of code and may mark, sweep, free and reuse memory at every allocation, as much as it likes. There is always a run that ends, and whenever a run ends its result and the global variables are those that the language defines, no object they lead to has been freed, and callers find their registers, frames and objects unchanged.", "quantifier": "all sessions of programs, all schedules of the collector, all states of the heap that an execution can reach, all layouts of blocks, all addresses that malloc may give", "why_tests_cant": "a collector bug shows only when a cycle starts and ends at the wrong moment; there are unboundedly many schedules", "anchors": ["src/runtime.c: coraRun, coraCall, coraDispatch, makeCurry, callCurry, coraGCFunc, builtinLoadSo", "src/runtime.h: globalSet, closureRef, coraReturn", "src/gc.c: gcAlloc, gcMarkRoot, gcRunIncremental, gcFlip, writeBarrierForIncremental", "src/types.c: makeCons, makeNative, consGCFunc, nativeGCFunc"]}
{"id": "C81", "title": "A trace file lists every traced event once, in order", "statement": "While tracing is on, the beginning and the end of every call of a traced function are recorded. When tracing is turned off or the process exits, the tool that reads trace files finds in the file exactly the events that happened while it was open, each once, in order, with name, thread, number and time; recording never writes outside of its buffer, and other files are left alone.", "quantifier": "all histories of turning tracing on and off, to any files, and of events with any names, times and numbers", "why_tests_cant": "events are buffered and the buffer is written when it is full: the border falls on every possible event", "anchors": ["src/trace.h: traceEmitEvent, traceFlush, TRACE_SCOPE", "src/trace.c: traceInit, traceClose", "lib/trace.c: trace-enable, trace-disable, traceWrap", "src/types.c: symbolStr", "tools/trace.go: main"]}
{"id": "C82", "title": "A script runs its forms in order", "statement": "`cora file args...` skips the first line of the file, sets *command-line-args* to the list of the arguments from the file's name on, and then expands and evaluates the forms of the rest of the file one after the other, each in the state that the ones before it have left, to the end of the file.", "quantifier": "every script (first line, forms, blanks and comments between them), every list of arguments, every effect of evaluation, every content of the uninitialised line buffer", "why_tests_cant": "The failing cases depend on the length of the first line (254 bytes, or 255 and more) and on what happens to be in an uninitialised buffer. A test script has a short first line.", "anchors": ["main.c: repl, shebang"]}
{"id": "C83", "title": "Optimised programs do what their source says", "statement": "The distributed compiler partially evaluates a program after macro expansion. When the source files of a session are compiled that way and their C files are compiled and loaded one after the other, loading each ends, with a result and global variables that look like those which the language defines for the source programs as they were written, before optimisation. This also holds on the stack of segments and on the collected heap.", "quantifier": "every session of source files whose programs meet the conditions of C55 (partial evaluation is safe) and whose optimised programs meet those of C77; every set of builtin functions that treats functions as black boxes; every placement of segments, every schedule of the collector", "why_tests_cant": "Tests run the programs of the test suite as they come out of the optimiser; whether another program is changed by being optimised cannot be seen from them.", "anchors": ["lib/peval.cora: peval", "init.cora: macroexpand", "lib/toc.cora: compile-to-c", "lib/eval.cora", "main.c: main"]}
{"id": "C84", "title": "Loading a source file runs the code compiled from the text it has now", "statement": "`(load path)` compiles the file to C, runs the C compiler, opens the library and runs its code. In every history of loads in a process, whatever happens to other files in between, each load runs the code that the compiler makes of the text the file has at that time. The library of a file in `$CORAPATH` is written next to the file, where `import` looks for it; the library of any other file goes to /tmp under a name of its own.", "quantifier": "every history of loads in one process, every change of the files by others between and during loads (except of the two files a load is writing), every text, every path, every value of `$CORAPATH`", "why_tests_cant": "Tests load a file once in a fresh process. Which library a load opens depends on all loads before it, on the place of the file relative to `$CORAPATH` and on other processes.", "anchors": ["src/runtime.c: builtinLoad, builtinLoadSo, getCoraPath, unique", "src/str.c: strCmp, strSub", "src/config.c: coraSrcDir"]}
{"id": "C85", "title": "What a program finds out about a JSON document is what the document says", "statement": "`json-load-file` gives a value that stands for the document in the file, for as long as the program runs, or `()` if there is none. `json-typeof` and the predicates name its type, `json-string-value` and `json-integer-value` give its contents, `json-array-get` and `json-object-get` give values for its parts and `()` for parts that are not there. If a program gets the same answers from two documents whatever it asks, they are the same document.", "quantifier": "every document, every path into it, every question, every sequence of loads, every argument that is no document", "why_tests_cant": "Tests look at a few documents. That nothing of a document is lost, and that values stay valid, is a statement about all documents, all paths and all histories.", "anchors": ["lib/json.c: jsonLoadFile, jsonTypeOf, jsonIsArray, jsonStringValue, jsonIntegerValue, jsonArraySize, jsonArrayGet, jsonObjectSize, jsonObjectGet", "src/types.c: makeCObj, mustCObj"]}
{"id": "C86", "title": "A script does what its text says", "statement": "If the language defines a value for every form of a script, each in the world that the forms before it have left, then running the script (or typing the forms at the prompt) expands, optimises and interprets them so that each is answered with its value, names exported by packages imported so far refer to those packages, and at the end the global variables and everything outside are as the language says.", "quantifier": "every text with any forms in any layout and with comments; every script name and arguments; every state of the process that agrees with a world of the language; every package imported before or during the script", "why_tests_cant": "It depends on the reader, the expander, the partial evaluator and the interpreter together, on arbitrary programs and on the history of earlier forms; tests run a few scripts.", "anchors": ["main.c: repl, shebang, main", "init.cora: macroexpand, rewrite-namespace", "lib/eval.cora: eval, lookup-var", "lib/peval.cora: peval"]}
{"id": "C87", "title": "Byte buffers hold what was copied into them", "statement": "`(bytes n)` and `(make-buffer n)` make a buffer of n bytes; `(memcpy to i from j n)` replaces the n bytes at i in one buffer or string by those at j in another, and changes nothing else; `string-length`, `byte-ref` and `string->list` give the length and the bytes.", "quantifier": "every history of buffers made and ranges copied, every contents of fresh memory", "why_tests_cant": "Histories are unbounded, and fresh memory has arbitrary contents; a test sees one of them.", "anchors": ["lib/string.c: bytesMemCpy, bytesRef, stringToList, bytesLength", "src/types.c: makeBytes, makeString", "src/runtime.c: builtinBytes, builtinBytesLength", "lib/net.c: makeBuffer"]}
{"id": "C88", "title": "Numbers have their decimal numerals, and mod and randN give remainders", "statement": "`number->string` gives the decimal numeral of an integer: different numbers have different texts, and the text reads back as the number. `(mod a b)` is the remainder of the division of a by b that rounds towards zero. `(randN n)` is one of 0, ..., n-1.", "quantifier": "every integer in the range of 64 bits (text), every dividend up to 2^53 and every divisor (mod), every positive n and every result of rand", "why_tests_cant": "Tests try a few numbers; the buffer for the text has 32 bytes, and that this is enough is a statement about all numbers.", "anchors": ["lib/string.c: numberToString", "lib/hash-h.c: builtinMod", "lib/rand.c: builtinN"]}
{"id": "C89", "title": "Opening a file for writing makes the directories on the way and nothing else", "statement": "`(open-output-file path)` opens the file that the path leads to, new or emptied; the directories on the way that are missing are made; no other file or directory is made or changed.", "quantifier": "every file system, working directory and path (absolute or relative, with any number of slashes between names)", "why_tests_cant": "File systems and paths are unbounded; tests use one path in one directory.", "anchors": ["lib/io.c: mkdirP, builtinOpenOutputFile", "src/str.c: strRchr"]}
{"id": "C90", "title": "The functions of a C library are the variables that its package exports", "statement": "After a library of C functions is registered as a package, the package exports exactly the names of the library; in a file that imports it each name refers to the function registered under it, which asks for the number of arguments it was registered with; all other names and variables are as before. Registering the functions one by one (`coraRegisterAPI`) does the same as registering them in a table, and loading the library again changes nothing of this. Without a package the functions are the values of the plain names.", "quantifier": "every library, package name, state of the global variables and content of fresh memory", "why_tests_cant": "Libraries, names and earlier states are unbounded; tests load a few libraries once.", "anchors": ["src/runtime.c: registerAPI, coraRegisterAPI", "src/types.c: makeNative", "lib/io.c: entry"]}
{"id": "C91", "title": "Answers of logic programs are shown with their free variables numbered", "statement": "`reify` gives for each state the term that the first variable stands for in all solutions of the state, with its free variables named `_.0`, `_.1`, \u2026 in the order of their first occurrence; two answers are shown alike exactly when they are the same up to the names of variables.", "quantifier": "every list of states with substitutions without cycles, all terms", "why_tests_cant": "Terms and substitutions are unbounded; that equal answers look equal is a statement about all pairs.", "anchors": ["lib/ukanren.cora: reify, reify-state, reify-s, reify-name, walk*"]}
{"id": "C92", "title": "Tracing functions does not change what a program does", "statement": "After `(trace 'f)` a program runs step for step as it did before: the same values, the same control, and the same end, but for the traced functions themselves where they are values. Each call of a traced function records its name once. `(untrace 'f)` puts the function back as it was, and does nothing to a function not traced under that name.", "quantifier": "every program that does not look inside functions, every set of traced functions (also traced twice), every number of steps, all globals", "why_tests_cant": "Tracing replaces functions by others in a running program; that nothing else changes is a statement about all programs, with control operators, continuations and partial application, and all runs.", "anchors": ["lib/trace.c: traceWrap, builtinTrace, builtinUntrace", "src/runtime.c: coraRun, coraCall"]}
{"id": "C93", "title": "Macros are expanded everywhere, by their last definition, and nothing else is changed", "statement": "After any definitions of macros, expanding a form replaces every use of a macro, wherever its value is needed, by what the last definition of the macro makes of the form, again and again until none is left; quoted data, parameter lists and everything that is no use of a macro stay as they are. The result does not depend on anything else, and expanding it again changes nothing.", "quantifier": "every sequence of macro definitions, also ones that call the expander (as match does), every form of any size", "why_tests_cant": "Macros are arbitrary functions on forms; that all uses are found and nothing else is touched is a statement about all forms and all tables of macros.", "anchors": ["init.cora: add-to-*macros*, macroexpand1-h, macroexpand-boot, macroexpand, defmacro"]}
{"id": "C94", "title": "The interpreter and the compiler agree", "statement": "The same text, typed to the interpreter or compiled to C and loaded, has the same effect: if both start with the same global variables and the language defines a value for each form, then both end, the last answer looks like the result of loading, the outside of the program is in the same state, the same global variables are set, and their values look the same (the same data, with functions at the same places).", "quantifier": "all texts (in any layout and with any comments) of one or more forms, all states of the global variables and of the outside, all functions of the outside that do not look into functions, all machine states from which the compiled file is loaded", "why_tests_cant": "The two implementations share almost no code: one walks data structures, the other is generated C on a register machine. Tests compare them on a few programs.", "anchors": ["lib/eval.cora: eval", "lib/toc.cora: compile-to-c", "main.c: repl", "init.cora: macroexpand", "src/runtime.c: builtinLoadSo, coraCall, coraReturn"]}
{"id": "C95", "title": "Growable vectors behave like sequences", "statement": "The vectors that hold the call stack, the marks of try, the stack segments, the global variables and the packages answer as a sequence would, whatever is appended, read, replaced and popped, as long as it makes sense for the sequence; no memory is accessed that may not be, also when the vector moves; the memory used is at most twice of what is needed; and freeing gives all of it back. If there is no more memory the program says so and ends.", "quantifier": "all sequences of operations, all sizes of elements, all behaviours of the allocator (where blocks go, and when it refuses)", "why_tests_cant": "Errors would show only at the lengths where the vector moves, and depend on what the allocator does.", "anchors": ["src/vector.h: _vector_append, _vector_init, _vector_free, vecGet, vecSet, vecPop"]}
{"id": "C96", "title": "Connections are opened and closed, and no descriptor is lost", "statement": "net-dial connects to the first address of the host that answers, with a descriptor that was not open and does not block, and changes nothing else; if it fails, nothing stays open. net-listen and net-accept give descriptors that were not open, listen at the given port (or belong to a connection that came in at it) and do not block. After any history a descriptor is open exactly if it was open before or was given to the program, and was not closed since.", "quantifier": "all arguments, all tables of open descriptors, all answers of the operating system (another one for each call), all histories of calls", "why_tests_cant": "Which call fails depends on the network and on other programs; a descriptor that is lost shows only after many failures.", "anchors": ["lib/net.c: netListen, netDial, netAccept, netClose, setNonBlock, splitHostAndPort"]}
{"id": "C97", "title": "Watched descriptors are reported when they are ready", "statement": "After any history of opening and closing descriptors and of net-poll-add, net-poll-mod and net-poll-del, net-poll answers with an entry for each descriptor and mode that are watched and ready, with the value that was given last; none is there twice, none for what is not watched, and none is missing if there are not more than 64. Interrupted calls are made again. This is so on Linux and on BSD and macOS.", "quantifier": "all histories, all values, all ways in which descriptors are ready, all orders in which the kernel considers them, any number of interruptions", "why_tests_cant": "Tests run on one system and with few descriptors; what is watched depends on the whole history.", "anchors": ["lib/epoll.c: pollReadAdd, pollWriteAdd, pollCtlMod, pollCtlDel, poll", "lib/kqueue.c: pollReadAdd, pollWriteAdd, pollCtlMod, pollCtlDel, poll", "lib/net.c: pollAdd, pollMod, pollDel, netPoll"]}
{"id": "C98", "title": "Waiting tasks are woken on Linux and on BSD and macOS", "statement": "On either system, after any history of receiving, accepting, sending, readiness and closing in which one task at a time waits for a connection and a mode, exactly the tasks whose connections became ready were woken, in that order, the others are kept, net-poll reports an open connection when it becomes ready for something a task waits for, and only then.", "quantifier": "all histories of the event loop, all connections and tasks", "why_tests_cant": "Tests run on one system; what the kernel's table holds depends on the whole history, and a task that is never woken or a loop that never sleeps shows only in some histories.", "anchors": ["lib/async.cora: event-loop-add, conn-close, recv-handler, send-handler, scheduler", "lib/epoll.c", "lib/kqueue.c", "lib/net.c: netPoll, pollAdd, pollMod, pollDel"]}
{"id": "C99", "title": "Collections begin neither too early nor too late", "statement": "A collection begins only after more than a block (4096 bytes) was allocated since the last one began. When the machine asks and none begins, then no more was allocated since the last one began than three times the memory found in use and what is allocated during a collection, or a block. After each collection the threshold is two fifths of what is in use and allocated on average and three fifths of the last threshold, at most half again of the last, at least a block.", "quantifier": "all histories of allocations and of moments at which the machine asks, all amounts in use and allocated meanwhile", "why_tests_cant": "The threshold is computed with floating point from averages over the whole history; a drift, an overflow or a threshold that runs away shows only in long runs or with large heaps.", "anchors": ["src/gc.c: struct GCStats, gcInit, allocDone, gcInuseSizeInc, gcTriggerCheck, gcMarkRoot, gcFlip", "src/runtime.c: coraRun"]}
{"id": "C100", "title": "A program learns how a command ended", "statement": "`exec` returns the number the system reported, equal to this number and to no other. The stream `popen` returned is the one `pclose` waits for, and `pclose` returns the status the system reported; in particular it equals 0 exactly for a command that ended well.", "quantifier": "all statuses (every 32-bit number, also the one that reports a failure), all streams, all numbers they are compared with", "why_tests_cant": "Scripts are tested with commands that succeed; the status 0 happens to be the same word as the number 0.", "anchors": ["lib/os.c: exec, popenFn, pcloseFn", "src/types.c: makeCObj, mustCObj", "src/types.h: makeNumber, fixnum, eq"]}
{"id": "C101", "title": "A name is one symbol in all threads", "statement": "The machines of all threads share one table of symbols: two uses of a name, in whichever threads and in whatever order, give the same symbol, uses of different names give different symbols, and every use is answered for the name it was given.", "quantifier": "any number of threads, all names, all schedules of their uses (each use in three steps: looking up, finding the place, linking), all addresses the allocator gives", "why_tests_cant": "The window is a few instructions wide and only open for a name no thread has used before; a test that runs threads sees it by luck only.", "anchors": ["src/types.c: intern, symbolIntern", "src/map.h: lookup, _map_get, _map_set"]}
{"id": "C102", "title": "A reference is resolved to the object it points into", "statement": "When the collector meets a word - in a register, on the stack, in a field, possibly a leftover - it decides whether the word refers to an object in use and which one. For every history of allocations, marking, sweeping and flips, wherever the system has mapped the arenas and in whatever order they are looked through: a reference (bytes, pair, native or general) to any byte of an object in use, small or large, leads to the start of this object and to the block of this byte; every other word (a number, a symbol, a constant, a reference to memory that has been given back, that belongs to the collector's own queue, that lies behind the last object of a block, or that is not cora's at all) leads to none. In no case is a header read that is not there.", "quantifier": "all histories of allocations of any sizes with marking, sweeping, use of blocks by the collector's queue and flips in between; all placements of the arenas in memory; all orders of the arenas; all 64-bit words", "why_tests_cant": "The bad words are the ones a test does not produce: a leftover on the stack that points into the middle of an object, into the unused end of a block, or into a block that has been given to another size class. Getting one of them wrong keeps garbage, or marks memory that is no header and corrupts it, long before anything is seen.", "anchors": ["src/gc.c: checkPointer, gcContains, heapArenaContains, inuse, updateLargeObjectMeta", "src/gc.h: isScmHead, ptr"]}
{"id": "C103", "title": "A value of the wrong kind stops the program", "statement": "Given a pair, a string, a vector or a function, the operations of its kind give what it holds. Given a value of any other kind they stop the program: nothing is read or written through it, nothing is called. vector? answers true for vectors and false for all other values. set changes the variable of a symbol and stops for everything else. A function that wants a C object gets the pointer of a C object and stops for everything else. This holds for every value, numbers included.", "quantifier": "all memories in which the objects lie as laid out and the first page is not mapped; all words: references to all objects, symbols with all names, constants, C objects, all numbers; all indexes", "why_tests_cant": "Which numbers and which symbols slip through depends on their bits: one number in eight, the names of certain lengths. A test with 1, 2 and 'foo sees a clean stop (or nothing at all); (vector? 23) ends the process, and a number made from an address reads and writes the heap.", "anchors": ["src/types.c: isvector, vectorLength, vectorRef, vectorSet, bytesLen, bytesData, mustCObj", "src/types.h: car, cdr, PRIM_CAR", "src/runtime.h: coraCall0", "src/runtime.c: primSet, builtinApply", "src/str.c: struct _strBuf"]}
{"id": "C104", "title": "A library finds its own variables in every machine", "statement": "A compiled library mentions variables by name. In every machine that has loaded the library, whichever thread it belongs to and whatever libraries it has loaded before and after, the code of the library finds the variable of that very name in the table of the library: reading it gives the last value set in this machine, by name or by any library, and setting it sets that variable. Loading a library a second time, or in a second machine, changes nothing of this. It holds for all orders in which threads load libraries.", "quantifier": "all libraries with all lists of names; all numbers of threads and machines; all histories of loading, setting and reading, with every order of the steps of the threads", "why_tests_cant": "Two threads must load a library within the few instructions between reading and writing a number. Then nothing fails at once: a library reads the variable of another one, or past the end of a table, much later.", "anchors": ["src/runtime.c: packageIDAlloc, addPackage, bindSymbol, builtinLoadSo", "src/runtime.h: getBinding, globalRef, struct Cora", "lib/toc.cora: generate-entry, generate-c", "lib/parallel/internal.c: newProc"]}
{"id": "C105", "title": "forall makes a new copy of a type", "statement": "(forall (v1 ... vn) type) gives the type with new type variables in the places of v1 ... vn: the same variable in all places of one name, different ones for different names, none of them in use before, and everything else as written. Evaluating it again, or another such form, gives variables that no earlier type has. Nothing else changes. This holds for every list of names and every type.", "quantifier": "all lists of different names; all types: names, lists and variables nested in any way; all environments and states of the program; all numbers of variables made before", "why_tests_cant": "The form is expanded to a let around a quasi-quotation. Whether a type is copied right depends on its shape and on the names chosen in it; a test has one shape and the names a, b.", "anchors": ["lib/infer.cora: forall, append-tvar, replace-tvlist, tvar", "init.cora: let, backquote, macroexpand"]}
{"id": "C106", "title": "Values cross the border to a host program unchanged", "statement": "A program in another language that uses cora as a library gets back what it put in: every int given to coraMakeNumber is the number with that value and coraFixnum answers the same int; the bytes given to coraMakeString or coraMakeCString are the bytes of the string and are seen again behind coraBytesData; a vector made with coraMakeVector is an array under coraVectorSet and coraVectorRef, which trap outside its size; coraReverse reverses every list and traps on anything else. Numbers outside the range of int are not read with their value, and nine of the functions in the header do not exist.", "quantifier": "every int, every number of cora, every memory contents and length, every history of stores, every list or other value", "why_tests_cant": "there are 2^32 ints and unboundedly many strings, vectors, histories and lists; tests of the library call the internal functions, not these", "anchors": ["src/export.c: coraMakeNumber, coraFixnum, coraMakeString, coraMakeCString, coraBytesData, coraMakeVector, coraVectorRef, coraVectorSet, coraReverse", "src/cora.h", "src/reader.c: reverse"]}
{"id": "C107", "title": "fold-apply nests calls to the right", "statement": "(fold-apply f e1 ... en) with n >= 2 evaluates e1 ... en once each, from left to right, and then combines their values with the function f from the right: f v1 (f v2 (... (f v(n-1) vn))), the innermost application first. With fewer than two expressions the program is refused when it is expanded. The macro (-> x f g ...) of the compiler stands for the nested calls (... (g (f x))).", "quantifier": "every number of expressions, arbitrary (effectful) expressions, every function named by a local variable, a built-in function or a global variable the expressions leave alone", "why_tests_cant": "expressions, their effects and their number are unbounded", "anchors": ["init.cora:fold-apply,rewrite-fold-apply", "lib/toc.cora:->,rewrite-->macro"]}
{"id": "C108", "title": "Tasks that wait for the outside world", "statement": "Before a task gets its turn, every registered external scheduler is looked at once, the latest registered first, so a busy program does not miss events; the program waits for events only when no task is ready and a scheduler said that more may come; a task that is ready is not passed over whatever the schedulers bring; cml-entry returns only when no task is ready and every scheduler says that no more will come, and it does return then. (The code gives: with two schedulers it waits for the second one although the first has just made a task ready, and can hang for ever.)", "quantifier": "all programs of tasks that register schedulers, spawn, yield and block; all schedulers (any function of the world); all numbers of tasks, schedulers and steps", "why_tests_cant": "the order of events and turns depends on the history; the scheduler calls itself from inside the tasks it runs", "anchors": ["lib/cml.cora: register-scheduler, run-external-schedulers, schedule, schedule-loop, cml-entry, perform, yield", "lib/async.cora: scheduler, event-loop-init", "lib/sys.cora: foldl"]}
{"id": "C109", "title": "What throw captures is what resume puts back", "statement": "A throw keeps every activation and every stack segment between its try and itself, in one heap object, and cuts them off the stacks. Whatever the program writes elsewhere afterwards, calling the resume function puts exactly those activations and segments, in order, on top of its caller's; on the stacks the throw left, that gives back the stacks it found. While the resume function is reachable the collector marks exactly the registers of those activations. Nothing outside of the object is written or read. This holds for every depth.", "quantifier": "every call stack, segment table and position of the try, every placement of the object, every later contents of the rest of the memory", "why_tests_cant": "depths and later writes are unbounded; the layout of the object depends on both lengths", "anchors": ["src/runtime.c:makeContinuation,continuationGCFunc,continuationAsClosure,builtinThrow", "src/gc.c:gcAlloc,gcAllocLargeObject", "src/types.c:newObj"]}
{"id": "C110", "title": "shift takes the rest of the computation up to reset", "statement": "(shift k e) inside (reset ...) evaluates e with k bound to the rest of the computation up to the reset: calling k with a value, any number of times, runs the rest with this value and gives its result, and the value of e is the result of the reset. Like the body of a sequence, (shift k e1 ... en) evaluates all its expressions.", "quantifier": "every variable, every expression (with arbitrary effects), every continuation, every environment and state", "why_tests_cant": "expressions, continuations and the number of calls of k are unbounded", "anchors": ["lib/monad.cora:shift,reset,cont-bind", "init.cora:cora/init#macroexpand-boot"]}
{"id": "C111", "title": "Procs may publish and resolve mailboxes at the same time", "statement": "Several procs may call mailbox-publish and mailbox-resolve at the same time. Whatever the interleaving, every call returns; a resolve gives the mailbox first published under the name, or () when no publication of the name has returned by then; nothing else happens to the process until the registry is full.", "quantifier": "every number of procs, every names and mailboxes, every interleaving of the reads and writes of the calls", "why_tests_cant": "the interleavings, procs and calls are unbounded, and a test sees a race only with luck", "anchors": ["lib/parallel/internal.c:mailboxPublish,mailboxResolve,registry", "lib/parallel.cora:mailbox-publish,mailbox-resolve"]}
{"id": "C112", "title": "A generated symbol has a name of its own", "statement": "(gensym) makes a symbol that is different from every other symbol in use. symbol->string gives a name that no other symbol in use has, and the compiler writes a C variable for it that is not the variable of another symbol.", "quantifier": "every address the allocator can give, every table of symbols, every history of interning", "why_tests_cant": "addresses and names are unbounded; a test sees a few symbols and never a name chosen to collide", "anchors": ["src/runtime.c:primGenSym,symbolToString", "src/types.c:symbolStr", "src/types.h:makeNaNPtr", "lib/toc/internal.c:builtinGenerateSym"]}
{"id": "C113", "title": "Lookups in a map are short: integers never collide, and every comparison settles two more bits", "statement": "In a map of the runtime (src/map.h), after any sequence of insertions, a lookup compares the key only with keys that were stored, with none twice, and the key it compares with after n others has the first 2n bits of the hash in common with the key looked up. So when no two keys have the same hash, a lookup compares with at most 33 keys however many are stored. The two hash functions for integers are permutations: different integers have different hashes.", "quantifier": "all sequences of insertions, all keys, all hash functions; all 32-bit and 64-bit integers", "why_tests_cant": "2^64 integers, and maps of every size and shape, cannot be tried; a hash function that loses one bit collides only on pairs a test will not pick.", "anchors": ["src/map.h: lookup, _map_get, _map_set, mapGet, mapSet, lowbias32, mix64"]}
