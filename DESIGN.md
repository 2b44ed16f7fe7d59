# Formal model of GNU Smalltalk (VM and kernel library)

Lean 4 model of selected C functions (`libgst/`, `lib-src/`) and Smalltalk
methods (`kernel/`) of gnu-smalltalk, with theorems for every input, state or
execution of the model.

## Layout

* `properties.jsonl` – the properties, in terms of the API and observable effects.
* `lean/Verif/<Area>/` – one directory and one namespace `Verif.<Area>` per area.
  `Model.lean` (or a file named after the code, such as `RB.lean`, `Page.lean`)
  holds the code, function by function, each definition citing file and lines
  and its simplifications.  `Spec.lean` holds the specification where it is more
  than a line.  `Lemmas`/`Proofs`/`Inv`/`Refine` hold helper lemmas.  `Props` or
  `Theorems` hold the property theorems, each with a concrete `example` meeting
  its hypotheses.  Small areas have all of these in one file, in that order.
* `MANIFEST.json` – property → theorem names and status.
* `seeded/LOG.jsonl` – wrong programs tried against the theorems.

## Conventions

* A theorem named `…_partial` proves the property under an extra hypothesis; its
  comment says what is missing.  Where the missing part is false of the code,
  there is a theorem next to it that proves so with a concrete witness.
* C undefined behaviour, failed assertions, calls to `abort` and endless loops
  are outcomes of their own in the model (`none`, `.undef`, `.abort`, …), never
  silently given a value.  Recursion that is not structural takes fuel, and
  theorems either hold for every fuel that is enough or prove that it is enough.
* Specifications are written without the helpers of the model: sets, lists,
  finite maps, integers, inductive relations.

## Per property

| Property | What is modelled | How it is proved, or what is refuted |
|---|---|---|
| C01 | tag/untag macros on `BitVec 64` | round trip through `BitVec.toInt` |
| C02 | the three checked operations, generic and x86 code paths, on `BitVec 64` | case analysis on signed overflow, `omega` |
| C03 | comparison of tagged words | monotonicity of tagging |
| C04 | the four division primitives | `Int.tdiv`/`fdiv` arithmetic; wrong for minimum / -1, proved wrong and excluded |
| C05 | tagged and/or/xor, shift primitive | bitwise extensionality, range arithmetic |
| C06 | conversions as functions to an `Obj` datatype | byte-level round trip; refuted for INT_MAX, UINT_MAX and unsigned values from 2^63 |
| C07 | index computation with wrap-around on `BitVec 64` | `omega` after `toNat`; refuted for empty objects and huge indices |
| C08 | byte memory with typed load/store | framing and round trip per width; refuted for signed 16-bit elements |
| C09–C11 | open addressing table as function to optional slots, exact thresholds | probing invariant by induction over the history, refinement to a finite map; the tally of identity dictionaries is refuted |
| C12–C13 | Smalltalk level hashed collections with removal, growth, rehash | same invariant and a deletion lemma; IdentitySet refuted (two different hashes) |
| C14–C17 | pointer-level process lists refined to `List`, scheduler primitives | simulation by induction over the history; two orderings refuted |
| C18 | small-step interleaving of signal handlers and the interpreter | invariant; refuted for an interrupted compare-and-swap |
| C19–C21 | page allocator over address-sorted free list; size class table | invariant over histories |
| C22 | operand encoder/decoder | round trip by strong induction |
| C23 | superoperator tables extracted from the sources | whole-table check lifted to all programs |
| C24 | peephole pass over a basic block, stack machine semantics | simulation; refuted for extended operands |
| C25 | layout fixpoint and jump emission | arithmetic on prefix sums; refuted at boundary distances |
| C26 | both passes of the verifier, work lists included | the first pass covers all control flow; the second only the first basic block; seven refutations |
| C27 | red-black trees as nodes in memory, with parent pointers and the address of the link to fix | every rotation is an equation between heaps and zippers; order and balance invariants |
| C28 | AVL trees in the same way, through the table of C functions | same |
| C29 | class hierarchy, per-class dictionaries, direct-mapped cache, flush counter | invariant "every cache entry is correct" over histories; three refutations |
| C30 | counter per process and mask | induction; refuted across process switches |
| C31 | the Smalltalk code of lowBit/highBit | arithmetic; refuted at the minimum |
| C32 | Bag over the model of LookupTable | refinement to a multiset |
| C33 | Set comparison, hash and arithmetic over the model of Set | refinement to finite sets |
| C34–C35 | waitAfterSignalling:, preemption in the scheduler model | case analysis; both refuted in general |
| C36 | `_gst_mem_alloc`/`free`/`realloc` over pages and size classes | invariant over histories; refuted beyond two gigabytes |
| C37 | the tables of byte.def and vm.def | whole-table check lifted to all programs |
| C38–C40 | registries of C-held objects, arrays and weak objects over the tree model | refinement to multiplicities; re-registering an array loops (proved), double counting (proved) |
| C41 | table of C functions | refinement to "last definition" |
| C42 | special sends of `size` and `class` with their caches | simulation of an ordinary send; refuted for missing methods |
| C43 | the day-number conversions of Date, written with floor division on integers | succession from 1901-01-01 by integer induction; the algorithm inverts the day number in century coordinates |
| C44 | the same, with the check of the day against the month | round trips from C43; refuted for months outside 1 to 12 |
| C45 | the queries | arithmetic from C43, sums of month lengths |
| C46 | DateTime as date, seconds, offset; Duration as seconds | every operation related to the moment in seconds; refuted for large offsets, unnormalised times, `Date + Duration` |
| C47 | parts by truncating division, hash, zone | arithmetic; refuted for hash and zone |
| C48 | printers and readers on lists of characters | digit round trip, token lemmas; refuted for early years and odd offsets |
| C49 | `OC`: slots, firstIndex, lastIndex; every method of OrderColl.st | slots = nils ++ elements ++ nils is an invariant; refinement to lists message by message, then all sequences; refuted for `addAll: self` |
| C50 | same | the invariant says the slots outside are nil |
| C51 | `SC`: an `OC` with `lastOrdered` and `sorted`; quicksort, heap, merge, binary search on slots | sort, heap, merge each proved to permute and order; invariant per message; sequences; refuted when `add:` follows `removeLast` |
| C52 | same | `beConsistent` is the identity on a consistent collection |
| C53 | `occurrencesOf:`, `indexOf:`, `last`, `at:put:` | the scan back proved to stop at the first equal; four refutations by witness |
| C54 | loops of `gcd:`, `lcm:`, `floorLog:`, `ceilingLog:` on unbounded Integers | induction on the loops; specification by divisibility and by powers; `ceilingLog:` refuted near powers for every radix |
| C55 | the stack of partial products with its binary counter, word size a parameter | the stack's product is invariant; `binomial:` refuted for receivers above SmallInteger largest |
| C56 | power table and cache over any monoid; shift of LargeIntegers | every table entry is a proper split; cache invariant; refuted for negative powers of even LargeIntegers |
| C57 | strings with indexed stores, digit loop, reader with the rest of the stream | the written text is characterised uniquely; reading it is the identity |
| C58 | `Number` = Integer or Fraction; one definition per method | field arithmetic and coprimality over the rationals |
| C59 | same | same lemmas keep track of denominator 1; refutations by witness |
| C60 | `floor` … `rounded`, `compare:` with the bit estimate | Mathlib's floor and ceiling of rationals; bounds by powers of two |
| C61 | `asFloat:` on naturals, Floats as rationals with IEEE rounding, precision and least exponent parameters | the odd bit with remainder decides the rounding; witness for the double rounding of denormals |
| C62 | a Fraction with a scale; `compare:`, digit loop | rounding theorem of C60; digits by induction on the scale; refutations by witness |
| C63 | `Ivl` of three rationals; loops with a step count; `size` by floor division | the list is specified by "as long as the end is not passed"; induction on the loops; two refutations |
| C64 | same | endpoints lemma for reverse and copies; refutations by witness |
| C65 | `RA`: list of runs with a cursor | cursor invariant (it is on the run it says it is on); refinement to lists |
| C66 | same, with `splitAt:decrementBy:` statement by statement | refutations by witness; the right part by computing the split |
| C67 | `GC.Mark*`: the mark loop with its queue of ranges, both passes over ephemerons | invariant (marked objects have their successors marked, pending or delayed); equality with reachability |
| C68 | same, with fuel for the loop and depth for the recursion | measure: unmarked ephemerons; two refutations by computation and by induction on the depth |
| C69 | same | each pass against reachability outside the ephemerons; three refutations by witness |
| C70 | `check_weak_refs` | from C67 |
| C71 | `GC.Table*`: object table with flags, allocation, sweep, collections that keep a given set | invariant over all runs (`Exec`), refinement to a map from entries to objects; a run of 104 operations refutes the full claim |
| C72 | same | invariant with the region to be swept; decreasing upper end |
| C73 | `_gst_swap_objects` statement by statement | one equation for every entry; loss of weakness in every state |
| C74 | `Stream.Model`: buffer, `ptr`, `endPtr`, class; all messages | refinement to a list with a position (`Tape`), by induction over messages, with a predicate for what unused places may hold; two refutations |
| C75 | `nextPut:`, `next:putAll:startingAt:`, `nextPutAllOn:` | corollary of the refinement |
| C76 | `readStream`, `reverseContents`, `on:from:to:`, `reset` | equations at the end; refutations by witness |
| C77 | `Stream.Search`: `prefixTableFor:`, the scanning loop | closed form of the table for every pattern; loop invariant: last elements read are a prefix of the pattern; uniqueness of that prefix if the first element does not recur |
| C78 | `splitAt:`, `nextLine`, `linesDo:` | round trip with joining |
| C79 | `Mpz.Object`: `_gst_mpz_from_oop`, `_gst_oop_from_mpz` on bytes, limbs and padding | value preserved both ways; a canonical object is determined by its value (sizes by powers of 256) |
| C80 | `Mpz.Model`: `_gst_mpz_cmp`; `Mpz.Prims` | sign of the answer against the order of the values |
| C81 | `_gst_mpz_add`, `sub`, `mul`, `com` on limbs with size and room | value equations through the documented `mpn` results |
| C82 | `_gst_mpz_and`, `or`, `xor`, all sign cases | bit i of the result for every i; identities `-x - 1` for complements |
| C83 | `_gst_mpz_mul_2exp`, `div_2exp`, count as `int` | value equations; refutation by witness |
| C84 | `_gst_mpz_tdiv_qr`, `tdiv_qr_si` | against `Int.tdiv`, `Int.tmod` |
| C85 | `_gst_mpz_fdiv_qr`, `fdiv_qr_si` | against `Int.fdiv`, `Int.fmod`; the wrong case characterised for all operands |
| C86 | `_gst_mpz_gcd` with limbs and bits stripped, `divexact` | gcd of the odd parts times the common power of two |
| C87 | `_gst_mpz_get_d` with rounding after each operation | prefixes of a double's digits are doubles; rounding is nearest; refutation by witness |
| C88 | the chain of contexts with the flags for disabled and unwind contexts, `unwind_to`, `disable_non_unwind_contexts`, `unwind_context`, `ensure:`, `on:do:` | invariant over all runs (identities, which `ensure:` contexts wait, which have been evaluated); refutations by runs |
| C89 | the same | induction on the contexts between the exit and its destination, for arbitrary arguments of `ensure:` that return |
| C90 | `retry` as the sequence of calls it makes | refutation by a run |
| C91 | `goodness:`, the search block with the mask of active handlers, the scan of the contexts | loop invariants against a specification by suffixes of the superclass chain; innermost context by induction |
| C92 | the `on:do:` contexts with their masks and the stack of running handlers | invariant over runs: masks are determined by the running handlers; refutations by runs |
| C93 | the same, `resetHandler`, `resetAllHandlers` | the same invariant; two refutations |
| C94 | the same | induction over what the handler does while it runs; the masks are a function of the running handlers |
| C95 | the code generator for all constructs compiled in place, the operand prefixes, the bytecodes it emits, executed by a step function over an arbitrary world of sends | big-step meaning of the source; forward by induction on the evaluation, backward by induction on the source and the number of steps, safety by the same induction |
| C96 | the loops that compute the lengths of the jumps | the lengths are fixpoints except for four sizes; two runs refute the rest |
| C97 | the counters of the compiler, the size of the context | the need of the source against the counter, by induction; a run refutes the rest |
| C98 | scopes, declaration and lookup of names in the order of the compiler | slots against an independent lexical scoping, by induction on the source; a counterexample for the limit of loops |
| C99 | the number of temporaries in the header, where the stack starts | arithmetic; a method with 64 loops |
| C100 | the scavenger: both rings with their pointers, Cheney's scan, the chain of first children, grey pages, grey objects, ephemerons, weak objects | tricolour invariant over all steps, against reachability; concrete heaps refute the general statement |
| C101 | the survivor space as a ring of words | the ring refines a queue of adjacent objects, invariant of the scavenge |
| C102 | grey objects, copying of values and keys, the mourn list | invariant of the loop over the grey objects, against three notions of reachability; two counterexamples |
| C103 | scanning of the grey pages | induction on the pages |
| C104 | the recursive descent reader of methods, function by function, over tokens | grammar as an inductive relation; completeness by induction on derivations; unambiguity follows |
| C105 | the same, with `NULL` and error results kept apart | soundness by induction on fuel for the grammar plus three productions; a bracket count removes them; two families of counterexamples |
| C106 | the same | fuel of eight per token is never used up |
| C107 | the lexer, function by function, from characters to tokens | a weight of the text falls in every round; each scanning function commutes with text behind a separator |
| C108 | `scan_digits`, `scan_large_integer`, the arithmetic modulo 2^64 and on bytes | spellings as an inductive relation; invariant of the digits loop, two's complement on byte lists; a witness refutes the rest |
| C109 | the same with the printing functions of C29 | composition; a witness |
| C110 | `scan_ident`, the suffixes of `scan_number` | equations for all names; witnesses |
| C111 | `scan_fraction`, exponents | equations for all spellings |
| C112 | `string_literal` | induction on the string; a witness |
| C113 | lexer and reader together | operators have at most two characters, which is what C105 needs |
| C114 | `storeLiteralOn:` of eight classes, lexer, reader | induction on the object, through C107, C108, C104; five witnesses |
| C115 | `save.c`: header, table, objects as bytes in either byte order; loading with conversion and relocation | sweeps over the table as a mixture of converted and unconverted entries; induction; witnesses |
| C116 | `fixup_object` for Process and Semaphore | induction on the list of links; witnesses |
| C117 | `fixup_object`, `is_a_kind_of` | case by case, induction on the superclasses |
| C118 | `full_write`, `buffer_write`, `_gst_save_to_file` with an oracle for `write` | invariant: file and buffer together are what was written |
| C119 | `buffer_read`, `buffer_fill` | invariant: the buffer shows the file at `file_pos` |
| C120 | `intern_counted_string`, hash and chains; `rebuildTable` | invariant: each symbol in the bucket of its text, no two alike; induction on histories; a witness with NULs |
| C121 | `hasInterned:ifTrue:`, `isSymbolString:` | from the invariant of C120; a witness |
| C122 | `sym_info` and `builtins.gperf` in full, the two passes | the names are pairwise different (evaluation of the whole table); invariant of C120 |
| C123 | `numArgs`, `keywords`, `_gst_selector_num_args` | induction on the keywords |
| C124 | `dump:`, `load` and all they call, byte by byte: references, special cases, globals, shapes | the tables of dumper and loader stay in one-to-one correspondence; induction on the depth of `dump:`, a new object is complete when its `load` ends |
| C125 | same | the number of objects not yet registered decreases along the recursion |
| C126 | `nextPutBytes:of:`, `nextBytes:signed:`, `nextAsciiz` | arithmetic; refuted outside the range |
| C127 | shapes in `primDump:` and `primLoad:`, special case 12 with `NullProxy` | refuted by evaluation of `dump:` and `load`; `loaded_unique` makes the outcome independent of the number of steps |
| C128 | `ToUTF7>>next`, `FromUTF7>>readNext` with all their states and tables | encoder and decoder side by side: one invariant for each number of bits left over (0, 2, 4); induction on the text |
| C129 | `ToUTF7>>next` | invariant on the states of the encoder: the bits left over are fewer than `left` |
| C130 | `FromUTF7>>readNext`, `getNext` | reading does not depend on what follows; refuted for half a pair of surrogates by evaluation |
| C131 | the four converters in `Sets.st` | arithmetic, induction on the text |
| C132 | `critical:` step by step, any number of processes; interrupts, resumption, termination | invariant: signals plus holders is at most one |
| C133 | same | the sum is exactly one unless a process is disturbed at the moments exhibited by two witnesses |
| C134 | same | trace argument: between `arrive` and `out` lies `inside` |
| C135 | `RecursionLock>>critical:` over the model of C132 | invariant tying `owner` to the process in the block |
| C136 | same | induction on the depth |
| C137 | `wouldBlock` | invariant of C135, case by case |
| C138 | `SharedQueue` over the model of C132; reading and writing of the collection are separate steps | refinement to a sequential queue through a log of operations; two witnesses |
| C139 | same, `add:` a parameter | same |
| C140 | same | counting invariant: values = signals + processes on their way |
| C141 | `Delay`: `wait`, `timedWaitOn:`, the delay process, the queue, the timer; a clock | invariant on the states of each delay; nothing but `start` changes the time waited for |
| C142 | same | invariant: the queue is sorted and the timer set for its first element; witnesses |
| C143 | `=` and `hash` of delays | case by case; witnesses |
| C144 | `md5_process_bytes`, `md5_process_block`, `md5_finish_ctx` line by line with the tables copied; `nextPut:`, `nextPutAll:`, `digest`, `partialDigest`, `hexDigest` | invariant: words and buffer hold the text so far; each step of the tables is that of RFC 1321 under a rotation of the names; witness for `digest` sent twice |
| C145 | the same for SHA-1, with both ways for aligned and other data | same; the 16 words of the circular array are the last 16 of RFC 3174 |
| C146 | `hexDigest` | digit by digit |
| C147 | `nextPutAll:` with elements of several bytes | refutation for all Unicode strings of less than 1024 characters |
| C148 | the constants in the tables | series of the exponential function in Mathlib with 300 terms, error bound, and an integer inequality for each constant |
| C149 | FileStream.st on FileDescr.st for regular files: the buffer with its indices, the file and its offset | simulation of a file with a position, message by message, then by induction over sequences; number of rounds bounded by the length of the file |
| C150 | the same | corollary of C149; pieces by induction |
| C151 | the same | corollary of C149 |
| C152 | the same | the state after reading and writing makes `flush` call itself: induction over the depth |
| C153 | the same | refutations by concrete sequences; `upTo:` beyond the end by induction over rounds |
| C154 | Floats as `m * 2 ^ q`, `floorLog: 10`, the loop for digits, the last digit, the layout of the text, `readFrom:`; exact rationals as in the code | invariant of the loop (prefixes of the decimal expansion); the text is read by induction over digits |
| C155 | the same | the prefix that equals the number is found when the last digit is adjusted |
| C156 | the same | as C155 with a distance below half a unit; no ties by divisibility; negative powers of ten of FloatD by evaluating all of them |
| C157 | the same | the exponent is not read unless the letter is `e`: every result is between 1 and 10 |
| C158 | the same | triangle inequality for denormal Floats; a concrete FloatD otherwise |
| C159 | the same | induction over digits |
| C160 | `Strings/Model.lean`: the search, replacing in place, splitting, matching, `%`, escaping and stream search loops, with indices as in the code | the loop finds the least index with the predicate; predicate equal to "is a prefix here" |
| C161 | the same | relation `Replaced` (leftmost, non-overlapping) that has one answer; induction over it for the count, both copies and the room left in the new collection |
| C162 | the same | loop invariant over the text read; equal to `splitOnP` without empty parts, to `intercalate`, and to the only trimmed text |
| C163 | the same | relation `Glob`; a later start never makes the longest match end earlier, so the first success of the backtracking is the longest |
| C164 | the same | induction over pieces of templates |
| C165 | the same, and words of the POSIX shell without quotes | induction over the text; witnesses for tab, newline and the empty text |
| C166 | the same | induction over digits |
| C167 | the same | the table is always 0 1 1 1 ...; invariant: nothing starts before what was matched so far |
| C168 | URL encode: and decode:, with the table of plain characters | induction over the text; the hexadecimal digits by the whole table |
| C169 | fromString:, fromURLString: with its loop (in rounds, a loop that does not end is an outcome), printOn: | the parts one after the other, each read up to the character that ends it |
| C170 | the same | a round that ends at an at sign leaves less; with nothing after the at sign the round repeats |
| C171 | constructPath:with: | the loop is a fold over the components; invariant of the stack |
| C172 | = up to the message that is not understood, for any hash function | case analysis |
| C173 | decodedFields with substrings: of C162 | induction over fields: the dictionary has what was seen so far |
| C174 | newsGroup | computation for all URLs |
| C175 | real.c limb by limb (shifts, sums, differences, comparisons, products, powers, quotients, normalization), the digits of the lexer, the two roundings | the loops over limbs refine operations of naturals (bit by bit); invariants of the product (at most 161 units lost) and of the long division (quotient truncated); errors multiply as powers of 1 - 2^-151, Bernoulli's inequality; only the fifth limb decides the rounding to 64 bits; a witness of double rounding |
| C176 | the same | within 2^74 units of a number of 64 bits, the `long double` must be that number |
| C177 | the exponent as an `int` | computation; witness |
| C178 | `fullNameFor:`, `isAbsolute:`, `append:to:` on lists of characters; the working directory is an argument | the specification walks along the parts (`resolve`); names of places resolve to themselves |
| C179 | `extensionFor:`, `stripExtensionFrom:` with `findLast:` and its non-local return | case analysis on the last dot or separator |
| C180 | `pathFor:`, `stripPathFrom:`, `stripFileNameFor:`, `append:to:` | splitting at the last separator; witness |
| C181 | `pathFrom:to:` | common prefix by induction; `..` takes away as many parts as were left; witnesses |
| C182 | rectangles with rational coordinates; `areasOutside:` with a Set that ignores what it has | membership of the four parts, linear arithmetic; the universal failure for disjoint rectangles |
| C183 | `intersects:`, `intersect:`, `contains:`, `normalized` | against sets of points; `contains_self_fails` for all rectangles |
| C184 | `merge:`, `translatedToBeWithin:`, `expandBy:`, `insetBy:` | least among all rectangles; witnesses |
| C185 | a heap of points and rectangles that refer to them, the setters | invariant: no point is shared; refinement to values by induction over messages; `corner:` breaks it |
| C186 | `visit_pool`, `combine_local_pools` with grey and white sets over a graph of namespaces | `combine` equals a merge of chains; membership, no duplicates and order by induction over the pools |
| C187 | `add_namespace`, `add_shared_pool_resolution`, `_gst_compute_linearized_pools` | equality with the order that the source's comment describes; a witness where imports come first |
| C188 | `allSharedPoolDictionariesDo:` and the blocks that it uses | depth-first visit of chains equals the merge; equality with the documented order |
| C189 | `parse` and all that it calls, streams with positions, outcomes for `errorBlock` and other errors | equivalence with an inductive grammar of command lines: completeness by induction over it, soundness by induction over arguments |
| C190 | the Bag of prefixes, the sorted long names | counting prefixes; first match in a list sorted by length |
| C191 | `parsePattern:` with `subStrings`, `checkSynonyms:`, `atSynonym:put:` | printing a pattern and reading it back, invariant of the table; witnesses |
| C192 | kernel/LinkedList.st and Link.st: addFirst:, addLast:, remove:ifAbsent:, removeFirst, removeLast, do:, size, at:, last over a heap of links and lists | invariant that each list is a chain from firstLink to nil, that lists are disjoint and that links in no list have no next one; refinement to sequences by induction over messages; witnesses for links added twice |
| C193 | libgst/cint.c smalltalk_to_c over 17 kinds of objects and 32 types; CCallable returnTypeMap | the manual's table as separate lists, checked in the kernel for all pairs and lifted to all kinds and types; witness for subclasses of String |
| C194 | _gst_invoke_croutine (both loops), push_smalltalk_obj | induction over the declared types against the list of expected parameters |
| C195 | the loop after the call; sizes of the buffers of _gst_to_cstring, _gst_to_byte_array, _gst_to_wide_cstring | from C194 and facts on all pairs of kind and type; witness of a leak; buffers for all lengths |
| C196 | the cache of interfaces and its generations | invariant of current entries by induction over calls and collections; witness of a stale interface |
| C197 | integer cases of smalltalk_to_c over the conversions of C06, c_to_smalltalk | bit vectors, for all words and Integers; witnesses for #float and #longDouble |
| C198 | lib-src/pointer-set.c pointer_set_*, insert_aux, hash1, with loops that could be endless | invariant that no free slot is before a pointer; induction over operations against a finite set |
| C199 | pointer_map_* | the same invariant with values; induction over operations against a function |
| C200 | kernel/StreamOps.st as functions on the states of streams of any kind; Stream>>do: | a law of streams that stand for lists, kept by each way of making streams; induction over expressions against functions on lists |
| C201 | peek and peekFor: of the same | the same law; witnesses and, for collect: and with:, failure for all streams |
| C202 | ConcatenatedStream position, position: | the law with the number of elements read; witness |
| C203 | species, upToEnd | law of streams that keep their class; witnesses |
| C204 | random_generate, random_next as loops over a function from indices to bit vectors | invariant of the loop that regenerates in place; the words after n numbers are a window of the recurrence |
| C205 | seed:, setSeed: for any Integer | the recurrence runs backwards (injectivity of the matrix), seeding is injective; witnesses |
| C206 | VMpr_Random_next without argument, with exact division | bounds of 32-bit words; witness found by search, checked by the kernel |
| C207 | nextLimit:, between:and:, VMpr_Random_next with a limit | tempering is a bijection; counting the multiples of the limit in an interval; witnesses |
| C208 | MappedCollection with a list or association list as the map | the pairs of keys and indices; mapping of failing blocks; induction over keys |
| C209 | keysDo:, keysAndValuesDo: | permutations of failing enumerations; witnesses |
| C210 | select:, reject:, collect: | under the hypothesis that the map fixes its indices; witnesses |
| C211 | environments as functions from identities, operations tagged with the active process | projection to one process, by induction over the interleaving; witness |
| C212 | use:during: as two steps with a stack of old values | induction over balanced blocks; witness |
| C213 | valueIfAbsent: | cases; witness for all blocks |
| C214 | sizeof and alignof of types, declaration:inject:into:, alignTo: on bits | least aligned offset, then induction over the fields against the rules of C |
| C215 | CUnion class>>declaration: | induction over the fields; witnesses |
| C216 | +, -, addressAt: on addresses | algebra |
| C217 | the loop of extractDependenciesFor:ifMissing: with fuel, and fileInPackages: as a log | invariant of the rounds: all but the current level come after their prerequisites; then induction over the list; witnesses |
| C218 | the same | the same invariant against reachability in the graph |
| C219 | the same | rank of packages decreases with the level; cycle of states |
| C220 | the block as a machine, the three variables of a Generator | simulation of a stream over the sequence of yields |
| C221 | the same, with a block that counts | invariant that relates the count to the position; induction |
| C222 | whether the stack of a continuation is nil | cases |
| C223 | instVarMap and the two loops of mutate:via: on lists | the last copy to a slot counts; cases over where a name is |
| C224 | the tests for compiling again, and the index a name is bound to | cases; witnesses |
| C225 | removeInstVarName: | splitting at the last occurrence; witness |
| C226 | do: with blocks that have effects and may leave the method; the searches of Iterable, the versions of SequenceableCollection with indices | a relation for "the block ran over these elements with these answers"; induction on the list |
| C227 | includes:, includesAllOf:, includesAnyOf:, occurrencesOf: with equality and identity as parameters | from C226; witnesses |
| C228 | removeAllSuchThat: through select: and remove:ifAbsent: | induction with the rejected elements in front; witness 3 and 3.0 |
| C229 | =, asSet and sortedByCount | refinement to a function that counts, by induction on the changes; keys are distinct and counts positive |
| C230 | what storeOn: writes, as messages and semicolons, and the parser of cascades | induction on the contents |
| C231 | strnspell with its two rows that are exchanged | invariant: each row has the least costs for the prefixes, where a prefix of even length is dropped for free; inversion of the last change |
| C232 | similarityTo: with the weights of the primitive | from C231 |
| C233 | inet_ntop6: words, the longest run of zeros, the text as tokens | a reader of such texts as specification; the run by all 256 patterns, the text by cases on the run |
| C234 | the tests for the size of the buffer, the length of the text | bounds on the digits, induction on the words; witness for IPv4 |
| C235 | WeakArray: stores, the bytes beside the values, collections, copies | refinement to what became of the last thing stored in each place, by induction on the history; witnesses |
| C236 | strtoul: blanks, prefixes, the loop for digits with wrap-around | induction on the digits, bound of each prefix by the whole number; witnesses |
| C237 | the same, with the tail | the same |

## Trusted base

* The Lean kernel.  Theorems use at most the axioms `propext`,
  `Classical.choice` and `Quot.sound`; there is no `sorry`, no added axiom and no
  use of the compiler (`native_decide`, `bv_decide`).
* The correspondence between the definitions and the cited source lines, which
  was established by reading.  Two groups of tables (bytecodes and
  superoperators) were transcribed from the sources by a script.
* Assumptions about the C environment: LP64, two's complement, arithmetic right
  shift of negative numbers, as assumed by the sources themselves.  Widths that
  matter are modelled by `BitVec`; elsewhere a comment says that a counter is
  unbounded.
* GMP's `mpn` functions, called by libgst/mpz.c, answer what the GMP manual says
  (`Verif.Mpz.Limbs`); a call outside the documented preconditions is an outcome
  of its own.

## Modelled and not modelled

Modelled: what the definitions cite.  Not modelled, among others: the
recovery of the parser after an error and its class-body syntax, of the lexer
the rule for newlines of interactive streams, `#!`, source locations and the
precision of floats, the lookup of globals by the compiler, compaction (of the garbage collector the scavenger, the
mark phase, weak objects, ephemerons and the object table are modelled), of image loading the initialisation of the virtual machine afterwards, the JIT, floating
point (except rounding, C61), file and socket primitives, callbacks from C, signal delivery other than
the queue of C18, the inside of GMP, and the graphical packages.
Each model file states the boundary of its own area: which fields of an object
are kept, what is a parameter (hash functions, what the operating system
answers, what a primitive does) and what is assumed of parameters.

## Defects found in the code

Each is a theorem (or, where marked *not formalised*, a remark).

* SmallInteger minimum divided by -1 answers itself; `lowBit` of the minimum is
  wrong.
* INT_MAX and UINT_MAX are refused by the 32-bit tests of C integers; unsigned
  64-bit values from 2^63 on execute an undefined shift.
* `at:` on an empty object accepts any non-zero index; huge indices wrap around;
  signed 16-bit elements lose their sign.
* `grow_identity_dictionary` counts one key twice.
* IdentitySet searches with one hash and re-inserts with another.
* Yielding does not compare the process that yields; a resumed process of lower
  priority is put first in its list; `waitAfterSignalling:` can put the wrong
  process to sleep; a time slice that ends while a switch is pending loses a
  process.
* A signal handler that interrupts the queueing of an asynchronous call loses an
  entry.
* A process switch tests the wrong way round whether interrupts are disabled.
* The peephole optimiser drops half of an extended push; a jump of certain
  lengths misses its target.
* `_gst_mem_free` uses an `int` for the size; `_gst_mem_realloc` copies to NULL
  when out of memory.
* Registering an array of objects twice never returns; weak objects are counted
  twice.
* `avl_erase` dereferences NULL when erasing a root without left child (unused
  by the VM, *not formalised*).
* `superclass:` does not flush the method cache; evaluating a constant makes the
  next flush a no-op; a missing `doesNotUnderstand:` loops forever; the special
  sends of `class` and `size` misbehave for missing methods.
* The verifier never merges stacks, so it checks one basic block only; it does
  not check selectors, the value of a return, the height on fall-through, the
  end of the code; it reads past its own array of outer temporaries.
* Jump threading asserts on an unconditional jump to a backward jump and loops
  on a cycle of jumps (*not formalised*).
* `events.c` uses `MIN (0, next_poll_ms - now)` (*not formalised*).
* Equal DateTimes with different offsets hash differently; `asUTC` is wrong by
  the whole days of an offset; `year:month:day:hour:minute:second:` leaves times
  out of range, which then compare wrongly; `Date + Duration` drops hours and
  minutes; the abbreviation of a negative time zone is wrong; timestamps of the
  years 1 to 31 print as text that is read as another date; a month out of range
  is accepted when the day is below 1.
* `OrderedCollection>>addAll:` of itself raises an index error in some
  capacities.
* `SortedCollection>>removeLast` leaves `lastOrdered` too high, so that a
  following `add:` leaves the collection out of order; `occurrencesOf:` counts
  too few; `last` of an empty collection answers nil; `at:put:` is defined
  twice and the second definition breaks the order.
* `ceilingLog:` answers one too little just above every power of the radix;
  `0 lcm: 0` is a ZeroDivide; `binomial:` never
  ends for receivers above SmallInteger largest; an even LargeInteger raised to a
  negative power answers 0 or -1 or is not understood.
* `(1/2) * 0`, `(1/2) / (-1/2)`, `(1/2) reciprocal`, `(2/3) raisedTo: 0`, a
  LargeInteger divided by itself or by a negative divisor answer Fractions with
  denominator 1.
* `Fraction>>asFloat:` rounds denormalised results twice, because `emin` is one
  more than its formula expects.
* `=` between ScaledDecimals is not transitive and disagrees with `hash`; a
  ScaledDecimal with hidden digits may differ from what it prints.
* `Interval`: `(1 to: 1 by: -1) isEmpty` is true, `first` and `last` of it fail;
  `(3 to: 2) reverse` fails; equal Intervals have different hashes;
  `(1 to: 6 by: 2)` prints a 6 it does not hold; `withAll:` of one element is a
  ZeroDivide, of equal or fractional elements an Interval of step zero;
  `1 to: 1/2 collect:` evaluates its block once.
* `RunArray`: `#() asRunArray`, adding to an empty RunArray and removing the only
  element fail; `at:put:` at the first place of a run makes the list longer, in
  the middle leaves the cursor wrong so that the old element is read back;
  `addFirst:` adds after the first run; `addLast:` of an equal element makes it
  unreadable; `indexOf:` compares elements with the index; runs are not merged
  by removal, so `=` goes wrong.  (`add:` is inherited from OrderedCollection and uses
  instance variables that a RunArray does not initialise.)
* A sweep step that frees its hundredth entry exactly at the end of the region
  leaves the collector in a state in which the next allocations hand out
  entries of live objects.
* Two ephemerons that are each other's key make the mark phase recurse for
  ever; an ephemeron whose key is a SmallInteger makes it follow a non-pointer.
* An ephemeron is mourned although its key is alive if the key is the value of
  another ephemeron, or if the ephemeron itself is the key of two others; of two
  ephemerons with the same dead key only one is mourned.
* `become:` makes weak objects strong.
- `PositionableStream>>upTo:` (PosStream.st:352) looks for the element in the whole buffer, also past the end of the stream: `(ReadStream on: #(1 2 3 4) from: 1 to: 2) upTo: 4` signals an error, and so does `upTo:` something that `truncate` left behind (`upTo_past_limit`, `upTo_finds_truncated`).
- `ReadWriteStream class>>on:from:to:` ignores the upper limit when the range starts at 1, because `limit:` ignores its argument (`rw_limit_ignored`).
- `ReadWriteStream` inherits `readStream` and `reverseContents` of `WriteStream`: the first is cut at the current position, the second signals an error unless the stream is at its end (`rw_readStream_wrong`, `reverse_contents_fails`). `reset` does not truncate a write-only stream as its comment says.
- `Stream>>prefixTableFor:` (Stream.st:588-613) never adds one to the length of the border, so the Knuth-Morris-Pratt table is 0, 1, 1, 1, ... for every pattern (`table_is_trivial`): `'aaab' readStream skipToAll: 'aab'` is false, and so is the example of the method's own comment (`skipToAll_misses`). For a pattern of one element it signals an index error (`skipToAll_one_fails`).
- `Stream>>splitAt:` does not answer the empty part after a final separator (`splitAt_drops_last`).
- `_gst_mpz_fdiv_qr` tests the size of the remainder, which `_gst_mpz_tdiv_qr` leaves at the size of the divisor even if all limbs are zero: `(2 raisedTo: 70) negated // (2 raisedTo: 64)` is -65 and the remainder 2^64 (`floor_refuted`, `floor_large`).
- `bitShift:` of a negative LargeInteger to the right rounds towards zero, `(-2^64 - 1) bitShift: -1` is -2^63 (`bitShift_refuted`); the count is cut to an `int`, so that `bitShift: -4294967296` answers the receiver (`bitShift_count_refuted`).
- `gcd:` of a negative LargeInteger and 0 is negative (`gcd_refuted`).
- `asFloatD` of a LargeInteger of two limbs rounds twice (`asFloatD_refuted`); of a LargeZeroInteger it reads before the digits (`asFloatD_zero`).
- An exit that is made by the argument of an `ensure:`, while an earlier exit is in progress, and that stops at a method the earlier one is leaving, loses the next `ensure:` context: `disable_non_unwind_contexts` ends with `*chain = newContext->parentContext` where `newContext` is the first context that is not disabled, so that context is skipped without being resumed (`ensure_lost_in_cleanup`).
- If the receiver of `ensure:` is a block whose method has returned and it executes `^`, `unwind_context` clears the mark of the `ensure:` context before `badReturnError` is sent; if that is left through a handler the argument is not evaluated (`ensure_lost_by_dead_return`).
- `Exception>>retry` and `retryUsing:` evaluate the block on top of the failed attempt and unwind afterwards, so its cleanups run after the second attempt (`retry_cleans_up_late`).
- `PositionableStream>>copyFrom:to:` does not look at the end of the stream: on a `WriteStream` it answers what the collection held before (`copyFrom_past_end`).
- While an exception handler runs, only that handler is disabled, not the other handlers of its `on:do:` nor those inside it: `[[Error signal] on: ZeroDivide do: [...]] on: Error do: [:e | 1/0]` gives the division to the inner handler (`inner_handler_seen`, `sibling_handler_seen`).
- If in such a case the inner handler ends, the outer handler is abandoned but stays disabled, so the next exception in its scope is not handled by it (`handler_left_disabled`).
- `return:`, `retry`, `retryUsing:` and `resignalAs:` enable all handlers of the process, including those that run: a handler that uses an `on:do:` with `e return: x` of its own can be entered again by an exception it signals afterwards (`return_reinstates_running`).
- `Exception class>>goodness:` starts from -100000 and adds one for each superclass, so classes with more superclasses than that are handled by anything (`goodness_deep`).
- `compile_times_repeat` and `compile_to_by_do` compare with `> 256` where an operand of exactly 256 already takes four bytes: `2 timesRepeat: [ … ]` with a block of 240 bytes jumps back behind the `DUP_STACK_TOP` and pops values that are not its own (`timesRepeat_wrong`, `toDo_wrong`).
- The stack depth of `to:do:` loops is counted one too low per level, so from six nested loops on a method writes behind its context (`nested_loops_overflow`).
- The variable of a `to:do:` loop is declared before the limit is compiled: in `1 to: i do: [:i | … ]` the limit is the loop variable (`limit_captured`).
- The number of temporaries is cut to 6 bits without a check and every `to:do:` takes a slot for good: a method with 64 loops has its loop variables in its stack (`many_loops_overlap`).
- The scan pointer of the scavenger is left at the top of the tenuring queue without being wrapped. If the queue is then emptied and filled by one chain of copies, `tenure_one_object` does not see that it tenures objects not yet scanned, and `cheney_scan` stops when the allocation pointer comes by: objects in use are lost. This takes more survivors than the queue has entries, 8192 by default (`long_list_lost`).
- `scan.current` is not reset between scavenges: if the object that was scanned last is tenured before its turn in the next scavenge it is taken for the one being scanned and is not put on the grey list (`stale_scan_lost`; harmless while the queue does not wrap).
- The class of an ephemeron is skipped both by `cheney_scan` and by `add_grey_object`, so a young class with only ephemerons as instances and no other reference is lost (`ephemeron_class_lost`).
- Objects tenured before they are scanned wait in the same list as the ephemerons, behind them: an ephemeron is mourned although its key is a field of a root (`mourned_in_use`). With two ephemerons the order of the roots decides which is mourned (`mourning_depends_on_order`).
- `queue_put` loops for ever when the object is larger than the survivor space (`too_large_never_ends`).
- A literal array that is not closed, as in `m [ #(1 2 ]`, makes the reader return an empty method without an error: `parse_array_literal` answers `NULL`, which `parse_statements` takes for the end of the statements (`unclosed_read`).
- The code point in `$<4294967361>` is cut to 32 bits before it is checked, so it is the letter A (`code_point_wraps`); an array of the character `$<` and an integer, `#($< 5)`, cannot be written (`char_before_int`).
- The limit for negative numbers in `scan_digits` is `(uintptr_t) MIN_ST_INT`, which is 2^64 - 2^62 and not 2^62: `16r-4000000000000001` is taken for a SmallInteger although it is not in their range, and it is what `printStringRadix: 16` writes (`negative_radix_wrong`, `radix_reads_back_wrong`).
- `-4611686018427387904` is read as a LargeNegativeInteger although it is a SmallInteger: the sign is applied to the bytes and the result is not normalised (`store_min_wrong`).
- `123def` should send `def` to 123 but the letter `d` is lost and 123 becomes a float (`exponent_letter_lost`).
- A dot between a name and a digit, as in `y.1`, is read as `::` (`dot_digit_wrong`).
- A string literal with a NUL is cut (`string_nul_wrong`).
- Stored text that does not read back: an array with `$<` before a SmallInteger (`store_lt_wrong`), Characters above 127, which come back as UnicodeCharacters (`store_chr_wrong`), the empty symbol (`store_empty_wrong`).
- An image of the other byte order that is mapped at its old address is not converted, because `~wrong_endianness` is always true (`wrong_order_crash`, `lnot_always`).
- Elements wider than a byte (floats, words, addresses) are not converted when an image of the other byte order is loaded (`double_wrong`).
- `F_LOADED` is saved: objects that are loaded into old space later keep it and are never freed or compacted (`loaded_flag_kept`).
- Lists of waiting processes are cut at a CallinProcess for instances of subclasses of Semaphore or Process (`subclass_list_lost`).
- Saving removes the old image before the new one is written (`failed_save_loses_old`).
- A truncated image is not noticed when it is read (`short_file_unnoticed`).
- Symbols are compared with `strncmp`: strings with a NUL that are in one bucket and equal up to the NUL are one symbol (`nul_text_wrong`).
- `Symbol isSymbolString:` sends `do:` to nil when the bucket is empty (`empty_bucket_wrong`).
- `numArgs` and the test on calls from C differ for `#foo:bar` (`args_differ`; no selector).
- `ObjectDumper` writes SmallIntegers as four bytes: all those beyond 32 bits load as other integers (`wide_integers_change`); symbols with a NUL are cut (`symbols_with_nul_change`).
- `ObjectDumper` cannot dump objects of shape `#uint` (the test for `#int` is made twice, `uint_not_dumped`), cannot load `#int8` and `#int64` (`nextSignByte` and `nextInt64` do not exist), and writes `#double` as four bytes but reads eight (`double_not_loaded`).
- `dumpContentsOf:` registers an object once more than loading does, so that after an object with a `NullProxy` all references are off by one (`disabled_proxy_shifts`, `disabled_proxy_twice`).
- UTF-7 text that ends with half a pair of surrogates is accepted when its bits fill whole digits, and the character is lost (`truncated_text_is_accepted`); characters that are surrogates do not come back (`surrogates_do_not_come_back`).
- `Semaphore>>critical:` loses the lock if the process is terminated after `on:do:` has answered and before the answer is stored in `ownedSem` (`termination_loses_lock`), and if a process that waits for it is interrupted with `queueInterrupt:`, because the signal is seen by the inner `wait` only (`interrupt_loses_lock`). A process that is resumed while it waits leaves `critical:` without having evaluated the block, and gets nil (`resumed_skips_block`).
- `SharedQueue>>next` does not look at what `wait` answers: a process that is resumed removes from an empty collection (`resumed_fails`); one that is terminated between `wait` and the critical section takes the signal with it, and a value stays in the queue while others wait (`terminated_loses`).
- `Delay>>wait` tests `delaySemaphore == nil` and then fetches it again: if the timer fires in between, `wait` is sent to nil (`nil_waits`). In `timedWaitOn:` the timeout is lost at that point, and the process sleeps until the semaphore is signalled (`timeout_lost`).
- A process terminated between `start` and `notifyChange` in `Delay>>wait` leaves `resumptionTime` set when no other delay is queued (or when it has not yet made the semaphore): the next `wait` on that delay is too short (`terminated_then_early`).
- Equal delays have different hashes while one of them is in use, and `=` is not symmetric (`equal_hash_differs`, `equal_not_symmetric`). `Delay class>>untilMilliseconds:` calls itself for ever (not modelled; kernel/Delay.st:85).
- `nextPutAll:` of `MD5` and `SHA1` passes the number of characters as the number of bytes: of a Unicode string with less than 1024 characters only the first quarter is digested, and strings that differ after it have the same digest (`unicode_collides`).
- `digest` and `hexDigest` finish the state in place: sent twice they answer something else (`md5_twice`, `sha1_twice`).
- `FileStream>>flush` uses `super skip:`, which sends `size` to self, which flushes: after reading part of the buffer and writing, every message that flushes calls itself for ever (`write_after_read_never`). Without writing, `skip:` moves relative to the position in the buffer instead of the file offset, so `flush` after reading moves the position back (`flush_moves`). `position:` does not use it and is right.
- `FileStream>>truncate` cuts at the offset of the file, which is the end of the buffer (`truncate_elsewhere`). `atEnd` ignores what was written and not flushed (`atEnd_after_write`). `skip:` stops one byte before the end (`skip_not_to_end`).
- Positions beyond the end: `atEnd` compares offset and size for equality, so `next` answers what was in the buffer (`next_beyond_end`) and `upTo:` never ends (`upTo_beyond_never`). `copyFrom:to:` answers NULs (`copy_beyond_end`), a negative `position:` is not refused (`negative_position`).
- File streams: pipes, sockets, files opened for reading or writing only, append mode, errors of system calls and files that others change are not modelled.
- `Float>>printOn:` moves the exponent when a carry goes through all digits only if the last digit was 9; when digits `99...97` are rounded up by three the point stays and the text is a tenth of the number (`printed_tenth`: FloatE 1e-4, also 1e-13, 1e15 and others). For FloatD this never happens for the powers of ten that print without exponent (`tenths`, over all of them).
- `Number class>>readFrom:` knows the exponent letter `e` only, but FloatD prints `d` and FloatQ `q`: every such text is read as its mantissa (`exponent_lost`).
- `printOn:` stops at the first number of digits whose neighbours are both within one unit, not half a unit, so about one FloatD in fifteen prints as a number to which another FloatD is nearer (`not_nearest`). Above `2 ^ p` the tolerance for dropping digits is a quarter of a unit, so 1e34 prints as 9.999999999999999d33 (`big_decimal_differs`).
- Floats: NaN, infinities and zero, `truncated`, arithmetic, `asFloat` of the number that was read, `storeOn:` and radixes other than 10 are not modelled. `log2` of the mantissa stands for `frexp`.
- `Stream>>prefixTableFor:` stores `j` where Knuth, Morris and Pratt store `j + 1`, so its table is 0 1 1 1 ... for everything: `'aaab' readStream upToAll: 'aab'` does not find it (`up_to_all_misses`); and `at: 2 put:` is an index error when one item is looked for.
- `copyReplaceAll: '' with: x` never ends: `indexOfSubCollection:` answers the starting index for an empty collection and the count never stops (`replace_empty_never`).
- `withUnixShellEscapes` leaves tabs and newlines as they are and answers nothing for an empty text: a newline in a file name starts another command (`shell_words_differ`).
- Strings: the elements are compared with a decidable equality (`=` of user classes is not modelled); `replaceFrom:to:with:startingAt:` is the primitive, copying between different collections; `isSeparator` and the set of `subStrings:` are any predicate; `displayString` of elements is given. The shell is modelled outside quotes only, and `%`, `]` and `,` are taken as plain characters. Regular expressions, `%` with Bags, UnicodeString encodings and Windows escapes are not modelled.
- URLs: URL decode: raises an error for escapes with lower case digits; `URL fromString: 'http://me@'` never returns; a URL without scheme prints its host as part of the path; a fragment with a question mark is cut; `=` sends `file`, which URLs do not understand, so that URLs are never equal, and is case sensitive where the comment says it is not (the hash is of the text); newsGroup answers nil for nntp and drops a character for news (`(scheme = 'nntp' | scheme) = 'news'`); keys of form fields are not decoded and `a&a=1` is an error; `..` at the end of a relative path loses the slash of the directory.  Not modelled: construct: but for the path, canonicalization of hosts, posting forms, resolving contents.
- Literals of Floats: the exponent of a `struct real` and of the literal is an integer that does not overflow (but for the cast of C177); `long double` is taken to have 64 bits, rounding to nearest even, and no overflow or underflow; the conversion to `double` or `float` likewise. A literal with a zero base cannot occur; bases above 36 are an error of the lexer. 9007199254740993.00001 becomes 9007199254740992 although 9007199254740994 is nearer (`nearest_fails`): the constant goes through a `long double`.
- Names of files: `pathFrom: '/x' to: '/'` answers the empty string and `pathFrom: '/' to:` anything fails; `stripExtensionFrom: '..'` answers `'.'`.  Not modelled: the branches for Windows, VFS, and all that asks the file system; signals of errors are taken as ends of the method.
- Rectangles: coordinates are Integers and Fractions, not Floats; `areasOutside:` of rectangles that do not overlap sends `area` to `nil`; the Set is modelled as a list without equal elements, and the order in which `asArray` has them is not claimed.  Not modelled: `scaleBy:`, `rounded`, centers, printing, and the functions of Point but for arithmetic and comparison.
- Search order of names: namespaces whose superspaces form a cycle make the walk endless and are left out (`WF`).  The pools of a namespace that a class shares with its superclass are searched before that namespace (`order_fails`), since `add_namespace` skips the namespace but not its imports.  Sets of pointers are lists; `overrideEnvironment:`, which in Smalltalk changes less than in the compiler, is not modelled on the Smalltalk side.
- Command lines: `options includes: key` asks whether the key is a value, so that `-a -a:` is accepted and `-b|-b` makes an option without kind; `$` in `\A(-?$|[^-])` also matches before a new line.  The regular expression is modelled by what it matches; Dictionary, Set and Bag as lists; `error:` ends the parsing of a pattern.
- Linked lists: nothing keeps a link from being added twice or to two lists; the model says what happens then (`twice_fails`, `next_fails`).  Messages between lists of processes, which use the same structure in the virtual machine, are in Verif.Sched.
- Calls to C: libffi itself, callbacks (`closure_msg_send`), the values of Floats and the counter of generations wrapping around are not modelled; the union of a parameter is its first 64 bits.  Wrong in the code: buffers for wide strings have `len + 1` bytes, `#float` results are read from `doubleVal`, `#longDouble` results are unknown, Strings for `#unknown` leak, interfaces for `#unknown` are cached, `#variadic` reads the size of a SmallInteger.
- Streams made from streams: blocks have no effects, `EndOfStream` is not handled by the program, `LineStream` is covered by C78 only, `position:` and `skip:` of `OneOfEachStream` and `copyFrom:to:` are not modelled.  Wrong in the code: `CollectingStream>>peekFor:` sends `result` to its argument, `OneOfEachStream>>peekFor:` sends `next` to an Array, `OneOfEachStream` needs `position`, `ConcatenatedStream>>species` asks nil.
- Random numbers: the seed taken from the clocks (`Random new`), `chiSquare` and the check of the receiver in the primitive are not modelled; `next` is the exact quotient.  Wrong in the code: `setSeed:` does not add the index of the word, sets the last bit of the seed, and lets the words of seeds above 2^32 be all zeros; `next` divides by 2^32 - 1; a refused limit has already taken a number out, and `UNPOP (1)` is done also when there was no argument.
- Mapped collections: blocks have no effects, `Interval` as a map is the sequence of its elements, and the order of a Dictionary is that of its association list.  Wrong in the code: `keysAndValuesDo:`, `collect:`, `select:` and `reject:` send `self at:` to the indices in the map as if they were keys; sequences have no `keysDo:`.
- Variables of processes: that the end of `use:during:` is reached when it is unwound is C88 and its neighbours, a process that is terminated is one that does nothing more.  Wrong in the code: `valueIfAbsent:` ignores its block, `use:during:` cannot tell an absent variable from nil, keys are compared by identity.
- C structures: addresses are integers that do not wrap, the accessor methods are the offsets that are compiled into them, names of fields and the check against a second declaration are left out.  Wrong in the code: the size of a CUnion is that of its last field, and it does not count what it inherits.
- Packages: names are numbers, a package is its prerequisites and features, filing it in always succeeds, the order of a Set is any permutation.  Wrong in the code: features that are there but are not packages end up in the list, which cannot be loaded then; packages that provide what others in the same level need are not put before them; circular prerequisites loop forever.  `PackageLoader class>>canLoad:` is not modelled: it sends `extractDependenciesFor:ifMissing:` to the class, which does not understand it.
- Generators: the two continuations that call each other are a machine that is resumed; exceptions in the block, blocks that run forever between two values and blocks that read from their own generator are left out.  Wrong in the code: `Continuation>>valueWithArguments:` has its test for one argument reversed.
- Changing instance variables: the superclass and the shape stay the same, `become:` and the temporary classes are left out, a method that is compiled again binds names to the last variable of that name.  Wrong in the code: `removeInstVarName:` removes inherited variables, `addInstVarName:` and `instanceVariableNames:` accept repeated names and do not compile again what that changes.
- Searches in collections: a collection is the list of what `do:` passes; blocks that change the collection or answer what is not a Boolean are left out.  Wrong in the code: `includesAllOf:` asks whether the argument includes the elements of the receiver; `occurrencesOf:` compares with `==` where `includes:` compares with `=`; `removeAllSuchThat:` removes by equality and so may remove what the block rejected.
- Bags: the dictionary is the list of its keys and values, the place among equal counts in `sortedByCount` is not said.  Wrong in the code: `storeOn:` writes two semicolons in front of `yourself`.
- Similarity of strings: costs are natural numbers, `tolower` is any function.  Wrong in the code: `curr[0]` is set once, before the loop, so that after the rows are exchanged the cost of deleting the first characters is alternately 0 and that of one deletion.
- Texts of Internet addresses: what `sprintf` writes for a number is one token with a length, and it does not fail.  Wrong in the code: `inet_ntop4` compares the size of the buffer with the number of characters without the final zero.
- Weak arrays: which objects die is any predicate, `mourn` and finalization are left out.  Wrong in the code: `atAll:put:` sets all the marks first, so that a wrong index leaves marks that do not agree with the values.
- `strtoul`: 64 bits, the shifts for bases 8 and 16 are multiplications, negative bases are left out.  Wrong in the code: the test for overflow subtracts the digit from the quotient, the result goes on growing after an overflow, and a zero is skipped in base 16 without being counted as a digit.
