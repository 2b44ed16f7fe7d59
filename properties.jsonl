{"id": "C01", "title": "SmallInteger tagging is lossless", "statement": "Every integer between SmallInteger smallest and SmallInteger largest, stored in an object reference and read back, is the same integer; distinct integers give distinct references; an integer reference is never mistaken for a reference to an aligned object.", "quantifier": "every integer in the SmallInteger range, every 64-bit word, every aligned object address", "why_tests_cant": "The range has 2^63 values and 2^64 words; a suite can only probe the ends and a few samples.", "anchors": ["libgst/gstpriv.h: TO_INT, FROM_INT, IS_INT, IS_OOP, ARE_INTS, INT_OVERFLOW, MAX_ST_INT, MIN_ST_INT"]}
{"id": "C02", "title": "SmallInteger + - * never silently wrap", "statement": "Sending +, - or * between two SmallIntegers through the VM fast path either answers exactly the mathematical result, and that result is in SmallInteger range, or reports overflow so that the LargeInteger fallback runs; it reports overflow only when the mathematical result is out of range.", "quantifier": "every pair of SmallIntegers and each of the three operations, on both the portable and the x86 code path", "why_tests_cant": "There are 2^126 operand pairs and the faulty ones cluster on sign/overflow boundaries.", "anchors": ["libgst/interp.inl: add_with_check, sub_with_check, mul_with_check", "libgst/prims.def: INT_BIN_OP, VMpr_SmallInteger_plus, VMpr_SmallInteger_minus, VMpr_SmallInteger_times", "libgst/vm.def: PLUS_SPECIAL, MINUS_SPECIAL, TIMES_SPECIAL"]}
{"id": "C03", "title": "SmallInteger comparison agrees with integer order", "statement": "The answers of <, >, <=, >=, = and ~= between SmallIntegers, which the VM computes on the tagged words, are the answers of the corresponding mathematical comparison.", "quantifier": "every pair of SmallIntegers and each of the six comparisons", "why_tests_cant": "Needs all pairs, including those of opposite sign and at the ends of the range.", "anchors": ["libgst/prims.def: BOOL_BIN_OP, VMpr_SmallInteger_lt/gt/le/ge/eq/ne", "libgst/vm.def: INTERP_BASIC_BOOL"]}
{"id": "C04", "title": "SmallInteger division primitives are exact", "statement": "Whenever // , \\\\ , quo: or / on two SmallIntegers succeeds in the VM, the answer is the mathematical floor quotient, floor remainder, truncated quotient or exact quotient, respectively; the primitive fails for a zero divisor and / fails when the division is inexact.", "quantifier": "every pair of SmallIntegers", "why_tests_cant": "The one wrong quotient (smallest integer divided by -1) is a single point out of 2^126 pairs.", "anchors": ["libgst/prims.def: VMpr_SmallInteger_divide, VMpr_SmallInteger_modulo, VMpr_SmallInteger_intDiv, VMpr_SmallInteger_quo"]}
{"id": "C05", "title": "SmallInteger bit operations are exact", "statement": "bitAnd:, bitOr: and bitXor: on SmallIntegers agree with the infinite two's complement operation bit by bit; bitShift: answers floor(receiver * 2^arg) whenever the primitive succeeds, always succeeds for negative shifts, and falls back instead of losing bits.", "quantifier": "every pair of SmallIntegers, every bit position", "why_tests_cant": "Shift counts interact with operand magnitude; all 2^126 combinations matter and C shift corner cases are easy to miss.", "anchors": ["libgst/interp.inl: tagged_and, tagged_or, tagged_xor", "libgst/prims.def: VMpr_SmallInteger_bitAnd/bitOr/bitXor/bitShift"]}
{"id": "C06", "title": "C integers survive the trip through Smalltalk objects", "statement": "A C int, unsigned int, 64-bit signed or 64-bit unsigned value converted to a Smalltalk Integer and converted back is the same value, and the acceptance test answers true for every value that was produced by the forward conversion.", "quantifier": "every 32-bit and 64-bit signed and unsigned value", "why_tests_cant": "2^64 values; failures sit at single points (INT_MAX, UINT_MAX) and in the top half of the unsigned range.", "anchors": ["libgst/dict.inl: from_c_int_32, from_c_uint_32, to_c_int_32, is_c_int_32, is_c_uint_32, from_c_int_64, from_c_uint_64, to_c_int_64, to_c_uint_64, is_c_int_64, is_c_uint_64"]}
{"id": "C07", "title": "Indexed access is memory safe", "statement": "at: and at:put: on any indexable object succeed only for indices 1 to size, and the bytes touched by a successful access lie inside the indexed part of that object, for every element width, including huge or negative indices that wrap around machine arithmetic.", "quantifier": "every index value, every object size, every element shape and number of instance variables", "why_tests_cant": "The bounds test relies on unsigned wraparound; refuting it needs particular huge indices for particular sizes.", "anchors": ["libgst/dict.inl: index_oop_spec, index_oop_put_spec, index_oop, index_oop_put, check_index_overflow"]}
{"id": "C08", "title": "at: returns what at:put: stored", "statement": "After a successful at:put: of a value accepted by the object's element type, at: with the same index answers an equal value and at: with any other index answers what it answered before.", "quantifier": "every element type, every accepted value, every pair of indices, every prior content", "why_tests_cant": "Requires all element widths and sign patterns; one element type (signed 16-bit) misreads every negative value.", "anchors": ["libgst/dict.inl: index_oop_spec, index_oop_put_spec"]}
{"id": "C09", "title": "VM dictionary lookups see exactly the stores made", "statement": "After any sequence of stores into a dictionary maintained by the VM, looking up a key answers the value most recently stored under it, or 'absent' if it was never stored, no matter how keys hash or how often the table grew.", "quantifier": "every sequence of stores, every hash function, every key, across growth", "why_tests_cant": "Collisions, wrap-around and growth depend on the global history and on address-based hashes.", "anchors": ["libgst/dict.c: _gst_dictionary_add, _gst_identity_dictionary_at_put, grow_dictionary, grow_identity_dictionary, find_key_or_nil, identity_dictionary_find_key, identity_dictionary_find_key_or_nil", "libgst/dict.inl: dictionary_association_at"]}
{"id": "C10", "title": "VM dictionary size equals number of keys", "statement": "The size answered by a dictionary maintained by the VM is the number of distinct keys stored in it.", "quantifier": "every sequence of stores", "why_tests_cant": "The error appears only after the table has grown, and its amount depends on how many times.", "anchors": ["libgst/dict.c: _gst_identity_dictionary_at_put, grow_identity_dictionary, _gst_dictionary_add, grow_dictionary"]}
{"id": "C11", "title": "VM dictionary probing always finds a stopping slot", "statement": "Starting from the capacities the VM itself allocates, after any sequence of stores a table always keeps an empty slot, so that looking up an absent key terminates with 'absent' instead of aborting the VM.", "quantifier": "every sequence of stores and every capacity used", "why_tests_cant": "The load threshold mixes header words with slots; which capacities are safe is an arithmetic fact over all sizes.", "anchors": ["libgst/dict.c: _gst_dictionary_add, _gst_identity_dictionary_at_put", "libgst/dict.inl: dictionary_association_at"]}
{"id": "C12", "title": "Hashed collections behave as finite sets and maps", "statement": "After any history of add, remove, at:put: and removeKey: on a Set, Dictionary, LookupTable or IdentityDictionary written in Smalltalk, membership tests and lookups answer what a mathematical finite set or map with the same history answers.", "quantifier": "every history of operations, every element, every hash and equality that are compatible", "why_tests_cant": "Open addressing with deletion fails only for particular collision chains that wrap around the table end.", "anchors": ["kernel/HashedColl.st: add:, remove:ifAbsent:, findIndex:, rehashObjectsAfter:, incrementTally, growBy:", "kernel/LookupTbl.st: at:put:, remove:, removeKey:ifAbsent:"]}
{"id": "C13", "title": "Growing a hashed collection loses nothing", "statement": "When a hashed collection grows or is rehashed, every element that was in it is still in it exactly once and no new element appears; capacity stays a power of two and at least one slot stays free.", "quantifier": "every table content, every hash function, every growth request", "why_tests_cant": "Depends on the arrangement of every element modulo the new capacity.", "anchors": ["kernel/HashedColl.st: growBy:, rehash, new:, incrementTally, whenFullDo"]}
{"id": "C14", "title": "Process lists are never corrupted", "statement": "After any sequence of suspend, resume, yield, wait, signal and terminate, each process is on at most one waiting or ready list, each list is a proper finite chain with matching first and last links, and the order of the untouched processes does not change.", "quantifier": "every sequence of scheduler operations on any number of processes", "why_tests_cant": "Corruption needs particular positions (first, middle, last, only) in particular lists after particular histories.", "anchors": ["libgst/interp.c: add_first_link, add_last_link, remove_first_link, remove_process_from_list, suspend_process, sleep_process, resume_process, active_process_yield"]}
{"id": "C15", "title": "The highest priority ready process runs", "statement": "Whenever the VM picks a process to run, no ready process has a higher priority than the picked one, and among ready processes of equal priority the one that became ready first is picked.", "quantifier": "every set of ready processes and every history that produced it", "why_tests_cant": "Quantifies over every scheduling history.", "anchors": ["libgst/interp.c: highest_priority_process, next_scheduled_process, resume_process, would_reschedule_process, ACTIVE_PROCESS_YIELD"]}
{"id": "C16", "title": "Semaphores neither lose nor invent signals", "statement": "At every moment of every history, the number of completed waits plus the signals still held (plus those thrown away by `lock`) equals the number of signals sent plus the initial count; a semaphore never holds spare signals while a process waits on it. Processes released by notify and notifyAll are not counted: those messages send no signal.", "quantifier": "every interleaving of signal and wait on any number of semaphores and processes", "why_tests_cant": "Lost wake-ups only show in particular interleavings.", "anchors": ["libgst/interp.c: _gst_sync_signal, sync_wait_process, resume_process", "libgst/prims.def: VMpr_Semaphore_wait, VMpr_Semaphore_signal, VMpr_Semaphore_notifyAll, VMpr_Semaphore_waitAfterSignalling"]}
{"id": "C17", "title": "Semaphore waiters are released in arrival order", "statement": "Processes waiting on one semaphore are resumed by signal in the order in which they started waiting; notifyAll releases all of them.", "quantifier": "every history of waits and signals", "why_tests_cant": "Ordering must hold for every queue length and every interleaving.", "anchors": ["libgst/interp.c: sync_wait_process, _gst_sync_signal, remove_first_link, add_last_link"]}
{"id": "C18", "title": "Asynchronous calls are each executed exactly once", "statement": "Every callback queued by signal handlers or other threads is executed exactly once by the interpreter, in some order consistent with queueing, no matter how queueing and draining interleave.", "quantifier": "every interleaving of any number of concurrent producers with the draining interpreter", "why_tests_cant": "The loss requires a compare-and-swap to fail at one particular instruction boundary.", "anchors": ["libgst/interp.c: _gst_async_call, _gst_async_call_internal, empty_async_queue"]}
{"id": "C19", "title": "Heap blocks never overlap", "statement": "Blocks handed out by the page-level memory allocator and not yet freed never share a byte with one another or with the free list, and every byte obtained from the system is either in a live block or on the free list.", "quantifier": "every sequence of allocations and frees of every size", "why_tests_cant": "Overlap depends on the exact history of splits and merges.", "anchors": ["libgst/alloc.c: heap_primitive_alloc, heap_primitive_free, heap_add_to_free_list, heap_system_alloc"]}
{"id": "C20", "title": "Freed neighbours are always merged", "statement": "The allocator's free list is always sorted by address and contains no two adjacent blocks, so after everything from one system region is freed it is one block again.", "quantifier": "every sequence of allocations and frees", "why_tests_cant": "Merging has four cases at each insertion position and the invariant is about the whole list.", "anchors": ["libgst/alloc.c: heap_add_to_free_list, heap_primitive_alloc, heap_primitive_free"]}
{"id": "C21", "title": "Small-object size classes fit", "statement": "For every request up to the small-object limit, the chosen size class is at least as large as the request, is a multiple of the alignment, and is the smallest class that fits.", "quantifier": "every request size", "why_tests_cant": "Table driven; an off-by-one affects only boundary sizes.", "anchors": ["libgst/alloc.c: freelist_size, sztable, init_table, _gst_mem_alloc"]}
{"id": "C22", "title": "Bytecode operands of any size round-trip", "statement": "Whatever non-negative operand the compiler gives to an instruction, decoding the emitted bytes answers the same instruction and the same operand, and consumes exactly the emitted bytes.", "quantifier": "every opcode and every operand, in any surrounding byte stream", "why_tests_cant": "Extension prefixes appear only for large operands; all lengths must work.", "anchors": ["libgst/byte.c: _gst_compile_byte, compile_byte", "libgst/byte.def: EXT_BYTE"]}
{"id": "C23", "title": "Superoperators do not change the program", "statement": "Replacing pairs of instructions by superoperators leaves the sequence of primitive instructions that the interpreter decodes unchanged, for every basic block.", "quantifier": "every sequence of instructions the compiler can produce in a basic block", "why_tests_cant": "There are 192 superoperators, two rewriting rules and unbounded cascades of rewrites.", "anchors": ["libgst/opt.c: optimize_superoperators, search_superop_fixed_arg_1, search_superop_fixed_arg_2", "libgst/superop1.inl", "libgst/superop2.inl", "libgst/byte.def"]}
{"id": "C24", "title": "Peephole optimisation preserves behaviour", "statement": "Executing an optimised basic block from any machine state has the same effect on stack, variables and result as executing the original block.", "quantifier": "every basic block and every machine state", "why_tests_cant": "Each rewriting rule may interact with operand extension and with previous rewrites; only proof covers all blocks.", "anchors": ["libgst/opt.c: optimize_basic_block"]}
{"id": "C25", "title": "Jumps land on their targets after optimisation", "statement": "After jump offsets have been recomputed and emitted, every jump in the optimised method transfers control to the first byte of the block that was its destination.", "quantifier": "every number of blocks, every block length, every jump target", "why_tests_cant": "The length of a jump depends on its distance, which depends on the lengths of other jumps; the sizes are iterated to a fixpoint, and it takes a method with over a hundred jumps to reach a wrong one.", "anchors": ["libgst/opt.c: compute_jump_length, _gst_optimize_bytecodes", "libgst/byte.c: compile_byte"]}
{"id": "C26", "title": "The bytecode verifier rejects ill-formed methods", "statement": "A method accepted by the verifier never reads a literal, temporary or instance variable out of range, in any execution path.", "quantifier": "every method and every execution path", "why_tests_cant": "Verification merges states over all paths; a suite only tries methods the compiler makes.", "anchors": ["libgst/opt.c: _gst_verify_method, merge_stacks"]}
{"id": "C27", "title": "Balanced tree keeps order and balance under insertion and removal", "statement": "After any sequence of insertions and removals, the red-black tree used by the VM for registries enumerates exactly the remaining keys in increasing order, and the longest path from the root is at most twice the shortest.", "quantifier": "every sequence of insertions and removals of every keys", "why_tests_cant": "Rebalancing has many symmetric cases reached only by particular shapes.", "anchors": ["lib-src/rbtrees.c: rb_rebalance, rb_erase, rb_erase_rebalance, rb_first, rb_next"]}
{"id": "C28", "title": "AVL tree keeps order and height", "statement": "After any sequence of insertions, the AVL tree enumerates exactly the inserted keys in order and sibling heights differ by at most one.", "quantifier": "every sequence of insertions", "why_tests_cant": "Rotations depend on the shape reached by the whole history.", "anchors": ["lib-src/avltrees.c: avl_rebalance, avl_first, avl_next"]}
{"id": "C29", "title": "Method lookup finds the nearest definition", "statement": "Sending a selector to an object runs the method defined in the receiver's class or, failing that, in its nearest superclass that defines it, regardless of what the method cache contains, provided caches are flushed when methods change; if no class defines it, doesNotUnderstand: is sent.", "quantifier": "every class hierarchy, every history of sends, method installations and flushes", "why_tests_cant": "Stale or colliding cache entries depend on addresses and on history.", "anchors": ["libgst/interp.c: lookup_method, _gst_find_method, _gst_invalidate_method_cache", "libgst/interp-bc.inl: _gst_send_message_internal, METHOD_CACHE_HASH", "libgst/dict.c: _gst_find_class_method"]}
{"id": "C30", "title": "Nested interrupt disabling is counted", "statement": "Interrupts are enabled exactly when the number of enable requests has caught up with the number of disable requests of the process, for every nesting.", "quantifier": "every sequence of disable and enable requests", "why_tests_cant": "Counting must be right for every nesting depth.", "anchors": ["libgst/prims.def: VMpr_Processor_disableInterrupts, VMpr_Processor_enableInterrupts"]}
{"id": "C31", "title": "lowBit and highBit answer the true bit positions", "statement": "For every SmallInteger n, `n lowBit` is the 1-based position of the least significant 1 bit (0 for 0) and `n highBit` the position of the most significant significant bit, by the definition in terms of powers of two.", "quantifier": "every SmallInteger", "why_tests_cant": "There are 2^63 SmallIntegers and the code is a sequence of mask-and-shift steps with several boundary constants; tests try a few powers of two.", "anchors": ["kernel/SmallInt.st: lowBit, highBit"]}
{"id": "C32", "title": "Bags count occurrences", "statement": "After any history of add:, add:withOccurrences: and remove:ifAbsent: on a Bag, occurrencesOf: and includes: answer what a mathematical multiset with the same history answers, do: passes each element exactly as many times as it occurs, size is the total, and the absent block runs exactly when no occurrence was left.", "quantifier": "every history, every element, every compatible hash and equality, positive and negative occurrence counts", "why_tests_cant": "The counts live in a hash table that grows and shrinks; a suite tries a few counts of a few elements.", "anchors": ["kernel/Bag.st: add:withOccurrences:, remove:ifAbsent:, occurrencesOf:, includes:, size, do:", "kernel/LookupTable.st"]}
{"id": "C33", "title": "Set comparison, hash and arithmetic are mathematical", "statement": "Two sets compare equal exactly when they have the same members, equal sets have equal hashes whatever their histories and capacities, <= and < are inclusion and strict inclusion, and &, + and - answer intersection, union and difference.", "quantifier": "every pair of histories and initial capacities, every compatible hash and equality", "why_tests_cant": "Equality tests inclusion in one direction only and relies on counting; the hash depends on the table order unless the fold is order independent.", "anchors": ["kernel/HashedColl.st: =, hash", "kernel/Set.st: &, +, -, <, <="]}
{"id": "C34", "title": "waitAfterSignalling: suspends its sender", "statement": "`a waitAfterSignalling: b` signals b and then makes the process that sent the message wait on a (unless a holds a signal), whatever process the signal wakes.", "quantifier": "every scheduler state, every pair of semaphores, every priority of the processes involved", "why_tests_cant": "The wrong process is suspended only if the signal wakes a process of the same or a higher priority.", "anchors": ["libgst/prims.def: VMpr_Semaphore_waitAfterSignalling", "libgst/interp.c: _gst_sync_signal, _gst_sync_wait, resume_process, get_active_process"]}
{"id": "C35", "title": "No process is lost", "statement": "A process that is ready, running or waiting stays ready, running or waiting through every history of signals, waits, resumes, yields, time slices and switches, unless it terminates or is suspended.", "quantifier": "every history of scheduler operations and every moment at which a time slice may end", "why_tests_cant": "A process is lost only if an asynchronous signal and the end of a time slice are noticed at the same bytecode.", "anchors": ["libgst/interp-bc.inl: monitor_byte_codes", "libgst/interp.c: ACTIVE_PROCESS_YIELD, highest_priority_process, activate_process, change_process_context"]}
{"id": "C36", "title": "Objects handed out by the memory allocator are sound", "statement": "Through every history of allocating, freeing and resizing, objects in use never overlap each other or free memory, are aligned and as large as asked for; freeing an object in use always works and affects no other; when all are freed all blocks are given back; when there is no memory NULL is answered.", "quantifier": "every history of calls to _gst_mem_alloc, _gst_mem_free and _gst_mem_realloc, every request size, every answer of the operating system and of the out-of-memory hook", "why_tests_cant": "A test visits a handful of histories; the blocks in use, the size classes and the pages interact through the whole history.", "anchors": ["libgst/alloc.c: _gst_mem_alloc, _gst_mem_free, _gst_mem_realloc, heap_small_block, heap_large_block", "libgst/alloc.h"]}
{"id": "C37", "title": "The interpreter and the bytecode definitions execute the same program", "statement": "For every byte of a method the interpreter executes the operations, with the operands, that the shared bytecode definition (used by the optimiser, verifier, disassembler and JIT) gives for that byte; only the last operation of a byte can leave it.", "quantifier": "every byte code, every operand with any number of extension bytes", "why_tests_cant": "Two tables of 256 entries are written by hand; most superoperators with most operands are never produced by tests.", "anchors": ["libgst/byte.def", "libgst/vm.def", "libgst/byte.h: MATCH_BYTECODES", "libgst/byte.c: compile_byte"]}
{"id": "C38", "title": "An object registered by C code stays alive until unregistered as many times", "statement": "After any sequence of register and unregister calls, the objects that the garbage collector treats as roots on behalf of C code are exactly those registered more times than unregistered (a surplus unregistration has no effect), each once; no call crashes or loops.", "quantifier": "every sequence of register and unregister calls on every objects, every answer of the allocator", "why_tests_cant": "A count or tree link lost for one history frees a live object much later.", "anchors": ["libgst/callin.c: _gst_register_oop, _gst_unregister_oop, _gst_copy_registered_oops, _gst_mark_registered_oops", "lib-src/rbtrees.c"]}
{"id": "C39", "title": "The number of weak objects reported is the number of weak objects", "statement": "After any sequence of making objects weak and not weak, the number of weak objects that memory statistics report is the number of objects in the registry of weak objects.", "quantifier": "every sequence of makeWeak and makeNonWeak on every objects", "why_tests_cant": "A count drifts only for particular histories.", "anchors": ["libgst/oop.c: _gst_make_oop_weak, _gst_make_oop_non_weak"]}
{"id": "C40", "title": "Registering an array of objects returns", "statement": "Registering an array of objects on behalf of C code returns, whatever arrays are registered.", "quantifier": "every registry of arrays and every array", "why_tests_cant": "Whether a loop ends for every tree is not something a run can show.", "anchors": ["libgst/callin.c: _gst_register_oop_array"]}
{"id": "C41", "title": "The table of C functions answers the last definition", "statement": "Looking up a C function by name answers the address given by the last definition of that name and fails if there was none, after any sequence of definitions; names are told apart as C strings.", "quantifier": "every sequence of definitions, every name", "why_tests_cant": "Prefixes, repeated names and tree shapes combine without bound.", "anchors": ["libgst/cint.c: _gst_define_cfunc, _gst_lookup_function", "lib-src/avltrees.c: avl_rebalance"]}
{"id": "C42", "title": "Special selectors behave as ordinary messages", "statement": "Sending size or class through their special bytecodes does what an ordinary send of the message would do, for every receiver and whatever was sent before, provided caches are flushed when methods change.", "quantifier": "every class hierarchy, every history of sends, method installations and flushes, every receiver", "why_tests_cant": "One-entry caches go wrong only for particular orders of sends and redefinitions.", "anchors": ["libgst/vm.def: SIZE_SPECIAL, CLASS_SPECIAL", "libgst/interp.c: _gst_invalidate_method_cache, execute_primitive_operation"]}
{"id": "C43", "title": "Dates follow the Gregorian calendar", "statement": "Day 0 is 1 January 1901; the Date of the next day number is always the next day of the Gregorian calendar (leap years by the rule of 4, 100 and 400), forwards and backwards without limit; every Date, however made, names a day that exists; and later day numbers have later dates in the order of year, month, day.", "quantifier": "every day number (all integers) and every Date obtained from any sequence of creation and arithmetic messages", "why_tests_cant": "The conversion is a chain of integer divisions with magic constants; an error shows only on isolated days (ends of February, of centuries, of 400-year cycles), and there are infinitely many days.", "anchors": ["kernel/Date.st: setDays:, daysUntilMonth:year:, setDay:monthIndex:year:, newDay:year:, fromJulian:, addDays:"]}
{"id": "C44", "title": "Dates and their parts convert both ways", "statement": "newDay:monthIndex:year: of a day that exists answers that day in every year; the expression written by storeOn: evaluates to an equal Date; two Dates are equal exactly when day, month and year agree; a day outside the month counts on into the neighbouring months; a month outside 1 to 12 is an error; adding and subtracting days are exact inverses.", "quantifier": "all days, months and years (all integers), all Dates", "why_tests_cant": "Round trips hold or fail per date; the two conversions use unrelated formulas.", "anchors": ["kernel/Date.st: setDay:monthIndex:year:, storeOn:, =, hash, addDays:, subtractDays:, daysInMonthIndex:forYear:"]}
{"id": "C45", "title": "Calendar queries are right", "statement": "daysInYear is 366 exactly in leap years, daysInMonth is the length of the month, dayOfYear counts the days of the months before, newDay:year: is its inverse, daysLeftInMonth and daysLeftInYear, firstDayOfMonth and lastDayOfMonth are what they say, and dayOfWeek runs through the seven days with 1 January 1901 a Tuesday.", "quantifier": "all Dates and years", "why_tests_cant": "Formulas over unbounded integers with floor divisions; samples miss century years.", "anchors": ["kernel/Date.st: daysInYear:, daysInMonth, dayOfYear, daysLeftInYear, daysLeftInMonth, firstDayOfMonth, lastDayOfMonth, dayOfWeek, newDay:year:"]}
{"id": "C46", "title": "Arithmetic and order of timestamps are those of moments", "statement": "Adding or subtracting a Duration of any sign moves a timestamp by exactly that many seconds; the difference of two timestamps is the number of seconds between their moments; < and = compare the moments whatever the offsets; asUTC and asLocal keep the moment; a Date plus a Duration is the moment that much later.", "quantifier": "all timestamps, offsets and Durations (whole seconds)", "why_tests_cant": "Carries between days and seconds depend on signs; offsets multiply the cases.", "anchors": ["kernel/AnsiDates.st: DateTime +, -, <, =, asUTC, asLocal, fromDays:seconds:offset:, year:month:day:hour:minute:second:", "kernel/Date.st: +, -"]}
{"id": "C47", "title": "Parts of times and durations; equal timestamps hash equally", "statement": "Hours, minutes and seconds of a time, a timestamp or a Duration of either sign are in range and add up to it, so that what storeOn: writes evaluates to the same object; the time zone shown is the offset; equal timestamps have equal hashes.", "quantifier": "all Times, Durations and timestamps", "why_tests_cant": "Truncating and flooring division differ only on negative values; hash and equality must agree on all pairs.", "anchors": ["kernel/Time.st: setSeconds:, hours, minutes, seconds, hour, minute, second, hour12", "kernel/AnsiDates.st: Duration storeOn:, DateTime storeOn:, hash, timeZoneAbbreviation, dayOfWeek"]}
{"id": "C48", "title": "Printed dates, durations and timestamps read back", "statement": "Reading the printed form of a Date, a Duration or a timestamp answers an object equal to the one printed.", "quantifier": "all Dates, Durations and timestamps", "why_tests_cant": "The reader guesses the order of the fields from their values, so failures sit at particular years, signs and offsets.", "anchors": ["kernel/Date.st: printOn:, readFrom:", "kernel/AnsiDates.st: Duration printOn:, readFrom:, DateTime printOn:, readFrom:", "kernel/Number.st: readFrom:radix:"]}
{"id": "C49", "title": "An OrderedCollection is a list", "statement": "Every sequence of messages to a new OrderedCollection (adding at either end, at or before or after an index or an object, removing at either end or by index or by value, reading, replacing, searching, listing, in bulk or one by one) is answered exactly as the same operations on a list are, including which messages raise an error; in particular neither growing, nor shrinking, nor the place of the elements in the storage is observable.", "quantifier": "all sequences of messages, all initial capacities, all elements", "why_tests_cant": "Growing, shrinking and the position of the elements depend on the whole history; an off-by-one shows only at particular combinations of capacity, first and last index.", "anchors": ["kernel/OrderColl.st: new:, add:, addFirst:, add:afterIndex:, add:beforeIndex:, addAll:, addAllFirst:, addAll:afterIndex:, removeFirst, removeLast, removeAtIndex:, remove:ifAbsent:, at:, at:put:, first, last, indexOf:startingAt:ifAbsent:, do:, growBy:shiftBy:, shrink"]}
{"id": "C50", "title": "An OrderedCollection keeps no removed element", "statement": "After any sequence of messages every slot of the storage that holds no element holds nil, so a removed object is not kept alive by the collection.", "quantifier": "all sequences of messages, all capacities", "why_tests_cant": "Stale references are invisible through the collection's messages; only the garbage collector sees them.", "anchors": ["kernel/OrderColl.st: removeFirst, removeLast, basicRemoveAtIndex:, growBy:shiftBy:, shrink"]}
{"id": "C51", "title": "A SortedCollection is always in order", "statement": "After any sequence of additions and removals the elements are exactly those added and not removed, they are listed in the order of the sort block, removeFirst and first answer a least one and removeLast and last a greatest one, at: answers the element at that place in the order, and remove:, includes: and indexOf: find an element exactly when an equal one is there.", "quantifier": "all sequences of messages, all element types, all sort blocks that order them (of the <= kind and of the < kind), all capacities, both strategies for ordering late additions", "why_tests_cant": "The collection orders itself lazily in one of four ways (sort, merge, sift up, build heap), depending on history; tests exercise few of the interleavings.", "anchors": ["kernel/SortCollect.st: add:, addAll:, removeFirst, removeLast, first, last, at:, do:, beConsistent, merge, makeHeap, buildHeap, percolateUp, percolateDown, sortHeap, indexOf:startingAt:ifAbsent:, includes:, doBinarySearch:low:high:"]}
{"id": "C52", "title": "Reading a SortedCollection changes nothing", "statement": "Once the elements have been listed, listing them again, at:, first and last answer the same elements and leave the collection unchanged, and indexOf: answers an index at which at: answers an equal element.", "quantifier": "every SortedCollection reachable by any messages, every index and element", "why_tests_cant": "Reading reorders the storage lazily; agreement between different readers is a statement about all pairs of calls.", "anchors": ["kernel/SortCollect.st: beConsistent, at:, first, last, do:, indexOf:startingAt:ifAbsent:"]}
{"id": "C53", "title": "Counting, searching and replacing in a SortedCollection", "statement": "occurrencesOf: answers the number of equal elements; indexOf: answers the first index of an equal element; last of an empty collection is an error; at:put: is refused or keeps the order.", "quantifier": "all SortedCollections and elements", "why_tests_cant": "The count and the index come from a binary search followed by a scan to both sides; errors need particular positions of the element.", "anchors": ["kernel/SortCollect.st: occurrencesOf:, indexOf:startingAt:ifAbsent:, last, at:put:"]}
{"id": "C54", "title": "Greatest common divisors, least common multiples and integer logarithms", "statement": "gcd: of any two Integers answers their greatest common divisor (non-negative), lcm: their least common multiple; floorLog: answers the largest power of the radix not above the receiver and ceilingLog: the smallest not below it; arguments for which these do not exist are refused.", "quantifier": "all pairs of Integers of any size, all radices", "why_tests_cant": "The loops run over unbounded Integers; off-by-one errors in the logarithms appear only near powers of the radix.", "anchors": ["kernel/Integer.st: gcd:, lcm:, floorLog:, ceilingLog:"]}
{"id": "C55", "title": "Factorials and binomial coefficients", "statement": "n factorial answers n!, n binomial: k answers the binomial coefficient, for every n and k for which they are defined, and both refuse the others; the factors may be grouped in any way that the size of SmallIntegers suggests.", "quantifier": "all Integers, all SmallInteger sizes", "why_tests_cant": "Factors are accumulated on a stack with a binary counter; which products are formed depends on the word size and the argument.", "anchors": ["kernel/Integer.st: factorial, binomial:"]}
{"id": "C56", "title": "Integer powers", "statement": "raisedTo: an Integer answers the product of that many copies of the receiver, for any kind of number with an associative product, with the same result whichever intermediate powers are cached; LargeIntegers with trailing zero bits answer the same as other Integers.", "quantifier": "all receivers, all exponents", "why_tests_cant": "The chain of products comes from a table of 256 entries and a recursive cache; a wrong entry affects a few exponents only.", "anchors": ["kernel/Number.st: raisedToInteger:, raisedToInteger:withCache:, powerTable", "kernel/LargeInt.st: raisedToInteger:"]}
{"id": "C57", "title": "Printing and reading Integers", "statement": "printString: writes an Integer in any base from 2 to 36 without leading zeros, printStringRadix: with the base in front, the padded variants to the requested width; two different Integers never print alike in a base; reading back what was printed answers the Integer and stops at the first character that is not part of it.", "quantifier": "all Integers, all bases from 2 to 36, all paddings and widths, all following text", "why_tests_cant": "The size of the string is computed beforehand from a logarithm; one character too many or too few shows at powers of the base only.", "anchors": ["kernel/Integer.st: printString:, printStringRadix:, printOn:paddedWith:to:base:, printPaddedWith:to:base:, replace:withStringBase:", "kernel/Number.st: readFrom:radix:", "kernel/Character.st: digitValue, digitValue:, isDigit:"]}
{"id": "C58", "title": "Exact arithmetic of Integers and Fractions", "statement": "+, -, *, /, // and \\\\ between Integers and Fractions in any combination answer the exact rational result in lowest terms with a positive denominator, and dividing by zero is always an error; powers of Fractions, of any exponent, are exact too.", "quantifier": "all pairs of Integers and Fractions in lowest terms, all Integer exponents, any SmallInteger size", "why_tests_cant": "The code divides common factors out early in different ways for each operation and class; a missing factor shows for particular pairs only.", "anchors": ["kernel/Fraction.st: +, -, *, /, //, \\\\, raisedToInteger:, reciprocal, reduce", "kernel/SmallInt.st: /", "kernel/LargeInt.st: /"]}
{"id": "C59", "title": "Integral results are Integers", "statement": "When the result of +, -, *, /, reciprocal or raisedTo: between Integers and Fractions is an integer, it is answered as an Integer, not as a Fraction with denominator 1.", "quantifier": "all pairs of Integers and Fractions in lowest terms", "why_tests_cant": "Each operation tests for it in its own way; only some combinations of signs and classes escape.", "anchors": ["kernel/Fraction.st: +, -, *, /, reciprocal, raisedToInteger:, reduce, numerator:denominator:", "kernel/LargeInt.st: /", "kernel/SmallInt.st: /"]}
{"id": "C60", "title": "Rounding and comparing Fractions", "statement": "floor, ceiling, truncated and rounded answer the mathematical ones (rounded: a nearest Integer, away from zero on a tie); <, <= and = between Integers and Fractions agree with the order and equality of the rationals, for numbers of any size, although the comparison first estimates from the number of bits.", "quantifier": "all Integers and Fractions in lowest terms", "why_tests_cant": "The estimate is used only for numbers that differ in length; the exact comparison for the others.", "anchors": ["kernel/Fraction.st: floor, ceiling, truncated, compare:, <, <=, =", "kernel/Number.st: rounded, retryRelationalOp:coercing:"]}
{"id": "C61", "title": "Fractions and LargeIntegers convert to the nearest Float", "statement": "Converting a Fraction or a LargePositiveInteger to a Float of any precision answers the Float nearest to it, the even one on a tie.", "quantifier": "all positive numerators and denominators, all precisions and exponent ranges (overflow excepted)", "why_tests_cant": "Rounding errors need a specific pattern of bits just after the last one kept; random tests do not find them.", "anchors": ["kernel/Fraction.st: asFloat:", "kernel/LargeInt.st: asFloat:", "libgst/prims.def: VMpr_FloatD_timesTwoPower", "libgst/dict.c: CDoubleMinExp"]}
{"id": "C62", "title": "ScaledDecimals", "statement": "Arithmetic between ScaledDecimals is exact and shows as many digits as the operand with more; a ScaledDecimal shows exactly its scale in digits, being its value truncated towards zero, which is also what asFraction answers; what is shown reads back as an equal number; = is an equivalence, agrees with hash, and with < orders the ScaledDecimals.", "quantifier": "all ScaledDecimals made from Integers and Fractions, of any scales", "why_tests_cant": "Hidden digits beyond the scale take part in arithmetic and comparison; whether two numbers are equal depends on both scales.", "anchors": ["kernel/ScaledDec.st: newFromNumber:scale:, +, -, *, /, compare:, =, <, hash, displayOn:, asFraction"]}
{"id": "C63", "title": "An Interval stands for its arithmetic progression", "statement": "(a to: b by: s), for a step other than zero, lists a, a+s, a+2s, … as long as b is not passed: do:, to:do:, to:by:do:, collect:, to:collect:, to:by:collect:, size, isEmpty, at:, first and last all agree with that one list; do: comes to an end; every other index is an error.", "quantifier": "all starts, stops and nonzero steps among Integers and Fractions, of either sign; all indices; all blocks", "why_tests_cant": "Each message computes the number of elements in its own way (by looping, by division, by remainder); they differ only at particular signs and remainders.", "anchors": ["kernel/Interval.st: do:, collect:, isEmpty, size, at:, first, last", "kernel/Number.st: to:do:, to:by:do:, to:collect:, to:by:collect:"]}
{"id": "C64", "title": "Copies, comparison and printing of Intervals", "statement": "reverse lists the elements backwards and copyFrom:to: that part of them; two Intervals are equal when, and only when, they list the same elements, and equal Intervals have equal hash values; printing shows elements of the Interval only; an Interval made withAll: the elements of a collection lists just those, and a collection that is not an arithmetic progression is refused.", "quantifier": "all Intervals of Integers and Fractions with a nonzero step; all index ranges; all collections of numbers", "why_tests_cant": "stop need not be an element, and two Intervals that list the same elements need not have the same stop; tests use stops that are elements.", "anchors": ["kernel/Interval.st: reverse, copyFrom:to:, =, hash, printOn:, withAll:, first, last"]}
{"id": "C65", "title": "A RunArray is the list it was made from", "statement": "asRunArray of a list answers a RunArray that do:, at:, first, last and size show to hold that list, whatever was read before and in whatever order; two such RunArrays are equal exactly if the lists are; removing an element by index answers it and leaves the list without it, ready for further reads and removals.", "quantifier": "all lists, all sequences of reads and removals at any indices", "why_tests_cant": "at: moves a cursor over the runs, so what one read answers depends on all reads and removals before it.", "anchors": ["kernel/RunArray.st: asRunArray, asRunArrayMap, at:, do:, first, last, size, removeAtIndex:, removeFirst, removeLast, =, updateMapIndexFor:"]}
{"id": "C66", "title": "Changing a RunArray", "statement": "at:put: replaces one element, addFirst:, addLast: and add:afterIndex: insert one, as in an OrderedCollection, and what is read afterwards is what was stored; indexOf: answers an index of its argument.", "quantifier": "all RunArrays, all indices and elements", "why_tests_cant": "The run is split differently at its first, inner and last places and the cursor has to follow.", "anchors": ["kernel/RunArray.st: at:put:, addFirst:, addLast:, add:afterIndex:, at:splitAndPut:decrementBy:, splitAt:decrementBy:, indexOf:startingAt:ifAbsent:"]}
{"id": "C67", "title": "The collector keeps exactly the live objects", "statement": "When a global garbage collection comes to its end, the objects it has kept are exactly those that can be reached from the roots through classes, ordinary fields, context slots and the fields of ephemerons, but not through the fields of weak objects.", "quantifier": "all object graphs (any number of objects, any shape, cyclic or not, with weak objects, contexts and ephemerons), all sets of roots", "why_tests_cant": "The traversal uses a queue of partly scanned ranges, marks ahead of scanning, and delays ephemerons; an object lost or kept wrongly shows only in a particular graph.", "anchors": ["libgst/oop.c: mark_oops, _gst_mark_an_oop_internal, _gst_mark_oop_range, mark_ephemeron_oops", "libgst/oop.inl: MAYBE_MARK_OOP"]}
{"id": "C68", "title": "The mark phase of a collection ends", "statement": "A global garbage collection comes to an end whatever objects exist, and follows only pointers.", "quantifier": "all object graphs and roots", "why_tests_cant": "Non-termination needs a particular shape of ephemerons; no finite number of test graphs excludes it.", "anchors": ["libgst/oop.c: mark_ephemeron_oops, _gst_mark_an_oop_internal"]}
{"id": "C69", "title": "Ephemerons are mourned when their key is otherwise unreachable", "statement": "After a collection a live ephemeron is sent mourn, once, exactly if its key can not be reached except through the ephemeron itself.", "quantifier": "all object graphs with any number of ephemerons, in any order, sharing keys and values in any way", "why_tests_cant": "The two passes over the ephemerons depend on the order in which they were found; wrong verdicts need several ephemerons referring to each other.", "anchors": ["libgst/oop.c: mark_ephemeron_oops"]}
{"id": "C70", "title": "Weak objects lose exactly the dead", "statement": "After a collection each slot of a live weak object holds what it held before if that is still alive and nil otherwise; the weak object is sent mourn exactly if it lost something; no live object refers to a collected one.", "quantifier": "all object graphs with weak objects, all roots", "why_tests_cant": "It is a statement about all slots of all weak objects after a traversal of the whole graph.", "anchors": ["libgst/oop.c: check_weak_refs"]}
{"id": "C71", "title": "A new object never takes the place of an object in use", "statement": "Whatever sequence of allocations, sweep steps, collections, become:, tenuring and fixing has gone before, the identity given to a new object is not that of an object in use, lies inside the object table as long as the count of free entries is at least two, and all objects in use keep their identity and contents.", "quantifier": "all sequences of these operations from an empty table of any size; any set of objects kept by each collection", "why_tests_cant": "The table is swept lazily, so whether an entry is free depends on two moving ends and on which flag currently means 'alive'; the states that matter depend on the exact number of free entries.", "anchors": ["libgst/oop.inl: alloc_oop, IS_OOP_VALID, IS_OOP_VALID_GC", "libgst/oop.c: _gst_incremental_gc_step, _gst_finish_incremental_gc, _gst_finished_incremental_gc, reset_incremental_gc, _gst_sweep_oop, _gst_global_gc, _gst_scavenge"]}
{"id": "C72", "title": "Sweeping frees everything that is not in use, and ends", "statement": "Finishing the sweep, or a sweep step that reports the end, leaves every entry not in use free and no entry marked; repeating sweep steps comes to an end; every collection ends with exactly the objects it was to keep.", "quantifier": "all sequences of memory operations; any set of objects to keep", "why_tests_cant": "Entries freed twice or never show only after particular interleavings of sweep steps and allocations.", "anchors": ["libgst/oop.c: _gst_incremental_gc_step, _gst_finish_incremental_gc, reset_incremental_gc, _gst_sweep_oop"]}
{"id": "C73", "title": "become: exchanges two objects and nothing else", "statement": "After a become: b every reference to a is to what b was and the other way round, including being read-only, weak, fixed, a context or an ephemeron; no other object changes; neither object is lost to a sweep in progress.", "quantifier": "all states of the object table, all pairs of objects, also a become: a", "why_tests_cant": "The exchange has to be right for every combination of generation, mark bit and weakness of the two, during a sweep or not.", "anchors": ["libgst/oop.c: _gst_swap_objects, _gst_make_oop_weak, _gst_make_oop_non_weak, _gst_tenure_oop", "libgst/prims.def: Object become:"]}
{"id": "C74", "title": "A stream on a collection is a list with a position", "statement": "Every sequence of messages to a ReadStream, WriteStream or ReadWriteStream (next, peek, peekFor:, next:, nextAvailable:, upTo:, upToEnd, skipTo:, position:, skip:, reset, setToEnd, nextPut:, nextPutAll:, truncate, emptyStream, contents, size, atEnd) is answered as by a list and a number of elements passed: reading gives the elements in order, writing overwrites at the position and extends at the end.", "quantifier": "all initial collections, all sequences of messages, all arguments including out-of-range positions", "why_tests_cant": "The buffer grows, holds stale or unused places past the end and is shared by reading and writing; what can go wrong depends on the whole history of messages.", "anchors": ["kernel/PosStream.st: next, peek, peekFor:, nextAvailable:into:startingAt:, upTo:, upToEnd, position:, skip:, truncate, contents", "kernel/WriteStream.st: nextPut:, next:putAll:startingAt:, growCollection, growCollectionTo:, contents", "kernel/ReadStream.st: on:, on:from:to:", "kernel/RWStream.st: on:, with:, contents", "kernel/Stream.st: next:, next:into:startingAt:, nextAvailable:, skipTo:"]}
{"id": "C75", "title": "What is written to a stream is what it contains", "statement": "After any sequence of nextPut: and nextPutAll: to a new WriteStream, contents is the concatenation of what was written, whatever collection the stream was created on; copying the rest of a stream onto another appends exactly the unread elements.", "quantifier": "all initial collections (empty, too small, full of other things), all sequences of writes of any sizes", "why_tests_cant": "The buffer is regrown at sizes that depend on the sizes of all writes before.", "anchors": ["kernel/WriteStream.st: on:, with:, nextPut:, next:putAll:startingAt:, growCollectionTo:", "kernel/PosStream.st: nextPutAllOn:"]}
{"id": "C76", "title": "Derived streams and reversed contents agree with contents", "statement": "readStream answers a stream on the same contents as the receiver, reverseContents is contents reversed, a stream created on a range of a collection contains exactly that range, and reset truncates a write-only stream.", "quantifier": "all streams, all positions, all ranges", "why_tests_cant": "The three classes share methods written for different end marks; a difference shows only at positions other than the end.", "anchors": ["kernel/PosStream.st: readStream, reverseContents, reset", "kernel/WriteStream.st: readStream, reverseContents", "kernel/RWStream.st: on:from:to:, limit:"]}
{"id": "C77", "title": "Searching a stream for a sequence finds its first occurrence", "statement": "skipToAll: answers true exactly if the sequence occurs in what is left of the stream and then leaves the position just past its first occurrence; upToAll: answers what comes before it; if there is none, they leave the stream at its end.", "quantifier": "all sequences to look for, all stream contents", "why_tests_cant": "Whether the failure table is right depends on how the sequence overlaps with itself; tests with sequences that do not overlap pass with any table.", "anchors": ["kernel/Stream.st: skipToAll:, upToAll:, prefixTableFor:"]}
{"id": "C78", "title": "Splitting a stream and reading its lines lose nothing", "statement": "splitAt: answers the parts between separators, a new part starting after each separator; linesDo: and nextLine give back exactly the lines a text was made of, whichever of the three line ends each line has.", "quantifier": "all contents, all separators, all texts made of lines with arbitrary line ends", "why_tests_cant": "Empty parts, consecutive separators and mixed line ends at the end of the stream combine without bound.", "anchors": ["kernel/Stream.st: splitAt:, upTo:, nextLine, linesDo:"]}
{"id": "C79", "title": "Each integer has one representation", "statement": "Every integer has an object, and the objects integer operations answer are determined by the value: a SmallInteger if it fits, otherwise a LargePositiveInteger or LargeNegativeInteger with the least number of bytes. Equal results therefore have the same class, size and bytes.", "quantifier": "all integers, all operands (also with arbitrary bytes after the last digit)", "why_tests_cant": "The number of bytes changes at every power of 256 and differs for the two signs; tests sample a few sizes.", "anchors": ["libgst/mpz.c: _gst_mpz_from_oop, _gst_oop_from_mpz"]}
{"id": "C80", "title": "Comparisons of large integers are comparisons of their values", "statement": "=, ~=, <, >, <= and >= between integers of any classes answer what the values' comparison answers.", "quantifier": "all pairs of integers, of any size and sign", "why_tests_cant": "Sizes, signs and digits are compared by different branches, and the number of digits is unbounded.", "anchors": ["libgst/prims.def: LargeInteger_eq, ne, lt, le, gt, ge", "libgst/mpz.c: _gst_mpz_cmp"]}
{"id": "C81", "title": "Sums, differences, products and negation of large integers are exact", "statement": "+, -, *, negated and bitInvert answer the object for the exact result, whatever the signs and sizes; a result that fits is a SmallInteger. An argument that is not an integer makes the primitive fail and the method fall back.", "quantifier": "all pairs of integers", "why_tests_cant": "Carries run through any number of digits, and results shrink when digits cancel.", "anchors": ["libgst/prims.def: LargeInteger_plus, minus, times, negated, bitInvert", "libgst/mpz.c: _gst_mpz_add, _gst_mpz_sub, _gst_mpz_mul, _gst_mpz_com"]}
{"id": "C82", "title": "Bit operations on large integers act on each bit of two's complement", "statement": "Bit i of a bitAnd: b, a bitOr: b, a bitXor: b and a bitInvert is the and, or, exclusive or and complement of bit i of the operands, for every i and every combination of signs, negative numbers having infinitely many ones.", "quantifier": "all pairs of integers, all bit positions", "why_tests_cant": "Each combination of signs and sizes has its own code path with borrow and carry.", "anchors": ["libgst/prims.def: LargeInteger_bitAnd, bitOr, bitXor, bitInvert", "libgst/mpz.c: _gst_mpz_and, _gst_mpz_or, _gst_mpz_xor, _gst_mpz_com"]}
{"id": "C83", "title": "Shifting a large integer multiplies by a power of two and rounds down", "statement": "a bitShift: n is a * 2^n for n > 0, and a // 2^-n (rounded down, as for SmallIntegers) for n <= 0.", "quantifier": "all integers, all shift counts", "why_tests_cant": "Which digits are lost depends on count and value together; large counts cannot be tried.", "anchors": ["libgst/prims.def: LargeInteger_bitShift", "libgst/mpz.c: _gst_mpz_mul_2exp, _gst_mpz_div_2exp"]}
{"id": "C84", "title": "quo: and rem: truncate", "statement": "For large integers a quo: b is the quotient rounded towards zero and a rem: b the remainder with the sign of a; division by any zero fails.", "quantifier": "all integers, all divisors that are not zero", "why_tests_cant": "Divisors are passed as a word or as digits; signs and sizes multiply.", "anchors": ["libgst/prims.def: LargeInteger_quo, LargeInteger_rem", "libgst/mpz.c: _gst_mpz_tdiv_qr, _gst_mpz_tdiv_qr_si"]}
{"id": "C85", "title": "// and \\\\ round down", "statement": "For large integers a // b is the quotient rounded down and a \\\\ b the remainder with the sign of b.", "quantifier": "all integers, all divisors that are not zero", "why_tests_cant": "The correction after truncated division depends on signs and on whether the division is exact, which a random test never hits for large divisors.", "anchors": ["libgst/prims.def: LargeInteger_intDiv, LargeInteger_modulo", "libgst/mpz.c: _gst_mpz_fdiv_qr, _gst_mpz_fdiv_qr_si"]}
{"id": "C86", "title": "Greatest common divisors and exact quotients of large integers", "statement": "a gcd: b is the greatest common divisor, not negative, for all a and b; divExact: answers the quotient whenever the division is exact.", "quantifier": "all pairs of integers", "why_tests_cant": "The powers of two are taken out of both operands by whole digits and by bits; which branch runs depends on the operands' trailing zeros.", "anchors": ["libgst/prims.def: LargeInteger_gcd, LargeInteger_divExact", "libgst/mpz.c: _gst_mpz_gcd, _gst_mpz_divexact"]}
{"id": "C87", "title": "Converting a large integer to a double is correctly rounded", "statement": "If the conversion primitive answers, it answers the nearest double, ties to even; integers that are doubles are converted exactly.", "quantifier": "all positive large integers below 2^1024", "why_tests_cant": "Wrong rounding needs a value within one unit of a tie, with the digits split in the wrong place.", "anchors": ["libgst/prims.def: LargeInteger_asFloatD", "libgst/mpz.c: _gst_mpz_get_d"]}
{"id": "C88", "title": "The argument of ensure: is evaluated exactly once", "statement": "However the receiver of ensure: is left (by ending, by a return from an enclosing method, by an exception handler that returns), and whatever other ensure: and on:do: calls are in progress, the argument is evaluated, and only once.", "quantifier": "all sequences of calls, block evaluations, ensure:, on:do:, returns, returns from blocks and exceptions that return, of any length and nesting, in one process", "why_tests_cant": "Which contexts are disabled, skipped or resumed depends on the whole history of exits that have begun and not ended; tests exercise one exit at a time.", "anchors": ["libgst/interp.c: unwind_context, unwind_method, unwind_to, disable_non_unwind_contexts", "libgst/prims.def: BlockClosure_valueAndResumeOnUnwind, ContextPart_continue", "kernel/BlkClosure.st: ensure:"]}
{"id": "C89", "title": "Returns from blocks and handlers arrive where they should", "statement": "^v in a block, evaluated at any depth, makes the method that the block belongs to answer v to its caller, after the arguments of all ensure: calls in between have been evaluated, innermost first; the same for an exception handler that returns v from on:do:. If nothing is left early, ensure: answers the value of its receiver.", "quantifier": "all chains of calls between the return and its destination, all arguments of ensure: that return to their caller", "why_tests_cant": "The chain is rewritten while it is walked, and the exit is continued by each ensure: in turn; any length and mixture of contexts is possible.", "anchors": ["libgst/interp.c: unwind_method, unwind_to, disable_non_unwind_contexts, unwind_context", "kernel/BlkClosure.st: ensure:, on:do:", "kernel/ExcHandling.st: return:"]}
{"id": "C90", "title": "retry leaves the failed attempt before it starts the next", "statement": "When a handler sends retry, the protected block is evaluated again after what ensure: calls in the failed attempt asked for has been done.", "quantifier": "all protected blocks", "why_tests_cant": "The order of effects is visible only if the cleanup and the second attempt interact.", "anchors": ["kernel/ExcHandling.st: retry, retryUsing:, return:"]}
{"id": "C91", "title": "An exception gets the most specific handler of the innermost on:do:", "statement": "Of the on:do: calls in progress, the innermost one that has an enabled handler for the exception is chosen; of its handlers, one for the class nearest to that of the exception, and of several for the same class the first. An exception set counts as its best member.", "quantifier": "all hierarchies of exception classes, all lists of handlers and exception sets, all nestings of on:do:, all sets of disabled handlers", "why_tests_cant": "The choice compares distances in the class hierarchy over all handlers and skips disabled ones; the combinations are unbounded.", "anchors": ["kernel/BlkClosure.st: exceptionHandlerSearchBlock", "kernel/ExcHandling.st: goodness:, instantiateNextHandlerFrom:", "kernel/ContextPart.st: scanBacktraceForAttribute:do:"]}
{"id": "C92", "title": "A handler runs in the scope outside its on:do:", "statement": "While a handler runs, an exception it signals is handled by an on:do: outside the one the handler belongs to, or by one the handler has made itself: not by the handler itself, another handler of the same on:do:, or an on:do: inside it that is being left.", "quantifier": "all sequences of on:do:, signal, outer, resume:, return: and ends of handlers", "why_tests_cant": "Needs several handlers in progress at once; which are disabled depends on the history.", "anchors": ["kernel/BlkClosure.st: exceptionHandlerSearchBlock", "kernel/ExcHandling.st: signal, outer, activateHandler:, resetHandler"]}
{"id": "C93", "title": "A handler is disabled exactly while it runs", "statement": "A handler is not available while it runs, and available again when it has ended in whatever way, to the code that is still in its on:do:.", "quantifier": "all sequences of on:do:, signal, outer, resume:, return:, retry and ends of handlers", "why_tests_cant": "A handler left disabled shows only at a later exception; one enabled too early only if it signals again.", "anchors": ["kernel/BlkClosure.st: exceptionHandlerSearchBlock, exceptionHandlerResetBlock", "kernel/ExcHandling.st: resetHandler, resetAllHandlers, return:, retry, resignalAs:"]}
{"id": "C94", "title": "Resuming an exception restores the handlers", "statement": "After an exception has been resumed, whatever its handler has done before, the handlers in effect are the ones that were in effect when it was signalled, enabled and disabled as then.", "quantifier": "all states in which an exception can be signalled, all actions of its handler", "why_tests_cant": "The state to restore is saved in the exception and other handlers change it in between.", "anchors": ["kernel/ExcHandling.st: resume:, resetHandler, activateHandler:, onDoBlock:handlerBlock:onDoContext:previousState:"]}
{"id": "C95", "title": "A compiled method does what its source says", "statement": "Running the code of a method or block has exactly the outcomes that evaluating its source has: receivers, arguments and statements from left to right, every message of a cascade to the same receiver, conditionals and loops evaluating their blocks in place, ^ answering from the method (and, in a block, from the method around the block), the receiver answered when there is no ^. When the source does not end, neither does the code; the code never lacks an operand or leaves itself.", "quantifier": "all methods and blocks (expressions, cascades, assignments, array constructors, all control structures compiled in place, at any nesting), all states, all behaviours of the methods that are called", "why_tests_cant": "Programs and states are unbounded, and jumps, operand prefixes and stack use depend on the sizes of the parts.", "anchors": ["libgst/comp.c: compile_expression, compile_statements, compile_while_loop, compile_times_repeat, compile_to_by_do, compile_if_statement, compile_and_or_statement, compile_cascaded_message, compile_send, compile_assignments, _gst_compile_method", "libgst/byte.c: compile_byte", "libgst/vm.def"]}
{"id": "C96", "title": "Loops work whatever the size of their body", "statement": "A loop that is compiled in place evaluates its block as often as its source says, whatever the number of bytes of the code of the block.", "quantifier": "all while, repeat, timesRepeat: and to:do: loops, all bodies", "why_tests_cant": "The lengths of the jumps depend on each other and change only at 256 and 65536 bytes; a test has to hit the exact size.", "anchors": ["libgst/comp.c: compile_while_loop, compile_repeat, compile_times_repeat, compile_to_by_do"]}
{"id": "C97", "title": "A context has room for its stack", "statement": "While a method or block runs, its arguments, temporaries and the values it has pushed fit in the context that was allocated for it.", "quantifier": "all methods and blocks, all executions", "why_tests_cant": "The bound is computed by the compiler along every construct; an error shows as overwritten memory and only for deep nestings.", "anchors": ["libgst/byte.h: INCR_STACK_DEPTH, SUB_STACK_DEPTH", "libgst/byte.c: _gst_compile_and_free_bytecodes", "libgst/comp.c: _gst_make_new_method, _gst_block_new, compile_to_by_do"]}
{"id": "C98", "title": "A name stands for its innermost declaration", "statement": "In a method that compiles, a name of an argument, temporary or loop variable refers to the innermost declaration around it, and different declarations are different variables. Arguments and loop variables cannot be assigned, and the same name cannot be declared twice in a block.", "quantifier": "all nestings of blocks and loops with all names", "why_tests_cant": "Scopes nest without bound and names can be reused at each level.", "anchors": ["libgst/sym.c: _gst_find_variable, _gst_declare_name, _gst_undeclare_name", "libgst/comp.c: compile_block, compile_to_by_do"]}
{"id": "C99", "title": "Variables and stack of a context do not overlap", "statement": "A value pushed by a method is never stored in the slot of one of its arguments, temporaries or loop variables.", "quantifier": "all methods, all numbers of arguments, temporaries and loops", "why_tests_cant": "Only methods with more variables than usual are affected.", "anchors": ["libgst/comp.h: method_header", "libgst/comp.c: _gst_make_new_method", "libgst/sym.c: _gst_declare_name", "libgst/interp.c: prepare_context"]}
{"id": "C100", "title": "A scavenge keeps what is in use", "statement": "After a scavenge every young object that can be reached from the roots is still there, in the survivor space or in old space; young objects that cannot be reached are not kept; old objects stay where they are; and the scavenge ends.", "quantifier": "all heaps of young objects, plain, weak and ephemerons, all roots, all sizes of the survivor space and of the tenuring queue, whatever the previous scavenge left behind", "why_tests_cant": "Objects are lost only for shapes of the heap that make two circular queues meet at the wrong moment; a lost object shows much later.", "anchors": ["libgst/oop.c: copy_oops, cheney_scan, _gst_copy_an_oop, scan_grey_pages, scan_grey_objects, tenure_one_object, queue_put, queue_get"]}
{"id": "C101", "title": "Survivors do not overlap, and are tenured only for want of room", "statement": "The objects a scavenge leaves in the survivor space lie inside it and have no word in common; if all survivors fit in it, none is tenured.", "quantifier": "all heaps, all object sizes up to that of the survivor space", "why_tests_cant": "The survivor space is a ring that wraps around at a place that depends on all sizes before.", "anchors": ["libgst/oop.c: queue_put, queue_get, tenure_one_object"]}
{"id": "C102", "title": "An ephemeron is mourned when its key is no longer in use", "statement": "A scavenge mourns a reachable ephemeron when its key can only be reached through it, mourns none whose key is in use, and none twice.", "quantifier": "all heaps with any number of ephemerons", "why_tests_cant": "Depends on the order in which objects are copied, scanned and tenured.", "anchors": ["libgst/oop.c: scan_grey_objects, add_grey_object, cheney_scan, _gst_copy_an_oop"]}
{"id": "C103", "title": "Pages that refer to young objects stay remembered", "statement": "A page of old space that is taken off the list of pages to be scanned refers to no object that is still young, so the next scavenge misses nothing; a page that stays on it referred to a young object.", "quantifier": "all lists of pages and their contents", "why_tests_cant": "A page dropped by mistake shows only at the next scavenge, and only if nothing else refers to the object.", "anchors": ["libgst/oop.c: scan_grey_pages"]}
{"id": "C104", "title": "Source code is read as the grammar says", "statement": "Every method definition and every piece of code of the documented grammar is accepted and yields exactly the tree the grammar gives it, whatever follows; in particular a text has one meaning, unary messages come before binary and those before keyword messages, binary messages go from left to right, and the messages of a cascade go to the receiver of the last message.", "quantifier": "all token sequences that can be derived in the grammar: all nestings of blocks, literals, cascades, assignments, attributes", "why_tests_cant": "The language is infinite and the reader looks ahead and recovers; tests only read the texts someone wrote.", "anchors": ["libgst/gst-parse.c: parse_method, parse_attributes, parse_temporaries, parse_statements, parse_expression, parse_primary, parse_literal, parse_block, parse_message_expression, parse_cascaded_messages"]}
{"id": "C105", "title": "Text outside of the grammar is refused", "statement": "A text that is accepted as a method or as code belongs to the documented grammar; a missing bracket or a number out of range is reported.", "quantifier": "all token sequences", "why_tests_cant": "Wrong texts are endless in number; one that is silently accepted changes a program without notice.", "anchors": ["libgst/gst-parse.c: parse_literal, parse_array_literal, parse_statements, parse_block"]}
{"id": "C106", "title": "Reading source code ends", "statement": "On every text, however malformed, the reader of a method returns a method or reports an error, and a method that is read takes at least one token.", "quantifier": "all token sequences", "why_tests_cant": "Endless loops on malformed input appear only for the inputs nobody tried.", "anchors": ["libgst/gst-parse.c: parse_method, parse_expression, parse_array_literal, parse_byte_array_literal, parse_temporaries"]}
{"id": "C107", "title": "White space and comments separate, and every text is read to its end", "statement": "Two texts with white space, a comment or a bracket between them are read as the tokens of the one followed by the tokens of the other; reading reaches the end of every text, also of malformed ones.", "quantifier": "all texts before and behind the separator that are read without an error, all comments; for the end of reading, all texts", "why_tests_cant": "Tokens look ahead by up to three characters; whether the look goes past a separator depends on every pair of neighbours.", "anchors": ["libgst/lex.c: _gst_yylex, scan_ident, scan_number, scan_bin_op_1, scan_symbol, string_literal, comment, scan_colon"]}
{"id": "C108", "title": "An integer literal is the number it writes, in the right class", "statement": "An integer written with digits, underscores, an optional radix from 1 to 36 and an optional sign after the radix is read as that number: a SmallInteger in their range, otherwise a LargeInteger of the fewest bytes.", "quantifier": "all spellings of all integers, all texts that may follow", "why_tests_cant": "The boundary between the classes and the overflow test are exercised by a handful of numbers only.", "anchors": ["libgst/lex.c: scan_number, scan_digits, scan_large_integer, is_base_digit, digit_to_int, _gst_negate_yylval"]}
{"id": "C109", "title": "A printed integer reads back", "statement": "The text that printString:, storeString or printStringRadix: writes for an integer is read as the same integer.", "quantifier": "all integers, all bases from 2 to 36", "why_tests_cant": "Two separate programs, one in Smalltalk and one in C, must agree on all numbers.", "anchors": ["kernel/Integer.st: printString:, printStringRadix:, storeOn:base:", "libgst/lex.c: scan_number"]}
{"id": "C110", "title": "Names end where they end", "statement": "A name is read as one token up to the first character that cannot belong to it; a number directly before a name is a receiver and the name a message; a dot behind a name ends the statement unless a letter follows.", "quantifier": "all names, all numbers, all texts behind", "why_tests_cant": "The rules about the letters e, d, q, r, s behind a number and about dots behind a name interact with everything that can follow.", "anchors": ["libgst/lex.c: scan_ident, scan_number"]}
{"id": "C111", "title": "A decimal fraction is read as what it says", "statement": "Digits, a dot, digits and an optional exponent are read as the digits divided by the power of ten the dot says, multiplied by the power of the exponent, as a float of the class of the exponent letter.", "quantifier": "all digits, underscores, exponents below 2^31", "why_tests_cant": "Infinitely many spellings; an error of one in the count of decimals shows only in some.", "anchors": ["libgst/lex.c: scan_number, scan_fraction, scan_digits"]}
{"id": "C112", "title": "A string literal is the string between the quotes", "statement": "A string written between quotes, with the quotes in it doubled, is read as that string, whatever characters it has.", "quantifier": "all strings, all texts behind", "why_tests_cant": "Only the strings with quotes at odd places or with control characters go wrong.", "anchors": ["libgst/lex.c: string_literal, scan_symbol"]}
{"id": "C113", "title": "A text is code exactly if the grammar says so", "statement": "A text whose characters make tokens without an error is compiled to the tree of the documented grammar if it has one and refused otherwise.", "quantifier": "all texts whose brackets are closed", "why_tests_cant": "Joins two programs, lexer and reader; the assumptions of the one on the other are nowhere checked.", "anchors": ["libgst/lex.c: _gst_yylex, scan_bin_op_1", "libgst/gst-parse.c: parse_statements"]}
{"id": "C114", "title": "A stored literal reads back", "statement": "The text that storeLiteralOn: writes for integers, characters, strings, symbols, byte arrays and arrays of these compiles to an equal object of the same class; different objects have different texts.", "quantifier": "all such objects, nested arbitrarily", "why_tests_cant": "The text of an array depends on its neighbours and the objects are infinitely many.", "anchors": ["kernel/Array.st: storeLiteralOn:", "kernel/ByteArray.st: storeLiteralOn:", "kernel/String.st: storeLiteralOn:", "kernel/Symbol.st: storeLiteralOn:, isSimpleSymbol", "kernel/Character.st: storeOn:, printCodePointOn:", "kernel/Integer.st: storeLiteralOn:", "libgst/lex.c: _gst_yylex", "libgst/gst-parse.c: parse_literal"]}
{"id": "C115", "title": "An image that was saved loads as the same objects", "statement": "After saving and loading, on a machine of either byte order and at any address, every object is there at its identity with the same class, the same size, the same instance variables and the same bytes, and nothing else is there.", "quantifier": "all heaps, both byte orders of either machine, all addresses of the object table, whether or not the file can be mapped into memory", "why_tests_cant": "Needs machines of two byte orders and address layouts that the operating system chooses.", "anchors": ["libgst/save.c: save_to_fd, load_snapshot, load_normal_oops, load_file_version, save_file_version, make_oop_table_to_be_saved, restore_oop_pointer_slots", "libgst/gstpriv.h: BYTE_INVERT"]}
{"id": "C116", "title": "Processes that wait on a semaphore still wait in the saved image", "statement": "A Semaphore in the image has the waiting processes in their order, without those that belong to a call from C.", "quantifier": "all lists of waiting processes", "why_tests_cant": "The order and mixture of processes that wait when an image is saved depends on scheduling.", "anchors": ["libgst/save.c: fixup_object"]}
{"id": "C117", "title": "What belongs to the session is not saved, everything else is", "statement": "In the image, file descriptors, addresses of C functions, contexts of calls from C and addresses of native code are cleared, and no other object and no other variable differs from what it was.", "quantifier": "all objects of all classes with all chains of superclasses", "why_tests_cant": "That nothing else changes is a statement about every object of every class.", "anchors": ["libgst/save.c: fixup_object", "libgst/dict.inl: is_a_kind_of"]}
{"id": "C118", "title": "A save that answers true has written the whole image", "statement": "Saving answers true only if the file holds all bytes of the image, in order; if it answers false there is no file; if every write makes progress it answers true.", "quantifier": "all images, all sequences of results of the write system call, all sizes of the buffer", "why_tests_cant": "Short writes and full disks occur at places a test does not choose.", "anchors": ["libgst/save.c: _gst_save_to_file, full_write, buffer_write, buffer_write_flush"]}
{"id": "C119", "title": "Reading through the buffer reads the file", "statement": "Reading pieces one after the other through the buffer gives the consecutive pieces of the file.", "quantifier": "all files, all sequences of sizes, all sizes of the buffer", "why_tests_cant": "The cases depend on how pieces fall on the ends of the buffer.", "anchors": ["libgst/save.c: buffer_read, buffer_fill, buffer_read_init"]}
{"id": "C120", "title": "Symbols with the same text are the same object", "statement": "Interning a string answers a symbol with its text; interning it again at any later time answers the identical object as long as the symbol is alive, also after the table was rebuilt; strings with different text give different symbols.", "quantifier": "all strings, all sequences of interning and rebuilding", "why_tests_cant": "Needs strings that collide in the table, and histories of arbitrary length.", "anchors": ["libgst/sym.c: intern_counted_string, is_same_string, alloc_symlink, alloc_symbol_oop, hash_symbol, _gst_hash_string", "kernel/Symbol.st: rebuildTable, intern:", "libgst/dict.inl: scramble"]}
{"id": "C121", "title": "Asking for a symbol finds the one that interning gives", "statement": "Symbol isSymbolString: and hasInterned:ifTrue: answer true exactly for the texts of symbols, and pass the identical symbol.", "quantifier": "all strings, all reachable tables", "why_tests_cant": "Compares a search in Smalltalk with one in C over all tables.", "anchors": ["kernel/Symbol.st: hasInterned:ifTrue:, isSymbolString:", "kernel/SymLink.st: do:", "libgst/sym.c: intern_counted_string"]}
{"id": "C122", "title": "The symbols of the virtual machine are those of the program", "statement": "Each selector and keyword the virtual machine knows by itself is, when written in a program, the object that the virtual machine compares with.", "quantifier": "all names of the two tables, all orders of the tables, all later histories", "why_tests_cant": "A name that is in both tables by mistake would give two symbols; that no later history separates them is about all histories.", "anchors": ["libgst/sym.c: sym_info, _gst_init_symbols_pass1, _gst_init_symbols_pass2", "libgst/builtins.gperf"]}
{"id": "C123", "title": "Selectors have the number of arguments they show", "statement": "For every selector numArgs, the test on calls from C and the number of keywords agree with its form: none for a name, one for an operator, one per colon otherwise.", "quantifier": "all selectors of any length", "why_tests_cant": "Infinitely many selectors; two programs in two languages must agree on all.", "anchors": ["kernel/Symbol.st: numArgs, keywords", "libgst/sym.c: _gst_selector_num_args", "kernel/CharArray.st: substrings:"]}
{"id": "C124", "title": "Dumped objects load as the same objects", "statement": "Sending dump: to an ObjectDumper for a sequence of objects and then load as many times gives objects with the same classes and contents; two variables that held the same object hold the same object again, and cycles come back as cycles.", "quantifier": "all finite graphs of objects, with any sharing and cycles, all sequences of roots, all images with the same classes", "why_tests_cant": "Graphs with sharing and cycles are infinitely many, and one reference that is off by one shows only in some of them.", "anchors": ["packages/object-dumper/ObjDumper.st: dump:, load, lookup:, register:, primDump:, primLoad:, storeGlobal:, loadGlobal, specialCaseDump:, specialCaseLoad:"]}
{"id": "C125", "title": "Dumping ends and succeeds", "statement": "Dumping ends for every graph of objects, also if it has cycles, and signals no error for objects that can be dumped.", "quantifier": "all finite graphs of objects and all sequences of roots", "why_tests_cant": "An endless recursion depends on the shape of the graph.", "anchors": ["packages/object-dumper/ObjDumper.st: dump:, register:, primDump:"]}
{"id": "C126", "title": "Numbers and symbols load as themselves", "statement": "Every SmallInteger and every Symbol that is dumped loads as itself.", "quantifier": "all SmallIntegers, all symbols", "why_tests_cant": "The values that fail are beyond the ranges tests use.", "anchors": ["packages/object-dumper/ObjDumper.st: initialize, nextPutBytes:of:, nextBytes:signed:, nextAsciiz"]}
{"id": "C127", "title": "Objects of every shape, and objects with proxies disabled, can be dumped and loaded", "statement": "An object of a class with any shape loads as it was dumped, and ObjectDumper class >> disableProxyFor: does not change what is loaded.", "quantifier": "all shapes, all sequences of dumped objects", "why_tests_cant": "Tests use strings and arrays; the damage done by a proxy shows only in references to objects dumped after it.", "anchors": ["packages/object-dumper/ObjDumper.st: primDump:, primLoad:, dumpContentsOf:", "packages/object-dumper/Proxy.st: NullProxy"]}
{"id": "C128", "title": "UTF-7 text comes back", "statement": "Text converted with the encoding UTF-7 and converted back gives the same characters; different texts have different encodings.", "quantifier": "all strings of characters of any length", "why_tests_cant": "The state of the encoder depends on how many bits are left over, on pairs of surrogates and on the character that ends a run of base 64; strings are infinitely many.", "anchors": ["packages/iconv/UTF7.st: ToUTF7>>next, ToUTF7>>atEnd, FromUTF7>>readNext, FromUTF7>>getNext"]}
{"id": "C129", "title": "UTF-7 is safe for mail", "statement": "Text converted to UTF-7 consists of letters, digits, blanks, ends of lines and the characters '(),-./:?+ only.", "quantifier": "all strings of characters of any length", "why_tests_cant": "One wrong bit in one state of the encoder shows for some strings only.", "anchors": ["packages/iconv/UTF7.st: ToUTF7>>next, toBase64Char:, isDirect:"]}
{"id": "C130", "title": "UTF-7 text that is cut off is reported, and never misread", "statement": "When the beginning of a UTF-7 text is decoded, either the decoder signals InvalidSequenceError or it gives the beginning of the characters of the whole text, and text cut within a character is reported.", "quantifier": "all texts and all places where they are cut", "why_tests_cant": "Texts and the places are infinitely many; the state at the end matters.", "anchors": ["packages/iconv/UTF7.st: FromUTF7>>getNext, FromUTF7>>readNext"]}
{"id": "C131", "title": "UTF-32 text comes back", "statement": "Text converted to UTF-32LE or UTF-32BE is four bytes for each character in that order, and converts back to the same characters.", "quantifier": "all strings of characters of any length", "why_tests_cant": "Characters and strings are too many to enumerate.", "anchors": ["packages/iconv/Sets.st: SplitUTF32LE, SplitUTF32BE, ComposeUTF32LE, ComposeUTF32BE"]}
{"id": "C132", "title": "Critical sections exclude each other", "statement": "Two processes never evaluate blocks given to critical: of the same Semaphore forMutualExclusion at the same time.", "quantifier": "all numbers of processes, all interleavings, and all interrupts, resumptions and terminations of them by others", "why_tests_cant": "The places where a process can be preempted or disturbed are many and their combinations unbounded.", "anchors": ["kernel/Semaphore.st: critical:", "libgst/interp.c: _gst_sync_signal, sync_wait_process, resume_process", "kernel/Process.st: terminate, queueInterrupt:"]}
{"id": "C133", "title": "The lock of a critical section is not lost", "statement": "When all processes have left the critical section, terminated or not, the semaphore is free; while a process waits another one holds the lock and will give it back.", "quantifier": "all numbers of processes, interleavings and disturbances", "why_tests_cant": "Losing the lock takes a disturbance between two particular bytecodes.", "anchors": ["kernel/Semaphore.st: critical:", "kernel/Process.st: terminate, queueInterrupt:"]}
{"id": "C134", "title": "critical: evaluates its block", "statement": "A process that comes back from critical: has evaluated the block.", "quantifier": "all numbers of processes and interleavings", "why_tests_cant": "Interleavings are unbounded.", "anchors": ["kernel/Semaphore.st: critical:"]}
{"id": "C135", "title": "Recursion locks exclude each other", "statement": "Two processes never evaluate blocks given to critical: of the same RecursionLock at the same time, and isOwnerProcess is true exactly in the process that does.", "quantifier": "all numbers of processes, interleavings and disturbances", "why_tests_cant": "Interleavings are unbounded.", "anchors": ["kernel/RecursionLock.st: critical:, isOwnerProcess"]}
{"id": "C136", "title": "Recursion locks nest", "statement": "A process that holds a RecursionLock can enter it again any number of times without waiting, and gives it up when it leaves the outermost block and not before.", "quantifier": "all depths, and all states reached before", "why_tests_cant": "The depth is unbounded.", "anchors": ["kernel/RecursionLock.st: critical:"]}
{"id": "C137", "title": "wouldBlock tells the truth", "statement": "RecursionLock>>wouldBlock answers whether the active process would have to wait for the lock.", "quantifier": "all reachable states", "why_tests_cant": "States are unbounded.", "anchors": ["kernel/RecursionLock.st: wouldBlock"]}
{"id": "C138", "title": "Shared queues lose nothing and keep the order", "statement": "Values put with nextPut: into a SharedQueue by any processes come out of next exactly once, in the order in which they were added, the values of one process in the order in which it put them; peek answers the first value; next and peek never fail.", "quantifier": "all numbers of processes, values and interleavings", "why_tests_cant": "Interleavings of several processes are unbounded.", "anchors": ["kernel/SharedQueue.st: next, nextPut:, peek, init:"]}
{"id": "C139", "title": "Shared queues with a sort block answer the first value", "statement": "With SharedQueue class>>sortBlock:, next answers a value that comes before all others in the queue at that time, and nothing is lost or duplicated.", "quantifier": "all orders, numbers of processes, values and interleavings", "why_tests_cant": "Interleavings are unbounded.", "anchors": ["kernel/SharedQueue.st: sortBlock:, next, nextPut:"]}
{"id": "C140", "title": "Nobody waits for a shared queue in vain", "statement": "When no process can go on, those that wait in next or peek of a SharedQueue do so because it is empty.", "quantifier": "all numbers of processes, values and interleavings", "why_tests_cant": "A lost wake-up shows in few interleavings only.", "anchors": ["kernel/SharedQueue.st: next, nextPut:, peek"]}
{"id": "C141", "title": "Delays are not too short", "statement": "A process that sends wait or timedWaitOn: to a Delay does not go on (because of the delay) before the duration of the delay has passed since then, or before the time of a Delay made with untilNanoseconds: has come, whatever was done with that and other delays before.", "quantifier": "all numbers of delays, durations, interleavings and times at which the timer fires", "why_tests_cant": "Times and interleavings are unbounded.", "anchors": ["kernel/Delay.st: wait, timedWaitOn:, start, reset, handleDelayRequestor, scheduleDelay:, unscheduleDelay:"]}
{"id": "C142", "title": "Delays end", "statement": "When the time of a process that waits for a Delay has come, the timer is set to fire by then, and when it fires the process goes on.", "quantifier": "all numbers of delays, durations, interleavings and times at which the timer fires", "why_tests_cant": "A lost timeout shows in few interleavings only.", "anchors": ["kernel/Delay.st: wait, timedWaitOn:, signal, notifyChange, handleDelayRequestor", "libgst/prims.def: Processor signal:atNanosecondClockValue:"]}
{"id": "C143", "title": "Equal delays have the same hash", "statement": "= between Delays is symmetric, and equal Delays have the same hash.", "quantifier": "all delays, in use or not", "why_tests_cant": "Durations and states are unbounded.", "anchors": ["kernel/Delay.st: =, hash"]}
{"id": "C144", "title": "MD5 answers the digest of RFC 1321", "statement": "Whatever bytes are given to an MD5 object with nextPut: and nextPutAll:, as strings, byte arrays or streams, cut in any way, with partialDigest, partialHexDigest and copy sent in between, every digest answered is that of RFC 1321 for all bytes given so far.", "quantifier": "all texts, all ways to cut them, all orders of the messages", "why_tests_cant": "Test vectors are a handful of texts; the buffering has cases for every length and cut, and the text is unbounded.", "anchors": ["packages/digest/md5.c: md5_process_bytes, md5_process_block, md5_finish_ctx", "packages/digest/md5.st", "packages/digest/digest.st"]}
{"id": "C145", "title": "SHA-1 answers the digest of RFC 3174", "statement": "The same for SHA1 and RFC 3174, wherever in memory the data is.", "quantifier": "all texts, all ways to cut them, all alignments, all orders of the messages", "why_tests_cant": "As for MD5; alignment depends on the machine.", "anchors": ["packages/digest/sha1.c: sha1_process_bytes, sha1_process_block, sha1_finish_ctx", "packages/digest/sha1.st", "packages/digest/digest.st"]}
{"id": "C146", "title": "Hexadecimal digests tell the digest", "statement": "hexDigest answers two lowercase hexadecimal digits for each byte of the digest, so that two are equal only if the digests are.", "quantifier": "all digests", "why_tests_cant": "There are 2^128 digests.", "anchors": ["packages/digest/digest.st: hexDigest, partialHexDigest"]}
{"id": "C147", "title": "The digest depends on all characters", "statement": "Collections of the same length that differ in any element are given to the digest function as different texts.", "quantifier": "all collections and streams of characters or bytes", "why_tests_cant": "Collisions show only for collections that tests do not use.", "anchors": ["packages/digest/md5.st: nextPutAll:", "packages/digest/sha1.st: nextPutAll:", "libgst/cint.c: push_smalltalk_obj"]}
{"id": "C148", "title": "The constants of MD5 are those of the standard", "statement": "The 64 constants are the integer parts of 4294967296 times the absolute values of the sines of 1 to 64.", "quantifier": "all 64 constants, against the sine of real numbers", "why_tests_cant": "A test compares with a table that somebody typed; sines of machine numbers are not exact.", "anchors": ["packages/digest/md5.c: md5_process_block"]}
{"id": "C149", "title": "A file stream is a file with a position", "statement": "Messages to a FileStream opened for reading and writing (next, peek, nextLine, upTo:, next:, upToEnd, contents, nextPut:, nextPutAll:, position, position:, skip:, size, truncate, atEnd, flush, bufferSize:, copyFrom:to:) always come back, and answer what they would for a file with a position and no buffer.", "quantifier": "all files, all buffer sizes, all sequences of messages", "why_tests_cant": "Behaviour depends on where the buffer ends relative to each message; sequences are unbounded.", "anchors": ["kernel/FileStream.st", "kernel/FileDescr.st", "kernel/Stream.st: next:, upToEnd"]}
{"id": "C150", "title": "What was written can be read back", "statement": "Text written in any pieces into an empty file and read from position 0 is the concatenation of the pieces; after flush it is on disk.", "quantifier": "all pieces, all buffer sizes", "why_tests_cant": "Pieces around and beyond the buffer size take different paths.", "anchors": ["kernel/FileStream.st: nextPut:, next:putAll:startingAt:, flush, position:, nextPutAllOn:"]}
{"id": "C151", "title": "The buffer size does not matter", "statement": "Two streams on the same file with buffers of different sizes answer the same to the same messages.", "quantifier": "all pairs of buffer sizes, all files, all sequences of messages", "why_tests_cant": "Tests use the default of 1024 bytes.", "anchors": ["kernel/FileStream.st: bufferSize:, newBuffer"]}
{"id": "C152", "title": "Reading and writing may be mixed", "statement": "After reading some of a file one may write at the current position, and go on reading, flush, or ask for the size.", "quantifier": "all files of at least two bytes", "why_tests_cant": "That a message never comes back cannot be observed by a test.", "anchors": ["kernel/FileStream.st: nextPut:, flush, size", "kernel/FileDescr.st: skip:"]}
{"id": "C153", "title": "Positions, ends and truncation are where the program says", "statement": "flush does not move the position; truncate cuts at the position; atEnd tells whether next answers nil; skip: can reach the end; nothing is read beyond the end.", "quantifier": "all files and positions", "why_tests_cant": "Depends on what is in the buffer at that time.", "anchors": ["kernel/FileStream.st: flush, truncate, atEnd, position:, copyFrom:to:, upTo:", "kernel/FileDescr.st: skip:"]}
{"id": "C154", "title": "The text of a Float is within one unit of it", "statement": "printString of a finite Float always comes back, and the decimal number that it shows is less than one unit in the last place away from the Float.", "quantifier": "all finite nonzero Floats of all precisions, both signs", "why_tests_cant": "There are 2^64 FloatDs; the number of digits is found by a loop that has no bound.", "anchors": ["kernel/Float.st: printOn:, printOn:special:, floorLog:", "kernel/Number.st: readFrom:"]}
{"id": "C155", "title": "Integers and short fractions print exactly", "statement": "A Float that equals a decimal number whose last digit weighs at least four units in the last place prints as exactly this number: for example all integers below a quarter of 2^p.", "quantifier": "all such Floats of all precisions", "why_tests_cant": "Too many values to try.", "anchors": ["kernel/Float.st: printOn:special:", "kernel/Number.st: readFrom:"]}
{"id": "C156", "title": "A short decimal number that became a Float prints as it was written", "statement": "A decimal number of at most 15 significant digits (FloatD; 6 for FloatE, 18 for an 64 bit FloatQ) that was rounded to the nearest Float prints as this number.", "quantifier": "all decimal numbers of so many digits, all exponents", "why_tests_cant": "10^15 mantissas for each exponent.", "anchors": ["kernel/Float.st: printOn:special:"]}
{"id": "C157", "title": "Floats with exponent are read back", "statement": "The text of a large or small Float, with exponent, is read by readFrom: as about the same number.", "quantifier": "all Floats above 2^(p+1) or below 2^-p", "why_tests_cant": "Every value of a range that has no bound in the code.", "anchors": ["kernel/Float.st: printOn:special:", "kernel/FloatD.st: exponentLetter", "kernel/FloatQ.st: exponentLetter", "kernel/Number.st: readFrom:"]}
{"id": "C158", "title": "Different Floats print differently", "statement": "The Float that is nearest to the printed number is the Float that was printed, so that reading it gives the same Float.", "quantifier": "all finite Floats", "why_tests_cant": "About one in fifteen random FloatDs fails, but none of the usual values in tests.", "anchors": ["kernel/Float.st: printOn:special:"]}
{"id": "C159", "title": "Decimal notation is read exactly", "statement": "readFrom: of digits, point, digits and an exponent computes exactly the number that this stands for, before it is rounded once to a Float.", "quantifier": "all digit strings of any length, both signs, both signs of the exponent", "why_tests_cant": "Strings are unbounded.", "anchors": ["kernel/Number.st: readFrom:, readFrom:radix:"]}
{"id": "C160", "title": "Searching finds the first occurrence", "statement": "indexOfSubCollection:startingAt: answers the least index, not less than the one given, where the elements are those looked for; it says there are none only if there are none.", "quantifier": "all collections, all non-empty collections looked for, all starting indices", "why_tests_cant": "Overlaps and partial matches come in unboundedly many shapes.", "anchors": ["kernel/SeqCollect.st: indexOfSubCollection:startingAt:ifAbsent:, matchSubCollection:startingAt:"]}
{"id": "C161", "title": "Replacing replaces every occurrence once, from the left", "statement": "copyReplaceAll:with: answers the collection with each occurrence replaced, from the left and without looking at what was put in; OrderedCollections and Arrays answer the same; copyReplaceFrom:to:with: replaces exactly the range, or raises an error. Looking for an empty collection never ends.", "quantifier": "all collections, all replacements shorter or longer, all ranges", "why_tests_cant": "The size of the answer is computed before the copy from a separate count; a test sees some sizes only.", "anchors": ["kernel/ArrayColl.st: copyReplaceAll:with:, copyReplaceFrom:to:with:", "kernel/SeqCollect.st: copyReplaceAll:with:, countSubCollectionOccurrencesOf:", "libgst/prims.def: replaceFrom:to:with:startingAt:"]}
{"id": "C162", "title": "Words that are joined come back, and trimming takes separators only", "statement": "subStrings: answers what is between separators and not empty; join:separatedBy: puts the separator between the parts; joining words and splitting gives the words; trimSeparators removes exactly the separators at both ends.", "quantifier": "all texts, all sets of separators, all lists of words", "why_tests_cant": "Runs of separators at the start, the end and between are unbounded.", "anchors": ["kernel/CharArray.st: subStrings, subStrings:, subStringsChar:, trimSeparators", "kernel/ArrayColl.st: join:separatedBy:"]}
{"id": "C163", "title": "Patterns match what they describe", "statement": "match: answers true exactly for the texts that the pattern describes (* any text, # any character); indexOf:matchCase:startingAt: answers the first place where the pattern matches and the longest match there.", "quantifier": "all patterns with any number of stars, all texts, all starting indices", "why_tests_cant": "Backtracking over several stars is where a greedy matcher goes wrong; the combinations are unbounded.", "anchors": ["kernel/CharArray.st: match:, match:ignoreCase:, indexOf:matchCase:startingAt:, matchSubstring:in:at:"]}
{"id": "C164", "title": "Templates are filled in", "statement": "% answers the template with %% as a percent sign, %n and %(name) as the element, %<a|b>n as one of two texts, everything else as it is; it raises an error if an element is missing, is not a Boolean where there is a choice, or nothing follows the percent sign.", "quantifier": "all templates made of such pieces, all collections of elements", "why_tests_cant": "Templates are unbounded and the pieces are not delimited.", "anchors": ["kernel/CharArray.st: %, bindWith:", "kernel/PosStream.st: upTo:"]}
{"id": "C165", "title": "An escaped text is one word to the shell", "statement": "withUnixShellEscapes answers a text that the shell reads as one word, which is the original text, and nothing in it is executed or expanded.", "quantifier": "all texts", "why_tests_cant": "That no text gets through the escapes is a statement about all texts; tests try some special characters.", "anchors": ["kernel/CharArray.st: withUnixShellEscapes, withShellEscapes"]}
{"id": "C166", "title": "Leading digits are read as the number", "statement": "asInteger answers the number that the leading digits (with a minus sign) stand for, whatever follows, and 0 when there are none.", "quantifier": "all digit strings, all texts after them", "why_tests_cant": "Strings are unbounded.", "anchors": ["kernel/CharArray.st: asInteger"]}
{"id": "C167", "title": "upToAll: stops at the first occurrence", "statement": "upToAll: answers the elements before the first occurrence of the collection and leaves the stream just past it, or answers everything left if there is none; skipToAll: likewise.", "quantifier": "all streams, all collections looked for", "why_tests_cant": "The table of the search algorithm is wrong only for patterns that overlap themselves.", "anchors": ["kernel/Stream.st: upToAll:, skipToAll:, prefixTableFor:"]}
{"id": "C168", "title": "Encoded text comes back", "statement": "URL decode: of URL encode: of a String answers the String, and the encoded text has only letters, digits and - _ . * + %; escapes with hexadecimal digits of either case are decoded.", "quantifier": "all Strings, of any bytes", "why_tests_cant": "The bytes and their combinations are too many to try, and the text is unbounded.", "anchors": ["kernel/URL.st: URL class>>encode:, URL class>>decode:, URL class>>initialize"]}
{"id": "C169", "title": "A URL is read back from what it prints", "statement": "Reading the text a URL prints answers a URL with the same scheme, user, password, host, port, path, query and fragment.", "quantifier": "all URLs", "why_tests_cant": "Each part is unbounded and may hold characters that are special for another part.", "anchors": ["kernel/URL.st: URL class>>fromString:, URL class>>fromURLString:, printOn:"]}
{"id": "C170", "title": "Reading a URL comes back", "statement": "URL fromString: answers (or raises an error) for every String.", "quantifier": "all Strings", "why_tests_cant": "A test for a loop that does not end needs the right String.", "anchors": ["kernel/URL.st: URL class>>fromString:, URL class>>fromURLString:"]}
{"id": "C171", "title": "Relative paths are resolved inside of the root", "statement": "The path of a URL constructed from a base and a relative path begins with a slash and has no empty, . or .. components; a path that begins with a slash does not depend on the base; otherwise it is the directory of the base, without a component for each .., with the other components added; constructing again with the answer does not change it.", "quantifier": "all pairs of paths", "why_tests_cant": "Paths are unbounded, with dots anywhere.", "anchors": ["kernel/URL.st: construct:, constructPath:with:"]}
{"id": "C172", "title": "Equal URLs are found to be equal", "statement": "Two URLs are = if their schemes and hosts are the same but for case and the other decoded parts are equal; equal URLs have the same hash.", "quantifier": "all pairs of URLs", "why_tests_cant": "Equality is an equivalence over all pairs.", "anchors": ["kernel/URL.st: =, hash, decodedFile"]}
{"id": "C173", "title": "Form fields are read back from the query", "statement": "decodedFields answers, for each key, the value, or all the values in order, that were encoded in the query.", "quantifier": "all lists of keys and values", "why_tests_cant": "Lists of fields and their texts are unbounded; keys may come again.", "anchors": ["kernel/URL.st: decodedFields, add:to:value:"]}
{"id": "C174", "title": "The group of a news URL is answered", "statement": "newsGroup answers the group that an nntp or news URL names, and nil for others.", "quantifier": "all URLs", "why_tests_cant": "Which URLs have a group is a statement about all of them.", "anchors": ["kernel/URL.st: newsGroup"]}
{"id": "C175", "title": "A Float literal becomes the nearest Float", "statement": "The constant that the compiler makes of a Float literal is the Float nearest to the number that was written, for all bases, digits, fractions and exponents.", "quantifier": "all bases from 2 to 36, all lists of digits before and after the point, all exponents; Floats of up to 53 bits", "why_tests_cant": "There are infinitely many literals, and the errors of some hundred truncated products only add up for some of them.", "anchors": ["libgst/lex.c: scan_number, scan_digits, scan_fraction", "libgst/real.c: _gst_real_mul_int, _gst_real_add_int, _gst_real_powi, _gst_real_div, _gst_real_mul, _gst_real_get_ld"]}
{"id": "C176", "title": "A literal of a Float is that Float", "statement": "If the number that a literal denotes can be represented, the constant is exactly that number, however many digits and whatever exponent and base it was written with.", "quantifier": "all literals whose number has at most 64 significant bits, for the precisions of FloatE, FloatD and FloatQ", "why_tests_cant": "A number has infinitely many literals; truncated products may miss it by a unit.", "anchors": ["libgst/lex.c: scan_number", "libgst/real.c"]}
{"id": "C177", "title": "The exponent of a literal is the one that was written", "statement": "The exponent after the e, d or q is the power of the base that the constant is multiplied with, for any number of digits of the exponent.", "quantifier": "all exponents", "why_tests_cant": "Tests use small exponents.", "anchors": ["libgst/lex.c: scan_number"]}
{"id": "C178", "title": "The full name of a file says where it is", "statement": "The full name of a file name is the absolute name, without '.', '..' and empty parts, of the place one comes to by walking along the name from the working directory, or from the root for absolute names; '..' of the root is the root. It is its own full name everywhere, and putting the working directory before a relative name does not change what it means.", "quantifier": "all non-empty names and all working directories", "why_tests_cant": "Names are of any length and mix '.', '..' and repeated separators in any order.", "anchors": ["kernel/FilePath.st: FilePath class >> fullNameFor:, isAbsolute:, append:to:"]}
{"id": "C179", "title": "Extensions are told from names", "statement": "Stripping the extension and putting it back gives the name; the extension starts with the last dot of the last part of a name if that is not its first character, and is empty otherwise; a file without its extension is in the same directory.", "quantifier": "all names", "why_tests_cant": "Dots and separators can be in any place.", "anchors": ["kernel/FilePath.st: FilePath class >> extensionFor:, stripExtensionFrom:"]}
{"id": "C180", "title": "A file name is its directory and its last part", "statement": "The directory of a name and its last part, put together, are the same file; a directory and a plain name, put together, are taken apart again.", "quantifier": "all names and working directories", "why_tests_cant": "Repeated separators and names in the root need cases of their own.", "anchors": ["kernel/FilePath.st: FilePath class >> append:to:, pathFor:ifNone:, pathFor:, stripPathFrom:, stripFileNameFor:"]}
{"id": "C181", "title": "The path from one file to another leads there", "statement": "In the directory of the source, the path from the source to the destination has the full name of the destination; it is relative if the two have their first directory in common.", "quantifier": "all pairs of names and all working directories", "why_tests_cant": "All pairs of places in a tree of any depth.", "anchors": ["kernel/FilePath.st: FilePath class >> pathFrom:to:, computePathFrom:to:"]}
{"id": "C182", "title": "The parts of a rectangle outside of another are a partition", "statement": "areasOutside: answers rectangles such that each point of the receiver that is not in the argument is in exactly one of them, and no other point is.", "quantifier": "all pairs of rectangles with Integer or Fraction coordinates, normalized or not, and all points", "why_tests_cant": "There are infinitely many positions and points.", "anchors": ["kernel/Rectangle.st: areasOutside:, intersect:, normalized"]}
{"id": "C183", "title": "Rectangles intersect if they share a point, and contain those whose points they have", "statement": "intersects: answers true if and only if there is a point in both; intersect: answers the rectangle of just those points; contains: is true of rectangles all of whose points are in the receiver.", "quantifier": "all pairs of rectangles and all points", "why_tests_cant": "Touching edges, empty and reversed rectangles.", "anchors": ["kernel/Rectangle.st: intersects:, intersect:, contains:, containsPoint:, normalized, normalize"]}
{"id": "C184", "title": "Merged, moved and expanded rectangles", "statement": "merge: answers the smallest rectangle that contains both; translatedToBeWithin: answers a rectangle of the same size that does not extend beyond the argument; insetBy: undoes expandBy:.", "quantifier": "all rectangles, points and deltas", "why_tests_cant": "Smallest ranges over all other rectangles.", "anchors": ["kernel/Rectangle.st: merge:, translatedToBeWithin:, amountToTranslateWithin:, translateBy:, expandBy:, insetBy:"]}
{"id": "C185", "title": "Changing a rectangle changes that rectangle only, and as told", "statement": "After any messages that set edges, corners, width, height, extent or position, each rectangle has the coordinates that the messages sent to it say; no other rectangle changes.", "quantifier": "all sequences of messages to any number of rectangles", "why_tests_cant": "Sharing of points between objects shows only in particular orders of messages.", "anchors": ["kernel/Rectangle.st: origin:, corner:, origin:corner:, origin:extent:, left:, right:, top:, bottom:, width:, height:, extent:, moveBy:, moveTo:", "kernel/Point.st: x:, y:"]}
{"id": "C186", "title": "The shared pools of a class are searched in an order that respects superspaces and the order in which they are given", "statement": "The list in which the shared pools of a class or of a namespace are searched has no pool twice; has exactly the given pools and all their superspaces that are not reached as superspaces of the class's own namespace; has each namespace before its superspaces; and has a pool before those given to the right of it and their superspaces, unless it is itself a superspace of one of those. No error is reported.", "quantifier": "all graphs of namespaces without cycles, all lists of shared pools", "why_tests_cant": "The order depends on the whole graph of namespaces, which user code builds.", "anchors": ["libgst/sym.c: combine_local_pools, visit_pool, make_with_all_superspaces_set"]}
{"id": "C187", "title": "Names are searched in the class, its pools and its namespaces before the superclass's, in the documented order", "statement": "A name in a method is looked up in the class pool, then in the class's shared pools, then in the class's namespace and its superspaces as far as they do not contain the superclass, each followed by the pools that it imports; then the same for the superclass. A namespace's own variables are preferred over those that it imports.", "quantifier": "all graphs of namespaces and imports, all chains of superclasses, and statements compiled in another namespace", "why_tests_cant": "Depends on which namespaces a class shares with its superclass; a conflict shows only when both define the same name.", "anchors": ["libgst/sym.c: _gst_compute_linearized_pools, add_shared_pool_resolution, add_namespace, find_class_variable"]}
{"id": "C188", "title": "allSharedPoolDictionariesDo: enumerates pools in the order in which the compiler searches them", "statement": "Class>>allSharedPoolDictionariesDo: enumerates exactly the pools that the compiler searches, in the same order.", "quantifier": "all graphs of namespaces and imports, all chains of superclasses", "why_tests_cant": "Two implementations of one algorithm in different languages agree on tests of either.", "anchors": ["kernel/Class.st: allSharedPoolDictionariesDo:, allPoolDictionaries:except:do:", "kernel/AbstNamespc.st: allSuperspaces", "libgst/sym.c: _gst_compute_linearized_pools"]}
{"id": "C189", "title": "Command lines are parsed as documented", "statement": "Getopt class>>parse:with:do:ifError: passes to the block exactly the options and arguments that the command line means: arguments without a minus, everything after --, clusters of short options, mandatory arguments in the same or the next argument, optional ones in the same argument, names canonicalized to the last synonym; errorBlock is evaluated if and only if the command line has no meaning, and nothing else fails.", "quantifier": "all patterns of options with different names and all command lines", "why_tests_cant": "Options, prefixes and arguments combine in unboundedly many ways.", "anchors": ["kernel/Getopt.st: parse:with:do:ifError:, parseOneArgument, parseShortOptions:, parseLongOption:, parseOption:kind:with:, parsePattern:"]}
{"id": "C190", "title": "Unique prefixes of long options are accepted, and full names always", "statement": "A text after -- stands for the long option of which it is the full name, or else for the only option of which it is a beginning; otherwise it is an error.", "quantifier": "all sets of long names and all texts", "why_tests_cant": "Which prefixes are unique depends on all the names.", "anchors": ["kernel/Getopt.st: addLongOption:, rejectBadPrefixes, fullOptionName:"]}
{"id": "C191", "title": "Patterns declare all their names, and names that are declared twice are reported", "statement": "After a pattern is read each name of an option has the kind that its colons say and stands for the last of its synonyms, and no other name is known; a pattern that uses a name twice, or a name with one minus and several letters, is reported as an error.", "quantifier": "all patterns", "why_tests_cant": "The tables depend on the order of words and synonyms.", "anchors": ["kernel/Getopt.st: parsePattern:, parseOption:, atAllSynonyms:put:, atSynonym:put:, checkSynonyms:, colonsToKind:"]}
{"id": "C192", "title": "Linked lists are sequences of links", "statement": "After any messages add:, addFirst:, addLast:, removeFirst, removeLast, remove:ifAbsent: to any LinkedLists, in any order, do:, size and at: show the links that were added and not removed, in their order; each message answers the link it added or removed, and removal of what is not there evaluates the block or signals an exception and changes nothing.", "quantifier": "all sequences of messages to all lists, with any links", "why_tests_cant": "Lists share links and depend on the whole history; faults show after particular removals.", "anchors": ["kernel/LinkedList.st: addFirst:, addLast:, removeFirst, removeLast, remove:ifAbsent:, do:, size, at:, last", "kernel/Link.st: nextLink:, do:, size, at:"]}
{"id": "C193", "title": "Arguments of call-outs are converted as the manual's table says, and others are refused", "statement": "For each declared type of a call-out and each class of argument the C parameter has the type and the contents that the table of parameter conversions gives, and an argument that has no conversion is refused.", "quantifier": "all declared types and all classes of arguments", "why_tests_cant": "A test tries some pairs; the table has hundreds, and most are refusals.", "anchors": ["libgst/cint.c: smalltalk_to_c", "libgst/cint.h: cdata_type", "kernel/CCallable.st: returnTypeMap", "doc/gst.texi: Table of parameter conversions"]}
{"id": "C194", "title": "A call-out calls the function with its arguments in order, or not at all", "statement": "A call-out calls the C function if and only if each argument, the receiver for #self and each element of the Array for #variadic can be converted, and then with one parameter for each, in the order of the declared types, nothing being passed for #void.", "quantifier": "all declared types, receivers and arguments", "why_tests_cant": "Two loops over types and arguments must agree on what they skip and expand.", "anchors": ["libgst/cint.c: _gst_invoke_croutine, push_smalltalk_obj"]}
{"id": "C195", "title": "Call-outs free the copies they make and change exactly the out arguments", "statement": "Whether the function is called or an argument is refused, each copy of a String, Symbol, ByteArray or UnicodeString that was made for the call is freed exactly once and is large enough; after a call the arguments for #stringOut, #wstringOut, #byteArrayOut and #cObjectPtr are changed, after a refusal none is.", "quantifier": "all declared types, receivers, arguments and lengths", "why_tests_cant": "Leaks and overruns of buffers are not seen by tests.", "anchors": ["libgst/cint.c: _gst_invoke_croutine, push_smalltalk_obj", "libgst/dict.c: _gst_to_cstring, _gst_to_byte_array, _gst_to_wide_cstring"]}
{"id": "C196", "title": "Each call-out is made through an interface for its own parameters", "statement": "The description of parameters and result that libffi gets with a call is that of the parameters of this call and of its type, whatever was called before through the same descriptor or through one that was at the same place before a garbage collection.", "quantifier": "all sequences of call-outs and garbage collections", "why_tests_cant": "The cache is wrong only for particular successions of calls.", "anchors": ["libgst/cint.c: _gst_invoke_croutine, _gst_invalidate_croutine_cache"]}
{"id": "C197", "title": "Numbers go to C and come back with their value", "statement": "An Integer within the range of the declared type reaches C with its value and one outside is refused; what C returns is answered with its value, whatever is in the bits that do not belong to the type, and each documented type of result is answered as an object of its class.", "quantifier": "all types for numbers, all Integers and all results", "why_tests_cant": "Faults are at the limits of types and in bits that C leaves undefined.", "anchors": ["libgst/cint.c: smalltalk_to_c, c_to_smalltalk"]}
{"id": "C198", "title": "Sets of pointers are sets", "statement": "Whatever pointers are inserted and looked for, in whatever order and however often the table grows, each operation ends and answers whether the pointer was inserted before; the number of elements is that of different pointers; a traversal passes each pointer once and stops after the first that is refused; the table has at most eight slots per element once it has grown.", "quantifier": "all sequences of insertions and searches of pointers other than NULL", "why_tests_cant": "Probing goes wrong only where pointers collide, wrap around or are moved by growth.", "anchors": ["lib-src/pointer-set.c: pointer_set_insert, pointer_set_contains, pointer_set_traverse, insert_aux, hash1"]}
{"id": "C199", "title": "Maps of pointers are maps", "statement": "Whatever is stored and looked for in a map of pointers, each operation ends and finds the value that was stored last under its key, or NULL under a new key; a traversal passes each key once with its value.", "quantifier": "all sequences of insertions, stores and searches with keys other than NULL", "why_tests_cant": "Growth must move each value with its key, and new values must be NULL.", "anchors": ["lib-src/pointer-set.c: pointer_map_insert, pointer_map_contains, pointer_map_traverse"]}
{"id": "C200", "title": "Streams made from streams have the elements of the functions on lists", "statement": "Enumerating a stream that is made from streams on Arrays and Strings with select:, reject:, collect:, the comma and with:, nested in any way, yields the elements that filtering, mapping, concatenating and pairing the lists yields, and nothing is lost from streams that are not exhausted.", "quantifier": "all expressions of such messages, all elements and blocks without effects", "why_tests_cant": "Read-ahead and ends of streams interact differently in each nesting.", "anchors": ["kernel/StreamOps.st: FilteringStream, CollectingStream, ConcatenatedStream, OneOfEachStream, PeekableStream", "kernel/Stream.st: do:"]}
{"id": "C201", "title": "Streams made from streams look ahead without moving", "statement": "In such a stream peek answers what next will answer, and nil at the end; peekFor: answers whether the next element is equal to the argument, and takes it exactly then.", "quantifier": "all such streams, elements and arguments", "why_tests_cant": "peekFor: is implemented anew for each kind of stream and little used.", "anchors": ["kernel/StreamOps.st: peek, peekFor:"]}
{"id": "C202", "title": "Positions in concatenated streams", "statement": "The position of a concatenated stream is the number of elements that were read, across the limits of its parts, and the stream can be set to a position it had.", "quantifier": "all parts and numbers of elements read", "why_tests_cant": "Parts are dropped as they end.", "anchors": ["kernel/StreamOps.st: ConcatenatedStream position, position:"]}
{"id": "C203", "title": "The contents of streams made from streams", "statement": "contents of such a stream answers a collection of its elements.", "quantifier": "all such streams", "why_tests_cant": "The class of the collection depends on the parts and on the state of the stream.", "anchors": ["kernel/Stream.st: upToEnd, contents", "kernel/StreamOps.st: species"]}
{"id": "C204", "title": "The random generator is the Mersenne Twister", "statement": "The sequence of 32-bit numbers that comes out of a Random is, without end, the sequence that the linear recurrence of MT19937 and its tempering define for the words the generator starts with.", "quantifier": "all initial contents of the generator and all positions of the sequence", "why_tests_cant": "The words are regenerated in place every 624 numbers; the sequence is infinite.", "anchors": ["kernel/Random.st: Random", "libgst/interp.inl: random_next, random_generate"]}
{"id": "C205", "title": "Seeds determine different endless sequences", "statement": "Random generators made from different seeds give different sequences, no generator gives only zeros, and a seed gives the numbers that the authors of the algorithm published for it.", "quantifier": "all seeds and all positions of the sequence", "why_tests_cant": "There are infinitely many seeds, and that sequences never come to agree is about all their positions.", "anchors": ["kernel/Random.st: Random class>>seed:, setSeed:"]}
{"id": "C206", "title": "Random numbers between zero and one", "statement": "Random>>next answers a number that is at least 0 and less than 1.", "quantifier": "all states of the generator", "why_tests_cant": "One value in 2^32 is concerned.", "anchors": ["kernel/Random.st: next, Random class>>next", "libgst/prims.def: VMpr_Random_next"]}
{"id": "C207", "title": "Random numbers between two others", "statement": "between: low and: high answers an integer from low to high, each of them with the same probability up to one in 2^32.", "quantifier": "all intervals and all states of the generator", "why_tests_cant": "Counting the answers needs all the values of a word, for each interval.", "anchors": ["kernel/Random.st: between:and:, nextLimit:", "libgst/prims.def: VMpr_Random_next"]}
{"id": "C208", "title": "Access to a collection through a map", "statement": "In a MappedCollection, at: answers the element of the domain at the index that the map holds for the key; at:put: changes what at: answers for the keys with the same index and nothing else; size, do:, contents, copyFrom:to: and atAll: agree with keys and at:.", "quantifier": "all domains, all sequences and dictionaries as maps, all keys", "why_tests_cant": "The map may send several keys to the same index, hold any keys, and be of two kinds.", "anchors": ["kernel/MappedColl.st: at:, at:put:, atAll:, size, contents, do:, copyFrom:to:, keys"]}
{"id": "C209", "title": "Enumerating the keys of a collection seen through a map", "statement": "keysDo: and keysAndValuesDo: of a MappedCollection go over its keys, and over its keys with the values that at: answers for them.", "quantifier": "all domains and maps", "why_tests_cant": "Maps that are permutations hide the confusion of keys and indices.", "anchors": ["kernel/MappedColl.st: keysDo:, keysAndValuesDo:"]}
{"id": "C210", "title": "Selecting and collecting through a map", "statement": "select: and reject: of a MappedCollection answer a collection of its elements for which the block answers true or false; collect: answers a collection with the same keys and the values passed through the block.", "quantifier": "all domains, maps and blocks", "why_tests_cant": "Maps that leave indices where they are hide the confusion of keys and indices.", "anchors": ["kernel/MappedColl.st: select:, reject:, collect:"]}
{"id": "C211", "title": "Variables of processes are separate", "statement": "The variables of a process, as it asks for them, depend only on what the process itself did to them, however processes are interleaved; setting, removing and asking agree, and keys that are equal name the same variable.", "quantifier": "all interleavings of any number of processes, all operations", "why_tests_cant": "Interleavings are unbounded.", "anchors": ["kernel/ProcEnv.st: ProcessEnvironment, ProcessVariable", "kernel/Process.st: environment"]}
{"id": "C212", "title": "Dynamic variables are restored", "statement": "use: anObject during: aBlock gives the variable the value in the block; when it ends, normally or not, the variable is as it was before, for any nesting of such uses and whatever other processes do.", "quantifier": "all blocks, nestings and interleavings", "why_tests_cant": "Blocks may do anything, including further uses of the same variable.", "anchors": ["kernel/ProcEnv.st: ProcessVariable>>use:during:", "kernel/DynVariable.st: DynamicVariable class>>use:during:"]}
{"id": "C213", "title": "Default values of dynamic variables", "statement": "valueIfAbsent: answers the value of the variable, or what the block answers when the process has no such variable.", "quantifier": "all variables, environments and blocks", "why_tests_cant": "It is about all environments.", "anchors": ["kernel/ProcEnv.st: valueIfAbsent:", "kernel/DynVariable.st: valueIfAbsent:"]}
{"id": "C214", "title": "Layout of C structures", "statement": "A CStruct has the layout that a C compiler gives to the struct: each field is at the first aligned offset after the one before (and after the fields of the superclass), fields do not overlap and are inside, the size is the first one after the last field that every alignment divides, and the alignment is the largest one, so that the structure can be used as a type in its turn.", "quantifier": "all lists of fields of any types (scalars, pointers, arrays, structures, unions) and all superclasses", "why_tests_cant": "There are infinitely many declarations, and a wrong offset only shows when C code writes the field.", "anchors": ["kernel/CStruct.st: declaration:inject:into:, compileSize:align:, alignTo:", "kernel/CType.st: from:, sizeof, alignof", "kernel/CObject.st: sizeof, alignof"]}
{"id": "C215", "title": "Layout of C unions", "statement": "In a CUnion all fields are at offset zero, and its size is the first one that holds every field, and that every alignment divides.", "quantifier": "all lists of fields and all superclasses", "why_tests_cant": "There are infinitely many declarations, and a union that is too small only shows as memory that is overwritten.", "anchors": ["kernel/CStruct.st: CUnion class>>declaration:"]}
{"id": "C216", "title": "Arithmetic on C pointers", "statement": "Moving a pointer adds up and can be undone; the distance of two pointers is by how many elements one was moved; the elements of an array are aligned, inside of it and do not overlap.", "quantifier": "all addresses, types and indices", "why_tests_cant": "It is about all addresses and types.", "anchors": ["kernel/CObject.st: addressAt:, +, -, incrBy:", "kernel/CType.st: CArrayCType>>sizeof"]}
{"id": "C217", "title": "Packages are loaded after their prerequisites", "statement": "Loading packages files in every package that is needed and is not loaded yet exactly once, and when it is filed in all its prerequisites are available; at the end what was asked for is available.", "quantifier": "all sets of packages with any prerequisites and features, all requests, all states of the image and all orders in which Sets are enumerated", "why_tests_cant": "There are infinitely many graphs of packages.", "anchors": ["kernel/PkgLoader.st: extractDependenciesFor:ifMissing:, fileInPackages:, primFileIn"]}
{"id": "C218", "title": "The packages that are needed", "statement": "The list of packages to be loaded has all that the request needs, directly or not, and that is not loaded yet, and nothing else; a package is said to be missing only if it is needed, not loaded and does not exist.", "quantifier": "all sets of packages, requests and states of the image", "why_tests_cant": "There are infinitely many graphs of packages.", "anchors": ["kernel/PkgLoader.st: extractDependenciesFor:ifMissing:"]}
{"id": "C219", "title": "The search for prerequisites ends", "statement": "Looking for the prerequisites of packages always ends.", "quantifier": "all sets of packages, requests and states of the image", "why_tests_cant": "A test cannot tell an endless loop from a long one.", "anchors": ["kernel/PkgLoader.st: extractDependenciesFor:ifMissing:"]}
{"id": "C220", "title": "A generator is a stream of what its block yields", "statement": "Whatever sequence of atEnd, next, peek and peekFor: is sent to a Generator, each is answered as by a stream over the sequence of values, finite or not, that its block yields.", "quantifier": "all blocks (as machines that yield), finite or endless, and all sequences of messages", "why_tests_cant": "Looking ahead, taking and asking for the end can be interleaved in infinitely many ways.", "anchors": ["kernel/Generator.st: atEnd, next, peek, peekFor:, yield:, forkOn:"]}
{"id": "C221", "title": "When the block of a generator runs", "statement": "The block of a Generator runs only as far as needed: it is resumed once for each element taken, and once more if the next element was looked at. inject:into: yields the iterates of its block and on:do: what its block yields for each element, in order.", "quantifier": "all blocks, collections and sequences of messages", "why_tests_cant": "It is about all sequences of messages, and endless generators.", "anchors": ["kernel/Generator.st: atEnd, yield:, inject:into:, on:do:"]}
{"id": "C222", "title": "How often continuations can be resumed", "statement": "A continuation can be resumed again and again by value:, and only once by oneShotValue:; afterwards an exception is signaled. valueWithArguments: takes zero or one arguments, and refuses more.", "quantifier": "all continuations, values and lists of arguments", "why_tests_cant": "It is about all lists of arguments.", "anchors": ["kernel/Continuation.st: value:, oneShotValue:, valueWithArguments:, resume:nextContinuation:"]}
{"id": "C223", "title": "Instances survive a change of instance variables", "statement": "When the instance variables of a class are changed, in every instance of the class and of its subclasses each variable that is there before and after keeps its value, inherited variables and those added by subclasses too, new variables are nil, and indexed variables are kept.", "quantifier": "all classes, old and new lists of variables in any order and with repeated names, subclasses and instances", "why_tests_cant": "There are infinitely many pairs of lists, and instances that are damaged show it much later.", "anchors": ["kernel/Behavior.st: updateInstanceVars:superclass:shape:, mutate:via:"]}
{"id": "C224", "title": "Methods are compiled again when variables move", "statement": "After addInstVarName: and instanceVariableNames:, methods of the class and of its subclasses use the variables that their names mean, because those for which that has changed were compiled again.", "quantifier": "all lists of variables, before and after", "why_tests_cant": "There are infinitely many pairs of lists.", "anchors": ["kernel/Behavior.st: addInstVarName:, instanceVariableNames:"]}
{"id": "C225", "title": "Removing an instance variable", "statement": "removeInstVarName: removes one variable of the class and nothing else, and fails when the class does not define such a variable.", "quantifier": "all lists of variables", "why_tests_cant": "There are infinitely many lists.", "anchors": ["kernel/Behavior.st: removeInstVarName:"]}
{"id": "C226", "title": "Searches stop where they should, with all effects in order", "statement": "detect: answers the first element for which the block answers true; anySatisfy:, allSatisfy: and noneSatisfy: say whether some, all or none of the answers are true.  The block is evaluated once for each element up to the one that decides, and for none after it, so that its effects are those of a loop with an exit.  count: evaluates it for all and counts the true answers; inject:into: and fold: combine from the left (fold: fails only for an empty collection); do:separatedBy: evaluates the separator between each two elements and nowhere else.  Sequences, which have their own versions, do the same.", "quantifier": "all collections, all blocks with any effects, all states", "why_tests_cant": "The effects of a block are not limited, and there are infinitely many collections.", "anchors": ["kernel/Iterable.st: detect:ifNone:, count:, anySatisfy:, allSatisfy:, noneSatisfy:, fold:, inject:into:, do:separatedBy:", "kernel/SeqCollect.st: do:separatedBy:, fold:"]}
{"id": "C227", "title": "What a collection includes and how many times", "statement": "includes: says whether some element is equal to the argument, includesAnyOf: whether the collections have an element in common, includesAllOf: whether each element of the argument is included, and occurrencesOf: how many elements are equal to the argument, so that it is positive exactly when includes: answers true.", "quantifier": "all collections, all arguments, all definitions of equality", "why_tests_cant": "Equality can be redefined in any class, and there are infinitely many collections.", "anchors": ["kernel/Collection.st: includes:, includesAnyOf:, includesAllOf:, occurrencesOf:"]}
{"id": "C228", "title": "Removing the elements that satisfy a block", "statement": "After removeAllSuchThat: the collection has the elements that the block rejects, in their order, and no other.  remove:ifAbsent: takes away the first element that is equal to the argument and nothing else; copyWithout: leaves all the elements that are not equal to it.", "quantifier": "all collections, all blocks, all definitions of equality", "why_tests_cant": "Tests use blocks that do not tell equal elements apart.", "anchors": ["kernel/Collection.st: removeAllSuchThat:, removeAll:ifAbsent:, copyWithout:", "kernel/OrderColl.st: remove:ifAbsent:", "kernel/SeqCollect.st: indexOf:startingAt:ifAbsent:"]}
{"id": "C229", "title": "Bags compare and sort by counts", "statement": "Two Bags are equal exactly when each object occurs as many times in one as in the other, however they were filled.  asSet has each object that occurs, once; sortedByCount has each of them once, with its number of occurrences, in decreasing order.", "quantifier": "all pairs of sequences of changes", "why_tests_cant": "Any two histories may lead to equal Bags.", "anchors": ["kernel/Bag.st: =, asSet, sortedByCount", "kernel/Dictionary.st: ="]}
{"id": "C230", "title": "A stored Bag can be read back", "statement": "The text that storeOn: writes for a Bag is an expression that the compiler accepts and that makes an equal Bag.", "quantifier": "all Bags", "why_tests_cant": "There are infinitely many Bags.", "anchors": ["kernel/Bag.st: storeOn:", "libgst/gst-parse.c: parse_cascaded_messages"]}
{"id": "C231", "title": "Similarity of strings is the least cost of changes", "statement": "similarityTo: answers, with the sign inverted, the least total cost of changes (substitutions, changes of case, insertions, deletions) that turn the receiver into the argument.", "quantifier": "all pairs of strings, all costs, all definitions of upper and lower case", "why_tests_cant": "The least cost is over infinitely many sequences of changes, and there are infinitely many strings.", "anchors": ["lib-src/strspell.c: strnspell", "libgst/prims.def: VMpr_String_similarityTo", "kernel/String.st: similarityTo:"]}
{"id": "C232", "title": "Similarity zero means equality", "statement": "similarityTo: answers 0 exactly when the strings are equal, and a negative number otherwise.", "quantifier": "all pairs of strings", "why_tests_cant": "There are infinitely many pairs of different strings.", "anchors": ["kernel/String.st: similarityTo:", "libgst/prims.def: VMpr_String_similarityTo", "lib-src/strspell.c: strnspell"]}
{"id": "C233", "title": "The text of an IPv6 address is read back as that address", "statement": "The text that inet_ntop makes for the 16 bytes of an IPv6 address, read as RFC 4291 says, is that address; different addresses have different texts.  Two colons replace the first of the longest runs of zero words, and never a single zero.  An IPv4 address that is mapped to an IPv6 one is written with dots.", "quantifier": "all the 2^128 addresses", "why_tests_cant": "There are too many addresses to try.", "anchors": ["lib-src/inet_ntop.c: inet_ntop6"]}
{"id": "C234", "title": "inet_ntop stays within its buffers", "statement": "inet_ntop writes no byte after the end of the buffer whose size it is given, nor after the end of the array in which it makes the text.", "quantifier": "all addresses and all sizes of buffers", "why_tests_cant": "A byte after the end is seldom noticed, and only one size for each address shows it.", "anchors": ["lib-src/inet_ntop.c: inet_ntop4, inet_ntop6"]}
{"id": "C235", "title": "Weak arrays tell collected objects from nil", "statement": "For a place of a WeakArray, isAlive: answers false exactly when the last thing stored there was an object that has been garbage collected since (and clearGCFlag: was not sent for it); at: answers the object that was stored until it is collected, and nil afterwards.  aliveObjectsDo: passes the contents of the places that are alive, in order.  Copies behave like the original.", "quantifier": "all histories of stores, collections, cleared flags and copies", "why_tests_cant": "When objects are collected cannot be foreseen, and the histories are infinitely many.", "anchors": ["kernel/WeakObjects.st: WeakArray", "kernel/SeqCollect.st: atAll:put:", "libgst/oop.c: check_weak_refs"]}
{"id": "C236", "title": "strtoul reads numbers exactly or reports them", "statement": "strtoul answers the number that the digits of the text stand for, in each base, with the prefixes 0 and 0x when the base is 0 and 0x when it is 16; if it does not fit it answers the greatest number and says so, and it says so in no other case.", "quantifier": "all texts of digits, all bases from 2 to 36", "why_tests_cant": "There are infinitely many texts, and the wrong answers are next to the greatest number.", "anchors": ["lib-src/strtoul.c: strtoul"]}
{"id": "C237", "title": "The end of a number is found", "statement": "strtoul makes the tail the text after the last digit, whenever there is a number.", "quantifier": "all texts that begin with blanks and a number, all bases", "why_tests_cant": "There are infinitely many texts.", "anchors": ["lib-src/strtoul.c: strtoul"]}
