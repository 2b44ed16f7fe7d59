{
 "claims": [
  {
   "property": "C01",
   "status": "proved",
   "theorems": [
    "Verif.SmallInt.tag_roundtrip",
    "Verif.SmallInt.tag_bijective",
    "Verif.SmallInt.tag_injective",
    "Verif.SmallInt.tag_disjoint",
    "Verif.SmallInt.range_limits"
   ],
   "note": ""
  },
  {
   "property": "C02",
   "status": "proved",
   "theorems": [
    "Verif.SmallInt.plus_minus_times_exact",
    "Verif.SmallInt.add_exact",
    "Verif.SmallInt.add_exact_x86",
    "Verif.SmallInt.sub_exact",
    "Verif.SmallInt.sub_exact_x86",
    "Verif.SmallInt.mul_exact",
    "Verif.SmallInt.mul_exact_wide",
    "Verif.SmallInt.mul_exact_div",
    "Verif.SmallInt.arith_prim_spec"
   ],
   "note": ""
  },
  {
   "property": "C03",
   "status": "proved",
   "theorems": [
    "Verif.SmallInt.compare_exact"
   ],
   "note": ""
  },
  {
   "property": "C04",
   "status": "partial",
   "theorems": [
    "Verif.SmallInt.quo_exact_partial",
    "Verif.SmallInt.divide_exact_partial",
    "Verif.SmallInt.intDiv_exact_partial",
    "Verif.SmallInt.modulo_exact",
    "Verif.SmallInt.division_wrong_at_minimum",
    "Verif.SmallInt.black_magic"
   ],
   "note": "False of the code for the smallest SmallInteger divided by -1 (division_wrong_at_minimum proves it answers itself); all other operands proved exact."
  },
  {
   "property": "C05",
   "status": "proved",
   "theorems": [
    "Verif.SmallInt.bitAnd_exact",
    "Verif.SmallInt.bitOr_exact",
    "Verif.SmallInt.bitXor_exact",
    "Verif.SmallInt.bitAnd_tag_test",
    "Verif.SmallInt.bitShift_right_exact",
    "Verif.SmallInt.bitShift_left_exact",
    "Verif.SmallInt.bit_word",
    "Verif.SmallInt.bit_ext"
   ],
   "note": ""
  },
  {
   "property": "C06",
   "status": "partial",
   "theorems": [
    "Verif.CInt.fromCInt32_value",
    "Verif.CInt.fromCUInt32_value",
    "Verif.CInt.fromCInt64_value",
    "Verif.CInt.fromCUInt64_value",
    "Verif.CInt.toCInt64_value",
    "Verif.CInt.toCUInt64_value_partial",
    "Verif.CInt.int64_roundtrip",
    "Verif.CInt.uint64_roundtrip_partial",
    "Verif.CInt.uint64_roundtrip_fails",
    "Verif.CInt.uint64_x86_loses_upper_half",
    "Verif.CInt.int32_roundtrip_partial",
    "Verif.CInt.uint32_roundtrip_partial",
    "Verif.CInt.int32_limits_refused",
    "Verif.CInt.fromCInt32_class",
    "Verif.CInt.fromCUInt32_class",
    "Verif.CInt.fromCInt64_class",
    "Verif.CInt.fromCUInt64_class",
    "Verif.CInt.large_int32"
   ],
   "note": "False of the code: INT_MAX and UINT_MAX are refused by the 32-bit tests and unsigned 64-bit values from 2^63 on execute an undefined shift on the way back (all three proved)."
  },
  {
   "property": "C07",
   "status": "partial",
   "theorems": [
    "Verif.Index.byteOffset_iff",
    "Verif.Index.access_inside_object_partial",
    "Verif.Index.access_checked_narrow_partial",
    "Verif.Index.access_checked_partial",
    "Verif.Index.pointer_access_checked_partial",
    "Verif.Index.empty_object_unchecked",
    "Verif.Index.empty_array_unchecked",
    "Verif.Index.wide_index_aliases",
    "Verif.Index.word_index_aliases"
   ],
   "note": "False of the code for empty objects (every non-zero index accepted) and for huge indices of 4- and 8-byte elements, which wrap around (proved); non-empty objects proved memory safe for every index."
  },
  {
   "property": "C08",
   "status": "partial",
   "theorems": [
    "Verif.Index.at_after_atPut_partial",
    "Verif.Index.at_other_after_atPut",
    "Verif.Index.named_after_atPut",
    "Verif.Index.ptrAt_after_ptrAtPut",
    "Verif.Index.ptrAt_other_after_ptrAtPut",
    "Verif.Index.refused_iff",
    "Verif.Index.short_loses_sign",
    "Verif.Index.short_roundtrip_partial",
    "Verif.Index.decode_encode",
    "Verif.Index.narrow_accepts"
   ],
   "note": "False of the code for negative elements of the signed 16-bit shape (short_loses_sign); float elements are not modelled."
  },
  {
   "property": "C09",
   "status": "proved",
   "theorems": [
    "Verif.VMDict.identity_dictionary_lookup",
    "Verif.VMDict.identity_at_put_answers_old",
    "Verif.VMDict.dictionary_correct"
   ],
   "note": ""
  },
  {
   "property": "C10",
   "status": "partial",
   "theorems": [
    "Verif.VMDict.dictionary_correct",
    "Verif.VMDict.identity_dictionary_size_partial",
    "Verif.VMDict.identity_dictionary_size_overcounts",
    "Verif.VMDict.identity_dictionary_size_wrong"
   ],
   "note": "Proved for dictionaries of associations; false of the code for identity dictionaries, each growth counts one key too many (proved)."
  },
  {
   "property": "C11",
   "status": "proved",
   "theorems": [
    "Verif.VMDict.identity_dictionary_lookup",
    "Verif.VMDict.dictionary_correct",
    "Verif.VMDict.small_identity_dictionary_aborts",
    "Verif.VMDict.small_dictionary_aborts",
    "Verif.VMDict.newNumFields_spec"
   ],
   "note": ""
  },
  {
   "property": "C12",
   "status": "partial",
   "theorems": [
    "Verif.HashColl.set_correct",
    "Verif.HashColl.set_remove_answer",
    "Verif.HashColl.dictionary_correct",
    "Verif.HashColl.lookup_table_correct",
    "Verif.HashColl.lookup_table_remove_answer",
    "Verif.HashColl.identity_set_correct_partial",
    "Verif.HashColl.identity_set_loses_elements",
    "Verif.HashColl.identity_set_growth_duplicates"
   ],
   "note": "Proved for Set, Dictionary, LookupTable, IdentityDictionary; IdentitySet is false of the code (proved): it searches with identityHash but re-inserts with hash."
  },
  {
   "property": "C13",
   "status": "partial",
   "theorems": [
    "Verif.HashColl.realSize_pow",
    "Verif.HashColl.grow_keeps",
    "Verif.HashColl.copy_keeps",
    "Verif.HashColl.rehash_restores",
    "Verif.HashColl.identity_set_growth_duplicates"
   ],
   "note": "Proved for every table whose searching and re-inserting hashes agree; false for IdentitySet (proved)."
  },
  {
   "property": "C14",
   "status": "proved",
   "theorems": [
    "Verif.Sched.lists_sound",
    "Verif.Sched.one_list",
    "Verif.Sched.order_kept"
   ],
   "note": ""
  },
  {
   "property": "C15",
   "status": "partial",
   "theorems": [
    "Verif.Sched.preempt_picks_partial",
    "Verif.Sched.yield_picks_partial",
    "Verif.Sched.wait_picks_partial",
    "Verif.Sched.resume_preempts",
    "Verif.Sched.wouldReschedule_iff",
    "Verif.Sched.yield_lowers_priority",
    "Verif.Sched.preempt_lowers_priority",
    "Verif.Sched.resume_is_lifo"
   ],
   "note": "The process picked is the best of the others; false of the code (proved): the process giving up the processor is not compared, and resumed lower-priority processes queue LIFO."
  },
  {
   "property": "C16",
   "status": "proved",
   "theorems": [
    "Verif.Sched.no_waiter_with_signals",
    "Verif.Sched.signals_conserved"
   ],
   "note": ""
  },
  {
   "property": "C17",
   "status": "proved",
   "theorems": [
    "Verif.Sched.signal_is_fifo",
    "Verif.Sched.notifyAll_releases"
   ],
   "note": ""
  },
  {
   "property": "C18",
   "status": "partial",
   "theorems": [
    "Verif.Async.executed_in_order_partial",
    "Verif.Async.returns_when_queued_partial",
    "Verif.Async.all_executed_partial",
    "Verif.Async.drain_executes_all_partial",
    "Verif.Async.no_use_after_free",
    "Verif.Async.Sig.sig_at_most_once_partial",
    "Verif.Async.Sig.sig_executed_after_call_partial",
    "Verif.Async.Sig.not_executed_when_interrupted"
   ],
   "note": "Proved outright for _gst_async_call; for the queue of the signal handlers proved when calls are not interrupted, and refuted otherwise: an entry is lost for ever."
  },
  {
   "property": "C19",
   "status": "proved",
   "theorems": [
    "Verif.Alloc.blocks_disjoint",
    "Verif.Alloc.no_byte_lost",
    "Verif.Alloc.block_size",
    "Verif.Alloc.within_limit"
   ],
   "note": "Over every history of page allocations, frees, splits and growth; what the operating system hands out is assumed aligned and unused."
  },
  {
   "property": "C20",
   "status": "proved",
   "theorems": [
    "Verif.Alloc.free_list_merged",
    "Verif.Alloc.coalesced",
    "Verif.Alloc.all_freed_one_block"
   ],
   "note": ""
  },
  {
   "property": "C21",
   "status": "proved",
   "theorems": [
    "Verif.Alloc.class_fits",
    "Verif.Alloc.table_bounds",
    "Verif.Alloc.class_index",
    "Verif.Alloc.class_in_page"
   ],
   "note": ""
  },
  {
   "property": "C22",
   "status": "proved",
   "theorems": [
    "Verif.Bytecode.operand_roundtrip",
    "Verif.Bytecode.program_roundtrip",
    "Verif.Bytecode.operand_identified",
    "Verif.Bytecode.operand_length",
    "Verif.Bytecode.compileByte_bytes"
   ],
   "note": ""
  },
  {
   "property": "C23",
   "status": "proved",
   "theorems": [
    "Verif.Bytecode.superoperators_preserve",
    "Verif.Bytecode.superoperators_preserve_method",
    "Verif.Bytecode.superoperators_shorter",
    "Verif.Bytecode.superoperators_found",
    "Verif.Bytecode.superoperators_misplaced",
    "Verif.Bytecode.fuseJump_preserve"
   ],
   "note": ""
  },
  {
   "property": "C24",
   "status": "partial",
   "theorems": [
    "Verif.Bytecode.optimizer_preserves_partial",
    "Verif.Bytecode.optimizer_pending_partial",
    "Verif.Bytecode.optimizer_defined",
    "Verif.Bytecode.compiled_block_preserved_partial",
    "Verif.Bytecode.extended_push_pop_wrong"
   ],
   "note": "Proved for blocks in which no extended push is followed by a pop; refuted otherwise (a statement that is an integer above 255 followed by another push)."
  },
  {
   "property": "C25",
   "status": "partial",
   "theorems": [
    "Verif.Bytecode.jumps_land_partial",
    "Verif.Bytecode.short_jumps_land",
    "Verif.Bytecode.jump_misses"
   ],
   "note": "Proved for every method in which no final distance is one of three boundary values, and outright (with termination) for methods shorter than 254 bytes; refuted by a method of 130 jumps. Termination for longer methods is not proved."
  },
  {
   "property": "C26",
   "status": "partial",
   "theorems": [
    "Verif.Verifier.verified_flow",
    "Verif.Verifier.verified_run_in_code",
    "Verif.Verifier.verified_straight_partial",
    "Verif.Verifier.verified_no_jumps_partial",
    "Verif.Verifier.merge_never_varies",
    "Verif.Verifier.literal_unchecked",
    "Verif.Verifier.stack_unbounded",
    "Verif.Verifier.runs_past_end",
    "Verif.Verifier.selector_unchecked",
    "Verif.Verifier.return_unchecked",
    "Verif.Verifier.super_new_unsound",
    "Verif.Verifier.outer_scope_undefined"
   ],
   "note": "Proved for all runs: every bytecode run is a valid one inside the code and jumps go to bytecodes. Proved for all accesses up to the first jump, return or jump target, and for whole methods without jumps. Refuted beyond that: merge_stacks never finds a difference, so only the first basic block is checked; also no height check on fall-through, no check of selectors, of the value returned, of the end of the code."
  },
  {
   "property": "C27",
   "status": "proved",
   "theorems": [
    "Verif.Trees.weak_enumerates",
    "Verif.Trees.weak_balanced",
    "Verif.Trees.weak_defined",
    "Verif.Trees.registry_balanced"
   ],
   "note": "Any sequence of insertions and removals made through the two registries that use the tree; a fresh address for each new node."
  },
  {
   "property": "C28",
   "status": "proved",
   "theorems": [
    "Verif.Trees.function_names",
    "Verif.Trees.function_tree_balanced",
    "Verif.Trees.function_define_defined"
   ],
   "note": "avl_erase is not used by the virtual machine and is not modelled."
  },
  {
   "property": "C29",
   "status": "partial",
   "theorems": [
    "Verif.Lookup.lookup_nearest",
    "Verif.Lookup.lookup_done",
    "Verif.Lookup.cache_index_in_range",
    "Verif.Lookup.perform_checked",
    "Verif.Lookup.dnu_loops",
    "Verif.Lookup.superclass_not_flushed",
    "Verif.Lookup.constant_skips_flush"
   ],
   "note": "Proved for every history in which a change of superclass is followed by a flush and no constant statement is evaluated just before C code installs a method. Refuted otherwise: superclass: does not flush the cache; evaluating a constant makes the next flush a no-op; a message and doesNotUnderstand: both missing loop forever."
  },
  {
   "property": "C30",
   "status": "partial",
   "theorems": [
    "Verif.Interrupts.enabled_iff_caught_up_partial",
    "Verif.Interrupts.single_process",
    "Verif.Interrupts.switch_reenables",
    "Verif.Interrupts.switch_disables",
    "Verif.Interrupts.not_enabled_iff_caught_up"
   ],
   "note": "Proved when processes are switched to only while balanced; false of the code otherwise (proved): the test on a process switch is the wrong way round."
  },
  {
   "property": "C31",
   "status": "partial",
   "theorems": [
    "Verif.SmallInt.lowBit_correct_partial",
    "Verif.SmallInt.lowBit_wrong_at_minimum",
    "Verif.SmallInt.isLowBit_unique",
    "Verif.SmallInt.highBit_correct"
   ],
   "note": "lowBit of the smallest SmallInteger answers 62 instead of 63 (proved); everything else proved."
  },
  {
   "property": "C32",
   "status": "proved",
   "theorems": [
    "Verif.HashColl.bag_correct",
    "Verif.HashColl.bag_remove_answer"
   ],
   "note": ""
  },
  {
   "property": "C33",
   "status": "proved",
   "theorems": [
    "Verif.HashColl.set_equality",
    "Verif.HashColl.set_hash_compatible",
    "Verif.HashColl.set_inclusion",
    "Verif.HashColl.set_arithmetic"
   ],
   "note": ""
  },
  {
   "property": "C34",
   "status": "partial",
   "theorems": [
    "Verif.Sched.waitAfterSignalling_waits_partial",
    "Verif.Sched.waitAfterSignalling_wrong_process"
   ],
   "note": "False of the code (proved in general): if the signal wakes a process of at least the sender's priority, that process is put to sleep instead of the sender."
  },
  {
   "property": "C35",
   "status": "partial",
   "theorems": [
    "Verif.Sched.not_lost_step_partial",
    "Verif.Sched.not_lost_partial",
    "Verif.Sched.preempt_loses_process"
   ],
   "note": "Proved for operations done with no switch pending; false of the code (proved) when a time slice ends while a switch is pending."
  },
  {
   "property": "C36",
   "status": "partial",
   "theorems": [
    "Verif.Alloc.objects_disjoint",
    "Verif.Alloc.objects_placed",
    "Verif.Alloc.free_works",
    "Verif.Alloc.alloc_works",
    "Verif.Alloc.no_leak",
    "Verif.Alloc.realloc_in_place",
    "Verif.Alloc.realloc_moves",
    "Verif.Alloc.not_realloc_null",
    "Verif.Alloc.not_free_huge"
   ],
   "note": "Proved for requests below two gigabytes; refuted beyond (the int in _gst_mem_free), and resizing does not answer NULL when out of memory, as documented, but copies to a null pointer."
  },
  {
   "property": "C37",
   "status": "proved",
   "theorems": [
    "Verif.Bytecode.interpreter_agrees",
    "Verif.Bytecode.interpreter_reads_operand",
    "Verif.Bytecode.only_last_leaves"
   ],
   "note": ""
  },
  {
   "property": "C38",
   "status": "proved",
   "theorems": [
    "Verif.Trees.registry_counts",
    "Verif.Trees.registry_defined"
   ],
   "note": ""
  },
  {
   "property": "C39",
   "status": "partial",
   "theorems": [
    "Verif.Trees.weak_count_partial",
    "Verif.Trees.weak_count_wrong"
   ],
   "note": "Proved for histories that never make weak an object that already is, or the reverse; refuted otherwise: an object made weak twice is counted twice."
  },
  {
   "property": "C40",
   "status": "partial",
   "theorems": [
    "Verif.Trees.array_registration_ends_partial",
    "Verif.Trees.array_reregistration_loops"
   ],
   "note": "Proved when the array is not yet registered; refuted otherwise: registering an array a second time never returns."
  },
  {
   "property": "C41",
   "status": "proved",
   "theorems": [
    "Verif.Trees.function_table"
   ],
   "note": ""
  },
  {
   "property": "C42",
   "status": "partial",
   "theorems": [
    "Verif.Lookup.special_size_partial",
    "Verif.Lookup.special_class_partial",
    "Verif.Lookup.class_special_args",
    "Verif.Lookup.size_special_dnu"
   ],
   "note": "Proved when the method is found and is compiled code or a primitive; for class, up to the number of arguments told to the primitive. Refuted otherwise."
  },
  {
   "property": "C43",
   "status": "proved",
   "theorems": [
    "Verif.Calendar.made_valid",
    "Verif.Calendar.days_follow_calendar",
    "Verif.Calendar.julian_correct",
    "Verif.Calendar.days_ordered"
   ],
   "note": "For all integers as day numbers; years are the astronomical ones (a year 0, proleptic Gregorian calendar), as the class comment warns."
  },
  {
   "property": "C44",
   "status": "partial",
   "theorems": [
    "Verif.Calendar.newDay_exact",
    "Verif.Calendar.store_round_trip",
    "Verif.Calendar.equal_iff_parts",
    "Verif.Calendar.newDay_normalises",
    "Verif.Calendar.newDay_bad_month",
    "Verif.Calendar.bad_month_wrong",
    "Verif.Calendar.addDays_exact"
   ],
   "note": "All proved for months 1 to 12. Refuted for other months: they are an error only when the day is at least 1, otherwise some date is answered, possibly a wrong one."
  },
  {
   "property": "C45",
   "status": "proved",
   "theorems": [
    "Verif.Calendar.daysInYear_correct",
    "Verif.Calendar.isLeapYear_correct",
    "Verif.Calendar.daysInMonth_correct",
    "Verif.Calendar.dayOfYear_correct",
    "Verif.Calendar.newDayYear_correct",
    "Verif.Calendar.daysLeft_correct",
    "Verif.Calendar.firstLast_correct",
    "Verif.Calendar.dayOfWeek_correct"
   ],
   "note": ""
  },
  {
   "property": "C46",
   "status": "partial",
   "theorems": [
    "Verif.Calendar.fromDays_exact",
    "Verif.Calendar.plus_exact",
    "Verif.Calendar.minus_exact",
    "Verif.Calendar.plus_minus",
    "Verif.Calendar.asUTC_instant",
    "Verif.Calendar.asUTC_partial",
    "Verif.Calendar.asUTC_wrong",
    "Verif.Calendar.diff_partial",
    "Verif.Calendar.plus_diff_partial",
    "Verif.Calendar.lt_partial",
    "Verif.Calendar.eq_partial",
    "Verif.Calendar.hms_unnormalised",
    "Verif.Calendar.asLocal_exact",
    "Verif.Calendar.dateTime_split",
    "Verif.Calendar.date_plus_partial",
    "Verif.Calendar.date_plus_loses",
    "Verif.Calendar.date_minus_exact"
   ],
   "note": "Addition and subtraction of Durations are exact always. Differences and comparisons are exact for offsets below a day and times of day in range; refuted otherwise. Date + Duration is proved exact exactly when the Duration has no hours nor minutes. Fractions of a second are not modelled."
  },
  {
   "property": "C47",
   "status": "partial",
   "theorems": [
    "Verif.Calendar.parts_exact",
    "Verif.Calendar.duration_parts",
    "Verif.Calendar.store_exact",
    "Verif.Calendar.time_exact",
    "Verif.Calendar.weekday_exact",
    "Verif.Calendar.zone_partial",
    "Verif.Calendar.zone_wrong",
    "Verif.Calendar.hash_partial",
    "Verif.Calendar.hash_differs"
   ],
   "note": "Proved but for two refutations: equal timestamps with different offsets hash differently, and the zone of a negative offset is shown wrong."
  },
  {
   "property": "C48",
   "status": "partial",
   "theorems": [
    "Verif.Calendar.duration_print_read",
    "Verif.Calendar.date_print_read",
    "Verif.Calendar.timestamp_print_read_partial",
    "Verif.Calendar.timestamp_early_year",
    "Verif.Calendar.timestamp_odd_offset"
   ],
   "note": "Proved for all Durations, all Dates, and timestamps of years outside 0 to 31 with offsets of whole minutes below a day; refuted in the years 1 to 31 and for negative offsets with seconds."
  },
  {
   "property": "C49",
   "status": "partial",
   "theorems": [
    "Verif.OrdColl.run_refines",
    "Verif.OrdColl.runs_refines",
    "Verif.OrdColl.collection_is_list",
    "Verif.OrdColl.addAllSelf_fails"
   ],
   "note": "Proved for all the messages listed. Refuted for addAll: of the collection itself, which can raise an index error."
  },
  {
   "property": "C50",
   "status": "proved",
   "theorems": [
    "Verif.OrdColl.no_stale_slots"
   ],
   "note": ""
  },
  {
   "property": "C51",
   "status": "partial",
   "theorems": [
    "Verif.SortColl.sorted_collection_partial",
    "Verif.SortColl.removeLast_add_unsorted",
    "Verif.SortColl.sortSlots_spec",
    "Verif.SortColl.merge_spec",
    "Verif.SortColl.beConsistent_spec"
   ],
   "note": "Proved for all sequences in which no add: or addAll: follows a removeLast with at most size and indexOf: between; refuted without that proviso: removeLast then add: leaves the collection out of order. Sort blocks that raise errors are not modelled."
  },
  {
   "property": "C52",
   "status": "proved",
   "theorems": [
    "Verif.SortColl.reads_agree",
    "Verif.SortColl.beConsistent_fix"
   ],
   "note": ""
  },
  {
   "property": "C53",
   "status": "partial",
   "theorems": [
    "Verif.SortColl.index_first_partial",
    "Verif.SortColl.index_not_first",
    "Verif.SortColl.occurrences_wrong",
    "Verif.SortColl.last_of_empty",
    "Verif.SortColl.put_breaks_order"
   ],
   "note": "indexOf: proved to answer the first index when elements that sort alike are equal, refuted otherwise; the three other clauses are refuted."
  },
  {
   "property": "C54",
   "status": "partial",
   "theorems": [
    "Verif.Num.gcd_spec",
    "Verif.Num.gcd_int",
    "Verif.Num.lcm_partial",
    "Verif.Num.lcm_zero_zero_fails",
    "Verif.Num.floorLog_spec",
    "Verif.Num.floorLog_zero",
    "Verif.Num.floorLog_refuses",
    "Verif.Num.ceilingLog_partial",
    "Verif.Num.ceilingLog_wrong",
    "Verif.Num.ceilingLog_wrong_every_radix"
   ],
   "note": "gcd: and floorLog: proved for all Integers. 0 lcm: 0 is refuted (ZeroDivide); ceilingLog: is proved only where it is right and refuted otherwise, for every radix."
  },
  {
   "property": "C55",
   "status": "partial",
   "theorems": [
    "Verif.Num.factorial_spec",
    "Verif.Num.factorial_negative",
    "Verif.Num.binomial_partial",
    "Verif.Num.binomial_refuses",
    "Verif.Num.binomial_endless",
    "Verif.Num.binomial_full_false"
   ],
   "note": "factorial is proved for all Integers. binomial: is proved for receivers up to SmallInteger largest; for larger receivers it is refuted (the loop never ends)."
  },
  {
   "property": "C56",
   "status": "partial",
   "theorems": [
    "Verif.Num.powPos_spec",
    "Verif.Num.powCache_spec",
    "Verif.Num.powerTable_ok",
    "Verif.Num.lowBits_spec",
    "Verif.Num.largeRaised_partial",
    "Verif.Num.largeRaised_negative",
    "Verif.Num.largeRaised_negative_wrong"
   ],
   "note": "Proved for positive exponents of any receiver and non-negative ones of LargeIntegers; an even LargeInteger to a negative power is refuted."
  },
  {
   "property": "C57",
   "status": "proved",
   "theorems": [
    "Verif.Num.printBase_spec",
    "Verif.Num.printBase_refuses",
    "Verif.Num.printRadix_spec",
    "Verif.Num.printOnPadded_spec",
    "Verif.Num.printPadded_spec",
    "Verif.Num.writes_unique",
    "Verif.Num.print_injective",
    "Verif.Num.read_print"
   ],
   "note": ""
  },
  {
   "property": "C58",
   "status": "proved",
   "theorems": [
    "Verif.Frac.add_exact",
    "Verif.Frac.sub_exact",
    "Verif.Frac.mul_exact",
    "Verif.Frac.div_exact",
    "Verif.Frac.div_zero_refused",
    "Verif.Frac.intDiv_modulo",
    "Verif.Frac.raisedTo_exact"
   ],
   "note": ""
  },
  {
   "property": "C59",
   "status": "partial",
   "theorems": [
    "Verif.Frac.add_sub_canonical",
    "Verif.Frac.mul_canonical_partial",
    "Verif.Frac.div_canonical_partial",
    "Verif.Frac.mul_zero_not_canonical",
    "Verif.Frac.div_not_canonical",
    "Verif.Frac.powers_not_canonical"
   ],
   "note": "Proved for sums and differences, for products that are not zero, and for quotients by positive divisors of nonzero numbers; refuted for the other cases."
  },
  {
   "property": "C60",
   "status": "proved",
   "theorems": [
    "Verif.Frac.floor_spec",
    "Verif.Frac.ceiling_spec",
    "Verif.Frac.truncated_spec",
    "Verif.Frac.rounded_spec",
    "Verif.Frac.rounded_near",
    "Verif.Frac.compare_sign",
    "Verif.Frac.lt_spec",
    "Verif.Frac.le_spec",
    "Verif.Frac.eq_spec",
    "Verif.Frac.eq_unreduced"
   ],
   "note": "Fractions that a program builds with numerator:denominator: out of lowest terms are outside the claim; eq_unreduced shows what happens to them."
  },
  {
   "property": "C61",
   "status": "partial",
   "theorems": [
    "Verif.Frac.asFloat_partial",
    "Verif.Frac.largeAsFloat_spec",
    "Verif.Frac.asFloat_denormal_wrong"
   ],
   "note": "Proved for results that are not denormalised; refuted for FloatD results that are. Hardware conversion, division and ldexp are taken to round as IEEE 754 says."
  },
  {
   "property": "C62",
   "status": "partial",
   "theorems": [
    "Verif.Frac.scaled_arith",
    "Verif.Frac.scaled_eq",
    "Verif.Frac.scaled_lt",
    "Verif.Frac.scaled_compare_exact",
    "Verif.Frac.scaled_eq_not_transitive",
    "Verif.Frac.scaled_hash_wrong",
    "Verif.Frac.scaled_asFraction",
    "Verif.Frac.scaled_display",
    "Verif.Frac.scaled_round_trip",
    "Verif.Frac.scaled_print_not_equal"
   ],
   "note": "Arithmetic, showing and truncating proved for all; = and < characterised for all and proved to be those of the numbers for one scale without hidden digits; transitivity, agreement with hash and equality with the printed form are refuted in general."
  },
  {
   "property": "C63",
   "status": "partial",
   "theorems": [
    "Verif.Interval.lists_exists",
    "Verif.Interval.size_correct",
    "Verif.Interval.do_correct",
    "Verif.Interval.toByDo_correct",
    "Verif.Interval.toDo_correct",
    "Verif.Interval.do_zero_step_endless",
    "Verif.Interval.at_correct",
    "Verif.Interval.collect_correct",
    "Verif.Interval.toByCollect_correct",
    "Verif.Interval.toCollect_partial",
    "Verif.Interval.toCollect_not_correct",
    "Verif.Interval.isEmpty_partial",
    "Verif.Interval.isEmpty_not_correct",
    "Verif.Interval.first_partial",
    "Verif.Interval.last_partial"
   ],
   "note": "do:, to:do:, to:by:do:, collect:, to:by:collect:, size and at: proved for all. isEmpty, first and last are proved except for one-element Intervals with a negative step, where they are refuted; to:collect: is refuted when the receiver exceeds the argument by a fraction of one."
  },
  {
   "property": "C64",
   "status": "partial",
   "theorems": [
    "Verif.Interval.reverse_partial",
    "Verif.Interval.reverse_empty_fails",
    "Verif.Interval.copyFromTo_correct",
    "Verif.Interval.copyFromTo_empty",
    "Verif.Interval.copyFromTo_range",
    "Verif.Interval.eq_same_elements_partial",
    "Verif.Interval.eq_of_same_elements_partial",
    "Verif.Interval.eq_not_complete",
    "Verif.Interval.hash_not_compatible",
    "Verif.Interval.printed_partial",
    "Verif.Interval.printed_not_correct",
    "Verif.Interval.withAll_partial",
    "Verif.Interval.withAll_single_fails",
    "Verif.Interval.withAll_fraction_wrong",
    "Verif.Interval.withAll_constant_wrong"
   ],
   "note": "copyFrom:to: is proved in full. reverse fails for empty Intervals; = is right for two or more elements and refuted for one; hash, printing with a stop that is not an element, and withAll: for one element, equal elements or fractional distances are refuted."
  },
  {
   "property": "C65",
   "status": "partial",
   "theorems": [
    "Verif.RunArray.asRunArray_holds",
    "Verif.RunArray.asRunArray_empty_fails",
    "Verif.RunArray.do_correct",
    "Verif.RunArray.first_last_correct",
    "Verif.RunArray.at_correct",
    "Verif.RunArray.reads_correct",
    "Verif.RunArray.eq_correct",
    "Verif.RunArray.removeAtIndex_partial",
    "Verif.RunArray.remove_only_fails",
    "Verif.RunArray.eq_after_removal_not_correct"
   ],
   "note": "Reading and comparing proved for all nonempty lists. Refuted: the empty list cannot be converted, the last element cannot be removed, and after a removal equal lists can compare different."
  },
  {
   "property": "C66",
   "status": "partial",
   "theorems": [
    "Verif.RunArray.atPut_do_partial",
    "Verif.RunArray.atPut_not_correct",
    "Verif.RunArray.atPut_read_not_correct",
    "Verif.RunArray.addLast_empty_fails",
    "Verif.RunArray.addLast_not_correct",
    "Verif.RunArray.addLast_read_not_correct",
    "Verif.RunArray.addFirst_not_correct",
    "Verif.RunArray.indexOf_not_correct"
   ],
   "note": "Refuted for every operation. What is proved: at:put: of an equal element changes nothing, and at:put: away from the first place of a run gives do: the right list."
  },
  {
   "property": "C67",
   "status": "proved",
   "theorems": [
    "Verif.GC.marks_exactly_live"
   ],
   "note": "For every closed object graph, whenever the mark phase ends."
  },
  {
   "property": "C68",
   "status": "partial",
   "theorems": [
    "Verif.GC.mark_terminates_partial",
    "Verif.GC.mutual_keys_never_end",
    "Verif.GC.small_key_crashes"
   ],
   "note": "Proved when no ephemeron is the key of an ephemeron and no key is a SmallInteger; both conditions are necessary: two ephemerons keyed by each other recurse for ever, a SmallInteger key is followed as a pointer."
  },
  {
   "property": "C69",
   "status": "partial",
   "theorems": [
    "Verif.GC.mourned_partial",
    "Verif.GC.lonely_key_mourned_partial",
    "Verif.GC.value_of_other_mourned",
    "Verif.GC.shared_key_mourned_once",
    "Verif.GC.key_of_two_mourned"
   ],
   "note": "Proved when no ephemeron is a key: mourned at most once, only if the key is not reachable outside ephemerons, and always if the key is reachable through its slot alone. Refuted in general: a key that is the value of a live ephemeron, a key shared by two ephemerons, an ephemeron that is the key of two others."
  },
  {
   "property": "C70",
   "status": "proved",
   "theorems": [
    "Verif.GC.weak_slots",
    "Verif.GC.weak_mourned",
    "Verif.GC.no_dangling"
   ],
   "note": "For every closed object graph, whenever the mark phase ends."
  },
  {
   "property": "C71",
   "status": "partial",
   "theorems": [
    "Verif.GC.Table.objects_kept_partial",
    "Verif.GC.Table.alloc_fresh_partial",
    "Verif.GC.Table.alloc_reuses_object"
   ],
   "note": "Proved for all runs in which no sweep step stops exactly at the end of the region. The full claim is false: after such a step the allocator hands out entries of live objects (alloc_reuses_object exhibits the run)."
  },
  {
   "property": "C72",
   "status": "partial",
   "theorems": [
    "Verif.GC.Table.finish_frees_partial",
    "Verif.GC.Table.step_frees_partial",
    "Verif.GC.Table.sweep_ends",
    "Verif.GC.Table.collection_ends_partial"
   ],
   "note": "Same restriction on runs as C71; that the sweep ends is proved from any state."
  },
  {
   "property": "C73",
   "status": "partial",
   "theorems": [
    "Verif.GC.Table.become_exchanges_partial",
    "Verif.GC.Table.become_names_partial",
    "Verif.GC.Table.become_loses_weakness"
   ],
   "note": "Proved for all states except weakness, which is lost in every state."
  },
  {
   "property": "C74",
   "status": "partial",
   "theorems": [
    "Verif.Stream.read_stream_runs",
    "Verif.Stream.read_range_runs",
    "Verif.Stream.read_limit_runs_partial",
    "Verif.Stream.write_streams_run_partial",
    "Verif.Stream.rw_upTo_runs_partial",
    "Verif.Stream.upTo_past_limit",
    "Verif.Stream.upTo_finds_truncated"
   ],
   "note": "All messages for ReadStream on: and on:from:to: with a copy; all messages but upTo: for the writable streams; upTo: as well if the stream is never truncated. Refuted: upTo: looks past the end of the stream in the buffer, and signals an error if it finds the element there."
  },
  {
   "property": "C75",
   "status": "proved",
   "theorems": [
    "Verif.Stream.written_is_contents",
    "Verif.Stream.copy_rest"
   ],
   "note": ""
  },
  {
   "property": "C76",
   "status": "partial",
   "theorems": [
    "Verif.Stream.readStream_of_read",
    "Verif.Stream.readStream_at_end_partial",
    "Verif.Stream.reverse_contents_partial",
    "Verif.Stream.copyFrom_partial",
    "Verif.Stream.copyFrom_past_end",
    "Verif.Stream.rw_readStream_wrong",
    "Verif.Stream.reverse_contents_fails",
    "Verif.Stream.rw_limit_ignored",
    "Verif.Stream.rw_limit_wrong",
    "Verif.Stream.reset_does_not_truncate"
   ],
   "note": "Proved for ReadStream and for writable streams at their end. Refuted: a ReadWriteStream not at its end answers a readStream cut at the position and signals an error for reverseContents; ReadWriteStream on:from:to: ignores the upper limit; reset does not truncate; copyFrom:to: answers elements beyond the end."
  },
  {
   "property": "C77",
   "status": "partial",
   "theorems": [
    "Verif.Stream.skipToAll_sound_partial",
    "Verif.Stream.upToAll_sound_partial",
    "Verif.Stream.skipToAll_first_partial",
    "Verif.Stream.upToAll_first_partial",
    "Verif.Stream.table_is_trivial",
    "Verif.Stream.skipToAll_misses",
    "Verif.Stream.skipToAll_one_fails"
   ],
   "note": "What is found is an occurrence; the first one is found if the first element of the sequence does not come again in it. Refuted otherwise: the failure table is the same for every sequence (table_is_trivial), so 'aab' is not found in 'aaab'; a sequence of one element is an error."
  },
  {
   "property": "C78",
   "status": "partial",
   "theorems": [
    "Verif.Stream.lines_of_text",
    "Verif.Stream.splitAt_partial",
    "Verif.Stream.splitAt_drops_last"
   ],
   "note": "Lines in full. Splitting up to the empty part after a final separator, which is not answered."
  },
  {
   "property": "C79",
   "status": "proved",
   "theorems": [
    "Verif.Mpz.canon_exists",
    "Verif.Mpz.canon_unique",
    "Verif.Mpz.reload"
   ],
   "note": ""
  },
  {
   "property": "C80",
   "status": "proved",
   "theorems": [
    "Verif.Mpz.comparisons"
   ],
   "note": ""
  },
  {
   "property": "C81",
   "status": "proved",
   "theorems": [
    "Verif.Mpz.plus_ok",
    "Verif.Mpz.minus_ok",
    "Verif.Mpz.times_ok",
    "Verif.Mpz.negated_ok",
    "Verif.Mpz.bitInvert_ok",
    "Verif.Mpz.not_integer"
   ],
   "note": "GMP's mpn layer is assumed to do what its manual says."
  },
  {
   "property": "C82",
   "status": "proved",
   "theorems": [
    "Verif.Mpz.bitAnd_ok",
    "Verif.Mpz.bitOr_ok",
    "Verif.Mpz.bitXor_ok",
    "Verif.Mpz.bitInvert_bits",
    "Verif.Mpz.eq_of_bits"
   ],
   "note": "eq_of_bits: the bits determine the number, so the statement fixes the answer."
  },
  {
   "property": "C83",
   "status": "partial",
   "theorems": [
    "Verif.Mpz.bitShift_value",
    "Verif.Mpz.bitShift_partial",
    "Verif.Mpz.bitShift_refuted",
    "Verif.Mpz.bitShift_count_refuted"
   ],
   "note": "The value for every receiver and counts of less than 2^31; it is the claimed one for left shifts, receivers that are not negative and exact divisions. Refuted: negative receivers are rounded towards zero; the count is cut to 32 bits."
  },
  {
   "property": "C84",
   "status": "proved",
   "theorems": [
    "Verif.Mpz.quo_rem_ok",
    "Verif.Mpz.zero_divide"
   ],
   "note": ""
  },
  {
   "property": "C85",
   "status": "partial",
   "theorems": [
    "Verif.Mpz.floor_partial",
    "Verif.Mpz.floor_large",
    "Verif.Mpz.floor_refuted",
    "Verif.Mpz.zero_divide"
   ],
   "note": "Refuted for exact divisions by a large divisor of the other sign: the quotient is one too small and the remainder is the divisor (floor_large says so for every such pair)."
  },
  {
   "property": "C86",
   "status": "partial",
   "theorems": [
    "Verif.Mpz.gcd_partial",
    "Verif.Mpz.gcd_refuted",
    "Verif.Mpz.divExact_ok"
   ],
   "note": "Refuted: the gcd of 0 and a negative number is negative."
  },
  {
   "property": "C87",
   "status": "partial",
   "theorems": [
    "Verif.Mpz.asFloatD_exact",
    "Verif.Mpz.asFloatD_partial",
    "Verif.Mpz.rnd_nearest",
    "Verif.Mpz.asFloatD_refuted",
    "Verif.Mpz.asFloatD_zero"
   ],
   "note": "Exact values at any size; nearest for numbers of one limb. Refuted for two limbs: the low limb is rounded before it is added. A LargeZeroInteger makes the primitive read before the digits."
  },
  {
   "property": "C88",
   "status": "partial",
   "theorems": [
    "Verif.Unwind.ensure_evaluated_partial",
    "Verif.Unwind.ensure_all_evaluated_partial",
    "Verif.Unwind.ensure_lost_in_cleanup",
    "Verif.Unwind.ensure_lost_by_dead_return"
   ],
   "note": "For all runs in which an exit made while another is in progress does not stop at a method the other is leaving, and no block of a method that has returned is the receiver of ensure: and returns from it. Refuted otherwise, once for each condition."
  },
  {
   "property": "C89",
   "status": "proved",
   "theorems": [
    "Verif.Unwind.continue_delivers",
    "Verif.Unwind.exit_delivers",
    "Verif.Unwind.exit_delivers_plain",
    "Verif.Unwind.dead_exit_reported",
    "Verif.Unwind.answers_ret",
    "Verif.Unwind.answers_ensure",
    "Verif.Unwind.ensure_answers"
   ],
   "note": "For chains in which no other exit is in progress."
  },
  {
   "property": "C90",
   "status": "partial",
   "theorems": [
    "Verif.Unwind.retry_cleans_up_late"
   ],
   "note": "Refuted: the block is evaluated first, on top of the failed attempt, whose ensure: calls are left afterwards."
  },
  {
   "property": "C91",
   "status": "partial",
   "theorems": [
    "Verif.Handlers.select_best",
    "Verif.Handlers.search_innermost",
    "Verif.Handlers.goodness_partial",
    "Verif.Handlers.goodness_deep"
   ],
   "note": "For classes with less than 100000 superclasses; refuted beyond (goodness_deep)."
  },
  {
   "property": "C92",
   "status": "partial",
   "theorems": [
    "Verif.Handlers.signal_handler_partial",
    "Verif.Handlers.inner_handler_seen",
    "Verif.Handlers.sibling_handler_seen",
    "Verif.Handlers.return_reinstates_running"
   ],
   "note": "If the handler found is one that should be visible it is the right one, and if none is found there is none, in all runs without return: and the like in which this was so before. Refuted: handlers inside the selected on:do: and other handlers of the same on:do: are found."
  },
  {
   "property": "C93",
   "status": "partial",
   "theorems": [
    "Verif.Handlers.disabled_iff_running_partial",
    "Verif.Handlers.handler_left_disabled",
    "Verif.Handlers.return_reinstates_running"
   ],
   "note": "For runs without return:, retry, retryUsing: and resignalAs: in which the handlers found are the ones that should be visible. Refuted in both directions."
  },
  {
   "property": "C94",
   "status": "partial",
   "theorems": [
    "Verif.Handlers.resume_restores_partial",
    "Verif.Handlers.resume_at_once"
   ],
   "note": "A handler that resumes at once: in full. Otherwise under the same conditions as C93."
  },
  {
   "property": "C95",
   "status": "partial",
   "theorems": [
    "Verif.Compiler.method_answers",
    "Verif.Compiler.method_means",
    "Verif.Compiler.block_means",
    "Verif.Compiler.method_safe",
    "Verif.Compiler.block_safe"
   ],
   "note": "For trees after name lookup, without cascades to super, when tests of non-Booleans do not come back, and without the loop sizes of C96; with them refuted (timesRepeat_wrong, toDo_wrong)."
  },
  {
   "property": "C96",
   "status": "partial",
   "theorems": [
    "Verif.Compiler.timesRepeat_wrong",
    "Verif.Compiler.toDo_wrong",
    "Verif.Compiler.method_means",
    "Verif.Compiler.jumpLens_times",
    "Verif.Compiler.jumpLens_to"
   ],
   "note": "while and repeat in full up to 16 megabytes (method_means); timesRepeat: and to:do: except for four sizes each, for which the jumps are wrong."
  },
  {
   "property": "C97",
   "status": "partial",
   "theorems": [
    "Verif.Compiler.method_room_partial",
    "Verif.Compiler.block_room_partial",
    "Verif.Compiler.count_method",
    "Verif.Compiler.count_block",
    "Verif.Compiler.nested_loops_overflow"
   ],
   "note": "For to:do: loops nested at most four levels deep; refuted for six."
  },
  {
   "property": "C98",
   "status": "partial",
   "theorems": [
    "Verif.Compiler.Scope.lexical_partial",
    "Verif.Compiler.Scope.loop_variable_readonly",
    "Verif.Compiler.Scope.duplicate_refused",
    "Verif.Compiler.Scope.limit_captured"
   ],
   "note": "The limit of a to:do: loop must not mention the name of the loop variable; refuted otherwise."
  },
  {
   "property": "C99",
   "status": "partial",
   "theorems": [
    "Verif.Compiler.Scope.slots_apart_iff",
    "Verif.Compiler.Scope.many_loops_overlap"
   ],
   "note": "Exactly up to 63 temporaries and loops; refuted for 64."
  },
  {
   "property": "C100",
   "status": "partial",
   "theorems": [
    "Verif.Scavenge.scavenge_ends",
    "Verif.Scavenge.nothing_lost_partial",
    "Verif.Scavenge.nothing_extra",
    "Verif.Scavenge.old_stays",
    "Verif.Scavenge.long_list_lost",
    "Verif.Scavenge.stale_scan_lost",
    "Verif.Scavenge.ephemeron_class_lost",
    "Verif.Scavenge.too_large_never_ends"
   ],
   "note": "Proved when no more objects survive than the tenuring queue has entries and the classes of ephemerons are old; refuted otherwise by three heaps in which an object in use is lost. Page protection during tenuring and reads through stale pointers are not modelled."
  },
  {
   "property": "C101",
   "status": "proved",
   "theorems": [
    "Verif.Scavenge.survivors_apart",
    "Verif.Scavenge.tenured_only_for_room"
   ],
   "note": "Under the same bound on the number of survivors."
  },
  {
   "property": "C102",
   "status": "partial",
   "theorems": [
    "Verif.Scavenge.mourned_if",
    "Verif.Scavenge.mourned_only_if_partial",
    "Verif.Scavenge.mourned_once",
    "Verif.Scavenge.mourned_in_use",
    "Verif.Scavenge.mourning_depends_on_order"
   ],
   "note": "The second half needs that the survivors fit in the survivor space, refuted otherwise; with several ephemerons the order of the roots decides."
  },
  {
   "property": "C103",
   "status": "proved",
   "theorems": [
    "Verif.Scavenge.pages_remembered"
   ],
   "note": "For the pages on the list when the scavenge starts."
  },
  {
   "property": "C104",
   "status": "proved",
   "theorems": [
    "Verif.Parser.read_complete",
    "Verif.Parser.code_read_complete",
    "Verif.Parser.unambiguous",
    "Verif.Parser.code_unambiguous",
    "Verif.Parser.precedence",
    "Verif.Parser.left_to_right",
    "Verif.Parser.cascade_receiver",
    "Verif.Parser.final_dot"
   ],
   "note": "Over tokens as the lexer delivers them; recovery after an error and the bang-separated and class-body syntaxes are not modelled."
  },
  {
   "property": "C105",
   "status": "partial",
   "theorems": [
    "Verif.Parser.read_sound",
    "Verif.Parser.read_exact_partial",
    "Verif.Parser.code_exact_partial",
    "Verif.Parser.unclosed_read",
    "Verif.Parser.code_point_wraps",
    "Verif.Parser.char_before_int"
   ],
   "note": "Exact when all brackets are closed and code points are below 2^31; refuted otherwise: an unclosed literal array makes a statement disappear, $<4294967361> is read as $A."
  },
  {
   "property": "C106",
   "status": "proved",
   "theorems": [
    "Verif.Parser.read_ends",
    "Verif.Parser.read_progress"
   ],
   "note": "Recovery after an error is not modelled."
  },
  {
   "property": "C107",
   "status": "proved",
   "theorems": [
    "Verif.Lexer.lex_ends",
    "Verif.Lexer.step_shorter",
    "Verif.Lexer.white_separates",
    "Verif.Lexer.comment_separates",
    "Verif.Lexer.bracket_separates"
   ],
   "note": "Streams that are not interactive; the #! of a first line is left out."
  },
  {
   "property": "C108",
   "status": "partial",
   "theorems": [
    "Verif.Lexer.int_read_partial",
    "Verif.Lexer.largeBytes_spec",
    "Verif.Lexer.negateLarge_spec",
    "Verif.Lexer.negative_radix_wrong"
   ],
   "note": "Refuted for a sign after the radix: numbers from -3·2^62 to -2^62-1 become SmallIntegers out of range."
  },
  {
   "property": "C109",
   "status": "partial",
   "theorems": [
    "Verif.Lexer.decimal_reads_back",
    "Verif.Lexer.radix_reads_back_partial",
    "Verif.Lexer.radix_reads_back_wrong",
    "Verif.Lexer.store_min_wrong"
   ],
   "note": "Decimal text always has the right digits, but -2^62 comes back as a LargeNegativeInteger; with a radix the same numbers as in C108 fail."
  },
  {
   "property": "C110",
   "status": "partial",
   "theorems": [
    "Verif.Lexer.name_read",
    "Verif.Lexer.scale_letter_read",
    "Verif.Lexer.exponent_letter_lost",
    "Verif.Lexer.dot_digit_wrong"
   ],
   "note": "Refuted for the letters e, d, q (123def loses its d) and for a dot between a name and a digit or dollar."
  },
  {
   "property": "C111",
   "status": "proved",
   "theorems": [
    "Verif.Lexer.float_read",
    "Verif.Lexer.float_exp_read",
    "Verif.Lexer.float_minus_read"
   ],
   "note": "The rounding to the precision of the machine is not modelled."
  },
  {
   "property": "C112",
   "status": "partial",
   "theorems": [
    "Verif.Lexer.string_read_partial",
    "Verif.Lexer.string_nul_wrong"
   ],
   "note": "Refuted for strings with a NUL, which are cut there."
  },
  {
   "property": "C113",
   "status": "partial",
   "theorems": [
    "Verif.Lexer.text_exact_partial",
    "Verif.Lexer.operators_short",
    "Verif.Lexer.marks_read",
    "Verif.Lexer.operator_read"
   ],
   "note": "As C105: brackets closed, code points below 2^31."
  },
  {
   "property": "C114",
   "status": "partial",
   "theorems": [
    "Verif.Lexer.store_reads_back_partial",
    "Verif.Lexer.store_injective",
    "Verif.Lexer.store_lt_wrong",
    "Verif.Lexer.store_min_wrong",
    "Verif.Lexer.store_chr_wrong",
    "Verif.Lexer.store_empty_wrong",
    "Verif.Lexer.store_nul_wrong"
   ],
   "note": "Holds but for five kinds of objects, each refuted: $< before a SmallInteger, the smallest SmallInteger, Characters above 127, the empty symbol, strings with a NUL."
  },
  {
   "property": "C115",
   "status": "partial",
   "theorems": [
    "Verif.Save.load_save_partial",
    "Verif.Save.wrong_order_crash",
    "Verif.Save.double_wrong",
    "Verif.Save.loaded_flag_kept",
    "Verif.Save.lnot_always",
    "Verif.Save.invert_invert"
   ],
   "note": "Holds for the objects as they are written (C117), but for loading at the old address, mapped, an image of the other byte order, which crashes; elements wider than a byte keep their bytes and so change their value on a machine of the other order; the mark for mapped objects is kept in a saved image."
  },
  {
   "property": "C116",
   "status": "partial",
   "theorems": [
    "Verif.Save.waiting_saved_partial",
    "Verif.Save.subclass_list_lost"
   ],
   "note": "Refuted for instances of subclasses of Semaphore and Process."
  },
  {
   "property": "C117",
   "status": "proved",
   "theorems": [
    "Verif.Save.session_forgotten",
    "Verif.Save.fixup_keeps"
   ],
   "note": "Processes and Semaphores differ only in their links, see C116."
  },
  {
   "property": "C118",
   "status": "proved",
   "theorems": [
    "Verif.Save.save_complete",
    "Verif.Save.save_succeeds",
    "Verif.Save.buffer_fits",
    "Verif.Save.failed_save_loses_old"
   ],
   "note": "The image that was there before is removed first and is lost if saving fails."
  },
  {
   "property": "C119",
   "status": "proved",
   "theorems": [
    "Verif.Save.read_exact",
    "Verif.Save.short_file_unnoticed"
   ],
   "note": "Files that are not mapped; a file that ends too early is not noticed."
  },
  {
   "property": "C120",
   "status": "partial",
   "theorems": [
    "Verif.Symbols.intern_again",
    "Verif.Symbols.intern_text_partial",
    "Verif.Symbols.intern_differ_partial",
    "Verif.Symbols.nul_text_wrong"
   ],
   "note": "The identity holds for all strings; text and difference for strings without NUL, refuted for others."
  },
  {
   "property": "C121",
   "status": "partial",
   "theorems": [
    "Verif.Symbols.has_interned_partial",
    "Verif.Symbols.empty_bucket_wrong",
    "Verif.Symbols.nul_text_wrong"
   ],
   "note": "Refuted where no symbol is in the bucket of the string (an error instead of false) and for strings with NUL."
  },
  {
   "property": "C122",
   "status": "proved",
   "theorems": [
    "Verif.Symbols.vm_symbols",
    "Verif.Symbols.builtin_found",
    "Verif.Symbols.names_nodup",
    "Verif.Symbols.names_plain"
   ],
   "note": "Loading an image finds them again by interning; the shortcut of intern_string_fast is not modelled."
  },
  {
   "property": "C123",
   "status": "proved",
   "theorems": [
    "Verif.Symbols.selector_args",
    "Verif.Symbols.args_differ"
   ],
   "note": "Selectors as the lexer reads them; symbols that are no selectors may differ."
  },
  {
   "property": "C124",
   "status": "partial",
   "theorems": [
    "Verif.Dumper.round_trip_partial",
    "Verif.Dumper.dumped_objects_load_partial",
    "Verif.Dumper.loaded_unique"
   ],
   "note": "For integers of 32 bits, symbols without NUL, the shapes of ShapeOk, objects without proxies and less than 2^31 registrations; C126 and C127 show what goes wrong otherwise. Root namespaces, preStore, postStore and postLoad are not modelled."
  },
  {
   "property": "C125",
   "status": "partial",
   "theorems": [
    "Verif.Dumper.dumping_ends",
    "Verif.Dumper.dumping_succeeds_partial"
   ],
   "note": "That it ends is proved for all graphs; that it succeeds for the objects of C124."
  },
  {
   "property": "C126",
   "status": "partial",
   "theorems": [
    "Verif.Dumper.wide_integers_change",
    "Verif.Dumper.symbols_with_nul_change",
    "Verif.Dumper.round_trip_partial",
    "Verif.Dumper.getLong_any"
   ],
   "note": "Refuted for every SmallInteger beyond 32 bits and every symbol with a NUL; the others are in C124."
  },
  {
   "property": "C127",
   "status": "partial",
   "theorems": [
    "Verif.Dumper.uint_not_dumped",
    "Verif.Dumper.int8_not_loaded",
    "Verif.Dumper.int64_not_loaded",
    "Verif.Dumper.double_not_loaded",
    "Verif.Dumper.disabled_proxy_shifts",
    "Verif.Dumper.disabled_proxy_twice",
    "Verif.Dumper.round_trip_partial"
   ],
   "note": "Refuted for the shapes uint, int8, int64 and double and for disabled proxies; the other shapes are in C124."
  },
  {
   "property": "C128",
   "status": "partial",
   "theorems": [
    "Verif.Utf.utf7_round_trip_partial",
    "Verif.Utf.utf7_injective_partial",
    "Verif.Utf.surrogates_do_not_come_back"
   ],
   "note": "For all strings of characters that are not surrogates; the code makes characters of surrogates too, and those do not come back."
  },
  {
   "property": "C129",
   "status": "proved",
   "theorems": [
    "Verif.Utf.utf7_is_safe"
   ],
   "note": ""
  },
  {
   "property": "C130",
   "status": "partial",
   "theorems": [
    "Verif.Utf.cut_text_partial",
    "Verif.Utf.truncated_text_is_accepted"
   ],
   "note": "Never misread: proved for all texts. Always reported: refuted."
  },
  {
   "property": "C131",
   "status": "proved",
   "theorems": [
    "Verif.Utf.utf32_round_trip"
   ],
   "note": ""
  },
  {
   "property": "C132",
   "status": "proved",
   "theorems": [
    "Verif.Waits.critical_excludes"
   ],
   "note": ""
  },
  {
   "property": "C133",
   "status": "partial",
   "theorems": [
    "Verif.Waits.lock_not_lost_partial",
    "Verif.Waits.termination_loses_lock",
    "Verif.Waits.interrupt_loses_lock"
   ],
   "note": "Refuted for a termination at one moment and for interrupts of waiting processes; proved for the rest."
  },
  {
   "property": "C134",
   "status": "partial",
   "theorems": [
    "Verif.Waits.block_evaluated_partial",
    "Verif.Waits.resumed_skips_block"
   ],
   "note": "Proved when nobody disturbs the waiting process; refuted for resumed processes."
  },
  {
   "property": "C135",
   "status": "proved",
   "theorems": [
    "Verif.Waits.recursion_lock_excludes"
   ],
   "note": ""
  },
  {
   "property": "C136",
   "status": "proved",
   "theorems": [
    "Verif.Waits.nested_locks"
   ],
   "note": ""
  },
  {
   "property": "C137",
   "status": "proved",
   "theorems": [
    "Verif.Waits.would_block"
   ],
   "note": ""
  },
  {
   "property": "C138",
   "status": "partial",
   "theorems": [
    "Verif.Waits.Shared.shared_queue_partial",
    "Verif.Waits.Shared.shared_queue_fifo_partial",
    "Verif.Waits.Shared.peek_partial",
    "Verif.Waits.Shared.resumed_fails"
   ],
   "note": "Without processes that are resumed or terminated while they wait, for which it is refuted."
  },
  {
   "property": "C139",
   "status": "partial",
   "theorems": [
    "Verif.Waits.Shared.shared_queue_sorted_partial"
   ],
   "note": "Without processes that are resumed or terminated while they wait."
  },
  {
   "property": "C140",
   "status": "partial",
   "theorems": [
    "Verif.Waits.Shared.nobody_waits_in_vain_partial",
    "Verif.Waits.Shared.terminated_loses"
   ],
   "note": "Without processes that are resumed or terminated while they wait, for which it is refuted."
  },
  {
   "property": "C141",
   "status": "partial",
   "theorems": [
    "Verif.Waits.Delay.not_too_early_partial",
    "Verif.Waits.Delay.terminated_then_early"
   ],
   "note": "Refuted when an earlier user of the same delay was terminated before it had made the request; proved otherwise."
  },
  {
   "property": "C142",
   "status": "partial",
   "theorems": [
    "Verif.Waits.Delay.not_too_late_partial",
    "Verif.Waits.Delay.timeout_lost",
    "Verif.Waits.Delay.nil_waits"
   ],
   "note": "Refuted when the timer fires between the test and wait; proved otherwise."
  },
  {
   "property": "C143",
   "status": "partial",
   "theorems": [
    "Verif.Waits.Delay.equal_delays_partial",
    "Verif.Waits.Delay.equal_hash_differs",
    "Verif.Waits.Delay.equal_not_symmetric"
   ],
   "note": "Proved for delays not in use of one kind; refuted for others."
  },
  {
   "property": "C144",
   "status": "partial",
   "theorems": [
    "Verif.Digest.md5_messages_partial",
    "Verif.Digest.md5_digestOf",
    "Verif.Digest.md5_twice"
   ],
   "note": "Proved for elements of one byte and strings below 2^31 bytes, with digest sent last; refuted for digest sent twice."
  },
  {
   "property": "C145",
   "status": "partial",
   "theorems": [
    "Verif.Digest.sha1_messages_partial",
    "Verif.Digest.sha1_digestOf",
    "Verif.Digest.sha1_twice"
   ],
   "note": "As C144."
  },
  {
   "property": "C146",
   "status": "proved",
   "theorems": [
    "Verif.Digest.hex_eq",
    "Verif.Digest.specHex_injective",
    "Verif.Digest.specHex_digits",
    "Verif.Digest.md5_length",
    "Verif.Digest.sha1_length"
   ],
   "note": ""
  },
  {
   "property": "C147",
   "status": "partial",
   "theorems": [
    "Verif.Digest.unicode_collides",
    "Verif.Digest.md5_messages_partial",
    "Verif.Digest.sha1_messages_partial"
   ],
   "note": "Refuted for Unicode strings; for elements of one byte the text is the whole collection."
  },
  {
   "property": "C148",
   "status": "proved",
   "theorems": [
    "Verif.Digest.MD5.tableT_sine",
    "Verif.Digest.MD5.block_spec"
   ],
   "note": ""
  },
  {
   "property": "C149",
   "status": "partial",
   "theorems": [
    "Verif.Files.stream_is_file_partial"
   ],
   "note": "For sequences where position: is sent between reading and writing and no position is beyond the end when reading; false for others (C152, C153)."
  },
  {
   "property": "C150",
   "status": "proved",
   "theorems": [
    "Verif.Files.written_is_read",
    "Verif.Files.flushed_is_stored_partial"
   ],
   "note": "written_is_read has no restriction; flushed_is_stored_partial is for the sequences of C149."
  },
  {
   "property": "C151",
   "status": "partial",
   "theorems": [
    "Verif.Files.bufferSize_hidden_partial"
   ],
   "note": "As C149."
  },
  {
   "property": "C152",
   "status": "partial",
   "theorems": [
    "Verif.Files.write_after_read_never",
    "Verif.Files.stream_is_file_partial"
   ],
   "note": "Refuted for every file and buffer of two bytes or more; holds if position: is sent in between or all was read."
  },
  {
   "property": "C153",
   "status": "partial",
   "theorems": [
    "Verif.Files.flush_moves",
    "Verif.Files.truncate_elsewhere",
    "Verif.Files.atEnd_after_write",
    "Verif.Files.skip_not_to_end",
    "Verif.Files.next_beyond_end",
    "Verif.Files.upTo_beyond_never",
    "Verif.Files.copy_beyond_end",
    "Verif.Files.negative_position",
    "Verif.Files.stream_is_file_partial"
   ],
   "note": "Each part is refuted; holds for the sequences of C149."
  },
  {
   "property": "C154",
   "status": "partial",
   "theorems": [
    "Verif.Floats.printed_near_partial",
    "Verif.Floats.printed_tenth"
   ],
   "note": "False for powers of ten where the point slips one place (printed_tenth: 1e-4 as FloatE prints 0.00001); proved for all others."
  },
  {
   "property": "C155",
   "status": "proved",
   "theorems": [
    "Verif.Floats.exact_prints"
   ],
   "note": "For texts without exponent, or with letter e (C157)."
  },
  {
   "property": "C156",
   "status": "partial",
   "theorems": [
    "Verif.Floats.decimal_prints_partial",
    "Verif.Floats.floatD_decimal_prints",
    "Verif.Floats.big_decimal_differs",
    "Verif.Floats.printed_tenth"
   ],
   "note": "Proved outright for FloatD without exponent (floatD_decimal_prints); for other precisions below 2^p except powers of ten; false above (1e34)."
  },
  {
   "property": "C157",
   "status": "partial",
   "theorems": [
    "Verif.Floats.exponent_lost",
    "Verif.Floats.printed_near_partial"
   ],
   "note": "Refuted for every FloatD and FloatQ that prints with exponent; holds for FloatE."
  },
  {
   "property": "C158",
   "status": "partial",
   "theorems": [
    "Verif.Floats.denormal_nearest_partial",
    "Verif.Floats.not_nearest"
   ],
   "note": "Proved for denormal Floats; false in general."
  },
  {
   "property": "C159",
   "status": "proved",
   "theorems": [
    "Verif.Floats.read_exact",
    "Verif.Floats.read_exact_exponent"
   ],
   "note": ""
  },
  {
   "property": "C160",
   "status": "proved",
   "theorems": [
    "Verif.Strings.first_occurrence"
   ],
   "note": ""
  },
  {
   "property": "C161",
   "status": "proved",
   "theorems": [
    "Verif.Strings.replace_all",
    "Verif.Strings.replace_same",
    "Verif.Strings.replace_range",
    "Verif.Strings.replace_empty_never"
   ],
   "note": "For non-empty collections looked for; with an empty one it never ends (replace_empty_never)."
  },
  {
   "property": "C162",
   "status": "proved",
   "theorems": [
    "Verif.Strings.words_between",
    "Verif.Strings.joined",
    "Verif.Strings.join_words",
    "Verif.Strings.trimmed"
   ],
   "note": ""
  },
  {
   "property": "C163",
   "status": "proved",
   "theorems": [
    "Verif.Strings.match_iff",
    "Verif.Strings.match_lower_iff",
    "Verif.Strings.search_match"
   ],
   "note": ""
  },
  {
   "property": "C164",
   "status": "proved",
   "theorems": [
    "Verif.Strings.template_answer",
    "Verif.Strings.template_lone"
   ],
   "note": ""
  },
  {
   "property": "C165",
   "status": "partial",
   "theorems": [
    "Verif.Strings.shell_word_partial",
    "Verif.Strings.shell_words_differ"
   ],
   "note": "Proved for non-empty texts without tabs and newlines; false for each of these (shell_words_differ)."
  },
  {
   "property": "C166",
   "status": "proved",
   "theorems": [
    "Verif.Strings.integer_read",
    "Verif.Strings.integer_none"
   ],
   "note": ""
  },
  {
   "property": "C167",
   "status": "partial",
   "theorems": [
    "Verif.Strings.up_to_all_partial",
    "Verif.Strings.up_to_all_misses"
   ],
   "note": "Proved when the first item does not come again in what is looked for; false otherwise, and an error for one item."
  },
  {
   "property": "C168",
   "status": "partial",
   "theorems": [
    "Verif.Url.encoded_text",
    "Verif.Url.lower_escape_fails"
   ],
   "note": "The round trip is proved for all Strings; escapes with lower case digits are errors wherever they are (lower_escape_fails)."
  },
  {
   "property": "C169",
   "status": "partial",
   "theorems": [
    "Verif.Url.print_read_partial",
    "Verif.Url.print_read_fails"
   ],
   "note": "Proved for URLs with a scheme and a host whose parts do not hold characters that end them; false for URLs without scheme and without path (print_read_fails)."
  },
  {
   "property": "C170",
   "status": "partial",
   "theorems": [
    "Verif.Url.read_returns_partial",
    "Verif.Url.read_never"
   ],
   "note": "Proved when nothing before the query ends in an at sign; never comes back for each scheme://user@ (read_never)."
  },
  {
   "property": "C171",
   "status": "partial",
   "theorems": [
    "Verif.Url.path_normal",
    "Verif.Url.path_absolute",
    "Verif.Url.path_again",
    "Verif.Url.path_relative",
    "Verif.Url.path_differs"
   ],
   "note": "Proved but for the slash that RFC 3986 keeps after a final dot component and for dots at the end of the base (path_differs)."
  },
  {
   "property": "C172",
   "status": "partial",
   "theorems": [
    "Verif.Url.equal_never",
    "Verif.Url.equal_self",
    "Verif.Url.equal_case"
   ],
   "note": "False: no two URLs are found to be equal, and comparing a URL with itself is an error."
  },
  {
   "property": "C173",
   "status": "partial",
   "theorems": [
    "Verif.Url.fields_read",
    "Verif.Url.fields_fail"
   ],
   "note": "Proved for keys of plain characters and non-empty values; keys are not decoded, empty values become nil and keys without a value that come again are an error (fields_fail)."
  },
  {
   "property": "C174",
   "status": "partial",
   "theorems": [
    "Verif.Url.news_nil",
    "Verif.Url.news_drops"
   ],
   "note": "False: nil for all nntp URLs, and the first character of the group is lost for news URLs."
  },
  {
   "property": "C175",
   "status": "partial",
   "theorems": [
    "Verif.Reals.near_partial",
    "Verif.Reals.nearest_fails"
   ],
   "note": "Proved: within 0.5005 units of the last place. Not always the nearest: the long double in between rounds twice (nearest_fails). Numbers out of range are not modelled."
  },
  {
   "property": "C176",
   "status": "proved",
   "theorems": [
    "Verif.Reals.exact"
   ],
   "note": "For all literals with up to 2^64 digits and exponent steps."
  },
  {
   "property": "C177",
   "status": "partial",
   "theorems": [
    "Verif.Reals.exponent_partial",
    "Verif.Reals.exponent_wraps"
   ],
   "note": "Proved below 2^31; from there the exponent wraps: 1e4294967296 is 1."
  },
  {
   "property": "C178",
   "status": "proved",
   "theorems": [
    "Verif.Paths.full_name",
    "Verif.Paths.full_again",
    "Verif.Paths.full_updown",
    "Verif.Paths.full_relative"
   ],
   "note": "On Unix; the empty name is an error."
  },
  {
   "property": "C179",
   "status": "partial",
   "theorems": [
    "Verif.Paths.extension_found",
    "Verif.Paths.extension_none",
    "Verif.Paths.extension_back",
    "Verif.Paths.extension_same",
    "Verif.Paths.extension_parent"
   ],
   "note": "Proved but for names that are left improper: '..' is stripped to '.', which is another directory (extension_parent)."
  },
  {
   "property": "C180",
   "status": "partial",
   "theorems": [
    "Verif.Paths.parts_plain",
    "Verif.Paths.parts_split",
    "Verif.Paths.append_parts",
    "Verif.Paths.strip_back",
    "Verif.Paths.append_back_partial",
    "Verif.Paths.append_back_fails"
   ],
   "note": "Proved for names that do not end in a separator; the parts of one that does cannot be put together (append_back_fails)."
  },
  {
   "property": "C181",
   "status": "partial",
   "theorems": [
    "Verif.Paths.path_from_partial",
    "Verif.Paths.path_from_fails"
   ],
   "note": "Proved but for the root: from a file in the root to the root the path is empty, which is no name, and from the root there is an error (path_from_fails)."
  },
  {
   "property": "C182",
   "status": "partial",
   "theorems": [
    "Verif.Rects.areas_partial",
    "Verif.Rects.areas_fails"
   ],
   "note": "Proved for rectangles that overlap; for all that do not, intersect: answers nil, which does not understand area (areas_fails)."
  },
  {
   "property": "C183",
   "status": "partial",
   "theorems": [
    "Verif.Rects.intersects_iff",
    "Verif.Rects.contains_partial",
    "Verif.Rects.contains_self_fails",
    "Verif.Rects.normalize_fails"
   ],
   "note": "Proved for intersects: and intersect:; no rectangle contains itself (contains_self_fails), because its corner is not in it. The private normalize reverses rectangles (normalize_fails)."
  },
  {
   "property": "C184",
   "status": "partial",
   "theorems": [
    "Verif.Rects.merge_partial",
    "Verif.Rects.merge_fails",
    "Verif.Rects.within_partial",
    "Verif.Rects.within_fails",
    "Verif.Rects.expand_inset"
   ],
   "note": "merge: for rectangles that are not empty (merge_fails otherwise); translatedToBeWithin: if the receiver is not larger; larger ones extend beyond, and ones at the lower right edge are moved although they are within (within_fails)."
  },
  {
   "property": "C185",
   "status": "partial",
   "theorems": [
    "Verif.Rects.step_partial",
    "Verif.Rects.steps_partial",
    "Verif.Rects.corner_shares"
   ],
   "note": "Proved for all messages but corner:, which does not copy its argument: r corner: r origin makes r's width stay 0 (corner_shares)."
  },
  {
   "property": "C186",
   "status": "proved",
   "theorems": [
    "Verif.Pools.shared_order"
   ],
   "note": "For graphs in which the chains of superspaces end."
  },
  {
   "property": "C187",
   "status": "partial",
   "theorems": [
    "Verif.Pools.order_partial",
    "Verif.Pools.own_first_partial",
    "Verif.Pools.order_fails",
    "Verif.Pools.reexported_fails"
   ],
   "note": "Proved if namespaces that a class shares with its superclass import nothing. Otherwise what they import comes before them (order_fails): in a class whose superclass is in the same namespace, an imported variable hides that of the namespace. Against the comment in the source, subclasses elsewhere also see what the namespace of their superclass imports (reexported_fails)."
  },
  {
   "property": "C188",
   "status": "partial",
   "theorems": [
    "Verif.Pools.enumerated",
    "Verif.Pools.same_order_partial",
    "Verif.Pools.order_fails"
   ],
   "note": "The enumeration is in the documented order for all classes whose imports do not lead back to their own namespaces (enumerated); the compiler's is the same under the condition of C187 and not otherwise (order_fails)."
  },
  {
   "property": "C189",
   "status": "partial",
   "theorems": [
    "Verif.Getopt.command_line_partial",
    "Verif.Getopt.one_meaning",
    "Verif.Getopt.newline_fails"
   ],
   "note": "Proved for arguments that do not start with a minus and a new line; these are taken as names of files (newline_fails). The meaning of a command line is the relation Line."
  },
  {
   "property": "C190",
   "status": "proved",
   "theorems": [
    "Verif.Getopt.full_names",
    "Verif.Getopt.full_one"
   ],
   "note": "For patterns that use no name twice."
  },
  {
   "property": "C191",
   "status": "partial",
   "theorems": [
    "Verif.Getopt.names_partial",
    "Verif.Getopt.twice_fails",
    "Verif.Getopt.minus_fails"
   ],
   "note": "Names used twice are mostly not reported because includes: asks for values, not keys (twice_fails); -ab declares --b (minus_fails)."
  },
  {
   "property": "C192",
   "status": "partial",
   "theorems": [
    "Verif.Links.lists_partial",
    "Verif.Links.step_spec",
    "Verif.Links.enumerate",
    "Verif.Links.twice_fails",
    "Verif.Links.next_fails",
    "Verif.Links.nil_fails"
   ],
   "note": "Proved for links that are in no list and have no next link when they are added, and for removal of any link, also of one that is in another list. Links that are added twice make the list endless or entangle two lists (twice_fails), links with a next one bring it along (next_fails), remove: nil is not understood (nil_fails)."
  },
  {
   "property": "C193",
   "status": "partial",
   "theorems": [
    "Verif.Callout.documented_partial",
    "Verif.Callout.refused",
    "Verif.Callout.subclass_fails",
    "Verif.Callout.names"
   ],
   "note": "The whole table is proved, with what is accepted besides it. Instances of subclasses of String and UnicodeString are refused, for #unknown too (subclass_fails)."
  },
  {
   "property": "C194",
   "status": "partial",
   "theorems": [
    "Verif.Callout.call_partial",
    "Verif.Callout.variadic_fails"
   ],
   "note": "Proved when there are arguments for all types and Arrays for #variadic; a SmallInteger for #variadic is used as an address before it is checked (variadic_fails)."
  },
  {
   "property": "C195",
   "status": "partial",
   "theorems": [
    "Verif.Callout.freed_partial",
    "Verif.Callout.leak_fails",
    "Verif.Callout.written_back",
    "Verif.Callout.buffers"
   ],
   "note": "Copies for #unknown, #self and #variadic are not freed unless another type asks for it (leak_fails). Buffers of wide strings are always too small (buffers); the others are large enough."
  },
  {
   "property": "C196",
   "status": "partial",
   "theorems": [
    "Verif.Callout.interface_partial",
    "Verif.Callout.stale_fails"
   ],
   "note": "Proved for types that fix the type of the parameter. With #unknown or #self the interface is that of an earlier call (stale_fails)."
  },
  {
   "property": "C197",
   "status": "partial",
   "theorems": [
    "Verif.Callout.returned",
    "Verif.Callout.passed_partial",
    "Verif.Callout.range_fails",
    "Verif.Callout.float_fails",
    "Verif.Callout.longDouble_fails",
    "Verif.Callout.answers_partial"
   ],
   "note": "Integers outside of the range are passed with another value (range_fails); results of type #float are read as a double (float_fails); #longDouble is refused as a type of result (longDouble_fails)."
  },
  {
   "property": "C198",
   "status": "proved",
   "theorems": [
    "Verif.PtrSet.sets",
    "Verif.PtrSet.null_found"
   ],
   "note": "NULL is excluded, as documented: it is found in every set (null_found). Memory is not exhausted."
  },
  {
   "property": "C199",
   "status": "proved",
   "theorems": [
    "Verif.PtrSet.maps"
   ],
   "note": "The place of a value is used before the next insertion, as libgst/cint.c does: growth frees it."
  },
  {
   "property": "C200",
   "status": "partial",
   "theorems": [
    "Verif.StreamOps.elements_partial",
    "Verif.StreamOps.each_do",
    "Verif.StreamOps.with_fails",
    "Verif.StreamOps.lost_fails"
   ],
   "note": "with: is not understood by streams without position, such as those made with select: (with_fails); an element of the longer stream is lost (lost_fails). Everything else is proved for all nestings."
  },
  {
   "property": "C201",
   "status": "partial",
   "theorems": [
    "Verif.StreamOps.peeks",
    "Verif.StreamOps.peekFor_partial",
    "Verif.StreamOps.collect_fails",
    "Verif.StreamOps.each_fails",
    "Verif.StreamOps.identity_fails",
    "Verif.StreamOps.peek_fails"
   ],
   "note": "peekFor: always fails after collect: (collect_fails) and fails after with: when it should answer true (each_fails); after select: it compares identity (identity_fails); peek signals EndOfStream (peek_fails)."
  },
  {
   "property": "C202",
   "status": "partial",
   "theorems": [
    "Verif.StreamOps.positions",
    "Verif.StreamOps.position",
    "Verif.StreamOps.position_fails"
   ],
   "note": "position is proved; position: cannot go back into a part that was left (position_fails)."
  },
  {
   "property": "C203",
   "status": "partial",
   "theorems": [
    "Verif.StreamOps.contents_partial",
    "Verif.StreamOps.kept",
    "Verif.StreamOps.contents_fails"
   ],
   "note": "Proved if the class is known and the elements fit in it; an exhausted concatenation has the class of nil (contents_fails)."
  },
  {
   "property": "C204",
   "status": "proved",
   "theorems": [
    "Verif.Random.tempered",
    "Verif.Random.twister",
    "Verif.Random.twister_of"
   ],
   "note": "The specification is the recurrence of Matsumoto and Nishimura with its companion matrix."
  },
  {
   "property": "C205",
   "status": "partial",
   "theorems": [
    "Verif.Random.seeds_partial",
    "Verif.Random.alive_partial",
    "Verif.Random.twins_fails",
    "Verif.Random.large_fails",
    "Verif.Random.standard_fails"
   ],
   "note": "Proved for seeds of 32 bits that differ by more than their last bit; the last bit does not count (twins_fails), seed 2^60 + 2^30 + 1 gives only zeros (large_fails), and the published numbers do not come out (standard_fails)."
  },
  {
   "property": "C206",
   "status": "partial",
   "theorems": [
    "Verif.Random.unit_partial",
    "Verif.Random.one_iff",
    "Verif.Random.one_fails"
   ],
   "note": "1 is not excluded: it is the 104th number for the seed 72414182 (one_fails)."
  },
  {
   "property": "C207",
   "status": "partial",
   "theorems": [
    "Verif.Random.between_partial",
    "Verif.Random.between_eq",
    "Verif.Random.uniform",
    "Verif.Random.temper_inj",
    "Verif.Random.wide_fails",
    "Verif.Random.wide_lost",
    "Verif.Random.empty_fails"
   ],
   "note": "Proved for intervals of 1 to 2^32 - 1 numbers; larger ones are refused (wide_fails) and an empty one may be answered from (empty_fails)."
  },
  {
   "property": "C208",
   "status": "proved",
   "theorems": [
    "Verif.Mapped.elements_eq",
    "Verif.Mapped.size_eq",
    "Verif.Mapped.atPut_at",
    "Verif.Mapped.atPut_iff",
    "Verif.Mapped.copy_eq",
    "Verif.Mapped.atAll_seq",
    "Verif.Mapped.atAll_dict"
   ],
   "note": "Errors are an outcome; a Dictionary holds each key once."
  },
  {
   "property": "C209",
   "status": "partial",
   "theorems": [
    "Verif.Mapped.keysAndValues_partial",
    "Verif.Mapped.keysDo_partial",
    "Verif.Mapped.keysDo_fails",
    "Verif.Mapped.keysAndValues_fails",
    "Verif.Mapped.named_fails"
   ],
   "note": "keysAndValuesDo: takes the indices for the keys: it is right only when they are the same (keysAndValues_fails, named_fails); keysDo: needs a Dictionary (keysDo_fails)."
  },
  {
   "property": "C210",
   "status": "partial",
   "theorems": [
    "Verif.Mapped.select_partial",
    "Verif.Mapped.collect_partial",
    "Verif.Mapped.select_fails",
    "Verif.Mapped.collect_fails",
    "Verif.Mapped.names_fails"
   ],
   "note": "The indices are mapped twice: right only when the map leaves them where they are, or for collect: when the domain is not larger than the map."
  },
  {
   "property": "C211",
   "status": "partial",
   "theorems": [
    "Verif.ProcVars.isolated",
    "Verif.ProcVars.others",
    "Verif.ProcVars.put_value",
    "Verif.ProcVars.remove_value",
    "Verif.ProcVars.ifAbsentPut_value",
    "Verif.ProcVars.asked",
    "Verif.ProcVars.equal_fails"
   ],
   "note": "Proved except that keys are compared by identity, unlike what the comment of key: suggests (equal_fails)."
  },
  {
   "property": "C212",
   "status": "partial",
   "theorems": [
    "Verif.ProcVars.inside",
    "Verif.ProcVars.restored_partial",
    "Verif.ProcVars.dynamic_partial",
    "Verif.ProcVars.restored_fails"
   ],
   "note": "The value is restored; a variable that was absent is nil afterwards and no longer absent (restored_fails)."
  },
  {
   "property": "C213",
   "status": "partial",
   "theorems": [
    "Verif.ProcVars.default_partial",
    "Verif.ProcVars.default_fails"
   ],
   "note": "The block is ignored (default_fails)."
  },
  {
   "property": "C214",
   "status": "proved",
   "theorems": [
    "Verif.CStruct.struct_layout",
    "Verif.CStruct.struct_fields",
    "Verif.CStruct.good",
    "Verif.CStruct.alignTo_first"
   ],
   "note": "Proved for sizes and alignments as given by the classes of scalars on x86-64."
  },
  {
   "property": "C215",
   "status": "partial",
   "theorems": [
    "Verif.CStruct.union_offsets",
    "Verif.CStruct.union_partial",
    "Verif.CStruct.union_fails",
    "Verif.CStruct.overflow_fails",
    "Verif.CStruct.inherited_fails"
   ],
   "note": "The size is that of the last field, not of the largest one: instances are allocated too small."
  },
  {
   "property": "C216",
   "status": "partial",
   "theorems": [
    "Verif.CStruct.distance_partial",
    "Verif.CStruct.plus_plus",
    "Verif.CStruct.elements",
    "Verif.CStruct.distance_fails"
   ],
   "note": "Holds except that pointers to structures without fields cannot be subtracted. The comment of - says bytes; elements are what is answered."
  },
  {
   "property": "C217",
   "status": "partial",
   "theorems": [
    "Verif.Packages.order_partial",
    "Verif.Packages.loading_partial",
    "Verif.Packages.order_fails",
    "Verif.Packages.provided_fails"
   ],
   "note": "Holds if no package provides features besides itself; otherwise packages may be loaded before what provides their prerequisites (order_fails), or not at all (provided_fails)."
  },
  {
   "property": "C218",
   "status": "partial",
   "theorems": [
    "Verif.Packages.complete_partial",
    "Verif.Packages.missing_partial",
    "Verif.Packages.asked_fails"
   ],
   "note": "Holds if no package provides features besides itself, for requests without duplicates."
  },
  {
   "property": "C219",
   "status": "partial",
   "theorems": [
    "Verif.Packages.ends_partial",
    "Verif.Packages.circular_fails"
   ],
   "note": "Ends if prerequisites are not circular; never for packages that need each other (circular_fails)."
  },
  {
   "property": "C220",
   "status": "proved",
   "theorems": [
    "Verif.Generator.stream"
   ],
   "note": "Proved for blocks that do not signal exceptions and do not use their own generator except by yield:."
  },
  {
   "property": "C221",
   "status": "proved",
   "theorems": [
    "Verif.Generator.lazily",
    "Verif.Generator.counted_trace",
    "Verif.Generator.inject_nth",
    "Verif.Generator.onDo_nth"
   ],
   "note": "Proved for the same blocks."
  },
  {
   "property": "C222",
   "status": "partial",
   "theorems": [
    "Verif.Generator.value_again",
    "Verif.Generator.oneShot_once",
    "Verif.Generator.arguments_partial",
    "Verif.Generator.argument_fails",
    "Verif.Generator.arguments_fails"
   ],
   "note": "valueWithArguments: refuses one argument and accepts more than one."
  },
  {
   "property": "C223",
   "status": "proved",
   "theorems": [
    "Verif.Reshape.kept",
    "Verif.Reshape.kept_below",
    "Verif.Reshape.kept_above",
    "Verif.Reshape.fresh",
    "Verif.Reshape.shape_kept"
   ],
   "note": "Proved for a superclass and a shape that do not change."
  },
  {
   "property": "C224",
   "status": "partial",
   "theorems": [
    "Verif.Reshape.bound_partial",
    "Verif.Reshape.below_partial",
    "Verif.Reshape.add_partial",
    "Verif.Reshape.hidden_fails",
    "Verif.Reshape.below_fails",
    "Verif.Reshape.again_fails"
   ],
   "note": "Holds for names that are distinct; variables that are repeated or hide others leave methods that use the wrong ones."
  },
  {
   "property": "C225",
   "status": "partial",
   "theorems": [
    "Verif.Reshape.remove_partial",
    "Verif.Reshape.remove_absent",
    "Verif.Reshape.remove_fails"
   ],
   "note": "Holds for variables of the class itself; inherited ones are removed too, which damages instances (remove_fails)."
  },
  {
   "property": "C226",
   "status": "proved",
   "theorems": [
    "Verif.Enums.detect_first",
    "Verif.Enums.any_first",
    "Verif.Enums.all_first",
    "Verif.Enums.none_first",
    "Verif.Enums.count_true",
    "Verif.Enums.inject_foldl",
    "Verif.Enums.fold_inject",
    "Verif.Enums.seqFold_fold",
    "Verif.Enums.sepBy_events",
    "Verif.Enums.seqSepBy_events"
   ],
   "note": "For blocks that do not change the collection."
  },
  {
   "property": "C227",
   "status": "partial",
   "theorems": [
    "Verif.Enums.includes_iff",
    "Verif.Enums.includesAny_iff",
    "Verif.Enums.includesAll_partial",
    "Verif.Enums.includesAll_fails",
    "Verif.Enums.occurrences_partial",
    "Verif.Enums.occurrences_fails"
   ],
   "note": "includesAllOf: has receiver and argument exchanged; occurrencesOf: counts identical elements, not equal ones."
  },
  {
   "property": "C228",
   "status": "partial",
   "theorems": [
    "Verif.Enums.such_partial",
    "Verif.Enums.such_fails",
    "Verif.Enums.remove_first",
    "Verif.Enums.without"
   ],
   "note": "Holds for blocks that do not tell equal elements apart; else the wrong element is removed (such_fails)."
  },
  {
   "property": "C229",
   "status": "proved",
   "theorems": [
    "Verif.Bag.equal",
    "Verif.Bag.distinct",
    "Verif.Bag.sorted",
    "Verif.Bag.occurrences",
    "Verif.Bag.included",
    "Verif.Bag.enumerated",
    "Verif.Bag.good_after"
   ],
   "note": ""
  },
  {
   "property": "C230",
   "status": "partial",
   "theorems": [
    "Verif.Bag.store_partial",
    "Verif.Bag.store_fails"
   ],
   "note": "Only the text of an empty Bag is accepted; every other one has `;; yourself`."
  },
  {
   "property": "C231",
   "status": "partial",
   "theorems": [
    "Verif.Spell.computed_partial",
    "Verif.Spell.never_more_partial",
    "Verif.Spell.exact_partial",
    "Verif.Spell.similarity_fails"
   ],
   "note": "computed_partial says exactly what is computed: any even number of characters at the beginning of the receiver is dropped for free.  It is the least cost when the receiver has at most one character."
  },
  {
   "property": "C232",
   "status": "partial",
   "theorems": [
    "Verif.Spell.equal_zero",
    "Verif.Spell.never_positive",
    "Verif.Spell.zero_partial",
    "Verif.Spell.zero_fails"
   ],
   "note": "Equal strings have similarity 0; so have a string and what is left of it without an even number of characters at its beginning."
  },
  {
   "property": "C233",
   "status": "proved",
   "theorems": [
    "Verif.Ntop.best_run",
    "Verif.Ntop.round_trip",
    "Verif.Ntop.different",
    "Verif.Ntop.mapped"
   ],
   "note": "Numbers are tokens: the characters written by sprintf are not modelled.  best_run is checked for all the 256 sets of words that are zero, which are all the cases there are."
  },
  {
   "property": "C234",
   "status": "partial",
   "theorems": [
    "Verif.Ntop.tmp_fits",
    "Verif.Ntop.tmp4_fits",
    "Verif.Ntop.copy6_fits",
    "Verif.Ntop.copy4_partial",
    "Verif.Ntop.copy4_fails"
   ],
   "note": "Holds for IPv6; for IPv4 a buffer with just as many bytes as the text has characters is overrun by the final zero."
  },
  {
   "property": "C235",
   "status": "partial",
   "theorems": [
    "Verif.Weak.at_partial",
    "Verif.Weak.alive_partial",
    "Verif.Weak.do_partial",
    "Verif.Weak.alive_fails"
   ],
   "note": "Holds for histories in which atAll:put: has only valid indices; with a wrong index it changes the marks of the places before it, and stores nothing in them.  deepCopy and postLoad are not modelled."
  },
  {
   "property": "C236",
   "status": "partial",
   "theorems": [
    "Verif.Strtoul.read_partial",
    "Verif.Strtoul.hex_partial",
    "Verif.Strtoul.octal_partial",
    "Verif.Strtoul.decimal_partial",
    "Verif.Strtoul.reported",
    "Verif.Strtoul.greatest_fails"
   ],
   "note": "Exact for numbers below 2^64 - base^2; numbers that do not fit are always reported, but so is ULONG_MAX itself, and the answer then is not ULONG_MAX.  In base 16 without 0x: for texts that do not begin with 0."
  },
  {
   "property": "C237",
   "status": "partial",
   "theorems": [
    "Verif.Strtoul.read_partial",
    "Verif.Strtoul.hex_partial",
    "Verif.Strtoul.octal_partial",
    "Verif.Strtoul.decimal_partial",
    "Verif.Strtoul.tail_fails"
   ],
   "note": "In base 16 the text 0 alone is not taken for a number."
  }
 ]
}