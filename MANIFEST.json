{
 "claims": [
  {
   "property": "C01",
   "status": "proved",
   "theorems": [
    "Verif.Heap.C01_safe_and_terminating"
   ],
   "note": "model of allocate/callocate/deallocate/constructor with checked memory accesses; the callback body is outside the model; threads are treated in C129 and C130"
  },
  {
   "property": "C02",
   "status": "proved",
   "theorems": [
    "Verif.Heap.C02_inside_and_aligned"
   ],
   "note": ""
  },
  {
   "property": "C03",
   "status": "proved",
   "theorems": [
    "Verif.Heap.C03_disjoint"
   ],
   "note": ""
  },
  {
   "property": "C04",
   "status": "proved",
   "theorems": [
    "Verif.Heap.C04_contents_preserved"
   ],
   "note": ""
  },
  {
   "property": "C05",
   "status": "proved",
   "theorems": [
    "Verif.Heap.C05_free_size_exact"
   ],
   "note": ""
  },
  {
   "property": "C06",
   "status": "proved",
   "theorems": [
    "Verif.Heap.C06_all_freed_restores"
   ],
   "note": ""
  },
  {
   "property": "C07",
   "status": "proved",
   "theorems": [
    "Verif.Heap.C07_low_water_mark"
   ],
   "note": ""
  },
  {
   "property": "C08",
   "status": "proved",
   "theorems": [
    "Verif.Heap.C08_bad_requests_fail"
   ],
   "note": ""
  },
  {
   "property": "C09",
   "status": "proved",
   "theorems": [
    "Verif.Heap.C09_callback"
   ],
   "note": "callocate whose product overflows returns nullptr without invoking the callback (C11 shows the heap is unchanged)"
  },
  {
   "property": "C10",
   "status": "proved",
   "theorems": [
    "Verif.Heap.C10_first_fit"
   ],
   "note": ""
  },
  {
   "property": "C11",
   "status": "proved",
   "theorems": [
    "Verif.Heap.C11_callocate"
   ],
   "note": ""
  },
  {
   "property": "C12",
   "status": "proved",
   "theorems": [
    "Verif.Heap.C12_double_free"
   ],
   "note": ""
  },
  {
   "property": "C13",
   "status": "proved",
   "theorems": [
    "Verif.Heap.C13_alloc_free_identity"
   ],
   "note": ""
  },
  {
   "property": "C14",
   "status": "proved",
   "theorems": [
    "Verif.Heap.C14_free_monotone"
   ],
   "note": ""
  },
  {
   "property": "C15",
   "status": "proved",
   "theorems": [
    "Verif.Heap.C15_address_independent"
   ],
   "note": ""
  },
  {
   "property": "C16",
   "status": "proved",
   "theorems": [
    "Verif.Heap.C16_tiny_heap",
    "Verif.Heap.C16_below_16_is_ub"
   ],
   "note": "below 16 usable bytes the constructor writes outside the buffer (C16_below_16_is_ub)"
  },
  {
   "property": "C17",
   "status": "partial",
   "theorems": [
    "Verif.Heap.C17_statistics_partial",
    "Verif.Heap.C17_smallest_wrong"
   ],
   "note": "the function cannot be instantiated as written (undeclared macro); modelled as if it named heap_protect_block_pointer; smallest size is wrong when all free blocks exceed 4 GiB - 1"
  },
  {
   "property": "C18",
   "status": "partial",
   "theorems": [
    "Verif.Heap.C18_enough_or_throws_partial",
    "Verif.Heap.C18_throws_iff",
    "Verif.Heap.C18_overflow_refuted"
   ],
   "note": "exactly when it throws proved for all requests; enough room false when n*sizeof(T) overflows size_t; refuted there, proved otherwise"
  },
  {
   "property": "C19",
   "status": "partial",
   "theorems": [
    "Verif.Heap.C19_interchangeable_partial",
    "Verif.Heap.C19_comparison",
    "Verif.Heap.C19_copies_unequal"
   ],
   "note": "operator== is object identity, so copies compare unequal: that clause is refuted"
  },
  {
   "property": "C20",
   "status": "proved",
   "theorems": [
    "Verif.Data.C20_swap"
   ],
   "note": ""
  },
  {
   "property": "C21",
   "status": "proved",
   "theorems": [
    "Verif.Data.C21_read_back"
   ],
   "note": ""
  },
  {
   "property": "C22",
   "status": "partial",
   "theorems": [
    "Verif.Data.C22_layout_partial",
    "Verif.Data.C22_refuted",
    "Verif.Data.C22_big_endian_reversed"
   ],
   "note": "proved for little-endian hosts; false on big-endian hosts because is_lsb() is true everywhere"
  },
  {
   "property": "C23",
   "status": "proved",
   "theorems": [
    "Verif.Data.C23_compare"
   ],
   "note": ""
  },
  {
   "property": "C24",
   "status": "proved",
   "theorems": [
    "Verif.Data.C24_data",
    "Verif.Packet.Pad.C24_any_type"
   ],
   "note": "C24_any_type: with padding and with bit patterns that are no value"
  },
  {
   "property": "C25",
   "status": "proved",
   "theorems": [
    "Verif.Packet.C25_round_trip",
    "Verif.Packet.Pad.C25_any_type"
   ],
   "note": "C25_any_type: header and fields with padding; the const accessors, crc() and deserialize(array) do not compile when instantiated and are outside the model"
  },
  {
   "property": "C26",
   "status": "proved",
   "theorems": [
    "Verif.Packet.C26_validity"
   ],
   "note": ""
  },
  {
   "property": "C27",
   "status": "partial",
   "theorems": [
    "Verif.Packet.C27_encoders_agree_partial",
    "Verif.Packet.Pad.C128_unpadded_partial",
    "Verif.Packet.Pad.C128_padding_refuted"
   ],
   "note": "proved for headers and fields without padding; false otherwise, since static serialize(h,f) copies the members twice"
  },
  {
   "property": "C28",
   "status": "partial",
   "theorems": [
    "Verif.Packet.C28_capacity_partial",
    "Verif.Packet.C28_wrap_refuted"
   ],
   "note": "false when size*sizeof(Type) wraps std::size_t with a null data pointer; proved otherwise"
  },
  {
   "property": "C29",
   "status": "proved",
   "theorems": [
    "Verif.Packet.C29_round_trip",
    "Verif.Packet.Pad.C29_any_type"
   ],
   "note": "C29_any_type: header and fields with padding; for the use of the returned element pointer see C138"
  },
  {
   "property": "C30",
   "status": "partial",
   "theorems": [
    "Verif.Packet.C30_memory_safe_partial",
    "Verif.Packet.C30_short_refuted",
    "Verif.Packet.C30_long_refuted",
    "Verif.Packet.C30_short_valid_refuted"
   ],
   "note": "proved for sizes between the fixed length and the capacity, with the exact UB condition for all sizes; false outside that range"
  },
  {
   "property": "C31",
   "status": "proved",
   "theorems": [
    "Verif.Packet.C31_accessor_validity",
    "Verif.Packet.C31_received"
   ],
   "note": ""
  },
  {
   "property": "C32",
   "status": "proved",
   "theorems": [
    "Verif.Observer.C32_ordered_set"
   ],
   "note": ""
  },
  {
   "property": "C33",
   "status": "proved",
   "theorems": [
    "Verif.Observer.C33_notify_each_once",
    "Verif.Observer.Seen.C33_seen"
   ],
   "note": ""
  },
  {
   "property": "C34",
   "status": "proved",
   "theorems": [
    "Verif.Observer.C34_recursion_detected"
   ],
   "note": ""
  },
  {
   "property": "C35",
   "status": "proved",
   "theorems": [
    "Verif.Observer.C35_memory_safe"
   ],
   "note": "observers are assumed to outlive their registration"
  },
  {
   "property": "C36",
   "status": "partial",
   "theorems": [
    "Verif.Observer.C36_calls_partial",
    "Verif.Observer.C36_front_partial",
    "Verif.Observer.C36_once_partial",
    "Verif.Observer.C36_last_may_remove_partial",
    "Verif.Observer.C36_skipped_refuted",
    "Verif.Observer.C36_called_twice_refuted",
    "Verif.Observer.C36_called_after_removal_refuted"
   ],
   "note": "for any callbacks: the number of calls is exact, and an observer is notified exactly once unless it or an observer registered before it is removed during the visit; in order and completely when only the last observer removes; false in general: observers behind a removed one are skipped, called twice or called after removal"
  },
  {
   "property": "C37",
   "status": "proved",
   "theorems": [
    "Verif.Observer.C37_added_next_time"
   ],
   "note": ""
  },
  {
   "property": "C38",
   "status": "partial",
   "theorems": [
    "Verif.Observer.C38_clear_partial",
    "Verif.Observer.C38_front_partial",
    "Verif.Observer.C38_unsubscribing_refuted"
   ],
   "note": "proved when disconnect callbacks make no calls, and for any callbacks for the observers before the first removed one; false for those behind it"
  },
  {
   "property": "C39",
   "status": "partial",
   "theorems": [
    "Verif.Observer.Dyn.C39_ordered_set_partial",
    "Verif.Observer.World.Unb.C142_rounds",
    "Verif.Observer.World.Unb.C142_reports",
    "Verif.Observer.Cb.C89_subscribe_refuted",
    "Verif.Observer.Cb.C89_unsubscribe_refuted"
   ],
   "note": "proved for callbacks that make no calls, and (C142) for all callbacks in all runs that meet nothing undefined; false for callbacks that subscribe or unsubscribe during a visit, which is undefined; exceptions from callbacks: C105"
  },
  {
   "property": "C40",
   "status": "partial",
   "theorems": [
    "Verif.Observer.Conc.C40_linearizable_partial",
    "Verif.Observer.Conc.C40_unlocked_refuted"
   ],
   "note": "proved for builds in which PTHREAD_MUTEX_DEFAULT is a macro; elsewhere (glibc: it is an enumerator) the mutex is compiled out and the claim is false"
  },
  {
   "property": "C41",
   "status": "partial",
   "theorems": [
    "Verif.Observer.Conc.C41_blocks_forever_partial",
    "Verif.Observer.Conc.C41_unlocked_refuted"
   ],
   "note": "as C40"
  },
  {
   "property": "C42",
   "status": "proved",
   "theorems": [
    "Verif.Observer.CompileTime.C42_notifies_all"
   ],
   "note": ""
  },
  {
   "property": "C43",
   "status": "partial",
   "theorems": [
    "Verif.Values.C43_assign_partial",
    "Verif.Values.C43_functions",
    "Verif.Values.C43_dynamic",
    "Verif.Values.C43_dynamic_refuted"
   ],
   "note": "proved for the fixed-capacity object after every history and for the dynamic one when no registered observer was removed; for the dynamic one after any history every registered observer holds the value and is told at least once; that it is told exactly once and the others not at all is false there because dynamic removal is broken; on_update functions that call back are treated in C85-C87, C92 and C93"
  },
  {
   "property": "C44",
   "status": "partial",
   "theorems": [
    "Verif.Values.C44_track_partial",
    "Verif.Values.C44_dynamic",
    "Verif.Values.C44_others",
    "Verif.Values.C44_refuted"
   ],
   "note": "proved for =, +=, -= and prefix ++ on every integral type, for both variants and after every history; false for postfix ++/-- (old value sent) and prefix -- (old value plus one returned and sent)"
  },
  {
   "property": "C45",
   "status": "partial",
   "theorems": [
    "Verif.Values.C45_undefined_iff_partial",
    "Verif.Values.C45_refuted"
   ],
   "note": "the exact condition for undefined behaviour is proved for every integral type; the claim itself is false"
  },
  {
   "property": "C46",
   "status": "proved",
   "theorems": [
    "Verif.Values.C46_stays_removed"
   ],
   "note": ""
  },
  {
   "property": "C47",
   "status": "partial",
   "theorems": [
    "Verif.Values.C47_removal_partial",
    "Verif.Values.C47_refuted",
    "Verif.Values.C47_exact",
    "Verif.Values.C47_silent_iff",
    "Verif.Values.C47_never_shorter",
    "Verif.Values.C47_last_stays"
   ],
   "note": "the claim is false: a removal leaves as many entries behind as it takes away; what every update tells is proved exactly for all histories, and so is when a removal silences its observer; without clear_observers the vector never gets shorter, and the last entry cannot be removed"
  },
  {
   "property": "C48",
   "status": "partial",
   "theorems": [
    "Verif.Values.Conc.C48_in_step_partial",
    "Verif.Values.Conc.C48_some_update",
    "Verif.Values.Conc.C48_refuted"
   ],
   "note": "proved when updates do not overlap; false for overlapping updates; in general each observer ends with the value of some update"
  },
  {
   "property": "C49",
   "status": "proved",
   "theorems": [
    "Verif.Mediator.C49_delivery",
    "Verif.Mediator.C49_every_message",
    "Verif.Mediator.C49_collision_refuted"
   ],
   "note": "for distinct type hashes, as the property says; C49_collision_refuted shows what happens otherwise; callbacks may send from anywhere but not create or destroy modules; the manager's hook does not write the buffer"
  },
  {
   "property": "C50",
   "status": "proved",
   "theorems": [
    "Verif.Mediator.C50_intact",
    "Verif.Mediator.C50_size",
    "Verif.Mediator.C50_convert"
   ],
   "note": ""
  },
  {
   "property": "C51",
   "status": "proved",
   "theorems": [
    "Verif.Mediator.C51_broadcast"
   ],
   "note": ""
  },
  {
   "property": "C52",
   "status": "partial",
   "theorems": [
    "Verif.Mediator.C52_registration_partial",
    "Verif.Mediator.C52_one_more",
    "Verif.Mediator.C52_refuted"
   ],
   "note": "proved while a place is free when a module is destroyed; false for a full manager: remove_module writes past the array"
  },
  {
   "property": "C53",
   "status": "proved",
   "theorems": [
    "Verif.Mediator.C53_hook_first"
   ],
   "note": ""
  },
  {
   "property": "C54",
   "status": "partial",
   "theorems": [
    "Verif.Pipeline.C54_counted_partial",
    "Verif.Pipeline.C54_wrap_refuted"
   ],
   "note": "proved for fewer than 2^64 pushes; false at 2^64 (the counters wrap)"
  },
  {
   "property": "C55",
   "status": "partial",
   "theorems": [
    "Verif.Pipeline.C55_first_lap_partial",
    "Verif.Pipeline.C55_tame_partial",
    "Verif.Pipeline.C55_stale_refuted",
    "Verif.Pipeline.C55_overwritten_refuted"
   ],
   "note": "proved while there were no more pushes than slots, and for undivided pushes that never overrun the worker; false otherwise: items are lost, repeated or replaced by stale ones"
  },
  {
   "property": "C56",
   "status": "proved",
   "theorems": [
    "Verif.Pipeline.C56_only_pushed"
   ],
   "note": "handlers that push are treated in C98"
  },
  {
   "property": "C57",
   "status": "partial",
   "theorems": [
    "Verif.Pipeline.C57_drains_partial",
    "Verif.Pipeline.C57_overflow_refuted"
   ],
   "note": "proved for at most 214748364 pushes and short handler calls; false in general: the statistics overflow int (undefined)"
  },
  {
   "property": "C58",
   "status": "partial",
   "theorems": [
    "Verif.Pipeline.C58_window_partial",
    "Verif.Pipeline.C58_sample",
    "Verif.Pipeline.C58_overflow_refuted"
   ],
   "note": "proved whenever the sums fit into int; otherwise undefined"
  },
  {
   "property": "C59",
   "status": "partial",
   "theorems": [
    "Verif.Pipeline.Pool.C59_counted_partial",
    "Verif.Pipeline.Pool.C59_exactly_once_partial",
    "Verif.Pipeline.Pool.C59_calm_partial",
    "Verif.Pipeline.Pool.C59_fewer_refuted",
    "Verif.Pipeline.Pool.C59_more_refuted",
    "Verif.Pipeline.Pool.C59_overrun_refuted"
   ],
   "note": "proved for PoolSize = 8 and at most BufferSize items in each queue, or any number of undivided pushes that never overrun a worker; false for every other PoolSize, and otherwise for queues that wrap around"
  },
  {
   "property": "C60",
   "status": "partial",
   "theorems": [
    "Verif.Pipeline.Pool.C60_choice",
    "Verif.Pipeline.Pool.C60_minimal_partial",
    "Verif.Pipeline.Pool.C60_scan_refuted",
    "Verif.Pipeline.Pool.C60_long_refuted"
   ],
   "note": "for every schedule the choice is the lowest-numbered minimum of the sizes read; these are the backlogs if nothing moves during the scan; false for concurrent scans and for backlogs of 2^31-1 and more"
  },
  {
   "property": "C77",
   "status": "partial",
   "theorems": [
    "Verif.Pipeline.C77_handover_partial",
    "Verif.Pipeline.C77_refuted",
    "Verif.Pipeline.HB.C77_last_refuted",
    "Verif.Pipeline.HB.C77_deaf_refuted",
    "Verif.Pipeline.HB.C77_late_partial",
    "Verif.Pipeline.HB.C77_accesses",
    "Verif.Pipeline.HB.C77_depends"
   ],
   "note": "the hand-over read does not overlap with a push for undivided pushes without overrun, but the look at the slot does; with happens-before: no execution without a data race handles the item pushed last before the next push or destruction (handlers that do not wait for other threads; what they tell others does not matter); free of races if the worker starts only after the one pushing thread has begun destruction"
  },
  {
   "property": "C61",
   "status": "proved",
   "theorems": [
    "Verif.Interval.C61_no_call_after_stop"
   ],
   "note": "any number of threads calling stop()"
  },
  {
   "property": "C62",
   "status": "partial",
   "theorems": [
    "Verif.Interval.C62_returns_partial",
    "Verif.Interval.C62_again",
    "Verif.Interval.C62_overlap_refuted"
   ],
   "note": "proved for calls of stop() that do not overlap; a call that overlaps another one may block forever"
  },
  {
   "property": "C63",
   "status": "partial",
   "theorems": [
    "Verif.Interval.C63_rate_limited_partial",
    "Verif.Interval.C63_catches_up_partial",
    "Verif.Interval.C63_undefined_iff"
   ],
   "note": "for executions without overflow of the 64-bit nanosecond arithmetic; C63_undefined_iff says when that is undefined"
  },
  {
   "property": "C64",
   "status": "partial",
   "theorems": [
    "Verif.Interval.C64_first_call_partial",
    "Verif.Interval.C64_refuted"
   ],
   "note": "false: nanoseconds are compared with milliseconds; proved with the period divided by a million"
  },
  {
   "property": "C65",
   "status": "partial",
   "theorems": [
    "Verif.Interval.C65_destroyed_partial",
    "Verif.Interval.C65_refuted"
   ],
   "note": "false: notify_one() may come after destruction; proved that nothing else can"
  },
  {
   "property": "C78",
   "status": "partial",
   "theorems": [
    "Verif.Interval.C78_initialised_partial",
    "Verif.Interval.C78_refuted",
    "Verif.Interval.HB.C78_every_call_races",
    "Verif.Interval.HB.C78_sleep_refuted"
   ],
   "note": "proved if the constructor finishes during the worker's first sleep, which nothing ensures; even then the initialisation is a data race with the worker's first comparison, so that the function is never called in an execution without one"
  },
  {
   "property": "C79",
   "status": "partial",
   "theorems": [
    "Verif.Interval.C79_no_call_partial",
    "Verif.Interval.C79_refuted",
    "Verif.Interval.HB.C79_own_stop_races"
   ],
   "note": "no further call, but the stop() never returns, and its first access to stop_ is a data race with the constructor"
  },
  {
   "property": "C80",
   "status": "partial",
   "theorems": [
    "Verif.Interval.C80_after_stop_partial",
    "Verif.Interval.C80_refuted",
    "Verif.Interval.HB.C80_members_partial",
    "Verif.Interval.HB.C80_readers_partial",
    "Verif.Interval.HB.C80_next_check_refuted",
    "Verif.Interval.HB.C80_running_refuted",
    "Verif.Interval.HB.C80_reader_refuted"
   ],
   "note": "false: unless the function synchronises, every call from outside is a data race with the worker's comparisons before and after it; free of races (with a constructor that starts the thread last) for calls by the function itself and by a thread whose stop() has returned, and for readers if nobody sets them"
  },
  {
   "property": "C66",
   "status": "partial",
   "theorems": [
    "Verif.Lru.C66_bounded_partial",
    "Verif.Lru.C66_map_refuted"
   ],
   "note": "as-if (the class cannot be instantiated); the list is bounded, the map is not"
  },
  {
   "property": "C67",
   "status": "proved",
   "theorems": [
    "Verif.Lru.C67_evicts_oldest"
   ],
   "note": "as-if (the class cannot be instantiated)"
  },
  {
   "property": "C68",
   "status": "partial",
   "theorems": [
    "Verif.Lru.C68_stores_partial",
    "Verif.Lru.C68_value_refuted",
    "Verif.Lru.C68_get_refuted"
   ],
   "note": "as-if; proved for the first put of a key; a later put keeps the old value, and get() is undefined on every hit"
  },
  {
   "property": "C69",
   "status": "partial",
   "theorems": [
    "Verif.Lru.C69_put_partial",
    "Verif.Lru.C69_evicted_refuted"
   ],
   "note": "as-if; put fails exactly for keys that were evicted"
  },
  {
   "property": "C88",
   "status": "partial",
   "theorems": [
    "Verif.Lru.C88_expired_partial",
    "Verif.Lru.C88_get_exact",
    "Verif.Lru.C88_renewed_refuted"
   ],
   "note": "as-if (the class cannot be instantiated); the exact behaviour is proved: expiry counts from the first put of a key, and get() is undefined on an entry that has not expired"
  },
  {
   "property": "C70",
   "status": "proved",
   "theorems": [
    "Verif.Argv.C70_string",
    "Verif.Argv.C70_int",
    "Verif.Argv.C70_double",
    "Verif.Argv.C70_word"
   ],
   "note": "the extraction of a double is a parameter of the model; a blank token leaves the field alone"
  },
  {
   "property": "C71",
   "status": "proved",
   "theorems": [
    "Verif.Argv.C71_flag_iff"
   ],
   "note": ""
  },
  {
   "property": "C72",
   "status": "proved",
   "theorems": [
    "Verif.Argv.C72_safe",
    "Verif.Argv.C72_last_ignored"
   ],
   "note": ""
  },
  {
   "property": "C73",
   "status": "proved",
   "theorems": [
    "Verif.Argv.C73_order",
    "Verif.Argv.C73_permutation"
   ],
   "note": ""
  },
  {
   "property": "C74",
   "status": "proved",
   "theorems": [
    "Verif.Argv.C74_round_trip",
    "Verif.Argv.C74_reads",
    "Verif.Argv.C74_plus",
    "Verif.Argv.C74_not_a_number",
    "Verif.Argv.C74_blank"
   ],
   "note": "text that is no number is read as zero, without an error"
  },
  {
   "property": "C81",
   "status": "partial",
   "theorems": [
    "Verif.Argv.C81_single_role_partial",
    "Verif.Argv.C81_refuted"
   ],
   "note": "false: every token is compared with the names; proved if no value is a name"
  },
  {
   "property": "C82",
   "status": "partial",
   "theorems": [
    "Verif.Argv.C82_given_partial",
    "Verif.Argv.C82_refuted"
   ],
   "note": "false: parse changes the parser; proved for the options that are given"
  },
  {
   "property": "C83",
   "status": "partial",
   "theorems": [
    "Verif.Pipeline.Pool.C83_ends_partial",
    "Verif.Pipeline.Pool.C83_overflow_refuted"
   ],
   "note": "proved for at most eight workers, 214748364 pushes and short handler calls; false in general: more workers than queues, or an overflow of the statistics (undefined)"
  },
  {
   "property": "C89",
   "status": "partial",
   "theorems": [
    "Verif.Observer.Cb.C89_callbacks_partial",
    "Verif.Observer.Cb.C89_defined_only_if",
    "Verif.Observer.Cb.C89_unsubscribe_refuted",
    "Verif.Observer.Cb.C89_subscribe_refuted",
    "Verif.Observer.Cb.C89_disconnect_refuted"
   ],
   "note": "builds without the mutex (glibc); proved exactly when callbacks leave the registered observers as they are; false otherwise: iterators of the vector are invalidated"
  },
  {
   "property": "C90",
   "status": "proved",
   "theorems": [
    "Verif.Observer.Cb.C90_each_once",
    "Verif.Observer.Seen.Unb.C90_seen"
   ],
   "note": "builds without the mutex (glibc)"
  },
  {
   "property": "C91",
   "status": "partial",
   "theorems": [
    "Verif.Observer.Cb.C91_returns_partial",
    "Verif.Observer.Cb.C91_endless_refuted"
   ],
   "note": "builds without the mutex (glibc); false: recursion is not detected; proved when callbacks do not notify or change the registered observers"
  },
  {
   "property": "C84",
   "status": "proved",
   "theorems": [
    "Verif.Observer.Conc.C84_calls_return"
   ],
   "note": ""
  },
  {
   "property": "C75",
   "status": "proved",
   "theorems": [
    "Verif.Pimpl.C75_fits",
    "Verif.Pimpl.C75_array",
    "Verif.Pimpl.C75_necessary",
    "Verif.Pimpl.C75_strict"
   ],
   "note": ""
  },
  {
   "property": "C76",
   "status": "partial",
   "theorems": [
    "Verif.Pimpl.C76_same_values_partial",
    "Verif.Pimpl.C76_balanced",
    "Verif.Pimpl.C76_all_destroyed",
    "Verif.Pimpl.C76_copy_refuted",
    "Verif.Pimpl.C76_terminates_refuted"
   ],
   "note": "lifetimes proved for every history; values proved except for direct copies of non-const wrappers, which do not copy the object, and for types whose noexcept with braces differs from that with parentheses"
  },
  {
   "property": "C85",
   "status": "proved",
   "theorems": [
    "Verif.Values.Re.C85_memory_safe",
    "Verif.Values.Re.Seen.C85_disconnects"
   ],
   "note": ""
  },
  {
   "property": "C86",
   "status": "partial",
   "theorems": [
    "Verif.Values.Re.C86_in_step_partial",
    "Verif.Values.Re.C86_clamp_refuted",
    "Verif.Values.Re.C86_endless_refuted",
    "Verif.Values.Re.Vec.C86_vector_in_step_partial",
    "Verif.Values.Re.Vec.C86_vector_endless_refuted"
   ],
   "note": "proved when only the object registered last updates back (with =, +=, -= or prefix ++) and the update returns; false otherwise: later objects keep the older value, and recursion is not detected"
  },
  {
   "property": "C87",
   "status": "partial",
   "theorems": [
    "Verif.Values.Re.C87_once_partial",
    "Verif.Values.Re.Seen.C87_seen",
    "Verif.Values.Re.C87_front_partial",
    "Verif.Values.Re.C87_skip_refuted",
    "Verif.Values.Re.C87_removed_refuted"
   ],
   "note": "proved when the functions only register objects, and for functions that remove objects for those registered before every removed one; false for the objects behind a removed one"
  },
  {
   "property": "C92",
   "status": "partial",
   "theorems": [
    "Verif.Values.Re.Vec.C92_callbacks_partial",
    "Verif.Values.Re.Vec.C92_defined_only_if",
    "Verif.Values.Re.Vec.C92_register_refuted",
    "Verif.Values.Re.Vec.C92_clear_refuted"
   ],
   "note": "proved when functions make updates, repeated registrations and removals; false when a function registers a new object or clears: iterators of the vector are invalidated"
  },
  {
   "property": "C93",
   "status": "partial",
   "theorems": [
    "Verif.Values.Re.Vec.C93_once_partial",
    "Verif.Values.Re.Seen.Unb.C93_seen",
    "Verif.Values.Re.Vec.C93_leaver_refuted"
   ],
   "note": "proved for histories without removals; false with them: the loop skips one object and tells another twice"
  },
  {
   "property": "C94",
   "status": "partial",
   "theorems": [
    "Verif.Packet.C94_frame_partial",
    "Verif.Packet.C94_null",
    "Verif.Packet.C94_stale_refuted"
   ],
   "note": "proved for non-null data or no elements; false for a null pointer with a count: the payload of an earlier frame is sent again"
  },
  {
   "property": "C95",
   "status": "partial",
   "theorems": [
    "Verif.Packet.C95_default_partial",
    "Verif.Packet.C95_decode_refuted"
   ],
   "note": "proved except that deserialize of a new accessor is undefined when 2^64 minus the fixed length is a multiple of the element size, for instance for bytes"
  },
  {
   "property": "C96",
   "status": "partial",
   "theorems": [
    "Verif.Mediator.Dyn.C96_safe_partial",
    "Verif.Mediator.Dyn.C96_registered",
    "Verif.Mediator.Dyn.C96_sender_refuted"
   ],
   "note": "proved when the modules never fill the manager and no callback destroys a module that sends; false otherwise: the id of a destroyed sender is read, and see C52"
  },
  {
   "property": "C97",
   "status": "partial",
   "theorems": [
    "Verif.Mediator.Dyn.C97_sent",
    "Verif.Mediator.Dyn.Seen.C97_seen",
    "Verif.Mediator.Dyn.C97_recorded",
    "Verif.Mediator.Dyn.C97_complete",
    "Verif.Mediator.Dyn.C97_at_most_once",
    "Verif.Mediator.Dyn.C97_exactly_once_partial",
    "Verif.Mediator.Dyn.C97_everybody_partial",
    "Verif.Mediator.Dyn.C97_skipped_refuted"
   ],
   "note": "at most once proved; exactly once proved unless the module or one constructed before it is destroyed meanwhile or a callback throws; false otherwise: the loop skips a module"
  },
  {
   "property": "C98",
   "status": "partial",
   "theorems": [
    "Verif.Pipeline.C98_own_stage_safe",
    "Verif.Pipeline.C98_counted_partial",
    "Verif.Pipeline.C98_origin",
    "Verif.Pipeline.C98_first_lap_partial",
    "Verif.Pipeline.C98_calm_partial"
   ],
   "note": "safety proved; counts for fewer than 2^64 pushes; exactly once and in order for the first lap, or for undivided pushes without overrun; the refutations of C54 and C55 apply otherwise"
  },
  {
   "property": "C99",
   "status": "partial",
   "theorems": [
    "Verif.Pipeline.C99_safe",
    "Verif.Pipeline.C99_delivers_partial",
    "Verif.Pipeline.C99_calm_partial",
    "Verif.Pipeline.C99_order_refuted"
   ],
   "note": "safety proved; delivery for the first lap, or for undivided pushes without overrun (see C55); in the other order of destruction a push is undefined"
  },
  {
   "property": "C100",
   "status": "partial",
   "theorems": [
    "Verif.Pipeline.C100_never",
    "Verif.Pipeline.C100_calm_partial",
    "Verif.Pipeline.C100_first_lap_partial"
   ],
   "note": "that it never returns proved; termination under the conditions of C98 and C57, for handlers whose pushes get lighter in some measure"
  },
  {
   "property": "C101",
   "status": "proved",
   "theorems": [
    "Verif.Mediator.Dyn.C101_written",
    "Verif.Mediator.Dyn.C101_same",
    "Verif.Mediator.Dyn.C101_intact",
    "Verif.Mediator.Dyn.C101_sender"
   ],
   "note": ""
  },
  {
   "property": "C102",
   "status": "partial",
   "theorems": [
    "Verif.Mediator.Dyn.C102_cut",
    "Verif.Mediator.Dyn.C102_prefix",
    "Verif.Mediator.Dyn.C102_reaches_sender",
    "Verif.Mediator.Dyn.C102_registered",
    "Verif.Mediator.Dyn.C102_others_refuted"
   ],
   "note": "proved except for the other modules: those after the one that throws do not get the message"
  },
  {
   "property": "C103",
   "status": "partial",
   "theorems": [
    "Verif.Observer.World.C103_safe_partial",
    "Verif.Observer.World.C103_alive_partial",
    "Verif.Observer.World.C103_registered_ub",
    "Verif.Observer.World.C103_removed_refuted",
    "Verif.Observer.World.C103_destroyed_refuted",
    "Verif.Observer.World.C103_assigned_refuted",
    "Verif.Observer.World.C103_reuse_refuted"
   ],
   "note": "false: ~observer does not deregister; proved for clients that deregister observers before destroying them, do not destroy them during a visit in which they were registered, and do not destroy or assign to an observable that is visiting its observers; each of these conditions is needed"
  },
  {
   "property": "C104",
   "status": "partial",
   "theorems": [
    "Verif.Observer.World.C104_added",
    "Verif.Observer.World.C104_reports",
    "Verif.Observer.World.C104_add",
    "Verif.Observer.World.C104_seen",
    "Verif.Observer.World.C104_own_partial",
    "Verif.Observer.World.C104_copy_tells",
    "Verif.Observer.World.C104_copy_disconnects",
    "Verif.Observer.World.C104_assign_silent",
    "Verif.Observer.World.C104_mute",
    "Verif.Observer.World.C104_own_refuted",
    "Verif.Observer.World.C104_assign_refuted"
   ],
   "note": "copies notify exactly those registered with the original; false that an observable only calls those added to it, that those who lose their place are told, and for a copy taken during a notification, which never notifies"
  },
  {
   "property": "C105",
   "status": "partial",
   "theorems": [
    "Verif.Observer.Throw.C105_clear_partial",
    "Verif.Observer.Throw.C105_completes",
    "Verif.Observer.Throw.C105_terminates",
    "Verif.Observer.Throw.C105_survives",
    "Verif.Observer.Throw.C105_usable",
    "Verif.Observer.Throw.C105_defined",
    "Verif.Observer.Throw.C105_destroyed",
    "Verif.Observer.Throw.C105_inside",
    "Verif.Observer.Throw.C105_data_refuted",
    "Verif.Observer.Throw.C105_destructor_refuted"
   ],
   "note": "holds for clear_observers; an exception from data, or from disconnect during destruction, ends the program: exactly those do"
  },
  {
   "property": "C106",
   "status": "partial",
   "theorems": [
    "Verif.Observer.Throw.C106_once_partial",
    "Verif.Observer.Throw.C106_again_refuted"
   ],
   "note": "holds as long as no clear_observers is left by an exception; after one, the observers told before are told again"
  },
  {
   "property": "C107",
   "status": "partial",
   "theorems": [
    "Verif.Pipeline.HB.C107_inside",
    "Verif.Pipeline.HB.C107_rendezvous_partial",
    "Verif.Pipeline.HB.C107_setup",
    "Verif.Pipeline.HB.C107_idle_refuted"
   ],
   "note": "false: once there is a sample every call from outside is a data race unless a handler is running, whatever else synchronises; free of races for calls by the handler, for calls that the handler invites and waits for, and for calls before the first push by the only thread that pushes"
  },
  {
   "property": "C108",
   "status": "partial",
   "theorems": [
    "Verif.Interval.HB.C108_visible",
    "Verif.Interval.HB.C108_again_partial"
   ],
   "note": "for a call that waits, with any number of threads calling stop(); for a later call that returns at once only if no access to stop_ races"
  },
  {
   "property": "C109",
   "status": "partial",
   "theorems": [
    "Verif.Interval.HB.C109_ordered_partial",
    "Verif.Interval.HB.C109_refuted",
    "Verif.Interval.HB.C109_second_refuted",
    "Verif.Interval.HB.C109_accesses",
    "Verif.Interval.HB.C109_depends",
    "Verif.Interval.HB.C109_stop_depends"
   ],
   "note": "false: two threads that get through stop() always race on stop_; free of races if the user orders the calls"
  },
  {
   "property": "C110",
   "status": "proved",
   "theorems": [
    "Verif.Values.HB.C110_no_races",
    "Verif.Values.HB.C110_accesses",
    "Verif.Values.HB.C110_depends",
    "Verif.Values.HB.C111_depends"
   ],
   "note": ""
  },
  {
   "property": "C111",
   "status": "partial",
   "theorems": [
    "Verif.Values.HB.C111_registration_races",
    "Verif.Values.HB.C111_update_races",
    "Verif.Values.HB.C111_on_update_races",
    "Verif.Values.HB.C111_delivery_races",
    "Verif.Values.HB.C111_move_races",
    "Verif.Values.HB.C111_moved_races",
    "Verif.Values.HB.C111_refuted",
    "Verif.Values.HB.C111_refused_partial",
    "Verif.Values.HB.C111_locked_partial",
    "Verif.Values.HB.C110_accesses",
    "Verif.Values.HB.C110_depends",
    "Verif.Values.HB.C111_depends"
   ],
   "note": "false: every such call races with every update of another thread unless the user passes something on between the two; proved for calls that report an error, and for calls under a lock of the user's"
  },
  {
   "property": "C112",
   "status": "proved",
   "theorems": [
    "Verif.Values.HB.C112_value",
    "Verif.Values.HB.C112_observed",
    "Verif.Values.HB.C112_before",
    "Verif.Values.HB.C112_message",
    "Verif.Values.HB.C112_earlier_refuted"
   ],
   "note": "proved for the update whose value is seen, and for all updates back to the newest assignment; not so for updates before that assignment"
  },
  {
   "property": "C113",
   "status": "partial",
   "theorems": [
    "Verif.Values.HB.C113_one_thread_partial",
    "Verif.Values.HB.C113_data_partial",
    "Verif.Values.HB.C113_locked_partial",
    "Verif.Values.HB.C113_refuted"
   ],
   "note": "false for two updating threads; proved if one thread updates, and not from inside a function, and for updates under a lock of the user's"
  },
  {
   "property": "C114",
   "status": "partial",
   "theorems": [
    "Verif.Values.Life.C114_safe_partial",
    "Verif.Values.Life.C114_told_partial",
    "Verif.Values.Life.C114_registered_ub",
    "Verif.Values.Life.C114_dynamic_ub",
    "Verif.Values.Life.C114_reuse_refuted"
   ],
   "note": "holds for clients that remove objects from all observables before destroying them and do not remove from dynamic observables; false otherwise: after a registered object is destroyed every update, clear and the destruction of the observable are undefined; the same for the dynamic variant even after remove_observer returned ok for the object added last; an object constructed at the address of a destroyed one gets values without being added"
  },
  {
   "property": "C115",
   "status": "proved",
   "theorems": [
    "Verif.Pipeline.Pool.HB.C115_statistics"
   ],
   "note": ""
  },
  {
   "property": "C116",
   "status": "partial",
   "theorems": [
    "Verif.Pipeline.Pool.HB.C116_last_refuted",
    "Verif.Pipeline.Pool.HB.C116_race_refuted",
    "Verif.Pipeline.Pool.HB.C116_late_partial",
    "Verif.Pipeline.Pool.HB.C116_joined_partial",
    "Verif.Pipeline.Pool.HB.C118_accesses",
    "Verif.Pipeline.Pool.HB.C118_depends"
   ],
   "note": "false: while the pool is open, no execution without a data race handles the item pushed last into a queue (handlers that do not acquire anything), and a single push is enough for a race; free of races if the workers do not run before the destructor begins, all pushes happen before it, and either one thread pushes or no queue gets more items than it has slots"
  },
  {
   "property": "C117",
   "status": "proved",
   "theorems": [
    "Verif.Pipeline.Pool.HB.C117_handlers",
    "Verif.Pipeline.Pool.HB.C117_data",
    "Verif.Pipeline.Pool.HB.C117_pushes"
   ],
   "note": ""
  },
  {
   "property": "C118",
   "status": "partial",
   "theorems": [
    "Verif.Pipeline.Pool.HB.C118_visible",
    "Verif.Pipeline.Pool.HB.C118_items_partial",
    "Verif.Pipeline.Pool.HB.C118_overrun_refuted",
    "Verif.Pipeline.Pool.HB.C118_accesses",
    "Verif.Pipeline.Pool.HB.C118_depends",
    "Verif.Pipeline.Pool.HB.C118_ends"
   ],
   "note": "proved, for pools that get fewer than 2^64 items, by the number of the item in its queue; by the item itself only while no queue has got more items than it has slots; false when a queue overruns, since the handler may then get a later item than the one it came for"
  },
  {
   "property": "C119",
   "status": "partial",
   "theorems": [
    "Verif.Pipeline.Pool.HB.C119_one_worker_partial",
    "Verif.Pipeline.Pool.HB.C119_refuted"
   ],
   "note": "false for more than one worker; proved for PoolSize = 1"
  },
  {
   "property": "C120",
   "status": "partial",
   "theorems": [
    "Verif.Pipeline.Pool.Push.C120_safe",
    "Verif.Pipeline.Pool.Push.C120_ended",
    "Verif.Pipeline.Pool.Push.C120_order_partial",
    "Verif.Pipeline.Pool.Push.C120_order_calm_partial",
    "Verif.Pipeline.Pool.Push.C120_late"
   ],
   "note": "safety, counts and origins proved (at most eight workers, fewer than 2^64 pushes, and but for the sums of the statistics, C83); exactly once and in order while the queue is not filled more than once, or for undivided pushes without overrun, see C59"
  },
  {
   "property": "C121",
   "status": "partial",
   "theorems": [
    "Verif.Pipeline.Pool.Push.C121_accounted_partial",
    "Verif.Pipeline.Pool.Push.C121_settled_partial",
    "Verif.Pipeline.Pool.Push.C121_accounted_calm_partial",
    "Verif.Pipeline.Pool.Push.C121_settled_calm_partial",
    "Verif.Pipeline.Pool.Push.C121_lost_refuted"
   ],
   "note": "false: a push of a handler during destruction may go into a queue whose worker has ended; such pushes are exactly what is lost, for PoolSize = 8 and queues not filled more than once, or undivided pushes without overrun"
  },
  {
   "property": "C122",
   "status": "partial",
   "theorems": [
    "Verif.Pipeline.Pool.Push.C122_endless",
    "Verif.Pipeline.Pool.Push.C122_ends_partial",
    "Verif.Pipeline.Pool.Push.C122_ends_calm_partial"
   ],
   "note": "that it never returns proved; termination for handlers whose pushes get lighter in some measure, under the conditions of C83 and while no queue is filled more than once, or for undivided pushes without overrun"
  },
  {
   "property": "C123",
   "status": "partial",
   "theorems": [
    "Verif.Heap.C123_aligned_partial",
    "Verif.Heap.C123_overaligned_refuted"
   ],
   "note": "proved for alignments that divide 8; false for alignments that are multiples of 16, refuted for every heap with room"
  },
  {
   "property": "C124",
   "status": "partial",
   "theorems": [
    "Verif.Interval.HB.C124_next_pause_refuted",
    "Verif.Interval.HB.C124_running_refuted",
    "Verif.Interval.HB.C80_reader_refuted",
    "Verif.Interval.HB.C80_members_partial",
    "Verif.Interval.HB.C80_readers_partial"
   ],
   "note": "false like C80: unless the function synchronises, calls from outside are data races with the sleeps before and after; free of races (with a constructor that starts the thread last) for calls by the function itself and by a thread whose stop() has returned"
  },
  {
   "property": "C125",
   "status": "proved",
   "theorems": [
    "Verif.Pipeline.Life.C125_handlers",
    "Verif.Pipeline.Life.C125_data",
    "Verif.Pipeline.Life.C125_pushes"
   ],
   "note": ""
  },
  {
   "property": "C126",
   "status": "partial",
   "theorems": [
    "Verif.Pipeline.Life.C126_visible",
    "Verif.Pipeline.Life.C126_items_partial",
    "Verif.Pipeline.Life.C126_overrun_refuted",
    "Verif.Pipeline.Life.C126_accesses",
    "Verif.Pipeline.Life.C126_ends"
   ],
   "note": "proved, for stages that get fewer than 2^64 items, by the number of the item; by the item itself only while the stage has not got more items than it has slots; false when the stage overruns, like C118"
  },
  {
   "property": "C127",
   "status": "partial",
   "theorems": [
    "Verif.Pipeline.Life.C127_handed_over",
    "Verif.Pipeline.Life.C127_own",
    "Verif.Pipeline.Life.C127_back_races"
   ],
   "note": "by the number of the item, for stages that get fewer than 2^64 items; after an overrun the number is not that of the item the handler gets, see C126. That data cannot be taken back before destruction is proved for handlers that release nothing by themselves"
  },
  {
   "property": "C128",
   "status": "partial",
   "theorems": [
    "Verif.Packet.Pad.C128_members",
    "Verif.Packet.Pad.C128_valid_iff_partial",
    "Verif.Packet.Pad.C128_unpadded_partial",
    "Verif.Packet.Pad.C128_padding_refuted"
   ],
   "note": "false for headers or fields with padding: the CRC is that of another copy; exact condition in C128_valid_iff_partial"
  },
  {
   "property": "C129",
   "status": "proved",
   "theorems": [
    "Verif.Heap.Conc.C129_same_block",
    "Verif.Heap.Conc.C129_race"
   ],
   "note": "the race is stated for threads that do not synchronise at all (Plain); the schedule with the same block twice exists from every reachable heap"
  },
  {
   "property": "C130",
   "status": "proved",
   "theorems": [
    "Verif.Heap.Conc.C130_no_race",
    "Verif.Heap.Conc.C130_goes_on",
    "Verif.Heap.Conc.C130_one_after_another",
    "Verif.Heap.Conc.C130_blocks",
    "Verif.Heap.Conc.C130_recorded",
    "Verif.Heap.Conc.C130_accesses",
    "Verif.Heap.Conc.C130_users",
    "Verif.Heap.Conc.C130_depends",
    "Verif.Heap.Conc.C130_writes"
   ],
   "note": "what the users have to observe is Careful; linearised in the order of the returns"
  },
  {
   "property": "C131",
   "status": "partial",
   "theorems": [
    "Verif.Lru.Conc.C131_no_race_partial",
    "Verif.Lru.Conc.C131_one_after_another_partial",
    "Verif.Lru.Conc.C131_recorded",
    "Verif.Lru.Conc.C131_goes_on_partial",
    "Verif.Lru.Conc.C131_bounded_partial",
    "Verif.Lru.Conc.C131_race_refuted",
    "Verif.Lru.Conc.C131_overfull_refuted",
    "Verif.Lru.Conc.C131_accesses",
    "Verif.Lru.Conc.C131_users",
    "Verif.Lru.Conc.C131_depends"
   ],
   "note": "as-if (the class cannot be instantiated); proved for builds in which PTHREAD_MUTEX_DEFAULT is a macro; elsewhere (glibc: it is an enumerator) the mutex is compiled out and the claim is false: calls of different threads race, even two lookups, and the list can get longer than Size"
  },
  {
   "property": "C132",
   "status": "proved",
   "theorems": [
    "Verif.Mediator.Conc.C132_no_race",
    "Verif.Mediator.Conc.C132_goes_on",
    "Verif.Mediator.Conc.C132_sent",
    "Verif.Mediator.Conc.C132_cast",
    "Verif.Mediator.Conc.C132_registered",
    "Verif.Mediator.Conc.C132_recorded",
    "Verif.Mediator.Conc.C132_accesses",
    "Verif.Mediator.Conc.C132_users",
    "Verif.Mediator.Conc.C132_depends",
    "Verif.Mediator.Conc.C132_writes"
   ],
   "note": "model with single accesses as steps; the provisos of the statement are the predicate Careful and injectivity of the hash"
  },
  {
   "property": "C133",
   "status": "partial",
   "theorems": [
    "Verif.Mediator.Conc.C133_order_partial",
    "Verif.Mediator.Conc.C133_overlap_refuted",
    "Verif.Mediator.Conc.C133_nested_refuted"
   ],
   "note": "proved for messages the first of which has been sent completely before the second one begins; false if they overlap, in different threads or because a callback sends"
  },
  {
   "property": "C134",
   "status": "partial",
   "theorems": [
    "Verif.Mediator.Conc.C132_no_race",
    "Verif.Mediator.Conc.C132_goes_on",
    "Verif.Mediator.Conc.C134_race_refuted",
    "Verif.Mediator.Conc.C134_early_refuted",
    "Verif.Mediator.Conc.C134_lost_refuted",
    "Verif.Mediator.Conc.C134_gone_refuted"
   ],
   "note": "false: without synchronisation construction races with every other call, a module is counted before it is entered, a registration can be lost, and a sender can use a module that has been destroyed; true if users take care as in C132"
  },
  {
   "property": "C135",
   "status": "partial",
   "theorems": [
    "Verif.Observer.Fixed.C136_no_race",
    "Verif.Observer.Fixed.C136_goes_on",
    "Verif.Observer.Fixed.C135_race_refuted",
    "Verif.Observer.Fixed.C135_refused_refuted",
    "Verif.Observer.Fixed.C135_lost_refuted",
    "Verif.Observer.Fixed.C135_gone_refuted",
    "Verif.Observer.Fixed.C135_null_refuted",
    "Verif.Observer.Fixed.C135_overrun_refuted"
   ],
   "note": "false in each part: without synchronisation a call that changes the list races with every other call, and notifications race with each other; true if threads take turns, see C136"
  },
  {
   "property": "C136",
   "status": "proved",
   "theorems": [
    "Verif.Observer.Fixed.C136_no_race",
    "Verif.Observer.Fixed.C136_goes_on",
    "Verif.Observer.Fixed.C136_as_one_thread",
    "Verif.Observer.Fixed.C136_results",
    "Verif.Observer.Fixed.C136_call",
    "Verif.Observer.Fixed.C136_each_once",
    "Verif.Observer.Fixed.C136_clear",
    "Verif.Observer.Fixed.C136_accesses",
    "Verif.Observer.Fixed.C136_users",
    "Verif.Observer.Fixed.C136_depends",
    "Verif.Observer.Fixed.C136_writes"
   ],
   "note": "model with single accesses as steps; the proviso of the statement is InTurn"
  },
  {
   "property": "C137",
   "status": "partial",
   "theorems": [
    "Verif.Pipeline.C137_counted_partial",
    "Verif.Pipeline.C137_first_lap_partial",
    "Verif.Pipeline.C137_tame_partial",
    "Verif.Pipeline.C137_meanwhile_partial",
    "Verif.Pipeline.C137_lost_refuted",
    "Verif.Pipeline.C137_undefined_refuted",
    "Verif.Pipeline.C137_overrun_refuted"
   ],
   "note": "false: a push that begins after the worker has left its loop is lost, or stores into an object that is gone, though the destructor has not returned when it begins; after the first lap that also happens to pushes that began before the destructor. Proved: the worker handles as many items as had been begun when it leaves its loop; in the first lap, or without overrun, exactly those, in order, and those pushes have finished"
  },
  {
   "property": "C138",
   "status": "partial",
   "theorems": [
    "Verif.Packet.C138_exact_partial",
    "Verif.Packet.C138_aligned_partial",
    "Verif.Packet.C138_elements_refuted",
    "Verif.Packet.C138_fields_refuted",
    "Verif.Packet.C138_overaligned_refuted"
   ],
   "note": "false when header, or header and fields, are not a multiple of the alignment of what follows long (then at every address), and for types aligned more strictly than the accessor (at some address); the exact condition is proved, and the claim where the types fit. The aliasing rule is not modelled"
  },
  {
   "property": "C139",
   "status": "proved",
   "theorems": [
    "Verif.Pipeline.Start.C139_stage",
    "Verif.Pipeline.Start.C139_pool",
    "Verif.Pipeline.Start.C139_lives",
    "Verif.Pipeline.Start.C139_record"
   ],
   "note": "members as a whole; that threads of a pool have a queue of their own only up to eight of them is in C59"
  },
  {
   "property": "C140",
   "status": "partial",
   "theorems": [
    "Verif.Pipeline.Start.C140_stage",
    "Verif.Pipeline.Start.C140_pool_partial",
    "Verif.Pipeline.Start.C140_pool_refuted",
    "Verif.Pipeline.Start.C140_pool_possible_refuted"
   ],
   "note": "proved for the stage; false for the pool: if a start fails and another worker has been started before, or if there is no memory to keep the thread, the next thing the constructing thread does is to end the program"
  },
  {
   "property": "C141",
   "status": "partial",
   "theorems": [
    "Verif.Observer.World.Unb.C141_safe_partial",
    "Verif.Observer.World.Unb.C141_alive_partial",
    "Verif.Observer.World.Unb.C141_registered_ub",
    "Verif.Observer.World.Unb.C141_unchanged",
    "Verif.Observer.World.Unb.C141_changed_refuted",
    "Verif.Observer.World.Unb.C141_locked_refuted",
    "Verif.Observer.World.Unb.C141_reuse_refuted"
   ],
   "note": "false: ~observer does not deregister and loops go on with invalid iterators; proved for clients that deregister observers before destroying them and do not change, destroy or assign to an observable that is visiting its observers (with the mutex: do not use it); both conditions are needed"
  },
  {
   "property": "C142",
   "status": "proved",
   "theorems": [
    "Verif.Observer.World.Unb.C142_rounds",
    "Verif.Observer.World.Unb.C142_parts",
    "Verif.Observer.World.Unb.C142_only",
    "Verif.Observer.World.Unb.C142_reports",
    "Verif.Observer.World.Unb.C142_removed",
    "Verif.Observer.World.Unb.C142_seen"
   ],
   "note": "for every rule that clients keep to, including none, and both builds; runs that are undefined (C141) are excluded. Not modelled: exceptions from callbacks (C105, C106), exhausted memory, threads"
  },
  {
   "property": "C143",
   "status": "partial",
   "theorems": [
    "Verif.Observer.World.Unb.C143_added",
    "Verif.Observer.World.Unb.C143_own_partial",
    "Verif.Observer.World.Unb.C143_copy_tells",
    "Verif.Observer.World.Unb.C143_silent",
    "Verif.Observer.World.Unb.C143_own_refuted",
    "Verif.Observer.World.Unb.C143_assign_refuted"
   ],
   "note": "copies tell those registered with the original, also if taken during a notification; false that an observable only calls those added to it and that those who lose their place in an assignment are told"
  },
  {
   "property": "C144",
   "status": "partial",
   "theorems": [
    "Verif.Pipeline.Pool.Ending.C144_counted_partial",
    "Verif.Pipeline.Pool.Ending.C144_first_lap_partial",
    "Verif.Pipeline.Pool.Ending.C144_calm_partial",
    "Verif.Pipeline.Pool.Ending.C144_accounted_partial",
    "Verif.Pipeline.Pool.Ending.C144_accounted_calm_partial",
    "Verif.Pipeline.Pool.Ending.C144_meanwhile_partial",
    "Verif.Pipeline.Pool.Ending.C144_lost_refuted",
    "Verif.Pipeline.Pool.Ending.C144_undefined_refuted",
    "Verif.Pipeline.Pool.Ending.C144_shortest_refuted",
    "Verif.Pipeline.Pool.Ending.C144_overrun_refuted"
   ],
   "note": "false: a push that adds to a queue whose worker has left its loop is lost, and one that is under way when the destructor returns uses a pool that is gone, also if it began before the destructor; while some workers are busy the others' queues are preferred. Proved: each worker handles as many items as had been added to its queue when it leaves its loop; in the first lap, or without overrun, exactly those, in order; with eight workers every item was handled once or came too late in this sense; before the destructor returns no step of a push is undefined"
  },
  {
   "property": "C145",
   "status": "partial",
   "theorems": [
    "Verif.Interval.C145_schedule_partial",
    "Verif.Interval.C145_next_partial",
    "Verif.Interval.C145_old_period_refuted",
    "Verif.Interval.C145_early_refuted",
    "Verif.Interval.C145_late_refuted"
   ],
   "note": "false: the next call comes when the old period has gone by, the new one applies to the call after it (an hour set to a millisecond: nothing for an hour). Proved, while the nanoseconds do not overflow: whatever the changes, the schedule advances by the period in force at each call, and a check calls the function exactly when it reads the new period, in nanoseconds, past it"
  },
  {
   "property": "C146",
   "status": "partial",
   "theorems": [
    "Verif.Interval.C146_count_partial",
    "Verif.Interval.C146_set_back_refuted",
    "Verif.Interval.C146_set_forward_refuted"
   ],
   "note": "false: after the clock is set back there is no call until it has caught up, after it is set forward by k periods there are k calls in a row. Proved: n + 1 calls need n periods up to the greatest reading"
  },
  {
   "property": "C147",
   "status": "partial",
   "theorems": [
    "Verif.Interval.C147_every_check_partial",
    "Verif.Interval.C147_earlier_refuted",
    "Verif.Interval.C147_negative_refuted"
   ],
   "note": "false: with a period of zero a check that reads less than the first reading calls nothing; with a negative one each call moves the schedule back until a check overflows, which is undefined. Proved: every defined check that reads no less than the first reading calls the function"
  },
  {
   "property": "C148",
   "status": "partial",
   "theorems": [
    "Verif.Values.World.C148_safe_partial",
    "Verif.Values.World.C148_alive_partial",
    "Verif.Values.World.C148_registered_ub",
    "Verif.Values.World.C148_remove_refuted",
    "Verif.Values.World.C148_changed_refuted"
   ],
   "note": "false: ~observed does not deregister, remove_observer of the variant without a capacity leaves the last one in, and loops go on over changed lists; proved for clients that destroy an observed only when it is in no list (what the vector really holds) and do not destroy, clear or remove from an observable that is visiting its observers, nor add to one without a capacity"
  },
  {
   "property": "C149",
   "status": "partial",
   "theorems": [
    "Verif.Values.World.C149_updates_partial",
    "Verif.Values.World.C149_ends_partial",
    "Verif.Values.World.C149_parts",
    "Verif.Values.World.C149_reports_partial",
    "Verif.Values.World.C149_once_partial",
    "Verif.Values.World.C149_added_partial",
    "Verif.Values.World.C149_removed_partial",
    "Verif.Values.World.C149_seen",
    "Verif.Values.World.C149_skip_refuted",
    "Verif.Values.World.C149_twice_refuted"
   ],
   "note": "false if a function removes from the observable that is visiting, and after a removal from an observable without a capacity (the last is told twice, a removed one is still told); proved for clients that keep to the rules of C148, with the list as it really is after such removals; each once if there were none"
  },
  {
   "property": "C150",
   "status": "partial",
   "theorems": [
    "Verif.Values.World.C150_look_partial",
    "Verif.Values.World.C150_read_partial",
    "Verif.Values.World.C150_current_partial",
    "Verif.Values.World.C150_chain_partial",
    "Verif.Values.World.C150_stale_refuted",
    "Verif.Values.World.C150_order_refuted"
   ],
   "note": "proved for clients that keep to the rules of C148; after the update those registered hold the value returned unless they have been told something since; false that this is the value of the observable if a function has updated it meanwhile (those later in the list end with the old value), and observers before the one that keeps a derived value up to date see the old one; postfix operators and prefix -- return another value than they store, see C44"
  },
  {
   "property": "C151",
   "status": "proved",
   "theorems": [
    "Verif.Observer.Static.C151_no_race",
    "Verif.Observer.Static.C151_goes_on",
    "Verif.Observer.Static.C151_ends",
    "Verif.Observer.Static.C151_tells",
    "Verif.Observer.Static.C151_only",
    "Verif.Observer.Static.C151_numbers",
    "Verif.Observer.Static.C151_accesses",
    "Verif.Observer.Static.C151_depends",
    "Verif.Observer.Static.C151_writes",
    "Verif.Observer.Static.C151_reads",
    "Verif.Observer.Static.C151_users",
    "Verif.Observer.Static.C151_unsynchronised",
    "Verif.Observer.Static.C151_observer_gone"
   ],
   "note": "what the users have to observe is Careful; C151_unsynchronised and C151_observer_gone show that it is needed; what the notification functions themselves access is theirs"
  },
  {
   "property": "C152",
   "status": "partial",
   "theorems": [
    "Verif.Observer.Static.C152_order_partial",
    "Verif.Observer.Static.C152_overlap_refuted",
    "Verif.Observer.Static.C152_order_refuted",
    "Verif.Observer.Static.C152_nested_refuted",
    "Verif.Observer.Static.C152_deep_refuted"
   ],
   "note": "false: two threads can be in the same function at once, two observers can get two values in different orders, also in a single thread if a function notifies, and recursion is not detected at any depth; proved for users who do not notify while a notification is in progress"
  },
  {
   "property": "C153",
   "status": "proved",
   "theorems": [
    "Verif.Mediator.Memory.C153_calls",
    "Verif.Mediator.Memory.C153_casts",
    "Verif.Mediator.Memory.C153_data",
    "Verif.Mediator.Memory.C153_next",
    "Verif.Mediator.Memory.C153_inherited",
    "Verif.Mediator.Memory.C153_refuses",
    "Verif.Mediator.Memory.C153_left",
    "Verif.Mediator.Memory.C153_send",
    "Verif.Mediator.Memory.C153_raw",
    "Verif.Mediator.Memory.C153_cast"
   ],
   "note": "modules stay the same during a run and nothing throws; for modules that come and go and for exceptions see C96, C97, C102"
  },
  {
   "property": "C154",
   "status": "partial",
   "theorems": [
    "Verif.Mediator.Memory.C154_manager",
    "Verif.Mediator.Memory.C154_intact_partial",
    "Verif.Mediator.Memory.C154_refuted"
   ],
   "note": "false for messages of modules: one that overrides receive writes to what those after it get; proved for messages of the manager, which copies the value for each module, and for messages to which nobody writes before"
  },
  {
   "property": "C155",
   "status": "partial",
   "theorems": [
    "Verif.Mediator.Memory.C155_safe_partial",
    "Verif.Mediator.Memory.C155_stays",
    "Verif.Mediator.Memory.C155_dangling",
    "Verif.Mediator.Memory.C155_kept_refuted",
    "Verif.Mediator.Memory.C155_released_refuted"
   ],
   "note": "false for modules that keep the pointer (every use after the message is undefined) and for memory that a callback releases while it is sent from; proved for programs that use a message only until they return from receive or the hook and release only what they have acquired themselves"
  },
  {
   "property": "C156",
   "status": "proved",
   "theorems": [
    "Verif.Heap.Fail.C156_heap",
    "Verif.Heap.Fail.C156_calls"
   ],
   "note": "callbacks are programs; those that use a function object they have destroyed (C158) have no result. One thread; for several see C129, C130"
  },
  {
   "property": "C157",
   "status": "partial",
   "theorems": [
    "Verif.Heap.Fail.C157_full_partial",
    "Verif.Heap.Fail.C157_released_refuted"
   ],
   "note": "false for callbacks that release memory: the request is not tried again and returns nullptr though there is room; proved if nothing is released meanwhile"
  },
  {
   "property": "C158",
   "status": "partial",
   "theorems": [
    "Verif.Heap.Fail.C158_safe_partial",
    "Verif.Heap.Fail.C158_ends_partial",
    "Verif.Heap.Fail.C158_again",
    "Verif.Heap.Fail.C158_replaced",
    "Verif.Heap.Fail.C158_again_refuted",
    "Verif.Heap.Fail.C158_replaced_refuted"
   ],
   "note": "false: a callback that asks again for what was refused is called for ever, one that calls on_fail and then uses what it captured uses a destroyed object (both for every heap and every request without room); proved for callbacks that empty callback_ before they ask for memory and use what they captured before that"
  },
  {
   "property": "C159",
   "status": "partial",
   "theorems": [
    "Verif.Heap.Copy.C159_alone_partial",
    "Verif.Heap.Copy.C159_same",
    "Verif.Heap.Copy.C159_refuted"
   ],
   "note": "false: the links of the copy lead into the buffer of the original; once one of them has handed out the lowest gap, the other hands out the same pointer for every request it believes to have room for (for every reachable heap); proved: a copy used alone while the original stays in place gives exactly what the original would have given, in the buffer of the original"
  },
  {
   "property": "C160",
   "status": "proved",
   "theorems": [
    "Verif.Lru.Throws.C160_kept",
    "Verif.Lru.Throws.C160_agrees"
   ],
   "note": "as-if model: the class cannot be instantiated as it is; assumes the guarantees of the standard containers and that an assignment of a key or value that throws leaves its target as it was"
  },
  {
   "property": "C161",
   "status": "partial",
   "theorems": [
    "Verif.Lru.Throws.C161_unchanged_partial",
    "Verif.Lru.Throws.C161_lost",
    "Verif.Lru.Throws.C161_evicts",
    "Verif.Lru.Throws.C161_twice",
    "Verif.Lru.Throws.C161_default",
    "Verif.Lru.Throws.C161_refuted"
   ],
   "note": "false: an exception in push_front of a renewed entry loses it for good, one while a new entry is made evicts the oldest one, one at map_[key] leads to two entries of a key, one in the assignment leaves a default entry in the map; proved for exceptions before the list is changed"
  },
  {
   "property": "C162",
   "status": "proved",
   "theorems": [
    "Verif.Values.Replace.C162_exact",
    "Verif.Values.Replace.C162_careful",
    "Verif.Values.Replace.C162_outside",
    "Verif.Values.Replace.C162_once_refuted"
   ],
   "note": "the usual way to be called once, on_update(nullptr) at the beginning of the function, is undefined as soon as a capture is used after it (C162_once_refuted); registrations do not change, for that see C148; that std::function itself touches nothing after the function has returned is assumed"
  },
  {
   "property": "C163",
   "status": "proved",
   "theorems": [
    "Verif.Values.Replace.C163_called",
    "Verif.Values.Replace.C163_only",
    "Verif.Values.Replace.C163_read",
    "Verif.Values.Replace.C163_round"
   ],
   "note": "for executions that meet nothing undefined (C162); registrations do not change, updates are assignments, for the rest see C149"
  },
  {
   "property": "C164",
   "status": "proved",
   "theorems": [
    "Verif.Mediator.Copies.C164_exact",
    "Verif.Mediator.Copies.C164_safe",
    "Verif.Mediator.Copies.C164_who",
    "Verif.Mediator.Copies.C164_outlived"
   ],
   "note": "single thread; callbacks only record that receive was called; a pointer to an address where there is another module now leads to that one"
  },
  {
   "property": "C165",
   "status": "partial",
   "theorems": [
    "Verif.Mediator.Copies.C165_silent",
    "Verif.Mediator.Copies.C165_dies",
    "Verif.Mediator.Copies.C165_sends",
    "Verif.Mediator.Copies.C165_moved",
    "Verif.Mediator.Copies.C165_refuted"
   ],
   "note": "false: a copy is in no list and is told nothing, and moving a module takes it off the list; proved: copies send as the original does and may be destroyed at any time without anybody noticing"
  },
  {
   "property": "C166",
   "status": "partial",
   "theorems": [
    "Verif.Mediator.Copies.C166_same_partial",
    "Verif.Mediator.Copies.C166_dangling",
    "Verif.Mediator.Copies.C166_later",
    "Verif.Mediator.Copies.C166_assigned",
    "Verif.Mediator.Copies.C166_refuted"
   ],
   "note": "false: a copy of a manager is not told when modules come or go, so that it follows pointers to destroyed modules, and a manager that is assigned to forgets its modules; proved: the copy reaches whom the original reaches as long as neither happens"
  },
  {
   "property": "C167",
   "status": "partial",
   "theorems": [
    "Verif.Argv.C167_round_trip_partial",
    "Verif.Argv.C167_only",
    "Verif.Argv.C167_refuted"
   ],
   "note": "false for every text that is empty or has white space: only the first word arrives, and an empty text leaves the field alone; proved for all others"
  },
  {
   "property": "C168",
   "status": "partial",
   "theorems": [
    "Verif.Argv.C168_join_partial",
    "Verif.Argv.C168_again",
    "Verif.Argv.C168_refuted"
   ],
   "note": "false if the first list ends with an option that takes a value; proved otherwise, and that parsing again changes nothing"
  },
  {
   "property": "C169",
   "status": "proved",
   "theorems": [
    "Verif.Argv.C169_order",
    "Verif.Argv.C169_unused",
    "Verif.Argv.C169_ignored"
   ],
   "note": ""
  },
  {
   "property": "C170",
   "status": "partial",
   "theorems": [
    "Verif.Packet.C170_holds",
    "Verif.Packet.C170_valid_iff",
    "Verif.Packet.C170_restored",
    "Verif.Packet.C170_only_if_blind",
    "Verif.Packet.C170_refuted"
   ],
   "note": "false: nothing computes the CRC again, so that it stays valid exactly if the new contents have the CRC of the old ones; proved that it holds what was written last"
  },
  {
   "property": "C171",
   "status": "proved",
   "theorems": [
    "Verif.Packet.C171_defined",
    "Verif.Packet.C171_rest",
    "Verif.Packet.C171_read_back",
    "Verif.Packet.C171_row"
   ],
   "note": ""
  },
  {
   "property": "C172",
   "status": "proved",
   "theorems": [
    "Verif.Packet.C172_packet_reads",
    "Verif.Packet.C172_accessor_reads"
   ],
   "note": "types without padding (see C24)"
  },
  {
   "property": "C173",
   "status": "proved",
   "theorems": [
    "Verif.Packet.C173_elements",
    "Verif.Packet.C173_no_check"
   ],
   "note": "the payload is in both cases the bytes behind header and fields (C29)"
  },
  {
   "property": "C174",
   "status": "partial",
   "theorems": [
    "Verif.Pipeline.Throw.C174_until",
    "Verif.Pipeline.Throw.C174_ends",
    "Verif.Pipeline.Throw.C174_lost_partial",
    "Verif.Pipeline.Throw.C174_joined_partial",
    "Verif.Pipeline.Throw.C174_inevitable_partial",
    "Verif.Pipeline.Throw.C174_refuted"
   ],
   "note": "false: the program ends (std::terminate) when the handler gets the first item for which it throws; proved that everything is as without exceptions until then, what has been handled, and that it cannot be avoided once the item is pushed"
  },
  {
   "property": "C175",
   "status": "partial",
   "theorems": [
    "Verif.Pipeline.Pool.Throw.C175_until",
    "Verif.Pipeline.Pool.Throw.C175_ends",
    "Verif.Pipeline.Pool.Throw.C175_lost_partial",
    "Verif.Pipeline.Pool.Throw.C175_joined_partial",
    "Verif.Pipeline.Pool.Throw.C175_refuted"
   ],
   "note": "false: the program ends, with the items of all workers; proved that everything is as without exceptions until then, and what has been handled"
  },
  {
   "property": "C176",
   "status": "partial",
   "theorems": [
    "Verif.Interval.Throw.C176_until",
    "Verif.Interval.Throw.C176_ends",
    "Verif.Interval.Throw.C176_last",
    "Verif.Interval.Throw.C176_after_stop",
    "Verif.Interval.Throw.C176_refuted"
   ],
   "note": "false: the program ends by the first call that throws; proved that everything is as without exceptions until then, and that none comes after stop() has returned"
  },
  {
   "property": "C177",
   "status": "proved",
   "theorems": [
    "Verif.Heap.Vectors.C177_push",
    "Verif.Heap.Vectors.C177_throws",
    "Verif.Heap.Vectors.C177_others",
    "Verif.Heap.Vectors.C177_readable",
    "Verif.Heap.Vectors.C177_restored"
   ],
   "note": "the vectors are client code: elements are copied as bytes and a request beyond max_size() throws length_error; whatever they do to the heap would be undefined if it were not legal; the request is the one of the allocator's allocate (through_allocator)"
  },
  {
   "property": "C178",
   "status": "partial",
   "theorems": [
    "Verif.Observer.Fatal.C178_until",
    "Verif.Observer.Fatal.C178_ends",
    "Verif.Observer.Fatal.C178_told_partial",
    "Verif.Observer.Fatal.C178_cleared_partial",
    "Verif.Observer.Fatal.C178_exact",
    "Verif.Observer.Fatal.C178_refuted"
   ],
   "note": "false: notification, notify_observers and clear_observers are noexcept, so the first exception ends the program; proved that everything is as without exceptions until then, and that exactly the observers up to the first that throws have been told"
  },
  {
   "property": "C179",
   "status": "partial",
   "theorems": [
    "Verif.Observer.CompileTime.C179_ends",
    "Verif.Observer.CompileTime.C179_calm",
    "Verif.Observer.CompileTime.C179_returns",
    "Verif.Observer.CompileTime.C179_refuted"
   ],
   "note": "false: notify is noexcept, so the first exception ends the program; proved which observers have been called by then, that a notification returns exactly if none throws, and that it then does what it does in the model without exceptions"
  },
  {
   "property": "C180",
   "status": "partial",
   "theorems": [
    "Verif.Values.Re.Fatal.C180_until",
    "Verif.Values.Re.Fatal.C180_ends",
    "Verif.Values.Re.Fatal.C180_exact",
    "Verif.Values.Re.Fatal.C180_refuted"
   ],
   "note": "false: everything that runs a function is noexcept, so the first exception ends the program; proved that everything is as without exceptions until then, and for functions that make no calls that exactly the objects up to the first that throws have got the value"
  },
  {
   "property": "C181",
   "status": "partial",
   "theorems": [
    "Verif.Values.Re.Vec.Fatal.C181_until",
    "Verif.Values.Re.Vec.Fatal.C181_ends",
    "Verif.Values.Re.Vec.Fatal.C181_exact",
    "Verif.Values.Re.Vec.Fatal.C181_refuted"
   ],
   "note": "false: everything that runs a function is noexcept, so the first exception ends the program; proved that everything is as without exceptions until then, and for functions that make no calls that exactly the objects up to the first that throws have got the value"
  }
 ]
}