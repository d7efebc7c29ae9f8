{
 "claims": [
  {
   "property": "C01",
   "status": "proved",
   "theorems": [
    "SeqStorage.Props.queue_is_fifo"
   ],
   "note": "Every call sequence (also with restarts, iteration, space_left and find_max_fit) from erased flash, every geometry and cache."
  },
  {
   "property": "C02",
   "status": "proved",
   "theorems": [
    "SeqStorage.Props.refused_push_changes_nothing",
    "SeqStorage.Props.too_big_is_refused"
   ],
   "note": "Without power loss."
  },
  {
   "property": "C03",
   "status": "proved",
   "theorems": [
    "SeqStorage.Props.overwriting_push"
   ],
   "note": "Without power loss."
  },
  {
   "property": "C04",
   "status": "partial",
   "theorems": [
    "SeqStorage.Props.queue_survives_power_loss_partial",
    "SeqStorage.Props.interrupted_push_partial",
    "SeqStorage.Props.interrupted_pop_partial",
    "SeqStorage.Props.torn_header_hides_item",
    "SeqStorage.Props.torn_header_completed",
    "SeqStorage.Props.torn_single_page_loses_item",
    "SeqStorage.Props.torn_data_returned"
   ],
   "note": "For all histories and crash points and every word size, with two or more pages and data whose torn versions have other checksums. Excluded is, for words of less than eight bytes, data whose header can complete the remains of another to a header (NoMix: always true for words of eight bytes or more, a condition on single checksums for words of four, computable for finite sets of data and any word size). Without the conditions on the data and the pages it is false of the code, and witnesses are proved."
  },
  {
   "property": "C05",
   "status": "partial",
   "theorems": [
    "SeqStorage.Props.queue_recovers_partial",
    "SeqStorage.Props.queue_usable_after_crash_partial"
   ],
   "note": "Same hypotheses as C04."
  },
  {
   "property": "C06",
   "status": "proved",
   "theorems": [
    "SeqStorage.Props.iteration_is_complete"
   ],
   "note": "Every subset of pops, buffers of at least a page."
  },
  {
   "property": "C07",
   "status": "proved",
   "theorems": [
    "SeqStorage.Props.map_is_finite_map",
    "SeqStorage.Props.fetch_gives_last_stored"
   ],
   "note": "Every history, every cache, every lawful key and value type; buffers of the documented size (the longest stored item, rounded up to whole words: MUsable), two pages or more as the code asserts."
  },
  {
   "property": "C08",
   "status": "proved",
   "theorems": [
    "SeqStorage.Props.refused_store_changes_nothing"
   ],
   "note": "Buffers of at least one page (LargeBuffers), two pages or more as the code asserts. "
  },
  {
   "property": "C09",
   "status": "proved",
   "theorems": [
    "SeqStorage.Props.store_changes_one_key",
    "SeqStorage.Props.other_calls_keep_values"
   ],
   "note": "Buffers of at least one page (LargeBuffers), two pages or more as the code asserts. Any call that recycles pages leaves every other key as it was."
  },
  {
   "property": "C10",
   "status": "partial",
   "theorems": [
    "SeqStorage.Props.map_survives_power_loss_partial",
    "SeqStorage.Props.interrupted_store_partial",
    "SeqStorage.Props.torn_erase_revives_removed_key",
    "SeqStorage.Props.interrupted_remove_fades_later",
    "SeqStorage.Props.torn_header_hides_value",
    "SeqStorage.Props.torn_data_fetched"
   ],
   "note": "Missing: data whose torn version has the same checksum and, for words of less than eight bytes, data whose header can complete the remains of another to a header (NoMix: always true for words of eight bytes or more, a condition on single checksums for words of four, computable for finite sets of data and any word size); histories in which an erase of a page that was not closed was cut short; the property is false for such data and histories (witnesses listed). Also false right after an interrupted remove, whose key may still lose its value."
  },
  {
   "property": "C11",
   "status": "partial",
   "theorems": [
    "SeqStorage.Props.map_survives_power_loss_partial",
    "SeqStorage.Props.interrupted_remove_partial",
    "SeqStorage.Props.interrupted_remove_fades_later"
   ],
   "note": "Missing: data whose torn version has the same checksum and, for words of less than eight bytes, data whose header can complete the remains of another to a header (NoMix: always true for words of eight bytes or more, a condition on single checksums for words of four, computable for finite sets of data and any word size); histories in which an erase of a page that was not closed was cut short; the property is false for such data and histories (witnesses listed). "
  },
  {
   "property": "C12",
   "status": "partial",
   "theorems": [
    "SeqStorage.Props.map_recovers_partial",
    "SeqStorage.Props.map_usable_after_crash_partial"
   ],
   "note": "Any history, also of interrupted removes and repairs. Missing: headers that complete the remains of others (words of less than eight bytes, NoMix), torn data with the same checksum, half-erased pages that were not closed."
  },
  {
   "property": "C13",
   "status": "proved",
   "theorems": [
    "SeqStorage.Props.remove_removes_one_key",
    "SeqStorage.Props.removed_stays_removed",
    "SeqStorage.Props.remove_all_removes_all"
   ],
   "note": "Buffers of at least one page (LargeBuffers), two pages or more as the code asserts. "
  },
  {
   "property": "C14",
   "status": "proved",
   "theorems": [
    "SeqStorage.Props.iteration_shows_current",
    "SeqStorage.Props.iteration_shows_stored",
    "SeqStorage.Props.iterator_starts_over"
   ],
   "note": "Buffers that hold the longest item (MUsable), two pages or more as the code asserts. iteration_shows_stored adds that every pair shown, current or superseded, was given to a store call. iterator_starts_over shows that an iterator asked again after None begins anew."
  },
  {
   "property": "C15",
   "status": "proved",
   "theorems": [
    "SeqStorage.Props.queue_accesses_legal",
    "SeqStorage.Props.map_accesses_legal",
    "SeqStorage.Props.erase_all_legal"
   ],
   "note": "For arbitrary flash contents, any sequence of calls and any power loss; the count of refused accesses stays zero."
  },
  {
   "property": "C16",
   "status": "proved",
   "theorems": [
    "SeqStorage.Props.queue_programs_words_once",
    "SeqStorage.Props.queue_programs_words_twice",
    "SeqStorage.Props.map_programs_words_once",
    "SeqStorage.Props.map_programs_words_twice"
   ],
   "note": "Queue and map, every sequence of uninterrupted calls."
  },
  {
   "property": "C17",
   "status": "proved",
   "theorems": [
    "SeqStorage.Props.queue_erases_in_turn",
    "SeqStorage.Props.queue_wears_evenly",
    "SeqStorage.Props.map_erases_in_turn",
    "SeqStorage.Props.map_wears_evenly"
   ],
   "note": "Queue and map."
  },
  {
   "property": "C18",
   "status": "proved",
   "theorems": [
    "SeqStorage.Props.caches_are_invisible",
    "SeqStorage.Props.map_caches_are_invisible",
    "SeqStorage.Props.small_buffers_reveal_caches"
   ],
   "note": "Queue: any buffers. Map: buffers of the documented size (the longest stored item, rounded up to whole words); with smaller ones the caches do show (small_buffers_reveal_caches)."
  },
  {
   "property": "C19",
   "status": "proved",
   "theorems": [
    "SeqStorage.calculated_cache_sound"
   ],
   "note": "Every sequence of page ring steps and cache notices, for every page count."
  },
  {
   "property": "C20",
   "status": "proved",
   "theorems": [
    "SeqStorage.Props.key_cache_is_lru",
    "SeqStorage.Props.key_cache_answers_latest",
    "SeqStorage.Props.key_cache_without_entries_panics"
   ],
   "note": "All operation sequences on a table of any positive capacity; a table of capacity 0 panics (witness)."
  },
  {
   "property": "C21",
   "status": "proved",
   "theorems": [
    "SeqStorage.Props.num_key_round_trip",
    "SeqStorage.Props.array_key_round_trip",
    "SeqStorage.Props.unit_key_round_trip",
    "SeqStorage.Props.vec_key_round_trip",
    "SeqStorage.Props.vec_key_too_long",
    "SeqStorage.Props.str_key_round_trip"
   ],
   "note": ""
  },
  {
   "property": "C22",
   "status": "proved",
   "theorems": [
    "SeqStorage.Props.num_val_round_trip",
    "SeqStorage.Props.num_array_val_round_trip",
    "SeqStorage.Props.bool_val_round_trip",
    "SeqStorage.Props.option_val_round_trip",
    "SeqStorage.Props.bytes_val_round_trip",
    "SeqStorage.Props.str_val_round_trip"
   ],
   "note": "postcard-derived values are an external crate and not modelled."
  },
  {
   "property": "C23",
   "status": "proved",
   "theorems": [
    "SeqStorage.Props.header_round_trip",
    "SeqStorage.Props.interrupted_header"
   ],
   "note": "On erased flash, every tear position."
  },
  {
   "property": "C24",
   "status": "proved",
   "theorems": [
    "SeqStorage.Props.interrupted_removal"
   ],
   "note": "Every tear position."
  },
  {
   "property": "C25",
   "status": "partial",
   "theorems": [
    "SeqStorage.Props.torn_data_detected_partial",
    "SeqStorage.Props.torn_tail_detected_partial",
    "SeqStorage.Props.torn_data_accepted",
    "SeqStorage.Props.checksum_tells_tails_apart"
   ],
   "note": "False in general (torn_data_accepted). Proved for data the checksum can tell from its torn versions, and for any data when at most the last three bytes are missing."
  },
  {
   "property": "C26",
   "status": "proved",
   "theorems": [
    "SeqStorage.Props.crc32_of_blank",
    "SeqStorage.Props.stored_checksum_low_byte",
    "SeqStorage.Props.stored_checksum_of_blank"
   ],
   "note": "The finite table of all 65536 lengths is evaluated in the kernel."
  },
  {
   "property": "C27",
   "status": "proved",
   "theorems": [
    "SeqStorage.Props.ram_ring_is_fifo"
   ],
   "note": ""
  },
  {
   "property": "C28",
   "status": "proved",
   "theorems": [
    "SeqStorage.Props.push_overwriting_drops_least"
   ],
   "note": ""
  },
  {
   "property": "C29",
   "status": "proved",
   "theorems": [
    "SeqStorage.Props.buffered_is_one_queue",
    "SeqStorage.Props.buffered_splits",
    "SeqStorage.Props.drain_keeps_contents",
    "SeqStorage.Props.drain_all_empties_ram",
    "SeqStorage.Props.oversized_item_blocks_drain",
    "SeqStorage.Props.buffered_with_failures_partial",
    "SeqStorage.Props.failed_drain_loses_nothing_partial",
    "SeqStorage.Props.drained_items_survive_partial",
    "SeqStorage.Props.small_buffer_looks_empty",
    "SeqStorage.Props.failed_drain_repeats_item",
    "SeqStorage.Props.discard_loses_from_the_middle"
   ],
   "note": "Every sequence of calls with large buffers, the flash not failing; buffered_splits is the same for any buffers. The _partial theorems go further: the flash may fail at any byte (hypotheses as for C04), and then a failed drain may leave its item twice (witness)."
  },
  {
   "property": "C30",
   "status": "partial",
   "theorems": [
    "SeqStorage.Props.shared_drain_conserves_partial",
    "SeqStorage.Props.shared_drain_conserves_err",
    "SeqStorage.Props.shared_drain_loses_item",
    "SeqStorage.Props.accepted_item_signalled"
   ],
   "note": "Proved in full for OverflowPolicy::Err. For DiscardOldest the property is false: shared_drain_loses_item is a schedule in which an item is lost; the partial theorem covers schedules in which no item is overwritten between peek and discard. accepted_item_signalled: an accepted item sets the signal, which stays set until the task waits."
  },
  {
   "property": "C31",
   "status": "partial",
   "theorems": [
    "SeqStorage.Props.find_max_fit_partial",
    "SeqStorage.Props.find_max_fit_too_large",
    "SeqStorage.Props.find_max_fit_single_page"
   ],
   "note": "False as stated: find_max_fit_too_large returns a length whose push is refused, find_max_fit_single_page reports corruption on a one-page queue. The partial theorem states what holds for two or more pages."
  },
  {
   "property": "C32",
   "status": "proved",
   "theorems": [
    "SeqStorage.Props.space_left_is_bounded",
    "SeqStorage.Props.space_left_of_fresh",
    "SeqStorage.Props.space_left_after_push"
   ],
   "note": "Without power loss."
  },
  {
   "property": "C33",
   "status": "partial",
   "theorems": [
    "SeqStorage.Props.queue_never_crashes",
    "SeqStorage.Props.map_never_crashes_partial",
    "SeqStorage.Props.map_never_crashes_on_own_contents",
    "SeqStorage.Props.map_never_crashes_after_power_loss_partial",
    "SeqStorage.Props.fetch_can_panic",
    "SeqStorage.Props.iteration_panics_after_power_loss"
   ],
   "note": "Full for the queue on arbitrary flash contents, and for the map on contents it wrote without power loss. After power losses no call but an iteration crashes (checksums that tell torn data, headers that do not complete the remains of others, no half-erased page that looks erased). False of an iteration over a page whose erase was cut short (witness). On arbitrary contents every map call ends and only fetch_item and the iterator can panic, which they do on foreign contents (fetch_can_panic)."
  },
  {
   "property": "C34",
   "status": "partial",
   "theorems": [
    "SeqStorage.Props.config_accepted_iff_safe_partial",
    "SeqStorage.Props.reversed_range_accepted"
   ],
   "note": "Exact for start <= end and an erase size and minimum range that fit 32 bits; a reversed range is accepted in a release build (witness)."
  },
  {
   "property": "C35",
   "status": "partial",
   "theorems": [
    "SeqStorage.Props.erase_all_blanks",
    "SeqStorage.Props.erased_queue_is_fresh_partial",
    "SeqStorage.Props.erased_map_is_fresh_partial",
    "SeqStorage.Props.erased_queue_loses_items",
    "SeqStorage.Props.erased_map_loses_values"
   ],
   "note": "Proved from any flash contents for storages without caches or with new ones. False when the storage object keeps its caches: erase_all does not invalidate them (witnesses erased_queue_loses_items, erased_map_loses_values)."
  },
  {
   "property": "C36",
   "status": "proved",
   "theorems": [
    "SeqStorage.Props.store_succeeds_if_one_page"
   ],
   "note": "Buffers of at least one page (LargeBuffers), two pages or more as the code asserts. "
  },
  {
   "property": "C37",
   "status": "partial",
   "theorems": [
    "SeqStorage.Props.emptied_queue_accepts_partial",
    "SeqStorage.Props.empty_queue_accepts",
    "SeqStorage.Props.emptied_single_page_refuses",
    "SeqStorage.Props.emptied_single_page_space"
   ],
   "note": "Proved for two or more pages; false for a queue of one page (witness)."
  },
  {
   "property": "C38",
   "status": "partial",
   "theorems": [
    "SeqStorage.Props.queue_failed_call_forgotten",
    "SeqStorage.Props.map_failed_call_forgotten_partial",
    "SeqStorage.Props.remove_after_failure_loses_value",
    "SeqStorage.Props.remove_after_failure_revives_key",
    "SeqStorage.Props.fetch_all_after_failure_differs"
   ],
   "note": "Complete for the queue, on arbitrary flash contents and caches. For the map it holds when the next call is a store, fetch or remove_all; false for remove_item, which neither looks at the dirty mark nor keeps it (a later store is lost, or a removed key comes back: witnesses), and for fetch_all_items."
  },
  {
   "property": "C39",
   "status": "partial",
   "theorems": [
    "SeqStorage.Props.fetch_all_after_crash_partial",
    "SeqStorage.Props.fetch_all_reports_corruption",
    "SeqStorage.Props.fetch_all_after_repair_succeeds",
    "SeqStorage.Props.iteration_panics_after_power_loss"
   ],
   "note": "False of the code: a page whose erase was cut short makes fetch_all_items return Corrupted or panic (witnesses). Proved where no such page is left."
  },
  {
   "property": "C40",
   "status": "proved",
   "theorems": [
    "SeqStorage.Props.small_buffer"
   ],
   "note": "Without power loss."
  },
  {
   "property": "C41",
   "status": "proved",
   "theorems": [
    "SeqStorage.Props.peek_is_harmless",
    "SeqStorage.Props.iterating_is_harmless"
   ],
   "note": "Without power loss."
  },
  {
   "property": "C42",
   "status": "proved",
   "theorems": [
    "SeqStorage.Props.restart_is_invisible",
    "SeqStorage.Props.map_restart_is_invisible"
   ],
   "note": "All answers, in every state reached with uninterrupted calls and buffers of the documented size; with smaller buffers the error answers of a map can differ (small_buffers_reveal_caches). For states reached through power losses see C04 and C10, whose theorems allow any new cache at the restart."
  },
  {
   "property": "C43",
   "status": "proved",
   "theorems": [
    "SeqStorage.Props.queue_stays_in_range",
    "SeqStorage.Props.map_stays_in_range"
   ],
   "note": "Any contents, any calls, any power losses; the flash model refuses and counts accesses outside the range, and none is attempted."
  },
  {
   "property": "C44",
   "status": "proved",
   "theorems": [
    "SeqStorage.Props.queue_and_map_do_not_interfere",
    "SeqStorage.Props.two_queues_do_not_interfere",
    "SeqStorage.Props.two_maps_do_not_interfere"
   ],
   "note": "All pairs of kinds, calls do not overlap in time."
  },
  {
   "property": "C45",
   "status": "partial",
   "theorems": [
    "SeqStorage.Props.fetch_all_after_crash_partial",
    "SeqStorage.Props.iteration_shows_stored_after_crash_partial",
    "SeqStorage.Props.iteration_shows_forged_key"
   ],
   "note": "False of the code: when the page the iteration starts on was being erased, the bytes inside a stored value can be shown as an item of another key (witness). Where no page was left with its erase cut short, every pair shown was given to a store call, the last pair shown for a key is what fetch_item returns, and no other key is shown last."
  },
  {
   "property": "C46",
   "status": "proved",
   "theorems": [
    "SeqStorage.Props.page_state_survives_flips",
    "SeqStorage.Props.near_three"
   ],
   "note": "For any contents of the flash and any read size."
  },
  {
   "property": "C47",
   "status": "proved",
   "theorems": [
    "SeqStorage.Props.damaged_items_are_skipped",
    "SeqStorage.Props.one_byte_is_damage",
    "SeqStorage.Props.changed_byte_detected",
    "SeqStorage.Props.damaged_items_are_skipped_torn_partial"
   ],
   "note": "Endures quantifies over all interleavings of calls and damages. Without power loss for all geometries; together with power loss (the _partial theorem) for words of at least eight bytes, two pages and data whose torn version has another checksum, as in C04."
  },
  {
   "property": "C48",
   "status": "partial",
   "theorems": [
    "SeqStorage.Props.damaged_length_costs_one_item_partial",
    "SeqStorage.Props.two_length_bits_cost_one_item",
    "SeqStorage.Props.damaged_length_loses_others",
    "SeqStorage.Props.damaged_length_forges_item"
   ],
   "note": "False of the code in general: damaged_length_loses_others and damaged_length_forges_item are witnesses of the negation. The positive theorems say when it holds, for words of at least eight bytes: no word of the item with the changed length reads as a header or as blank."
  },
  {
   "property": "C49",
   "status": "partial",
   "theorems": [
    "SeqStorage.Props.damaged_entries_are_skipped_partial",
    "SeqStorage.Props.undamaged_key_keeps_value",
    "SeqStorage.Props.stale_location_gives_other_value"
   ],
   "note": "False of the code while the key cache has the location of a damaged item and another call than a fetch of that key comes next (witness). Proved for everything else: restarts, caches without locations of damaged items, and the fetch of such a key."
  },
  {
   "property": "C50",
   "status": "proved",
   "theorems": [
    "SeqStorage.Props.queue_fills_its_pages",
    "SeqStorage.Props.refused_only_when_full",
    "SeqStorage.Props.refused_only_when_full_of_items"
   ],
   "note": "one_item_can_fill_the_queue shows that the restriction to items taken out at the front is needed."
  },
  {
   "property": "C51",
   "status": "partial",
   "theorems": [
    "SeqStorage.Props.flipped_length_noticed_partial",
    "SeqStorage.Props.four_flips_unnoticed",
    "SeqStorage.Props.three_flips_unnoticed",
    "SeqStorage.Props.named_polynomial_notices_five",
    "SeqStorage.Props.length_checksum_top_bits",
    "SeqStorage.Props.length_checksum_shared"
   ],
   "note": "False of the code: the constant 0x1a2e is the named polynomial 0x1a2eb without its last digit, and is used unreflected in a right-shifting loop. Four flipped bits can go unnoticed (four_flips_unnoticed), three when the avoided value 0xffff is involved (three_flips_unnoticed); three bits of every checksum are constant and eight lengths share each value, whereas the named polynomial would notice any five. Proved: one or two flipped bits are always noticed, three unless a checksum is 0xfffe."
  },
  {
   "property": "C52",
   "status": "partial",
   "theorems": [
    "SeqStorage.Props.slips_do_not_show_partial",
    "SeqStorage.Props.next_item_despite_slips_partial",
    "SeqStorage.Props.wrong_data_not_returned",
    "SeqStorage.Props.checksum_slip_not_retried",
    "SeqStorage.Props.blank_read_not_retried",
    "SeqStorage.Props.blank_slip_not_retried",
    "SeqStorage.Props.passing_error_reorders"
   ],
   "note": "Proved for bad reads that hit the length of a header or its checksum in one or two bits, one byte of the data of a sound item, or free space outside the two bytes of the length checksum; also proved: with repeatable reads the retries change nothing, so leaving them out of the other functions of the model is no loss. False of the code otherwise: the data checksum in a header is not covered by the retry, so the item is skipped (checksum_slip_not_retried) and a queue can hand out its items in the wrong order (passing_error_reorders); a read of only ones ends the page at once (blank_read_not_retried); one wrong bit in free space is reported without a second try (blank_slip_not_retried)."
  },
  {
   "property": "C53",
   "status": "proved",
   "theorems": [
    "SeqStorage.Props.map_fills_its_pages",
    "SeqStorage.Props.store_refused_iff",
    "SeqStorage.Props.store_succeeds_with_room"
   ],
   "note": "Implies C36. refused_though_it_fits shows why the bound counts pages: items from different pages are never put together on one page, so a store can be refused though everything would fit."
  },
  {
   "property": "C54",
   "status": "proved",
   "theorems": [
    "SeqStorage.Props.built_in_map_returns_last_stored",
    "SeqStorage.Props.built_in_codes",
    "SeqStorage.Props.BuiltInKey.round_trip",
    "SeqStorage.Props.BuiltInVal.round_trip"
   ],
   "note": "built_in_codes makes every theorem about maps apply to the built-in types. PostcardValue is not modelled."
  },
  {
   "property": "C55",
   "status": "proved",
   "theorems": [
    "SeqStorage.Props.key_decodes_iff",
    "SeqStorage.Props.value_decodes_to_its_bytes",
    "SeqStorage.Props.value_decodes_up_to_tags",
    "SeqStorage.Props.tagged_values_have_several_bytes"
   ],
   "note": "An equivalence for keys; for values the bytes read are the encoding, up to the tag bytes of bool and Option, where every non-zero byte is true. PostcardValue is not modelled."
  },
  {
   "property": "C56",
   "status": "proved",
   "theorems": [
    "SeqStorage.Props.queue_counts_its_erases",
    "SeqStorage.Props.queue_erases_little",
    "SeqStorage.Props.queue_erases_once_per_page"
   ],
   "note": "For histories on a fresh region without power loss. The count is of the erases the model flash records; the maps are not covered (C17 says how their erases are spread)."
  },
  {
   "property": "C57",
   "status": "proved",
   "theorems": [
    "SeqStorage.Props.queue_queries_program_nothing",
    "SeqStorage.Props.queue_sizes_cost_nothing",
    "SeqStorage.Props.queue_in_use_sizes_cost_nothing",
    "SeqStorage.Props.map_reads_cost_nothing"
   ],
   "note": "The queue theorems need no invariant. Looking and iterating may erase pages whose items are gone (witness peek_erases), and a half erased page is erased by a question for sizes (witness half_erased_is_erased). After a power loss a read of the map repairs, so the map theorem is about states reached without power loss."
  },
  {
   "property": "C58",
   "status": "proved",
   "theorems": [
    "SeqStorage.Props.shared_queue_keeps_order",
    "SeqStorage.Props.shared_queue_loses_nothing"
   ],
   "note": "Any policy and any buffers for the order. A flash operation is one step of the schedule; interrupts touch only the ring and the signal. That other policies can lose an item during a drain is C30's witness shared_drain_loses_item."
  },
  {
   "property": "C59",
   "status": "partial",
   "theorems": [
    "SeqStorage.Props.shared_pop_takes_oldest_partial",
    "SeqStorage.Props.shared_pop_refused"
   ],
   "note": "Proved: it does, or the flash refuses an item (too big, or full and nothing may be overwritten) and all items are kept in order. False in general: with a full flash pop fails again and again though the oldest item could be popped (witness shared_pop_refused)."
  },
  {
   "property": "C60",
   "status": "partial",
   "theorems": [
    "SeqStorage.Props.drain_task_wakes_partial",
    "SeqStorage.Props.drain_finishes",
    "SeqStorage.Props.drain_sleeps_on_items"
   ],
   "note": "Proved as long as no call has failed. After a failed call the signal is gone and the next wait_and_drain_all sleeps on pending items (witness drain_sleeps_on_items)."
  },
  {
   "property": "C61",
   "status": "proved",
   "theorems": [
    "SeqStorage.Props.queue_errors_mean",
    "SeqStorage.Props.too_big_always_refused",
    "SeqStorage.Props.map_errors_mean"
   ],
   "note": "No invariant is assumed. The map theorem assumes that serializers write no more than the buffer holds, as all built-in ones do (num_modest for numbers)."
  },
  {
   "property": "C62",
   "status": "proved",
   "theorems": [
    "SeqStorage.Props.map_counts_its_erases",
    "SeqStorage.Props.only_stores_erase",
    "SeqStorage.Props.map_erases_little",
    "SeqStorage.Props.map_erases_once_per_page",
    "SeqStorage.Props.refused_store_wears"
   ],
   "note": "Exact count of the erases of a map on a fresh region as a refinement of the list of pages of C53 with a number of erases; from it by induction over runs the bounds. refused_store_wears: the bound for one store is met by a store that is refused, which erases every page once. Runs without power loss and without flash faults."
  },
  {
   "property": "C63",
   "status": "proved",
   "theorems": [
    "SeqStorage.Props.shared_queue_survives_failures",
    "SeqStorage.Props.power_loss_empties_only_the_ring",
    "SeqStorage.Props.shared_queue_drains_after_failures",
    "SeqStorage.Props.retried_drain_repeats_item",
    "SeqStorage.Props.failed_pop_loses_item"
   ],
   "note": "A future dropped inside a flash operation is a failure of the flash there. retried_drain_repeats_item and failed_pop_loses_item show that repetitions and the loss in a failed pop do happen."
  },
  {
   "property": "C64",
   "status": "proved",
   "theorems": [
    "SeqStorage.Props.queue_calls_erase_boundedly",
    "SeqStorage.Props.map_calls_erase_boundedly"
   ],
   "note": "Queue: on any flash contents, with new caches at the start and any of the crate's caches. Map: in any state, also with caches that are wrong."
  },
  {
   "property": "C65",
   "status": "proved",
   "theorems": [
    "SeqStorage.Props.listing_harmless",
    "SeqStorage.Props.listing_changes_nothing",
    "SeqStorage.Props.listing_shows_queue",
    "SeqStorage.Props.listing_shows_map",
    "SeqStorage.Props.listing_panics",
    "SeqStorage.Props.long_item_panics",
    "SeqStorage.Props.listing_shows_queue_after_crash_partial",
    "SeqStorage.Props.listing_shows_map_after_crash_partial"
   ],
   "note": "Proved as stated. The two theorems named partial go further: histories with power loss, under the conditions of C04 and C10."
  },
  {
   "property": "C66",
   "status": "partial",
   "theorems": [
    "SeqStorage.Props.stuck_iff_misread",
    "SeqStorage.Props.stuck_grows",
    "SeqStorage.Props.queue_programs_read_back",
    "SeqStorage.Props.queue_programs_read_back_after_crash_partial",
    "SeqStorage.Props.map_programs_read_back",
    "SeqStorage.Props.map_programs_read_back_after_crash_partial",
    "SeqStorage.Props.torn_single_page_overwritten",
    "SeqStorage.Props.second_program_not_zero"
   ],
   "note": "Without power loss proved for every geometry and every run. With power loss proved for two or more pages outside the cases in which C04 and C10 are false; for a single page it is false (torn_single_page_overwritten). The second programming of a word need not be all zeros (second_program_not_zero)."
  },
  {
   "property": "C67",
   "status": "partial",
   "theorems": [
    "SeqStorage.Props.interrupted_erase_all",
    "SeqStorage.Props.repeated_erase_all_queue_partial",
    "SeqStorage.Props.repeated_erase_all_map_partial",
    "SeqStorage.Props.interrupted_erase_all_hides_items",
    "SeqStorage.Props.interrupted_erase_all_garbles_item",
    "SeqStorage.Props.interrupted_erase_all_revives_value"
   ],
   "note": "Proved from any flash contents: the exact effect of the interruption, and that a repeated erase_all gives a fresh storage. The last sentence is false: a queue that goes on hides items or garbles the next one (interrupted_erase_all_hides_items, interrupted_erase_all_garbles_item), a map brings back a replaced value (interrupted_erase_all_revives_value)."
  },
  {
   "property": "C68",
   "status": "proved",
   "theorems": [
    "SeqStorage.Props.queue_reserve_is_enough",
    "SeqStorage.Props.reserved_run",
    "SeqStorage.Props.map_reserve_is_enough",
    "SeqStorage.Props.reserved_map_run",
    "SeqStorage.Props.push_without_reserve",
    "SeqStorage.Props.quiet_reserve_is_enough",
    "SeqStorage.Props.push_erases_a_page"
   ],
   "note": "The reserve counts a page for each erase (the bounds of C64) and the bytes programmed. The bound for copying items in a map is the size of the range, since a copy on a damaged flash is stopped only by its end; it is generous for an undamaged map. push_without_reserve shows that one byte less than a push really uses interrupts it. For queues that never lost power quiet_reserve_is_enough gives a smaller reserve: one page for a push, one less than all pages for pop, peek and iterate, none for the space queries and reopening."
  },
  {
   "property": "C69",
   "status": "proved",
   "theorems": [
    "SeqStorage.Props.small_buffer_interrupts",
    "SeqStorage.Props.complaint_interrupts",
    "SeqStorage.Props.small_buffer_interrupts_queue",
    "SeqStorage.Props.small_buffer_leaves_markers",
    "SeqStorage.Props.small_buffer_erases_a_page"
   ],
   "note": "For the built-in keys and values and any contents of flash and cache. small_buffer_leaves_markers is a store that fails half way because of its buffer and leaves a changed flash, small_buffer_erases_a_page a pop."
  },
  {
   "property": "C70",
   "status": "partial",
   "theorems": [
    "SeqStorage.Props.queue_ignores_buffer_contents",
    "SeqStorage.Props.map_ignores_buffer_contents_partial",
    "SeqStorage.Props.old_buffer_contents_matter"
   ],
   "note": "The queue part is complete. The map part is for maps that were never interrupted and buffers that take every item, and compares answers. For a map over a flash with an item shorter than a key it is false of the code: Item::data gives the whole buffer, so old contents are taken for the rest of the key (old_buffer_contents_matter)."
  }
 ]
}
