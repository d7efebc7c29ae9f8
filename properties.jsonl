{"id": "C01", "title": "Queue is a FIFO", "statement": "Starting from an erased flash region, any sequence of push, pop and peek calls answers exactly like a first-in first-out list of byte strings: pop and peek return the oldest item that has not been popped, byte for byte, and None exactly when there is none; a successful push appends. No call ever reports corruption, a logic bug or panics.", "quantifier": "for every geometry (word size, page size, page count), every cache choice and every finite sequence of calls with arbitrary data", "why_tests_cant": "The state space (fill levels, wrap-around positions, partly popped pages, page sizes) is unbounded; tests sample a few geometries and orders.", "anchors": ["src/queue/mod.rs: QueueStorage::push, pop, peek, push_inner, find_youngest_page, find_oldest_page, QueueIterator::next_inner", "src/item.rs: Item::write_new, ItemHeaderIter::traverse"]}
{"id": "C02", "title": "A refused push changes nothing", "statement": "When push returns FullStorage or ItemTooBig, the sequence of items that can still be popped is exactly what it was before. FullStorage is never returned when overwriting old data is allowed. ItemTooBig is returned exactly when the data does not fit a page of its own (or exceeds 65535 bytes).", "quantifier": "for every reachable queue state, every data length and both values of the overwrite flag", "why_tests_cant": "Requires comparing the whole remaining contents after a refusal in every reachable state.", "anchors": ["src/queue/mod.rs: push_inner", "src/item.rs: is_page_empty, find_next_free_item_spot"]}
{"id": "C03", "title": "Overwriting push only sacrifices the oldest items", "statement": "A push that is allowed to overwrite always succeeds for data that fits a page. Afterwards the queue holds some suffix of the previous items followed by the new item: only oldest items are dropped, in order, and the order of the survivors is unchanged.", "quantifier": "for every reachable queue state and every data that fits a page", "why_tests_cant": "The dropped page depends on the wrap-around state; tests only see a few.", "anchors": ["src/queue/mod.rs: push_inner (PageState::Closed arm)"]}
{"id": "C04", "title": "Queue survives power loss at any byte", "statement": "If power is lost after any number of programmed or erased bytes during push or pop, then after restart the queue contains exactly the items it had before the call, or exactly those it would have had after it (for an overwriting push: possibly with the oldest page of items dropped and the new item absent). No other item is lost, altered, duplicated or reordered, and no torn item is ever returned.", "quantifier": "for every reachable state, every call and every crash point (byte index), including crashes during the recovery of a previous crash", "why_tests_cant": "Crash points times histories is unbounded; the fuzzer samples.", "anchors": ["src/queue/mod.rs: push_inner, QueueIteratorEntry::pop, next_inner, try_repair", "src/item.rs: write_raw, erase_data, read_new, read_item, adapted_crc32, crc16", "src/lib.rs: get_page_state, open_page, close_page, partial_close_page"]}
{"id": "C05", "title": "Queue recovers by itself after power loss", "statement": "After any number of power losses, the next calls never report Corrupted: the built-in repair always restores a usable queue.", "quantifier": "for every history of calls and crash points", "why_tests_cant": "Needs all sequences of interrupted operations and interrupted repairs.", "anchors": ["src/queue/mod.rs: try_repair, run_with_auto_repair", "src/lib.rs: try_general_repair"]}
{"id": "C06", "title": "Queue iteration returns every item once and pops exactly the chosen ones", "statement": "Iterating a queue returns its items oldest to newest, each exactly once, then None. Popping an arbitrary subset of the entries while iterating removes exactly those items and no others, even though pages are erased on the fly.", "quantifier": "for every reachable queue state and every choice of entries to pop", "why_tests_cant": "The number of pop patterns is exponential in the queue length.", "anchors": ["src/queue/mod.rs: QueueIterator::next, next_inner, QueueIteratorEntry::pop, PreviousItemStates"]}
{"id": "C07", "title": "Map returns the last stored value", "statement": "Starting from an erased flash region, any sequence of store_item, remove_item, remove_all_items and fetch_item answers like an ordinary finite map: fetch_item(k) returns exactly the bytes most recently stored for k, or None if k was never stored or was removed after its last store.", "quantifier": "for every geometry, every cache choice, every lawful key type and every finite sequence of calls", "why_tests_cant": "Depends on unbounded histories with page wrap-around and garbage collection.", "anchors": ["src/map.rs: fetch_item, fetch_item_with_location, store_item_inner, remove_item_inner, migrate_items"]}
{"id": "C08", "title": "A refused store changes nothing", "statement": "When store_item returns FullStorage, ItemTooBig or a serialization error, every key (including the one being stored) still fetches exactly what it fetched before.", "quantifier": "for every reachable map state, every key and every value", "why_tests_cant": "FullStorage happens only after every page has been recycled once; all of that churn must preserve every key.", "anchors": ["src/map.rs: store_item_inner"]}
{"id": "C09", "title": "Garbage collection never loses or resurrects data", "statement": "Recycling a page keeps, for every key, exactly the value that fetch_item returned before: no live value is dropped and no superseded or removed value becomes visible again.", "quantifier": "for every reachable map state and every page that gets recycled", "why_tests_cant": "Which items are live depends on the whole history across all pages.", "anchors": ["src/map.rs: migrate_items, store_item_inner"]}
{"id": "C10", "title": "Map store survives power loss at any byte", "statement": "If power is lost after any number of programmed or erased bytes during store_item(k, v), then after restart fetch_item(k) returns either the previous value of k or v, and every other key returns exactly what it returned before.", "quantifier": "for every reachable state, every key, value and crash point, including crashes during recovery", "why_tests_cant": "Crash points times histories is unbounded.", "anchors": ["src/map.rs: store_item_inner, migrate_items, try_repair", "src/item.rs: write_raw", "src/lib.rs: open_page, close_page, partial_close_page"]}
{"id": "C11", "title": "Interrupted remove never brings back an older value", "statement": "If power is lost during remove_item(k), then afterwards fetch_item(k) returns the value k had just before the call or None - never an older value of k - and every other key is untouched.", "quantifier": "for every reachable state, key and crash point", "why_tests_cant": "The set of stale copies of a key spread over pages is unbounded.", "anchors": ["src/map.rs: remove_item_inner"]}
{"id": "C12", "title": "Map recovers by itself after power loss", "statement": "After any number of power losses, store_item, fetch_item and remove_item never report Corrupted; an interrupted garbage collection is redone without losing data.", "quantifier": "for every history of calls and crash points", "why_tests_cant": "Needs interrupted repairs of interrupted migrations.", "anchors": ["src/map.rs: try_repair, migrate_items", "src/lib.rs: try_general_repair"]}
{"id": "C13", "title": "remove_item removes exactly one key", "statement": "After a successful remove_item(k), fetch_item(k) returns None until k is stored again, no matter how many old copies of k existed, and all other keys are unchanged. After remove_all_items every key fetches None.", "quantifier": "for every reachable map state and every key", "why_tests_cant": "Old copies may be spread over any number of pages.", "anchors": ["src/map.rs: remove_item, remove_all_items, remove_item_inner"]}
{"id": "C14", "title": "Iterating the map shows the current contents", "statement": "Reading fetch_all_items to the end and keeping the last value seen per key yields exactly the current map: every live key with its current value and no removed key.", "quantifier": "for every reachable map state", "why_tests_cant": "Depends on page order after arbitrary wrap-around.", "anchors": ["src/map.rs: fetch_all_items, MapItemIter::next"]}
{"id": "C15", "title": "Flash is only accessed inside the configured range and aligned", "statement": "No call ever reads, programs or erases outside the configured flash range, and every access obeys the flash's alignment: reads in multiples of the read size, programs in multiples of the write size, erases of whole pages; no zero-length access is made.", "quantifier": "for every geometry, every call sequence and every crash point", "why_tests_cant": "An out-of-range access may need a particular fill level.", "anchors": ["src/lib.rs: get_page_state, open_page, close_page, partial_close_page, calculate_page_address", "src/item.rs: read_new, read_item, write_raw", "src/mock_flash.rs: validate_operation"]}
{"id": "C16", "title": "Without removing or popping, every flash word is programmed at most once per erase", "statement": "A map used only through store_item/fetch_item and a queue used only through push/peek program each flash word at most once between erases; remove_item and pop program the header word(s) of an item at most once more. So the map and the queue work on flash that does not allow reprogramming.", "quantifier": "for every sequence of uninterrupted calls", "why_tests_cant": "A double write can depend on any fill level or page order.", "anchors": ["src/item.rs: write_raw, erase_data, find_next_free_item_spot", "src/lib.rs: close_page, partial_close_page", "src/mock_flash.rs: WriteCountCheck"]}
{"id": "C17", "title": "Pages are erased in round-robin order", "statement": "The pages are erased strictly cyclically, so the erase counts of any two pages of the range never differ by more than one.", "quantifier": "for every sequence of uninterrupted calls on a fresh region", "why_tests_cant": "A statement about unbounded histories.", "anchors": ["src/map.rs: store_item_inner, migrate_items", "src/queue/mod.rs: push_inner, next_inner"]}
{"id": "C18", "title": "Caches never change answers", "statement": "The page-state, page-pointer and key-pointer caches are invisible: with any combination of caches every call returns the same result as without cache, as long as the cache object is used as documented.", "quantifier": "for every cache combination and every sequence of uninterrupted calls with large enough buffers", "why_tests_cant": "A stale cache entry may need a long history to become visible.", "anchors": ["src/cache/mod.rs: Cache", "src/cache/page_states.rs", "src/cache/page_pointers.rs", "src/cache/key_pointers.rs", "src/lib.rs: get_page_state_cached"]}
{"id": "C19", "title": "The calculated page-state cache is never wrong", "statement": "Whatever page states the storage reports to CalculatedPageStates while it fills, closes, opens and wraps around its pages, a state the cache hands out is the page's real state; it never panics.", "quantifier": "for every page count and every sequence of page transitions the storage performs", "why_tests_cant": "The arithmetic around the wrap-around anchor has many cases; only two small scenarios are unit tested.", "anchors": ["src/cache/page_states.rs: CalculatedPageStates::get_page_state, notice_page_state, places_behind_of_anchor, places_in_front_of_anchor"]}
{"id": "C20", "title": "The key-pointer cache answers with the last noticed location", "statement": "The key-pointer cache returns for a key either nothing or the location most recently noticed for it; after a key is erased it returns nothing for it; it keeps the most recently used keys, up to its capacity.", "quantifier": "for every capacity of at least one and every sequence of notices and erasures", "why_tests_cant": "Sequences are unbounded.", "anchors": ["src/cache/key_pointers.rs: TrackedKeyPointers, move_to_front, move_to_back"]}
{"id": "C21", "title": "Built-in keys survive the round trip", "statement": "For every built-in key type, deserializing a serialized key followed by arbitrary bytes gives back the same key and its exact length, get_len agrees, and serialization fails exactly when the buffer is shorter than the key.", "quantifier": "for every key value of every built-in type and all trailing bytes", "why_tests_cant": "Infinitely many values and trailing bytes.", "anchors": ["src/map.rs: impl_key_num!, Key for [u8; N], Key for ()", "src/alloc_impl.rs", "src/arrayvec_impl.rs", "src/heapless_impl.rs"]}
{"id": "C22", "title": "Built-in values survive the round trip", "statement": "For every built-in value type (integers, floats as bit patterns, arrays of numbers, bool, nested Option, byte slices), deserializing exactly the serialized bytes gives back the same value and consumes all bytes.", "quantifier": "for every value of every built-in type, arbitrarily nested", "why_tests_cant": "Infinitely many values.", "anchors": ["src/map.rs: Value for bool, Option<T>, &[u8], impl_map_item_num!"]}
{"id": "C23", "title": "Item headers cannot be mistaken for free space and interrupted headers never validate", "statement": "A fully programmed item header decodes to the length and checksum that were written and never looks like erased flash. A header that was only partly programmed never decodes as a valid item header unless the missing bytes are 0xFF anyway.", "quantifier": "for every length, every checksum and every number of programmed bytes", "why_tests_cant": "2^48 headers times the tear positions.", "anchors": ["src/item.rs: ItemHeader::write, read_new, crc16, adapted_crc32"]}
{"id": "C24", "title": "An item whose removal was interrupted never reads as present", "statement": "As soon as the first byte of an item's header has been overwritten during removal, the item is no longer returned by any read; before that it is returned unchanged.", "quantifier": "for every item content and every number of overwritten header bytes", "why_tests_cant": "All checksums times tear positions.", "anchors": ["src/item.rs: erase_data, adapted_crc32, read_item"]}
{"id": "C25", "title": "Torn item data is detected", "statement": "If power is lost while item data is being programmed, the torn item is either bit-identical to the full item or is recognised as corrupt and skipped.", "quantifier": "for every data content and every tear position", "why_tests_cant": "All contents times tear positions; depends on the checksum.", "anchors": ["src/item.rs: write_raw, read_item, adapted_crc32, crc32"]}
{"id": "C26", "title": "The checksum of an all-ones item is never all ones", "statement": "For every item length up to the maximum of 65535, the checksum of data consisting only of 0xFF bytes differs from 0xFFFFFFFF, so blank flash can never pass for an item of any length.", "quantifier": "for every length from 0 to 65535", "why_tests_cant": "The repository's own test says it does not test all lengths because it takes too long.", "anchors": ["src/item.rs: crc32, crc32_with_initial, crc32_all_ones_resistant"]}
{"id": "C27", "title": "The RAM ring is a FIFO of byte strings", "statement": "Any sequence of push, push_overwriting, peek_into and discard_oldest on a RamRing behaves like a FIFO list in which each item occupies its length plus two bytes: push is refused exactly when the item does not fit in the remaining space, items come out unchanged and in order, and bytes_used equals the total footprint.", "quantifier": "for every capacity N, every sequence of operations and all contents", "why_tests_cant": "Wrap-around positions and contents are unbounded.", "anchors": ["src/queue/buffered.rs: RamRing"]}
{"id": "C28", "title": "Overwriting the RAM ring drops as few items as possible", "statement": "push_overwriting drops the shortest prefix of oldest items that makes room for the new item, then appends it; it is refused (leaving everything unchanged) only if the item can never fit.", "quantifier": "for every ring state and every item", "why_tests_cant": "All ring states and sizes.", "anchors": ["src/queue/buffered.rs: RamRing::push_overwriting"]}
{"id": "C29", "title": "A buffered queue is one FIFO", "statement": "A BufferedQueue behaves as a single FIFO whose contents are the flash items followed by the RAM items: enqueue appends at the end, pop and peek deliver the oldest item overall, draining moves items from RAM to flash without changing the overall contents, and a failed drain loses nothing.", "quantifier": "for every sequence of enqueue, drain, pop, peek calls with large enough buffers", "why_tests_cant": "Interleavings and fill levels are unbounded.", "anchors": ["src/queue/buffered.rs: BufferedQueue::enqueue, drain_one, drain_all, pop, peek"]}
{"id": "C30", "title": "Draining a shared ring never loses an item", "statement": "While the drain task moves items from a SharedRamRing to flash and interrupts enqueue concurrently, every successfully enqueued item is either still in the ring, written to flash, or was dropped by the overflow policy to make room; nothing else disappears and nothing is written twice.", "quantifier": "for every interleaving of enqueues with the steps of the drain task and both overflow policies", "why_tests_cant": "Interleavings are unbounded and timing dependent.", "anchors": ["src/queue/buffered.rs: SharedRamRing::drain_one, enqueue"]}
{"id": "C31", "title": "find_max_fit tells the truth", "statement": "If find_max_fit returns Some(n), a following push of n bytes without overwriting succeeds, and a push of more than n bytes does not; None means no push succeeds without overwriting.", "quantifier": "for every reachable queue state", "why_tests_cant": "Depends on fill level, alignment and page states.", "anchors": ["src/queue/mod.rs: find_max_fit_inner", "src/item.rs: available_data_bytes"]}
{"id": "C32", "title": "space_left is bounded and consistent", "statement": "space_left never exceeds the total data capacity of the pages, equals it for an empty region, and a successful push that stays on the same page reduces it by exactly the item overhead plus the padded data length.", "quantifier": "for every reachable queue state", "why_tests_cant": "Depends on fill level and page states.", "anchors": ["src/queue/mod.rs: space_left_inner"]}
{"id": "C33", "title": "No call panics or runs forever", "statement": "Every call terminates and returns a result; there is no arithmetic overflow or underflow, out-of-bounds index, failed unwrap or reached unreachable!() when the documented preconditions hold.", "quantifier": "for every geometry accepted by the constructor, every reachable state and every argument", "why_tests_cant": "A non-terminating scan or underflow may need a particular byte pattern.", "anchors": ["src/item.rs: ItemHeaderIter::traverse", "src/map.rs: store_item_inner, fetch_item_with_location", "src/queue/mod.rs: next_inner", "src/lib.rs: calculate_page_index"]}
{"id": "C34", "title": "Accepted configurations are safe", "statement": "If the constructor accepts a flash range, then the range is non-empty, page-aligned, has at least one (queue) or two (map) pages, and each page can hold its two markers, an item header and at least one word of data. Every other range is rejected with an error rather than a panic.", "quantifier": "for every 32-bit range and every geometry", "why_tests_cant": "2^64 ranges times geometries.", "anchors": ["src/map.rs: MapConfig::try_new", "src/queue/mod.rs: QueueConfig::try_new"]}
{"id": "C35", "title": "erase_all resets the storage", "statement": "After erase_all, the storage is empty, and continues to work like a fresh one: items stored afterwards are found again, also after a restart.", "quantifier": "for every reachable state, every cache choice and every following call sequence", "why_tests_cant": "Needs all states before and all histories after.", "anchors": ["src/lib.rs: GenericStorage::erase_all", "src/map.rs: erase_all", "src/queue/mod.rs: erase_all"]}
{"id": "C36", "title": "The map never reports full while the live data fits one page", "statement": "If the live items (newest value of every key) together with the item being stored take no more than the data space of one page, store_item succeeds.", "quantifier": "for every reachable map state", "why_tests_cant": "FullStorage depends on the distribution of live items over pages.", "anchors": ["src/map.rs: store_item_inner"]}
{"id": "C37", "title": "An emptied queue accepts data again", "statement": "Once pop has returned None, a push (without overwriting) of any data that fits a page succeeds.", "quantifier": "for every history that leads to an empty queue", "why_tests_cant": "Depends on which pages were reclaimed.", "anchors": ["src/queue/mod.rs: push_inner, next_inner", "src/item.rs: is_page_empty"]}
{"id": "C38", "title": "Errors do not poison later calls in the same session", "statement": "If a call fails with a flash error and the application keeps using the same storage object (with its caches), later calls behave exactly as if the caches had been empty.", "quantifier": "for every cache choice, every failing operation and every following call", "why_tests_cant": "Needs every failure point combined with every following call.", "anchors": ["src/cache/mod.rs: DirtTracker", "src/map.rs: remove_item_inner, fetch_all_items", "src/queue/mod.rs: push_inner, next_inner"]}
{"id": "C39", "title": "Map iteration repairs like every other call", "statement": "After a power loss, fetch_all_items succeeds like fetch_item does: corruption left by an interrupted page erase is repaired automatically instead of being reported to the caller.", "quantifier": "for every state reachable through a power loss", "why_tests_cant": "Needs a crash inside a page erase followed by iteration.", "anchors": ["src/map.rs: fetch_all_items", "src/lib.rs: run_with_auto_repair"]}
{"id": "C40", "title": "A too small buffer is reported and harmless", "statement": "If the data buffer is smaller than the (padded) oldest item, peek and pop return BufferTooSmall with the needed size and the item stays in the queue; with a buffer of that size the call succeeds.", "quantifier": "for every queue state and every buffer length", "why_tests_cant": "All item and buffer lengths.", "anchors": ["src/item.rs: read_item", "src/queue/mod.rs: peek, pop"]}
{"id": "C41", "title": "Peeking does not disturb the queue", "statement": "peek and iterating without popping leave the sequence of items unchanged, and a pop directly after a peek returns the same bytes.", "quantifier": "for every reachable queue state", "why_tests_cant": "Iteration may erase fully popped pages as a side effect.", "anchors": ["src/queue/mod.rs: peek, next_inner"]}
{"id": "C42", "title": "Restarting does not change the contents", "statement": "Dropping the storage object (with its caches) between calls and creating a new one on the same flash gives the same answers as continuing with the old one.", "quantifier": "for every reachable state and every point of restart", "why_tests_cant": "The RAM caches and the flash must agree at every point of every history.", "anchors": ["src/lib.rs: GenericStorage::destroy", "src/map.rs: MapStorage::new", "src/queue/mod.rs: QueueStorage::new"]}
{"id": "C43", "title": "A storage keeps to its flash range", "statement": "No call changes, or tries to change or read, a byte outside the configured flash range, and the results of calls do not depend on anything outside it.", "quantifier": "for every flash contents, every call sequence, every point of power loss and every two chips that agree on the range", "why_tests_cant": "Tests look at the range only and start from contents the crate wrote itself.", "anchors": ["src/lib.rs: open_page, close_page, partial_close_page", "src/item.rs: ItemHeader::read_new, write_raw", "src/map.rs", "src/queue/mod.rs"]}
{"id": "C44", "title": "Storages on one chip do not interfere", "statement": "Two storages with flash ranges that do not overlap on one chip answer, in any interleaving of their calls and power losses, as if each had the chip to itself.", "quantifier": "for every pair of storages (queue or map), every interleaving and every point of power loss", "why_tests_cant": "The number of interleavings and contents is unbounded; no test uses two storages on one flash.", "anchors": ["src/lib.rs: GenericStorage", "src/map.rs: MapStorage", "src/queue/mod.rs: QueueStorage"]}
{"id": "C45", "title": "Iteration after a power loss shows only stored pairs", "statement": "After a power loss, every key-value pair that fetch_all_items shows was stored at some time and, for each key, the last pair shown is what fetch_item returns.", "quantifier": "for every state reachable through a power loss and every sequence of buffers", "why_tests_cant": "Needs a crash at a particular byte of a page erase, a value that contains the bytes of an item, and an iteration before any other call.", "anchors": ["src/map.rs: fetch_all_items, MapItemIter::next", "src/item.rs: ItemHeaderIter::traverse"]}
{"id": "C46", "title": "Page markers survive bit flips", "statement": "The state of a page is detected correctly as long as at most three bits of an erased marker, or all but four bits of a written marker, have flipped.", "quantifier": "for every flash contents, every page, every read size and every set of flipped bits within these limits", "why_tests_cant": "The sets of flipped bits grow exponentially with the read size; the tests flip none.", "anchors": ["src/lib.rs: get_page_state, HALF_MARKER_BITS"]}
{"id": "C47", "title": "Damaged items of a queue are skipped", "statement": "When bytes of stored items change by themselves, except in the length of an item, and the checksum of every changed item is now wrong, then all later calls answer as a queue without the changed items: nothing else is lost and nothing else is shown. Every change of a single byte is one of these.", "quantifier": "for every history of calls and damages in any order, any number of changed bytes, every data length up to 65535", "why_tests_cant": "The tests damage nothing; the histories and the places of the damage are unbounded.", "anchors": ["README.md: Corruption repair", "src/item.rs: ItemHeader::read_item, adapted_crc32", "src/queue/mod.rs: QueueIteratorEntry, next_item"]}
{"id": "C48", "title": "A damaged length costs only its own item", "statement": "When the length of a stored item changes by itself, only this item is lost.", "quantifier": "for every history of calls and every single bit flip in the length or its checksum", "why_tests_cant": "Needs a flipped bit in a header together with particular data behind it.", "anchors": ["src/item.rs: ItemHeader::read_new, ItemHeaderIter::traverse"]}
{"id": "C49", "title": "Damaged items of a map are skipped", "statement": "When bytes of stored items change by themselves, except in the length of an item, and the checksum of every changed item is now wrong, then all later calls answer as a map without the changed items: a key whose newest item is damaged has the previous value that is still in the flash, or none, and every other key keeps its value. No key gets a value that was never stored for it.", "quantifier": "for every history of calls and damages in any order, any number of changed bytes, any cache", "why_tests_cant": "The tests damage nothing; a stale location in the key cache shows only after the page has been erased and written again.", "anchors": ["README.md: Corruption repair", "src/map.rs: fetch_item_with_location", "src/cache/key_pointers.rs"]}
{"id": "C50", "title": "A push is refused only when the queue is full", "statement": "The pages of a queue are filled one after the other and used again oldest first: an item goes behind the last one if it fits there, else to the next page, else to the oldest page if none of its items is left or it may be overwritten, and only else the push is refused. The answers of space_left and, with two or more pages, of find_max_fit follow from this. Hence, with two or more pages and items taken out at the front only, a push is refused only if on all pages but one there is less room left than the largest item takes; with items of equal length of which k fit a page, only if more than k times the number of pages minus one are in the queue.", "quantifier": "for every sequence of documented calls without power loss on a fresh region, every geometry, every cache, every data", "why_tests_cant": "The capacity depends on the order of sizes, pops and page turns; tests try a few fixed sizes, and a queue that refuses too early still passes tests that only check the order of items.", "anchors": ["src/queue/mod.rs: push_inner", "src/queue/mod.rs: space_left", "src/queue/mod.rs: find_max_fit", "src/queue/mod.rs: QueueIterator::next"]}
{"id": "C51", "title": "The length checksum is as strong as the polynomial it names", "statement": "The checksum over the length of an item, called CRC-16F/4.2, notices every change of up to five bits in the length and the checksum of a stored header: the header is then reported as unreadable instead of being taken for a header of another length.", "quantifier": "for every length, every placement of the flipped bits, every data checksum", "why_tests_cant": "There are 2^32 pairs of lengths and the constant of the polynomial is just a number; tests check a few values computed by the same code.", "anchors": ["src/item.rs: crc16", "src/item.rs: ItemHeader::read_new"]}
{"id": "C52", "title": "A single bad read does not show", "statement": "When a read returns wrong bytes once and the right ones when repeated, scanning a page for items gives the same items, addresses and data as without the bad read. Data off by a byte is never returned, however often it is misread.", "quantifier": "for every flash content, every scan, any number of bad reads as long as no two follow each other, every buffer length", "why_tests_cant": "The mock flash always returns what is stored, so the retry branches of read_new and read_item are never taken in the tests.", "anchors": ["src/item.rs: ItemHeader::read_new", "src/item.rs: ItemHeader::read_item", "CHANGELOG.md: Retry reading flash when CRCs are not equal to aid with SPI errors"]}
{"id": "C53", "title": "A store is refused exactly when no page can take the item", "statement": "The pages of a map are filled one after the other; when only one is left, the items of the oldest page that still count move to a new page and the oldest one is freed. A store is refused if and only if all pages but one are in use, the item does not fit behind the last one, and of no page what still counts leaves room for it. Hence a store on n pages succeeds as long as what is stored and n-1 times the new item fit on n-1 pages. The answers of fetch and of the iterator follow from the list of pages as well.", "quantifier": "for every sequence of documented calls without power loss on a fresh region of two or more pages, every geometry, every cache, every key and value", "why_tests_cant": "Whether a store fits depends on how many old values each page holds, in every order of stores and removals; the tests check a few full maps, and a map that refuses a round too early or copies old values along passes tests that only look at the values.", "anchors": ["src/map.rs: store_item_inner", "src/map.rs: migrate_items", "src/map.rs: MapItemIter::next"]}
{"id": "C54", "title": "A map works with every built-in key and value type", "statement": "For every combination of a built-in key type (integers, byte arrays, unit, byte vectors, strings) and a built-in value type (numbers, arrays of numbers, bool, options of these, byte slices and vectors, strings), a fetch returns what was last stored successfully with the key unless it was removed since. A key with more than 65535 bytes is refused.", "quantifier": "for every built-in key and value type, options nested to any depth, every sequence of documented calls without power loss", "why_tests_cant": "The serializers and the map meet only through byte buffers: a key that reads a different number of bytes back than it wrote shifts every value, and the tests use a few type pairs.", "anchors": ["src/map.rs: trait Key", "src/map.rs: trait Value", "src/alloc_impl.rs", "src/arrayvec_impl.rs", "src/heapless_impl.rs"]}
{"id": "C55", "title": "Decoders accept nothing but encodings", "statement": "A decoder of a built-in key type gives a key and a length exactly if the buffer starts with the bytes that this key is written as, and the length is their number; every other buffer gives an error. It never reads behind the buffer. The same holds for decoding numbers, arrays of numbers, byte strings and texts as values. For bool and Option it holds except that every non-zero tag byte is read as true.", "quantifier": "for every built-in key and value type, every buffer", "why_tests_cant": "The tests decode what they encoded before. A missing length check or an accepted wrong text shows only on buffers that no encoder produced, for example after corruption that the checksum does not notice.", "anchors": ["src/map.rs: trait Key", "src/map.rs: trait Value", "src/alloc_impl.rs: deserialize_from", "src/arrayvec_impl.rs: deserialize_from", "src/heapless_impl.rs: deserialize_from"]}
{"id": "C56", "title": "A queue erases few pages", "statement": "A queue on a fresh region erases a page only to begin a page for a push that does not fit behind the last item, or because it gave the page up as popped empty: the pages begun are exactly those in use plus the erases. So the space of all pages erased is at most twice the space of the items pushed, and with items of one size a page is erased at most once per as many pushes as fit on a page, whatever is popped, peeked, iterated, refused or restarted in between.", "quantifier": "for every valid geometry, every cache, every sequence of documented calls without power loss, of any length", "why_tests_cant": "The number of erases is a property of whole histories. A test can count the erases of a few runs, but a bug that leaves pages half empty or erases a page twice shows only for some sizes and orders of calls.", "anchors": ["README.md: minimal erase cycles", "src/queue/mod.rs: push", "src/queue/mod.rs: pop", "src/queue/mod.rs: QueueIterator"]}
{"id": "C57", "title": "Asking does not wear the flash", "statement": "Peeking, iterating without popping and asking for sizes never program a byte of a queue's flash, whatever it holds and whatever the caches say; they can only erase pages. Asking for the largest fitting item or the space left neither writes nor erases as long as no page is half erased, so in particular for a queue in use. Fetching a key or iterating over all items of a map in use neither writes nor erases, whatever the buffers are.", "quantifier": "for every flash content and cache state (queue), every state reached by documented calls (map), every call, every buffer", "why_tests_cant": "The tests compare flash statistics for a few scenarios. That no path of a reading call writes needs every content, every cache state and every buffer size.", "anchors": ["src/queue/mod.rs: peek", "src/queue/mod.rs: find_max_fit", "src/queue/mod.rs: space_left", "src/queue/mod.rs: QueueIterator", "src/map.rs: fetch_item", "src/map.rs: fetch_all_items", "src/map.rs: MapItemIter"]}
{"id": "C58", "title": "A shared queue keeps the order of its items", "statement": "However interrupts that enqueue items and a task that waits, drains, pops and peeks interleave, the items popped, then those in flash, then those still in the ring are accepted items in the order of their enqueue, none twice. With the overflow policy Err no accepted item is lost: the accepted items are exactly those gone, those in flash and those in the ring, and only popping or allowed overwriting makes items go.", "quantifier": "for every valid geometry, ring size, buffer, every schedule of interrupts and task steps of any length", "why_tests_cant": "The tests run a few schedules on one thread. Whether an interrupt between the peek, the flash write and the discard of a drain loses, repeats or reorders an item depends on its exact place.", "anchors": ["src/queue/buffered.rs: SharedRamRing::enqueue", "src/queue/buffered.rs: SharedRamRing::drain_one", "src/queue/buffered.rs: SharedRamRing::drain_all", "src/queue/buffered.rs: SharedRamRing::pop"]}
{"id": "C59", "title": "A pop of a shared queue returns the oldest item", "statement": "A pop of a SharedRamRing with a large buffer, with no interrupts meanwhile, returns the oldest of all items in flash and ring after finitely many steps and leaves all others.", "quantifier": "for every reached state between calls", "why_tests_cant": "The states in which the flash refuses what is in the ring come up only after long histories.", "anchors": ["src/queue/buffered.rs: SharedRamRing::pop"]}
{"id": "C60", "title": "A drain task never sleeps on pending items", "statement": "A task that does nothing but wait_and_drain_all, with a buffer as large as the ring, never sleeps while items are in the ring, whenever interrupts happen; and when it is woken and left alone it returns after a bounded number of steps with the ring empty.", "quantifier": "for every schedule of interrupts and task steps of any length", "why_tests_cant": "Lost wakeups depend on the exact place of an interrupt between the steps of the task.", "anchors": ["src/queue/buffered.rs: SharedRamRing::wait", "src/queue/buffered.rs: SharedRamRing::wait_and_drain_all", "src/queue/buffered.rs: SharedRamRing::enqueue"]}
{"id": "C61", "title": "Errors say what they mean", "statement": "Whatever is in flash, in the caches and in the buffers, also garbage: FullStorage comes only from a push that may not overwrite or from storing in a map; ItemTooBig only, and for a push always, for data that do not fit on a page; BufferTooSmall only from calls that read items, with a number of bytes larger than the buffer; serialization errors only from maps; BufferTooBig never. A push that is too big leaves the flash untouched.", "quantifier": "for every valid geometry, every flash content, every cache state, every buffer and every call, also when power is lost", "why_tests_cant": "The branches that turn an inconsistent flash into an error are not reached by the tests. An inconsistent flash reported as a full one would make a caller wait forever for room.", "anchors": ["src/lib.rs: Error", "src/queue/mod.rs: push_inner", "src/item.rs: read_item", "src/map.rs: store_item_inner", "src/map.rs: fetch_item"]}
{"id": "C62", "title": "A map erases few pages", "statement": "On a fresh region, only stores erase pages of a map, each store at most as many as there are pages, and every page that was begun is in use or was erased once since. If the values held at any time take at most L bytes, and L bytes and any item that is stored fit on a page together, then the number of erases times what L leaves of a page is at most twice the bytes stored. With items of one size, N to a page, and at most q keys, every N - q stores cost at most one erase. Fetches, iterations, removals and restarts cost none.", "quantifier": "for every valid geometry of at least two pages, every key and value type, every sequence of calls of any length", "why_tests_cant": "Flash lifetime depends on runs far longer than a test, and needless erases change no answer, so tests that compare answers miss them.", "anchors": ["src/map.rs: store_item_inner", "src/map.rs: migrate_items", "src/lib.rs: open_page"]}
{"id": "C63", "title": "A shared queue survives a failing flash", "statement": "A task and interrupts share a queue through a SharedRamRing with the overflow policy Err, the flash may fail after any byte of any operation, the task's calls may be cancelled wherever they wait, and power may be lost at any time. The region has at least two pages, and torn data of an item is recognised (it does not read as an item and does not mix with the scraps of others). Then the accepted items that are not lost with the ring in a power loss are, in order and some of them repeated, the items that are gone, those in flash and those in the ring. Items handed out by pop are gone, in this order; nothing else is gone unless a call allowed overwriting or the flash failed in the removal of an item. Power loss takes away exactly the items that are only in the ring. When the flash works again, a drain_all that may overwrite moves every item of the ring to flash behind the items there, if each of them fits a page, in at most three steps for each item and one more, and only oldest items can be lost in it.", "quantifier": "for every valid geometry of at least two pages, every schedule of interrupts, calls, steps, failures, cancellations and power losses of any length", "why_tests_cant": "The number of schedules with a failure or a cancellation at any byte and an interrupt at any step is unbounded; the tests of the ring use a flash that does not fail.", "anchors": ["src/queue/buffered.rs: SharedRamRing::drain_one", "src/queue/buffered.rs: SharedRamRing::pop", "src/queue/buffered.rs: SharedRamRing::enqueue"]}
{"id": "C64", "title": "No call wears the flash without bound", "statement": "Whatever is in flash, and wherever power is lost in the calls before or in this one, a call erases a bounded number of pages. With n pages: a push at most n+2, a pop or a peek at most 4n-2, each step of an iteration at most 3n-2 and its start at most n, find_max_fit and space_left at most n, a store in a map at most 3n+2, every other call of a map at most n+2. So no contents of the flash make a call erase for ever.", "quantifier": "for every valid geometry, every flash contents, every sequence of calls with power loss at any byte; the queue starts with new caches, the map with any caches", "why_tests_cant": "The bound is over all flash contents, also ones no run of the crate leaves; the tests count erases of a few healthy runs.", "anchors": ["src/lib.rs: try_general_repair, open_page", "src/lib.rs: run_with_auto_repair", "src/queue/mod.rs: next_inner, push_inner", "src/map.rs: store_item_inner, try_repair, migrate_items"]}
{"id": "C65", "title": "The listing of the flash is true and harmless", "statement": "print_items with pages of at most 16 KiB returns for any contents of the flash, has lines for every page, and changes neither flash nor caches. After any sequence of calls without power loss, start reading at the page in use whose predecessor in the ring is not closed, go around the ring, and keep the present items of the pages in use: for a queue this is exactly what popping would give; for a map the last entry of each key is what a fetch gives, and keys without a value have no entry. With larger pages it may panic, and does so for every stored item of more than 16384 bytes; even then flash and caches are unchanged.", "quantifier": "for every valid geometry, every flash contents; every sequence of calls of a queue or a map for the contents", "why_tests_cant": "The tests only print the listing for a human; that it agrees with the storage in every reachable state, and that it never loops or touches the flash on arbitrary contents, is over all states.", "anchors": ["src/lib.rs: print_items", "src/item.rs: ItemHeaderIter::traverse, ItemHeader::read_item"]}
{"id": "C66", "title": "What is programmed reads back as programmed", "statement": "No call ever programs a 1 over a 0: every byte that the queue or the map hands to the flash reads back, right after it was programmed, as the byte that was handed over; this includes the second programming of a header when an item is removed, and the markers at both ends of a page. It also holds when power is lost at any byte of any call and operation continues afterwards.", "quantifier": "for every valid geometry, every sequence of documented calls of a queue or a map, every position of power losses", "why_tests_cant": "The mock checks this only for the runs that tests and fuzzing happen to make; a page wrongly taken for erased, or a wrong write position, shows only in particular states.", "anchors": ["src/item.rs: Item::write_new, ItemHeader::write, ItemHeader::erase_data", "src/lib.rs: open_page, close_page, partial_close_page", "src/mock_flash.rs: write"]}
{"id": "C67", "title": "An interrupted erase_all can be made up for", "statement": "When power is lost during erase_all, exactly the bytes before that place are erased, the caller gets the error of the flash and nothing else changes. However often this happens, once erase_all gets through after a restart the storage works like a fresh one. A storage that goes on without calling erase_all again also works: what is stored from then on is found, and no value comes back that was replaced before.", "quantifier": "for every flash contents, every byte at which power is lost, any number of interrupted attempts, every following sequence of calls", "why_tests_cant": "No test interrupts erase_all; the bad cases need a particular page to be erased while others are not.", "anchors": ["src/lib.rs: GenericStorage::erase_all", "src/lib.rs: get_page_state", "src/queue/mod.rs: find_oldest_page, QueueIterator::next_inner", "src/map.rs: fetch_item_with_location"]}
{"id": "C68", "title": "A bounded reserve of power is enough for a call", "statement": "For each call there is an amount of power, computed from the geometry and the arguments alone, that is enough: a device that has this much left when a call begins completes it with the answer, the flash contents and the cache of a call with unlimited power, and the call does not program and erase more bytes than that. A program that checks its reserve before each call therefore never loses power inside one. This holds whatever the flash contains and however earlier calls were interrupted, so including repairs.", "quantifier": "for every valid geometry, every flash contents, every history of interrupted calls, every call of a queue or a map and every amount of power that is at least the reserve", "why_tests_cant": "Tests measure the use of single runs; the most expensive ones need damaged pages, repairs in the middle of a call and full pages at the same time.", "anchors": ["src/mock_flash.rs: check_shutoff", "src/queue/mod.rs: push_inner, QueueIterator::next_inner, QueueIteratorEntry::pop", "src/map.rs: store_item_inner, migrate_items, remove_item_inner, try_repair", "src/lib.rs: run_with_auto_repair, try_general_repair"]}
{"id": "C69", "title": "A call with a too small buffer costs no more than a power loss", "statement": "A call of a map or a queue that gets only the first bytes of a data buffer either does what it does with the whole buffer (same answer, same flash, same cache), or it returns an error that complains about the buffer (BufferTooSmall or, for a map, a serialization error) and the flash contents are those that the call with the whole buffer leaves when power is lost at some point. A too small buffer can therefore stop a migration half way or after a page was erased, but it never puts anything into flash that the recovery from power losses does not know.", "quantifier": "for every valid geometry, every flash contents, every cache contents, every built-in key and value type, every buffer, every prefix of it and every store, fetch, remove, remove_all and iteration (its steps with any buffers); for every pop, peek and iterator step of a queue, whatever the iterator's position", "why_tests_cant": "Tests try few buffer lengths on few states; the error can come up at any read of an item inside a repair or a migration that is itself inside a store, after part of the flash has been changed.", "anchors": ["src/map.rs: store_item_inner, migrate_items, fetch_item_with_location, remove_item_inner, try_repair", "src/item.rs: ItemHeader::read_item", "src/lib.rs: run_with_auto_repair", "src/queue/mod.rs: pop, peek, QueueIterator::next"]}
{"id": "C70", "title": "What the buffer held before a call does not matter", "statement": "The caller lends a data buffer to most calls, and it is used as scratch space without being cleared. Two sequences of calls that differ only in what these buffers contain on entry give the same answers; for a queue they also leave the same flash, cache and iterator position, interruptions by power losses included.", "quantifier": "queue: for every valid geometry, every flash contents, cache and iterator position, every sequence of calls with any buffers, each interrupted at any byte or not; map: for every geometry with at least two pages, every uninterrupted history and every sequence of calls with buffers that take every item", "why_tests_cant": "Tests use a freshly zeroed or reused buffer; a leak of old buffer contents into an answer or into flash needs particular old bytes behind an item that is shorter than the buffer.", "anchors": ["src/item.rs: ItemHeader::read_item, Item::data, Item::write", "src/queue/mod.rs: pop, peek, QueueIterator::next", "src/map.rs: fetch_item_with_location, store_item_inner, migrate_items"]}
