# Design of the formal model of `sequential-storage`

This document is the plan for the Lean development in `lean/`. It says what is
modelled, how each property of `properties.jsonl` is stated and proved, what the
trusted base is, and where the code and a property disagree.

## 1. Layers

1. **Model** (`Verif/Model/*`): one Lean function per Rust function, at byte level,
   executable, total. Every definition cites the file and lines it follows.
   * `Basic`  – addresses, alignment, page arithmetic, configuration (`lib.rs`, `map.rs`, `queue/mod.rs`).
   * `Crc`    – `crc16`, `crc32`, `adapted_crc32` (`item.rs`).
   * `Flash`  – NOR flash with a byte budget until power is lost (`mock_flash.rs`).
   * `Cache`  – dirt tracker, page states (uncached / array / calculated), page pointers, key pointers.
   * `Storage`– the state/error monad and `GenericStorage` (`lib.rs`).
   * `Item`   – headers, items, traversal (`item.rs`).
   * `Queue`, `Map` – the two data structures with auto repair and iterators.
   * `Print`  – `print_items` as a list instead of text.
   * `Codec`  – built-in key and value serialisation.
   * `Ring`   – `RamRing`, `BufferedQueue`, `SharedRamRing`; `SharedUse` – a task and interrupts on a `SharedRamRing` and a queue.
2. **Specification** (`Verif/Spec/*`): small independent definitions – a FIFO list, a
   finite map, a ring of pages – which do not mention the model.
3. **Proofs** (`Verif/Proofs/*`): lemmas, invariants, simulation.
4. **Properties** (`Verif/Props/*`): the property theorems with an `example` that shows
   the hypotheses can be met, and negations with concrete witnesses where the code
   violates a property.

### Execution model

`M K α := St K → Except Err α × St K`, with `St = {flash, cache, buf}`. Rust `?` is the
bind of the monad; a panic, an `unreachable!`, an out-of-bounds index or an exhausted
loop budget is an explicit error value (`Err.panic`, `Err.diverge`), so "never panics,
always terminates" is a statement about results and not true by construction.

*Flash.* Memory is `Nat → Byte`. Programming ANDs bytes in ascending order, erasing
writes `0xFF` in ascending order, exactly as `mock_flash.rs`. `fuel : Option Nat` is
`bytes_until_shutoff`: the number of bytes still programmed/erased before the operation
stops half-way with `Err.shutoff`. Since errors are only propagated by `?`, this covers a
power loss at any byte, a flash driver error, and cancellation of the future at an await
point. Reads and writes outside the configured range or misaligned return `outOfBounds`
/ `notAligned`, so property C15 is "these errors never occur".
`stuck` counts bytes that were programmed and did not read back as programmed (a 1 over a 0).

### Proof technique

* Page contents are described by a *layout*: the sequence of item headers and skipped
  words the traversal meets. It is determined by the bytes, so reading functions are
  shown equal to functions of the layout, and each write is shown to change the layout
  of one page in a described way (item appended, torn tail, checksum cleared, emptied).
* The pages form a ring: `m` used pages starting at `o`, the last one possibly partially
  open, then open pages, the last of which may be half erased after a power loss. This
  ring shape is the invariant of both data structures.
* Abstraction: the queue is the concatenation of the present items in ring order; the
  map is "last item with this key in ring order".
* Operations are verified with weakest-precondition lemmas whose postcondition covers
  success and every error, including the power-loss error at any byte. Uninterrupted
  behaviour and crash behaviour come from the same theorem.

## 2. Properties

| Id | What is modelled | How it is proved |
|----|------------------|------------------|
| C01 | whole queue at byte level | simulation with a FIFO list, induction over call sequences |
| C02 | `push_inner` error paths | part of the simulation relation |
| C03 | `push_inner` closed-page arm | part of the simulation relation |
| C04 | crash points via `fuel` | crash postconditions; needs a no-checksum-collision hypothesis on torn data, and for words of less than 8 bytes `NoMix`: no header completes the remains of interrupted ones to a header (see §4). The layout keeps track of the bytes between items (`Gaps`, `Scraps`) |
| C05 | auto repair | repaired ring has no half-erased page; second run cannot report Corrupted |
| C06 | iterator and entry pop | simulation with a list traversal |
| C07 | whole map at byte level | simulation with a finite map |
| C08 | `store_item_inner` error paths | part of the simulation relation |
| C09 | `migrate_items` | abstraction unchanged by migration |
| C10–C12 | crash points via `fuel` | crash postconditions, repair invariant |
| C13 | `remove_item_inner` | simulation |
| C14 | `fetch_all_items`, `MapItemIter::next` | iteration yields the ring-order item list |
| C15 | bounds/alignment checks as model errors | only listed errors can be returned |
| C16 | per-word write counters | invariant on counters |
| C17 | erase log | invariant on the log |
| C18, C42 | cache soundness invariant | results determined by flash contents |
| C19 | `CalculatedPageStates` | invariant over ring transitions |
| C20 | `TrackedKeyPointers` | refinement to an association list |
| C21, C22 | codecs | round-trip theorems, structural |
| C23, C24 | header bytes | bit-vector reasoning over all tear positions |
| C25 | CRC-32 | false in general (witness); conditional theorem |
| C26 | CRC-32 | kernel computation over the complete finite table 0..65535 |
| C27, C28 | `RamRing` | representation invariant, refinement to a list |
| C29 | `BufferedQueue` over the queue model | refinement |
| C30 | small-step interleavings | invariant over all schedules; false for `DiscardOldest` (witness) |
| C31 | `find_max_fit` | false (witness); `_partial` for the part that holds |
| C32 | `space_left` | bound + step theorem |
| C33 | `Err.panic`/`Err.diverge` | never returned; map iteration over a half-erased page: false (witness) |
| C34 | `try_new` over 32-bit words | decision logic; underflow witness |
| C35 | `erase_all` | relational pass (`Resp`): results depend only on the bytes of the range; uncached: theorem; cached: false (witness) |
| C36 | `store_item_inner` | size accounting |
| C37 | `push_inner` | ≥ 2 pages theorem; 1 page: false (witness) |
| C38 | dirty flag | theorem for the calls that check it; false for `remove_item`, map iteration (witness) |
| C39 | `fetch_all_items` | false (witness) |
| C45 | `fetch_all_items` | false (witness); theorem when no erase was cut short |
| C46 | `get_page_state` | counting bits, for any flash contents |
| C47 | queue calls with damages in between | the queue invariant allows items with a wrong checksum (`Mode.dmg`); changing bytes of items keeps it; the checksum of all lengths is walked back by the kernel to show that one changed byte is noticed |
| C48 | queue calls after a damaged length | positive for words of eight bytes or more: an item with a changed length becomes a gap of the layout, item by item (`Shred`), and two flipped bits are always noticed (C51); false otherwise (witnesses) |
| C49 | map calls and damages in any order (`EnduresMap`), items with addresses | partial: not with a stale key location (witness) |
| C50 | lists of pages of slots (`Spec/Paged.lean`), the abstract machine of `qcall_det` | proved |
| C51 | weights and carry-less division (`Spec/Parity.lean`), linearity of `crc16`, all small error patterns in the kernel | partial, false of the code |
| C52 | `read_new` and `read_item` with their retries over a sequence of reads (`Model/Reread.lean`) | scan with bad reads = scan without = `itemNext`; partial, false for bad data checksums |
| C53 | lists of pages of slots (`Spec/MapPaged.lean`), the abstract machine of `mcall_det` | proved |
| C54 | inductive list of the built-in codecs with their bytes | `Codes` for all pairs, so all map theorems apply |
| C55 | the same list; relation `ReadAs` on byte strings for the tags | an equivalence for keys |
| C56 | list of pages (Spec/Paged) with a number of erases (Spec/Erases) | refinement, then induction over runs |
| C57 | flash before and after, own count of marker bits | frame for every reading function, no invariant for the queue |
| C58, C59, C60 | events of the schedule and what is seen from outside; list of items | simulation by two lists, invariants over schedules |
| C61 | own table of allowed errors | possible errors of every function, no invariant |
| C62 | list of pages (Spec/MapPaged) with a number of erases (Spec/MapErases) | refinement, then induction over runs |
| C63 | events of the schedule with failures, cancellations and power losses; lists with repetitions (Spec/Repeats) | simulation by two lists, invariants over schedules |
| C64 | erases per call as a number (queueErases, mapErases) | structural bound over the functions; ring distance for the iterator |
| C65 | how to read a listing (`StartsAt`, `readFrom`); the answers of pop and fetch | every flash has a layout; ring of pages |
| C66 | counter of programmed bytes that do not read back, tied to the memory by `stuck_iff_misread` | part of the page invariant: free space and header padding are 0xff |
| C67 | bytes before and after; the specifications of a fresh queue and map | `eraseAll` evaluated on any flash; C35 for the repetition |
| C68 | the unlimited run of the same call; byte budget from geometry and arguments | each function with enough power does what it does with unlimited power and uses a page per erase plus the bytes it programs; erases by C64; for queues that never lost power erases by C56 |
| C69 | the same call with a longer buffer and limited power | relational pass over every function that reads items: a run with a prefix of the buffer is the same run, or stops where a run with limited power stops |
| C70 | the same calls with other bytes in the buffers | queue: relational pass (`Blind.Off`, `Blind.On`) over every function, for any state and with power losses; map: the answers are a function of the keys, values and buffer lengths (`mrun_det`) |
| C40, C41 | `read_item`, iterator | part of the queue simulation |
| C43 | whole code | relational pass over every function: two states that agree on the range and the caches behave alike, the rest of the flash is framed |
| C44 | two storages, one flash | C43's relational pass, induction over interleavings |

`MANIFEST.json` records the actual status of each property.

Buffers. Theorems about maps have a number `lim`: every buffer has at least `lim` bytes, and every item that fits a page has
at most `lim` bytes of data, rounded up to whole words (`MUsable`). That is what the documentation asks for
(`map.rs` 185, 395). The invariant says that no item on flash is longer than `lim` (`Short`), so that reading never fails.

## 3. Trusted base

* Lean 4 kernel. Theorems depend on at most `propext`, `Classical.choice`, `Quot.sound`.
  No other axioms, no `sorry`, no `native_decide`, no `bv_decide`.
* The model follows the code as read; it was not extracted mechanically.
* Modelled: everything listed in section 1. **Not modelled**: `destroy`, the text format of `print_items`,
  logging/`defmt`, `postcard`-derived values (an external crate), `_check-cache` and
  fuzzing code, the async executor (a future is run to completion or dropped at a flash
  access), alignment of RAM buffers (`AlignedBuf`), heap allocation failure.
* Simplifications: addresses are naturals (32-bit overflow is excluded by proving that
  all addresses stay within the range); flash reads are deterministic, so the "retry the
  read once" loops read the same bytes twice; a read never fails on its own.
* Assumed of the flash (embedded-storage contract): read and write size divide each
  other, both divide the erase size, bytes are programmed and erased in ascending order
  and a byte is never half programmed (the assumption made by `mock_flash.rs`).

## 4. Disagreements between code and properties

Kept up to date while proving; each has a machine-checked witness.

* C20: a key cache of capacity 0 panics (`key_cache_without_entries_panics`).
* C30: with `OverflowPolicy::DiscardOldest` a drained item can be lost (`shared_drain_loses_item`).
* C31: `find_max_fit` can name a length whose push is refused (`find_max_fit_too_large`), and reports
  corruption on a one-page queue (`find_max_fit_single_page`).
* C34: a reversed range is accepted in a release build (`reversed_range_accepted`).
* C37: a one-page queue that was emptied refuses every push (`emptied_single_page_refuses`).
* C04: for words of four bytes a torn header can hide a later item whose checksum looks like a length (`torn_header_hides_item`); for words of one
  byte the first byte of the next checksum can complete a torn header, which then hides the item (`torn_header_completed`); a single
  page that was being erased looks unused but is not blank (`torn_single_page_loses_item`); torn data with the checksum
  of the whole is returned (`torn_data_returned`).
* C25: the checksum cannot tell all torn data from the whole (`torn_data_accepted`).
* C33: on contents that the map did not write, `fetch_item` and the map iterator can panic, because the decoded key may
  be longer than the item (`fetch_can_panic`).
* C33, C39, C45: `fetch_all_items` starts on the page after the newest one without looking at its state. When the erase of
  that page was cut short, bytes in the middle of a stored value are read as an item: the iterator can panic
  (`iteration_panics_after_power_loss`) or show a key that was never stored (`iteration_shows_forged_key`).
* C38: `remove_item` neither looks at the dirty mark of the cache nor keeps it. After a failed call it can lose a value that is
  stored later (`remove_after_failure_loses_value`) or leave a removed key in place (`remove_after_failure_revives_key`);
  `fetch_all_items` does not look at the mark either (`fetch_all_after_failure_differs`).
* C10, C11, C13: a page that is not closed is erased when an interrupted move of items is redone. If that erase is cut short
  the page looks unused, removes skip it, and the next interrupted store brings a removed key back
  (`torn_erase_revives_removed_key`).
* C10: an interrupted remove may have removed only the old copy of an item that is being moved. The value is still found,
  and is lost when a store of another key repeats the move (`interrupted_remove_fades_later`).
* C10: words of four bytes and a checksum that looks like a length (`torn_header_hides_value`), torn data with the checksum of the whole
  (`torn_data_fetched`).
* C18, C42: with a buffer smaller than some stored item a fetch of another key succeeds only with a key cache
  (`small_buffers_reveal_caches`).
* C14: a map iterator that is asked again after the end starts over (`iterator_starts_over`).
* C39: `fetch_all_items` reports corruption that `fetch_item` repairs (`fetch_all_reports_corruption`).
* C29: outside its quantifier: with a buffer too small for the oldest item in RAM, `pop`, `peek` and the drains answer as if the
  ring were empty (`small_buffer_looks_empty`); a drain that fails can store its item twice (`failed_drain_repeats_item`); an item
  too large for a page blocks every drain (`oversized_item_blocks_drain`).
* C35: `erase_all` leaves the caches alone; a queue then loses the items pushed afterwards (`erased_queue_loses_items`), a map loses values stored afterwards at the next restart (`erased_map_loses_values`).
* C48: a header with a damaged length is passed word by word. Data bytes `ff` then end the page and later items are lost
  (`damaged_length_loses_others`), and data that look like an item are returned (`damaged_length_forges_item`).
* C49: the key of an item at a cached location is never compared. When an item whose location is in the key cache is damaged and
  its page is erased and written again, fetching the key gives the value of another key
  (`stale_location_gives_other_value`).
* C51: `crc16` does not use the polynomial it names. CRC-16F/4.2 is 0x1a2eb; the code has 0x1a2e, without the last digit, in a loop
  that shifts to the right and would need 0xd745. Three bits of every checksum are constant (`length_checksum_top_bits`), eight
  lengths share each value (`length_checksum_shared`), and three or four flipped bits can go unnoticed where the named polynomial
  notices five (`three_flips_unnoticed`, `four_flips_unnoticed`, `named_polynomial_notices_five`).
* C52: the retry after a bad read covers the length checksum of a header and the data, but not the data checksum in the header, nor a
  read that returns only ones. A bad read there makes the scan skip an item or stop (`checksum_slip_not_retried`,
  `blank_read_not_retried`); a queue can then return its items in the wrong order (`passing_error_reorders`).
* C53: compaction moves the items of one page to one other page and never merges pages, so a store can be refused with `FullStorage`
  though all that is stored and the new item would fit; storing the old values once more makes room (`refused_though_it_fits`).
* C59: `SharedRamRing::pop` moves the ring to flash before it pops. When the flash is full and overwriting is not allowed it fails
  with `FullStorage`, again and again, though popping first would make room (`shared_pop_refused`).
* C60: `wait_and_drain_all` takes the signal before it drains. After a failed drain the signal is gone, and the loop the
  documentation shows sleeps with items in the ring until the next interrupt (`drain_sleeps_on_items`).
* C62: a store that is refused with `FullStorage` first moves every page in turn, so it erases all pages once though nothing
  changes for the user; trying again costs as much again (`refused_store_wears`).
* C63: a drain that fails, or whose future is dropped, after the last byte of an item that matters leaves the item in flash and
  in the ring, so it is delivered twice (`retried_drain_repeats_item`). A `pop` that fails, or whose future is dropped, while the
  item is being removed can lose it (`failed_pop_loses_item`). The README (lines 69-70) warns of cancelling in general; neither
  effect is documented at the calls.
* C65: `print_items` reads every item into a buffer of 16 KiB and panics when one is longer, although pages and items may be
  larger (`listing_panics`, `long_item_panics`).
* C66: when power is lost while the only page of a queue is erased, the next item is written over the old ones
  (`torn_single_page_overwritten`). Removing an item programs the word with the length a second time with bits set, which flash
  that takes only zeros the second time (`TwiceWithZero` in the mock) refuses (`second_program_not_zero`).
* C67: a storage that goes on after an interrupted `erase_all` without calling it again does not work properly. A gap in the ring
  of pages makes a queue look empty although items are left, and a new item is accepted and not found
  (`interrupted_erase_all_hides_items`); a half erased page that was in use counts as open, and the next item is written on top of
  what is left (`interrupted_erase_all_garbles_item`); a map brings back a value that was replaced before
  (`interrupted_erase_all_revives_value`). The documentation of `erase_all` does not say that it has to be repeated.
* C70: `Item::data` (/repo/src/item.rs 251-253) gives the whole buffer and not only the bytes of the item, and the map deserializes the
  key from that (/repo/src/map.rs 331, 868). When an item is shorter than a key, old contents of the buffer are taken for the rest of
  the key; if that is the key asked for, `data_len - item_key_len` (line 208) panics (`old_buffer_contents_matter`). A map
  with one type of key does not write such items.
