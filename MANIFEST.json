{
 "claims": [
  {
   "property": "C01",
   "status": "proved",
   "theorems": [
    "Verif.Stack.C01_stack_lifo"
   ],
   "note": ""
  },
  {
   "property": "C02",
   "status": "partial",
   "theorems": [
    "Verif.Deque.C02_deque_sequence_false",
    "Verif.Deque.C02_deque_sequence_partial",
    "Verif.Deque.C02_growth_corrupts",
    "Verif.Deque.C02_front_only_corrupts"
   ],
   "note": "False of the code: growth while the data does not start at index 0 overwrites elements. Proved exact for all other histories; the corruption is characterised."
  },
  {
   "property": "C03",
   "status": "proved",
   "theorems": [
    "Verif.Deque.C03_below_capacity",
    "Verif.Deque.C03_back_only"
   ],
   "note": ""
  },
  {
   "property": "C04",
   "status": "partial",
   "theorems": [
    "Verif.Deque.C04_shrink_false",
    "Verif.Deque.C04_shrink_partial",
    "Verif.Deque.C04_shrink_wrapped",
    "Verif.Deque.C04_shrink_result",
    "Verif.Deque.C04_history_partial"
   ],
   "note": "False of the code for wrapped buffers; proved for unwrapped ones, exact result for wrapped ones."
  },
  {
   "property": "C05",
   "status": "partial",
   "theorems": [
    "Verif.Queue.C05_queue_fifo_false",
    "Verif.Queue.C05_queue_fifo_partial",
    "Verif.Queue.C05_push_loses_all",
    "Verif.Queue.C05_loss_at_every_capacity",
    "Verif.Queue.C05_below_capacity",
    "Verif.Queue.C05_fill_then_drain"
   ],
   "note": "False of the code: the push that fills a buffer with head != 0 empties the queue. Proved exact for all other histories."
  },
  {
   "property": "C06",
   "status": "partial",
   "theorems": [
    "Verif.Queue.C06_shrink_partial",
    "Verif.Queue.C06_shrink_breaks",
    "Verif.Queue.C06_pop_forever"
   ],
   "note": "False of the code whenever Shrink acts on two or more elements; proved otherwise."
  },
  {
   "property": "C07",
   "status": "proved",
   "theorems": [
    "Verif.Heap.C07_pushHeap",
    "Verif.Heap.C07_popHeap",
    "Verif.Heap.C07_popHeap_nil",
    "Verif.Heap.C07_makeHeap"
   ],
   "note": ""
  },
  {
   "property": "C08",
   "status": "proved",
   "theorems": [
    "Verif.Heap.C08_heap_history",
    "Verif.Heap.C08_heap_drain"
   ],
   "note": ""
  },
  {
   "property": "C09",
   "status": "proved",
   "theorems": [
    "Verif.Heap.C09_sortHeap",
    "Verif.Heap.C09_sortHeap_int"
   ],
   "note": ""
  },
  {
   "property": "C10",
   "status": "proved",
   "theorems": [
    "Verif.Heap.C10_checkHeap"
   ],
   "note": ""
  },
  {
   "property": "C11",
   "status": "proved",
   "theorems": [
    "Verif.Heap.C11_bounded_heap",
    "Verif.Heap.C11_bounded_heap_int",
    "Verif.Heap.C08_heap_history"
   ],
   "note": ""
  },
  {
   "property": "C12",
   "status": "partial",
   "theorems": [
    "Verif.Heap.C12_reverse_false",
    "Verif.Heap.C12_reverse_partial",
    "Verif.Heap.C12_reverse_nil_panics"
   ],
   "note": "False of the code for the empty slice, which panics; proved for every non-empty slice."
  },
  {
   "property": "C13",
   "status": "proved",
   "theorems": [
    "Verif.Cmp.C13_strictWeak",
    "Verif.Cmp.C13_converse",
    "Verif.Cmp.C13_byBool",
    "Verif.Cmp.C13_byName",
    "Verif.FileHash.C13_fileHash_strictWeak",
    "Verif.FileHash.C13_fileHash_order"
   ],
   "note": ""
  },
  {
   "property": "C14",
   "status": "partial",
   "theorems": [
    "Verif.SortSlice.C14_insert_false",
    "Verif.SortSlice.C14_pop_false",
    "Verif.SortSlice.C14_sequence_partial",
    "Verif.SortSlice.C14_insert_overwrites",
    "Verif.SortSlice.C14_pop_empty_panics"
   ],
   "note": "False of the code: Insert at an existing position overwrites, Pop of an empty slice panics. Proved for all other histories."
  },
  {
   "property": "C15",
   "status": "proved",
   "theorems": [
    "Verif.SortSlice.C15_swap",
    "Verif.SortSlice.C15_swaps_perm",
    "Verif.SortSlice.C15_sorted",
    "Verif.SortSlice.C15_unique"
   ],
   "note": "The library's sort.Sort is not modelled; the theorem holds for any algorithm that only uses Less and Swap and stops with no adjacent inversion."
  },
  {
   "property": "C16",
   "status": "proved",
   "theorems": [
    "Verif.Tree.C16_visitor_cursor",
    "Verif.Tree.C16_next_enumerates",
    "Verif.Tree.C16_prev_enumerates"
   ],
   "note": ""
  },
  {
   "property": "C17",
   "status": "partial",
   "theorems": [
    "Verif.Tree.C17_addChild_false",
    "Verif.Tree.C17_addChild_replaces",
    "Verif.Tree.C17_addChild_partial",
    "Verif.Tree.C17_removeChild",
    "Verif.Tree.C17_numChildren",
    "Verif.Tree.C17_child_range",
    "Verif.Tree.C17_edit_frame"
   ],
   "note": "False of the code: AddChild at an existing index replaces the child. Proved for appending, removal and ranges."
  },
  {
   "property": "C18",
   "status": "proved",
   "theorems": [
    "Verif.DList.C18_list_history"
   ],
   "note": ""
  },
  {
   "property": "C19",
   "status": "proved",
   "theorems": [
    "Verif.DList.C19_next",
    "Verif.DList.C19_prev",
    "Verif.DList.C19_enumerates",
    "Verif.DList.C19_enumerates_back"
   ],
   "note": ""
  },
  {
   "property": "C20",
   "status": "proved",
   "theorems": [
    "Verif.DList.C20_sort_stable",
    "Verif.DList.C20_sort_int"
   ],
   "note": "For lists of fewer than 2^64 nodes (the code has 64 bins)."
  },
  {
   "property": "C21",
   "status": "partial",
   "theorems": [
    "Verif.DList.C21_insertAfter_false",
    "Verif.DList.C21_insertAfter_partial"
   ],
   "note": "False of the code for every list and mark: the backward link of the following node is never set. Proved: the forward direction and everything else."
  },
  {
   "property": "C22",
   "status": "partial",
   "theorems": [
    "Verif.DList.C22_moveAfter_partial",
    "Verif.DList.C22_moveAfter_first_last",
    "Verif.DList.C22_moveBefore_partial",
    "Verif.DList.C22_moveBefore_last_first",
    "Verif.DList.C22_moveBefore_first_exact",
    "Verif.DList.C22_moveBefore_first_false",
    "Verif.DList.C22_moveBack_partial",
    "Verif.DList.C22_moveFront_partial",
    "Verif.DList.C22_moveBack_first",
    "Verif.DList.C22_moveFront_first",
    "Verif.DList.C22_move_nowhere"
   ],
   "note": "False of the code when the first node is involved; proved for all other cases and the wrong results characterised."
  },
  {
   "property": "C23",
   "status": "partial",
   "theorems": [
    "Verif.DList.C23_reverse_exact",
    "Verif.DList.C23_reverse_partial"
   ],
   "note": "False of the code for two or more nodes: only the old first node remains."
  },
  {
   "property": "C24",
   "status": "partial",
   "theorems": [
    "Verif.DList.C24_insertFrontList_exact",
    "Verif.DList.C24_insertFrontList_partial",
    "Verif.DList.C24_insertFrontList_false"
   ],
   "note": "False of the code unless one list is empty or other has one node; exact result proved."
  },
  {
   "property": "C25",
   "status": "partial",
   "theorems": [
    "Verif.DList.C25_isValidNode_partial",
    "Verif.DList.C25_isValidNode_false"
   ],
   "note": "False of the code: only the first node is recognised."
  },
  {
   "property": "C26",
   "status": "proved",
   "theorems": [
    "Verif.SList.C26_slist_history"
   ],
   "note": "Any number of list objects, any history of allowed calls; MoveFront/MoveAfter return nil and change nothing when the node is in place already or foreign."
  },
  {
   "property": "C27",
   "status": "partial",
   "theorems": [
    "Verif.SList.C27_visitor_partial",
    "Verif.SList.C27_empty_inverted",
    "Verif.SList.C27_len_zero",
    "Verif.SList.C27_next_false"
   ],
   "note": "False of the code: Empty is inverted, Len is always 0, the visitor Next always returns false; proved for all lists. The position of the visitor is right."
  },
  {
   "property": "C28",
   "status": "partial",
   "theorems": [
    "Verif.SList.C28_hasCycle_partial",
    "Verif.SList.C28_acyclic",
    "Verif.SList.C28_odd_cycle",
    "Verif.SList.C28_even_cycle_diverges"
   ],
   "note": "False of the code: panics on acyclic chains of length 2 or 3 modulo 4, never returns on even cycles; exact behaviour proved for every chain."
  },
  {
   "property": "C29",
   "status": "partial",
   "theorems": [
    "Verif.SList.C29_sort_partial",
    "Verif.SList.C29_sort_panics",
    "Verif.SList.C29_merge_partial"
   ],
   "note": "False of the code: Sort panics on every list of two or more elements. Its merging step is right (stable merge of two sorted lists)."
  },
  {
   "property": "C30",
   "status": "proved",
   "theorems": [
    "Verif.LFQueue.C30_linearizable",
    "Verif.LFQueue.C30_conservation"
   ],
   "note": "Interleaving of sequentially consistent atomic steps, garbage collected nodes (no address reuse); also Clear and Empty."
  },
  {
   "property": "C31",
   "status": "partial",
   "theorems": [
    "Verif.LFQueue.C31_size_partial",
    "Verif.LFQueue.C31_size_exact",
    "Verif.LFQueue.C31_false"
   ],
   "note": "False of the code: Size counts PopFront calls on the empty list and ignores Clear; exact formula proved."
  },
  {
   "property": "C32",
   "status": "proved",
   "theorems": [
    "Verif.LFDeque.C32_unpack_pack",
    "Verif.LFDeque.C32_pack_unpack",
    "Verif.LFDeque.C32_history",
    "Verif.LFDeque.C32_history_default",
    "Verif.LFDeque.C32_alone",
    "Verif.LFDeque.C32_init_again"
   ],
   "note": "Single-threaded histories of PushBack, PopFront, Size, Empty, Clear; every buffer size below 2^31."
  },
  {
   "property": "C33",
   "status": "partial",
   "theorems": [
    "Verif.LFDeque.C33_spsc_partial",
    "Verif.LFDeque.C33_pushFront_exact",
    "Verif.LFDeque.C33_pushFront_panics",
    "Verif.LFDeque.C33_popBack_exact",
    "Verif.LFDeque.C33_concurrent_false",
    "Verif.LFDeque.C33_aba_false",
    "Verif.LFDeque.C33_stale_false",
    "Verif.LFDeque.C33_two_producers_false",
    "Verif.LFDeque.C33_two_consumers_false"
   ],
   "note": "False of the code: PushFront panics on every new deque, concurrent producers lose values, concurrent consumers can return a value twice. Proved: one producer and one consumer are linearizable; exact behaviour of PushFront and PopBack."
  },
  {
   "property": "C34",
   "status": "proved",
   "theorems": [
    "Verif.RingBuffer.C34_linearizable",
    "Verif.RingBuffer.C34_few_calls"
   ],
   "note": "Any number of goroutines, any power-of-two size (Init only produces size 1, see C35), sequentially consistent atomics and slots; while the 64-bit ticket counters do not wrap."
  },
  {
   "property": "C35",
   "status": "partial",
   "theorems": [
    "Verif.RingBuffer.C35_fifo_partial",
    "Verif.RingBuffer.C35_init_exact",
    "Verif.RingBuffer.C35_room_false",
    "Verif.RingBuffer.C35_push_exact",
    "Verif.RingBuffer.C35_pop_exact",
    "Verif.RingBuffer.C35_pop_empty_false",
    "Verif.RingBuffer.C35_size_partial",
    "Verif.RingBuffer.C35_empty_false"
   ],
   "note": "False of the code: Init always makes one slot (or never returns above 2^62), Push always reports false and overwrites, Pop always reports true. Proved exactly, and FIFO order for disciplined single-threaded use."
  },
  {
   "property": "C36",
   "status": "proved",
   "theorems": [
    "Verif.SpinLock.C36_mutual_exclusion",
    "Verif.SpinLock.C36_free_lock_acquired",
    "Verif.SpinLock.C36_unlock_unlocked_panics",
    "Verif.SpinLock.C36_patience",
    "Verif.SpinLock.C36_deadlock_detected"
   ],
   "note": "Any number of goroutines, every interleaving, sequentially consistent atomics."
  },
  {
   "property": "C37",
   "status": "partial",
   "theorems": [
    "Verif.RWSpinLock.C37_writers_partial",
    "Verif.RWSpinLock.C37_late_reader_partial",
    "Verif.RWSpinLock.C37_unlock_safe",
    "Verif.RWSpinLock.C37_patience",
    "Verif.RWSpinLock.C37_false"
   ],
   "note": "False of the code: a reader that checked the counter before the writer announced itself gets in. Proved: writers exclude each other, and readers that arrive while a writer holds the lock wait."
  },
  {
   "property": "C38",
   "status": "partial",
   "theorems": [
    "Verif.RWSpinLock.C38_writers_partial",
    "Verif.RWSpinLock.C38_stuck",
    "Verif.RWSpinLock.C38_false",
    "Verif.RWSpinLock.C38_reader_stuck",
    "Verif.RWSpinLock.C38_reader_false"
   ],
   "note": "False of the code: the inner lock taken by the first reader is never released, so after one RLock/RUnlock no writer ever succeeds, and a goroutine alone never gets a read lock again either. Proved for histories without RLock."
  },
  {
   "property": "C39",
   "status": "proved",
   "theorems": [
    "Verif.Rand.C39_linearizable",
    "Verif.Rand.C39_each_once"
   ],
   "note": "Both widths, any constants; sequentially consistent atomics."
  },
  {
   "property": "C40",
   "status": "partial",
   "theorems": [
    "Verif.Rand.C40_range_partial",
    "Verif.Rand.C40_range_onto",
    "Verif.Rand.C40_whole_type_panics",
    "Verif.Rand.C40_max",
    "Verif.Rand.C40_max_zero_panics"
   ],
   "note": "False of the code when the bounds span the whole type (length wraps to 0 and the call panics) and for RandMax(0); proved for all other bounds, with exact range (every value occurs)."
  },
  {
   "property": "C41",
   "status": "proved",
   "theorems": [
    "Verif.Rand.C41_period64",
    "Verif.Rand.C41_period32",
    "Verif.Rand.C41_injective",
    "Verif.Rand.C41_visits_all64",
    "Verif.Rand.C41_low_bit"
   ],
   "note": ""
  },
  {
   "property": "C42",
   "status": "partial",
   "theorems": [
    "Verif.RangeU.C42_careful_partial",
    "Verif.RangeU.C42_exact",
    "Verif.RangeU.C42_unchecked_false",
    "Verif.RangeU.C42_inc_false",
    "Verif.RangeU.C42_arith",
    "Verif.RangeU.C42_queries"
   ],
   "note": "False of the code: every error return is commented out, so nothing is checked. Proved: exact behaviour for all histories, and the range invariant for callers that check themselves."
  },
  {
   "property": "C43",
   "status": "partial",
   "theorems": [
    "Verif.Seq.C43_ascending_partial",
    "Verif.Seq.C43_exact",
    "Verif.Seq.C43_exceeds_max_false",
    "Verif.Seq.C43_first_used_false",
    "Verif.Seq.C43_recycle"
   ],
   "note": "False of the code: the maximum is never enforced and ids wrap at 2^64. Proved: exact ids for all histories, ascending and distinct while they fit in 64 bits."
  },
  {
   "property": "C44",
   "status": "proved",
   "theorems": [
    "Verif.Prime.C44_nearest",
    "Verif.Prime.C44_nearest_real",
    "Verif.Prime.C44_monotone",
    "Verif.Prime.C44_square"
   ],
   "note": ""
  },
  {
   "property": "C45",
   "status": "partial",
   "theorems": [
    "Verif.Prime.C45_table",
    "Verif.Prime.C45_table_mem",
    "Verif.Prime.C45_isPrime_exact",
    "Verif.Prime.C45_primes_accepted_partial",
    "Verif.Prime.C45_isPrime_small_partial",
    "Verif.Prime.C45_isPrime_false",
    "Verif.Prime.C45_loop_partial"
   ],
   "note": "The table is proved complete and correct. IsPrime is false of the code for composites coprime to 6 (its bound is the constant 0): exact behaviour proved for every input."
  },
  {
   "property": "C46",
   "status": "proved",
   "theorems": [
    "Verif.Comma.C46_groups",
    "Verif.Comma.C46_strip",
    "Verif.Comma.C46_recover",
    "Verif.Comma.C46_injective"
   ],
   "note": ""
  },
  {
   "property": "C47",
   "status": "proved",
   "theorems": [
    "Verif.Bits.C47_bit",
    "Verif.Bits.C47_byte",
    "Verif.Bits.C47_word",
    "Verif.Bits.C47_recombine",
    "Verif.Bits.C47_recombine_bits"
   ],
   "note": ""
  },
  {
   "property": "C48",
   "status": "partial",
   "theorems": [
    "Verif.Crypto.C48_padded",
    "Verif.Crypto.C48_roundtrip_partial",
    "Verif.Crypto.C48_large_false",
    "Verif.Crypto.C48_unpad"
   ],
   "note": "False of the code for block sizes above 255 (the count does not fit into a byte) and panics for sizes below 1; proved for 1 to 255, exact behaviour for all sizes."
  },
  {
   "property": "C49",
   "status": "partial",
   "theorems": [
    "Verif.Crypto.C49_exact",
    "Verif.Crypto.C49_roundtrip_partial",
    "Verif.Crypto.C49_false",
    "Verif.Crypto.C49_reject",
    "Verif.Crypto.C49_key"
   ],
   "note": "False of the code for data ending in zero bytes. DES is a parameter: any cipher with 8-byte blocks whose two directions are inverse; C146 writes it out."
  },
  {
   "property": "C50",
   "status": "proved",
   "theorems": [
    "Verif.Crypto.C50_stream",
    "Verif.Crypto.C50_malformed"
   ],
   "note": "AES is a parameter: any cipher with 16-byte blocks whose two directions are inverse; C146 writes it out. CBC chaining is modelled."
  },
  {
   "property": "C51",
   "status": "partial",
   "theorems": [
    "Verif.Crypto.C51_exact",
    "Verif.Crypto.C51_roundtrip_partial",
    "Verif.Crypto.C51_false",
    "Verif.Crypto.C51_hex",
    "Verif.Crypto.C51_hex_text",
    "Verif.Crypto.C51_key"
   ],
   "note": "False of the code for strings ending in zero bytes (zero padding). base64 is a parameter with decode(encode b) = b, written out in C146; hex is modelled."
  },
  {
   "property": "C52",
   "status": "proved",
   "theorems": [
    "Verif.Hash.C52_content",
    "Verif.Hash.C52_split",
    "Verif.Hash.C52_text"
   ],
   "note": "md5, sha1 and crc64 are parameters: any hash functions with the contract of hash.Hash; the three are written out in C150."
  },
  {
   "property": "C53",
   "status": "partial",
   "theorems": [
    "Verif.Hash.C53_exact",
    "Verif.Hash.C53_reset_partial",
    "Verif.Hash.C53_false"
   ],
   "note": "False of the code: Reset keeps the byte count, Size is the byte count, Sum ignores its argument. Exact behaviour proved."
  },
  {
   "property": "C54",
   "status": "partial",
   "theorems": [
    "Verif.Hash.C54_exact",
    "Verif.Hash.C54_distinct_partial",
    "Verif.Hash.C54_write",
    "Verif.Hash.C54_wrap_false",
    "Verif.Hash.C54_race_false",
    "Verif.Hash.C54_serial_partial"
   ],
   "note": "Proved for one goroutine and up to 2^32 objects; false after wrap-around and under concurrent creation (gId++ is not atomic)."
  },
  {
   "property": "C55",
   "status": "proved",
   "theorems": [
    "Verif.Ini.C55_lookup",
    "Verif.Ini.C55_listing"
   ],
   "note": "Text is a list of Unicode characters; bytes, readers and opening are C141."
  },
  {
   "property": "C56",
   "status": "proved",
   "theorems": [
    "Verif.Ini.C56_roundtrip"
   ],
   "note": ""
  },
  {
   "property": "C57",
   "status": "proved",
   "theorems": [
    "Verif.FileSize.C57_unit"
   ],
   "note": ""
  },
  {
   "property": "C58",
   "status": "proved",
   "theorems": [
    "Verif.Fs.C58_listing",
    "Verif.Fs.C58_full_paths_distinct",
    "Verif.Fs.C58_deep_files",
    "Verif.Fs.C58_leaf_dirs",
    "Verif.Fs.C58_one_level",
    "Verif.Fs.C58_deep_files_repeats_names",
    "Verif.Fs.C58_dots"
   ],
   "note": "For directories that can be listed (see C59). GetDeepFiles gives base names only, one per file, so names may repeat (C58_deep_files_repeats_names)."
  },
  {
   "property": "C59",
   "status": "partial",
   "theorems": [
    "Verif.Fs.C59_listable_partial",
    "Verif.Fs.C59_never_reports",
    "Verif.Fs.C59_silent_loss",
    "Verif.Fs.C59_unlistable_is_empty"
   ],
   "note": "False of the code: no error is ever reported, because of shadowed variables. Exact behaviour proved."
  },
  {
   "property": "C60",
   "status": "proved",
   "theorems": [
    "Verif.Fs.C60_fingerprint",
    "Verif.Fs.C60_hash",
    "Verif.Fs.C60_size",
    "Verif.Fs.C60_size_hash"
   ],
   "note": "sort.Sort is any function that permutes and orders; hash functions are parameters."
  },
  {
   "property": "C61",
   "status": "partial",
   "theorems": [
    "Verif.Fs.C61_absolute_partial",
    "Verif.Fs.C61_absolute_join_false",
    "Verif.Fs.C61_relative_panics",
    "Verif.Fs.C61_rest",
    "Verif.Fs.C61_kinds",
    "Verif.Fs.C61_panics_iff",
    "Verif.Fs.C61_root",
    "Verif.Fs.C61_filepath"
   ],
   "note": "False of the code: relative paths panic, absolute ones lose the root. Exact behaviour proved for every text on Unix."
  },
  {
   "property": "C62",
   "status": "partial",
   "theorems": [
    "Verif.Errors.C62_ids",
    "Verif.Errors.C62_ids_distinct",
    "Verif.Errors.C62_get_returns_text_partial",
    "Verif.Errors.C62_unregistered_reports_error",
    "Verif.Errors.C62_std_text_lost"
   ],
   "note": "Proved for every registration made after program start; false for the package own ERRID_STD, whose text is overwritten by init."
  },
  {
   "property": "C63",
   "status": "partial",
   "theorems": [
    "Verif.Regable.C63_get_returns_last_value_partial",
    "Verif.Regable.C63_set_succeeds_partial",
    "Verif.Regable.C63_ids_distinct_partial",
    "Verif.Regable.C63_ids_decompose_partial",
    "Verif.Regable.C63_make_ids",
    "Verif.Regable.C63_beyond_limits"
   ],
   "note": "Proved within 255 registrars and 2^24-1 values each; the code does not enforce these limits, and beyond them the property is false."
  },
  {
   "property": "C64",
   "status": "partial",
   "theorems": [
    "Verif.Regable.C64_invalid_ids_never_read_partial",
    "Verif.Regable.C64_unregistered_panics",
    "Verif.Regable.C64_limits_not_enforced"
   ],
   "note": "False of the code: every access to an unregistered id panics (index out of range), and no limit is enforced. Exact behaviour proved."
  },
  {
   "property": "C65",
   "status": "proved",
   "theorems": [
    "Verif.Mapping.C65_find_reflects_history",
    "Verif.Mapping.C65_inverse",
    "Verif.Mapping.C65_insert",
    "Verif.Mapping.C65_remove"
   ],
   "note": ""
  },
  {
   "property": "C66",
   "status": "partial",
   "theorems": [
    "Verif.IoCopy.C66_copies_everything_partial",
    "Verif.IoCopy.C66_terminates",
    "Verif.IoCopy.C66_no_writers",
    "Verif.IoCopy.C66_writerTo_feeds_first_only",
    "Verif.IoCopy.C66_writerTo_one_writer",
    "Verif.IoCopy.C66_copys_partial"
   ],
   "note": "Proved for sources read chunk by chunk and at least one writer; false with no writer, and for sources with a WriteTo method and two or more writers (only the first gets data)."
  },
  {
   "property": "C67",
   "status": "proved",
   "theorems": [
    "Verif.Duration.C67_days",
    "Verif.Duration.C67_parse",
    "Verif.Duration.C67_injective"
   ],
   "note": "time.Duration.String of the Go library is written out in the model."
  },
  {
   "property": "C68",
   "status": "partial",
   "theorems": [
    "Verif.Rand.C68_rand_partial",
    "Verif.Rand.C68_rule_ignored",
    "Verif.Rand.C68_negative_panics"
   ],
   "note": "Length and alphabet proved; the rule argument is ignored by the code."
  },
  {
   "property": "C69",
   "status": "partial",
   "theorems": [
    "Verif.RBTree.C69_insert_partial",
    "Verif.RBTree.C69_public_insert_false",
    "Verif.RBTree.C69_prev_end",
    "Verif.RBTree.C69_unique_empty_panics",
    "Verif.RBTree.C69_unique_loses_nodes",
    "Verif.RBTree.C69_prev_end_iff",
    "Verif.RBTree.C69_unique_present",
    "Verif.RBTree.C69_unique_absent_false"
   ],
   "note": "Proved for every history of insertEqual (order, completeness, stability, next, prev, Find). False of the exported Insert (a stub), of insertUnique (exactly which nodes it loses is proved for every tree), and of prev from End (right exactly if the first node is the root). The template is commented out in the source."
  },
  {
   "property": "C70",
   "status": "partial",
   "theorems": [
    "Verif.Factory.C70_create_never_creates",
    "Verif.Factory.C70_create_calls_entry_partial"
   ],
   "note": "False of the code: AddCreater is a stub."
  },
  {
   "property": "C71",
   "status": "partial",
   "theorems": [
    "Verif.Heap.C71_makeHeap_false",
    "Verif.Heap.C71_popHeap_partial",
    "Verif.Heap.C71_makeHeap_perm",
    "Verif.Heap.C71_makeHeap_top_partial",
    "Verif.Heap.C71_makeHeap_short_partial",
    "Verif.Heap.C71_makeHeap_every_false",
    "Verif.Heap.C71_sort_perm",
    "Verif.Heap.C71_sort_short_partial",
    "Verif.Heap.C71_sort_every_false"
   ],
   "note": "PopHeap of a heap is proved. False of the template for MakeHeap and SortHeap: MakeHeap makes a heap of every slice up to three elements and fails for some slice of every greater length, for every order with four values; SortHeap sorts up to four elements and fails for some slice of every greater length. Proved for all slices: both keep the elements, and the first element after MakeHeap is the top."
  },
  {
   "property": "C72",
   "status": "partial",
   "theorems": [
    "Verif.SList.C72_pushFrontList_partial"
   ],
   "note": "The contents are right; false of the code: other is not emptied and shares all nodes."
  },
  {
   "property": "C73",
   "status": "partial",
   "theorems": [
    "Verif.SList.C73_isValidNode_partial",
    "Verif.SList.C73_reachable_only_self",
    "Verif.SList.C73_isValidNode_only_front"
   ],
   "note": "False of the code: only the first node is recognised."
  },
  {
   "property": "C74",
   "status": "partial",
   "theorems": [
    "Verif.Crypto.C74_exact",
    "Verif.Crypto.C74_false",
    "Verif.Crypto.C74_tight_partial"
   ],
   "note": "False of the code: append writes the padding into the array behind the slice when there is room. Exact effect proved."
  },
  {
   "property": "C75",
   "status": "partial",
   "theorems": [
    "Verif.FileSize.C75_accuracy",
    "Verif.FileSize.C75_next_unit_partial",
    "Verif.FileSize.C75_false",
    "Verif.FileSize.C75_text"
   ],
   "note": "Accuracy proved for all sizes; false that the number stays below 1024: just below the next unit it is printed as 1024.000 (exactly characterised)."
  },
  {
   "property": "C76",
   "status": "partial",
   "theorems": [
    "Verif.Regable.C76_object_is_the_value_partial",
    "Verif.Regable.C76_object_id_is_wrong"
   ],
   "note": "The values agree; Id() of an object lacks the registrar and is never the identifier."
  },
  {
   "property": "C77",
   "status": "partial",
   "theorems": [
    "Verif.Fs.C77_size_partial",
    "Verif.Fs.C77_structure_false",
    "Verif.Fs.C77_empty_false",
    "Verif.Fs.C77_same_partial",
    "Verif.Fs.C77_hash_partial"
   ],
   "note": "False of the code: a directory with one 51-byte file and the file with its fingerprint as content have the same fingerprint, as have an empty file and an empty directory. C77_same_partial: this is the only exception; without such files, and below 2^48 bytes, equal fingerprints mean equal trees up to names and order unless two of the hashed byte strings collide."
  },
  {
   "property": "C78",
   "status": "partial",
   "theorems": [
    "Verif.Fs.C78_fingerprint_error_partial",
    "Verif.Fs.C78_hash_error_partial",
    "Verif.Fs.C78_read_error_dropped"
   ],
   "note": "True for opening and listing; false for reading: the error of io.Copy is dropped."
  },
  {
   "property": "C79",
   "status": "proved",
   "theorems": [
    "Verif.Fs.C79_statistic",
    "Verif.Fs.C79_agrees"
   ],
   "note": "filepath.Walk of the Go library is written out in the model."
  },
  {
   "property": "C80",
   "status": "partial",
   "theorems": [
    "Verif.RBTree.C80_chain_false",
    "Verif.RBTree.C80_shape_partial",
    "Verif.RBTree.C80_cost",
    "Verif.RBTree.C80_linear_false"
   ],
   "note": "False of the code: rebalence does nothing. Exact shape proved for every history of insertions (plain search tree, all nodes red) and the exact number of nodes visited by Find and an insertion; increasing keys give a list."
  },
  {
   "property": "C81",
   "status": "proved",
   "theorems": [
    "Verif.RBTree.C81_rotateLeft",
    "Verif.RBTree.C81_rotateRight",
    "Verif.RBTree.C81_no_child"
   ],
   "note": "For nodes with the child needed; without it the code panics (C81_no_child)."
  },
  {
   "property": "C82",
   "status": "proved",
   "theorems": [
    "Verif.Path.C82_canonical",
    "Verif.Path.C82_components"
   ],
   "note": "Unix; filepath.Clean is written out in the model."
  },
  {
   "property": "C83",
   "status": "proved",
   "theorems": [
    "Verif.Path.C83_joins",
    "Verif.Path.C83_joins_after",
    "Verif.Path.C83_relative",
    "Verif.Path.C83_assoc"
   ],
   "note": "Unix; an absolute later element does not restart (as documented by the library)."
  },
  {
   "property": "C84",
   "status": "partial",
   "theorems": [
    "Verif.Path.C84_relate_partial",
    "Verif.Path.C84_false"
   ],
   "note": "False of the code when one path is absolute and the other is not: the error is dropped and \".\" is returned. filepath.Rel is a parameter with its documented contract."
  },
  {
   "property": "C85",
   "status": "partial",
   "theorems": [
    "Verif.Path.C85_rename_partial",
    "Verif.Path.C85_false"
   ],
   "note": "False of the code for absolute names on Unix: they are taken from the directory of the path as well. Exact target proved."
  },
  {
   "property": "C86",
   "status": "partial",
   "theorems": [
    "Verif.Path.C86_move_partial",
    "Verif.Path.C86_false",
    "Verif.Path.C86_copy_false"
   ],
   "note": "False of the code: Move applies the directory twice, Copy is a stub. Exact target proved for every absolute path."
  },
  {
   "property": "C87",
   "status": "partial",
   "theorems": [
    "Verif.Path.C87_prefix_partial",
    "Verif.Path.C87_false"
   ],
   "note": "One direction holds; the other is false for every path but the root."
  },
  {
   "property": "C88",
   "status": "proved",
   "theorems": [
    "Verif.Path.C88_dir_base",
    "Verif.Path.C88_parent",
    "Verif.Path.C88_split",
    "Verif.Path.C88_fileName",
    "Verif.Path.C88_ext"
   ],
   "note": "Unix; filepath.Dir, Base and Split are written out."
  },
  {
   "property": "C89",
   "status": "partial",
   "theorems": [
    "Verif.Path.C89_false"
   ],
   "note": "False of the code: Create recurses for ever if the path opens and otherwise does nothing and reports success. Nothing of the property holds."
  },
  {
   "property": "C90",
   "status": "partial",
   "theorems": [
    "Verif.Path.C90_gopath_partial",
    "Verif.Path.C90_false"
   ],
   "note": "Right for one entry; the list is split at semicolons, so with several entries on Unix it is wrong."
  },
  {
   "property": "C91",
   "status": "proved",
   "theorems": [
    "Verif.Hash.C91_text",
    "Verif.Hash.C91_injective",
    "Verif.Hash.C91_length",
    "Verif.Hash.C91_length_injective",
    "Verif.Hash.C91_none",
    "Verif.Hash.C91_unknown"
   ],
   "note": "Hash functions of the Go library are parameters with their sizes. For NONE the length shown is always 0 (C91_none)."
  },
  {
   "property": "C92",
   "status": "partial",
   "theorems": [
    "Verif.Rsa.C92_keys",
    "Verif.Rsa.C92_encrypt",
    "Verif.Rsa.C92_sign",
    "Verif.Rsa.C92_default",
    "Verif.Rsa.C92_bad_partial",
    "Verif.Rsa.C92_false"
   ],
   "note": "All but one clause proved; false: a public key of another kind makes NewClient panic. The Go library is a parameter with a stated contract. GenRsaKeys does not compile as written; the model takes its evident meaning."
  },
  {
   "property": "C93",
   "status": "partial",
   "theorems": [
    "Verif.Errors.C93_text",
    "Verif.Errors.C93_stable",
    "Verif.Errors.C93_distinct",
    "Verif.Errors.C93_std_partial",
    "Verif.Errors.C93_std_false",
    "Verif.Errors.C93_showAll"
   ],
   "note": "All but the last clause proved; StdErr uses the wrapped text as a format, so percent signs are lost."
  },
  {
   "property": "C94",
   "status": "partial",
   "theorems": [
    "Verif.FileLock.C94_exclusion",
    "Verif.FileLock.C94_progress_partial",
    "Verif.FileLock.C94_no_wait_false",
    "Verif.FileLock.C94_deadlock_false"
   ],
   "note": "Exclusion proved for every schedule. Waiting is false: on Windows a busy file is an error; were it the awaited error, a waiting Lock on the same mutex would block Unlock for ever."
  },
  {
   "property": "C95",
   "status": "partial",
   "theorems": [
    "Verif.SListTail.C95_history_partial",
    "Verif.SListTail.C95_last_removed_false",
    "Verif.SListTail.C95_behind_last_false",
    "Verif.SListTail.C95_insertFront_false",
    "Verif.SListTail.C95_moveBack_false",
    "Verif.SListTail.C95_self_false",
    "Verif.SListTail.C95_pushFrontList"
   ],
   "note": "Proved for every history without five kinds of calls; for each of them it is false of the code (Remove, InsertAfter and the others do not maintain the tail) and the exact effect is proved."
  },
  {
   "property": "C96",
   "status": "partial",
   "theorems": [
    "Verif.Unsafe.C96_same_memory",
    "Verif.Unsafe.C96_pointers",
    "Verif.Unsafe.C96_write",
    "Verif.Unsafe.C96_write_out",
    "Verif.Unsafe.C96_append",
    "Verif.Unsafe.C96_reslice",
    "Verif.Unsafe.C96_append_original",
    "Verif.Unsafe.C96_immutable_false",
    "Verif.Unsafe.C96_writeable_partial",
    "Verif.Unsafe.C96_writeable_false"
   ],
   "note": "Everything is proved except that Writeable is complete: memory of global variables may be written but Writeable says no (C96_writeable_false). Strings obtained by BytesString change with the slice (C96_immutable_false)."
  },
  {
   "property": "C97",
   "status": "partial",
   "theorems": [
    "Verif.FloatEq.C97_exact",
    "Verif.FloatEq.C97_tolerance",
    "Verif.FloatEq.C97_symm",
    "Verif.FloatEq.C97_refl_partial",
    "Verif.FloatEq.C97_inf_false",
    "Verif.FloatEq.C97_large",
    "Verif.FloatEq.C97_small",
    "Verif.FloatEq.C97_transitive_false",
    "Verif.FloatEq.C97_large_exact",
    "Verif.FloatEq.C97_between"
   ],
   "note": "The exact threshold and symmetry are proved; reflexivity fails for infinities and NaN, transitivity fails everywhere (C97_inf_false, C97_transitive_false)."
  },
  {
   "property": "C98",
   "status": "partial",
   "theorems": [
    "Verif.Rand.C98_seed",
    "Verif.Rand.C98_distinct_partial",
    "Verif.Rand.C98_moving_clock_false",
    "Verif.Rand.C98_one_sequence"
   ],
   "note": "Proved while the clock reading stands still; two readings that differ by one particular amount give the same seed (C98_moving_clock_false, exact). All 64-bit generators run through one sequence (C98_one_sequence)."
  },
  {
   "property": "C99",
   "status": "partial",
   "theorems": [
    "Verif.Rand.C99_pow64_false",
    "Verif.Rand.C99_pow32_false",
    "Verif.Rand.C99_bit32_false",
    "Verif.Rand.C99_each_once_partial",
    "Verif.Rand.C99_other64_partial",
    "Verif.Rand.C99_other32_partial",
    "Verif.Rand.C99_frequency"
   ],
   "note": "True exactly for bounds that are no power of two. For powers of two the exact period is 2^k (64 bit) or 2^(k-1) (32 bit). C99_frequency: over one period of the 64-bit generator every number below any bound occurs equally often up to one."
  },
  {
   "property": "C100",
   "status": "partial",
   "theorems": [
    "Verif.Duration.C100_below_day_partial",
    "Verif.Duration.C100_day_false"
   ],
   "note": "True below one day (negative durations included); false for every duration of a day or more, whose text is refused because the library knows no unit d."
  },
  {
   "property": "C101",
   "status": "partial",
   "theorems": [
    "Verif.Regable.C101_text_partial",
    "Verif.Regable.C101_registrar_false",
    "Verif.Regable.C101_distinct_partial",
    "Verif.Regable.C101_unregistered_false",
    "Verif.Regable.C101_regO_partial",
    "Verif.Regable.C101_regO_locked",
    "Verif.Regable.C101_show"
   ],
   "note": "ShowAllRegs is proved in full within the limits; the text of a single value always shows registrar 0 (C101_registrar_false), and invalid identifiers panic instead of being shown as invalid (C101_unregistered_false)."
  },
  {
   "property": "C102",
   "status": "partial",
   "theorems": [
    "Verif.Backtrace.C102_current",
    "Verif.Backtrace.C102_caller",
    "Verif.Backtrace.C102_stack_partial",
    "Verif.Backtrace.C102_depth_false",
    "Verif.Backtrace.C102_line_false",
    "Verif.Backtrace.C102_me_false",
    "Verif.Backtrace.C102_assert",
    "Verif.Backtrace.C102_fileLine"
   ],
   "note": "Bt, Caller, FileLine and Func are proved in full. Lists stop after 50 frames and name the line behind the call; the exported depth BtMe means different frames to CallStackInfo and CallStackList."
  },
  {
   "property": "C103",
   "status": "partial",
   "theorems": [
    "Verif.FileRWLock.C103_any_history",
    "Verif.FileRWLock.C103_false"
   ],
   "note": "False: all methods are empty. Proved for every path and every history."
  },
  {
   "property": "C104",
   "status": "partial",
   "theorems": [
    "Verif.Reflect.C104_same",
    "Verif.Reflect.C104_new_partial",
    "Verif.Reflect.C104_new_false",
    "Verif.Reflect.C104_nil_panics",
    "Verif.Reflect.C104_cmpable_partial",
    "Verif.Reflect.C104_cmpable_false"
   ],
   "note": "IsSameType is proved in full. New gives a pointer to the type for every sample, never the type; defined types and uintptr are never accepted as comparable; nil panics."
  },
  {
   "property": "C105",
   "status": "proved",
   "theorems": [
    "Verif.Duration.C105_terms",
    "Verif.Duration.C105_bad_unit",
    "Verif.Duration.C105_long_fraction",
    "Verif.Duration.C105_zero",
    "Verif.Duration.C105_no_number"
   ],
   "note": "The function is that of the Go library, written out; the floating point product of a fraction is a parameter that is exact below 2^53, with the true float64 computation as an instance. Fractions finer than a nanosecond are the subject of C109."
  },
  {
   "property": "C106",
   "status": "proved",
   "theorems": [
    "Verif.LFQueue.C106_lock_free",
    "Verif.LFQueue.C106_never_waits",
    "Verif.LFQueue.C106_completes",
    "Verif.LFQueue.C106_quiescence"
   ],
   "note": "In the interleaving model of C30: one step is one access to shared memory."
  },
  {
   "property": "C107",
   "status": "proved",
   "theorems": [
    "Verif.RingBuffer.C107_bounded",
    "Verif.RingBuffer.C107_no_deadlock",
    "Verif.RingBuffer.C107_completes",
    "Verif.RingBuffer.C107_next"
   ],
   "note": "In the interleaving model of C34; fewer than 2^64 calls, so that the tickets do not wrap."
  },
  {
   "property": "C108",
   "status": "partial",
   "theorems": [
    "Verif.DurationFloat.C108_monotone",
    "Verif.DurationFloat.C108_accuracy",
    "Verif.DurationFloat.C108_whole",
    "Verif.DurationFloat.C108_strict_partial",
    "Verif.DurationFloat.C108_distinct_false",
    "Verif.DurationFloat.C108_collide_false"
   ],
   "note": "Exactness on whole units, accuracy and monotonicity hold for all durations. Distinctness holds exactly up to 2^23 seconds, 2^17 minutes, 2^11 hours, 64 days and 8 weeks; in every whole unit beyond, two durations have the same number (C108_collide_false), and from 209 days on one nanosecond short of k days or weeks gives k."
  },
  {
   "property": "C109",
   "status": "partial",
   "theorems": [
    "Verif.Duration.C109_fractions_partial",
    "Verif.Duration.C109_rounding_false"
   ],
   "note": "With the float64 arithmetic of the library written out: every term is met up to 1/30 ns above and 1 1/30 ns below, exactly for whole nanoseconds written without superfluous digits. Rounding down exactly is false: 0.50000000000000us is read as 499 ns."
  },
  {
   "property": "C110",
   "status": "proved",
   "theorems": [
    "Verif.Rand.C110_lock_free",
    "Verif.Rand.C110_never_waits"
   ],
   "note": "In the interleaving model of the generators: one step is one access to the seed."
  },
  {
   "property": "C111",
   "status": "proved",
   "theorems": [
    "Verif.SpinLock.C111_spinlock",
    "Verif.RWSpinLock.C111_rwspinlock",
    "Verif.LFQueue.C111_lfqueue",
    "Verif.FileLock.C111_filelock"
   ],
   "note": "In the interleaving models of C36, C37, C30 and C94. Whether the step makes progress is C106 and the like; the spin locks panic after 2^24 failed attempts."
  },
  {
   "property": "C112",
   "status": "proved",
   "theorems": [
    "Verif.Crypto.C112_hash",
    "Verif.Crypto.C112_hashString"
   ],
   "note": "SHA-512 is a parameter meeting the contract of hash.Hash (written out in C150); hex is modelled."
  },
  {
   "property": "C113",
   "status": "proved",
   "theorems": [
    "Verif.SliceMem.C113_call",
    "Verif.SliceMem.C113_history",
    "Verif.SliceMem.C113_buffer_live",
    "Verif.SliceMem.C113_buffer_detached",
    "Verif.SliceMem.C113_pushHeap",
    "Verif.SliceMem.C113_popHeap",
    "Verif.SliceMem.C113_makeHeap",
    "Verif.SliceMem.C113_sortHeap",
    "Verif.SliceMem.C113_stack",
    "Verif.SliceMem.C113_popHeap_empty"
   ],
   "note": "Slices are windows into arrays; the growth policy of append is a parameter; arrays are never freed. The heap object in memory is C128."
  },
  {
   "property": "C114",
   "status": "proved",
   "theorems": [
    "Verif.Fs.C114_none",
    "Verif.Fs.C114_none_distinct",
    "Verif.Fs.C114_none_error",
    "Verif.Fs.C114_none_again",
    "Verif.Fs.C114_fingerprint_file",
    "Verif.Fs.C114_fingerprint_text",
    "Verif.Fs.C114_fingerprint_dir"
   ],
   "note": "One goroutine; up to 2^32 files and directories for the distinctness. The hash functions under the fingerprint are parameters."
  },
  {
   "property": "C115",
   "status": "proved",
   "theorems": [
    "Verif.RWSpinLock.C115_unlock_panics",
    "Verif.RWSpinLock.C115_runlock_panics",
    "Verif.RWSpinLock.C115_panic_sticks",
    "Verif.RWSpinLock.C115_blames_reader"
   ],
   "note": "In the interleaving model of C37."
  },
  {
   "property": "C116",
   "status": "partial",
   "theorems": [
    "Verif.WorkDir.C116_workpath",
    "Verif.WorkDir.C116_history",
    "Verif.WorkDir.C116_outcomes",
    "Verif.WorkDir.C116_absolute",
    "Verif.WorkDir.C116_relate_partial",
    "Verif.WorkDir.C116_relate_false"
   ],
   "note": "RelateWorkPath is correct for absolute paths only; of a relative path it is always \".\". os.Chdir and os.Getwd are parameters with the contract of their documentation."
  },
  {
   "property": "C117",
   "status": "proved",
   "theorems": [
    "Verif.TreeHeap.C117_all",
    "Verif.TreeHeap.C117_addChildNode",
    "Verif.TreeHeap.C117_addChild",
    "Verif.TreeHeap.C117_removeChild",
    "Verif.TreeHeap.C117_removeChild_range",
    "Verif.TreeHeap.C117_children",
    "Verif.TreeHeap.C117_sortChildren",
    "Verif.TreeHeap.C117_cycle",
    "Verif.TreeHeap.C117_history",
    "Verif.TreeHeap.C117_forest"
   ],
   "note": "sort.Sort is a parameter with its contract. AddChildNode at an index in range replaces the child there (see C14), and so it does here."
  },
  {
   "property": "C118",
   "status": "proved",
   "theorems": [
    "Verif.TreeHeap.C118_cursor",
    "Verif.TreeHeap.C118_next_safe",
    "Verif.TreeHeap.C118_prev",
    "Verif.TreeHeap.C118_prev_false",
    "Verif.TreeHeap.C118_remove_skips",
    "Verif.TreeHeap.C118_nil_children",
    "Verif.TreeHeap.C118_all_nil"
   ],
   "note": "A call that panics ends the history."
  },
  {
   "property": "C119",
   "status": "partial",
   "theorems": [
    "Verif.DList.C119_nil",
    "Verif.DList.C119_self_mark",
    "Verif.DList.C119_insertAfter_self",
    "Verif.DList.C119_detached",
    "Verif.DList.C119_remove_twice",
    "Verif.DList.C119_detached_mark",
    "Verif.DList.C119_wrong_list_partial",
    "Verif.DList.C119_wrong_list_single",
    "Verif.DList.C119_wrong_list_first",
    "Verif.DList.C119_self_list",
    "Verif.DList.C119_insert_again",
    "Verif.DList.C119_visit_removed",
    "Verif.DList.C119_visit_loops",
    "Verif.DList.C119_visit_other_partial"
   ],
   "note": "The parts named in the statement are false of the code; the exact behaviour is proved for each."
  },
  {
   "property": "C120",
   "status": "proved",
   "theorems": [
    "Verif.SList.C120_nil",
    "Verif.SList.C120_self_list",
    "Verif.SList.C120_insert_again",
    "Verif.SList.C120_move_across"
   ],
   "note": ""
  },
  {
   "property": "C121",
   "status": "proved",
   "theorems": [
    "Verif.ErrConc.C121_linearizable",
    "Verif.ErrConc.C121_ids",
    "Verif.ErrConc.C121_get_safe",
    "Verif.ErrConc.C121_exclusion",
    "Verif.ErrConc.C121_showAll",
    "Verif.ErrConc.C121_count_short",
    "Verif.ErrConc.C121_progress"
   ],
   "note": "sync.RWMutex by its contract; the unprotected read of one word in ShowAll is taken to give a value that was written."
  },
  {
   "property": "C122",
   "status": "proved",
   "theorems": [
    "Verif.RegConc.C122_linearizable",
    "Verif.RegConc.C122_no_race",
    "Verif.RegConc.C122_progress",
    "Verif.RegConc.C122_reg_races",
    "Verif.RegConc.C122_reg_alone"
   ],
   "note": "The quantifier is the documented limits (beyond them identifiers are wrong even for one goroutine, see C63), and after the registration: Reg by several goroutines at once can return one identifier twice."
  },
  {
   "property": "C123",
   "status": "proved",
   "theorems": [
    "Verif.Guarded.C123_linearizable",
    "Verif.Guarded.C123_exclusion",
    "Verif.Guarded.C123_progress",
    "Verif.Guarded.C123_panic_false",
    "Verif.Guarded.C123_seq_agrees",
    "Verif.Guarded.C123_seq_linearizable",
    "Verif.Guarded.C123_ids",
    "Verif.Guarded.C123_all_ids",
    "Verif.Guarded.C123_bare_false",
    "Verif.Guarded.C123_stack"
   ],
   "note": "A lock that gives up panics in that goroutine only, which then returns nothing. async.AutoLock, which SeqNext64 uses, is not in the repository; it is taken to be a lock that waits."
  },
  {
   "property": "C124",
   "status": "proved",
   "theorems": [
    "Verif.Queue.C124_queue",
    "Verif.Deque.C124_deque"
   ],
   "note": "The table is in Verif/Spec/Ring.lean and knows no buffer. The queue after Shrink is the subject of C06."
  },
  {
   "property": "C125",
   "status": "proved",
   "theorems": [
    "Verif.Heap.C125_same",
    "Verif.Heap.C125_push",
    "Verif.Heap.C125_pop",
    "Verif.Heap.C125_make",
    "Verif.Heap.C125_sort",
    "Verif.Heap.C125_questions"
   ],
   "note": "Comparisons are calls of the comparison function of the heap; C125_questions says the same of the functions that record nothing."
  },
  {
   "property": "C126",
   "status": "proved",
   "theorems": [
    "Verif.Queue.C126_queue",
    "Verif.Deque.C126_deque",
    "Verif.Deque.C126_shrink"
   ],
   "note": "The queue without Shrink, which is the subject of C06."
  },
  {
   "property": "C127",
   "status": "proved",
   "theorems": [
    "Verif.Queue.C127_queue_same",
    "Verif.Queue.C127_queue",
    "Verif.Queue.C127_queue_exact",
    "Verif.Deque.C127_deque_exact",
    "Verif.Deque.C127_deque_same",
    "Verif.Deque.C127_deque",
    "Verif.Deque.C127_deque_grow"
   ],
   "note": "The elements moved are those counted by the results of copy; the queue without Shrink, which is the subject of C06."
  },
  {
   "property": "C128",
   "status": "proved",
   "theorems": [
    "Verif.SliceMem.C128_call",
    "Verif.SliceMem.C128_new",
    "Verif.SliceMem.C128_history",
    "Verif.SliceMem.C128_buffer_live",
    "Verif.SliceMem.C128_buffer_detached",
    "Verif.SliceMem.C128_bounded",
    "Verif.SliceMem.C128_two_heaps",
    "Verif.SliceMem.C128_checkHeap",
    "Verif.SliceMem.C128_reverse"
   ],
   "note": "Same memory as C113. Reverse of the empty slice panics, which is C12."
  },
  {
   "property": "C129",
   "status": "proved",
   "theorems": [
    "Verif.SortProg.C129_run",
    "Verif.SortProg.C129_sort",
    "Verif.SortProg.C129_sort_int",
    "Verif.SortProg.C129_less",
    "Verif.SortProg.C129_init",
    "Verif.SortProg.C129_all_compared",
    "Verif.SortProg.C129_children",
    "Verif.SortProg.C129_sortChildren"
   ],
   "note": "sort.Sort of the Go library is a parameter: any decision tree over Less and Swap that sorts every strict weak order and leaves fewer than two elements alone; the library's insertion sort is proved to be one. The library's whole algorithm is C154."
  },
  {
   "property": "C130",
   "status": "proved",
   "theorems": [
    "Verif.LFDeque.C130_bounded",
    "Verif.LFDeque.C130_completes",
    "Verif.LFDeque.C130_next",
    "Verif.LFDeque.C130_waits",
    "Verif.LFDeque.C130_no_deadlock"
   ],
   "note": "Same interleaving model as C33, without Clear; a goroutine that panicked takes no further part."
  },
  {
   "property": "C131",
   "status": "partial",
   "theorems": [
    "Verif.FsLinks.C131_readlink_iff",
    "Verif.FsLinks.C131_readlink",
    "Verif.FsLinks.C131_symlink_absolute_partial",
    "Verif.FsLinks.C131_symlink_relative",
    "Verif.FsLinks.C131_symlink_name_partial",
    "Verif.FsLinks.C131_symlink_false",
    "Verif.FsLinks.C131_symlink_false_case",
    "Verif.FsLinks.C131_link",
    "Verif.FsLinks.C131_rename",
    "Verif.FsLinks.C131_rename_back"
   ],
   "note": "False of the code for Symlink of a relative path with a directory in it: the link holds the path as it is, which counts from the directory of the link. Exact behaviour proved. The system calls symlink, link and rename are modelled where they succeed."
  },
  {
   "property": "C132",
   "status": "partial",
   "theorems": [
    "Verif.FsLinks.C132_no_parents_partial",
    "Verif.FsLinks.C132_no_parents_back",
    "Verif.FsLinks.C132_no_links_partial",
    "Verif.FsLinks.C132_false"
   ],
   "note": "False when .. follows a symbolic link, since FilePath removes both; proved when the text has no .. and when the file system has no symbolic links."
  },
  {
   "property": "C133",
   "status": "partial",
   "theorems": [
    "Verif.FsLinks.C133_fingerprint_partial",
    "Verif.FsLinks.C133_hash_partial",
    "Verif.FsLinks.C133_success",
    "Verif.FsLinks.C133_success_hash",
    "Verif.FsLinks.C133_cycle",
    "Verif.FsLinks.C133_endless",
    "Verif.FsLinks.C133_dangling",
    "Verif.FsLinks.C133_statistic",
    "Verif.FsLinks.C133_statistic_nothing",
    "Verif.FsLinks.C133_agree",
    "Verif.FsLinks.C133_differ"
   ],
   "note": "Proved where the tree seen is finite. False of the code otherwise: below a directory that a link leads back to, the calls never end (a system that limits the links on a path ends them with an error), and one link that leads nowhere makes Fingerprint and Hash of all directories above fail. With links the size of Statistic differs from that of Fingerprint."
  },
  {
   "property": "C134",
   "status": "proved",
   "theorems": [
    "Verif.SortProg.C134_call",
    "Verif.SortProg.C134_history",
    "Verif.SortProg.C134_right",
    "Verif.SortProg.C134_agreement",
    "Verif.SortProg.C134_sort_forgets"
   ],
   "note": ""
  },
  {
   "property": "C135",
   "status": "partial",
   "theorems": [
    "Verif.FsLinks.C135_listing_partial",
    "Verif.FsLinks.C135_nothing",
    "Verif.FsLinks.C135_names",
    "Verif.FsLinks.C135_distinct",
    "Verif.FsLinks.C135_stable",
    "Verif.FsLinks.C135_false"
   ],
   "note": "Proved for every path that leads to the same directory as the path object made from it (every path without .., every path in a file system without links). False with .. after a symbolic link: sub-directories are then looked for elsewhere, and listed as empty without an error."
  },
  {
   "property": "C136",
   "status": "proved",
   "theorems": [
    "Verif.LFDeque.C136_linearizable",
    "Verif.LFDeque.C136_no_race",
    "Verif.LFDeque.C136_producer_clears_false"
   ],
   "note": "The counter that Busy reports is not modelled; Clear resets it with a plain store."
  },
  {
   "property": "C137",
   "status": "proved",
   "theorems": [
    "Verif.DList.C137_same",
    "Verif.DList.C137_any_comparator",
    "Verif.DList.C137_questions"
   ],
   "note": ""
  },
  {
   "property": "C138",
   "status": "partial",
   "theorems": [
    "Verif.RingBuffer.C138_linearizable_partial",
    "Verif.RingBuffer.C138_others",
    "Verif.RingBuffer.C138_size_range",
    "Verif.RingBuffer.C138_any_negative_false",
    "Verif.RingBuffer.C138_empty_false",
    "Verif.RingBuffer.C138_size_false"
   ],
   "note": "Proved for goroutines that are the only one to push or the only one to pop; false of the code for anybody else, with the exact range of what Size can report. Fewer than 2^64 calls, fewer than 2^63 slots."
  },
  {
   "property": "C139",
   "status": "partial",
   "theorems": [
    "Verif.StrRand.C139_shared",
    "Verif.StrRand.C139_one_call",
    "Verif.StrRand.C139_every_letter_partial",
    "Verif.StrRand.C139_alternates_false",
    "Verif.StrRand.C139_few",
    "Verif.StrRand.C139_atomic_false",
    "Verif.StrRand.C139_returns"
   ],
   "note": "False of the code as to the variety: the lowest bit of the generator alternates and 26 is even. The rest is proved in full."
  },
  {
   "property": "C140",
   "status": "proved",
   "theorems": [
    "Verif.FileLock.C140_exclusion",
    "Verif.FileLock.C140_released",
    "Verif.FileLock.C140_others",
    "Verif.FileLock.C140_gone"
   ],
   "note": "The operating system closes the handles of a process that ends; a restarted program is a new process. How a waiting Lock behaves is C94."
  },
  {
   "property": "C141",
   "status": "partial",
   "theorems": [
    "Verif.IniBytes.C141_lookup_partial",
    "Verif.IniBytes.C141_listing",
    "Verif.IniBytes.C141_pieces",
    "Verif.IniBytes.C141_reader",
    "Verif.IniBytes.C141_roundtrip",
    "Verif.IniBytes.C141_utf8",
    "Verif.IniBytes.C141_utf8_get",
    "Verif.IniBytes.C141_crlf",
    "Verif.IniBytes.C141_bom_false",
    "Verif.IniBytes.C141_read_error_false",
    "Verif.IniBytes.C141_new_partial"
   ],
   "note": "False of the code: a byte order mark hides the header in the first line, and an error of reading is not reported (New gives what was read before it). The rest is proved in full."
  },
  {
   "property": "C142",
   "status": "partial",
   "theorems": [
    "Verif.Race.C142_lfqueue_race_free",
    "Verif.Race.C142_lfqueue_fine",
    "Verif.Race.C142_ringbuffer_race_free",
    "Verif.Race.C142_deque_race_free_partial",
    "Verif.Race.C142_deque_producers_race",
    "Verif.Race.C142_deque_consumers_race",
    "Verif.Race.C142_deque_clear_race",
    "Verif.Race.C142_spinlock_race_free",
    "Verif.Race.C142_spinlock_foreign_unlock_race"
   ],
   "note": "False of the deque beyond one goroutine on each side and with Clear (executions with races are given); proved in full for the queue, the ring buffer (counters below 2^64) and the spin lock. What happens-before means is Spec/Race; that race-free programs behave sequentially consistently is the promise of the Go memory model."
  },
  {
   "property": "C143",
   "status": "partial",
   "theorems": [
    "Verif.SpinLock.C143_exclusion",
    "Verif.SpinLock.C143_free",
    "Verif.SpinLock.C143_spurious_false",
    "Verif.RWSpinLock.C143_rw_writers_partial",
    "Verif.RWSpinLock.C143_rw_false"
   ],
   "note": "False of the code: Lock panics supposing a deadlock where there is none (the execution is given), and readers and writers of the reader-writer lock overlap. The rest is proved in full."
  },
  {
   "property": "C144",
   "status": "partial",
   "theorems": [
    "Verif.ErrConc.C144_errors_partial",
    "Verif.ErrConc.C144_showAll_race",
    "Verif.ErrConc.C144_errors_machine",
    "Verif.RegConc.C144_values",
    "Verif.RegConc.C144_values_machine",
    "Verif.RegConc.C144_registration_race",
    "Verif.RegConc.C144_registration_machine",
    "Verif.FileLock.C144_filelock",
    "Verif.FileLock.C144_filelock_machine"
   ],
   "note": "False of ShowAll of the error registry and of concurrent registration (executions with races are given); proved in full otherwise. What happens-before means for mutexes is Spec/LockRace; that race-free programs behave sequentially consistently is the promise of the Go memory model."
  },
  {
   "property": "C145",
   "status": "partial",
   "theorems": [
    "Verif.Handover.C145_lfqueue",
    "Verif.Handover.C145_ringbuffer",
    "Verif.Handover.C145_deque_partial",
    "Verif.Handover.C145_deque_consumers_false",
    "Verif.Handover.C145_spinlock",
    "Verif.Handover.C145_order_of_accesses"
   ],
   "note": "False of the deque with two goroutines that pop (the execution is given); proved in full for the list, the ring buffer (counters below 2^64), the deque between one producer and one consumer, and the spin lock."
  },
  {
   "property": "C146",
   "status": "proved",
   "theorems": [
    "Verif.Crypto.C146_triple_des",
    "Verif.Crypto.C146_triple_des_back",
    "Verif.Crypto.C146_aes_stream",
    "Verif.Crypto.C146_aes_blocks",
    "Verif.Crypto.C146_base64",
    "Verif.Crypto.C146_text",
    "Verif.Crypto.C146_line_breaks",
    "Verif.Crypto.C146_base64_values",
    "Verif.Crypto.C146_base64_accepted",
    "Verif.Crypto.C146_aes_sbox",
    "Verif.Crypto.C146_aes_columns",
    "Verif.Crypto.C146_aes_rows",
    "Verif.Crypto.C146_aes_schedule",
    "Verif.Crypto.C146_des_tables",
    "Verif.Crypto.C146_des_schedule",
    "Verif.Crypto.C146_des_sbox"
   ],
   "note": "DES, AES and base64 are written out from FIPS 46-3, FIPS 197 and RFC 4648 and proved to meet the contracts that C49 to C51 assume. That the Go library computes these standards is assumed."
  },
  {
   "property": "C147",
   "status": "partial",
   "theorems": [
    "Verif.Crypto.C147_short_key",
    "Verif.Crypto.C147_equal_thirds",
    "Verif.Crypto.C147_parity",
    "Verif.Crypto.C147_equal_blocks",
    "Verif.Crypto.C147_same_ciphertext",
    "Verif.Crypto.C147_aes_different",
    "Verif.Crypto.C147_common_front",
    "Verif.Crypto.C147_key_revealed"
   ],
   "note": "Mostly false of the code, which uses a fixed initialization vector that is the key and no chaining for triple DES: the theorems say exactly what is given away. Computational hardness of DES and AES is not expressed."
  },
  {
   "property": "C148",
   "status": "partial",
   "theorems": [
    "Verif.RingBuffer.C148_fewer_partial",
    "Verif.RingBuffer.C148_pops",
    "Verif.RingBuffer.C148_halt",
    "Verif.RingBuffer.C148_overwrite"
   ],
   "note": "False of the code once the 64-bit ticket counters run over: the executions are given (for buffers of every power-of-two size, also those that Init never makes). Up to there it is proved in full, which discharges the assumption on the counters in C34, C142 and C145 for histories with fewer calls."
  },
  {
   "property": "C149",
   "status": "proved",
   "theorems": [
    "Verif.Hash.C149_crc32",
    "Verif.Hash.C149_crc64",
    "Verif.Hash.C149_forged",
    "Verif.Hash.C149_fingerprint",
    "Verif.Hash.C149_collision"
   ],
   "note": "The checks are written out from the Go library (Model/Digests); that the library computes them is assumed (outside the proofs the model was compared with zlib)."
  },
  {
   "property": "C150",
   "status": "proved",
   "theorems": [
    "Verif.Hash.C150_whole",
    "Verif.Hash.C150_padding",
    "Verif.Hash.C150_md5",
    "Verif.Hash.C150_sha1",
    "Verif.Hash.C150_sha256",
    "Verif.Hash.C150_sha512",
    "Verif.Hash.C150_constants",
    "Verif.Hash.C150_md5_constants"
   ],
   "note": "The hash functions are written out from RFC 1321 and FIPS 180-4. That the Go library computes these standards is assumed."
  },
  {
   "property": "C151",
   "status": "proved",
   "theorems": [
    "Verif.Rsa.C151_contract",
    "Verif.Rsa.C151_inverse",
    "Verif.Rsa.C151_decrypt",
    "Verif.Rsa.C151_random",
    "Verif.Rsa.C151_signature",
    "Verif.Rsa.C151_hashes",
    "Verif.Rsa.C151_signed",
    "Verif.Rsa.C151_default"
   ],
   "note": "RSA with PKCS #1 v1.5 padding is written out (two primes; without blinding); that the Go library computes it is assumed (outside the proofs the model was compared with OpenSSL). Texts of keys are C152; the generation of primes (C153) stays a parameter. Hardness is not expressed."
  },
  {
   "property": "C152",
   "status": "proved",
   "theorems": [
    "Verif.Rsa.C152_contract",
    "Verif.Rsa.C152_keys",
    "Verif.Rsa.C152_file",
    "Verif.Rsa.C152_swapped",
    "Verif.Rsa.C152_truncated",
    "Verif.Rsa.C152_only",
    "Verif.Rsa.C152_format",
    "Verif.Rsa.C152_standard",
    "Verif.Rsa.C152_block",
    "Verif.Rsa.C152_bits"
   ],
   "note": "PEM, DER and the two key formats are written out (keys of two primes); that the Go library reads and writes them so is assumed (outside the proofs the model was compared with OpenSSL). The generation of primes (C153) and keys of other kinds stay parameters. With C151 this leaves C92 without assumptions on RSA."
  },
  {
   "property": "C153",
   "status": "proved",
   "theorems": [
    "Verif.Rsa.C153_generated",
    "Verif.Rsa.C153_error",
    "Verif.Rsa.C153_few",
    "Verif.Rsa.C153_once",
    "Verif.Rsa.C153_rejected",
    "Verif.Rsa.C153_sieve",
    "Verif.Rsa.C153_every",
    "Verif.Rsa.C153_use",
    "Verif.Rsa.C153_fresh",
    "Verif.Rsa.C153_apart"
   ],
   "note": "The loops of rsa.GenerateKey and rand.Prime of the Go library (versions before 1.19) are written out over a stream of random bytes; the test of primes is assumed to be exact (ProbablyPrime(20) errs with a probability below 4^-20), and the random reader never to fail. That the loops end is a matter of chance: the theorems hold after any number of rounds. The floating point estimate for small sizes is compared with the real number it approximates (C153_few)."
  },
  {
   "property": "C154",
   "status": "proved",
   "theorems": [
    "Verif.SortProg.C154_sorts",
    "Verif.SortProg.C154_any",
    "Verif.SortProg.C154_slice",
    "Verif.SortProg.C154_stable_short",
    "Verif.SortProg.C154_unstable",
    "Verif.SortProg.C154_calls"
   ],
   "note": "sort.Sort of Go 1.6 to 1.18 is written out (quicksort with limited depth, heapsort, insertion sort); that the library computes it is assumed. Later versions (1.19 on) use another algorithm: for them C129 holds by the contract. The comparison here never panics; nil children are C129."
  },
  {
   "property": "C155",
   "status": "proved",
   "theorems": [
    "Verif.FileSize.C155_says",
    "Verif.FileSize.C155_order",
    "Verif.FileSize.C155_same"
   ],
   "note": "The conversion to float64 and the printing with three decimals are written out (round to nearest, ties to even)."
  },
  {
   "property": "C156",
   "status": "proved",
   "theorems": [
    "Verif.FsLinks.C156_exact",
    "Verif.FsLinks.C156_made",
    "Verif.FsLinks.C156_keeps",
    "Verif.FsLinks.C156_again",
    "Verif.FsLinks.C156_in_the_way"
   ],
   "note": "os.MkdirAll is written out over mkdir(2), stat(2) and lstat(2); no rights, no other process."
  },
  {
   "property": "C157",
   "status": "partial",
   "theorems": [
    "Verif.FsLinks.C157_exact_partial",
    "Verif.FsLinks.C157_absolute",
    "Verif.FsLinks.C157_link",
    "Verif.FsLinks.C157_mkdir_remove",
    "Verif.FsLinks.C157_through_itself_false"
   ],
   "note": "os.RemoveAll is written out as before Go 1.12, which follows the path anew for every file. Proved if the way to the directory does not pass through what is removed; C157_through_itself_false is a path for which it reports success and leaves files behind."
  },
  {
   "property": "C158",
   "status": "partial",
   "theorems": [
    "Verif.FsLinks.C158_absolute",
    "Verif.FsLinks.C158_resolve",
    "Verif.FsLinks.C158_again",
    "Verif.FsLinks.C158_leads_partial",
    "Verif.FsLinks.C158_link_false"
   ],
   "note": "Proved for texts of the working directory without symbolic links; os.Getwd returns the environment variable PWD if it leads to the working directory, which may pass through a link, and then it is false (C158_link_false)."
  },
  {
   "property": "C159",
   "status": "partial",
   "theorems": [
    "Verif.Match.C159_sound",
    "Verif.Match.C159_exact_partial",
    "Verif.Match.C159_no_star",
    "Verif.Match.C159_error",
    "Verif.Match.C159_quoted",
    "Verif.Match.C159_plain",
    "Verif.Match.C159_slashes",
    "Verif.Match.C159_greedy_false",
    "Verif.Match.C159_bytes_false",
    "Verif.Match.C159_error_false"
   ],
   "note": "filepath.Match is written out from the Go library. That every match is found is proved for names in ASCII and patterns in which no class takes a slash (C159_exact_partial), and false without (C159_greedy_false, C159_bytes_false)."
  },
  {
   "property": "C160",
   "status": "partial",
   "theorems": [
    "Verif.FsLinks.C160_result",
    "Verif.FsLinks.C160_leads_partial",
    "Verif.FsLinks.C160_error",
    "Verif.FsLinks.C160_found",
    "Verif.FsLinks.C160_again",
    "Verif.FsLinks.C160_plain",
    "Verif.FsLinks.C160_absolute",
    "Verif.FsLinks.C160_slash_false",
    "Verif.FsLinks.C160_limit_false"
   ],
   "note": "filepath.EvalSymlinks is written out as before Go 1.8. That the path leads to where the result does is proved if that is a directory or no text of a symbolic link ends with a slash, and false without (C160_slash_false); the limit of steps also refuses deep paths without links (C160_limit_false)."
  },
  {
   "property": "C161",
   "status": "partial",
   "theorems": [
    "Verif.Path.C161_parts",
    "Verif.Path.C161_empty",
    "Verif.Path.C161_list_partial",
    "Verif.Path.C161_object",
    "Verif.Path.C161_up_false",
    "Verif.Path.C161_root_false"
   ],
   "note": "Unix. FilePath cleans the list as if it were a single path: that the paths come out as they were is proved for lists in which no path after the first starts with ../.. and the last of several is not the root, and false otherwise (C161_up_false, C161_root_false)."
  },
  {
   "property": "C162",
   "status": "partial",
   "theorems": [
    "Verif.WorkDir.C162_workpath_partial",
    "Verif.WorkDir.C162_past",
    "Verif.WorkDir.C162_alone",
    "Verif.WorkDir.C162_stale_false",
    "Verif.WorkDir.C162_race"
   ],
   "note": "Chdir changes the directory, asks for its path and stores that in three steps without a lock: that WorkPath is the working directory is proved for calls of Chdir that do not overlap and do not panic (C162_workpath_partial), and false with overlapping calls (C162_stale_false). os.Chdir, os.Getwd and the access to the string are one step each."
  },
  {
   "property": "C163",
   "status": "partial",
   "theorems": [
    "Verif.WorkDir.C163_line",
    "Verif.WorkDir.C163_leads_partial",
    "Verif.WorkDir.C163_apart",
    "Verif.WorkDir.C163_file_false",
    "Verif.WorkDir.C163_env_false"
   ],
   "note": "Unix; filepath.Rel is a parameter with its documented contract. The error of Rel is dropped, so that the name is a dot when one of the two paths is absolute and the other is not (C163_file_false, C163_env_false)."
  },
  {
   "property": "C164",
   "status": "partial",
   "theorems": [
    "Verif.RBTree.C164_history_partial",
    "Verif.RBTree.C164_empty",
    "Verif.RBTree.C164_walk_partial",
    "Verif.RBTree.C164_walk_empty_false"
   ],
   "note": "The template as if compiled, as in C69; insertions are those of insertEqual, since the exported Insert does nothing. The loop from Begin to End ends on every tree that is not empty and never on an empty one (C164_walk_empty_false)."
  },
  {
   "property": "C165",
   "status": "proved",
   "theorems": [
    "Verif.FsLinks.C165_create_iff",
    "Verif.FsLinks.C165_create",
    "Verif.FsLinks.C165_others",
    "Verif.FsLinks.C165_dangling",
    "Verif.FsLinks.C165_remove",
    "Verif.FsLinks.C165_exclusive_iff",
    "Verif.FsLinks.C165_exclusive_once",
    "Verif.FsLinks.C165_open",
    "Verif.FsLinks.C165_flags",
    "Verif.FsLinks.C165_link",
    "Verif.FsLinks.C165_rename"
   ],
   "note": "open(2) without rights, special files, limits of length and changes by others during a call; the number of the inode of a new file is a parameter (not in use, where that matters)."
  },
  {
   "property": "C166",
   "status": "proved",
   "theorems": [
    "Verif.FsLinks.C166_iff",
    "Verif.FsLinks.C166_truncate",
    "Verif.FsLinks.C166_others",
    "Verif.FsLinks.C166_create"
   ],
   "note": "truncate(2) without rights, special files and limits of size."
  },
  {
   "property": "C167",
   "status": "proved",
   "theorems": [
    "Verif.FsLinks.C167_tree",
    "Verif.FsLinks.C167_kept",
    "Verif.FsLinks.C167_content",
    "Verif.FsLinks.C167_read",
    "Verif.FsLinks.C167_exclusive",
    "Verif.FsLinks.C167_removed",
    "Verif.FsLinks.C167_linked",
    "Verif.FsLinks.C167_moved",
    "Verif.FsLinks.C167_symlinked"
   ],
   "note": "The system calls as in C131, C156, C157, C165 and C166, one after another; writing through files that are open is not among the calls."
  },
  {
   "property": "C168",
   "status": "proved",
   "theorems": [
    "Verif.FsLinks.C168_copy",
    "Verif.FsLinks.C168_succeeds",
    "Verif.FsLinks.C168_full",
    "Verif.FsLinks.C168_prefix",
    "Verif.FsLinks.C168_frame"
   ],
   "note": "Write of an os.File adds to the end, with an error when the disk is full and no others; nobody else writes to the file. Sources that are an io.WriterTo are those of C66."
  }
 ]
}