{
 "claims": [
  {
   "property": "C01",
   "status": "proved",
   "theorems": [
    "Byoc.ArrayProps.C01_array_bounded"
   ],
   "note": "all capacities, size functions, sorting routines, histories"
  },
  {
   "property": "C02",
   "status": "proved",
   "theorems": [
    "Byoc.ArrayProps.C02_array_conserves_history",
    "Byoc.ArrayProps.C02_array_conserves_call"
   ],
   "note": ""
  },
  {
   "property": "C03",
   "status": "proved",
   "theorems": [
    "Byoc.ArrayProps.C03_array_size"
   ],
   "note": ""
  },
  {
   "property": "C04",
   "status": "proved",
   "theorems": [
    "Byoc.ArrayProps.C04_array_push"
   ],
   "note": ""
  },
  {
   "property": "C05",
   "status": "proved",
   "theorems": [
    "Byoc.ArrayProps.C05_array_pop"
   ],
   "note": ""
  },
  {
   "property": "C06",
   "status": "proved",
   "theorems": [
    "Byoc.ArrayProps.C06_array_take",
    "Byoc.ArrayProps.C06_array_take_multiple"
   ],
   "note": ""
  },
  {
   "property": "C07",
   "status": "proved",
   "theorems": [
    "Byoc.BTreeProps.C07_btree_contract",
    "Byoc.BTreeProps.C07_btree_lookup"
   ],
   "note": ""
  },
  {
   "property": "C08",
   "status": "proved",
   "theorems": [
    "Byoc.BTreeProps.C08_btree_one_per_key",
    "Byoc.BTreeProps.C08_btree_push",
    "Byoc.BTreeProps.C08_btree_push_fits"
   ],
   "note": ""
  },
  {
   "property": "C09",
   "status": "proved",
   "theorems": [
    "Byoc.BTreeProps.C09_btree_pop"
   ],
   "note": ""
  },
  {
   "property": "C10",
   "status": "partial",
   "theorems": [
    "Byoc.BTreeProps.C10_partial",
    "Byoc.BTreeProps.C10_false",
    "Byoc.BTreeProps.C10_loses",
    "Byoc.BTreeRcProps.C10_any_partial",
    "Byoc.BTreeRcProps.C10_distinct_partial",
    "Byoc.BTreeRcProps.C10_pop_panics",
    "Byoc.BTreeRcProps.C10_overfull",
    "Byoc.BTreeRcProps.C10_wrong_victim",
    "Byoc.BTreeRcProps.C10_rc_false"
   ],
   "note": "The full statement (C10_full, C10_rc_full) is false of the code: refuted by C10_false, C10_rc_false. Proved for distinct keys; for any batch, exactly what is lost while no call panics, and which calls never panic (model with reference counters)."
  },
  {
   "property": "C100",
   "status": "partial",
   "theorems": [
    "Byoc.SeqCellProps.C100_partial",
    "Byoc.SeqCellProps.C100_array_partial",
    "Byoc.SeqCellProps.C100_associative_partial",
    "Byoc.SeqCellProps.C100_btree_hidden",
    "Byoc.SeqCellProps.C100_btree_false",
    "Byoc.SeqCellProps.C100_exclusive_dangling",
    "Byoc.SeqCellProps.C100_btree_race",
    "Byoc.SeqCellProps.C100_btree_drop_panics",
    "Byoc.SeqCellProps.C100_array_flush",
    "Byoc.SeqCellProps.C100_btree_alone_partial",
    "Byoc.SeqCellProps.C100_false",
    "Byoc.SeqCells.array_pins",
    "Byoc.SeqCells.batch_pins",
    "Byoc.SeqCells.associative_pins",
    "Byoc.SeqCells.flushStopper_pins"
   ],
   "note": "The full statement (C100_full) is false of the code in each of its parts. Proved for containers whose cells are plain pointers (Pins: Arrays under Batch, Associative and FlushStopper) and calls that remove nothing but what push evicts. An access to a cell is taken as one step."
  },
  {
   "property": "C101",
   "status": "partial",
   "theorems": [
    "Byoc.MapGetProps.C101_partial",
    "Byoc.MapGetProps.C101_sets_behind_panics",
    "Byoc.MapGetProps.C101_compressed_behind_panics",
    "Byoc.MapGetProps.C101_false"
   ],
   "note": "The full statement (C101_full) is false of the code (C101_sets_behind_panics, C101_compressed_behind_panics). Proved for every nesting in which the back of an Exclusive contains no Associative and the Compressed under an Exclusive have 8 bytes to spare whatever the number of their elements; without pop if there is an Associative."
  },
  {
   "property": "C102",
   "status": "partial",
   "theorems": [
    "Byoc.SeqCopyProps.C102_partial",
    "Byoc.SeqCopyProps.copies_explained",
    "Byoc.SeqCopyProps.C102_push_lost",
    "Byoc.SeqCopyProps.C102_take_doubled",
    "Byoc.SeqCopyProps.C102_false",
    "Byoc.SeqCells.compressed_copies"
   ],
   "note": "The full statement (C102_full) is false of the code (C102_push_lost). Proved for runs where no other thread takes a step between the unlock and the write-back of a written cell. An access to a cell is taken as one step; flush, take and pop are excluded as in C100."
  },
  {
   "property": "C103",
   "status": "partial",
   "theorems": [
    "Byoc.F32Props.C103_finite",
    "Byoc.F32Props.C103_error_partial",
    "Byoc.F32Props.C103_exponent_partial",
    "Byoc.F32Props.C103_rank_partial",
    "Byoc.F32Props.C103_recency_partial",
    "Byoc.F32Props.C103_cells",
    "Byoc.F32Props.C103_order",
    "Byoc.F32Props.C103_nan",
    "Byoc.F32Props.C103_ties",
    "Byoc.F32Props.C103_inverted",
    "Byoc.F32Props.C103_overflow",
    "Byoc.F32Props.C103_false"
   ],
   "note": "The full statement (C103_full) is false of the code (C103_inverted, C103_ties). IEEE 754 binary32 is modelled on rationals: 24 bits, subnormals, ties to even, overflow to infinity. The error bounds ask that the readings of the clock increase strictly between uses and that the exponent is between 1 and 2^126."
  },
  {
   "property": "C104",
   "status": "partial",
   "theorems": [
    "Byoc.FileStreamProps.C104_seek",
    "Byoc.FileStreamProps.C104_write",
    "Byoc.FileStreamProps.C104_resize",
    "Byoc.FileStreamProps.C104_never_reads",
    "Byoc.FileStreamProps.C104_same_partial",
    "Byoc.FileStreamProps.C104_readable_partial",
    "Byoc.FileStreamProps.C104_differ",
    "Byoc.FileStreamProps.C104_false"
   ],
   "note": "The full statement (C104_full) is false of the code (C104_false, C104_differ). The disk is never full; clones, which share their cursor, are not part of this property (see C33)."
  },
  {
   "property": "C105",
   "status": "partial",
   "theorems": [
    "Byoc.LrfuBTreeProps.C105_self",
    "Byoc.LrfuBTreeProps.C105_take_panics",
    "Byoc.LrfuBTreeProps.C105_pop",
    "Byoc.LrfuBTreeProps.C105_flush",
    "Byoc.LrfuBTreeProps.C105_push",
    "Byoc.LrfuBTreeProps.C105_rest_partial",
    "Byoc.LrfuBTreeProps.C105_drift",
    "Byoc.LrfuBTreeProps.C105_overfull",
    "Byoc.LrfuBTreeProps.C105_false"
   ],
   "note": "The full statement (C105_full) is false of the code (C105_take_panics, C105_drift, C105_overfull). Elements have the default size of one, the clock is Counter, no other thread reads it, and at most 2^24 readings were made since the container was made (later, rounding makes scores equal, see C103). The nodes of the BTreeSet are searched in order, as in the standard library."
  },
  {
   "property": "C106",
   "status": "partial",
   "theorems": [
    "Byoc.StreamLenProps.C106_vec_partial",
    "Byoc.StreamLenProps.C106_file_partial",
    "Byoc.StreamLenProps.C106_wrong",
    "Byoc.StreamLenProps.C106_false"
   ],
   "note": "The full statement (C106_full) is false of the code (C106_wrong). Errors of the disk are not modelled."
  },
  {
   "property": "C107",
   "status": "partial",
   "theorems": [
    "Byoc.ElementSizeProps.C107_array_partial",
    "Byoc.ElementSizeProps.C107_btree_partial",
    "Byoc.ElementSizeProps.C107_wrong",
    "Byoc.ElementSizeProps.C107_overfull",
    "Byoc.ElementSizeProps.C107_false"
   ],
   "note": "The full statement (C107_full) is false of the code (C107_wrong, C107_overfull). Batches pushed into the BTree have distinct keys (see C10)."
  },
  {
   "property": "C108",
   "status": "partial",
   "theorems": [
    "Byoc.InclusiveHeldProps.C108_plain",
    "Byoc.InclusiveHeldProps.C108_returns_partial",
    "Byoc.InclusiveHeldProps.C108_btree_never_stale_partial",
    "Byoc.InclusiveHeldProps.C108_btree_exact",
    "Byoc.InclusiveHeldProps.C108_btree_returns_partial",
    "Byoc.InclusiveHeldProps.C108_array_btree_partial",
    "Byoc.InclusiveHeldProps.C108_sequential",
    "Byoc.InclusiveHeldProps.C108_array_returns",
    "Byoc.InclusiveHeldProps.C108_sequential_hangs",
    "Byoc.InclusiveHeldProps.C108_batch_dangles",
    "Byoc.InclusiveHeldProps.C108_false"
   ],
   "note": "The full statement (C108_full) is false of the code (C108_sequential_hangs, C108_batch_dangles). A call that waits for itself is written as one that panics. Over a BTree elements have size one where lookups are said to return."
  },
  {
   "property": "C109",
   "status": "partial",
   "theorems": [
    "Byoc.BatchCacheProps.C109_partial",
    "Byoc.BatchCacheProps.C109_pop_newest",
    "Byoc.BatchCacheProps.C109_lru_last_used",
    "Byoc.BatchCacheProps.C109_false"
   ],
   "note": "The full statement (C109_full) is false of the code (C109_false). Proved: C109_partial, for all numbers of Arrays, capacities and requests."
  },
  {
   "property": "C11",
   "status": "proved",
   "theorems": [
    "Byoc.CombProps.C11_exclusive_history",
    "Byoc.CombProps.C11_exclusive_contract",
    "Byoc.CombProps.C11_exclusive_flush"
   ],
   "note": "for every two containers satisfying the contract"
  },
  {
   "property": "C110",
   "status": "partial",
   "theorems": [
    "Byoc.ProfilerTimeProps.C110_partial",
    "Byoc.ProfilerTimeProps.C110_exact",
    "Byoc.ProfilerTimeProps.C110_returns",
    "Byoc.ProfilerTimeProps.C110_wrong",
    "Byoc.ProfilerTimeProps.C110_false"
   ],
   "note": "The full statement (C110_full) is false of the code (C110_false). Proved: C110_partial, all but the times of hits and misses, which count every take_multiple; C110_exact, all the counters modulo 2^64. One thread; the times are inputs."
  },
  {
   "property": "C111",
   "status": "partial",
   "theorems": [
    "Byoc.InclusiveCacheProps.C111_fifo_partial",
    "Byoc.InclusiveCacheProps.C111_lru_partial",
    "Byoc.InclusiveCacheProps.C111_evicts_last_read",
    "Byoc.InclusiveCacheProps.C111_writes",
    "Byoc.InclusiveCacheProps.C111_false"
   ],
   "note": "The full statement (C111_full) is false of the code for Lru (C111_false, C111_evicts_last_read). Proved: C111_fifo_partial (Fifo, all requests), C111_lru_partial (Lru with reads is a FIFO cache); C111_writes: with writes Lru is neither."
  },
  {
   "property": "C112",
   "status": "partial",
   "theorems": [
    "Byoc.SeqWaitProps.C112_waits",
    "Byoc.SeqWaitProps.C112_partial",
    "Byoc.SeqWaitProps.C112_short",
    "Byoc.SeqWaitProps.C112_completes",
    "Byoc.SeqWaitProps.C112_one_thread",
    "Byoc.SeqWaitProps.C112_starves",
    "Byoc.SeqWaitProps.C112_false"
   ],
   "note": "The full statement (C112_full) is false of the code (C112_false: a cell that is held; C112_starves: readers that take turns). Proved: C112_waits, C112_partial, C112_completes. The operations of the outer lock are atomic steps (see C31 for the lock itself)."
  },
  {
   "property": "C113",
   "status": "partial",
   "theorems": [
    "Byoc.UnwindProps.C113_returns",
    "Byoc.UnwindProps.C113_returns_btree",
    "Byoc.UnwindProps.C113_returns_inclusive",
    "Byoc.UnwindProps.C113_partial",
    "Byoc.UnwindProps.C113_call_partial",
    "Byoc.UnwindProps.C113_lookups_partial",
    "Byoc.UnwindProps.C113_safe_partial",
    "Byoc.UnwindProps.C113_array",
    "Byoc.UnwindProps.C113_profiler",
    "Byoc.UnwindProps.C113_btree_partial",
    "Byoc.UnwindProps.C113_batch_false",
    "Byoc.UnwindProps.C113_btree_take_false",
    "Byoc.UnwindProps.C113_btree_push_false",
    "Byoc.UnwindProps.C113_inclusive_false",
    "Byoc.UnwindProps.C113_false_each",
    "Byoc.UnwindProps.C113_false"
   ],
   "note": "The full statement (C113_full) is false of the code for Batch, BTree and Inclusive (C113_false_each). Proved: C113_partial, C113_call_partial and C113_lookups_partial for any assembly without BTree, Inclusive and Sequential; C113_safe_partial: the full property without Batch and Associative; C113_array: calls of an Array but take_multiple are atomic; C113_btree_partial: BTree with panics in pop and at the start of push. Not covered: panics of destructors, of comparisons inside a BTree, and what an interrupted flush iterator leaves."
  },
  {
   "property": "C114",
   "status": "partial",
   "theorems": [
    "Byoc.StreamStackProps.C114_partial",
    "Byoc.StreamStackProps.C114_calls_partial",
    "Byoc.StreamStackProps.C114_associative_partial",
    "Byoc.StreamStackProps.C114_flush_loses",
    "Byoc.StreamStackProps.C114_take_multiple_copies",
    "Byoc.StreamStackProps.C114_false"
   ],
   "note": "The full statement (C114_full) is false of the code (C114_false). Proved for every nesting: C114_partial and C114_calls_partial for histories without take_multiple, and without flush when a Stream is inside; C114_associative_partial with Associative inside and without pop (which panics, C20). Serialisations produce at most 2^63 bytes; streams are in memory."
  },
  {
   "property": "C115",
   "status": "partial",
   "theorems": [
    "Byoc.SpillProps.C115_partial",
    "Byoc.SpillProps.C115_recent_partial",
    "Byoc.SpillProps.C115_few_keys_partial",
    "Byoc.SpillProps.C115_useless_stream",
    "Byoc.SpillProps.C115_false"
   ],
   "note": "The full statement (C115_full) is false of the code (C115_false). Proved: C115_partial, the exact behaviour, for all tiers, capacities and requests; consequences C115_recent_partial, C115_few_keys_partial, C115_useless_stream. The stream is in memory and every element the requests may store takes the same number of bytes."
  },
  {
   "property": "C116",
   "status": "partial",
   "theorems": [
    "Byoc.ServeSeqProps.C116_partial",
    "Byoc.ServeSeqProps.C116_panics",
    "Byoc.ServeSeqProps.C116_why",
    "Byoc.ServeSeqProps.C116_direct",
    "Byoc.ServeSeqProps.C116_completes",
    "Byoc.ServeSeqProps.C116_push_loses",
    "Byoc.ServeSeqProps.C116_false"
   ],
   "note": "The full statement (C116_full) is false of the code (C116_false: a local thread in the middle of a call kills the server thread; C116_push_loses). Proved: C116_partial, all of it as long as no call panics; C116_panics, what holds whatever panics; C116_completes. Messages are atomic, connections neither lose nor time out (bytes and timeouts: C43, C57; reconnections: C44, C58, C59)."
  },
  {
   "property": "C117",
   "status": "partial",
   "theorems": [
    "Byoc.FaultProps.C117_partial",
    "Byoc.FaultProps.C117_honest",
    "Byoc.FaultProps.C117_recovers",
    "Byoc.FaultProps.C117_lost",
    "Byoc.FaultProps.C117_panics",
    "Byoc.FaultProps.C117_blind",
    "Byoc.FaultProps.C117_confined",
    "Byoc.FaultProps.C117_torn",
    "Byoc.FaultProps.C117_twice",
    "Byoc.FaultProps.C117_short_take",
    "Byoc.FaultProps.C117_short_contains",
    "Byoc.FaultProps.C117_short_writes",
    "Byoc.FaultProps.C117_short_write_take",
    "Byoc.FaultProps.C117_false"
   ],
   "note": "The full statement (C117_full) is false of the code (C117_false: each of its three promises breaks). Proved: C117_partial, C117_honest and C117_recovers when only seeks and reads fail and reads are not short; C117_lost, C117_panics, C117_blind: what a failing write or seek does in every state; C117_short_writes: short writes that are no errors lose nothing in push; C117_confined for all failures. Cloning and creating streams do not fail; for flush, take_multiple, get and get_mut see C120."
  },
  {
   "property": "C118",
   "status": "partial",
   "theorems": [
    "Byoc.CompressedFaultProps.C118_partial",
    "Byoc.CompressedFaultProps.C118_each",
    "Byoc.CompressedFaultProps.C118_recovers",
    "Byoc.CompressedFaultProps.C118_blind",
    "Byoc.CompressedFaultProps.C118_take_wipes",
    "Byoc.CompressedFaultProps.C118_push_wipes",
    "Byoc.CompressedFaultProps.C118_dead",
    "Byoc.CompressedFaultProps.C118_resize",
    "Byoc.CompressedFaultProps.C118_torn",
    "Byoc.CompressedFaultProps.C118_false"
   ],
   "note": "The full statement (C118_full) is false of the code (C118_false: a failed write makes take panic and loses everything inside). Proved: C118_partial for all histories and C118_each for all states and calls when reads and resizes fail; C118_blind: a failed read; C118_take_wipes, C118_push_wipes: a failed write, in every state; C118_dead: after a torn frame nothing is ever accepted or returned again; C118_resize. The reads of the decoder have one fate together, and so have the writes of the encoder."
  },
  {
   "property": "C119",
   "status": "partial",
   "theorems": [
    "Byoc.StreamGetProps.C119_partial",
    "Byoc.StreamGetProps.C119_flat",
    "Byoc.StreamGetProps.C119_misses",
    "Byoc.StreamGetProps.C119_panics",
    "Byoc.StreamGetProps.C119_false"
   ],
   "note": "The full statement (C119_full) is false of the code (C119_false, C119_misses, C119_panics: Exclusive). Proved: C119_flat, all of it for nestings without Exclusive; C119_partial for every nesting, where an access may panic or miss. A cell is used once and dropped before the next call; histories are those of C114 (no take_multiple, no flush with a Stream inside, no Associative). For Exclusive tiers whose accesses always return see C12, C96, C101, C115."
  },
  {
   "property": "C12",
   "status": "proved",
   "theorems": [
    "Byoc.CombProps.C12_exclusive_get"
   ],
   "note": ""
  },
  {
   "property": "C120",
   "status": "partial",
   "theorems": [
    "Byoc.CellFaultProps.C120_partial",
    "Byoc.CellFaultProps.C120_honest",
    "Byoc.CellFaultProps.C120_recovers",
    "Byoc.CellFaultProps.C120_readonly",
    "Byoc.CellFaultProps.C120_write_fails",
    "Byoc.CellFaultProps.C120_short_writes",
    "Byoc.CellFaultProps.C120_flush_loses",
    "Byoc.CellFaultProps.C120_poisoned",
    "Byoc.CellFaultProps.C120_torn",
    "Byoc.CellFaultProps.C120_false"
   ],
   "note": "The full statement (C120_full) is false of the code (C120_false, C120_torn). Proved: C120_partial, C120_honest and C120_recovers when only seeks and reads fail and reads are not short; C120_write_fails, C120_short_writes, C120_flush_loses: what failing or short operations do in every state; C120_readonly: what only reads changes nothing, for all failures and states; C120_poisoned: a chunk that does not decode stops pop for ever. That flush hands out only part of the contents and take_multiple only copies is C25, C26. A cell is dropped before the next call; cloning and creating streams do not fail."
  },
  {
   "property": "C121",
   "status": "partial",
   "theorems": [
    "Byoc.SeqUnwindProps.C121_partial",
    "Byoc.SeqUnwindProps.C121_history_partial",
    "Byoc.SeqUnwindProps.C121_dead",
    "Byoc.SeqUnwindProps.C121_push",
    "Byoc.SeqUnwindProps.C121_flush",
    "Byoc.SeqUnwindProps.C121_take",
    "Byoc.SeqUnwindProps.C121_handle",
    "Byoc.SeqUnwindProps.C121_cell",
    "Byoc.SeqUnwindProps.C121_examples",
    "Byoc.SeqUnwindProps.C121_false"
   ],
   "note": "The full statement (C121_full) is false of the code (C121_false, C121_examples). Proved: C121_partial (and C121_history_partial, in terms of C113) as long as only capacity, size and contains panic and handles and cells survive; C121_dead, C121_push, C121_flush, C121_take, C121_handle, C121_cell: what every later call does after the other panics. Calls do not overlap (for calls that do see C35, C112); values are not written through the cells."
  },
  {
   "property": "C122",
   "status": "proved",
   "theorems": [
    "Byoc.CloneProps.C122",
    "Byoc.CloneProps.C122_needs_shared_policy"
   ],
   "note": "Calls do not overlap (for calls that do see C35, C73, C82). Clones of keys, values and decoration factories are equal to them and share nothing. Containers that are neither Clone nor Concurrent are inside a Sequential as any container; Associative is not included. C122_needs_shared_policy: the condition on policies outside of the Sequential cannot be dropped."
  },
  {
   "property": "C123",
   "status": "partial",
   "theorems": [
    "Byoc.StoreUnwindProps.C123_compressed_call",
    "Byoc.StoreUnwindProps.C123_compressed",
    "Byoc.StoreUnwindProps.C123_compressed_conserves",
    "Byoc.StoreUnwindProps.C123_stream_partial",
    "Byoc.StoreUnwindProps.C123_pop_loses",
    "Byoc.StoreUnwindProps.C123_flush_loses",
    "Byoc.StoreUnwindProps.C123_false"
   ],
   "note": "The full statement (C123_full) is false of the code for Stream (C123_false, C123_pop_loses, C123_flush_loses). Proved: C123_compressed, all of it for Compressed and every history; C123_stream_partial, for Stream and every history, everything but the elements lost by pops, which are elements they would have returned, and by flushes. Streams are VecStreams (failures of streams: C117, C118, C120); values written in the cells of a Stream take as many bytes as those they replace (see C26)."
  },
  {
   "property": "C124",
   "status": "partial",
   "theorems": [
    "Byoc.AccessUnwindProps.C124_history_partial",
    "Byoc.AccessUnwindProps.C124_access_partial",
    "Byoc.AccessUnwindProps.C124_read_partial",
    "Byoc.AccessUnwindProps.C124_afterwards_partial",
    "Byoc.AccessUnwindProps.C124_read_loses",
    "Byoc.AccessUnwindProps.C124_swap_loses",
    "Byoc.AccessUnwindProps.C124_false"
   ],
   "note": "The full statement (C124_full) is false of the code (C124_false, C124_read_loses, C124_swap_loses: Exclusive). Proved: C124_access_partial and C124_read_partial, of every access in the state after any history with panics: all of it for nestings without Exclusive, and all but the elements lost with Exclusive; C124_history_partial, for whole histories; C124_afterwards_partial: later accesses find what is there (elements of size 1, room in the fronts, no Batch). Sequential is excluded (C121). Values written keep the size of the element if a container measures it (see C101)."
  },
  {
   "property": "C125",
   "status": "partial",
   "theorems": [
    "Byoc.BTreeUnwindProps.C125_returns_partial",
    "Byoc.BTreeUnwindProps.C125_history_partial",
    "Byoc.BTreeUnwindProps.C125_access_partial",
    "Byoc.BTreeUnwindProps.C125_get_breaks",
    "Byoc.BTreeUnwindProps.C125_drop_loses",
    "Byoc.BTreeUnwindProps.C125_false"
   ],
   "note": "The full statement (C125_full) is false of the code (C125_false, C125_get_breaks, C125_drop_loses). Proved: C125_access_partial, of every access in the state after any history (all of it when the user of the cell panics; exactly the element is lost when element_size panics at the drop); C125_history_partial, for whole histories. In the histories other calls panic as in C113 (Mild), element_size returns when an element is taken out for a cell (C125_get_breaks says why), comparisons return, sizes are positive and values written keep the size (see C68). A panic during the unwinding aborts the process: not modelled."
  },
  {
   "property": "C126",
   "status": "partial",
   "theorems": [
    "Byoc.InclusiveUnwindProps.C126_returns_partial",
    "Byoc.InclusiveUnwindProps.C126_write_partial",
    "Byoc.InclusiveUnwindProps.C126_write_as_partial",
    "Byoc.InclusiveUnwindProps.C126_read_partial",
    "Byoc.InclusiveUnwindProps.C126_later_partial",
    "Byoc.InclusiveUnwindProps.C126_stale",
    "Byoc.InclusiveUnwindProps.C126_loses",
    "Byoc.InclusiveUnwindProps.C126_take_breaks",
    "Byoc.InclusiveUnwindProps.C126_false"
   ],
   "note": "The full statement (C126_full) is false of the code (C126_false, C126_stale, C126_loses, C126_take_breaks). Two Arrays that count elements, of any policies and capacities; histories of calls and accesses that push no key twice (see C14) and in which accesses of keys in the front or not stored may panic. Proved: for keys in the front or not stored, C126_write_partial; C126_read_partial and C126_write_as_partial (in every state): what follows is what it is without the access, or after a write that returned of the value the user left in the cell; C126_later_partial: no value is stale or invented in any history after it that returns; C126_returns_partial: accesses that return are those of the model without panics, in every state. Missing: accesses of keys only in the back (false)."
  },
  {
   "property": "C13",
   "status": "partial",
   "theorems": [
    "Byoc.CombProps.C13_partial",
    "Byoc.CombProps.C13_false"
   ],
   "note": "The full statement (C13_full) is false of the code (refuted by C13_false: push a key whose first copy is in the back). Proved for histories that never push a key already stored."
  },
  {
   "property": "C14",
   "status": "partial",
   "theorems": [
    "Byoc.InclusiveProps.C14_partial",
    "Byoc.InclusiveProps.C14_partial_no_access",
    "Byoc.InclusiveProps.C14_false",
    "Byoc.InclusiveProps.C14_panics_take",
    "Byoc.InclusiveProps.C14_panics_pop",
    "Byoc.InclusiveProps.C14_loses"
   ],
   "note": "The full statement (C14_full) is false of the code: C14_false, C14_panics_*, C14_loses (a front eviction leaves the back cell flagged as copied). Proved: histories without accesses (any capacities, duplicate keys allowed), and all fresh histories when the front is as large as the back."
  },
  {
   "property": "C15",
   "status": "proved",
   "theorems": [
    "Byoc.InclusiveProps.C15_never_stale",
    "Byoc.InclusiveProps.C15_write_then_take"
   ],
   "note": ""
  },
  {
   "property": "C16",
   "status": "proved",
   "theorems": [
    "Byoc.CombProps.C16_batch_history",
    "Byoc.CombProps.C16_batch_contract",
    "Byoc.CombProps.C16_batch_flush"
   ],
   "note": ""
  },
  {
   "property": "C17",
   "status": "proved",
   "theorems": [
    "Byoc.CombProps.C17_batch_push"
   ],
   "note": ""
  },
  {
   "property": "C18",
   "status": "proved",
   "theorems": [
    "Byoc.CombProps.C18_flushStopper_call",
    "Byoc.CombProps.C18_flushStopper_history",
    "Byoc.CombProps.C18_flushStopper_contract"
   ],
   "note": ""
  },
  {
   "property": "C19",
   "status": "proved",
   "theorems": [
    "Byoc.AssocProps.C19_associative_history",
    "Byoc.AssocProps.C19_associative_contract",
    "Byoc.AssocProps.C19_associative_lookup"
   ],
   "note": ""
  },
  {
   "property": "C20",
   "status": "partial",
   "theorems": [
    "Byoc.AssocProps.C20_partial_extremes",
    "Byoc.AssocProps.C20_partial_conserves",
    "Byoc.AssocProps.C20_exact",
    "Byoc.AssocProps.C20_large_panics",
    "Byoc.AssocProps.C20_single_set_panics",
    "Byoc.AssocProps.C20_false"
   ],
   "note": "The full statement (C20_full) is false of the code: C20_false, and with one set every pop(n) with 0<n<size panics (C20_single_set_panics). Proved: pop(0) and pop(n>=size) behave; exactly when pop returns and when it panics (C20_exact): with m sets it panics whenever at least m+1+m(m-1)/2 is to be left (C20_large_panics); and whenever pop returns it conserves elements and placement."
  },
  {
   "property": "C21",
   "status": "proved",
   "theorems": [
    "Byoc.UtilsProps.C21_exclusive_hashers",
    "Byoc.UtilsProps.C21_all_sets_reached"
   ],
   "note": ""
  },
  {
   "property": "C22",
   "status": "proved",
   "theorems": [
    "Byoc.UtilsProps.C22_log2",
    "Byoc.UtilsProps.C22_chunk_size",
    "Byoc.UtilsProps.C22_chunk_size_zero"
   ],
   "note": "chunk_size for sizes up to 2^63 (above it the shift panics)"
  },
  {
   "property": "C23",
   "status": "partial",
   "theorems": [
    "Byoc.UtilsProps.C23_partial",
    "Byoc.UtilsProps.C23_equal_sizes",
    "Byoc.UtilsProps.C23_false"
   ],
   "note": "The full statement (C23_full) is false of the code: more than needed may be kept (C23_false). Proved: the greatest elements are kept, enough of them, and no more than needed when sizes are equal."
  },
  {
   "property": "C24",
   "status": "partial",
   "theorems": [
    "Byoc.StreamProps.C24_partial",
    "Byoc.StreamProps.C24_append_reversed",
    "Byoc.StreamProps.C24_iteration_truncated",
    "Byoc.StreamProps.C24_swap_remove_past",
    "Byoc.StreamProps.C24_false"
   ],
   "note": "The full statement (C24_full) is false of the code: append reverses, iteration is truncated for chunk sizes below 8192 not dividing it, swap_remove past the end drops the last element. Proved for single appends, removals of existing elements, chunk sizes that divide 8192 or are at least 8192."
  },
  {
   "property": "C25",
   "status": "proved",
   "theorems": [
    "Byoc.StreamProps.C25_size_and_capacity"
   ],
   "note": ""
  },
  {
   "property": "C26",
   "status": "proved",
   "theorems": [
    "Byoc.StreamProps.C26_conserves",
    "Byoc.StreamProps.C26_calls",
    "Byoc.StreamProps.C26_accesses",
    "Byoc.StreamProps.C26_longer_write_corrupts"
   ],
   "note": "get_mut proved for values that serialise to the same chunk; C26_longer_write_corrupts shows why"
  },
  {
   "property": "C27",
   "status": "partial",
   "theorems": [
    "Byoc.StreamProps.C27_partial",
    "Byoc.StreamProps.C27_false",
    "Byoc.StreamProps.C27_flush_loses"
   ],
   "note": "The full statement (C27_full) is false of the code: take_multiple returns copies and removes nothing, flush after push returns nothing."
  },
  {
   "property": "C28",
   "status": "partial",
   "theorems": [
    "Byoc.CompressedProps.C28_partial",
    "Byoc.CompressedProps.C28_partial_distinct",
    "Byoc.CompressedProps.C28_longer_write_panics",
    "Byoc.CompressedProps.C28_false"
   ],
   "note": "The full statement (C28_full) is false of the code: take_multiple panics when a key is stored twice (C28_false). Proved for all calls but take_multiple with any batches, and for all calls and accesses on histories that never push a stored key."
  },
  {
   "property": "C29",
   "status": "proved",
   "theorems": [
    "Byoc.CompressedProps.C29_conserves",
    "Byoc.CompressedProps.C29_calls",
    "Byoc.CompressedProps.C29_push_nothing_evicts"
   ],
   "note": ""
  },
  {
   "property": "C30",
   "status": "partial",
   "theorems": [
    "Byoc.CompressedProps.C30_partial",
    "Byoc.CompressedProps.C30_false",
    "Byoc.CompressedProps.C30_panics",
    "Byoc.CompressedProps.C30_drops_key"
   ],
   "note": "The full statement (C30_full) is false of the code when a key is stored twice (C30_panics, C30_drops_key). Proved when stored keys are distinct."
  },
  {
   "property": "C31",
   "status": "proved",
   "theorems": [
    "Byoc.LockProps.C31_mutual_exclusion",
    "Byoc.LockProps.C31_count",
    "Byoc.LockProps.C31_exact"
   ],
   "note": "atomic-step transition system, any number of threads, spurious failures and panics included in C31_mutual_exclusion and C31_count; fewer than 2^62 shared accesses at a time"
  },
  {
   "property": "C32",
   "status": "proved",
   "theorems": [
    "Byoc.LockProps.C32_poison_sticky",
    "Byoc.LockProps.C32_unbalanced_unlock"
   ],
   "note": "for balanced unlocks; C32_unbalanced_unlock shows that an unbalanced unlock removes the poison"
  },
  {
   "property": "C33",
   "status": "partial",
   "theorems": [
    "Byoc.HandleProps.C33_partial",
    "Byoc.HandleProps.C33_panic_leaks",
    "Byoc.HandleProps.C33_spurious_leaks",
    "Byoc.HandleProps.C33_false"
   ],
   "note": "The full statement (C33_full) is false of the code: a handle dropped by a panicking thread poisons the counter and the file is never removed. Proved: removed at most once, never under a live handle or after do_not_delete; removed by the last drop in runs without panic or spurious failure."
  },
  {
   "property": "C34",
   "status": "partial",
   "theorems": [
    "Byoc.HandleProps.C34_partial",
    "Byoc.HandleProps.C34_never_freed",
    "Byoc.HandleProps.C34_false"
   ],
   "note": "The full statement (C34_full) is false of the code: the container is never freed (C34_never_freed). Proved: no use after free and no double free."
  },
  {
   "property": "C35",
   "status": "partial",
   "theorems": [
    "Byoc.SequentialProps.C35_partial",
    "Byoc.SequentialProps.C35_exclusive",
    "Byoc.SequentialProps.C35_why_panic",
    "Byoc.SequentialProps.C35_skip_after_panic",
    "Byoc.SequentialProps.C35_contention_panics",
    "Byoc.SequentialProps.C35_push_loses",
    "Byoc.SequentialProps.C35_false"
   ],
   "note": "The full statement (C35_full) is false of the code: calls panic under contention (C35_contention_panics), and a push after such a panic loses its elements (C35_push_loses). Proved: every execution is linearizable, panics included; a panic happens only under contention, after a panic, or if the container panics."
  },
  {
   "property": "C36",
   "status": "proved",
   "theorems": [
    "Byoc.CombProps.C36_profiler_sound",
    "Byoc.CombProps.C36_profiler_transparent"
   ],
   "note": ""
  },
  {
   "property": "C37",
   "status": "proved",
   "theorems": [
    "Byoc.ProfilerProps.C37_exact",
    "Byoc.ProfilerProps.C37_balance",
    "Byoc.ProfilerProps.C37_reset"
   ],
   "note": "one profiler handle; elapsed times and the width of the counters: C110. flush_iter counts the final call of next too; pop counts the size freed."
  },
  {
   "property": "C38",
   "status": "proved",
   "theorems": [
    "Byoc.CombProps.C38_decorator_contract",
    "Byoc.CombProps.C38_decorator_history"
   ],
   "note": ""
  },
  {
   "property": "C39",
   "status": "proved",
   "theorems": [
    "Byoc.PolicyProps.C39_fifo"
   ],
   "note": "Array decorated with Fifo; single handle (see C56 for clones)"
  },
  {
   "property": "C40",
   "status": "proved",
   "theorems": [
    "Byoc.PolicyProps.C40_lru",
    "Byoc.PolicyProps.C40_lru_monotone"
   ],
   "note": "Array decorated with Lru. Over containers whose cells are copies (Compressed, Stream) time stamps written by get are lost: not covered"
  },
  {
   "property": "C41",
   "status": "partial",
   "theorems": [
    "Byoc.PolicyProps.C41_partial",
    "Byoc.PolicyProps.C41_off_by_elapsed",
    "Byoc.PolicyProps.C41_less_than_itself",
    "Byoc.PolicyProps.C41_not_transitive",
    "Byoc.PolicyProps.C41_recent_frequent",
    "Byoc.PolicyProps.C41_false"
   ],
   "note": "The full statement (C41_full) is false of the code: a comparison reads the clock twice. Proved when the clock does not advance between the two readings. Exact rationals for f32."
  },
  {
   "property": "C42",
   "status": "proved",
   "theorems": [
    "Byoc.PolicyProps.C42_counter",
    "Byoc.PolicyProps.C42_wraps"
   ],
   "note": ""
  },
  {
   "property": "C43",
   "status": "partial",
   "theorems": [
    "Byoc.SocketProps.C43_partial",
    "Byoc.SocketProps.C43_completes",
    "Byoc.SocketProps.C43_contract",
    "Byoc.SocketProps.C43_slow_network_loses",
    "Byoc.SocketProps.C43_slow_network_kills",
    "Byoc.SocketProps.C43_false"
   ],
   "note": "The full statement (C43_full) is false of the code: when the read timeout strikes inside a request the bytes already read are forgotten and the rest is taken for other requests. Proved, byte by byte, when no pause falls inside a request; calls complete (C43_completes)."
  },
  {
   "property": "C44",
   "status": "partial",
   "theorems": [
    "Byoc.SocketProps.C44_bounded",
    "Byoc.SocketProps.C44_partial",
    "Byoc.SocketProps.C44_reset_kills",
    "Byoc.SocketProps.C44_false"
   ],
   "note": "The bound is proved for every history (C44_bounded). \"Stops only on request\" (in C44_full) is false of the code: a connection reset or a client gone before its response panics the server (C44_reset_kills); proved for polite clients."
  },
  {
   "property": "C45",
   "status": "proved",
   "theorems": [
    "Byoc.ConfigProps.C45_accepts_iff",
    "Byoc.ConfigProps.C45_invalid_refused",
    "Byoc.ConfigProps.C45_builds_iff",
    "Byoc.ConfigProps.C45_capacity",
    "Byoc.ConfigProps.C45_config_builds",
    "Byoc.ConfigProps.C45_builder_builds",
    "Byoc.ConfigProps.C45_builder_accepts_iff"
   ],
   "note": "toml and derived Deserialize trusted. An accepted configuration builds iff the files and servers it names are available (C45_builds_iff)."
  },
  {
   "property": "C46",
   "status": "partial",
   "theorems": [
    "Byoc.ConfigProps.C46_partial",
    "Byoc.ConfigProps.C46_flag_iff",
    "Byoc.ConfigProps.C46_nested_refused",
    "Byoc.ConfigProps.C46_builder",
    "Byoc.ConfigProps.C46_false"
   ],
   "note": "The full statement (C46_full) is false of the code: a nested GenericConfig always says it is not concurrent. Proved: exactly Sequential and the empty Associative are announced concurrent; what is not concurrent is refused."
  },
  {
   "property": "C47",
   "status": "proved",
   "theorems": [
    "Byoc.StackProps.C47_stack_history",
    "Byoc.StackProps.C47_stack_history_associative",
    "Byoc.StackProps.C47_stack_history_returns",
    "Byoc.StackProps.C47_stack_lookup"
   ],
   "note": ""
  },
  {
   "property": "C48",
   "status": "proved",
   "theorems": [
    "Byoc.StackProps.C48_write_then_read",
    "Byoc.StackProps.C48_stack",
    "Byoc.StackProps.C48_array_first"
   ],
   "note": ""
  },
  {
   "property": "C49",
   "status": "proved",
   "theorems": [
    "Byoc.StackProps.C49_take_multiple_is_takes"
   ],
   "note": ""
  },
  {
   "property": "C50",
   "status": "proved",
   "theorems": [
    "Byoc.StreamProps.C50_write",
    "Byoc.StreamProps.C50_read",
    "Byoc.StreamProps.C50_seek",
    "Byoc.StreamProps.C50_resize",
    "Byoc.StreamProps.C50_history",
    "Byoc.StreamProps.C50_stale_handle_panics"
   ],
   "note": "seek is cut to the file (a file would allow seeking past the end)"
  },
  {
   "property": "C51",
   "status": "proved",
   "theorems": [
    "Byoc.CombProps.C51_exclusive_push_front_first",
    "Byoc.CombProps.C51_exclusive_pop_back_first"
   ],
   "note": ""
  },
  {
   "property": "C52",
   "status": "partial",
   "theorems": [
    "Byoc.CombProps.C52_partial",
    "Byoc.CombProps.C52_false"
   ],
   "note": "Full statement (C52_full) is false of the code (C52_false). Proved when take_multiple returns at most one element per requested key."
  },
  {
   "property": "C53",
   "status": "proved",
   "theorems": [
    "Byoc.StackProps.C53_stack_calls",
    "Byoc.StackProps.C53_stack_calls_associative"
   ],
   "note": ""
  },
  {
   "property": "C54",
   "status": "partial",
   "theorems": [
    "Byoc.LockProps.C54_partial",
    "Byoc.LockProps.C54_leak",
    "Byoc.LockProps.C54_false"
   ],
   "note": "The full statement (C54_full) is false of the code: a spurious failure in unlock leaves the lock taken forever (C54_leak). Proved when no weak compare-and-exchange fails spuriously."
  },
  {
   "property": "C55",
   "status": "partial",
   "theorems": [
    "Byoc.SequentialProps.C55_partial",
    "Byoc.SequentialProps.C55_partial_waits",
    "Byoc.SequentialProps.C55_dangling",
    "Byoc.SequentialProps.C55_false"
   ],
   "note": "The full statement (C55_full) is false of the code: flush empties the container under a live cell (C55_dangling). Proved for push and get_mut, and for flush and get against get_mut cells."
  },
  {
   "property": "C56",
   "status": "partial",
   "theorems": [
    "Byoc.PolicyProps.C56_partial",
    "Byoc.PolicyProps.C56_false"
   ],
   "note": "The full statement (C56_full) is false of the code: Fifo::clone copies the counter. Proved when one handle makes all the pushes."
  },
  {
   "property": "C57",
   "status": "proved",
   "theorems": [
    "Byoc.SocketProps.C57_wire",
    "Byoc.SocketProps.C57_unambiguous"
   ],
   "note": "bincode 1.x default format, from its documentation (the dependency is not in the sandbox)"
  },
  {
   "property": "C58",
   "status": "partial",
   "theorems": [
    "Byoc.SocketProps.C58_partial",
    "Byoc.SocketProps.C58_hangs",
    "Byoc.SocketProps.C58_false"
   ],
   "note": "The full statement (C58_full) is false of the code: try_reconnect does not set the read timeout. Proved on the first connection."
  },
  {
   "property": "C59",
   "status": "partial",
   "theorems": [
    "Byoc.SocketProps.C59_partial",
    "Byoc.SocketProps.C59_stale",
    "Byoc.SocketProps.C59_false"
   ],
   "note": "The full statement (C59_full) is false of the code in the branch that resends after reconnecting. Proved when no write reports UnexpectedEof."
  },
  {
   "property": "C60",
   "status": "partial",
   "theorems": [
    "Byoc.BuilderProps.C60_partial",
    "Byoc.ConfigTextProps.C60_text_partial",
    "Byoc.BuilderProps.C60_accepted_iff",
    "Byoc.BuilderProps.C60_nested_panics",
    "Byoc.BuilderProps.C60_false"
   ],
   "note": "The full statement (C60_full) is false of the code: DecoratorConfig and InclusiveConfig are not among the configurations GenericConfig knows. Proved, exactly, for the other builders. Capacities below 2^63 (TOML integers)."
  },
  {
   "property": "C61",
   "status": "partial",
   "theorems": [
    "Byoc.ConfigProps.C61_partial",
    "Byoc.ConfigProps.C61_partial_builder",
    "Byoc.ConfigProps.C61_empty_associative",
    "Byoc.ConfigProps.C61_false"
   ],
   "note": "The full statement (C61_full) is false of the code: an empty Associative is accepted and panics. Proved for Array leaves and non empty Associatives (without pop under an Associative, see C20), with any decorator."
  },
  {
   "property": "C62",
   "status": "partial",
   "theorems": [
    "Byoc.BuilderProps.C62_partial",
    "Byoc.BuilderProps.C62_false"
   ],
   "note": "The full statement (C62_full) is false of the code: the exponent is read from a field named decorator.Lrfu.exponent. Proved: the kind is honoured, the exponent is always 1."
  },
  {
   "property": "C63",
   "status": "proved",
   "theorems": [
    "Byoc.ExactProps.C63_push_exact",
    "Byoc.ExactProps.C63_push_one_stays"
   ],
   "note": "shapes without Associative (an Associative hands back elements while other sets have room)"
  },
  {
   "property": "C64",
   "status": "partial",
   "theorems": [
    "Byoc.ExactProps.C64_partial",
    "Byoc.ExactProps.C64_false"
   ],
   "note": "The full statement (C64_full) is false of the code for n = 0 (pop(0) evicts an element of an Array). Proved for n > 0."
  },
  {
   "property": "C65",
   "status": "proved",
   "theorems": [
    "Byoc.CombProps.C65_batch_pop_last_first",
    "Byoc.CombProps.C65_batch_pop_order"
   ],
   "note": ""
  },
  {
   "property": "C66",
   "status": "partial",
   "theorems": [
    "Byoc.LayerProps.C66_exact",
    "Byoc.LayerProps.C66_partial",
    "Byoc.LayerProps.C66_false"
   ],
   "note": "The full statement (C66_full) is false of the code: all layers of a configuration use the same hash. C66_exact gives the exact maximum; proved to fill up for pairwise coprime numbers of sets."
  },
  {
   "property": "C67",
   "status": "proved",
   "theorems": [
    "Byoc.LayerProps.C67_builder_layers_fill"
   ],
   "note": "Arrays counting elements at the bottom"
  },
  {
   "property": "C68",
   "status": "partial",
   "theorems": [
    "Byoc.BTreeProps.C68_exact",
    "Byoc.BTreeProps.C68_partial",
    "Byoc.BTreeProps.C68_access_partial",
    "Byoc.BTreeProps.C68_false"
   ],
   "note": "The full statement (C68_full) is false of the code. C68_exact gives the exact condition of the panic; proved for positive sizes that writes do not change."
  },
  {
   "property": "C69",
   "status": "proved",
   "theorems": [
    "Byoc.EvictProps.C69_array_push_minimal",
    "Byoc.EvictProps.C69_btree_push_minimal"
   ],
   "note": "BTree: batches without repeated keys"
  },
  {
   "property": "C70",
   "status": "partial",
   "theorems": [
    "Byoc.EvictProps.C70_partial",
    "Byoc.EvictProps.C70_false"
   ],
   "note": "The full statement (C70_full) is false of the code by the 8 bytes of a vector length. C70_partial gives the exact behaviour of push, with minimality."
  },
  {
   "property": "C71",
   "status": "partial",
   "theorems": [
    "Byoc.LrfuProps.C71_made",
    "Byoc.LrfuProps.C71_score",
    "Byoc.LrfuProps.C71_access",
    "Byoc.LrfuProps.C71_exponent_one",
    "Byoc.LrfuProps.C71_partial",
    "Byoc.LrfuProps.C71_false"
   ],
   "note": "The full statement (C71_full) is false of the code for exponent 1: the policy is then first in, first out (C71_exponent_one). Proved for large exponents, with the closed form of the score. Exact rationals for f32; both scores read at the same time (see C41)."
  },
  {
   "property": "C72",
   "status": "partial",
   "theorems": [
    "Byoc.MapStackProps.C72_partial",
    "Byoc.MapStackProps.C72_distinct",
    "Byoc.MapStackProps.C72_flush_panics",
    "Byoc.MapStackProps.C72_false",
    "Byoc.MapStackProps.C72_stale_take"
   ],
   "note": "The full statement (C72_full) is false of the code: flush of an Inclusive over a Compressed panics (C72_flush_panics). Proved for all other shapes (no pop below an Associative, see C20)."
  },
  {
   "property": "C73",
   "status": "partial",
   "theorems": [
    "Byoc.ConcProfilerProps.C73_partial",
    "Byoc.ConcProfilerProps.C73_read_partial",
    "Byoc.ConcProfilerProps.C73_order_partial",
    "Byoc.ConcProfilerProps.C73_alone_partial",
    "Byoc.ConcProfilerProps.C73_serial_partial",
    "Byoc.ConcProfilerProps.C73_why_partial",
    "Byoc.ConcProfilerProps.C73_poisoned",
    "Byoc.ConcProfilerProps.C73_poisons",
    "Byoc.ConcProfilerProps.C73_lost",
    "Byoc.ConcProfilerProps.C73_false",
    "Byoc.ConcProfilerProps.C73_witness"
   ],
   "note": "The full statement (C73_full) is false of the code (C73_lost, C73_poisons). The methods of the wrapped container are atomic steps in the model. The pop statistic, a difference of sizes, is covered only for calls that do not overlap."
  },
  {
   "property": "C74",
   "status": "partial",
   "theorems": [
    "Byoc.ConcAssocProps.C74_partial",
    "Byoc.ConcAssocProps.C74_conserves_partial",
    "Byoc.ConcAssocProps.C74_key_partial",
    "Byoc.ConcAssocProps.C74_serial_partial",
    "Byoc.ConcAssocProps.C74_capacity_partial",
    "Byoc.ConcAssocProps.C74_false",
    "Byoc.ConcAssocProps.C74_witness"
   ],
   "note": "The full statement (C74_full) is false of the code: size() adds sizes read at different moments (C74_false). The methods of a set are atomic steps in the model."
  },
  {
   "property": "C75",
   "status": "partial",
   "theorems": [
    "Byoc.ConcAssocSeqProps.C75_partial",
    "Byoc.ConcAssocSeqProps.C75_false",
    "Byoc.ConcAssocSeqProps.C75_witness"
   ],
   "note": "The full statement (C75_full) is false of the code: push calls every set. Proved when neither of the two calls is a push, and as long as no call panicked before."
  },
  {
   "property": "C76",
   "status": "partial",
   "theorems": [
    "Byoc.ConcAssocSeqProps.C76_partial",
    "Byoc.ConcAssocSeqProps.C76_refines_partial",
    "Byoc.ConcAssocSeqProps.C76_false",
    "Byoc.ConcAssocSeqProps.C76_loses",
    "Byoc.ConcAssocSeqProps.C76_witness"
   ],
   "note": "The full statement (C76_full) is false of the code: calls panic under contention, and after a panic a push on any set loses its elements (C76_loses). Proved as long as no call panics."
  },
  {
   "property": "C77",
   "status": "proved",
   "theorems": [
    "Byoc.LrfuHistProps.C77_lrfu_evicts",
    "Byoc.LrfuHistProps.C77_exponent_one",
    "Byoc.LrfuHistProps.C77_witness"
   ],
   "note": "Exact rationals for f32; the sorting routine compares scores read at the same time (see C41), for which the order does not depend on the time; each access dereferences its cell once."
  },
  {
   "property": "C78",
   "status": "proved",
   "theorems": [
    "Byoc.BuilderProps.C78_build",
    "Byoc.BuilderProps.C78_witness"
   ],
   "note": "The sets of an Associative are built once and copied; the hash is a parameter (see C67 for hashers)."
  },
  {
   "property": "C79",
   "status": "partial",
   "theorems": [
    "Byoc.FileProps.C79_partial",
    "Byoc.FileProps.C79_calls_partial",
    "Byoc.FileProps.C79_push_partial",
    "Byoc.FileProps.C79_flush_loses",
    "Byoc.FileProps.C79_config",
    "Byoc.FileProps.C79_example",
    "Byoc.FileProps.C79_false"
   ],
   "note": "The full statement (C79_full) is false of the code: FileStream::new opens the file without read permission and reading fails. A failing read on a file not opened for reading is the operating system behaviour assumed by the model."
  },
  {
   "property": "C80",
   "status": "partial",
   "theorems": [
    "Byoc.FileProps.C80_partial",
    "Byoc.FileProps.C80_config",
    "Byoc.FileProps.C80_example",
    "Byoc.FileProps.C80_false"
   ],
   "note": "The full statement (C80_full) is false of the code, for the same reason as C79; the lz4 decoder is assumed to read its stream and to forward the error."
  },
  {
   "property": "C81",
   "status": "proved",
   "theorems": [
    "Byoc.ConcDecoratorProps.C81_fifo",
    "Byoc.ConcDecoratorProps.C81_lru",
    "Byoc.ConcDecoratorProps.C81_config"
   ],
   "note": "The calls on the Sequential container are atomic steps, or panic without effect under contention (see C35); for Lru with a counter whose readings increase."
  },
  {
   "property": "C82",
   "status": "partial",
   "theorems": [
    "Byoc.ConcDecoratorProps.C82_partial",
    "Byoc.ConcDecoratorProps.C82_conserved_partial",
    "Byoc.ConcDecoratorProps.C82_panics_partial",
    "Byoc.ConcDecoratorProps.C82_take_multiple",
    "Byoc.ConcDecoratorProps.C82_clash",
    "Byoc.ConcDecoratorProps.C82_false"
   ],
   "note": "The full statement (C82_full) is false of the code: overlapping pushes (C82_false), take_multiple (C82_take_multiple). Proved for executions without either. The calls on the decorated container are atomic steps, or panic without effect under contention (see C35)."
  },
  {
   "property": "C83",
   "status": "proved",
   "theorems": [
    "Byoc.CellProps.C83_each_use_is_a_lookup",
    "Byoc.CellProps.C83_lru",
    "Byoc.CellProps.C83_fifo"
   ],
   "note": "Lru and Fifo claims for writes that do not change the size of the element."
  },
  {
   "property": "C84",
   "status": "proved",
   "theorems": [
    "Byoc.CellProps.C84_fifo_compressed"
   ],
   "note": "The claim on push is for elements that can be serialised (see C29 for others)."
  },
  {
   "property": "C85",
   "status": "partial",
   "theorems": [
    "Byoc.CellProps.C85_partial",
    "Byoc.CellProps.C85_false"
   ],
   "note": "The full statement (C85_full) is false of the code: reading does not count as a use (C85_false). Proved for the order of pushes and writes."
  },
  {
   "property": "C86",
   "status": "partial",
   "theorems": [
    "Byoc.StreamPolicyProps.C86_partial",
    "Byoc.StreamPolicyProps.C86_false"
   ],
   "note": "The full statement (C86_full) is false of the code: push refuses new elements instead of evicting old ones (C86_false). Proved for pop, and exactly what push does. Writes keep the size class of the serialised element (see C26)."
  },
  {
   "property": "C87",
   "status": "partial",
   "theorems": [
    "Byoc.StreamPolicyProps.C87_partial",
    "Byoc.StreamPolicyProps.C87_false"
   ],
   "note": "The full statement (C87_full) is false of the code: reading does not count as a use (C87_false). Proved for the order of pushes and writes."
  },
  {
   "property": "C88",
   "status": "partial",
   "theorems": [
    "Byoc.ConfigTextProps.C88_partial",
    "Byoc.ConfigTextProps.C88_same_partial",
    "Byoc.ConfigTextProps.C88_builder",
    "Byoc.ConfigTextProps.C88_id_unchecked",
    "Byoc.ConfigTextProps.C88_false"
   ],
   "note": "The full statement (C88_full) is false of the code for ConfigBuilder (C88_builder). Proved for all the other types. A text is modelled by its TOML value, integers in the range of i64."
  },
  {
   "property": "C89",
   "status": "partial",
   "theorems": [
    "Byoc.ConfigTextProps.C89_partial",
    "Byoc.ConfigTextProps.C89_as_config",
    "Byoc.ConfigTextProps.C89_nested_panics",
    "Byoc.ConfigTextProps.C89_large",
    "Byoc.ConfigTextProps.C89_example",
    "Byoc.ConfigTextProps.C89_false"
   ],
   "note": "The full statement (C89_full) is false of the code (C89_nested_panics, C89_large). Proved, exactly, for the others."
  },
  {
   "property": "C90",
   "status": "partial",
   "theorems": [
    "Byoc.ConfigTextProps.C90_partial",
    "Byoc.ConfigTextProps.C90_stays_up",
    "Byoc.ConfigTextProps.C90_decorator_ignored",
    "Byoc.ConfigTextProps.C90_one_connection",
    "Byoc.ConfigTextProps.C90_from_builder",
    "Byoc.ConfigTextProps.C90_example",
    "Byoc.ConfigTextProps.C90_false"
   ],
   "note": "The full statement (C90_full) is false of the code: the decorator of the container is ignored (C90_decorator_ignored, C90_false). Proved without decorator."
  },
  {
   "property": "C91",
   "status": "partial",
   "theorems": [
    "Byoc.ConcStreamProps.C91_partial",
    "Byoc.ConcStreamProps.C91_one_consumer_partial",
    "Byoc.ConcStreamProps.C91_take_finds_partial",
    "Byoc.ConcStreamProps.C91_alone",
    "Byoc.ConcStreamProps.C91_over_capacity",
    "Byoc.ConcStreamProps.C91_wrong_key",
    "Byoc.ConcStreamProps.C91_panic_and_loss",
    "Byoc.ConcStreamProps.C91_silent_loss",
    "Byoc.ConcStreamProps.C91_false_parts",
    "Byoc.ConcStreamProps.C91_false"
   ],
   "note": "The full statement (C91_full) is false of the code in each of its parts (C91_false_parts). Proved in all schedules: what is in C91_partial; with one consumer at a time: all but the capacity. The model takes single accesses to the streams as atomic, which the code does not ensure (data race)."
  },
  {
   "property": "C92",
   "status": "partial",
   "theorems": [
    "Byoc.TierProps.C92_lru_tiers_partial",
    "Byoc.TierProps.C92_lru_tiers_monotone_partial",
    "Byoc.TierProps.C92_false"
   ],
   "note": "The full statement (C92_full) is false of the code: a lookup whose cell is not used (C92_false). Proved when every cell is used, for strictly increasing clocks and, up to equal readings, for any clock."
  },
  {
   "property": "C93",
   "status": "partial",
   "theorems": [
    "Byoc.TierProps.C93_fifo_tiers_partial",
    "Byoc.TierProps.C93_false"
   ],
   "note": "The full statement (C93_full) is false of the code with lookups (C93_false). Proved without lookups."
  },
  {
   "property": "C94",
   "status": "proved",
   "theorems": [
    "Byoc.CacheProps.C94_lru_is_textbook",
    "Byoc.CacheProps.C94_lru_most_recent",
    "Byoc.CacheProps.C94_larger_is_better"
   ],
   "note": "Every Exclusive has room for an element in its front level (see C12)."
  },
  {
   "property": "C95",
   "status": "proved",
   "theorems": [
    "Byoc.CacheProps.C95_fifo_is_textbook",
    "Byoc.CacheProps.C95_belady"
   ],
   "note": "For Exclusive levels see C93: lookups change the order."
  },
  {
   "property": "C96",
   "status": "partial",
   "theorems": [
    "Byoc.MemoryProps.C96_stacks_partial",
    "Byoc.MemoryProps.C96_btree_partial",
    "Byoc.MemoryProps.C96_compressed_partial",
    "Byoc.MemoryProps.C96_inclusive_partial",
    "Byoc.MemoryProps.C96_inclusive_loses",
    "Byoc.MemoryProps.C96_stream_loses",
    "Byoc.MemoryProps.C96_false"
   ],
   "note": "The full statement (C96_full, already for an Inclusive of two Arrays) is false of the code. Elements of size 1 in the Arrays, room in the front of each Exclusive, no pop with an Associative (see C20)."
  },
  {
   "property": "C97",
   "status": "proved",
   "theorems": [
    "Byoc.SetProps.C97_lru",
    "Byoc.SetProps.C97_fifo",
    "Byoc.SetProps.C97_lru_sets"
   ],
   "note": "pop is excluded (see C20). Sets decorated one by one each read a strictly increasing clock of their own."
  },
  {
   "property": "C98",
   "status": "partial",
   "theorems": [
    "Byoc.MachineProps.C98_machine_partial",
    "Byoc.MachineProps.C98_total_partial",
    "Byoc.MachineProps.C98_contract_partial",
    "Byoc.MachineProps.C98_btree_partial",
    "Byoc.MachineProps.C98_associative_pop_partial",
    "Byoc.MachineProps.C98_debug_panics_false",
    "Byoc.MachineProps.C98_release_overfull_false",
    "Byoc.MachineProps.C98_machine_false",
    "Byoc.MachineProps.C98_capacity_false"
   ],
   "note": "The full statement (C98_machine_full) is false of the code. The counters of Profiler stay unbounded."
  },
  {
   "property": "C99",
   "status": "proved",
   "theorems": [
    "Byoc.WeakLockProps.C99_race_free",
    "Byoc.WeakLockProps.C99_in_order",
    "Byoc.WeakLockProps.C99_mutual_exclusion",
    "Byoc.WeakLockProps.C99_includes_sc"
   ],
   "note": "Happens-before as in C++20: program order and release sequences of read-modify-write operations. SeqCst is taken as AcqRel, which allows more executions. A thread unlocks only what it locked; fewer than 2^62 shared accesses at a time."
  }
 ]
}