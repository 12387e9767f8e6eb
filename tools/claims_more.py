C='Byoc.CombProps.'
S='Byoc.AssocProps.'
T='Byoc.StackProps.'
claim('C11','proved',[C+'C11_exclusive_history',C+'C11_exclusive_contract',C+'C11_exclusive_flush'],'for every two containers satisfying the contract')
claim('C12','proved',[C+'C12_exclusive_get'],'')
claim('C13','partial',[C+'C13_partial',C+'C13_false'],'The full statement (C13_full) is false of the code (refuted by C13_false: push a key whose first copy is in the back). Proved for histories that never push a key already stored.')
claim('C16','proved',[C+'C16_batch_history',C+'C16_batch_contract',C+'C16_batch_flush'],'')
claim('C17','proved',[C+'C17_batch_push'],'')
claim('C18','proved',[C+'C18_flushStopper_call',C+'C18_flushStopper_history',C+'C18_flushStopper_contract'],'')
claim('C19','proved',[S+'C19_associative_history',S+'C19_associative_contract',S+'C19_associative_lookup'],'')
claim('C20','partial',[S+'C20_partial_extremes',S+'C20_partial_conserves',S+'C20_exact',S+'C20_large_panics',S+'C20_single_set_panics',S+'C20_false'],'The full statement (C20_full) is false of the code: C20_false, and with one set every pop(n) with 0<n<size panics (C20_single_set_panics). Proved: pop(0) and pop(n>=size) behave; exactly when pop returns and when it panics (C20_exact): with m sets it panics whenever at least m+1+m(m-1)/2 is to be left (C20_large_panics); and whenever pop returns it conserves elements and placement.')
claim('C36','proved',[C+'C36_profiler_sound',C+'C36_profiler_transparent'],'')
claim('C38','proved',[C+'C38_decorator_contract',C+'C38_decorator_history'],'')
claim('C47','proved',[T+'C47_stack_history',T+'C47_stack_history_associative',T+'C47_stack_history_returns',T+'C47_stack_lookup'],'')
claim('C48','proved',[T+'C48_write_then_read',T+'C48_stack',T+'C48_array_first'],'')
claim('C49','proved',[T+'C49_take_multiple_is_takes'],'')
claim('C51','proved',[C+'C51_exclusive_push_front_first',C+'C51_exclusive_pop_back_first'],'')
claim('C52','partial',[C+'C52_partial',C+'C52_false'],'Full statement (C52_full) is false of the code (C52_false). Proved when take_multiple returns at most one element per requested key.')
claim('C53','proved',[T+'C53_stack_calls',T+'C53_stack_calls_associative'],'')
I='Byoc.InclusiveProps.'
claim('C14','partial',[I+'C14_partial',I+'C14_partial_no_access',I+'C14_false',I+'C14_panics_take',I+'C14_panics_pop',I+'C14_loses'],'The full statement (C14_full) is false of the code: C14_false, C14_panics_*, C14_loses (a front eviction leaves the back cell flagged as copied). Proved: histories without accesses (any capacities, duplicate keys allowed), and all fresh histories when the front is as large as the back.')
claim('C15','proved',[I+'C15_never_stale',I+'C15_write_then_take'],'')
U='Byoc.UtilsProps.'
R='Byoc.StreamProps.'
claim('C21','proved',[U+'C21_exclusive_hashers',U+'C21_all_sets_reached'],'')
claim('C22','proved',[U+'C22_log2',U+'C22_chunk_size',U+'C22_chunk_size_zero'],'chunk_size for sizes up to 2^63 (above it the shift panics)')
claim('C23','partial',[U+'C23_partial',U+'C23_equal_sizes',U+'C23_false'],'The full statement (C23_full) is false of the code: more than needed may be kept (C23_false). Proved: the greatest elements are kept, enough of them, and no more than needed when sizes are equal.')
claim('C24','partial',[R+'C24_partial',R+'C24_append_reversed',R+'C24_iteration_truncated',R+'C24_swap_remove_past',R+'C24_false'],'The full statement (C24_full) is false of the code: append reverses, iteration is truncated for chunk sizes below 8192 not dividing it, swap_remove past the end drops the last element. Proved for single appends, removals of existing elements, chunk sizes that divide 8192 or are at least 8192.')
claim('C25','proved',[R+'C25_size_and_capacity'],'')
claim('C26','proved',[R+'C26_conserves',R+'C26_calls',R+'C26_accesses',R+'C26_longer_write_corrupts'],'get_mut proved for values that serialise to the same chunk; C26_longer_write_corrupts shows why')
claim('C27','partial',[R+'C27_partial',R+'C27_false',R+'C27_flush_loses'],'The full statement (C27_full) is false of the code: take_multiple returns copies and removes nothing, flush after push returns nothing.')
claim('C50','proved',[R+'C50_write',R+'C50_read',R+'C50_seek',R+'C50_resize',R+'C50_history',R+'C50_stale_handle_panics'],'seek is cut to the file (a file would allow seeking past the end)')
P='Byoc.CompressedProps.'
claim('C28','partial',[P+'C28_partial',P+'C28_partial_distinct',P+'C28_longer_write_panics',P+'C28_false'],'The full statement (C28_full) is false of the code: take_multiple panics when a key is stored twice (C28_false). Proved for all calls but take_multiple with any batches, and for all calls and accesses on histories that never push a stored key.')
claim('C29','proved',[P+'C29_conserves',P+'C29_calls',P+'C29_push_nothing_evicts'],'')
claim('C30','partial',[P+'C30_partial',P+'C30_false',P+'C30_panics',P+'C30_drops_key'],'The full statement (C30_full) is false of the code when a key is stored twice (C30_panics, C30_drops_key). Proved when stored keys are distinct.')
L='Byoc.LockProps.'
H='Byoc.HandleProps.'
claim('C31','proved',[L+'C31_mutual_exclusion',L+'C31_count',L+'C31_exact'],'atomic-step transition system, any number of threads, spurious failures and panics included in C31_mutual_exclusion and C31_count; fewer than 2^62 shared accesses at a time')
claim('C32','proved',[L+'C32_poison_sticky',L+'C32_unbalanced_unlock'],'for balanced unlocks; C32_unbalanced_unlock shows that an unbalanced unlock removes the poison')
claim('C54','partial',[L+'C54_partial',L+'C54_leak',L+'C54_false'],'The full statement (C54_full) is false of the code: a spurious failure in unlock leaves the lock taken forever (C54_leak). Proved when no weak compare-and-exchange fails spuriously.')
claim('C33','partial',[H+'C33_partial',H+'C33_panic_leaks',H+'C33_spurious_leaks',H+'C33_false'],'The full statement (C33_full) is false of the code: a handle dropped by a panicking thread poisons the counter and the file is never removed. Proved: removed at most once, never under a live handle or after do_not_delete; removed by the last drop in runs without panic or spurious failure.')
claim('C34','partial',[H+'C34_partial',H+'C34_never_freed',H+'C34_false'],'The full statement (C34_full) is false of the code: the container is never freed (C34_never_freed). Proved: no use after free and no double free.')
Q='Byoc.SequentialProps.'
claim('C35','partial',[Q+'C35_partial',Q+'C35_exclusive',Q+'C35_why_panic',Q+'C35_skip_after_panic',Q+'C35_contention_panics',Q+'C35_push_loses',Q+'C35_false'],'The full statement (C35_full) is false of the code: calls panic under contention (C35_contention_panics), and a push after such a panic loses its elements (C35_push_loses). Proved: every execution is linearizable, panics included; a panic happens only under contention, after a panic, or if the container panics.')
claim('C55','partial',[Q+'C55_partial',Q+'C55_partial_waits',Q+'C55_dangling',Q+'C55_false'],'The full statement (C55_full) is false of the code: flush empties the container under a live cell (C55_dangling). Proved for push and get_mut, and for flush and get against get_mut cells.')
Y='Byoc.PolicyProps.'
claim('C39','proved',[Y+'C39_fifo'],'Array decorated with Fifo; single handle (see C56 for clones)')
claim('C40','proved',[Y+'C40_lru',Y+'C40_lru_monotone'],'Array decorated with Lru. Over containers whose cells are copies (Compressed, Stream) time stamps written by get are lost: not covered')
claim('C41','partial',[Y+'C41_partial',Y+'C41_off_by_elapsed',Y+'C41_less_than_itself',Y+'C41_not_transitive',Y+'C41_recent_frequent',Y+'C41_false'],'The full statement (C41_full) is false of the code: a comparison reads the clock twice. Proved when the clock does not advance between the two readings. Exact rationals for f32.')
claim('C42','proved',[Y+'C42_counter',Y+'C42_wraps'],'')
claim('C56','partial',[Y+'C56_partial',Y+'C56_false'],'The full statement (C56_full) is false of the code: Fifo::clone copies the counter. Proved when one handle makes all the pushes.')
W='Byoc.ProfilerProps.'
claim('C37','proved',[W+'C37_exact',W+'C37_balance',W+'C37_reset'],'one profiler handle; elapsed times and the width of the counters: C110. flush_iter counts the final call of next too; pop counts the size freed.')
X='Byoc.SocketProps.'
claim('C43','partial',[X+'C43_partial',X+'C43_completes',X+'C43_contract',X+'C43_slow_network_loses',X+'C43_slow_network_kills',X+'C43_false'],'The full statement (C43_full) is false of the code: when the read timeout strikes inside a request the bytes already read are forgotten and the rest is taken for other requests. Proved, byte by byte, when no pause falls inside a request; calls complete (C43_completes).')
claim('C44','partial',[X+'C44_bounded',X+'C44_partial',X+'C44_reset_kills',X+'C44_false'],'The bound is proved for every history (C44_bounded). "Stops only on request" (in C44_full) is false of the code: a connection reset or a client gone before its response panics the server (C44_reset_kills); proved for polite clients.')
claim('C57','proved',[X+'C57_wire',X+'C57_unambiguous'],'bincode 1.x default format, from its documentation (the dependency is not in the sandbox)')
claim('C58','partial',[X+'C58_partial',X+'C58_hangs',X+'C58_false'],'The full statement (C58_full) is false of the code: try_reconnect does not set the read timeout. Proved on the first connection.')
claim('C59','partial',[X+'C59_partial',X+'C59_stale',X+'C59_false'],'The full statement (C59_full) is false of the code in the branch that resends after reconnecting. Proved when no write reports UnexpectedEof.')
Z='Byoc.ConfigProps.'
claim('C45','proved',[Z+'C45_accepts_iff',Z+'C45_invalid_refused',Z+'C45_builds_iff',Z+'C45_capacity',Z+'C45_config_builds',Z+'C45_builder_builds',Z+'C45_builder_accepts_iff'],'toml and derived Deserialize trusted. An accepted configuration builds iff the files and servers it names are available (C45_builds_iff).')
claim('C46','partial',[Z+'C46_partial',Z+'C46_flag_iff',Z+'C46_nested_refused',Z+'C46_builder',Z+'C46_false'],'The full statement (C46_full) is false of the code: a nested GenericConfig always says it is not concurrent. Proved: exactly Sequential and the empty Associative are announced concurrent; what is not concurrent is refused.')
D='Byoc.BuilderProps.'
claim('C60','partial',[D+'C60_partial','Byoc.ConfigTextProps.C60_text_partial',D+'C60_accepted_iff',D+'C60_nested_panics',D+'C60_false'],'The full statement (C60_full) is false of the code: DecoratorConfig and InclusiveConfig are not among the configurations GenericConfig knows. Proved, exactly, for the other builders. Capacities below 2^63 (TOML integers).')
claim('C61','partial',[Z+'C61_partial',Z+'C61_partial_builder',Z+'C61_empty_associative',Z+'C61_false'],'The full statement (C61_full) is false of the code: an empty Associative is accepted and panics. Proved for Array leaves and non empty Associatives (without pop under an Associative, see C20), with any decorator.')
claim('C62','partial',[D+'C62_partial',D+'C62_false'],'The full statement (C62_full) is false of the code: the exponent is read from a field named decorator.Lrfu.exponent. Proved: the kind is honoured, the exponent is always 1.')
E='Byoc.ExactProps.'
claim('C63','proved',[E+'C63_push_exact',E+'C63_push_one_stays'],'shapes without Associative (an Associative hands back elements while other sets have room)')
claim('C64','partial',[E+'C64_partial',E+'C64_false'],'The full statement (C64_full) is false of the code for n = 0 (pop(0) evicts an element of an Array). Proved for n > 0.')
claim('C65','proved',[C+'C65_batch_pop_last_first',C+'C65_batch_pop_order'],'')
F='Byoc.LayerProps.'
claim('C66','partial',[F+'C66_exact',F+'C66_partial',F+'C66_false'],'The full statement (C66_full) is false of the code: all layers of a configuration use the same hash. C66_exact gives the exact maximum; proved to fill up for pairwise coprime numbers of sets.')
claim('C67','proved',[F+'C67_builder_layers_fill'],'Arrays counting elements at the bottom')
claim('C68','partial',[B+'C68_exact',B+'C68_partial',B+'C68_access_partial',B+'C68_false'],'The full statement (C68_full) is false of the code. C68_exact gives the exact condition of the panic; proved for positive sizes that writes do not change.')
G='Byoc.EvictProps.'
claim('C69','proved',[G+'C69_array_push_minimal',G+'C69_btree_push_minimal'],'BTree: batches without repeated keys')
claim('C70','partial',[G+'C70_partial',G+'C70_false'],'The full statement (C70_full) is false of the code by the 8 bytes of a vector length. C70_partial gives the exact behaviour of push, with minimality.')
J='Byoc.LrfuProps.'
claim('C71','partial',[J+'C71_made',J+'C71_score',J+'C71_access',J+'C71_exponent_one',J+'C71_partial',J+'C71_false'],'The full statement (C71_full) is false of the code for exponent 1: the policy is then first in, first out (C71_exponent_one). Proved for large exponents, with the closed form of the score. Exact rationals for f32; both scores read at the same time (see C41).')
L='Byoc.MapStackProps.'
claim('C72','partial',[L+'C72_partial',L+'C72_distinct',L+'C72_flush_panics',L+'C72_false',L+'C72_stale_take'],'The full statement (C72_full) is false of the code: flush of an Inclusive over a Compressed panics (C72_flush_panics). Proved for all other shapes (no pop below an Associative, see C20).')
L='Byoc.ConcProfilerProps.'
claim('C73','partial',[L+x for x in ['C73_partial','C73_read_partial','C73_order_partial','C73_alone_partial','C73_serial_partial','C73_why_partial','C73_poisoned','C73_poisons','C73_lost','C73_false','C73_witness']],'The full statement (C73_full) is false of the code (C73_lost, C73_poisons). The methods of the wrapped container are atomic steps in the model. The pop statistic, a difference of sizes, is covered only for calls that do not overlap.')
L='Byoc.ConcAssocProps.'
claim('C74','partial',[L+x for x in ['C74_partial','C74_conserves_partial','C74_key_partial','C74_serial_partial','C74_capacity_partial','C74_false','C74_witness']],'The full statement (C74_full) is false of the code: size() adds sizes read at different moments (C74_false). The methods of a set are atomic steps in the model.')
L='Byoc.ConcAssocSeqProps.'
claim('C75','partial',[L+x for x in ['C75_partial','C75_false','C75_witness']],'The full statement (C75_full) is false of the code: push calls every set. Proved when neither of the two calls is a push, and as long as no call panicked before.')
claim('C76','partial',[L+x for x in ['C76_partial','C76_refines_partial','C76_false','C76_loses','C76_witness']],'The full statement (C76_full) is false of the code: calls panic under contention, and after a panic a push on any set loses its elements (C76_loses). Proved as long as no call panics.')
L='Byoc.LrfuHistProps.'
claim('C77','proved',[L+x for x in ['C77_lrfu_evicts','C77_exponent_one','C77_witness']],'Exact rationals for f32; the sorting routine compares scores read at the same time (see C41), for which the order does not depend on the time; each access dereferences its cell once.')
claim('C78','proved',[D+'C78_build',D+'C78_witness'],'The sets of an Associative are built once and copied; the hash is a parameter (see C67 for hashers).')
L='Byoc.FileProps.'
claim('C79','partial',[L+x for x in ['C79_partial','C79_calls_partial','C79_push_partial','C79_flush_loses','C79_config','C79_example','C79_false']],'The full statement (C79_full) is false of the code: FileStream::new opens the file without read permission and reading fails. A failing read on a file not opened for reading is the operating system behaviour assumed by the model.')
claim('C80','partial',[L+x for x in ['C80_partial','C80_config','C80_example','C80_false']],'The full statement (C80_full) is false of the code, for the same reason as C79; the lz4 decoder is assumed to read its stream and to forward the error.')
L='Byoc.ConcDecoratorProps.'
claim('C81','proved',[L+x for x in ['C81_fifo','C81_lru','C81_config']],'The calls on the Sequential container are atomic steps, or panic without effect under contention (see C35); for Lru with a counter whose readings increase.')
claim('C82','partial',[L+x for x in ['C82_partial','C82_conserved_partial','C82_panics_partial','C82_take_multiple','C82_clash','C82_false']],'The full statement (C82_full) is false of the code: overlapping pushes (C82_false), take_multiple (C82_take_multiple). Proved for executions without either. The calls on the decorated container are atomic steps, or panic without effect under contention (see C35).')
L='Byoc.CellProps.'
claim('C83','proved',[L+x for x in ['C83_each_use_is_a_lookup','C83_lru','C83_fifo']],'Lru and Fifo claims for writes that do not change the size of the element.')
claim('C84','proved',[L+'C84_fifo_compressed'],'The claim on push is for elements that can be serialised (see C29 for others).')
claim('C85','partial',[L+'C85_partial',L+'C85_false'],'The full statement (C85_full) is false of the code: reading does not count as a use (C85_false). Proved for the order of pushes and writes.')

L='Byoc.StreamPolicyProps.'
claim('C86','partial',[L+'C86_partial',L+'C86_false'],'The full statement (C86_full) is false of the code: push refuses new elements instead of evicting old ones (C86_false). Proved for pop, and exactly what push does. Writes keep the size class of the serialised element (see C26).')
claim('C87','partial',[L+'C87_partial',L+'C87_false'],'The full statement (C87_full) is false of the code: reading does not count as a use (C87_false). Proved for the order of pushes and writes.')

L='Byoc.ConfigTextProps.'
claim('C88','partial',[L+x for x in ['C88_partial','C88_same_partial','C88_builder','C88_id_unchecked','C88_false']],'The full statement (C88_full) is false of the code for ConfigBuilder (C88_builder). Proved for all the other types. A text is modelled by its TOML value, integers in the range of i64.')
claim('C89','partial',[L+x for x in ['C89_partial','C89_as_config','C89_nested_panics','C89_large','C89_example','C89_false']],'The full statement (C89_full) is false of the code (C89_nested_panics, C89_large). Proved, exactly, for the others.')
claim('C90','partial',[L+x for x in ['C90_partial','C90_stays_up','C90_decorator_ignored','C90_one_connection','C90_from_builder','C90_example','C90_false']],'The full statement (C90_full) is false of the code: the decorator of the container is ignored (C90_decorator_ignored, C90_false). Proved without decorator.')

L='Byoc.ConcStreamProps.'
claim('C91','partial',[L+x for x in ['C91_partial','C91_one_consumer_partial','C91_take_finds_partial','C91_alone','C91_over_capacity','C91_wrong_key','C91_panic_and_loss','C91_silent_loss','C91_false_parts','C91_false']],'The full statement (C91_full) is false of the code in each of its parts (C91_false_parts). Proved in all schedules: what is in C91_partial; with one consumer at a time: all but the capacity. The model takes single accesses to the streams as atomic, which the code does not ensure (data race).')

L='Byoc.TierProps.'
claim('C92','partial',[L+x for x in ['C92_lru_tiers_partial','C92_lru_tiers_monotone_partial','C92_false']],'The full statement (C92_full) is false of the code: a lookup whose cell is not used (C92_false). Proved when every cell is used, for strictly increasing clocks and, up to equal readings, for any clock.')
claim('C93','partial',[L+x for x in ['C93_fifo_tiers_partial','C93_false']],'The full statement (C93_full) is false of the code with lookups (C93_false). Proved without lookups.')

L='Byoc.CacheProps.'
claim('C94','proved',[L+x for x in ['C94_lru_is_textbook','C94_lru_most_recent','C94_larger_is_better']],'Every Exclusive has room for an element in its front level (see C12).')
claim('C95','proved',[L+x for x in ['C95_fifo_is_textbook','C95_belady']],'For Exclusive levels see C93: lookups change the order.')
L='Byoc.MemoryProps.'
claim('C96','partial',[L+x for x in ['C96_stacks_partial','C96_btree_partial','C96_compressed_partial','C96_inclusive_partial','C96_inclusive_loses','C96_stream_loses','C96_false']],'The full statement (C96_full, already for an Inclusive of two Arrays) is false of the code. Elements of size 1 in the Arrays, room in the front of each Exclusive, no pop with an Associative (see C20).')

L='Byoc.SetProps.'
claim('C97','proved',[L+x for x in ['C97_lru','C97_fifo','C97_lru_sets']],'pop is excluded (see C20). Sets decorated one by one each read a strictly increasing clock of their own.')

L='Byoc.MachineProps.'
claim('C98','partial',[L+x for x in ['C98_machine_partial','C98_total_partial','C98_contract_partial','C98_btree_partial','C98_associative_pop_partial','C98_debug_panics_false','C98_release_overfull_false','C98_machine_false','C98_capacity_false']],'The full statement (C98_machine_full) is false of the code. The counters of Profiler stay unbounded.')

L='Byoc.WeakLockProps.'
claim('C99','proved',[L+x for x in ['C99_race_free','C99_in_order','C99_mutual_exclusion','C99_includes_sc']],'Happens-before as in C++20: program order and release sequences of read-modify-write operations. SeqCst is taken as AcqRel, which allows more executions. A thread unlocks only what it locked; fewer than 2^62 shared accesses at a time.')

L='Byoc.SeqCellProps.'
claim('C100','partial',[L+x for x in ['C100_partial','C100_array_partial','C100_associative_partial','C100_btree_hidden','C100_btree_false','C100_exclusive_dangling','C100_btree_race','C100_btree_drop_panics','C100_array_flush','C100_btree_alone_partial','C100_false']]+['Byoc.SeqCells.'+x for x in ['array_pins','batch_pins','associative_pins','flushStopper_pins']],'The full statement (C100_full) is false of the code in each of its parts. Proved for containers whose cells are plain pointers (Pins: Arrays under Batch, Associative and FlushStopper) and calls that remove nothing but what push evicts. An access to a cell is taken as one step.')

L='Byoc.MapGetProps.'
claim('C101','partial',[L+x for x in ['C101_partial','C101_sets_behind_panics','C101_compressed_behind_panics','C101_false']],'The full statement (C101_full) is false of the code (C101_sets_behind_panics, C101_compressed_behind_panics). Proved for every nesting in which the back of an Exclusive contains no Associative and the Compressed under an Exclusive have 8 bytes to spare whatever the number of their elements; without pop if there is an Associative.')

L='Byoc.SeqCopyProps.'
claim('C102','partial',[L+x for x in ['C102_partial','copies_explained','C102_push_lost','C102_take_doubled','C102_false']]+['Byoc.SeqCells.compressed_copies'],'The full statement (C102_full) is false of the code (C102_push_lost). Proved for runs where no other thread takes a step between the unlock and the write-back of a written cell. An access to a cell is taken as one step; flush, take and pop are excluded as in C100.')

L='Byoc.F32Props.'
claim('C103','partial',[L+x for x in ['C103_finite','C103_error_partial','C103_exponent_partial','C103_rank_partial','C103_recency_partial','C103_cells','C103_order','C103_nan','C103_ties','C103_inverted','C103_overflow','C103_false']],'The full statement (C103_full) is false of the code (C103_inverted, C103_ties). IEEE 754 binary32 is modelled on rationals: 24 bits, subnormals, ties to even, overflow to infinity. The error bounds ask that the readings of the clock increase strictly between uses and that the exponent is between 1 and 2^126.')

L='Byoc.FileStreamProps.'
claim('C104','partial',[L+x for x in ['C104_seek','C104_write','C104_resize','C104_never_reads','C104_same_partial','C104_readable_partial','C104_differ','C104_false']],'The full statement (C104_full) is false of the code (C104_false, C104_differ). The disk is never full; clones, which share their cursor, are not part of this property (see C33).')

L='Byoc.LrfuBTreeProps.'
claim('C105','partial',[L+x for x in ['C105_self','C105_take_panics','C105_pop','C105_flush','C105_push','C105_rest_partial','C105_drift','C105_overfull','C105_false']],'The full statement (C105_full) is false of the code (C105_take_panics, C105_drift, C105_overfull). Elements have the default size of one, the clock is Counter, no other thread reads it, and at most 2^24 readings were made since the container was made (later, rounding makes scores equal, see C103). The nodes of the BTreeSet are searched in order, as in the standard library.')

L='Byoc.StreamLenProps.'
claim('C106','partial',[L+x for x in ['C106_vec_partial','C106_file_partial','C106_wrong','C106_false']],'The full statement (C106_full) is false of the code (C106_wrong). Errors of the disk are not modelled.')

L='Byoc.ElementSizeProps.'
claim('C107','partial',[L+x for x in ['C107_array_partial','C107_btree_partial','C107_wrong','C107_overfull','C107_false']],'The full statement (C107_full) is false of the code (C107_wrong, C107_overfull). Batches pushed into the BTree have distinct keys (see C10).')

L='Byoc.InclusiveHeldProps.'
claim('C108','partial',[L+x for x in ['C108_plain','C108_returns_partial','C108_btree_never_stale_partial','C108_btree_exact','C108_btree_returns_partial','C108_array_btree_partial','C108_sequential','C108_array_returns','C108_sequential_hangs','C108_batch_dangles','C108_false']],'The full statement (C108_full) is false of the code (C108_sequential_hangs, C108_batch_dangles). A call that waits for itself is written as one that panics. Over a BTree elements have size one where lookups are said to return.')

L='Byoc.BatchCacheProps.'
claim('C109','partial',[L+x for x in ['C109_partial','C109_pop_newest','C109_lru_last_used','C109_false']],'The full statement (C109_full) is false of the code (C109_false). Proved: C109_partial, for all numbers of Arrays, capacities and requests.')
L='Byoc.ProfilerTimeProps.'
claim('C110','partial',[L+x for x in ['C110_partial','C110_exact','C110_returns','C110_wrong','C110_false']],'The full statement (C110_full) is false of the code (C110_false). Proved: C110_partial, all but the times of hits and misses, which count every take_multiple; C110_exact, all the counters modulo 2^64. One thread; the times are inputs.')
L='Byoc.InclusiveCacheProps.'
claim('C111','partial',[L+x for x in ['C111_fifo_partial','C111_lru_partial','C111_evicts_last_read','C111_writes','C111_false']],'The full statement (C111_full) is false of the code for Lru (C111_false, C111_evicts_last_read). Proved: C111_fifo_partial (Fifo, all requests), C111_lru_partial (Lru with reads is a FIFO cache); C111_writes: with writes Lru is neither.')
L='Byoc.SeqWaitProps.'
claim('C112','partial',[L+x for x in ['C112_waits','C112_partial','C112_short','C112_completes','C112_one_thread','C112_starves','C112_false']],'The full statement (C112_full) is false of the code (C112_false: a cell that is held; C112_starves: readers that take turns). Proved: C112_waits, C112_partial, C112_completes. The operations of the outer lock are atomic steps (see C31 for the lock itself).')
L='Byoc.UnwindProps.'
claim('C113','partial',[L+x for x in ['C113_returns','C113_returns_btree','C113_returns_inclusive','C113_partial','C113_call_partial','C113_lookups_partial','C113_safe_partial','C113_array','C113_profiler','C113_btree_partial','C113_batch_false','C113_btree_take_false','C113_btree_push_false','C113_inclusive_false','C113_false_each','C113_false']],'The full statement (C113_full) is false of the code for Batch, BTree and Inclusive (C113_false_each). Proved: C113_partial, C113_call_partial and C113_lookups_partial for any assembly without BTree, Inclusive and Sequential; C113_safe_partial: the full property without Batch and Associative; C113_array: calls of an Array but take_multiple are atomic; C113_btree_partial: BTree with panics in pop and at the start of push. Not covered: panics of destructors, of comparisons inside a BTree, and what an interrupted flush iterator leaves.')
L='Byoc.StreamStackProps.'
claim('C114','partial',[L+x for x in ['C114_partial','C114_calls_partial','C114_associative_partial','C114_flush_loses','C114_take_multiple_copies','C114_false']],'The full statement (C114_full) is false of the code (C114_false). Proved for every nesting: C114_partial and C114_calls_partial for histories without take_multiple, and without flush when a Stream is inside; C114_associative_partial with Associative inside and without pop (which panics, C20). Serialisations produce at most 2^63 bytes; streams are in memory.')
L='Byoc.SpillProps.'
claim('C115','partial',[L+x for x in ['C115_partial','C115_recent_partial','C115_few_keys_partial','C115_useless_stream','C115_false']],'The full statement (C115_full) is false of the code (C115_false). Proved: C115_partial, the exact behaviour, for all tiers, capacities and requests; consequences C115_recent_partial, C115_few_keys_partial, C115_useless_stream. The stream is in memory and every element the requests may store takes the same number of bytes.')
L='Byoc.ServeSeqProps.'
claim('C116','partial',[L+x for x in ['C116_partial','C116_panics','C116_why','C116_direct','C116_completes','C116_push_loses','C116_false']],'The full statement (C116_full) is false of the code (C116_false: a local thread in the middle of a call kills the server thread; C116_push_loses). Proved: C116_partial, all of it as long as no call panics; C116_panics, what holds whatever panics; C116_completes. Messages are atomic, connections neither lose nor time out (bytes and timeouts: C43, C57; reconnections: C44, C58, C59).')
L='Byoc.FaultProps.'
claim('C117','partial',[L+x for x in ['C117_partial','C117_honest','C117_recovers','C117_lost','C117_panics','C117_blind','C117_confined','C117_torn','C117_twice','C117_short_take','C117_short_contains','C117_short_writes','C117_short_write_take','C117_false']],'The full statement (C117_full) is false of the code (C117_false: each of its three promises breaks). Proved: C117_partial, C117_honest and C117_recovers when only seeks and reads fail and reads are not short; C117_lost, C117_panics, C117_blind: what a failing write or seek does in every state; C117_short_writes: short writes that are no errors lose nothing in push; C117_confined for all failures. Cloning and creating streams do not fail; for flush, take_multiple, get and get_mut see C120.')

L='Byoc.CompressedFaultProps.'
claim('C118','partial',[L+x for x in ['C118_partial','C118_each','C118_recovers','C118_blind','C118_take_wipes','C118_push_wipes','C118_dead','C118_resize','C118_torn','C118_false']],'The full statement (C118_full) is false of the code (C118_false: a failed write makes take panic and loses everything inside). Proved: C118_partial for all histories and C118_each for all states and calls when reads and resizes fail; C118_blind: a failed read; C118_take_wipes, C118_push_wipes: a failed write, in every state; C118_dead: after a torn frame nothing is ever accepted or returned again; C118_resize. The reads of the decoder have one fate together, and so have the writes of the encoder.')

L='Byoc.StreamGetProps.'
claim('C119','partial',[L+x for x in ['C119_partial','C119_flat','C119_misses','C119_panics','C119_false']],'The full statement (C119_full) is false of the code (C119_false, C119_misses, C119_panics: Exclusive). Proved: C119_flat, all of it for nestings without Exclusive; C119_partial for every nesting, where an access may panic or miss. A cell is used once and dropped before the next call; histories are those of C114 (no take_multiple, no flush with a Stream inside, no Associative). For Exclusive tiers whose accesses always return see C12, C96, C101, C115.')

L='Byoc.CellFaultProps.'
claim('C120','partial',[L+x for x in ['C120_partial','C120_honest','C120_recovers','C120_readonly','C120_write_fails','C120_short_writes','C120_flush_loses','C120_poisoned','C120_torn','C120_false']],'The full statement (C120_full) is false of the code (C120_false, C120_torn). Proved: C120_partial, C120_honest and C120_recovers when only seeks and reads fail and reads are not short; C120_write_fails, C120_short_writes, C120_flush_loses: what failing or short operations do in every state; C120_readonly: what only reads changes nothing, for all failures and states; C120_poisoned: a chunk that does not decode stops pop for ever. That flush hands out only part of the contents and take_multiple only copies is C25, C26. A cell is dropped before the next call; cloning and creating streams do not fail.')

L='Byoc.SeqUnwindProps.'
claim('C121','partial',[L+x for x in ['C121_partial','C121_history_partial','C121_dead','C121_push','C121_flush','C121_take','C121_handle','C121_cell','C121_examples','C121_false']],'The full statement (C121_full) is false of the code (C121_false, C121_examples). Proved: C121_partial (and C121_history_partial, in terms of C113) as long as only capacity, size and contains panic and handles and cells survive; C121_dead, C121_push, C121_flush, C121_take, C121_handle, C121_cell: what every later call does after the other panics. Calls do not overlap (for calls that do see C35, C112); values are not written through the cells.')

L='Byoc.CloneProps.'
claim('C122','proved',[L+x for x in ['C122','C122_needs_shared_policy']],'Calls do not overlap (for calls that do see C35, C73, C82). Clones of keys, values and decoration factories are equal to them and share nothing. Containers that are neither Clone nor Concurrent are inside a Sequential as any container; Associative is not included. C122_needs_shared_policy: the condition on policies outside of the Sequential cannot be dropped.')

L='Byoc.StoreUnwindProps.'
claim('C123','partial',[L+x for x in ['C123_compressed_call','C123_compressed','C123_compressed_conserves','C123_stream_partial','C123_pop_loses','C123_flush_loses','C123_false']],'The full statement (C123_full) is false of the code for Stream (C123_false, C123_pop_loses, C123_flush_loses). Proved: C123_compressed, all of it for Compressed and every history; C123_stream_partial, for Stream and every history, everything but the elements lost by pops, which are elements they would have returned, and by flushes. Streams are VecStreams (failures of streams: C117, C118, C120); values written in the cells of a Stream take as many bytes as those they replace (see C26).')

L='Byoc.AccessUnwindProps.'
claim('C124','partial',[L+x for x in ['C124_history_partial','C124_access_partial','C124_read_partial','C124_afterwards_partial','C124_read_loses','C124_swap_loses','C124_false']],'The full statement (C124_full) is false of the code (C124_false, C124_read_loses, C124_swap_loses: Exclusive). Proved: C124_access_partial and C124_read_partial, of every access in the state after any history with panics: all of it for nestings without Exclusive, and all but the elements lost with Exclusive; C124_history_partial, for whole histories; C124_afterwards_partial: later accesses find what is there (elements of size 1, room in the fronts, no Batch). Sequential is excluded (C121). Values written keep the size of the element if a container measures it (see C101).')

L='Byoc.BTreeUnwindProps.'
claim('C125','partial',[L+x for x in ['C125_returns_partial','C125_history_partial','C125_access_partial','C125_get_breaks','C125_drop_loses','C125_false']],'The full statement (C125_full) is false of the code (C125_false, C125_get_breaks, C125_drop_loses). Proved: C125_access_partial, of every access in the state after any history (all of it when the user of the cell panics; exactly the element is lost when element_size panics at the drop); C125_history_partial, for whole histories. In the histories other calls panic as in C113 (Mild), element_size returns when an element is taken out for a cell (C125_get_breaks says why), comparisons return, sizes are positive and values written keep the size (see C68). A panic during the unwinding aborts the process: not modelled.')

L='Byoc.InclusiveUnwindProps.'
claim('C126','partial',[L+x for x in ['C126_returns_partial','C126_write_partial','C126_write_as_partial','C126_read_partial','C126_later_partial','C126_stale','C126_loses','C126_take_breaks','C126_false']],'The full statement (C126_full) is false of the code (C126_false, C126_stale, C126_loses, C126_take_breaks). Two Arrays that count elements, of any policies and capacities; histories of calls and accesses that push no key twice (see C14) and in which accesses of keys in the front or not stored may panic. Proved: for keys in the front or not stored, C126_write_partial; C126_read_partial and C126_write_as_partial (in every state): what follows is what it is without the access, or after a write that returned of the value the user left in the cell; C126_later_partial: no value is stale or invented in any history after it that returns; C126_returns_partial: accesses that return are those of the model without panics, in every state. Missing: accesses of keys only in the back (false).')
