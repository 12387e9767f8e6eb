# Formal model of ByoC in Lean 4 — design

(Made by tools/design.py from tools/design_head.md, properties.jsonl and MANIFEST.json.)

## 1. Trusted base

* Lean 4.33.0's kernel and the definitions of Lean core and Mathlib the statements use. No axiom is declared in
  this project; there is no `native_decide` or `bv_decide`. `decide +kernel` is used for concrete witnesses
  only: it is evaluation by the kernel. The axioms of each theorem are in section 6.
* My reading of /repo: the code is not run; each definition of `Verif/Model` cites the file and lines it models.
* The specifications: `Verif/Spec.lean` and the specification sections at the head of the `Verif/Props` files.
* Code outside the repository enters as *hypotheses* or concrete definitions, never as axioms:
  * `slice::sort*`: a `Sorter`, whose result is a permutation; where order matters the theorem takes the hypothesis
    that the result is sorted for the comparison. Instances are exhibited.
  * `Vec`, `BTreeMap`, `BTreeSet`, `VecDeque`, `HashMap`: lists (sorted lists for the trees).
  * serde/bincode: for streams and Compressed an abstract codec with `decode (encode x ++ rest) = some x`; for the
    socket messages the bincode 1.x default format, written from its documentation. LZ4: an abstract pair with
    `decompress (compress b) = b`.
  * toml and the derived `Deserialize`: the tree of values is the input of the model.
  * `TcpStream`/`TcpListener`: an environment that may cut, delay and split the bytes, and report errors.
  * atomics: each atomic operation is one indivisible step, sequentially consistent interleaving (Model/WeakLock: the lock with its memory
    orderings and stale reads, C99).
* `usize` is `Nat`: sums do not overflow; Model/Machine has the same containers on machine words, overflow panicking (debug) or
  wrapping (release), and C98 says when the two agree. A subtraction whose operands are not obviously ordered is an explicit panic when
  it underflows. The hasher, the lock word, the chunk sizes and the counter have 64 bit arithmetic.
* A panic is a value (`Res.panic`; in the concurrent models, a state of the thread, with what unwinding does to the
  locks). Rust's `&mut self` becomes a returned state. Iterators returned by `flush` are lists; the concurrent
  models and C37 account for their laziness where it can be observed.

## 2. Structure of the Lean project

* `Verif/Base.lean` — `Res`, permutations. `Verif/Spec.lean` — the `BuildingBlock` trait as a structure (`Block`), the
  contract (`Lawful` and its parts), accesses (`GetLawful`), histories.
* `Verif/Model/*.lean` — the model, function by function.
* `Verif/Proofs/*.lean` — invariants and lemmas.
* `Verif/Props/*.lean` — one theorem or more per property, with a concrete case meeting the hypotheses beside it.

What is a *false* property: the statement a user would rely on is kept (`Cnn_full`), refuted (`Cnn_false`, by a concrete
execution), and the part that is true is proved (`Cnn_partial`, `Cnn_exact`). Its status in MANIFEST.json is "partial".

## 3. Parts of the code modelled

| code | model | left out |
|------|-------|----------|
| src/traits, src/objsafe | `Block`, `Container`, DynConcurrent handles | lifetimes of guards |
| src/array, src/btree, src/exclusive, src/inclusive, src/batch, src/flush_stopper, src/profiler, src/decorator, src/associative: building_block.rs, get.rs | Model/Array, ElementSize, BTree, BTreeRc, Combinators, Get, Inclusive, InclusiveHeld, Policies, ProfilerTime (times, counters), Machine (machine words) | the clock (times are inputs). An access is one `get` followed by one dereference (Lru and Lrfu are touched by the dereference); Model/Cells: any number of dereferences, on Array and Compressed |
| src/associative/multiset_hasher.rs, src/utils/{log2,kmin,size}.rs | Model/Utils, Layers | |
| src/stream (io_vec, vec_stream, file_stream, stream, building_block, get) | Model/Stream, StreamLen, FileBacked, Handles, Faults, CellFaults | failures of clone and create |
| panics of user functions in src/*/building_block.rs | Model/Unwind, SeqUnwind (Sequential), StoreUnwind (Stream, Compressed, their get and get_mut), AccessUnwind, BTreeUnwind, InclusiveUnwind (get and get_mut of memory containers) | panics of destructors; of comparisons inside a BTree; in get and get_mut of the other containers |
| nestings over src/stream, src/compression | Model/StreamStack, StreamGet | cells held across calls in such nestings; files |
| src/compression | Model/Compressed, CompressedFaults | the bytes LZ4 produces |
| src/utils/lock.rs, shared_ptr.rs, src/sequential | Model/Lock, WeakLock, Sequential, SeqCells, SeqUnwind | weak memory elsewhere than in the lock |
| `Clone` and src/*/concurrent.rs | Model/CloneHeap (pointers), Sequential, ConcProfiler, ConcAssoc, ConcAssocSeq, ConcDecorator, Policies (clones) | in ConcProfiler, ConcDecorator and ConcAssoc the methods of the wrapped container are atomic (C76_refines justifies it for Sequential) |
| src/decorator/{fifo,lru,lrfu,default}.rs, src/utils/timestamp.rs | Model/Policies, Model/F32, Model/LrfuBTree | f32: exact rationals, but in C103 (no negative numbers there); counters unbounded but in C42; a clock is the sequence of its readings |
| src/socket | Model/Socket, Server, ServeSeq | elapsed time; responses of 2^64 elements or more |
| src/config, src/*/config.rs | Model/Config, ConfigText | environment: which files open, which addresses resolve |
| src/builder, src/*/builder.rs | Model/Builders, Layers | the sets of an Associative are built once and copied; capacities are below 2^63 |

Not modelled: memory safety of the `unsafe` cells beyond what C34 and C55 say, weak-memory effects outside of the lock, real time, log messages, performance,
`Debug`/`Display` output, macros and tests.

## 4. Properties

| id | property | status | model and proof | theorems |
|----|----------|--------|-----------------|----------|
| C01 | Array never exceeds its capacity | proved | `Array` over lists, `find_cut_at_size` as a right-to-left scan (Model/Array). One-step invariant and conservation as `List.Perm`, lifted to histories by induction. all capacities, size functions, sorting routines, histories | `ArrayProps.C01_array_bounded` |
| C02 | Array neither loses nor invents elements | proved | `Array` over lists, `find_cut_at_size` as a right-to-left scan (Model/Array). One-step invariant and conservation as `List.Perm`, lifted to histories by induction | `ArrayProps.C02_array_conserves_history`, `ArrayProps.C02_array_conserves_call` |
| C03 | Array size() is the sum of its elements' sizes | proved | `Array` over lists, `find_cut_at_size` as a right-to-left scan (Model/Array). One-step invariant and conservation as `List.Perm`, lifted to histories by induction | `ArrayProps.C03_array_size` |
| C04 | Array push stores everything that fits | proved | `Array` over lists, `find_cut_at_size` as a right-to-left scan (Model/Array). One-step invariant and conservation as `List.Perm`, lifted to histories by induction | `ArrayProps.C04_array_push` |
| C05 | Array pop frees enough, no more than needed, greatest values first | proved | `Array` over lists, `find_cut_at_size` as a right-to-left scan (Model/Array). One-step invariant and conservation as `List.Perm`, lifted to histories by induction | `ArrayProps.C05_array_pop` |
| C06 | Array lookups agree with removal | proved | `Array` over lists, `find_cut_at_size` as a right-to-left scan (Model/Array). One-step invariant and conservation as `List.Perm`, lifted to histories by induction | `ArrayProps.C06_array_take`, `ArrayProps.C06_array_take_multiple` |
| C07 | BTree obeys the container contract for batches without repeated keys | proved | `BTree` with its two indexes (sorted set of (value, key), sorted map) and its counter (Model/BTree). Invariant "both indexes hold the same pairs", refinement to a list of elements | `BTreeProps.C07_btree_contract`, `BTreeProps.C07_btree_lookup` |
| C08 | BTree holds at most one value per key and returns replaced ones | proved | `BTree` with its two indexes (sorted set of (value, key), sorted map) and its counter (Model/BTree). Invariant "both indexes hold the same pairs", refinement to a list of elements | `BTreeProps.C08_btree_one_per_key`, `BTreeProps.C08_btree_push`, `BTreeProps.C08_btree_push_fits` |
| C09 | BTree pop evicts the greatest values | proved | `BTree` with its two indexes (sorted set of (value, key), sorted map) and its counter (Model/BTree). Invariant "both indexes hold the same pairs", refinement to a list of elements | `BTreeProps.C09_btree_pop` |
| C10 | BTree push is safe for any batch | false of the code; true part proved | same model; refutation with a concrete batch, C07 is the positive part. The full statement (C10_full, C10_rc_full) is false of the code: refuted by C10_false, C10_rc_false. Proved for distinct keys; for any batch, exactly what is lost while no call panics, and which calls never panic (model with reference counters). | `BTreeProps.C10_partial`, `BTreeProps.C10_false`, `BTreeProps.C10_loses`, `BTreeRcProps.C10_any_partial`, `BTreeRcProps.C10_distinct_partial`, `BTreeRcProps.C10_pop_panics`, `BTreeRcProps.C10_overfull`, `BTreeRcProps.C10_wrong_victim`, `BTreeRcProps.C10_rc_false` |
| C11 | Exclusive obeys the container contract whenever its two levels do | proved | combinators as functions on `Block`s (Model/Combinators); each preserves the contract `Lawful`. for every two containers satisfying the contract | `CombProps.C11_exclusive_history`, `CombProps.C11_exclusive_contract`, `CombProps.C11_exclusive_flush` |
| C12 | Exclusive get moves the element to the front without losing anything | proved | `get` of Exclusive as the code moves elements (Model/Get); case analysis on fill levels | `CombProps.C12_exclusive_get` |
| C13 | Exclusive keeps no duplicates between levels | false of the code; true part proved | same; refutation, and an invariant "keys disjoint" for fresh histories. The full statement (C13_full) is false of the code (refuted by C13_false: push a key whose first copy is in the back). Proved for histories that never push a key already stored. | `CombProps.C13_partial`, `CombProps.C13_false` |
| C14 | Inclusive take/pop never panic and never lose elements | false of the code; true part proved | `Inclusive` with the cloned/updated flags (Model/Inclusive); invariants on the flags; refutations. The full statement (C14_full) is false of the code: C14_false, C14_panics_*, C14_loses (a front eviction leaves the back cell flagged as copied). Proved: histories without accesses (any capacities, duplicate keys allowed), and all fresh histories when the front is as large as the back. | `InclusiveProps.C14_partial`, `InclusiveProps.C14_partial_no_access`, `InclusiveProps.C14_false`, `InclusiveProps.C14_panics_take`, `InclusiveProps.C14_panics_pop`, `InclusiveProps.C14_loses` |
| C15 | Inclusive hands back the latest written value | proved | `Inclusive` with the cloned/updated flags (Model/Inclusive); invariants on the flags; refutations | `InclusiveProps.C15_never_stale`, `InclusiveProps.C15_write_then_take` |
| C16 | Batch obeys the container contract whenever its batches do | proved | combinators as functions on `Block`s (Model/Combinators); each preserves the contract `Lawful` | `CombProps.C16_batch_history`, `CombProps.C16_batch_contract`, `CombProps.C16_batch_flush` |
| C17 | Batch push offers elements to every batch before rejecting | proved | loops of `Batch` over any number of batches; induction on the batches | `CombProps.C17_batch_push` |
| C18 | FlushStopper hides flush and nothing else | proved | combinators as functions on `Block`s (Model/Combinators); each preserves the contract `Lawful` | `CombProps.C18_flushStopper_call`, `CombProps.C18_flushStopper_history`, `CombProps.C18_flushStopper_contract` |
| C19 | Associative keeps every key in its own set | proved | `Associative` over n sets and any hash; routing invariant | `AssocProps.C19_associative_history`, `AssocProps.C19_associative_contract`, `AssocProps.C19_associative_lookup` |
| C20 | Associative pop frees the requested size without panicking | false of the code; true part proved | `Associative.pop` as written; refutations and the branches that work. The full statement (C20_full) is false of the code: C20_false, and with one set every pop(n) with 0<n<size panics (C20_single_set_panics). Proved: pop(0) and pop(n>=size) behave; exactly when pop returns and when it panics (C20_exact): with m sets it panics whenever at least m+1+m(m-1)/2 is to be left (C20_large_panics); and whenever pop returns it conserves elements and placement. | `AssocProps.C20_partial_extremes`, `AssocProps.C20_partial_conserves`, `AssocProps.C20_exact`, `AssocProps.C20_large_panics`, `AssocProps.C20_single_set_panics`, `AssocProps.C20_false` |
| C21 | Stacked set-associative layers use disjoint hash bits | proved | 64 bit masks as `Nat`/`BitVec` arithmetic (Model/Utils); bit lemmas, induction over chains | `UtilsProps.C21_exclusive_hashers`, `UtilsProps.C21_all_sets_reached` |
| C22 | log2 and chunk sizing are exact | proved | 64 bit masks as `Nat`/`BitVec` arithmetic (Model/Utils); bit lemmas, induction over chains. chunk_size for sizes up to 2^63 (above it the shift panics) | `UtilsProps.C22_log2`, `UtilsProps.C22_chunk_size`, `UtilsProps.C22_chunk_size_zero` |
| C23 | KMin keeps the top elements to a total size | false of the code; true part proved | `KMin` as a sorted list; invariant: a suffix of the sorted list of all that was pushed. The full statement (C23_full) is false of the code: more than needed may be kept (C23_false). Proved: the greatest elements are kept, enough of them, and no more than needed when sizes are equal. | `UtilsProps.C23_partial`, `UtilsProps.C23_equal_sizes`, `UtilsProps.C23_false` |
| C24 | IOVec behaves as a vector of serialised values | false of the code; true part proved | byte level `VecStream` and `IOVec` (Model/Stream); refinement to a list of values. The full statement (C24_full) is false of the code: append reverses, iteration is truncated for chunk sizes below 8192 not dividing it, swap_remove past the end drops the last element. Proved for single appends, removals of existing elements, chunk sizes that divide 8192 or are at least 8192. | `StreamProps.C24_partial`, `StreamProps.C24_append_reversed`, `StreamProps.C24_iteration_truncated`, `StreamProps.C24_swap_remove_past`, `StreamProps.C24_false` |
| C25 | ByteStream never exceeds its capacity | proved | `ByteStream` over its size classes, down to bytes; refinement, refutations | `StreamProps.C25_size_and_capacity` |
| C26 | ByteStream push, take and pop lose nothing | proved | `ByteStream` over its size classes, down to bytes; refinement, refutations. get_mut proved for values that serialise to the same chunk; C26_longer_write_corrupts shows why | `StreamProps.C26_conserves`, `StreamProps.C26_calls`, `StreamProps.C26_accesses`, `StreamProps.C26_longer_write_corrupts` |
| C27 | ByteStream take_multiple and flush really move elements out | false of the code; true part proved | `ByteStream` over its size classes, down to bytes; refinement, refutations. The full statement (C27_full) is false of the code: take_multiple returns copies and removes nothing, flush after push returns nothing. | `StreamProps.C27_partial`, `StreamProps.C27_false`, `StreamProps.C27_flush_loses` |
| C28 | Compressed never exceeds its capacity and its writes never fail | false of the code; true part proved | `Compressed`: bytes, sizes of headers, decoding (Model/Compressed); arithmetic invariant; refutations. The full statement (C28_full) is false of the code: take_multiple panics when a key is stored twice (C28_false). Proved for all calls but take_multiple with any batches, and for all calls and accesses on histories that never push a stored key. | `CompressedProps.C28_partial`, `CompressedProps.C28_partial_distinct`, `CompressedProps.C28_longer_write_panics`, `CompressedProps.C28_false` |
| C29 | Compressed loses and invents nothing | proved | `Compressed`: bytes, sizes of headers, decoding (Model/Compressed); arithmetic invariant; refutations | `CompressedProps.C29_conserves`, `CompressedProps.C29_calls`, `CompressedProps.C29_push_nothing_evicts` |
| C30 | Compressed take_multiple is consistent with its key list | false of the code; true part proved | `Compressed`: bytes, sizes of headers, decoding (Model/Compressed); arithmetic invariant; refutations. The full statement (C30_full) is false of the code when a key is stored twice (C30_panics, C30_drops_key). Proved when stored keys are distinct. | `CompressedProps.C30_partial`, `CompressedProps.C30_false`, `CompressedProps.C30_panics`, `CompressedProps.C30_drops_key` |
| C31 | RWLock excludes writers from everyone | proved | `RWLock` as a transition system of atomic steps, any number of threads, spurious failures (Model/Lock); inductive invariant over schedules. atomic-step transition system, any number of threads, spurious failures and panics included in C31_mutual_exclusion and C31_count; fewer than 2^62 shared accesses at a time | `LockProps.C31_mutual_exclusion`, `LockProps.C31_count`, `LockProps.C31_exact` |
| C32 | RWLock poison is sticky and blocks acquisition | proved | `RWLock` as a transition system of atomic steps, any number of threads, spurious failures (Model/Lock); inductive invariant over schedules. for balanced unlocks; C32_unbalanced_unlock shows that an unbalanced unlock removes the poison | `LockProps.C32_poison_sticky`, `LockProps.C32_unbalanced_unlock` |
| C33 | A temporary FileStream file is deleted exactly when the last handle goes | false of the code; true part proved | reference counting by the lock (Model/Handles); invariant over interleaved clone/drop steps. The full statement (C33_full) is false of the code: a handle dropped by a panicking thread poisons the counter and the file is never removed. Proved: removed at most once, never under a live handle or after do_not_delete; removed by the last drop in runs without panic or spurious failure. | `HandleProps.C33_partial`, `HandleProps.C33_panic_leaks`, `HandleProps.C33_spurious_leaks`, `HandleProps.C33_false` |
| C34 | Dynamic concurrent handles never free the container under a live handle | false of the code; true part proved | reference counting by the lock (Model/Handles); invariant over interleaved clone/drop steps. The full statement (C34_full) is false of the code: the container is never freed (C34_never_freed). Proved: no use after free and no double free. | `HandleProps.C34_partial`, `HandleProps.C34_never_freed`, `HandleProps.C34_false` |
| C35 | Sequential serialises concurrent calls | false of the code; true part proved | `Sequential` calls as interleaved try-lock steps, cells that keep the lock (Model/Sequential); invariant, linearisation; schedules that refute. The full statement (C35_full) is false of the code: calls panic under contention (C35_contention_panics), and a push after such a panic loses its elements (C35_push_loses). Proved: every execution is linearizable, panics included; a panic happens only under contention, after a panic, or if the container panics. | `SequentialProps.C35_partial`, `SequentialProps.C35_exclusive`, `SequentialProps.C35_why_panic`, `SequentialProps.C35_skip_after_panic`, `SequentialProps.C35_contention_panics`, `SequentialProps.C35_push_loses`, `SequentialProps.C35_false` |
| C36 | Profiler is transparent | proved | combinators as functions on `Block`s (Model/Combinators); each preserves the contract `Lawful` | `CombProps.C36_profiler_sound`, `CombProps.C36_profiler_transparent` |
| C37 | Profiler counts are exact | proved | counters of `Profiler`; equality with a count over the history. one profiler handle; elapsed times and the width of the counters: C110. flush_iter counts the final call of next too; pop counts the size freed. | `ProfilerProps.C37_exact`, `ProfilerProps.C37_balance`, `ProfilerProps.C37_reset` |
| C38 | Decorator is a transparent wrapper | proved | combinators as functions on `Block`s (Model/Combinators); each preserves the contract `Lawful` | `CombProps.C38_decorator_contract`, `CombProps.C38_decorator_history` |
| C39 | Fifo evicts in insertion order | proved | decorations with a clock (Model/Policies); invariant relating stamps or statistics to the history of uses. Array decorated with Fifo; single handle (see C56 for clones) | `PolicyProps.C39_fifo` |
| C40 | Lru evicts the least recently used | proved | decorations with a clock (Model/Policies); invariant relating stamps or statistics to the history of uses. Array decorated with Lru. Over containers whose cells are copies (Compressed, Stream) time stamps written by get are lost: not covered | `PolicyProps.C40_lru`, `PolicyProps.C40_lru_monotone` |
| C41 | Lrfu orders elements consistently | false of the code; true part proved | scores as exact rationals; algebra; refutations. The full statement (C41_full) is false of the code: a comparison reads the clock twice. Proved when the clock does not advance between the two readings. Exact rationals for f32. | `PolicyProps.C41_partial`, `PolicyProps.C41_off_by_elapsed`, `PolicyProps.C41_less_than_itself`, `PolicyProps.C41_not_transitive`, `PolicyProps.C41_recent_frequent`, `PolicyProps.C41_false` |
| C42 | Counter timestamps are unique and increasing | proved | the global counter as one atomic step per call; induction over the schedule | `PolicyProps.C42_counter`, `PolicyProps.C42_wraps` |
| C43 | A remote container behaves as a local one | false of the code; true part proved | bytes on the wire, client, server, reconnection (Model/Socket, Model/Server); simulation, invariants, refutations. The full statement (C43_full) is false of the code: when the read timeout strikes inside a request the bytes already read are forgotten and the rest is taken for other requests. Proved, byte by byte, when no pause falls inside a request; calls complete (C43_completes). | `SocketProps.C43_partial`, `SocketProps.C43_completes`, `SocketProps.C43_contract`, `SocketProps.C43_slow_network_loses`, `SocketProps.C43_slow_network_kills`, `SocketProps.C43_false` |
| C44 | The server accepts a bounded number of connections | false of the code; true part proved | bytes on the wire, client, server, reconnection (Model/Socket, Model/Server); simulation, invariants, refutations. The bound is proved for every history (C44_bounded). "Stops only on request" (in C44_full) is false of the code: a connection reset or a client gone before its response panics the server (C44_reset_kills); proved for polite clients. | `SocketProps.C44_bounded`, `SocketProps.C44_partial`, `SocketProps.C44_reset_kills`, `SocketProps.C44_false` |
| C45 | A configuration that validates builds a container of the announced capacity | proved | TOML values, validation and construction (Model/Config); structural induction, refutations. toml and derived Deserialize trusted. An accepted configuration builds iff the files and servers it names are available (C45_builds_iff). | `ConfigProps.C45_accepts_iff`, `ConfigProps.C45_invalid_refused`, `ConfigProps.C45_builds_iff`, `ConfigProps.C45_capacity`, `ConfigProps.C45_config_builds`, `ConfigProps.C45_builder_builds`, `ConfigProps.C45_builder_accepts_iff` |
| C46 | Concurrency announced by a configuration | false of the code; true part proved | TOML values, validation and construction (Model/Config); structural induction, refutations. The full statement (C46_full) is false of the code: a nested GenericConfig always says it is not concurrent. Proved: exactly Sequential and the empty Associative are announced concurrent; what is not concurrent is refused. | `ConfigProps.C46_partial`, `ConfigProps.C46_flag_iff`, `ConfigProps.C46_nested_refused`, `ConfigProps.C46_builder`, `ConfigProps.C46_false` |
| C47 | Any stack of building blocks obeys the contract | proved | syntax of nestings and its denotation (Model/Stack, Model/MapStack); structural induction with one theorem per building block | `StackProps.C47_stack_history`, `StackProps.C47_stack_history_associative`, `StackProps.C47_stack_history_returns`, `StackProps.C47_stack_lookup` |
| C48 | A write through get_mut is seen by later reads and touches nothing else | proved | accesses as functions on elements (Model/Get); direct | `StackProps.C48_write_then_read`, `StackProps.C48_stack`, `StackProps.C48_array_first` |
| C49 | take_multiple equals repeated take | proved | accesses as functions on elements (Model/Get); direct | `StackProps.C49_take_multiple_is_takes` |
| C50 | VecStream is a byte file | proved | byte level `VecStream` and `IOVec` (Model/Stream); refinement to a list of values. seek is cut to the file (a file would allow seeking past the end) | `StreamProps.C50_write`, `StreamProps.C50_read`, `StreamProps.C50_seek`, `StreamProps.C50_resize`, `StreamProps.C50_history`, `StreamProps.C50_stale_handle_panics` |
| C51 | Exclusive puts new elements in front and evicts from the back first | proved | `Exclusive` push and pop; case analysis | `CombProps.C51_exclusive_push_front_first`, `CombProps.C51_exclusive_pop_back_first` |
| C52 | Profiler adds no panic | false of the code; true part proved | Profiler over any container; exact cause of the underflow. Full statement (C52_full) is false of the code (C52_false). Proved when take_multiple returns at most one element per requested key. | `CombProps.C52_partial`, `CombProps.C52_false` |
| C53 | Histories mixing get/get_mut with every other call | proved | syntax of nestings and its denotation (Model/Stack, Model/MapStack); structural induction with one theorem per building block | `StackProps.C53_stack_calls`, `StackProps.C53_stack_calls_associative` |
| C54 | A released RWLock can be taken again | false of the code; true part proved | `RWLock` as a transition system of atomic steps, any number of threads, spurious failures (Model/Lock); inductive invariant over schedules. The full statement (C54_full) is false of the code: a spurious failure in unlock leaves the lock taken forever (C54_leak). Proved when no weak compare-and-exchange fails spuriously. | `LockProps.C54_partial`, `LockProps.C54_leak`, `LockProps.C54_false` |
| C55 | A cell obtained from a Sequential stays valid | false of the code; true part proved | `Sequential` calls as interleaved try-lock steps, cells that keep the lock (Model/Sequential); invariant, linearisation; schedules that refute. The full statement (C55_full) is false of the code: flush empties the container under a live cell (C55_dangling). Proved for push and get_mut, and for flush and get against get_mut cells. | `SequentialProps.C55_partial`, `SequentialProps.C55_partial_waits`, `SequentialProps.C55_dangling`, `SequentialProps.C55_false` |
| C56 | Fifo order holds across clones of a container | false of the code; true part proved | clones of a decorated container; refutation and a simulation by one handle. The full statement (C56_full) is false of the code: Fifo::clone copies the counter. Proved when one handle makes all the pushes. | `PolicyProps.C56_partial`, `PolicyProps.C56_false` |
| C57 | Messages survive the wire | proved | bytes on the wire, client, server, reconnection (Model/Socket, Model/Server); simulation, invariants, refutations. bincode 1.x default format, from its documentation (the dependency is not in the sandbox) | `SocketProps.C57_wire`, `SocketProps.C57_unambiguous` |
| C58 | A server told to stop ends | false of the code; true part proved | bytes on the wire, client, server, reconnection (Model/Socket, Model/Server); simulation, invariants, refutations. The full statement (C58_full) is false of the code: try_reconnect does not set the read timeout. Proved on the first connection. | `SocketProps.C58_partial`, `SocketProps.C58_hangs`, `SocketProps.C58_false` |
| C59 | Each client gets the responses to its own requests | false of the code; true part proved | bytes on the wire, client, server, reconnection (Model/Socket, Model/Server); simulation, invariants, refutations. The full statement (C59_full) is false of the code in the branch that resends after reconnecting. Proved when no write reports UnexpectedEof. | `SocketProps.C59_partial`, `SocketProps.C59_stale`, `SocketProps.C59_false` |
| C60 | The configuration of a builder describes the container it builds | false of the code; true part proved | builders and their configurations (Model/Builders); structural induction. The full statement (C60_full) is false of the code: DecoratorConfig and InclusiveConfig are not among the configurations GenericConfig knows. Proved, exactly, for the other builders. Capacities below 2^63 (TOML integers). | `BuilderProps.C60_partial`, `ConfigTextProps.C60_text_partial`, `BuilderProps.C60_accepted_iff`, `BuilderProps.C60_nested_panics`, `BuilderProps.C60_false` |
| C61 | A container built from a configuration serves every history | false of the code; true part proved | TOML values, validation and construction (Model/Config); structural induction, refutations. The full statement (C61_full) is false of the code: an empty Associative is accepted and panics. Proved for Array leaves and non empty Associatives (without pop under an Associative, see C20), with any decorator. | `ConfigProps.C61_partial`, `ConfigProps.C61_partial_builder`, `ConfigProps.C61_empty_associative`, `ConfigProps.C61_false` |
| C62 | The decorator of a configuration is the one asked for | false of the code; true part proved | TOML values, validation and construction (Model/Config); structural induction, refutations. The full statement (C62_full) is false of the code: the exponent is read from a field named decorator.Lrfu.exponent. Proved: the kind is honoured, the exponent is always 1. | `BuilderProps.C62_partial`, `BuilderProps.C62_false` |
| C63 | Containers counting elements hand back exactly the excess | proved | syntax of nestings and its denotation (Model/Stack, Model/MapStack); structural induction with one theorem per building block. shapes without Associative (an Associative hands back elements while other sets have room) | `ExactProps.C63_push_exact`, `ExactProps.C63_push_one_stays` |
| C64 | Containers counting elements evict exactly what is asked | false of the code; true part proved | syntax of nestings and its denotation (Model/Stack, Model/MapStack); structural induction with one theorem per building block. The full statement (C64_full) is false of the code for n = 0 (pop(0) evicts an element of an Array). Proved for n > 0. | `ExactProps.C64_partial`, `ExactProps.C64_false` |
| C65 | Batch evicts from the most recently filled batches first | proved | loops of `Batch` over any number of batches; induction on the batches | `CombProps.C65_batch_pop_last_first`, `CombProps.C65_batch_pop_order` |
| C66 | A layered associative container built from a configuration can be filled | false of the code; true part proved | TOML values, validation and construction (Model/Config); structural induction, refutations. The full statement (C66_full) is false of the code: all layers of a configuration use the same hash. C66_exact gives the exact maximum; proved to fill up for pairwise coprime numbers of sets. | `LayerProps.C66_exact`, `LayerProps.C66_partial`, `LayerProps.C66_false` |
| C67 | A layered associative container made by the builder can be filled | proved | layers of hashers and sets (Model/Layers); counting argument. Arrays counting elements at the bottom | `LayerProps.C67_builder_layers_fill` |
| C68 | get and get_mut on a BTree change one value only | false of the code; true part proved | BTree and Array accesses and evictions; exact conditions. The full statement (C68_full) is false of the code. C68_exact gives the exact condition of the panic; proved for positive sizes that writes do not change. | `BTreeProps.C68_exact`, `BTreeProps.C68_partial`, `BTreeProps.C68_access_partial`, `BTreeProps.C68_false` |
| C69 | push on Array and BTree evicts no more than needed | proved | BTree and Array accesses and evictions; exact conditions. BTree: batches without repeated keys | `EvictProps.C69_array_push_minimal`, `EvictProps.C69_btree_push_minimal` |
| C70 | Compressed push stores what fits | false of the code; true part proved | `Compressed`: bytes, sizes of headers, decoding (Model/Compressed); arithmetic invariant; refutations. The full statement (C70_full) is false of the code by the 8 bytes of a vector length. C70_partial gives the exact behaviour of push, with minimality. | `EvictProps.C70_partial`, `EvictProps.C70_false` |
| C71 | Lrfu goes from frequency to recency as its exponent grows | false of the code; true part proved | scores as exact rationals; algebra; refutations. The full statement (C71_full) is false of the code for exponent 1: the policy is then first in, first out (C71_exponent_one). Proved for large exponents, with the closed form of the score. Exact rationals for f32; both scores read at the same time (see C41). | `LrfuProps.C71_made`, `LrfuProps.C71_score`, `LrfuProps.C71_access`, `LrfuProps.C71_exponent_one`, `LrfuProps.C71_partial`, `LrfuProps.C71_false` |
| C72 | Any nesting of all the building blocks serves every history of fresh keys | false of the code; true part proved | syntax of nestings and its denotation (Model/Stack, Model/MapStack); structural induction with one theorem per building block. The full statement (C72_full) is false of the code: flush of an Inclusive over a Compressed panics (C72_flush_panics). Proved for all other shapes (no pop below an Associative, see C20). | `MapStackProps.C72_partial`, `MapStackProps.C72_distinct`, `MapStackProps.C72_flush_panics`, `MapStackProps.C72_false`, `MapStackProps.C72_stale_take` |
| C73 | A profiler can be shared by threads | false of the code; true part proved | Profiler shared by threads: steps of the statistics lock interleaved with container calls (Model/ConcProfiler); invariant over schedules. The full statement (C73_full) is false of the code (C73_lost, C73_poisons). The methods of the wrapped container are atomic steps in the model. The pop statistic, a difference of sizes, is covered only for calls that do not overlap. | `ConcProfilerProps.C73_partial`, `ConcProfilerProps.C73_read_partial`, `ConcProfilerProps.C73_order_partial`, `ConcProfilerProps.C73_alone_partial`, `ConcProfilerProps.C73_serial_partial`, `ConcProfilerProps.C73_why_partial`, `ConcProfilerProps.C73_poisoned`, `ConcProfilerProps.C73_poisons`, `ConcProfilerProps.C73_lost`, `ConcProfilerProps.C73_false`, `ConcProfilerProps.C73_witness` |
| C74 | An associative container can be shared by threads | false of the code; true part proved | Associative shared by threads: programs of calls on sets, one atomic step each (Model/ConcAssoc); invariant, linearisation points, refutation. The full statement (C74_full) is false of the code: size() adds sizes read at different moments (C74_false). The methods of a set are atomic steps in the model. | `ConcAssocProps.C74_partial`, `ConcAssocProps.C74_conserves_partial`, `ConcAssocProps.C74_key_partial`, `ConcAssocProps.C74_serial_partial`, `ConcAssocProps.C74_capacity_partial`, `ConcAssocProps.C74_false`, `ConcAssocProps.C74_witness` |
| C75 | Threads using different sets of an Associative of Sequential containers do not disturb each other | false of the code; true part proved | Associative of Sequential: every lock operation of every set is a step (Model/ConcAssocSeq); simulation by the model of C74; refutations. The full statement (C75_full) is false of the code: push calls every set. Proved when neither of the two calls is a push, and as long as no call panicked before. | `ConcAssocSeqProps.C75_partial`, `ConcAssocSeqProps.C75_false`, `ConcAssocSeqProps.C75_witness` |
| C76 | An Associative of Sequential containers shared by threads keeps every element | false of the code; true part proved | Associative of Sequential: every lock operation of every set is a step (Model/ConcAssocSeq); simulation by the model of C74; refutations. The full statement (C76_full) is false of the code: calls panic under contention, and after a panic a push on any set loses its elements (C76_loses). Proved as long as no call panics. | `ConcAssocSeqProps.C76_partial`, `ConcAssocSeqProps.C76_refines_partial`, `ConcAssocSeqProps.C76_false`, `ConcAssocSeqProps.C76_loses`, `ConcAssocSeqProps.C76_witness` |
| C77 | An Array decorated with Lrfu evicts the elements of greatest rank | proved | decorations with a clock (Model/Policies); invariant relating stamps or statistics to the history of uses. Exact rationals for f32; the sorting routine compares scores read at the same time (see C41), for which the order does not depend on the time; each access dereferences its cell once. | `LrfuHistProps.C77_lrfu_evicts`, `LrfuHistProps.C77_exponent_one`, `LrfuHistProps.C77_witness` |
| C78 | A builder builds what it describes | proved | builders and their configurations (Model/Builders); structural induction. The sets of an Associative are built once and copied; the hash is a parameter (see C67 for hashers). | `BuilderProps.C78_build`, `BuilderProps.C78_witness` |
| C79 | A Stream container stored in files behaves like one stored in memory | false of the code; true part proved | files with their open options (Model/FileBacked); simulation by the container in memory; invariant; refutation. The full statement (C79_full) is false of the code: FileStream::new opens the file without read permission and reading fails. A failing read on a file not opened for reading is the operating system behaviour assumed by the model. | `FileProps.C79_partial`, `FileProps.C79_calls_partial`, `FileProps.C79_push_partial`, `FileProps.C79_flush_loses`, `FileProps.C79_config`, `FileProps.C79_example`, `FileProps.C79_false` |
| C80 | A Compressed container stored in a file behaves like one stored in memory | false of the code; true part proved | files with their open options (Model/FileBacked); simulation by the container in memory; invariant; refutation. The full statement (C80_full) is false of the code, for the same reason as C79; the lz4 decoder is assumed to read its stream and to forward the error. | `FileProps.C80_partial`, `FileProps.C80_config`, `FileProps.C80_example`, `FileProps.C80_false` |
| C81 | The eviction order of a decorated container shared by threads respects the order of the pushes | proved | threads sharing a decorator, one step per decorated element (Model/ConcDecorator); invariant on stamps against call and return times; ghost list of records; refutation over all orders. The calls on the Sequential container are atomic steps, or panic without effect under contention (see C35); for Lru with a counter whose readings increase. | `ConcDecoratorProps.C81_fifo`, `ConcDecoratorProps.C81_lru`, `ConcDecoratorProps.C81_config` |
| C82 | A decorated container shared by threads behaves as if the calls were made one after the other | false of the code; true part proved | threads sharing a decorator, one step per decorated element (Model/ConcDecorator); invariant on stamps against call and return times; ghost list of records; refutation over all orders. The full statement (C82_full) is false of the code: overlapping pushes (C82_false), take_multiple (C82_take_multiple). Proved for executions without either. The calls on the decorated container are atomic steps, or panic without effect under contention (see C35). | `ConcDecoratorProps.C82_partial`, `ConcDecoratorProps.C82_conserved_partial`, `ConcDecoratorProps.C82_panics_partial`, `ConcDecoratorProps.C82_take_multiple`, `ConcDecoratorProps.C82_clash`, `ConcDecoratorProps.C82_false` |
| C83 | Each use of a looked up value counts as one access | proved | lookups whose cell is used any number of times (Model/Cells); ranking of stored elements by last lasting use as an invariant; concrete run for the refutation. Lru and Fifo claims for writes that do not change the size of the element. | `CellProps.C83_each_use_is_a_lookup`, `CellProps.C83_lru`, `CellProps.C83_fifo` |
| C84 | A Compressed container decorated with Fifo evicts the oldest elements | proved | lookups whose cell is used any number of times (Model/Cells); ranking of stored elements by last lasting use as an invariant; concrete run for the refutation. The claim on push is for elements that can be serialised (see C29 for others). | `CellProps.C84_fifo_compressed` |
| C85 | A Compressed container decorated with Lru evicts the least recently used elements | false of the code; true part proved | lookups whose cell is used any number of times (Model/Cells); ranking of stored elements by last lasting use as an invariant; concrete run for the refutation. The full statement (C85_full) is false of the code: reading does not count as a use (C85_false). Proved for the order of pushes and writes. | `CellProps.C85_partial`, `CellProps.C85_false` |
| C86 | A Stream container decorated with Fifo evicts the oldest elements | false of the code; true part proved | lookups whose cell is used any number of times (Model/Cells); ranking of stored elements by last lasting use as an invariant; concrete run for the refutation. The full statement (C86_full) is false of the code: push refuses new elements instead of evicting old ones (C86_false). Proved for pop, and exactly what push does. Writes keep the size class of the serialised element (see C26). | `StreamPolicyProps.C86_partial`, `StreamPolicyProps.C86_false` |
| C87 | A Stream container decorated with Lru evicts the least recently used elements | false of the code; true part proved | lookups whose cell is used any number of times (Model/Cells); ranking of stored elements by last lasting use as an invariant; concrete run for the refutation. The full statement (C87_full) is false of the code: reading does not count as a use (C87_false). Proved for the order of pushes and writes. | `StreamPolicyProps.C87_partial`, `StreamPolicyProps.C87_false` |
| C88 | A configuration written is read back | false of the code; true part proved | configuration types other than ConfigBuilder, texts as TOML values with i64 integers, as_config with its unwraps, SocketServerConfig (Model/ConfigText); on top of the proofs of C45, C60, C61 and C43. The full statement (C88_full) is false of the code for ConfigBuilder (C88_builder). Proved for all the other types. A text is modelled by its TOML value, integers in the range of i64. | `ConfigTextProps.C88_partial`, `ConfigTextProps.C88_same_partial`, `ConfigTextProps.C88_builder`, `ConfigTextProps.C88_id_unchecked`, `ConfigTextProps.C88_false` |
| C89 | as_config() of a builder can be built | false of the code; true part proved | configuration types other than ConfigBuilder, texts as TOML values with i64 integers, as_config with its unwraps, SocketServerConfig (Model/ConfigText); on top of the proofs of C45, C60, C61 and C43. The full statement (C89_full) is false of the code (C89_nested_panics, C89_large). Proved, exactly, for the others. | `ConfigTextProps.C89_partial`, `ConfigTextProps.C89_as_config`, `ConfigTextProps.C89_nested_panics`, `ConfigTextProps.C89_large`, `ConfigTextProps.C89_example`, `ConfigTextProps.C89_false` |
| C90 | A server configuration serves the container it describes | false of the code; true part proved | configuration types other than ConfigBuilder, texts as TOML values with i64 integers, as_config with its unwraps, SocketServerConfig (Model/ConfigText); on top of the proofs of C45, C60, C61 and C43. The full statement (C90_full) is false of the code: the decorator of the container is ignored (C90_decorator_ignored, C90_false). Proved without decorator. | `ConfigTextProps.C90_partial`, `ConfigTextProps.C90_stays_up`, `ConfigTextProps.C90_decorator_ignored`, `ConfigTextProps.C90_one_connection`, `ConfigTextProps.C90_from_builder`, `ConfigTextProps.C90_example`, `ConfigTextProps.C90_false` |
| C91 | A Stream container announced as concurrent can be shared by threads | false of the code; true part proved | Model/ConcStream: interleaving of the accesses of several threads to one Stream; invariants over runs of any length in Proofs/ConcStream; concrete runs for the refutations. The full statement (C91_full) is false of the code in each of its parts (C91_false_parts). Proved in all schedules: what is in C91_partial; with one consumer at a time: all but the capacity. The model takes single accesses to the streams as atomic, which the code does not ensure (data race). | `ConcStreamProps.C91_partial`, `ConcStreamProps.C91_one_consumer_partial`, `ConcStreamProps.C91_take_finds_partial`, `ConcStreamProps.C91_alone`, `ConcStreamProps.C91_over_capacity`, `ConcStreamProps.C91_wrong_key`, `ConcStreamProps.C91_panic_and_loss`, `ConcStreamProps.C91_silent_loss`, `ConcStreamProps.C91_false_parts`, `ConcStreamProps.C91_false` |
| C92 | A multi-level Exclusive cache decorated with Lru evicts the least recently used elements | false of the code; true part proved | Stack.Tiered: Exclusive over Arrays to any depth; invariant by induction on the shape and on histories: each level is before the next in the order of values, except for an element just moved to the front (Proofs/Tiers); Ranked (Proofs/Policies) relates values and last uses. The full statement (C92_full) is false of the code: a lookup whose cell is not used (C92_false). Proved when every cell is used, for strictly increasing clocks and, up to equal readings, for any clock. | `TierProps.C92_lru_tiers_partial`, `TierProps.C92_lru_tiers_monotone_partial`, `TierProps.C92_false` |
| C93 | A multi-level Exclusive cache decorated with Fifo evicts the oldest elements | false of the code; true part proved | Stack.Tiered: Exclusive over Arrays to any depth; invariant by induction on the shape and on histories: each level is before the next in the order of values, except for an element just moved to the front (Proofs/Tiers); Ranked (Proofs/Policies) relates values and last uses. The full statement (C93_full) is false of the code with lookups (C93_false). Proved without lookups. | `TierProps.C93_fifo_tiers_partial`, `TierProps.C93_false` |
| C94 | An Lru cache of any depth is a textbook LRU cache | proved | textbook LRU and FIFO as lists of keys (Proofs/Recent); the container refines them, by induction on the requests, from the invariants of C92 and C83. Every Exclusive has room for an element in its front level (see C12). | `CacheProps.C94_lru_is_textbook`, `CacheProps.C94_lru_most_recent`, `CacheProps.C94_larger_is_better` |
| C95 | A Fifo cache is a textbook FIFO cache | proved | textbook LRU and FIFO as lists of keys (Proofs/Recent); the container refines them, by induction on the requests, from the invariants of C92 and C83. For Exclusive levels see C93: lookups change the order. | `CacheProps.C95_fifo_is_textbook`, `CacheProps.C95_belady` |
| C96 | A container in front of a memory is transparent | false of the code; true part proved | a memory as a function, write-back protocol, and the memory alone as specification; invariant: the container overrides the memory. The full statement (C96_full, already for an Inclusive of two Arrays) is false of the code. Elements of size 1 in the Arrays, room in the front of each Exclusive, no pop with an Associative (see C20). | `MemoryProps.C96_stacks_partial`, `MemoryProps.C96_btree_partial`, `MemoryProps.C96_compressed_partial`, `MemoryProps.C96_inclusive_partial`, `MemoryProps.C96_inclusive_loses`, `MemoryProps.C96_stream_loses`, `MemoryProps.C96_false` |
| C97 | A set-associative cache is a textbook cache set by set | proved | the caches of C94 and C95 for each set, on the requests for its keys; simulation set by set, the clock being shared or not. pop is excluded (see C20). Sets decorated one by one each read a strictly increasing clock of their own. | `SetProps.C97_lru`, `SetProps.C97_fifo`, `SetProps.C97_lru_sets` |
| C98 | Sizes and capacities are exact on a 64 bit machine | false of the code; true part proved | the containers again with a record of machine operations (overflow panics, or wraps); equality with the model under a bound, by structural induction on the stack. The full statement (C98_machine_full) is false of the code. The counters of Profiler stay unbounded. | `MachineProps.C98_machine_partial`, `MachineProps.C98_total_partial`, `MachineProps.C98_contract_partial`, `MachineProps.C98_btree_partial`, `MachineProps.C98_associative_pop_partial`, `MachineProps.C98_debug_panics_false`, `MachineProps.C98_release_overfull_false`, `MachineProps.C98_machine_false`, `MachineProps.C98_capacity_false` |
| C99 | The lock orders memory | proved | the lock again as the list of the values of its word (modification order), threads reading any value not older than what they know; happens-before defined on the trace; invariant: every access is published, still protected, or the lock is dead. Happens-before as in C++20: program order and release sequences of read-modify-write operations. SeqCst is taken as AcqRel, which allows more executions. A thread unlocks only what it locked; fewer than 2^62 shared accesses at a time. | `WeakLockProps.C99_race_free`, `WeakLockProps.C99_in_order`, `WeakLockProps.C99_mutual_exclusion`, `WeakLockProps.C99_includes_sc` |
| C100 | Threads holding cells of a shared container see a sequential execution | false of the code; true part proved | cells as values of their own (position or owned element), dropping a cell in two steps after the unlock; invariant on the lock and the threads: who holds a cell, and what it points to; schedules refuting the rest. The full statement (C100_full) is false of the code in each of its parts. Proved for containers whose cells are plain pointers (Pins: Arrays under Batch, Associative and FlushStopper) and calls that remove nothing but what push evicts. An access to a cell is taken as one step. | `SeqCellProps.C100_partial`, `SeqCellProps.C100_array_partial`, `SeqCellProps.C100_associative_partial`, `SeqCellProps.C100_btree_hidden`, `SeqCellProps.C100_btree_false`, `SeqCellProps.C100_exclusive_dangling`, `SeqCellProps.C100_btree_race`, `SeqCellProps.C100_btree_drop_panics`, `SeqCellProps.C100_array_flush`, `SeqCellProps.C100_btree_alone_partial`, `SeqCellProps.C100_false`, `SeqCells.array_pins`, `SeqCells.batch_pins`, `SeqCells.associative_pins`, `SeqCells.flushStopper_pins` |
| C101 | Any nesting of all the building blocks serves lookups and writes | false of the code; true part proved | any nesting of building blocks with accesses: an inductive type of container types (Model/MapStack), exchange laws of each block (a full container gives one element for another of the same size), cell laws, induction on the shape and on the history (Props/MapGetProps). The full statement (C101_full) is false of the code (C101_sets_behind_panics, C101_compressed_behind_panics). Proved for every nesting in which the back of an Exclusive contains no Associative and the Compressed under an Exclusive have 8 bytes to spare whatever the number of their elements; without pop if there is an Associative. | `MapGetProps.C101_partial`, `MapGetProps.C101_sets_behind_panics`, `MapGetProps.C101_compressed_behind_panics`, `MapGetProps.C101_false` |
| C102 | Threads may hold cells of a shared Compressed container | false of the code; true part proved | cells as copies: two containers, the one stored and the one it becomes once written cells are dropped; invariant that at most one thread has a written cell; schedules refuting the rest. The full statement (C102_full) is false of the code (C102_push_lost). Proved for runs where no other thread takes a step between the unlock and the write-back of a written cell. An access to a cell is taken as one step; flush, take and pop are excluded as in C100. | `SeqCopyProps.C102_partial`, `SeqCopyProps.copies_explained`, `SeqCopyProps.C102_push_lost`, `SeqCopyProps.C102_take_doubled`, `SeqCopyProps.C102_false`, `SeqCells.compressed_copies` |
| C103 | Lrfu ranks elements in single precision as it does in exact arithmetic | false of the code; true part proved | IEEE 754 binary32 on rationals (nearest, ties to even, subnormals, overflow); relative error of one operation, then induction on the uses, against the exact score with a perturbed exponent. The full statement (C103_full) is false of the code (C103_inverted, C103_ties). IEEE 754 binary32 is modelled on rationals: 24 bits, subnormals, ties to even, overflow to infinity. The error bounds ask that the readings of the clock increase strictly between uses and that the exponent is between 1 and 2^126. | `F32Props.C103_finite`, `F32Props.C103_error_partial`, `F32Props.C103_exponent_partial`, `F32Props.C103_rank_partial`, `F32Props.C103_recency_partial`, `F32Props.C103_cells`, `F32Props.C103_order`, `F32Props.C103_nan`, `F32Props.C103_ties`, `F32Props.C103_inverted`, `F32Props.C103_overflow`, `F32Props.C103_false` |
| C104 | A stream on a file is a stream of bytes as one in memory is | false of the code; true part proved | the operations of both streams with what they return; simulation for operations staying in the file, and for the vector of elements with a file open for reading. The full statement (C104_full) is false of the code (C104_false, C104_differ). The disk is never full; clones, which share their cursor, are not part of this property (see C33). | `FileStreamProps.C104_seek`, `FileStreamProps.C104_write`, `FileStreamProps.C104_resize`, `FileStreamProps.C104_never_reads`, `FileStreamProps.C104_same_partial`, `FileStreamProps.C104_readable_partial`, `FileStreamProps.C104_differ`, `FileStreamProps.C104_false` |
| C105 | A BTree decorated with Lrfu works as any decorated container | false of the code; true part proved | each comparison takes two readings of the counter; invariant: the ordered set holds the cells from the newest to the oldest, so a search of a held cell stops at it or one before and never finds it. The full statement (C105_full) is false of the code (C105_take_panics, C105_drift, C105_overfull). Elements have the default size of one, the clock is Counter, no other thread reads it, and at most 2^24 readings were made since the container was made (later, rounding makes scores equal, see C103). The nodes of the BTreeSet are searched in order, as in the standard library. | `LrfuBTreeProps.C105_self`, `LrfuBTreeProps.C105_take_panics`, `LrfuBTreeProps.C105_pop`, `LrfuBTreeProps.C105_flush`, `LrfuBTreeProps.C105_push`, `LrfuBTreeProps.C105_rest_partial`, `LrfuBTreeProps.C105_drift`, `LrfuBTreeProps.C105_overfull`, `LrfuBTreeProps.C105_false` |
| C106 | Asking a stream for its length tells it and changes nothing | false of the code; true part proved | the two provided methods of the trait on the streams of C50 and C104. The full statement (C106_full) is false of the code (C106_wrong). Errors of the disk are not modelled. | `StreamLenProps.C106_vec_partial`, `StreamLenProps.C106_file_partial`, `StreamLenProps.C106_wrong`, `StreamLenProps.C106_false` |
| C107 | The size of elements can be changed on an empty container | false of the code; true part proved | the size function is a parameter of the model, so changing it is running the same state with another one; the invariant holds for it if and only if the sizes agree. The full statement (C107_full) is false of the code (C107_wrong, C107_overfull). Batches pushed into the BTree have distinct keys (see C10). | `ElementSizeProps.C107_array_partial`, `ElementSizeProps.C107_btree_partial`, `ElementSizeProps.C107_wrong`, `ElementSizeProps.C107_overfull`, `ElementSizeProps.C107_false` |
| C108 | Lookups in an Inclusive return and see the last value, whatever is behind | false of the code; true part proved | the cell of the back level is a value kept during the write-back and released after it (Model/InclusiveHeld); weak invariant of C15, write-back has room for what it holds. The full statement (C108_full) is false of the code (C108_sequential_hangs, C108_batch_dangles). A call that waits for itself is written as one that panics. Over a BTree elements have size one where lookups are said to return. | `InclusiveHeldProps.C108_plain`, `InclusiveHeldProps.C108_returns_partial`, `InclusiveHeldProps.C108_btree_never_stale_partial`, `InclusiveHeldProps.C108_btree_exact`, `InclusiveHeldProps.C108_btree_returns_partial`, `InclusiveHeldProps.C108_array_btree_partial`, `InclusiveHeldProps.C108_sequential`, `InclusiveHeldProps.C108_array_returns`, `InclusiveHeldProps.C108_sequential_hangs`, `InclusiveHeldProps.C108_batch_dangles`, `InclusiveHeldProps.C108_false` |
| C109 | A Batch decorated with Fifo used as a cache is a FIFO cache | false of the code; true part proved | potential: how many pushes until the elements older than a given moment are gone; it goes down with each push in full Arrays. The full statement (C109_full) is false of the code (C109_false). Proved: C109_partial, for all numbers of Arrays, capacities and requests. | `BatchCacheProps.C109_partial`, `BatchCacheProps.C109_pop_newest`, `BatchCacheProps.C109_lru_last_used`, `BatchCacheProps.C109_false` |
| C110 | The times of a Profiler are those of the calls | false of the code; true part proved | the calls, their outcomes and times are inputs (Model/ProfilerTime); exact counters by induction on the history from its end. The full statement (C110_full) is false of the code (C110_false). Proved: C110_partial, all but the times of hits and misses, which count every take_multiple; C110_exact, all the counters modulo 2^64. One thread; the times are inputs. | `ProfilerTimeProps.C110_partial`, `ProfilerTimeProps.C110_exact`, `ProfilerTimeProps.C110_returns`, `ProfilerTimeProps.C110_wrong`, `ProfilerTimeProps.C110_false` |
| C111 | An Inclusive decorated with a policy and used as a cache follows the policy | false of the code; true part proved | invariant on the elements of both levels: the back holds, in order of arrival, what the textbook cache holds; copies in front are marked in the back and hold the value last written (Proofs/InclusiveCache). The full statement (C111_full) is false of the code for Lru (C111_false, C111_evicts_last_read). Proved: C111_fifo_partial (Fifo, all requests), C111_lru_partial (Lru with reads is a FIFO cache); C111_writes: with writes Lru is neither. | `InclusiveCacheProps.C111_fifo_partial`, `InclusiveCacheProps.C111_lru_partial`, `InclusiveCacheProps.C111_evicts_last_read`, `InclusiveCacheProps.C111_writes`, `InclusiveCacheProps.C111_false` |
| C112 | Calls on a shared Sequential complete | false of the code; true part proved | the last event of each thread in the history determines how it can hold the lock (Proofs/SeqWait); with the counting invariant of C35 a thread that cannot step has a holder; a measure bounds the steps. The full statement (C112_full) is false of the code (C112_false: a cell that is held; C112_starves: readers that take turns). Proved: C112_waits, C112_partial, C112_completes. The operations of the outer lock are atomic steps (see C31 for the lock itself). | `SeqWaitProps.C112_waits`, `SeqWaitProps.C112_partial`, `SeqWaitProps.C112_short`, `SeqWaitProps.C112_completes`, `SeqWaitProps.C112_one_thread`, `SeqWaitProps.C112_starves`, `SeqWaitProps.C112_false` |
| C113 | Containers stay usable when functions of the user panic | false of the code; true part proved | each method is a computation that consumes one fate per place where user functions are called and leaves a state when it panics (Model/Unwind); it is the method of the other models when nothing panics (Proofs/Unwind), and induction on the assembly shows what each panic keeps (Proofs/UnwindKept). The full statement (C113_full) is false of the code for Batch, BTree and Inclusive (C113_false_each). Proved: C113_partial, C113_call_partial and C113_lookups_partial for any assembly without BTree, Inclusive and Sequential; C113_safe_partial: the full property without Batch and Associative; C113_array: calls of an Array but take_multiple are atomic; C113_btree_partial: BTree with panics in pop and at the start of push. Not covered: panics of destructors, of comparisons inside a BTree, and what an interrupted flush iterator leaves. | `UnwindProps.C113_returns`, `UnwindProps.C113_returns_btree`, `UnwindProps.C113_returns_inclusive`, `UnwindProps.C113_partial`, `UnwindProps.C113_call_partial`, `UnwindProps.C113_lookups_partial`, `UnwindProps.C113_safe_partial`, `UnwindProps.C113_array`, `UnwindProps.C113_profiler`, `UnwindProps.C113_btree_partial`, `UnwindProps.C113_batch_false`, `UnwindProps.C113_btree_take_false`, `UnwindProps.C113_btree_push_false`, `UnwindProps.C113_inclusive_false`, `UnwindProps.C113_false_each`, `UnwindProps.C113_false` |
| C114 | Any nesting over serialised storage keeps the contract | false of the code; true part proved | the contract of the calls allowed is carried by the container with take_multiple replaced by takes and flush by nothing (patch), which every combinator preserves because its other calls use only those of its parts (Proofs/StreamStack); induction on the nesting.. The full statement (C114_full) is false of the code (C114_false). Proved for every nesting: C114_partial and C114_calls_partial for histories without take_multiple, and without flush when a Stream is inside; C114_associative_partial with Associative inside and without pop (which panics, C20). Serialisations produce at most 2^63 bytes; streams are in memory. | `StreamStackProps.C114_partial`, `StreamStackProps.C114_calls_partial`, `StreamStackProps.C114_associative_partial`, `StreamStackProps.C114_flush_loses`, `StreamStackProps.C114_take_multiple_copies`, `StreamStackProps.C114_false` |
| C115 | A memory over a Stream, with Lru, is an LRU cache of their total capacity | false of the code; true part proved | refinement to a pair of lists of keys (spillStep: an LRU list over a list that only grows while there is room); the stamps of the cells are a function of the key, the last reading of the clock at which it was used (Proofs/Spill); the stream is used through an interface (Shelf) that it satisfies when all elements take the same room; the consequences are lists only.. The full statement (C115_full) is false of the code (C115_false). Proved: C115_partial, the exact behaviour, for all tiers, capacities and requests; consequences C115_recent_partial, C115_few_keys_partial, C115_useless_stream. The stream is in memory and every element the requests may store takes the same number of bytes. | `SpillProps.C115_partial`, `SpillProps.C115_recent_partial`, `SpillProps.C115_few_keys_partial`, `SpillProps.C115_useless_stream`, `SpillProps.C115_false` |
| C116 | Remote clients and local threads can share a container | false of the code; true part proved | transition system of threads of a Sequential, some of which are server threads with a client; invariant relating the events so far with where each thread and its client are; the steps on the container are a run of Model/Sequential, so C35 applies; counterexamples by evaluation of a schedule. The full statement (C116_full) is false of the code (C116_false: a local thread in the middle of a call kills the server thread; C116_push_loses). Proved: C116_partial, all of it as long as no call panics; C116_panics, what holds whatever panics; C116_completes. Messages are atomic, connections neither lose nor time out (bytes and timeouts: C43, C57; reconnections: C44, C58, C59). | `ServeSeqProps.C116_partial`, `ServeSeqProps.C116_panics`, `ServeSeqProps.C116_why`, `ServeSeqProps.C116_direct`, `ServeSeqProps.C116_completes`, `ServeSeqProps.C116_push_loses`, `ServeSeqProps.C116_false` |
| C117 | A Stream survives failures of its streams | false of the code; true part proved | each operation of a stream has a fate (success, error, short); the methods as computations that keep the state they leave however they end; induction over the loops and histories; counterexamples by evaluation. The full statement (C117_full) is false of the code (C117_false: each of its three promises breaks). Proved: C117_partial, C117_honest and C117_recovers when only seeks and reads fail and reads are not short; C117_lost, C117_panics, C117_blind: what a failing write or seek does in every state; C117_short_writes: short writes that are no errors lose nothing in push; C117_confined for all failures. Cloning and creating streams do not fail; for flush, take_multiple, get and get_mut see C120. | `FaultProps.C117_partial`, `FaultProps.C117_honest`, `FaultProps.C117_recovers`, `FaultProps.C117_lost`, `FaultProps.C117_panics`, `FaultProps.C117_blind`, `FaultProps.C117_confined`, `FaultProps.C117_torn`, `FaultProps.C117_twice`, `FaultProps.C117_short_take`, `FaultProps.C117_short_contains`, `FaultProps.C117_short_writes`, `FaultProps.C117_short_write_take`, `FaultProps.C117_false` |
| C118 | A Compressed container whose stream fails keeps its elements | false of the code; true part proved | Model/CompressedFaults: the methods of Compressed with their error paths, in the monad of Model/Faults; each call is compared with the model without failures, then induction over the history. The full statement (C118_full) is false of the code (C118_false: a failed write makes take panic and loses everything inside). Proved: C118_partial for all histories and C118_each for all states and calls when reads and resizes fail; C118_blind: a failed read; C118_take_wipes, C118_push_wipes: a failed write, in every state; C118_dead: after a torn frame nothing is ever accepted or returned again; C118_resize. The reads of the decoder have one fate together, and so have the writes of the encoder. | `CompressedFaultProps.C118_partial`, `CompressedFaultProps.C118_each`, `CompressedFaultProps.C118_recovers`, `CompressedFaultProps.C118_blind`, `CompressedFaultProps.C118_take_wipes`, `CompressedFaultProps.C118_push_wipes`, `CompressedFaultProps.C118_dead`, `CompressedFaultProps.C118_resize`, `CompressedFaultProps.C118_torn`, `CompressedFaultProps.C118_false` |
| C119 | Accesses through any nesting over serialised storage find and change what they should | false of the code; true part proved | Model/StreamGet: get and get_mut of the nestings of Model/StreamStack; a law of accesses that may fail, preserved by every wrapper (Proofs/StreamGet), by induction over the nesting; then induction over the history. The full statement (C119_full) is false of the code (C119_false, C119_misses, C119_panics: Exclusive). Proved: C119_flat, all of it for nestings without Exclusive; C119_partial for every nesting, where an access may panic or miss. A cell is used once and dropped before the next call; histories are those of C114 (no take_multiple, no flush with a Stream inside, no Associative). For Exclusive tiers whose accesses always return see C12, C96, C101, C115. | `StreamGetProps.C119_partial`, `StreamGetProps.C119_flat`, `StreamGetProps.C119_misses`, `StreamGetProps.C119_panics`, `StreamGetProps.C119_false` |
| C120 | Accesses, take_multiple and flush of a Stream survive failures of its streams | false of the code; true part proved | Model/CellFaults: get, get_mut with the drop of its cell, take_multiple and flush in the monad of Model/Faults; each loop is compared with the model without failures; a frame property (searches do not use the fates of writes) for the theorems on failing writes. The full statement (C120_full) is false of the code (C120_false, C120_torn). Proved: C120_partial, C120_honest and C120_recovers when only seeks and reads fail and reads are not short; C120_write_fails, C120_short_writes, C120_flush_loses: what failing or short operations do in every state; C120_readonly: what only reads changes nothing, for all failures and states; C120_poisoned: a chunk that does not decode stops pop for ever. That flush hands out only part of the contents and take_multiple only copies is C25, C26. A cell is dropped before the next call; cloning and creating streams do not fail. | `CellFaultProps.C120_partial`, `CellFaultProps.C120_honest`, `CellFaultProps.C120_recovers`, `CellFaultProps.C120_readonly`, `CellFaultProps.C120_write_fails`, `CellFaultProps.C120_short_writes`, `CellFaultProps.C120_flush_loses`, `CellFaultProps.C120_poisoned`, `CellFaultProps.C120_torn`, `CellFaultProps.C120_false` |
| C121 | A shared Sequential survives panics of functions of the user | false of the code; true part proved | Model/SeqUnwind: the outer lock, the poison flags and the cells of a Sequential over any container with panicking functions (Model/Unwind); an invariant of histories without serious panics, and invariants of what follows each kind of panic. The full statement (C121_full) is false of the code (C121_false, C121_examples). Proved: C121_partial (and C121_history_partial, in terms of C113) as long as only capacity, size and contains panic and handles and cells survive; C121_dead, C121_push, C121_flush, C121_take, C121_handle, C121_cell: what every later call does after the other panics. Calls do not overlap (for calls that do see C35, C112); values are not written through the cells. | `SeqUnwindProps.C121_partial`, `SeqUnwindProps.C121_history_partial`, `SeqUnwindProps.C121_dead`, `SeqUnwindProps.C121_push`, `SeqUnwindProps.C121_flush`, `SeqUnwindProps.C121_take`, `SeqUnwindProps.C121_handle`, `SeqUnwindProps.C121_cell`, `SeqUnwindProps.C121_examples`, `SeqUnwindProps.C121_false` |
| C122 | Copies are independent of the container, handles are the container | proved | Model/CloneHeap: memory with pointers, copies and handles by recursion on the nesting; Proofs/CloneHeap: two values are apart (no common pointer) or the same; the invariant relates memory and handles to a list of independent containers. Calls do not overlap (for calls that do see C35, C73, C82). Clones of keys, values and decoration factories are equal to them and share nothing. Containers that are neither Clone nor Concurrent are inside a Sequential as any container; Associative is not included. C122_needs_shared_policy: the condition on policies outside of the Sequential cannot be dropped. | `CloneProps.C122`, `CloneProps.C122_needs_shared_policy` |
| C123 | Stream and Compressed survive panics of user functions | false of the code; true part proved | Model/StoreUnwind: the methods of Stream and Compressed as computations in which user functions may panic; agreement with the models without panics, what a panic leaves for every point of every method, induction over histories. The full statement (C123_full) is false of the code for Stream (C123_false, C123_pop_loses, C123_flush_loses). Proved: C123_compressed, all of it for Compressed and every history; C123_stream_partial, for Stream and every history, everything but the elements lost by pops, which are elements they would have returned, and by flushes. Streams are VecStreams (failures of streams: C117, C118, C120); values written in the cells of a Stream take as many bytes as those they replace (see C26). | `StoreUnwindProps.C123_compressed_call`, `StoreUnwindProps.C123_compressed`, `StoreUnwindProps.C123_compressed_conserves`, `StoreUnwindProps.C123_stream_partial`, `StoreUnwindProps.C123_pop_loses`, `StoreUnwindProps.C123_flush_loses`, `StoreUnwindProps.C123_false` |
| C124 | Accesses in memory containers survive panics of user functions | false of the code; true part proved | Model/AccessUnwind: get and get_mut of the memory containers and the use of their cells as computations in which user functions may panic; agreement with the models without panics, a law (UseLaw) of what an access that panics leaves, by induction over nestings, then over histories. The full statement (C124_full) is false of the code (C124_false, C124_read_loses, C124_swap_loses: Exclusive). Proved: C124_access_partial and C124_read_partial, of every access in the state after any history with panics: all of it for nestings without Exclusive, and all but the elements lost with Exclusive; C124_history_partial, for whole histories; C124_afterwards_partial: later accesses find what is there (elements of size 1, room in the fronts, no Batch). Sequential is excluded (C121). Values written keep the size of the element if a container measures it (see C101). | `AccessUnwindProps.C124_history_partial`, `AccessUnwindProps.C124_access_partial`, `AccessUnwindProps.C124_read_partial`, `AccessUnwindProps.C124_afterwards_partial`, `AccessUnwindProps.C124_read_loses`, `AccessUnwindProps.C124_swap_loses`, `AccessUnwindProps.C124_false` |
| C125 | Accesses of a BTree survive panics of user functions | false of the code; true part proved | Model/BTreeUnwind: the accesses of BTree as computations in which user functions may panic; agreement with the model without panics, exactly what each panic leaves, induction over histories. The full statement (C125_full) is false of the code (C125_false, C125_get_breaks, C125_drop_loses). Proved: C125_access_partial, of every access in the state after any history (all of it when the user of the cell panics; exactly the element is lost when element_size panics at the drop); C125_history_partial, for whole histories. In the histories other calls panic as in C113 (Mild), element_size returns when an element is taken out for a cell (C125_get_breaks says why), comparisons return, sizes are positive and values written keep the size (see C68). A panic during the unwinding aborts the process: not modelled. | `BTreeUnwindProps.C125_returns_partial`, `BTreeUnwindProps.C125_history_partial`, `BTreeUnwindProps.C125_access_partial`, `BTreeUnwindProps.C125_get_breaks`, `BTreeUnwindProps.C125_drop_loses`, `BTreeUnwindProps.C125_false` |
| C126 | Accesses of an Inclusive survive panics of user functions | false of the code; true part proved | Model/InclusiveUnwind: the accesses of Inclusive, and the copy from the back to the front, as computations in which user functions may panic; agreement with the model without panics, what each panic leaves, the invariant of C14. The full statement (C126_full) is false of the code (C126_false, C126_stale, C126_loses, C126_take_breaks). Two Arrays that count elements, of any policies and capacities; histories of calls and accesses that push no key twice (see C14) and in which accesses of keys in the front or not stored may panic. Proved: for keys in the front or not stored, C126_write_partial; C126_read_partial and C126_write_as_partial (in every state): what follows is what it is without the access, or after a write that returned of the value the user left in the cell; C126_later_partial: no value is stale or invented in any history after it that returns; C126_returns_partial: accesses that return are those of the model without panics, in every state. Missing: accesses of keys only in the back (false). | `InclusiveUnwindProps.C126_returns_partial`, `InclusiveUnwindProps.C126_write_partial`, `InclusiveUnwindProps.C126_write_as_partial`, `InclusiveUnwindProps.C126_read_partial`, `InclusiveUnwindProps.C126_later_partial`, `InclusiveUnwindProps.C126_stale`, `InclusiveUnwindProps.C126_loses`, `InclusiveUnwindProps.C126_take_breaks`, `InclusiveUnwindProps.C126_false` |

## 5. What the proofs found in the code

Each is a theorem (in brackets) or follows from one; all are about the pinned commit.

* BTree: a batch with a repeated key loses the earlier elements of this key, later calls of pop or push may panic, `size()` may exceed the capacity and
  pop may evict the least element (C10); dropping a cell panics when the element fills the container beside
  elements of size 0, or when the written value is larger (C68).
* Array: `get_mut` does not update the size; `pop(0)` on a non empty Array evicts its greatest element (C64).
* Exclusive: duplicates between levels (C13); `take_multiple` with a repeated key removes a further duplicate; over an Associative front
  the remaining keys are unsorted and binary search may miss some.
  An access to an element of the back panics when the back is an Associative and the set of the element it is exchanged with is full, or a
  Compressed without 8 spare bytes (C101).
* Inclusive: a front eviction leaves the back cell flagged as copied: later take, pop or flush panics or loses elements (C14); over
  Compressed the flag is lost so that `take` returns the stale value (C72_stale_take) and `flush` panics when nearly full (C72_flush_panics).
* Inclusive over a Sequential: a lookup waits for itself when the front evicts an element that was written to; over a Batch of BTrees the
  cell of the back is dropped into a freed tree (C108).
* Associative: `pop` panics for every 0 < n < size with one set and with m sets whenever at least m+1+m(m-1)/2 would be left, that is for almost every pop of a
  large cache (C20_exact, C20_large_panics); it sorts by index instead of size.
* A Batch decorated with Fifo loses the order of arrival while it fills up (C109).
* readers that take turns on a Sequential make `push` wait for ever; a thread holding a cell that pushes through a clone waits for itself (C112).
* Panics of `element_size`: a Batch loses containers and capacity in push, a BTree loses its size in take and exceeds its capacity in push, an Inclusive keeps copies of lost elements (C113).
* A Stream anywhere in a nesting: flush of an Array in front of it loses the elements of the Array, take_multiple duplicates elements (C114).
* Lru over a memory and a Stream: the Stream never evicts; once full of keys nobody requests it serves no purpose (C115).
* A server over a clone of a Sequential: a local thread in the middle of a call makes the server thread, and its client, panic; after a panic a client's push is lost silently (C116).
* Failing streams under a Stream: a failed write loses the element silently (or panics from 8192 bytes on), a torn write corrupts its successors, a failed resize duplicates the last element and loses the one taken, a short read makes take lose the element, a failed seek in size() lets push exceed the capacity (C117).
* Failing streams under a Compressed: a failed write in take, pop, push or get_mut loses the whole contents, a torn one makes the container useless for ever; a failed read makes calls answer as if it were empty (C118).
* Exclusive over serialised storage: `get` misses elements its front has no room for, and panics when what leaves the front does not fit behind (C119).
* A write of a Stream's cell that is cut in the middle leaves a chunk that does not decode: from then on `pop` and lookups panic, whatever works again; a failed read in `flush` loses everything (C120).
* A Sequential does not survive panics: after a `push` or `get_mut` that panicked every call on every handle waits for ever, after other calls (except `capacity`, `size`, `contains`) the elements are never reached again, and when the unwinding drops a handle or a cell, later `push`es lose their elements silently (C121).
* A `pop` of a Stream in which a deserialisation panics after elements were removed loses those, and a `flush` in which one panics loses everything; Compressed is atomic (C123).
* A read that panics (`element_size` or a comparison, in the front of an Exclusive) loses the element read, or the one the front evicted for it (C124).
* A `get` of a BTree in which `element_size` panics loses the element and leaves its size and its entry in the set: the next `pop` panics (C125).
* A read of an Inclusive during whose copy to the front a function of the user panics can undo the write of another element, lose that element, or mark its own element so that `take` panics (C126).
* Lru over an Inclusive is a FIFO cache: reads are not seen by the back level, which evicts what was just read (C111).
* Profiler: the time of every take_multiple is counted as time of hits and of misses (C110).
* Batch/Profiler: a profiler over containers holding a key twice underflows (C52).
* KMin keeps more than needed (C23). IOVec: `append` of several reverses, iteration truncated, `swap_remove` past the end drops the last (C24).
* ByteStream: `take_multiple` returns copies, flush after push returns nothing (C27); a longer write through `get_mut` corrupts the next
  element (C26_longer_write_corrupts).
* Compressed: `take_multiple` panics or forgets keys when a key is stored twice (C28, C30); push counts a second header, so a batch that fits may
  evict (C70).
* Files: FileStream opens its file for writing only: a Stream on files panics at the first call that is not a push once it stores something (C79), a
  Compressed on a file refuses everything (C80); both configurations always build such containers (C79_config, C80_config).
* FileStream and VecStream differ on seeks outside of the file and on writes after a cut, and FileStream never reads (C104).
* StreamBase::is_empty is true when there are bytes; it and len move the cursor to the end (C106).
* with_element_size is accepted by an Array or a BTree holding elements of size 0; sizes are then wrong and take panics (C107).
* BTree decorated with Lrfu: comparing a cell with itself gives less, as each score reads the clock; every take, get or push of a held key panics, and
  pop evicts one element too many without counting it, until size() exceeds the capacity and push panics (C105).  For the same reason the order of
  LrfuCell is not total (cmp(a, b) may be equal and cmp(b, a) less), which recent versions of `sort` may answer with a panic.
* RWLock: a spurious failure of the weak compare-and-exchange in unlock leaves the lock taken forever (C54); an unbalanced unlock clears the poison
  (C32_unbalanced_unlock).
* Handles: a temporary file is never removed after a panic (C33); a DynConcurrent container is never freed (C34).
* Sequential: contention panics instead of waiting; after a panic push silently drops elements (C35); flush empties the container under a live
  cell (C55).
* Cells of a Sequential: `get` takes a shared lock only, yet a BTree cell removes its element (other threads do not find it) and `get` on an
  Exclusive moves elements under the cells of other threads, which then show another key's value; a dropped cell unlocks before its element
  goes back, so the drop may panic and lose an element pushed meanwhile (C100). A written cell of a Compressed overwrites, after the unlock, all that others stored meanwhile (C102).
* Concurrent Profiler: two counting threads make one panic and lose what it took; a pop overlapping a push poisons the statistics for
  ever (C73). Concurrent Associative: `size()` may exceed what was ever held (C74); push calls every set, so pushes to different sets
  contend, and a panic poisons all sets (C75, C76).
* `DynBuildingBlock::from(Stream)` is announced concurrent although Stream has no lock (the configuration of a Stream is not): capacity exceeded, wrong keys, panics, lost elements (C91).
* Shared Decorator: overlapping pushes may be evicted in the wrong order, `take_multiple` of a DynConcurrent is not atomic (C82).
* Lru on Compressed (and Stream): the time stamp set when a looked up value is read is lost; only pushes and writes count as uses (C85, C87).
* The text a ConfigBuilder writes cannot be read by any configuration type (C88). The types do not check their own `id`: ArrayConfig reads the text of a BTreeConfig (C88).
* as_config() panics on nested capacities of 2^63 or more; the configuration of a builder with a Decorator or an Inclusive inside another container panics when built (C89).
* A SocketServerConfig ignores the `decorator` of its container, even a malformed one (C90).
* Under Lru or Fifo, a lookup (with Lru: whose cell is not dereferenced) in an Exclusive moves an old element to the front, and younger ones are evicted before it (C92, C93).
* A write-back cache loses writes when it is an Inclusive whose front level is smaller than its back level, or a Stream (C96).
* A batch whose sizes add up to 2^64 panics in debug, and in release is stored although it does not fit (C98).
* A larger Fifo Array may give more misses, as any FIFO cache (C95).
* A full Stream container under Fifo or Lru hands new elements back on push and keeps the old ones (C86).
* Lrfu in f32: from an age of 2^24 elements used at different times tie, and some are ranked the wrong way round; below exponent 1 scores overflow; a NaN exponent
  is accepted and makes all elements equal (C103).
* Policies: Lrfu compares scores read at two times (C41); exponent 1 is FIFO, below 1 reversed (C71); Fifo clones reuse ranks (C56); every
  configured Lrfu has exponent 1 (C62); `Lrfu::new` accepts non positive exponents and the first push panics (C71_made).
* Socket: a read timeout inside a request loses bytes (C43); a reset connection or a broken pipe panics the server (C44); after a reconnection
  there is no read timeout and stop hangs (C58); a resent response goes to the next client (C59).
* Configuration: nested configurations are never announced concurrent (C46); Decorator and Inclusive configurations cannot be built (C60); an empty
  Associative is accepted and panics (C61); layered Associatives reuse the same hash (C66).

## 6. Axioms

Output of `#print axioms` for the theorems of MANIFEST.json:

* **propext, Classical.choice, Quot.sound** (452 theorems): all the others of the table
* **propext** (41 theorems): `BTreeProps.C10_false`, `BTreeProps.C10_loses`, `BTreeRcProps.C10_pop_panics`, `BTreeRcProps.C10_overfull`, `BTreeRcProps.C10_wrong_victim`, `BTreeRcProps.C10_rc_false`, `SeqCellProps.C100_btree_alone_partial`, `FileStreamProps.C104_seek`, `ProfilerTimeProps.C110_false`, `UnwindProps.C113_profiler`, `UnwindProps.C113_btree_take_false`, `UnwindProps.C113_btree_push_false`, `ServeSeqProps.C116_direct`, `CompressedFaultProps.C118_blind`, `CompressedFaultProps.C118_dead`, `BTreeUnwindProps.C125_get_breaks`, `BTreeUnwindProps.C125_drop_loses`, `BTreeUnwindProps.C125_false`, `CombProps.C17_batch_push`, `CombProps.C18_flushStopper_call`, `CombProps.C18_flushStopper_contract`, `LockProps.C32_unbalanced_unlock`, `HandleProps.C33_panic_leaks`, `HandleProps.C33_spurious_leaks`, `CombProps.C36_profiler_sound`, `ProfilerProps.C37_reset`, `PolicyProps.C42_wraps`, `SocketProps.C43_contract`, `SocketProps.C44_partial`, `SocketProps.C44_reset_kills`, `SocketProps.C44_false`, `StreamProps.C50_stale_handle_panics`, `CombProps.C51_exclusive_push_front_first`, `SocketProps.C58_hangs`, `SocketProps.C58_false`, `SocketProps.C59_partial`, `SocketProps.C59_stale`, `SocketProps.C59_false`, `ConcProfilerProps.C73_order_partial`, `FileProps.C80_partial`, `FileProps.C80_example`
* **propext, Quot.sound** (54 theorems): `SeqCellProps.C100_btree_hidden`, `SeqCellProps.C100_btree_false`, `SeqCellProps.C100_btree_race`, `SeqCellProps.C100_btree_drop_panics`, `SeqCells.batch_pins`, `SeqCells.associative_pins`, `FileStreamProps.C104_resize`, `FileStreamProps.C104_never_reads`, `StreamLenProps.C106_false`, `InclusiveHeldProps.C108_plain`, `ProfilerTimeProps.C110_returns`, `SeqWaitProps.C112_short`, `SeqWaitProps.C112_one_thread`, `UnwindProps.C113_returns`, `UnwindProps.C113_returns_btree`, `UnwindProps.C113_returns_inclusive`, `SeqUnwindProps.C121_dead`, `SeqUnwindProps.C121_handle`, `StoreUnwindProps.C123_compressed_call`, `StoreUnwindProps.C123_compressed`, `BTreeUnwindProps.C125_returns_partial`, `InclusiveProps.C14_partial_no_access`, `CombProps.C16_batch_flush`, `CombProps.C18_flushStopper_history`, `AssocProps.C19_associative_lookup`, `CompressedProps.C28_longer_write_panics`, `HandleProps.C33_false`, `HandleProps.C34_partial`, `HandleProps.C34_never_freed`, `HandleProps.C34_false`, `SequentialProps.C35_skip_after_panic`, `CombProps.C38_decorator_contract`, `SocketProps.C44_bounded`, `StackProps.C48_write_then_read`, `StreamProps.C50_read`, `StreamProps.C50_seek`, `StreamProps.C50_resize`, `CombProps.C51_exclusive_pop_back_first`, `LockProps.C54_false`, `SocketProps.C57_wire`, `SocketProps.C57_unambiguous`, `CombProps.C65_batch_pop_last_first`, `BTreeProps.C68_false`, `ConcProfilerProps.C73_partial`, `ConcProfilerProps.C73_read_partial`, `ConcProfilerProps.C73_alone_partial`, `ConcProfilerProps.C73_serial_partial`, `ConcProfilerProps.C73_poisoned`, `FileProps.C80_false`, `CellProps.C83_each_use_is_a_lookup`, `ConfigTextProps.C88_builder`, `ConfigTextProps.C88_id_unchecked`, `ConfigTextProps.C90_one_connection`, `WeakLockProps.C99_includes_sc`
* **no axiom** (5 theorems): `SeqCells.flushStopper_pins`, `FileStreamProps.C104_differ`, `FileStreamProps.C104_false`, `StreamLenProps.C106_wrong`, `ProfilerTimeProps.C110_wrong`

## 7. Wrong programs

`seeded/mutants*.py` are edits of the model, run by `tools/mutate.py` in a scratch copy; `seeded/LOG.jsonl` lists each with the theorems that
failed. Edits that survived led to new or tighter theorems (field theorems_tightened) or are equivalent to the original (field note).
