# Formal model of ByoC in Lean 4 — design

(Made by tools/design.py from tools/design_head.md, properties.jsonl and MANIFEST.json.)

## 1. Trusted base

* Lean 4.33.0's kernel and the definitions of Lean core and Mathlib the statements use. No axiom is declared in
  this project; there is no `native_decide` or `bv_decide`. `decide +kernel` is used for concrete witnesses
  only: it is evaluation by the kernel. The axioms of each theorem are in section 6.
* My reading of /repo: the code is not run; each definition of `Verif/Model` cites the file and lines it models.
* The specifications: `Verif/Spec.lean` and the specification sections at the head of the `Verif/Props` files.
* Code outside the repository enters as *hypotheses* or concrete definitions, never as axioms:
  * `slice::sort*`: a `Sorter`, whose result is a permutation; where order matters the theorem takes the hypothesis
    that the result is sorted for the comparison. Instances are exhibited.
  * `Vec`, `BTreeMap`, `BTreeSet`, `VecDeque`, `HashMap`: lists (sorted lists for the trees).
  * serde/bincode: for streams and Compressed an abstract codec with `decode (encode x ++ rest) = some x`; for the
    socket messages the bincode 1.x default format, written from its documentation. LZ4: an abstract pair with
    `decompress (compress b) = b`.
  * toml and the derived `Deserialize`: the tree of values is the input of the model.
  * `TcpStream`/`TcpListener`: an environment that may cut, delay and split the bytes, and report errors.
  * atomics: each atomic operation is one indivisible step, sequentially consistent interleaving (Model/WeakLock: the lock with its memory
    orderings and stale reads, C99).
* `usize` is `Nat`: sums do not overflow; Model/Machine has the same containers on machine words, overflow panicking (debug) or
  wrapping (release), and C98 says when the two agree. A subtraction whose operands are not obviously ordered is an explicit panic when
  it underflows. The hasher, the lock word, the chunk sizes and the counter have 64 bit arithmetic.
* A panic is a value (`Res.panic`; in the concurrent models, a state of the thread, with what unwinding does to the
  locks). Rust's `&mut self` becomes a returned state. Iterators returned by `flush` are lists; the concurrent
  models and C37 account for their laziness where it can be observed.

## 2. Structure of the Lean project

* `Verif/Base.lean` — `Res`, permutations. `Verif/Spec.lean` — the `BuildingBlock` trait as a structure (`Block`), the
  contract (`Lawful` and its parts), accesses (`GetLawful`), histories.
* `Verif/Model/*.lean` — the model, function by function.
* `Verif/Proofs/*.lean` — invariants and lemmas.
* `Verif/Props/*.lean` — one theorem or more per property, with a concrete case meeting the hypotheses beside it.

What is a *false* property: the statement a user would rely on is kept (`Cnn_full`), refuted (`Cnn_false`, by a concrete
execution), and the part that is true is proved (`Cnn_partial`, `Cnn_exact`). Its status in MANIFEST.json is "partial".

## 3. Parts of the code modelled

| code | model | left out |
|------|-------|----------|
| src/traits, src/objsafe | `Block`, `Container`, DynConcurrent handles | lifetimes of guards |
| src/array, src/btree, src/exclusive, src/inclusive, src/batch, src/flush_stopper, src/profiler, src/decorator, src/associative: building_block.rs, get.rs | Model/Array, ElementSize, BTree, BTreeRc, Combinators, Get, Inclusive, InclusiveHeld, Policies, ProfilerTime (times, counters), Machine (machine words) | the clock (times are inputs). An access is one `get` followed by one dereference (Lru and Lrfu are touched by the dereference); Model/Cells: any number of dereferences, on Array and Compressed |
| src/associative/multiset_hasher.rs, src/utils/{log2,kmin,size}.rs | Model/Utils, Layers | |
| src/stream (io_vec, vec_stream, file_stream, stream, building_block, get) | Model/Stream, StreamLen, FileBacked, Handles, Faults, CellFaults | failures of clone and create |
| panics of user functions in src/*/building_block.rs | Model/Unwind, SeqUnwind (Sequential), StoreUnwind (Stream, Compressed, their get and get_mut), AccessUnwind, BTreeUnwind, InclusiveUnwind (get and get_mut of memory containers) | panics of destructors; of comparisons inside a BTree; in get and get_mut of the other containers |
| nestings over src/stream, src/compression | Model/StreamStack, StreamGet | cells held across calls in such nestings; files |
| src/compression | Model/Compressed, CompressedFaults | the bytes LZ4 produces |
| src/utils/lock.rs, shared_ptr.rs, src/sequential | Model/Lock, WeakLock, Sequential, SeqCells, SeqUnwind | weak memory elsewhere than in the lock |
| `Clone` and src/*/concurrent.rs | Model/CloneHeap (pointers), Sequential, ConcProfiler, ConcAssoc, ConcAssocSeq, ConcDecorator, Policies (clones) | in ConcProfiler, ConcDecorator and ConcAssoc the methods of the wrapped container are atomic (C76_refines justifies it for Sequential) |
| src/decorator/{fifo,lru,lrfu,default}.rs, src/utils/timestamp.rs | Model/Policies, Model/F32, Model/LrfuBTree | f32: exact rationals, but in C103 (no negative numbers there); counters unbounded but in C42; a clock is the sequence of its readings |
| src/socket | Model/Socket, Server, ServeSeq | elapsed time; responses of 2^64 elements or more |
| src/config, src/*/config.rs | Model/Config, ConfigText | environment: which files open, which addresses resolve |
| src/builder, src/*/builder.rs | Model/Builders, Layers | the sets of an Associative are built once and copied; capacities are below 2^63 |

Not modelled: memory safety of the `unsafe` cells beyond what C34 and C55 say, weak-memory effects outside of the lock, real time, log messages, performance,
`Debug`/`Display` output, macros and tests.

## 4. Properties

@@TABLE@@

## 5. What the proofs found in the code

Each is a theorem (in brackets) or follows from one; all are about the pinned commit.

* BTree: a batch with a repeated key loses the earlier elements of this key, later calls of pop or push may panic, `size()` may exceed the capacity and
  pop may evict the least element (C10); dropping a cell panics when the element fills the container beside
  elements of size 0, or when the written value is larger (C68).
* Array: `get_mut` does not update the size; `pop(0)` on a non empty Array evicts its greatest element (C64).
* Exclusive: duplicates between levels (C13); `take_multiple` with a repeated key removes a further duplicate; over an Associative front
  the remaining keys are unsorted and binary search may miss some.
  An access to an element of the back panics when the back is an Associative and the set of the element it is exchanged with is full, or a
  Compressed without 8 spare bytes (C101).
* Inclusive: a front eviction leaves the back cell flagged as copied: later take, pop or flush panics or loses elements (C14); over
  Compressed the flag is lost so that `take` returns the stale value (C72_stale_take) and `flush` panics when nearly full (C72_flush_panics).
* Inclusive over a Sequential: a lookup waits for itself when the front evicts an element that was written to; over a Batch of BTrees the
  cell of the back is dropped into a freed tree (C108).
* Associative: `pop` panics for every 0 < n < size with one set and with m sets whenever at least m+1+m(m-1)/2 would be left, that is for almost every pop of a
  large cache (C20_exact, C20_large_panics); it sorts by index instead of size.
* A Batch decorated with Fifo loses the order of arrival while it fills up (C109).
* readers that take turns on a Sequential make `push` wait for ever; a thread holding a cell that pushes through a clone waits for itself (C112).
* Panics of `element_size`: a Batch loses containers and capacity in push, a BTree loses its size in take and exceeds its capacity in push, an Inclusive keeps copies of lost elements (C113).
* A Stream anywhere in a nesting: flush of an Array in front of it loses the elements of the Array, take_multiple duplicates elements (C114).
* Lru over a memory and a Stream: the Stream never evicts; once full of keys nobody requests it serves no purpose (C115).
* A server over a clone of a Sequential: a local thread in the middle of a call makes the server thread, and its client, panic; after a panic a client's push is lost silently (C116).
* Failing streams under a Stream: a failed write loses the element silently (or panics from 8192 bytes on), a torn write corrupts its successors, a failed resize duplicates the last element and loses the one taken, a short read makes take lose the element, a failed seek in size() lets push exceed the capacity (C117).
* Failing streams under a Compressed: a failed write in take, pop, push or get_mut loses the whole contents, a torn one makes the container useless for ever; a failed read makes calls answer as if it were empty (C118).
* Exclusive over serialised storage: `get` misses elements its front has no room for, and panics when what leaves the front does not fit behind (C119).
* A write of a Stream's cell that is cut in the middle leaves a chunk that does not decode: from then on `pop` and lookups panic, whatever works again; a failed read in `flush` loses everything (C120).
* A Sequential does not survive panics: after a `push` or `get_mut` that panicked every call on every handle waits for ever, after other calls (except `capacity`, `size`, `contains`) the elements are never reached again, and when the unwinding drops a handle or a cell, later `push`es lose their elements silently (C121).
* A `pop` of a Stream in which a deserialisation panics after elements were removed loses those, and a `flush` in which one panics loses everything; Compressed is atomic (C123).
* A read that panics (`element_size` or a comparison, in the front of an Exclusive) loses the element read, or the one the front evicted for it (C124).
* A `get` of a BTree in which `element_size` panics loses the element and leaves its size and its entry in the set: the next `pop` panics (C125).
* A read of an Inclusive during whose copy to the front a function of the user panics can undo the write of another element, lose that element, or mark its own element so that `take` panics (C126).
* Lru over an Inclusive is a FIFO cache: reads are not seen by the back level, which evicts what was just read (C111).
* Profiler: the time of every take_multiple is counted as time of hits and of misses (C110).
* Batch/Profiler: a profiler over containers holding a key twice underflows (C52).
* KMin keeps more than needed (C23). IOVec: `append` of several reverses, iteration truncated, `swap_remove` past the end drops the last (C24).
* ByteStream: `take_multiple` returns copies, flush after push returns nothing (C27); a longer write through `get_mut` corrupts the next
  element (C26_longer_write_corrupts).
* Compressed: `take_multiple` panics or forgets keys when a key is stored twice (C28, C30); push counts a second header, so a batch that fits may
  evict (C70).
* Files: FileStream opens its file for writing only: a Stream on files panics at the first call that is not a push once it stores something (C79), a
  Compressed on a file refuses everything (C80); both configurations always build such containers (C79_config, C80_config).
* FileStream and VecStream differ on seeks outside of the file and on writes after a cut, and FileStream never reads (C104).
* StreamBase::is_empty is true when there are bytes; it and len move the cursor to the end (C106).
* with_element_size is accepted by an Array or a BTree holding elements of size 0; sizes are then wrong and take panics (C107).
* BTree decorated with Lrfu: comparing a cell with itself gives less, as each score reads the clock; every take, get or push of a held key panics, and
  pop evicts one element too many without counting it, until size() exceeds the capacity and push panics (C105).  For the same reason the order of
  LrfuCell is not total (cmp(a, b) may be equal and cmp(b, a) less), which recent versions of `sort` may answer with a panic.
* RWLock: a spurious failure of the weak compare-and-exchange in unlock leaves the lock taken forever (C54); an unbalanced unlock clears the poison
  (C32_unbalanced_unlock).
* Handles: a temporary file is never removed after a panic (C33); a DynConcurrent container is never freed (C34).
* Sequential: contention panics instead of waiting; after a panic push silently drops elements (C35); flush empties the container under a live
  cell (C55).
* Cells of a Sequential: `get` takes a shared lock only, yet a BTree cell removes its element (other threads do not find it) and `get` on an
  Exclusive moves elements under the cells of other threads, which then show another key's value; a dropped cell unlocks before its element
  goes back, so the drop may panic and lose an element pushed meanwhile (C100). A written cell of a Compressed overwrites, after the unlock, all that others stored meanwhile (C102).
* Concurrent Profiler: two counting threads make one panic and lose what it took; a pop overlapping a push poisons the statistics for
  ever (C73). Concurrent Associative: `size()` may exceed what was ever held (C74); push calls every set, so pushes to different sets
  contend, and a panic poisons all sets (C75, C76).
* `DynBuildingBlock::from(Stream)` is announced concurrent although Stream has no lock (the configuration of a Stream is not): capacity exceeded, wrong keys, panics, lost elements (C91).
* Shared Decorator: overlapping pushes may be evicted in the wrong order, `take_multiple` of a DynConcurrent is not atomic (C82).
* Lru on Compressed (and Stream): the time stamp set when a looked up value is read is lost; only pushes and writes count as uses (C85, C87).
* The text a ConfigBuilder writes cannot be read by any configuration type (C88). The types do not check their own `id`: ArrayConfig reads the text of a BTreeConfig (C88).
* as_config() panics on nested capacities of 2^63 or more; the configuration of a builder with a Decorator or an Inclusive inside another container panics when built (C89).
* A SocketServerConfig ignores the `decorator` of its container, even a malformed one (C90).
* Under Lru or Fifo, a lookup (with Lru: whose cell is not dereferenced) in an Exclusive moves an old element to the front, and younger ones are evicted before it (C92, C93).
* A write-back cache loses writes when it is an Inclusive whose front level is smaller than its back level, or a Stream (C96).
* A batch whose sizes add up to 2^64 panics in debug, and in release is stored although it does not fit (C98).
* A larger Fifo Array may give more misses, as any FIFO cache (C95).
* A full Stream container under Fifo or Lru hands new elements back on push and keeps the old ones (C86).
* Lrfu in f32: from an age of 2^24 elements used at different times tie, and some are ranked the wrong way round; below exponent 1 scores overflow; a NaN exponent
  is accepted and makes all elements equal (C103).
* Policies: Lrfu compares scores read at two times (C41); exponent 1 is FIFO, below 1 reversed (C71); Fifo clones reuse ranks (C56); every
  configured Lrfu has exponent 1 (C62); `Lrfu::new` accepts non positive exponents and the first push panics (C71_made).
* Socket: a read timeout inside a request loses bytes (C43); a reset connection or a broken pipe panics the server (C44); after a reconnection
  there is no read timeout and stop hangs (C58); a resent response goes to the next client (C59).
* Configuration: nested configurations are never announced concurrent (C46); Decorator and Inclusive configurations cannot be built (C60); an empty
  Associative is accepted and panics (C61); layered Associatives reuse the same hash (C66).

## 6. Axioms

Output of `#print axioms` for the theorems of MANIFEST.json:

@@AXIOMS@@

## 7. Wrong programs

`seeded/mutants*.py` are edits of the model, run by `tools/mutate.py` in a scratch copy; `seeded/LOG.jsonl` lists each with the theorems that
failed. Edits that survived led to new or tighter theorems (field theorems_tightened) or are equivalent to the original (field note).
