{"id": "C01", "title": "Array never exceeds its capacity", "statement": "After any sequence of push, pop, take, take_multiple and flush calls on an Array, size() <= capacity(), capacity() is what the constructor was given, and no call panics.", "quantifier": "every initial capacity and element-size function, and every finite sequence of BuildingBlock calls with arbitrary arguments", "why_tests_cant": "The element sizes, batch sizes and call orders are unbounded; a test samples a few.", "anchors": ["src/array/building_block.rs: BuildingBlock for Array", "src/utils/size.rs: find_cut_at_size"]}
{"id": "C02", "title": "Array neither loses nor invents elements", "statement": "For every call on an Array, the elements held before plus the elements passed in are, as a multiset, exactly the elements held after plus the elements handed back; over a whole history the pushed elements are exactly the returned ones plus those still stored.", "quantifier": "every initial capacity and element-size function, and every finite sequence of BuildingBlock calls with arbitrary arguments, including duplicate keys", "why_tests_cant": "Loss would need a particular mix of sizes, ties and duplicates.", "anchors": ["src/array/building_block.rs: push, pop, take, take_multiple, flush"]}
{"id": "C03", "title": "Array size() is the sum of its elements' sizes", "statement": "At any point size() of an Array equals the sum of the element sizes of the elements a flush would return.", "quantifier": "every initial capacity and element-size function, and every finite sequence of BuildingBlock calls with arbitrary arguments", "why_tests_cant": "Drift of an accounting counter appears only after particular histories.", "anchors": ["src/array/building_block.rs: size, total_size updates"]}
{"id": "C04", "title": "Array push stores everything that fits", "statement": "If the elements pushed fit in the free room of an Array, they are all stored next to the existing ones and nothing is returned; if they do not fit but are no larger than the capacity, all the pushed elements are stored and only older ones are returned; if they are larger than the capacity, every old element is returned, and what is kept of the pushed ones has values no greater than what is returned.", "quantifier": "every state, every batch, every element-size function", "why_tests_cant": "Boundary cases (equal to room, equal to capacity) and arbitrary sizes.", "anchors": ["src/array/building_block.rs: push"]}
{"id": "C05", "title": "Array pop frees enough, no more than needed, greatest values first", "statement": "pop(n) on an Array either leaves it empty having returned everything, or frees at least n; every returned value is >= every kept value; and unless n covers the whole size (when everything is returned) the eviction is minimal: without the smallest of the returned elements fewer than n (for n > 0) would have been freed.", "quantifier": "every state, n, element-size function, and every total preorder on values", "why_tests_cant": "Ties, zero-size elements, and boundaries are unbounded in number.", "anchors": ["src/array/building_block.rs: pop", "src/utils/size.rs: find_cut_at_size"]}
{"id": "C06", "title": "Array lookups agree with removal", "statement": "contains(k) is true exactly when take(k) returns an element with key k; take removes exactly one element; take_multiple returns, for each key, exactly min(times requested, times stored) elements, removes from the caller's key list exactly the keys found, and leaves all other elements.", "quantifier": "every state (with duplicate keys) and every key list", "why_tests_cant": "Universally quantified over contents and key multiplicities.", "anchors": ["src/array/building_block.rs: contains, take, take_multiple"]}
{"id": "C07", "title": "BTree obeys the container contract for batches without repeated keys", "statement": "As long as no single push batch contains a key twice, a BTree never panics, never exceeds its capacity, reports size() equal to the sum of stored element sizes, and loses or invents no element, over any history.", "quantifier": "every capacity, element-size function, and call history with push batches of distinct keys", "why_tests_cant": "Two internal indexes must remain in lockstep across every history.", "anchors": ["src/btree/building_block.rs", "src/btree/btree.rs: insert_values_unchecked"]}
{"id": "C08", "title": "BTree holds at most one value per key and returns replaced ones", "statement": "A BTree never stores two elements with the same key; pushing a key already stored hands the old element back and stores the new one (or hands the new one back too if it does not fit).", "quantifier": "every reachable state, every batch of distinct keys", "why_tests_cant": "Must hold for all histories.", "anchors": ["src/btree/building_block.rs: push"]}
{"id": "C09", "title": "BTree pop evicts the greatest values", "statement": "pop(n) on a BTree frees at least n or empties it, evicting only elements whose (value,key) is greater than that of all kept elements, and no more than necessary.", "quantifier": "every reachable state and n", "why_tests_cant": "All orders and sizes.", "anchors": ["src/btree/building_block.rs: pop"]}
{"id": "C10", "title": "BTree push is safe for any batch", "statement": "Pushing any batch to a BTree, even with a repeated key, loses no element and never makes a later call panic.", "quantifier": "every batch, including repeated keys", "why_tests_cant": "A particular batch and later call is needed to expose it. (Violated by the code: see DESIGN.md.)", "anchors": ["src/btree/building_block.rs: push", "src/btree/btree.rs: insert_values_unchecked"]}
{"id": "C11", "title": "Exclusive obeys the container contract whenever its two levels do", "statement": "If front and back each respect the container contract (bounded, conserving, consistent lookups), so does the Exclusive of them: no panic in any BuildingBlock call, size <= capacity, nothing lost or invented, contains iff stored, pop frees enough, flush empties both and returns everything.", "quantifier": "every pair of contract-respecting containers, every history", "why_tests_cant": "Quantifies over all component containers.", "anchors": ["src/exclusive/building_block.rs"]}
{"id": "C12", "title": "Exclusive get moves the element to the front without losing anything", "statement": "get(k)/get_mut(k) on an Exclusive of Arrays with unit-size elements and a front capacity > 0 returns a value exactly when k is stored, never panics, conserves all elements, and afterwards k is in the front level.", "quantifier": "every state and key", "why_tests_cant": "Requires every fill level and content.", "anchors": ["src/exclusive/exclusive.rs: downgrade", "src/exclusive/get.rs"]}
{"id": "C13", "title": "Exclusive keeps no duplicates between levels", "statement": "In an Exclusive, a key is never present both in the front and in the back level.", "quantifier": "every history of calls", "why_tests_cant": "Only specific histories (pushing a key already demoted) break it. (Violated by the code; holds for histories that push only absent keys.)", "anchors": ["src/exclusive/building_block.rs: push", "src/exclusive/exclusive.rs: documentation"]}
{"id": "C14", "title": "Inclusive take/pop never panic and never lose elements", "statement": "Any sequence of push, get, get_mut, take, take_multiple, pop, flush on an Inclusive returns without panicking and hands back every pushed key exactly once.", "quantifier": "every history including gets", "why_tests_cant": "Failure needs a get-evict-take history. (Violated by the code; holds as long as the front level has not evicted.)", "anchors": ["src/inclusive/building_block.rs", "src/inclusive/inclusive.rs: downgrade", "src/inclusive/get.rs"]}
{"id": "C15", "title": "Inclusive hands back the latest written value", "statement": "In any history that never pushes a key already stored: after a value is written through get_mut on an Inclusive, every later get of this key that finds something, and every take, take_multiple, pop, push or flush that hands this key back, yields the written value, even though two copies of the element exist and whatever the front evicted.", "quantifier": "every pair of front and back containers and capacities, every history, every key and new value", "why_tests_cant": "All interleavings of writes and removals.", "anchors": ["src/inclusive/inclusive.rs: InclusiveCell", "src/inclusive/building_block.rs: take, pop, push, flush"]}
{"id": "C16", "title": "Batch obeys the container contract whenever its batches do", "statement": "A Batch of any number of contract-respecting containers respects the contract: sums of capacities and sizes, conservation, lookups, pop frees enough, flush returns everything, no panic.", "quantifier": "every number of batches, every component, every history", "why_tests_cant": "Unbounded number of batches.", "anchors": ["src/batch/building_block.rs"]}
{"id": "C17", "title": "Batch push offers elements to every batch before rejecting", "statement": "Batch.push returns only elements that the last batch tried returned, having visited every batch at most once; it stops as soon as nothing is left; batches are rotated but none is dropped or duplicated.", "quantifier": "every number of batches and every batch contents", "why_tests_cant": "Rotation order over unbounded batches.", "anchors": ["src/batch/building_block.rs: push"]}
{"id": "C18", "title": "FlushStopper hides flush and nothing else", "statement": "FlushStopper forwards each call unchanged except flush, which returns nothing and leaves the contents unchanged.", "quantifier": "every wrapped container, state and call", "why_tests_cant": "All wrapped containers.", "anchors": ["src/flush_stopper/building_block.rs"]}
{"id": "C19", "title": "Associative keeps every key in its own set", "statement": "In an Associative, after any history every stored element lies in the set its key hashes to, so contains, take, take_multiple and get consult only that set and still find every stored key; push/take/take_multiple/flush lose nothing.", "quantifier": "every number of sets > 0, every hash function, every component container, every history", "why_tests_cant": "All hash functions and set counts.", "anchors": ["src/associative/building_block.rs"]}
{"id": "C20", "title": "Associative pop frees the requested size without panicking", "statement": "pop(n) on an Associative returns without panic, and frees at least n or empties the container.", "quantifier": "every distribution of elements over sets, every n", "why_tests_cant": "Depends on the distribution of sizes over the sets. (Violated by the code.)", "anchors": ["src/associative/building_block.rs: pop"]}
{"id": "C21", "title": "Stacked set-associative layers use disjoint hash bits", "statement": "For any chain of ExclusiveHasher built by new and next, the bit ranges used by the layers are disjoint, each layer's set index is below its number of sets rounded to a power of two, and depends only on its own bits; every combination of set indexes is reachable.", "quantifier": "every chain of set counts that fits 64 bits, every hash value", "why_tests_cant": "2^64 hashes and arbitrary chains.", "anchors": ["src/associative/multiset_hasher.rs", "src/utils/math.rs: log2"]}
{"id": "C22", "title": "log2 and chunk sizing are exact", "statement": "log2(x) is the floor of the binary logarithm; chunk_size(n) is the smallest power of two >= n and its exponent.", "quantifier": "every positive usize", "why_tests_cant": "Exhausting 2^64 inputs is not feasible.", "anchors": ["src/utils/math.rs: log2", "src/stream/building_block.rs: chunk_size"]}
{"id": "C23", "title": "KMin keeps the top elements to a total size", "statement": "After pushing any sequence of distinct sized elements, KMin holds the greatest ones, as many as needed for their sizes to sum to the requested maximum and no more.", "quantifier": "every sequence of elements, sizes and every maximum", "why_tests_cant": "All orders of insertion.", "anchors": ["src/utils/kmin.rs"]}
{"id": "C24", "title": "IOVec behaves as a vector of serialised values", "statement": "Reading, appending, swap-removing and iterating an IOVec over a byte stream behave as the same operations on a vector of values, for any codec whose decoding ignores trailing padding; the byte length stays a multiple of the chunk size.", "quantifier": "every sequence of operations, every chunk size, every value", "why_tests_cant": "Byte-level layout for all values and positions.", "anchors": ["src/stream/io_vec.rs", "src/stream/vec_stream.rs"]}
{"id": "C25", "title": "ByteStream never exceeds its capacity", "statement": "size() of a ByteStream is the total of the power-of-two chunks of the stored elements and never exceeds capacity, whatever is pushed.", "quantifier": "every history of push/pop/take", "why_tests_cant": "All sizes.", "anchors": ["src/stream/building_block.rs"]}
{"id": "C26", "title": "ByteStream push, take and pop lose nothing", "statement": "push returns exactly the elements it did not store, take and pop return exactly the elements they remove, pop frees at least the requested size or empties the stream and evicts the greatest values.", "quantifier": "every history, every element size", "why_tests_cant": "All layouts across streams.", "anchors": ["src/stream/building_block.rs: push, take, pop"]}
{"id": "C27", "title": "ByteStream take_multiple and flush really move elements out", "statement": "take_multiple removes the elements it returns, and flush returns every stored element.", "quantifier": "every reachable state", "why_tests_cant": "(Violated by the code.)", "anchors": ["src/stream/building_block.rs: take_multiple, flush", "src/stream/io_vec.rs: into_iter"]}
{"id": "C28", "title": "Compressed never exceeds its capacity and its writes never fail", "statement": "For any history on a Compressed the serialised (pre-compression) size stays <= capacity, so no write is refused and no call panics.", "quantifier": "every history, every serialised element size, every capacity", "why_tests_cant": "Header accounting at exact boundaries.", "anchors": ["src/compression/building_block.rs", "src/compression/compression.rs"]}
{"id": "C29", "title": "Compressed loses and invents nothing", "statement": "Each push, pop, take, flush call on a Compressed conserves the multiset of elements; the stored bytes always decode to the logical contents.", "quantifier": "every history", "why_tests_cant": "All sizes and values.", "anchors": ["src/compression/building_block.rs"]}
{"id": "C30", "title": "Compressed take_multiple is consistent with its key list", "statement": "take_multiple on a Compressed takes the elements with the requested keys, removes exactly the found keys from the caller's list, and does not panic.", "quantifier": "every contents and key list", "why_tests_cant": "(Violated when a key is stored twice.)", "anchors": ["src/compression/building_block.rs: take_multiple"]}
{"id": "C31", "title": "RWLock excludes writers from everyone", "statement": "In any interleaving of lock, lock_mut, try_lock, try_lock_mut and matching unlocks by any number of threads, while one thread holds the write lock no other holds any lock, and the reader count equals the number of holders.", "quantifier": "every number of threads, every schedule", "why_tests_cant": "Schedules cannot be enumerated by tests.", "anchors": ["src/utils/lock.rs: try_lock, try_lock_mut, unlock"]}
{"id": "C32", "title": "RWLock poison is sticky and blocks acquisition", "statement": "Once a holder panicked while holding the lock (with balanced unlocks), every later try_lock/try_lock_mut by any thread reports poisoned.", "quantifier": "every schedule", "why_tests_cant": "Schedules.", "anchors": ["src/utils/lock.rs: poison paths"]}
{"id": "C33", "title": "A temporary FileStream file is deleted exactly when the last handle goes", "statement": "Over any sequence of clone and drop of handles to the same temporary file, the file exists while a handle lives and is removed exactly once by the last drop; with do_not_delete it is never removed.", "quantifier": "every number of handles, every order of clone/drop", "why_tests_cant": "All orders.", "anchors": ["src/stream/file_stream.rs"]}
{"id": "C34", "title": "Dynamic concurrent handles never free the container under a live handle", "statement": "Over any sequence of clone/access/drop, no handle dereferences a freed container and the container is freed at most once; it should be freed with the last handle.", "quantifier": "every number of handles and order", "why_tests_cant": "All orders. (No-use-after-free holds; the freeing part is violated: it is never freed.)", "anchors": ["src/objsafe/concurrent.rs", "src/objsafe/building_block.rs"]}
{"id": "C35", "title": "Sequential serialises concurrent calls", "statement": "Any interleaving of calls by any number of clones of a Sequential has the effect of some sequential order of the calls that returned, and waits rather than panics under contention.", "quantifier": "every schedule and number of threads", "why_tests_cant": "Schedules. (Atomicity holds; absence of panic under contention is violated.)", "anchors": ["src/sequential/building_block.rs", "src/utils/shared_ptr.rs"]}
{"id": "C36", "title": "Profiler is transparent", "statement": "When a call on a Profiler returns, it returns what the wrapped container returns and leaves it in the same state; over containers whose take_multiple returns at most one element per requested key it never panics.", "quantifier": "every wrapped container, state, call", "why_tests_cant": "All containers.", "anchors": ["src/profiler/building_block.rs", "src/profiler/get.rs"]}
{"id": "C37", "title": "Profiler counts are exact", "statement": "Over any history, hits + misses equals the number of keys looked up, hits equals the number found, and per-method counters equal the calls (or elements) of this method; after reset everything is 0.", "quantifier": "every history", "why_tests_cant": "All histories.", "anchors": ["src/profiler/profiler.rs", "src/profiler/stats.rs", "src/profiler/building_block.rs"]}
{"id": "C38", "title": "Decorator is a transparent wrapper", "statement": "A Decorator over a contract-respecting container respects the contract for the undecorated elements: what is pushed is what comes out, whatever the decoration.", "quantifier": "every decoration factory and container", "why_tests_cant": "All containers and decorations.", "anchors": ["src/decorator/building_block.rs", "src/decorator/decorator.rs"]}
{"id": "C39", "title": "Fifo evicts in insertion order", "statement": "In an Array decorated with Fifo, every element evicted by pop was pushed earlier than every element kept, over any history.", "quantifier": "every history", "why_tests_cant": "Insertion ages over all histories.", "anchors": ["src/decorator/fifo.rs", "src/array/building_block.rs: pop"]}
{"id": "C40", "title": "Lru evicts the least recently used", "statement": "In an Array decorated with Lru, every element evicted by pop was last accessed (pushed or read/written through a cell) no later than every element kept.", "quantifier": "every history of pushes and accesses, every monotone clock", "why_tests_cant": "All histories.", "anchors": ["src/decorator/lru.rs", "src/utils/timestamp.rs"]}
{"id": "C41", "title": "Lrfu orders elements consistently", "statement": "The comparison of Lrfu cells is a consistent ordering at any fixed instant: reflexive, total, transitive.", "quantifier": "every pair of cells, every clock", "why_tests_cant": "(Violated: each comparison reads the clock twice, so with a counter clock an element compares different from itself.)", "anchors": ["src/decorator/lrfu.rs: cmp", "src/utils/timestamp.rs"]}
{"id": "C42", "title": "Counter timestamps are unique and increasing", "statement": "now() on the counter clock returns distinct strictly increasing values across all threads.", "quantifier": "every interleaving of calls (below 2^64)", "why_tests_cant": "Schedules.", "anchors": ["src/utils/timestamp.rs: Counter"]}
{"id": "C43", "title": "A remote container behaves as a local one", "statement": "Each call on a SocketClient connected to a server over a lossless transport, however slow, returns what the same call on the server's container would return and leaves it in the same state, over any history.", "quantifier": "every container, every history, every timing of the bytes", "why_tests_cant": "All containers, histories and timings. (Violated when the network pauses inside a request: the server forgets the bytes already read. Proved otherwise.)", "anchors": ["src/socket/building_block.rs", "src/socket/client.rs", "src/socket/server.rs: match_response", "src/socket/message.rs"]}
{"id": "C44", "title": "The server accepts a bounded number of connections", "statement": "A server with n reconnections allowed serves at most n+1 clients; one with unlimited reconnections stops only on request.", "quantifier": "every sequence of client connections, disconnections and stop requests", "why_tests_cant": "All event sequences.", "anchors": ["src/socket/server_thread.rs", "src/socket/server.rs"]}
{"id": "C45", "title": "A configuration that validates builds a container of the announced capacity", "statement": "If GenericConfig::from_toml (or ConfigBuilder) accepts a configuration tree, and the files it names can be opened and the addresses it names answer, then building it succeeds and the container's capacity is the sum/propagation of the leaf capacities; a tree is accepted exactly if every node follows the documented format, so an invalid node anywhere is refused.", "quantifier": "every configuration tree, of any depth", "why_tests_cant": "Unbounded trees.", "anchors": ["src/config/generic_config.rs", "src/config/config_builder.rs", "src/*/config.rs"]}
{"id": "C46", "title": "Concurrency announced by a configuration", "statement": "A configuration tree made of concurrent-capable blocks over Sequential leaves can be built as a concurrent container; one that is not concurrent is refused.", "quantifier": "every configuration tree", "why_tests_cant": "(Violated: nested generic configurations always announce not concurrent.)", "anchors": ["src/config/generic_config.rs", "src/associative/config.rs", "src/profiler/config.rs", "src/sequential/config.rs"]}
{"id": "C47", "title": "Any stack of building blocks obeys the contract", "statement": "A container assembled by nesting Exclusive, Batch, FlushStopper, Decorator, Profiler, Sequential and dynamic wrappers to any depth over Arrays keeps size() <= capacity(), never panics and loses or invents no element over any history.", "quantifier": "every stack of any shape and depth, every history", "why_tests_cant": "Unbounded compositions.", "anchors": ["src/exclusive", "src/batch", "src/flush_stopper", "src/decorator", "src/profiler", "src/sequential", "src/objsafe", "src/array"]}
{"id": "C48", "title": "A write through get_mut is seen by later reads and touches nothing else", "statement": "After writing v through get_mut(k), get(k) and take(k) return v, and all other elements are unchanged.", "quantifier": "every state, key and value", "why_tests_cant": "All contents.", "anchors": ["src/array/get.rs", "src/btree/get.rs", "src/batch/get.rs", "src/associative/get.rs"]}
{"id": "C49", "title": "take_multiple equals repeated take", "statement": "For a container without duplicate keys and a list of distinct keys, take_multiple returns the same set of elements and leaves the same contents as calling take for each key.", "quantifier": "every contents and key list of Array, BTree, Exclusive, Batch, Associative", "why_tests_cant": "All contents.", "anchors": ["src/traits/building_block.rs: take_multiple", "src/array/building_block.rs: take_multiple", "src/exclusive/building_block.rs: take_multiple"]}
{"id": "C50", "title": "VecStream is a byte file", "statement": "Reads, writes, seeks and resizes on VecStream behave as on a file: reading after writing at the same position returns the same bytes; other bytes are unchanged; the length is the maximum of the old length and the end of the write.", "quantifier": "every position, length and buffer", "why_tests_cant": "All positions and buffers.", "anchors": ["src/stream/vec_stream.rs"]}
{"id": "C51", "title": "Exclusive puts new elements in front and evicts from the back first", "statement": "push on an Exclusive stores as many of the new elements as the front takes before displacing anything to the back, and only what the back returns is handed back; pop evicts from the back and touches the front only when the back cannot free enough.", "quantifier": "every two containers, every state, every batch, every requested size", "why_tests_cant": "All fill levels of both levels.", "anchors": ["src/exclusive/building_block.rs: push, pop"]}
{"id": "C52", "title": "Profiler adds no panic", "statement": "A call on a Profiler over any contract-respecting container does not panic.", "quantifier": "every contract-respecting container, every state, every call", "why_tests_cant": "(Violated by the code: statistics underflow when take_multiple of the wrapped container returns more elements than requested keys, e.g. a Batch of dynamic containers holding a key twice.)", "anchors": ["src/profiler/building_block.rs: take_multiple"]}
{"id": "C53", "title": "Histories mixing get/get_mut with every other call", "statement": "On any stack of unit-size building blocks, any interleaving of push, pop, take, take_multiple, flush, contains with get and get_mut does not panic, keeps size within capacity and conserves the keys.", "quantifier": "every stack shape and depth, every history of calls and accesses", "why_tests_cant": "Unbounded compositions and histories.", "anchors": ["src/exclusive/get.rs", "src/batch/get.rs", "src/associative/get.rs", "src/decorator/get.rs", "src/profiler/get.rs", "src/array/get.rs"]}
{"id": "C54", "title": "A released RWLock can be taken again", "statement": "When no call is in progress, no thread holds the lock and no thread panicked, an undisturbed try_lock_mut succeeds.", "quantifier": "every number of threads, every schedule, with or without spurious failures of the weak compare-and-exchange", "why_tests_cant": "Schedules; spurious failures do not happen on the x86 machines tests run on. (Violated: unlock gives up when its first weak compare-and-exchange fails spuriously.)", "anchors": ["src/utils/lock.rs: unlock"]}
{"id": "C55", "title": "A cell obtained from a Sequential stays valid", "statement": "While a thread holds a cell obtained with get from a Sequential, no call of another thread changes the container; while it holds a cell obtained with get_mut, no call of another thread runs.", "quantifier": "every schedule, number of threads and container", "why_tests_cant": "Schedules. (Violated: flush and take_multiple only take a shared lock, take and pop release the lock before they run. Proved for push and get_mut, and for flush and get against get_mut cells.)", "anchors": ["src/sequential/get.rs", "src/sequential/building_block.rs", "src/utils/lock.rs"]}
{"id": "C56", "title": "Fifo order holds across clones of a container", "statement": "In a Fifo-decorated concurrent container, whichever handles are cloned and used to push, every element evicted by pop was pushed before every element kept.", "quantifier": "every sequence of clones and calls on any handles", "why_tests_cant": "All histories. (Violated: cloning a Fifo copies its counter, so the clone gives new elements the ranks of older ones. Proved when one handle makes all the pushes.)", "anchors": ["src/decorator/fifo.rs: Clone", "src/decorator/concurrent.rs"]}
{"id": "C57", "title": "Messages survive the wire", "statement": "For any key and value serialisation that reads back what it wrote, every request and every response is decoded exactly as encoded whatever follows it, consumes exactly its bytes, and is not complete before its last byte.", "quantifier": "every message, every suffix, every prefix", "why_tests_cant": "All messages.", "anchors": ["src/socket/message.rs"]}
{"id": "C58", "title": "A server told to stop ends", "statement": "At any moment, a server thread told to stop ends even if its client stays connected and silent.", "quantifier": "every history of connections, requests and failures", "why_tests_cant": "All histories. (Violated: after a reconnection the stream has no read timeout, so stop_and_join hangs on a silent client. Proved on the first connection.)", "anchors": ["src/socket/server_thread.rs: spawn, stop_and_join", "src/socket/server.rs: try_reconnect, with_timeout"]}
{"id": "C59", "title": "Each client gets the responses to its own requests", "statement": "Every request the server receives is answered once, on its own connection, by what the container returned, in order.", "quantifier": "every history of connections, requests and failures", "why_tests_cant": "All histories. (Violated by the resend after a reconnection: the response goes to the next client. Proved when no write reports an end of file.)", "anchors": ["src/socket/server_thread.rs: spawn", "src/socket/server.rs: process_request, process_response"]}
{"id": "C60", "title": "The configuration of a builder describes the container it builds", "statement": "For every builder, as_config() written to TOML is accepted by ConfigBuilder and, whenever the builder itself can build, the configuration builds a container of the same capacity.", "quantifier": "every builder, of any shape and depth", "why_tests_cant": "Unbounded shapes. (Violated: configurations of Decorator and Inclusive builders are not accepted, nested ones make build() panic; proved exactly for all others.)", "anchors": ["src/config/mod.rs: IntoConfig", "src/*/config.rs: as_config", "src/*/builder.rs: build", "src/config/generic_config.rs"]}
{"id": "C61", "title": "A container built from a configuration serves every history", "statement": "Whatever calls are made on a container built from an accepted configuration, none panics, capacity() is constant, size() <= capacity(), and a final flush gives back exactly what was pushed and not yet returned.", "quantifier": "every accepted configuration, of any shape and depth; every history", "why_tests_cant": "Unbounded shapes and histories. (Violated: an AssociativeConfig with an empty container list is accepted, announces it is concurrent, and panics on the first push. Proved for Array leaves and non empty Associatives, decorators included.)", "anchors": ["src/config/generic_config.rs", "src/config/config_builder.rs", "src/associative/config.rs", "src/objsafe/building_block.rs"]}
{"id": "C62", "title": "The decorator of a configuration is the one asked for", "statement": "A configuration with decorator.kind and, for Lrfu, decorator.exponent builds a container decorated by that policy with that exponent.", "quantifier": "every valid configuration and exponent", "why_tests_cant": "All exponents. (Violated: the exponent is looked up under a wrong name and is always 1.0; proved for the kind.)", "anchors": ["src/config/config_builder.rs: from_toml, build"]}
{"id": "C63", "title": "Containers counting elements hand back exactly the excess", "statement": "In a container of any shape whose Arrays count elements (no Associative), size() is the number of stored elements; push(l) hands back exactly max(0, size() + |l| - capacity()) elements, and a single pushed element is stored whenever capacity() > 0.", "quantifier": "every stack shape and depth, every reachable state (get and get_mut included), every batch", "why_tests_cant": "Unbounded compositions, states and batches.", "anchors": ["src/array/building_block.rs: push", "src/exclusive/building_block.rs: push", "src/batch/building_block.rs: push", "src/decorator/building_block.rs", "src/profiler/building_block.rs"]}
{"id": "C64", "title": "Containers counting elements evict exactly what is asked", "statement": "In a container of any shape whose Arrays count elements (no Associative), pop(n) returns exactly min(n, size()) elements and size() decreases by that number.", "quantifier": "every stack shape and depth, every reachable state, every n", "why_tests_cant": "Unbounded compositions and states. (Violated for n = 0: pop(0) on a non empty Array evicts an element; proved for n > 0.)", "anchors": ["src/array/building_block.rs: pop", "src/exclusive/building_block.rs: pop", "src/batch/building_block.rs: pop"]}
{"id": "C65", "title": "Batch evicts from the most recently filled batches first", "statement": "pop(n) on a Batch evicts from the last batch first, asks each batch before it for what is still missing, and touches a batch only if all the batches after it are empty and freed too little.", "quantifier": "every number of batches over any contract-respecting container, every state, every n", "why_tests_cant": "All fill levels of any number of batches.", "anchors": ["src/batch/building_block.rs: pop"]}
{"id": "C66", "title": "A layered associative container built from a configuration can be filled", "statement": "Whatever the nesting of AssociativeConfigs, if every hash value is the hash of some key then some calls make size() reach capacity().", "quantifier": "every list of layers, every capacity of the sets, every hash", "why_tests_cant": "Unbounded layers. (Violated: all layers use the same hash, so only lcm of the numbers of sets are ever used instead of their product; 2 x 2 sets never hold more than half the capacity. Proved exactly; filled up iff the lcm is the product.)", "anchors": ["src/associative/config.rs: build", "src/associative/associative.rs: set"]}
{"id": "C67", "title": "A layered associative container made by the builder can be filled", "statement": "AssociativeBuilder::new followed by any add_layer calls either panics because more than 64 bits of hash are needed, or builds a container whose capacity is the product of the layers and which some calls fill up to capacity().", "quantifier": "every list of layers, every capacity of the sets, every hash", "why_tests_cant": "Unbounded layers.", "anchors": ["src/associative/builder.rs: new, add_layer, build", "src/associative/multiset_hasher.rs"]}
{"id": "C68", "title": "get and get_mut on a BTree change one value only", "statement": "get_mut(k) on a BTree finds the value exactly when k is stored; writing through the cell replaces this value and changes nothing else; an access never panics.", "quantifier": "every history with distinct keys in each batch, every size function, key and write", "why_tests_cant": "All histories and writes. (Violated: the cell takes the element out and pushes it back, asserting that nothing comes out; with elements of size 0 beside an element filling the container, or a write that makes the value grow, dropping the cell panics. The exact condition is proved, and that nothing is silently lost otherwise.)", "anchors": ["src/btree/get.rs: Drop for BTreeCell, get, get_mut", "src/btree/building_block.rs: push"]}
{"id": "C69", "title": "push on Array and BTree evicts no more than needed", "statement": "For elements of positive sizes, whatever these are: a batch no larger than the capacity is stored whole, and besides replaced keys (BTree) only old elements of greatest values are handed back, no more than needed: without the least of them the rest would not fit. From a larger batch, the new elements of greatest values are handed back, no more than needed.", "quantifier": "every size function, reachable state and batch", "why_tests_cant": "All sizes and fill levels.", "anchors": ["src/array/building_block.rs: push, pop", "src/btree/building_block.rs: push, pop", "src/utils/size.rs: find_cut_at_size"]}
{"id": "C70", "title": "Compressed push stores what fits", "statement": "A non empty batch that fits in a Compressed beside what is stored evicts nothing.", "quantifier": "every codec, capacity, reachable state and batch", "why_tests_cant": "All sizes. (Violated: the room asked for includes a second 8 byte vector length. The exact behaviour is proved: when push evicts, that it evicts the greatest values and no more than this computation needs.)", "anchors": ["src/compression/building_block.rs: push"]}
{"id": "C71", "title": "Lrfu goes from frequency to recency as its exponent grows", "statement": "Of two elements decorated with Lrfu, with an exponent greater than the time elapsed the one whose last use is older is evicted first, whatever the other uses; with exponent 1 the one used fewer times is.", "quantifier": "every two histories of uses, every exponent", "why_tests_cant": "All histories. (Violated for exponent 1: the score is then the age since insertion, whatever the uses, and an access has no effect; below 1 an access makes eviction more likely. Proved: closed form of the score, exact effect of an access, recency order for large exponents.)", "anchors": ["src/decorator/lrfu.rs: touch, score, Lrfu::new"]}
{"id": "C72", "title": "Any nesting of all the building blocks serves every history of fresh keys", "statement": "Whatever the nesting of Array, BTree, Compressed, Inclusive, Exclusive, Batch, Associative, FlushStopper, Sequential, dynamic containers, decorators, profilers and remote containers (SocketClient), as long as no key is pushed while it is held: no call panics, capacity() is constant, size() <= capacity(), contains, take and take_multiple find exactly what was pushed and not yet handed back.", "quantifier": "every nesting and depth, every history of fresh keys", "why_tests_cant": "Unbounded compositions and histories. (Violated: flush on an Inclusive over a nearly full Compressed panics, because pushing nothing back to it evicts. Proved for all shapes where the back of an Inclusive is not a Compressed, without pop if there is an Associative, with what flush and pop return.)", "anchors": ["src/*/building_block.rs", "src/inclusive/building_block.rs: flush", "src/compression/building_block.rs: push"]}
{"id": "C73", "title": "A profiler can be shared by threads", "statement": "Clones of a Profiler over a concurrent container can be used by several threads: no call panics because of the others, and when no call is in progress each count is the sum over all the calls made by all the threads.", "quantifier": "every schedule, number of threads and container", "why_tests_cant": "Schedules. (Violated despite the documentation: the statistics are behind a lock that panics when it is busy, so that two threads counting at the same time make one panic and lose what it took; and a pop overlapping a push underflows while holding the lock, which poisons it so that every later call panics. Proved: in every schedule counts are between the calls returned and the calls executed and are exact at rest; calls that do not overlap behave as on an unshared profiler; the exact causes of a panic.)", "anchors": ["src/profiler/building_block.rs", "src/profiler/concurrent.rs", "src/profiler/profiler.rs", "src/profiler/stats.rs", "src/utils/shared_ptr.rs: as_mut, as_ref"]}
{"id": "C74", "title": "An associative container can be shared by threads", "statement": "Clones of an Associative over concurrent sets can be used by several threads without a lock: every call returns what it returns when performed in one go at some moment between its call and its return, no call panics because of the others, no element is lost, duplicated or stored in a wrong set.", "quantifier": "every schedule, number of threads and sets, hash and contract-respecting set", "why_tests_cant": "Schedules. (Violated for calls over several sets: size() can return 2 although the container never held more than one element. Proved: calls about one key are atomic; in every schedule elements are well placed, never duplicated, sizes within capacities, only pop can panic; at rest nothing is lost; a call not overlapped by others is the sequential one.)", "anchors": ["src/associative/building_block.rs", "src/associative/get.rs", "src/associative/concurrent.rs"]}
{"id": "C75", "title": "Threads using different sets of an Associative of Sequential containers do not disturb each other", "statement": "With clones of an Associative of Sequential containers, a call (other than pop) panics or waits only if another thread is at the same time in a call, or holds a cell, concerning a key of the same set (or the whole container).", "quantifier": "every schedule of lock operations, number of threads and sets, hash and contract-respecting container", "why_tests_cant": "Schedules. (Violated: push calls every set, even with nothing to put there, so two pushes of elements of different sets contend and one of them panics. Proved for all calls but push.)", "anchors": ["src/associative/building_block.rs: push", "src/associative/concurrent.rs", "src/sequential/building_block.rs", "src/sequential/get.rs", "src/utils/shared_ptr.rs"]}
{"id": "C76", "title": "An Associative of Sequential containers shared by threads keeps every element", "statement": "Whatever the calls of the threads and their interleaving, lock operation by lock operation, no call panics, and when no call is in progress what is stored and what was returned is exactly what was given.", "quantifier": "every schedule of lock operations, number of threads and sets, hash and contract-respecting container", "why_tests_cant": "Schedules. (Violated: calls on the same set panic when they contend; the panicking thread then poisons the locks of all the sets, after which the push of any thread, on any set, silently drops its elements. Proved as long as no call panics: the run is one with atomic calls on the sets, so that everything C74 says applies, and nothing is lost.)", "anchors": ["src/associative/concurrent.rs", "src/sequential/building_block.rs: push", "src/utils/lock.rs: Drop", "src/utils/shared_ptr.rs"]}
{"id": "C77", "title": "An Array decorated with Lrfu evicts the elements of greatest rank", "statement": "After any history of calls and accesses, pop and push on an Array decorated with Lrfu evict the elements of greatest rank (push may also evict stored elements to make room for the pushed ones), the rank of an element being the sum of the intervals between its own uses since it was pushed up to now, each older interval divided once more by the exponent.", "quantifier": "every exponent, clock, size function, capacity and history of fresh keys, reads and writes", "why_tests_cant": "Unbounded histories.", "anchors": ["src/decorator/lrfu.rs: touch, score, cmp, get, get_mut, wrap", "src/decorator/building_block.rs", "src/decorator/get.rs", "src/array/building_block.rs: push, pop"]}
{"id": "C78", "title": "A builder builds what it describes", "statement": "build() succeeds exactly when every server can be reached and no Inclusive has a front level larger than its back level, and panics otherwise; the container then has the capacity that can be read on the builder (sum over levels and sets, back level for an Inclusive).", "quantifier": "every builder, of any shape and depth", "why_tests_cant": "Unbounded shapes.", "anchors": ["src/*/builder.rs: build", "src/inclusive/inclusive.rs: new"]}
{"id": "C79", "title": "A Stream container stored in files behaves like one stored in memory", "statement": "A Stream container created with the temporary file factory, or from a configuration, gives the same answers and has the same size as one created with the in-memory factory, whatever the calls.", "quantifier": "every codec, capacity and history of calls", "why_tests_cant": "Unbounded histories. (Violated: the files are opened for writing only, so once an element is stored every call except push, size and capacity panics, and flush loses everything. Proved: exactly which calls panic; until one does, the answers and sizes are those of the container in memory.)", "anchors": ["src/stream/file_stream.rs: new, TempFileStreamFactory", "src/stream/io_vec.rs", "src/stream/building_block.rs", "src/stream/get.rs", "src/stream/config.rs: build"]}
{"id": "C80", "title": "A Compressed container stored in a file behaves like one stored in memory", "statement": "A Compressed container on a file, in particular one built from a configuration, gives the same answers and has the same size as one on an in-memory stream, whatever the calls.", "quantifier": "every codec, compression, capacity, file content and history of calls", "why_tests_cant": "Unbounded histories. (Violated: the file is opened for writing only, so reading it back fails and push returns every batch. Proved: it is exactly a container that never panics, refuses everything and stays empty.)", "anchors": ["src/stream/file_stream.rs: new", "src/compression/compression.rs: read_bytes, read, write", "src/compression/building_block.rs", "src/compression/config.rs: build"]}
{"id": "C81", "title": "The eviction order of a decorated container shared by threads respects the order of the pushes", "statement": "In a container built from a configuration with a Fifo or Lru decorator over a Sequential Array and shared with into_concurrent(), whatever the threads do: if a pop or a push evicts x and leaves y, then the push of y did not return before the push of x was called.", "quantifier": "every number of threads, schedule, capacity, size function, history of calls without get and get_mut where no element is pushed twice", "why_tests_cant": "Schedules and histories.", "anchors": ["src/decorator/building_block.rs: push, pop", "src/decorator/fifo.rs: wrap, cmp", "src/decorator/lru.rs: wrap, cmp", "src/utils/timestamp.rs: Counter", "src/objsafe/concurrent.rs", "src/config/config_builder.rs: build"]}
{"id": "C82", "title": "A decorated container shared by threads behaves as if the calls were made one after the other", "statement": "The calls threads make on a decorated container shared with into_concurrent() have the results they would have if made one after the other in some order compatible with the order in which they were called and returned.", "quantifier": "every number of threads, schedule, decorator, contract-respecting container, history", "why_tests_cant": "Schedules. (Violated: elements are decorated before they are stored, so of two overlapping pushes the one stored last may be evicted first although the other was seen alone before; and take_multiple is a loop of takes, not one call. Proved: when pushes do not overlap and take_multiple is not called, the calls are linearizable; in every schedule nothing is invented or given twice, nothing is lost unless a call panics, and a call panics only by contention.)", "anchors": ["src/decorator/building_block.rs", "src/objsafe/concurrent.rs", "src/objsafe/building_block.rs: take_multiple", "src/config/config_builder.rs: build"]}
{"id": "C83", "title": "Each use of a looked up value counts as one access", "statement": "On an Array decorated with any policy, keeping the cell of get or get_mut and using it n times has the effect of n lookups each using its cell once; a cell that is not used has no effect. With Lru, whatever was evicted was last used before what was kept; with Fifo lookups change nothing to what is evicted.", "quantifier": "every policy, size function, capacity, history and number of uses of each cell", "why_tests_cant": "Unbounded uses and histories.", "anchors": ["src/decorator/get.rs: deref, deref_mut", "src/array/get.rs", "src/decorator/lru.rs: get, get_mut", "src/decorator/fifo.rs: get, get_mut"]}
{"id": "C84", "title": "A Compressed container decorated with Fifo evicts the oldest elements", "statement": "After any history of calls pushing absent keys, with lookups whose cells are used any number of times without making an element longer, pop and push on a Compressed decorated with Fifo evict elements pushed before those kept.", "quantifier": "every codec, compression, capacity and history", "why_tests_cant": "Unbounded histories.", "anchors": ["src/compression/building_block.rs: push, pop", "src/compression/get.rs", "src/decorator/fifo.rs", "src/decorator/building_block.rs"]}
{"id": "C85", "title": "A Compressed container decorated with Lru evicts the least recently used elements", "statement": "After any history of calls pushing absent keys and lookups, pop on a Compressed decorated with Lru evicts elements last used (pushed, or looked up with a cell used at least once) before those kept.", "quantifier": "every codec, compression, capacity, clock and history", "why_tests_cant": "Unbounded histories. (Violated: get works on a copy, and the copy of get_mut is written back only if it was mutably dereferenced, so the time stamp set by a read is lost. Proved with pushes and writes as the only uses.)", "anchors": ["src/compression/get.rs: get, get_mut, Drop", "src/decorator/get.rs: deref", "src/decorator/lru.rs: get, get_mut"]}
{"id": "C86", "title": "A Stream container decorated with Fifo evicts the oldest elements", "statement": "After any history of calls pushing absent keys and lookups, pop and push on a Stream container decorated with Fifo hand back elements pushed before those kept.", "quantifier": "every codec, capacity and history", "why_tests_cant": "Unbounded histories. (Violated: push on a full Stream container hands back the new elements and keeps the old ones. Proved for pop, and that push never evicts a stored element.)", "anchors": ["src/stream/building_block.rs: push, pop", "src/stream/get.rs", "src/decorator/fifo.rs", "src/decorator/building_block.rs"]}
{"id": "C87", "title": "A Stream container decorated with Lru evicts the least recently used elements", "statement": "After any history of calls pushing absent keys and lookups, pop on a Stream container decorated with Lru evicts elements last used (pushed, or looked up with a cell used at least once) before those kept.", "quantifier": "every codec, capacity, clock and history", "why_tests_cant": "Unbounded histories. (Violated: get and get_mut work on copies, written back only if mutably dereferenced, so that a read does not count. Proved with pushes and writes as the only uses.)", "anchors": ["src/stream/get.rs", "src/stream/io_vec.rs", "src/decorator/get.rs: deref", "src/decorator/lru.rs: get, get_mut"]}
{"id": "C88", "title": "A configuration written is read back", "statement": "Whatever configuration of whatever type is read from a text, the text that to_toml_string() writes is read by the same type as the same configuration, and builds the same container through ConfigBuilder.", "quantifier": "every configuration type, every text it accepts", "why_tests_cant": "Unbounded nesting. (Violated by ConfigBuilder: what it writes can never be read back, whatever it is. Proved for all other types, through ConfigBuilder too when the id is the documented one, which the types do not check.)", "anchors": ["src/config/mod.rs: to_toml_string, from_string, from_toml", "src/*/config.rs: from_toml, build", "src/config/config_builder.rs: ConfigBuilder"]}
{"id": "C89", "title": "as_config() of a builder can be built", "statement": "as_config() of every builder returns a configuration and, if the builder can build, so can the configuration, a container of the same capacity.", "quantifier": "every builder, of any shape and depth", "why_tests_cant": "Unbounded shapes. (Violated: as_config panics when a nested capacity is 2^63 or more, exactly then; and a Decorator or Inclusive inside another container gives a configuration whose build panics. Proved for the other builders.)", "anchors": ["src/*/config.rs: as_config, build", "src/decorator/config.rs: as_config, build", "src/inclusive/config.rs: as_config, build", "src/config/generic_config.rs: from_toml"]}
{"id": "C90", "title": "A server configuration serves the container it describes", "statement": "For every accepted SocketServerConfig whose container can be built, a client of the server is told what a caller of the container that ConfigBuilder builds from the same container configuration is told.", "quantifier": "every server configuration, every sequence of requests and network schedule", "why_tests_cant": "Unbounded histories and schedules. (Violated: the decorator of the container is ignored, whatever it holds, so another element is evicted. Proved without decorator, byte by byte as long as no request arrives with a pause; the server answers unless 2^64 elements are to be sent; it accepts exactly one connection.)", "anchors": ["src/socket/config.rs: SocketServerConfig", "src/socket/server_thread.rs: ServerThreadBuilder::new, spawn", "src/config/generic_config.rs", "src/config/config_builder.rs: from_toml"]}
{"id": "C91", "title": "A Stream container announced as concurrent can be shared by threads", "statement": "A Stream container made a DynBuildingBlock with From is announced as concurrent, so into_concurrent() accepts it: clones can be used by several threads, no call panics, the size never exceeds the capacity, take returns an element with the key asked, and when no call is in progress every element pushed is in the container or was returned, once.", "quantifier": "every codec, capacity, number of threads, schedule and history", "why_tests_cant": "Schedules. (Violated in every part: there is no lock in Stream. Two pushes exceed the capacity; two takes of the same key return the element of another key, or panic and lose another element; a pop may lose an element without a panic. Proved, even in the best case where single accesses to the streams are atomic: nothing is invented or duplicated, the size is at most the number of threads times the capacity, only take, take_multiple and pop panic; with at most one thread removing at a time no call panics, keys are right, a take finds a key that is there and nothing is lost; a call alone is the sequential one.)", "anchors": ["src/stream/stream.rs: From<ByteStream> for DynBuildingBlock", "src/stream/building_block.rs", "src/objsafe/building_block.rs: into_concurrent", "src/objsafe/concurrent.rs"]}
{"id": "C92", "title": "A multi-level Exclusive cache decorated with Lru evicts the least recently used elements", "statement": "After any history of calls pushing absent keys, and of lookups, on Exclusive levels of Arrays (to any depth) decorated with Lru, pop and push evict elements last used (pushed, or looked up with a cell used at least once) before all those kept, whatever their level.", "quantifier": "every nesting of Exclusive over Arrays counting their elements, with Profilers, FlushStoppers and Sequentials anywhere, every capacity, clock and history", "why_tests_cant": "Unbounded shapes and histories. (Violated: a lookup whose cell is not used moves an element to the front level without renewing its time stamp, and elements are evicted from the back level first. Proved when every cell handed out is used.)", "anchors": ["src/exclusive/building_block.rs: push, pop", "src/exclusive/exclusive.rs: downgrade", "src/exclusive/get.rs", "src/decorator/lru.rs", "src/array/building_block.rs: push, pop"]}
{"id": "C93", "title": "A multi-level Exclusive cache decorated with Fifo evicts the oldest elements", "statement": "After any history of calls pushing absent keys, and of lookups, on Exclusive levels of Arrays (to any depth) decorated with Fifo, pop and push evict elements pushed before all those kept, whatever their level.", "quantifier": "every nesting of Exclusive over Arrays counting their elements, with Profilers, FlushStoppers and Sequentials anywhere, every capacity and history", "why_tests_cant": "Unbounded shapes and histories. (Violated: a lookup moves the element to the front level, from which it is evicted last. Proved without lookups.)", "anchors": ["src/exclusive/building_block.rs: push, pop", "src/exclusive/exclusive.rs: downgrade", "src/exclusive/get.rs", "src/decorator/fifo.rs"]}
{"id": "C94", "title": "An Lru cache of any depth is a textbook LRU cache", "statement": "Used as a cache (get a key and read it; if it is missing, fetch the value and push it), Exclusive levels of Arrays to any depth (or one Array), decorated with Lru, hit exactly when the key is among the last distinct keys requested, as many as the total capacity; every value given is the one fetched; a larger total capacity never turns a hit into a miss; no call panics.", "quantifier": "every nesting of Exclusive over Arrays counting their elements, with Profilers, FlushStoppers and Sequentials anywhere, every capacity, strictly increasing clock, fetched values and sequence of requests", "why_tests_cant": "Unbounded shapes and request sequences.", "anchors": ["src/exclusive/building_block.rs: push", "src/exclusive/get.rs", "src/decorator/lru.rs", "src/decorator/get.rs", "src/array/building_block.rs: push", "src/array/get.rs"]}
{"id": "C95", "title": "A Fifo cache is a textbook FIFO cache", "statement": "Used as a cache, an Array decorated with Fifo holds after every request exactly the keys that a queue of its capacity holds, hits exactly when the queue does and gives the value fetched. As in any FIFO cache a larger capacity may give more misses (Belady).", "quantifier": "every capacity, fetched values and sequence of requests", "why_tests_cant": "Unbounded request sequences.", "anchors": ["src/decorator/fifo.rs", "src/decorator/get.rs", "src/array/building_block.rs: push", "src/array/get.rs"]}
{"id": "C96", "title": "A container in front of a memory is transparent", "statement": "When keys missing in the container are loaded from a memory and pushed, values are changed with get_mut, and what pop, push, take and take_multiple hand back is written to the memory, every value seen is that of the memory without the container, and after flush the memory is the same too.", "quantifier": "every container, capacity, memory, sequence of reads, writes and evictions", "why_tests_cant": "Unbounded shapes and histories. (Violated: an Inclusive whose front level is smaller than its back level loses writes; flush on a Stream returns nothing; a FlushStopper keeps everything. Proved for all nestings of Array, Exclusive, Batch, Associative, Profiler, Sequential and decorators, for a BTree whose keys all take the same space whatever the value, for Compressed when writes do not make values longer, and for Inclusive levels of the same capacity.)", "anchors": ["src/building_block.rs", "src/array", "src/exclusive", "src/batch", "src/associative", "src/inclusive/building_block.rs: push, flush", "src/inclusive/get.rs", "src/btree", "src/compression", "src/stream/building_block.rs: flush"]}
{"id": "C97", "title": "A set-associative cache is a textbook cache set by set", "statement": "Used as a cache, an Associative decorated with Lru (as a whole, or set by set; each set an Array or Exclusive levels of Arrays) hits exactly when the key is among the keys of the same set requested last, as many as the capacity of this set, and each set stores exactly those; with Fifo each set is a queue of its own keys. Every value given is the one fetched and no call panics.", "quantifier": "every hash, number and capacity of sets, clock, fetched values and sequence of requests", "why_tests_cant": "Unbounded number of sets and requests.", "anchors": ["src/associative/building_block.rs: push", "src/associative/get.rs", "src/associative/associative.rs: set", "src/decorator/lru.rs", "src/decorator/fifo.rs", "src/decorator/get.rs", "src/array/building_block.rs: push"]}
{"id": "C98", "title": "Sizes and capacities are exact on a 64 bit machine", "statement": "Compiled for a 64 bit machine, in the debug profile (overflow panics) or in the release profile (overflow wraps), a container whose capacity is a machine word gives, whatever is called, the results, size() and capacity() that exact arithmetic gives.", "quantifier": "every nesting of containers, capacity, size function, history, and both profiles", "why_tests_cant": "Sizes near 2^64 and unbounded histories. (Violated: a batch whose sizes add up to 2^64 or more panics in the debug profile, and in the release profile is stored beyond the capacity; capacity() of Exclusive levels whose capacities add up to 2^64 panics or is 0. Proved whenever the sizes of what is stored and of what is being pushed add up to a machine word: no overflow happens in either profile. pop of Associative panics in both profiles, see C20.)", "anchors": ["src/array/building_block.rs: push, pop", "src/btree/building_block.rs: push, pop", "src/exclusive/building_block.rs: capacity, size, pop", "src/batch/building_block.rs: capacity, size, pop", "src/associative/building_block.rs: capacity, size, pop"]}
{"id": "C99", "title": "The lock orders memory", "statement": "With the memory orderings of the source on a weakly ordered memory (stale reads, no sequential consistency), two accesses to the data a RWLock protects, by different threads that hold the lock (exclusively to write), one of them a write, are ordered by happens-before: there is no data race. A thread holding the lock exclusively is the only one holding it.", "quantifier": "every number of threads, schedule, stale read allowed by coherence, spurious failure and panic", "why_tests_cant": "Schedules and memory reorderings that a test machine may never show.", "anchors": ["src/utils/lock.rs: try_lock, try_lock_mut, lock, lock_mut, unlock, Drop"]}
{"id": "C100", "title": "Threads holding cells of a shared container see a sequential execution", "statement": "When a container shared by clones of a Sequential is used by several threads that hold the cells returned by get and get_mut while the others go on, every call answers, and every cell shows, what a sequential execution would where each access through a cell is a get or get_mut of its own; a value written through a cell is what later accesses to the key see; a cell is never left pointing to nothing or to another key, and dropping a cell does not panic or lose elements.", "quantifier": "every container, capacity, number of threads, schedule and history of calls and cell accesses", "why_tests_cant": "Schedules and unbounded histories. (Violated: get locks for reading only although get of a BTree takes the element out and get of an Exclusive moves elements, so read-only accesses disturb each other and a cell may show the value of another key; flush does not wait for read cells; the lock is released before the element of a dropped BTree cell goes back, so a push in between makes the drop panic and loses an element. Proved for Arrays in any nesting of Batch, Associative and FlushStopper, for capacity, size, contains, push, get and get_mut.)", "anchors": ["src/sequential/get.rs: SequentialCell, Drop", "src/sequential/sequential.rs", "src/array/get.rs", "src/btree/get.rs", "src/exclusive/get.rs", "src/batch/get.rs", "src/associative/get.rs"]}
{"id": "C101", "title": "Any nesting of all the building blocks serves lookups and writes", "statement": "Whatever the nesting of Array, BTree, Compressed, Exclusive (whatever is behind), Batch, Associative, FlushStopper, Sequential, dynamic containers, decorators and profilers, when elements all take the same room and every leaf has room for one: in every history of calls pushing keys that are not held, of get and of get_mut that keep the size of elements, no call panics; get and get_mut find exactly the keys held, with the value last written; capacity() is constant, size() <= capacity(), contains, take, take_multiple, flush and pop give exactly what is held, with the values last written.", "quantifier": "every nesting and depth, every history of fresh keys, reads and writes", "why_tests_cant": "Unbounded compositions and histories. (Violated: to bring an element to the front, an Exclusive exchanges it with one of the front and asserts that the back takes it; an Associative behind whose set for this one is full, or a Compressed without 8 spare bytes for a second header, hands it back and the access panics. Proved for all other shapes.)", "anchors": ["src/exclusive/get.rs: get, get_mut", "src/exclusive/exclusive.rs: downgrade", "src/*/get.rs", "src/*/building_block.rs", "src/compression/building_block.rs: push", "src/associative/building_block.rs: push"]}
{"id": "C102", "title": "Threads may hold cells of a shared Compressed container", "statement": "When a Compressed container shared by clones of a Sequential is used by several threads that hold the cells returned by get and get_mut while the others go on, every call answers, and every cell shows, what a sequential execution would where each access through a cell is a get or get_mut of its own; once the cells are dropped the container is the one of this execution: no element pushed is lost and no element taken comes back.", "quantifier": "every codec where the elements of a key take the same room, compressor, capacity, number of threads, schedule and history of capacity, size, contains, push, get, get_mut and cell accesses", "why_tests_cant": "Schedules and unbounded histories. (Violated: a cell of Compressed is a copy of all the elements, written back when it is dropped, which happens after the lock was released: an element pushed in between is lost although push gave nothing back, and one taken in between is in the container again. Proved when no other thread takes a step between the unlock and the write-back of a written cell.)", "anchors": ["src/sequential/get.rs: SequentialCell, Drop", "src/compression/get.rs: CompressedCell, Drop, get, get_mut"]}
{"id": "C103", "title": "Lrfu ranks elements in single precision as it does in exact arithmetic", "statement": "Computed in f32, the scores of Lrfu are finite numbers and rank the elements, at any time, as the exact scores (C71) do.", "quantifier": "every exponent of at least 1, every pair of histories of uses, time and rounding", "why_tests_cant": "Rounding errors accumulate over unbounded histories. (Violated: from an age of 2^24 on, elements used at different times have the same score, and elements may be ranked in the inverse order; with an exponent below 1 scores become infinite; an exponent that is not a number is accepted and makes all elements equal. Proved: scores are finite and at most 4 times the age; off by at most one unit roundoff (2^-24) for each of two operations per use, or the exact score of an exponent off by two such factors, whatever the number of uses; elements whose exact scores differ by more are ranked as they should; with a large exponent an element used earlier is never kept for one used later; comparison at one time is a total preorder for every exponent but NaN.)", "anchors": ["src/decorator/lrfu.rs: touch, score, partial_cmp, cmp, new", "src/utils/timestamp.rs: Sub"]}
{"id": "C104", "title": "A stream on a file is a stream of bytes as one in memory is", "statement": "FileStream and VecStream implement the same trait: every sequence of read, write, seek and resize on a new FileStream returns what it returns on a new VecStream, and stores the same bytes.", "quantifier": "every sequence of operations, offsets and bytes", "why_tests_cant": "Unbounded histories. (Violated: no read succeeds on a FileStream, whatever was done before; a seek before the start is an error in a file and goes to the start in memory; a seek behind the end, or a cut before the cursor, makes a hole filled with zeros in a file only. Proved: the exact effect of each operation on a file; the same results and bytes as in memory for operations that do not read and keep the cursor in the file; a vector of elements in a file that could be read gives what one in memory gives.)", "anchors": ["src/stream/file_stream.rs: new, read, write, seek, resize", "src/stream/vec_stream.rs", "src/stream/io_vec.rs: append, swap_remove, iter, size", "src/stream/mod.rs: StreamBase"]}
{"id": "C105", "title": "A BTree decorated with Lrfu works as any decorated container", "statement": "A BTree decorated with Lrfu hands back an element that is taken, looks up what it holds, holds as much as size() tells and no more than its capacity, evicts the elements used least recently, and no call panics.", "quantifier": "every exponent, capacity and history of push, pop, take, get and flush", "why_tests_cant": "Unbounded histories. (Violated: the value of an Lrfu cell depends on the moment it is read, so that a cell compared with itself is smaller; the ordered set of the BTree does not find the element to remove and every take, get and get_mut of a held key, and every push of one, panics; pop may evict one element more than it counts, size() then exceeds what is held, can exceed the capacity, and the next push panics. Proved, within 2^24 readings of the clock: which calls panic, that the others lose and duplicate nothing, keep the keys distinct and what is held within the capacity and size(), and that pop evicts what was pushed first.)", "anchors": ["src/btree/building_block.rs: take, pop, push", "src/btree/btree.rs: insert_values_unchecked, as_value", "src/btree/get.rs", "src/decorator/lrfu.rs: cmp, score", "src/decorator/building_block.rs: push", "src/utils/timestamp.rs: Counter"]}
{"id": "C106", "title": "Asking a stream for its length tells it and changes nothing", "statement": "On a stream in memory or on a file, after any operations, len() is the number of bytes stored, is_empty() is true exactly when there is none, and neither changes the bytes or the results of the operations that follow.", "quantifier": "every sequence of read, write, seek and resize before and after", "why_tests_cant": "Unbounded histories. (Violated: is_empty() is true exactly when there are bytes; both move the cursor to the end. Proved: len() is right, the bytes stay, and what follows works from the end of the stream.)", "anchors": ["src/stream/mod.rs: StreamBase::len, StreamBase::is_empty", "src/stream/vec_stream.rs: seek", "src/stream/file_stream.rs: seek"]}
{"id": "C107", "title": "The size of elements can be changed on an empty container", "statement": "with_element_size on an Array or a BTree panics unless the container is empty; the container then works with the new function: size() is the sum of the new sizes, within the capacity, and no call panics.", "quantifier": "every pair of size functions, capacity and history before and after", "why_tests_cant": "Quantifies over functions and unbounded histories. (Violated: the check is that size() is 0, so a container holding elements of size 0 accepts a new function that gives them a size; then size() is wrong, the capacity is exceeded and take panics. Proved: the change is accepted exactly when size() is 0 and the contract holds afterwards if and only if the elements held have no size with the new function.)", "anchors": ["src/array/array.rs: with_element_size", "src/btree/btree.rs: with_element_size", "src/array/building_block.rs", "src/btree/building_block.rs"]}
{"id": "C108", "title": "Lookups in an Inclusive return and see the last value, whatever is behind", "statement": "In an Inclusive whose front level has room for one element, whatever the container behind (Array, BTree, Sequential, Batch), get and get_mut return, without panic and without waiting for ever, the value last written, although the cell of the back level is held while the elements evicted from the front are written back.", "quantifier": "every front level, capacities, container behind and history of fresh keys, reads and writes (without take and pop, see C14)", "why_tests_cant": "Unbounded histories and compositions. (Violated: over a Sequential the lock is held for reading by the cell when the write-back asks for it exclusively, so that the lookup waits for itself as soon as the front evicts an element that was written to; over a Batch of BTrees the cell is dropped into a tree that was freed. Proved: cells that do nothing when dropped change nothing; levels that count their elements never panic; over a BTree no value is stale, a lookup panics exactly if the front hands back the key itself, written before, and never with an Array in front.)", "anchors": ["src/inclusive/get.rs: downgrade, get, get_mut", "src/btree/get.rs: Drop", "src/sequential/get.rs", "src/batch/get.rs", "src/batch/building_block.rs: push"]}
{"id": "C109", "title": "A Batch decorated with Fifo used as a cache is a FIFO cache", "statement": "A Batch of Arrays (which count elements, of any capacities) decorated with Fifo and used as a cache (look a key up, fetch and push it if it is missing) answers a request from the cache exactly when a FIFO cache of the total capacity holds the key.", "quantifier": "every number of Arrays, capacities, values fetched and sequence of requests", "why_tests_cant": "Unbounded request sequences. (Violated: while the batch fills up, push moves the Arrays visited to the back and the order of arrival is lost: two Arrays of one element, after the requests 1, 2, 3, hold 3 and 1, and pop may evict the key that came last. Proved: no call panics, every answer is the value fetched, nothing is evicted before the total capacity is used, and after twice as many misses as the total capacity the keys held are those last missed, from then on requests are answered as by the FIFO cache, and pop evicts the keys missed first. With Lru a key just read can be the next one evicted, for ever.)", "anchors": ["src/batch/building_block.rs: push, pop", "src/batch/get.rs", "src/decorator/fifo.rs", "src/array/building_block.rs: push"]}
{"id": "C110", "title": "The times of a Profiler are those of the calls", "statement": "After any history whose calls took less than 2^64 nanoseconds in all, the time a Profiler reports for each method is the time spent in it since the last reset, the time of hits is that of the lookups that found a key, the time of misses that of the lookups of keys that were not found, and the total is the time of all calls.", "quantifier": "every history of calls, found or missed keys, sizes and times", "why_tests_cant": "Unbounded histories and real times. (Violated: the time of every take_multiple is counted as time of hits and as time of misses, even if it finds nothing. Proved: everything else; all the counters are exact modulo 2^64; the times of hits and misses add up to the time of the lookups plus that of take_multiple.)", "anchors": ["src/profiler/stats.rs", "src/profiler/building_block.rs", "src/profiler/get.rs", "src/profiler/profiler.rs: time_stats, reset"]}
{"id": "C111", "title": "An Inclusive decorated with a policy and used as a cache follows the policy", "statement": "An Inclusive of two Arrays counting elements, the front one not larger than the back one, decorated with Fifo (with Lru) and used as a cache (look a key up with get or get_mut, fetch and push it if it is missing) answers requests, with the values last written, as the textbook FIFO (LRU) cache of the capacity of the back level does.", "quantifier": "every capacities, front level, values fetched and sequence of reads and writes", "why_tests_cant": "Unbounded request sequences. (Violated for Lru: reading a key changes its copy in front only; the back level evicts what was pushed first although it was just read. Proved: with Fifo it is the textbook FIFO cache for reads and writes, whatever the front level; with Lru and reads it is the FIFO cache too.)", "anchors": ["src/inclusive/building_block.rs: push", "src/inclusive/get.rs: downgrade, get, get_mut", "src/inclusive/inclusive.rs: InclusiveCell, clone, deref_mut", "src/decorator/lru.rs", "src/decorator/fifo.rs", "src/decorator/get.rs"]}
{"id": "C112", "title": "Calls on a shared Sequential complete", "statement": "When several threads use clones of a Sequential and go on, in whatever order, as long as any of them can, all calls return.", "quantifier": "every container, number of threads, history of calls and cells, and schedule", "why_tests_cant": "Schedules and unbounded histories. (Violated: a cell makes calls wait until it is dropped, so that a thread that holds one and pushes through a clone waits for itself, and readers that take turns make push wait for ever under a fair scheduler. Proved: a call waits only before it reaches the container; capacity, size, contains, take_multiple, flush and get wait for push and get_mut only, not for readers nor their cells; take, pop, push and get_mut wait for get and flush too; no set of calls waits for each other; a call takes at most five steps, and when no thread can go on a call that has not returned waits for a cell that is held or for a thread that panicked.)", "anchors": ["src/sequential/building_block.rs", "src/sequential/get.rs", "src/utils/lock.rs: lock, lock_for, lock_mut, lock_mut_for"]}
{"id": "C113", "title": "Containers stay usable when functions of the user panic", "statement": "When element_size, a comparison or a hasher panics during a call and the user catches the panic, the container can still be used: it is within its capacity, which has not changed, later calls return, contains tells what take finds, and elements are not lost by calls that only look up.", "quantifier": "every assembly of containers, history of calls, and choice of the calls of user functions that panic", "why_tests_cant": "Every point of every method where a user function may panic, in unbounded histories. (Violated: Batch loses the containers that push had reached, with their content and capacity; a take of a BTree that panics leaves a wrong size and makes later pops panic; a push of a BTree that panics may leave it over its capacity, and later pushes panic; Inclusive keeps copies of elements that are gone. Proved for Array, Exclusive, Associative, FlushStopper, Decorator, Profiler and dynamic containers in any nesting; with Batch, all but the capacity.)", "anchors": ["src/array/building_block.rs", "src/btree/building_block.rs: take, pop, push", "src/batch/building_block.rs: push", "src/exclusive/building_block.rs", "src/inclusive/building_block.rs", "src/associative/building_block.rs", "src/decorator/building_block.rs", "src/profiler/building_block.rs"]}
{"id": "C114", "title": "Any nesting over serialised storage keeps the contract", "statement": "Whatever the nesting of Exclusive, Batch, FlushStopper, Sequential, dynamic containers, decorators and profilers over Arrays, Streams and Compressed containers: no call panics, the size stays within the capacity, which never changes, every element given is inside or handed back, once, lookups tell what is inside, and pop frees what it is asked or empties the container.", "quantifier": "every nesting to any depth, serialisation, capacity and history of calls with any batches", "why_tests_cant": "Unbounded nestings and histories. (Violated when a Stream is inside: flush of an Array in front of a Stream loses the elements of the Array, and take_multiple hands out copies of what stays inside.)", "anchors": ["src/stream/building_block.rs: ByteStream", "src/compression/building_block.rs: Compressed", "src/exclusive/building_block.rs: flush", "src/batch/building_block.rs: Batch"]}
{"id": "C115", "title": "A memory over a Stream, with Lru, is an LRU cache of their total capacity", "statement": "Exclusive with Arrays counting elements in front and a Stream behind, decorated with Lru and used as a cache (look a key up, fetch and push it if it is missing), answers a request from the cache exactly when an LRU cache of the total capacity holds the key, every answer being the value fetched, and no call panics.", "quantifier": "every number of tiers in memory, capacities, serialisation where all elements take the same room in the stream, values fetched and sequence of requests", "why_tests_cant": "Unbounded request sequences. (Violated: a Stream never evicts, it hands back what it has no room for: once it is full, what falls out of the memory is lost while what the stream holds stays for ever unless requested, and if nobody requests it the stream serves no purpose. Proved: no call panics, every answer is the value fetched; the memory is exactly the LRU cache of its own capacity, what falls out of it goes to the stream while there is room, and a key found in the stream goes back to memory; nothing is fetched twice while the keys requested fit.)", "anchors": ["src/exclusive/building_block.rs: push", "src/exclusive/get.rs: downgrade, get", "src/stream/building_block.rs: push, take", "src/decorator/lru.rs", "src/array/building_block.rs: push"]}
{"id": "C116", "title": "Remote clients and local threads can share a container", "statement": "When a Sequential is shared, through its clones, by any number of server threads, each with a client, and of local threads, over connections that lose nothing and time nothing out, then under any schedule every call of a client and of a local thread takes effect exactly once, atomically, between the moment it is made and the moment it returns, with the result the container gives in that order, and no client's call fails.", "quantifier": "every container, number of threads and clients, history of calls and schedule", "why_tests_cant": "Schedules and unbounded histories. (Violated: a server thread whose call meets a local thread in the middle of one panics, and its client with it; after a panic a client's push returns as if everything were stored and stores nothing. Proved: as long as no call panics, all of it; panics included, all but that push and the failed calls, which fail only because the server thread panicked while answering them; when nobody else is in a call a client's call completes with what a direct call returns.)", "anchors": ["src/socket/server.rs: match_response, process_request", "src/socket/server_thread.rs: ServerThread, tests::make_container_server_client", "src/socket/client.rs: process_request", "src/socket/building_block.rs", "src/sequential/building_block.rs", "src/sequential/concurrent.rs"]}
{"id": "C117", "title": "A Stream survives failures of its streams", "statement": "Whatever operations of the streams under a Stream fail (seek, read, write, resize) or transfer fewer bytes than asked, in any history of contains, take, pop and push: no call panics, the container stays within its capacity, and every element given is inside or was handed back.", "quantifier": "every serialisation, capacity, history of calls, and choice of the operations that fail or stop short", "why_tests_cant": "Every point of every method where an operation on a stream may fail, in unbounded histories. (Violated: a write that fails loses the element silently, or makes push panic if the element takes 8192 bytes or more; one that stops half-way corrupts what is pushed next; a resize that fails leaves the last element twice and the one taken nowhere; a short read, which is no failure, makes take lose the element; a seek that fails in size() lets push exceed the capacity; a read that fails makes contains, take and pop panic. Proved: when only seeks and reads fail, nothing is lost, calls that return tell the truth, calls that panic change nothing and are not push, and everything works again afterwards; the capacity is exceeded only if a seek fails; push never touches streams of other size classes.)", "anchors": ["src/stream/io_vec.rs: append, swap_remove, iter, size, IOChunk", "src/stream/building_block.rs: contains, take, pop, push, size", "src/stream/mod.rs: Stream, StreamFactory"]}
{"id": "C118", "title": "A Compressed container whose stream fails keeps its elements", "statement": "When operations of the stream under a Compressed container fail (a full or broken disk), no call panics, the container respects its capacity, and every element given to it is inside or was handed back.", "quantifier": "every codec and compression satisfying the round-trip law, every history of calls, every assignment of failures to the operations of the stream, every cut of a written frame", "why_tests_cant": "the failures of a disk may hit any operation of any history; tests run on streams that do not fail. (Violated: the contents are discarded before the new contents are written, so a failed seek or write in take, pop, push or get_mut panics and loses everything inside, and a frame cut in the middle makes every later call answer as if the container were empty and full, for ever. Proved: when only reads and resizes fail, each call does exactly what it does without failures or leaves the container as it was, nothing is lost over any history except what a panicking push was given, and calls panic only when a resize failed.)", "anchors": ["src/compression/compression.rs: read_bytes, read, write", "src/compression/building_block.rs: size, contains, take, take_multiple, pop, push, flush", "src/compression/get.rs: get, get_mut, CompressedMutCell::drop", "src/stream/mod.rs: Stream"]}
{"id": "C119", "title": "Accesses through any nesting over serialised storage find and change what they should", "statement": "Whatever the nesting of Exclusive, Batch, FlushStopper, Sequential, dynamic containers, decorators and profilers over Arrays, Streams and Compressed containers, in any history that mixes get and get_mut with contains, take, pop and push: an access returns, finds a value whenever the key is inside, changes this value only, and what was given, as last written, is inside or was handed back, once.", "quantifier": "every nesting to any depth, serialisation, capacity, keys given several times, changes that keep the room of an element, and history of calls", "why_tests_cant": "Unbounded nestings and histories. (Violated by Exclusive: when the front has no room for the element found behind, get finds nothing although contains says it is there; when the element pushed out of the front takes more room in the Stream behind than the one taken from it, get panics. Proved: all of it without Exclusive; with it, an access that returns found nothing and changed nothing or found a value of the key and changed it only, and no other call panics.)", "anchors": ["src/stream/get.rs: get, get_mut", "src/compression/get.rs: get, get_mut", "src/array/get.rs", "src/exclusive/get.rs", "src/exclusive/exclusive.rs: downgrade", "src/batch/get.rs", "src/profiler/get.rs", "src/decorator/get.rs", "src/sequential/get.rs"]}
{"id": "C120", "title": "Accesses, take_multiple and flush of a Stream survive failures of its streams", "statement": "Whatever operations of the streams under a Stream fail (seek, read, write, resize) or transfer fewer bytes than asked, in any history that mixes get, get_mut, take_multiple and flush with contains, take, pop and push: no call panics, the container stays within its capacity, get and get_mut show the value of a key exactly when it is inside, get_mut changes this value only, take_multiple finds every key that is inside, flush hands out only what was inside, and no other call changes the contents.", "quantifier": "every serialisation, capacity, history of calls, changes that keep the room of an element, and choice of the operations that fail or stop short", "why_tests_cant": "Every point of every method where an operation on a stream may fail, in unbounded histories. (Violated: any failed read or seek panics; a failed read in flush loses everything; a write of a cell cut in the middle leaves a chunk that does not decode, after which lookups of other elements and pop panic for ever although nothing fails any more; a short read, which is no failure, makes get miss an element. Proved: when only seeks and reads fail, a panic changes nothing, except in flush, all calls that return tell the truth, and once the failures are over everything works as before; a write of a cell that fails at once changes nothing, and short writes are repaired.)", "anchors": ["src/stream/get.rs: get, get_mut", "src/stream/io_vec.rs: IOStructMut::drop, IOVecIterMut::next, IOIter::next, iter_mut, into_iter", "src/stream/building_block.rs: take_multiple, flush"]}
{"id": "C121", "title": "A shared Sequential survives panics of functions of the user", "statement": "When element_size, a comparison or the code that uses a cell panics and the user catches the panic, calls on every handle of the Sequential go on as on the container itself: they wait only for cells that are held, and reach the elements that are inside.", "quantifier": "every container, number of handles, history of calls and cells, choice of the user functions that panic, and of the handles and cells dropped by threads that unwind", "why_tests_cant": "Every point of every history where a user function may panic. (Violated: after a push or get_mut that panicked, every call on every handle waits for ever; after a flush or get, take, pop, push and get_mut wait for ever and the other calls panic; after take, take_multiple or pop, the next call panics; when a handle or a cell is dropped by a thread that unwinds, push returns an empty vector and its elements are lost, accesses find nothing, and the other calls panic. In all these cases the elements inside are never reached again. Proved: exactly this, for every history; and that as long as only capacity, size and contains panic, with handles and cells that survive, all calls are those of the container itself.)", "anchors": ["src/sequential/building_block.rs", "src/sequential/get.rs: get, get_mut, SequentialCell::drop", "src/utils/lock.rs: RWLock::drop, lock, lock_mut, unlock", "src/utils/shared_ptr.rs: as_mut, as_ref"]}
{"id": "C122", "title": "Copies are independent of the container, handles are the container", "statement": "Take any container built of Array, FlushStopper, Sequential, Decorator and Profiler, make copies (Clone::clone) and handles (Concurrent::clone) of it, of its copies and of its handles, at any time, and use all of them in any order: every call returns what it returns when each copy is a container of its own, equal to the copied one when it was made, and each handle is the container it was made from. Handles are made only if no policy with a counter (Fifo) is outside of the Sequential (see C56).", "quantifier": "every nesting, history of calls, accesses, copies and handles, and number of them", "why_tests_cant": "Unbounded histories and numbers of copies: a single pointer shared by mistake, or copied by mistake, shows only in some histories.", "anchors": ["src/array/array.rs: Clone", "src/flush_stopper/flush_stopper.rs: Clone", "src/sequential/sequential.rs: Clone", "src/sequential/concurrent.rs: Concurrent::clone", "src/decorator/decorator.rs: Clone", "src/decorator/concurrent.rs: Concurrent::clone", "src/profiler/concurrent.rs: Concurrent::clone", "src/utils/shared_ptr.rs: SharedPtr"]}
{"id": "C123", "title": "Stream and Compressed survive panics of user functions", "statement": "When the serialisation, deserialisation or comparison of keys and values, or the code that uses a cell, panics and the user catches the panic, the Stream or Compressed goes on: sizes and capacities are right, calls that return do what they do when nothing panics, and nothing is lost but what a push that panicked was given; the value of a cell whose user panics is the one from before or the one the user left there.", "quantifier": "every codec, compressor, capacity, history of calls and accesses, and choice of the user functions that panic", "why_tests_cant": "Every point of every call where a user function may panic, in any history. (Violated: a pop of a Stream that panics loses the elements it had removed already, and a flush that panics loses everything. Proved: all the rest, including that a pop only loses elements it would have returned; and for Compressed the whole property: a history with panics is the one without the calls that panicked.)", "anchors": ["src/stream/building_block.rs: take, take_multiple, pop, push, flush", "src/stream/get.rs: get, get_mut", "src/stream/io_vec.rs: swap_remove, append, IOStructMut::drop", "src/compression/building_block.rs", "src/compression/get.rs: get, get_mut, CompressedMutCell::drop", "src/compression/compression.rs: read, write"]}
{"id": "C124", "title": "Accesses in memory containers survive panics of user functions", "statement": "When a function of the user (eq, cmp, hash, element_size) or the code that uses the cell panics in a get or get_mut and the user catches the panic, the container goes on: an access that returns does what it does when nothing panics; one that panics leaves every element as it was, but for the value that was written, which is what the user left in the cell; a read that panics changes and loses nothing; the size stays within the capacity, and later accesses find every element that is there.", "quantifier": "every nesting of Array, Exclusive, Batch, Associative, FlushStopper, Decorator, Profiler and dynamic containers, history of calls and accesses, and choice of the user functions that panic", "why_tests_cant": "Every point of every access where a user function may panic, in every nesting and history. (Violated: Exclusive moves what is read from the back to the front through local variables, so a read that panics can lose the element read, or the one the front evicted for it. Proved: all of it for nestings without Exclusive; with Exclusive everything but the elements lost.)", "anchors": ["src/array/get.rs", "src/exclusive/exclusive.rs: downgrade, get, get_mut", "src/batch/get.rs", "src/associative/get.rs", "src/decorator/get.rs", "src/profiler/get.rs", "src/flush_stopper/get.rs", "src/exclusive/get.rs"]}
{"id": "C125", "title": "Accesses of a BTree survive panics of user functions", "statement": "When element_size or the code that uses a cell panics in a get or get_mut of a BTree and the user catches the panic, the BTree goes on: the element, which the cell owned, is back with the value the user left in the cell; nothing is lost, sizes and capacities are right, and later calls return.", "quantifier": "every element size, capacity, history of calls and accesses, and choice of the user functions that panic", "why_tests_cant": "Every point of every access where a user function may panic, in any history. (Violated: if element_size panics when the element is taken out, the element is lost, its size still counts and the next pop panics; if it panics when the cell is dropped, the element is lost. Proved: all of it when the user of the cell panics; and when element_size panics at the drop, that only that element is lost and all the rest holds.)", "anchors": ["src/btree/get.rs: get, get_mut, BTreeCell::drop", "src/btree/building_block.rs: take, push"]}
{"id": "C126", "title": "Accesses of an Inclusive survive panics of user functions", "statement": "When a function of the user (eq, clone, cmp, element_size) or the code that uses the cell panics in a get or get_mut of an Inclusive and the user catches the panic, the Inclusive goes on: a read that panics changes nothing that can be seen, a write that panics changes at most the value that the user was writing, values written before are not lost or replaced by stale ones, and later calls return.", "quantifier": "every policy, pair of capacities, history of calls and accesses, key, and choice of the user functions that panic", "why_tests_cant": "Every point of every access where a user function may panic, after any history. (Violated: while the element is copied to the front, a panic drops the evicted copies, so that values written before are stale or elements are lost, or leaves an element marked as copied that is not, on which take panics. Proved: all of it for keys that are in the front or not stored, later calls being those after no access or after a write that returned; and that accesses that return are right in all states.)", "anchors": ["src/inclusive/get.rs: downgrade, get, get_mut", "src/inclusive/inclusive.rs: clone"]}
