{"id": "C01", "title": "spsc_queue delivers every accepted element once, in order", "statement": "With one producer thread and one consumer thread, the sequence of values handed to the consumer (by pop, bulk pop, consume_one, consume_all, pop to iterator) is at every moment a prefix of the sequence of values accepted by push / bulk push: nothing is lost, duplicated, reordered or invented.", "quantifier": "every element type, capacity, sequence of producer calls, sequence of consumer calls and interleaving of their individual memory accesses, including stale index loads allowed by acquire/release", "why_tests_cant": "a test runs a few schedules on one memory model implementation; the claim is over all interleavings and all stale reads", "anchors": ["include/boost/lockfree/spsc_queue.hpp: ringbuffer_base::push, consume_one, consume_all, pop, pop_to_output_iterator"]}
{"id": "C02", "title": "spsc_queue never holds more than its capacity and fails a push only when full", "statement": "A spsc_queue constructed for N elements never holds more than N elements; push returns false (bulk push accepts fewer than offered) only if N elements accepted by push had not yet been released by the consumer as far as the producer could see, and it accepts exactly min(offered, free) elements.", "quantifier": "all N, all call sequences, all interleavings", "why_tests_cant": "boundary conditions depend on the wrap position of both indices and on the schedule", "anchors": ["include/boost/lockfree/spsc_queue.hpp: ringbuffer_base::push, write_available"]}
{"id": "C03", "title": "spsc_queue is free of data races and of accesses to dead or out-of-range slots under acquire/release", "statement": "In a program where only one thread pushes and only one thread pops, no two conflicting slot accesses are unordered by happens-before, no slot is read before construction or after destruction, and no access leaves the buffer, when the only synchronisation is the release stores and acquire loads of the two indices.", "quantifier": "all executions of the two threads under release/acquire semantics", "why_tests_cant": "race detectors see only executed schedules; x86 hides missing acquire/release", "anchors": ["include/boost/lockfree/spsc_queue.hpp: ringbuffer_base memory orders"]}
{"id": "C04", "title": "spsc_queue constructs and destroys each element exactly once", "statement": "Every accepted element is copy-constructed into storage holding no live object, and is destroyed exactly once: by the pop/consume call that takes it, by reset(), or by the queue's destructor; after the destructor no element is alive.", "quantifier": "all call sequences, interleavings, and the state in which the destructor runs", "why_tests_cant": "instance counting tests one history", "anchors": ["include/boost/lockfree/spsc_queue.hpp: run_functor_and_delete, copy_and_delete, reset, ~compile_time_sized_ringbuffer, ~runtime_sized_ringbuffer"]}
{"id": "C05", "title": "spsc_queue bulk operations transfer a contiguous block in order across the wrap-around", "statement": "push(begin,end) / push(ptr,n) accepts the first k = min(n, free) elements in order and returns k (or the iterator to element k); pop(ptr,n) writes the first k = min(n, available) elements in order to ptr[0..k) and returns k; pop(iterator) and consume_all deliver all available elements in order and return their number; whatever the position of the indices relative to the end of the buffer.", "quantifier": "all capacities, index positions, contents and request sizes", "why_tests_cant": "the two-section copy has a boundary at each index position and count", "anchors": ["include/boost/lockfree/spsc_queue.hpp: push(ConstIterator,...), pop(T*,...), pop_to_output_iterator, consume_all"]}
{"id": "C06", "title": "spsc_queue index arithmetic is exact in machine size_t", "statement": "For every buffer size that can be allocated and all valid indices, the size_t computations of next_index, read_available and write_available (with their unsigned wrap-around) give the mathematical values; read_available + write_available = capacity.", "quantifier": "all 64-bit size_t values of indices and size", "why_tests_cant": "2^192 combinations; unsigned underflow is intentional in the code", "anchors": ["include/boost/lockfree/spsc_queue.hpp: next_index, read_available, write_available"]}
{"id": "C07", "title": "spsc_queue availability queries are reliable for the thread entitled to call them", "statement": "If the consumer gets n from read_available(), its next pop/consume calls will deliver at least n elements; if the producer gets n from write_available(), its next n pushes succeed; neither ever exceeds the capacity; empty() returning false to the consumer guarantees that its next pop succeeds.", "quantifier": "all executions, including any activity of the other thread between the query and the use", "why_tests_cant": "the guarantee is about all future interference", "anchors": ["include/boost/lockfree/spsc_queue.hpp: read_available, write_available, empty"]}
{"id": "C08", "title": "spsc_queue front() names the element the next pop delivers", "statement": "When read_available() > 0 for the consumer, front() refers to a live element and it is the one delivered by the consumer's next pop; pushes meanwhile do not change it. A false result of empty() alone does not suffice: its loads are relaxed, and reading through the reference that front() then returns (without the assertion) can race with the construction of the element.", "quantifier": "all executions", "why_tests_cant": "depends on all interleavings of concurrent pushes", "anchors": ["include/boost/lockfree/spsc_queue.hpp: front"]}
{"id": "C09", "title": "spsc_queue reset empties the queue", "statement": "After reset() (no concurrent access) the queue is empty with full capacity again and every element it held has been destroyed exactly once, for trivially and non-trivially destructible T.", "quantifier": "all states in which reset can be called", "why_tests_cant": "index positions and contents unbounded", "anchors": ["include/boost/lockfree/spsc_queue.hpp: reset"]}
{"id": "C10", "title": "spsc_queue operations are wait-free", "statement": "Every single-element operation finishes within a fixed number of its own steps and every bulk operation within a number of steps linear in the elements transferred, whatever the other thread does.", "quantifier": "all states and schedules", "why_tests_cant": "a test cannot bound steps over all schedules", "anchors": ["include/boost/lockfree/spsc_queue.hpp: push, consume_one, consume_all, pop, next_index"]}
{"id": "C11", "title": "spsc_queue is linearizable", "statement": "When index loads return the latest value (sequential consistency), every concurrent history of one producer and one consumer is linearizable to a bounded FIFO queue of capacity N: each call takes effect at one instant, a bulk push appends a prefix of its range (none only if the range is empty or the queue full), a bulk pop removes a prefix of the queue (none only if it is empty or the limit 0). With bulk operations that transfer exactly as much as fits or is available at that instant, histories are not linearizable in general.", "quantifier": "all histories", "why_tests_cant": "linearizability quantifies over all histories", "anchors": ["include/boost/lockfree/spsc_queue.hpp"]}
{"id": "C12", "title": "spsc_queue and throwing consumers", "statement": "If the functor of consume_one throws, the queue is unchanged; if the functor of consume_all throws after consuming at least one element of a type with a destructor, the consumed elements have been destroyed but are still counted as available, so the next consumer call or the destructor uses a destroyed object (the code violates exactly-once destruction here).", "quantifier": "all states, all positions of the exception", "why_tests_cant": "requires quantifying over the throwing position and later calls", "anchors": ["include/boost/lockfree/spsc_queue.hpp: consume_one, consume_all, run_functor_and_delete"]}
{"id": "C13", "title": "spsc_queue constructor argument limits", "statement": "A run-time sized spsc_queue(n) has capacity n for every n < SIZE_MAX; for n = SIZE_MAX the internal size wraps to 0 and the first push never terminates.", "quantifier": "all size_t n", "why_tests_cant": "the failing value is one out of 2^64", "anchors": ["include/boost/lockfree/spsc_queue.hpp: runtime_sized_ringbuffer, next_index"]}
{"id": "C14", "title": "stack is linearizable", "statement": "Every concurrent history of push, bounded_push, range push, pop/consume_one, consume_all_atomic, consume_all_atomic_reversed and empty by any number of threads is linearizable to a sequential LIFO stack, as long as no thread is delayed between reading and compare-exchanging a tagged word while that word's tag wraps around completely.", "quantifier": "any number of threads, all histories, all interleavings, all node reuse patterns through the freelist", "why_tests_cant": "schedules and node recycling patterns are unbounded; ABA needs a specific one", "anchors": ["include/boost/lockfree/stack.hpp: do_push, consume_one, consume_all_atomic, consume_all_atomic_reversed, empty", "include/boost/lockfree/detail/freelist.hpp"]}
{"id": "C15", "title": "stack loses and duplicates nothing", "statement": "The values handed out by pops plus the values still in the stack are exactly (as a multiset) the values accepted by pushes; a value is handed out at most as often as it was pushed, for every interleaving.", "quantifier": "all histories and schedules", "why_tests_cant": "stress tests count a few schedules", "anchors": ["include/boost/lockfree/stack.hpp"]}
{"id": "C16", "title": "stack range push is atomic and ordered", "statement": "push(begin,end) makes the elements it accepts visible at a single instant as one contiguous block, the last one accepted on top; it returns the position of the first element not pushed; a node-based unbounded push accepts all of them.", "quantifier": "all ranges, pool states and interleavings", "why_tests_cant": "atomicity is a statement over all interleavings", "anchors": ["include/boost/lockfree/stack.hpp: prepare_node_list, link_nodes_atomic"]}
{"id": "C17", "title": "stack consume_all_atomic takes a snapshot", "statement": "consume_all_atomic applies the functor, in LIFO order, to exactly the elements that were in the stack at one instant and removes them all at that instant; consume_all_atomic_reversed does the same in FIFO order; both return their number.", "quantifier": "all stack contents and interleavings", "why_tests_cant": "as above", "anchors": ["include/boost/lockfree/stack.hpp: consume_all_atomic, consume_all_atomic_reversed"]}
{"id": "C18", "title": "stack memory safety", "statement": "No operation dereferences memory that was never allocated, reads an element that is not alive, constructs over a live element or destroys a dead one; a node is never owned by two threads or linked in the stack and in the freelist at the same time.", "quantifier": "all histories and schedules without a complete tag wrap in a window", "why_tests_cant": "use-after-reuse needs rare schedules", "anchors": ["include/boost/lockfree/stack.hpp", "include/boost/lockfree/detail/freelist.hpp"]}
{"id": "C19", "title": "bounded and fixed-size pushes: no allocation, failure only on exhaustion", "statement": "bounded_push, and push on a fixed-size structure, never request memory from the allocator; they fail only if at some instant during the call every pooled node was in the structure or held by another operation in progress (or lost to an exception thrown by the user's code).", "quantifier": "all histories, pool sizes and schedules", "why_tests_cant": "the exhaustion instant depends on the schedule", "anchors": ["include/boost/lockfree/stack.hpp: bounded_push", "include/boost/lockfree/queue.hpp: bounded_push", "include/boost/lockfree/detail/freelist.hpp: allocate_impl"]}
{"id": "C20", "title": "no node is leaked and destruction releases everything once", "statement": "At any moment every allocated node is in the structure, in the freelist or held by an operation in progress; destroying a quiescent stack or queue destroys every remaining element once and returns every allocated node to the allocator exactly once.", "quantifier": "all histories without exceptions from user code, any state at destruction", "why_tests_cant": "leaks need schedule-dependent histories", "anchors": ["include/boost/lockfree/stack.hpp: ~stack", "include/boost/lockfree/queue.hpp: ~queue", "include/boost/lockfree/detail/freelist.hpp: ~freelist_stack"]}
{"id": "C21", "title": "ABA protection is exactly as strong as the tag width", "statement": "With 2^k tag values, no ABA failure can occur if fewer than 2^k removals happen on a word between a thread's read and its compare-exchange; with exactly 2^k removals there are schedules in which a stack, and a queue constructed for a single element, hand out one pushed value twice (so 16-bit tags are not absolutely safe).", "quantifier": "all tag widths and all schedules", "why_tests_cant": "needs 65536 operations inside one window of another thread", "anchors": ["include/boost/lockfree/stack.hpp: consume_one", "include/boost/lockfree/queue.hpp: pop", "include/boost/lockfree/detail/freelist.hpp: tagged_index, allocate_impl", "include/boost/lockfree/detail/tagged_ptr_ptrcompression.hpp", "include/boost/lockfree/detail/tagged_ptr_dcas.hpp"]}
{"id": "C22", "title": "stack progress", "statement": "Every thread running alone from any reachable state completes its operation in a bounded number of steps; a compare-exchange on the top of stack or the freelist fails (other than spuriously) only because another operation's compare-exchange succeeded in between.", "quantifier": "all reachable states, including those with other threads stopped anywhere", "why_tests_cant": "lock-freedom ranges over all stop points of other threads", "anchors": ["include/boost/lockfree/stack.hpp", "include/boost/lockfree/detail/freelist.hpp"]}
{"id": "C23", "title": "stack and exceptions from user code", "statement": "If the allocator throws, push has no effect; if T's copy constructor throws in push, the contents are unchanged but one pool node is lost; if it throws at a later element of a range push nothing is pushed and the nodes prepared so far return to the pool; if the functor of consume_one throws the element is gone and neither destroyed nor its node reused.", "quantifier": "all states, schedules and throwing positions", "why_tests_cant": "exception points times schedules", "anchors": ["include/boost/lockfree/stack.hpp: prepare_node_list, consume_one", "include/boost/lockfree/detail/freelist.hpp: construct"]}
{"id": "C24", "title": "unsynchronized stack operations agree with the synchronized ones", "statement": "On a quiescent stack unsynchronized_push, unsynchronized_push of a range and unsynchronized_pop have exactly the effect and result of the thread-safe versions, leave a state from which thread-safe use may continue, and any sequence of them behaves as a LIFO list.", "quantifier": "all quiescent reachable states and op sequences", "why_tests_cant": "unbounded state", "anchors": ["include/boost/lockfree/stack.hpp: unsynchronized_push, unsynchronized_pop, link_nodes_unsafe"]}
{"id": "C25", "title": "stack range push of an empty range", "statement": "push(begin,end) with begin == end should push nothing; the code dereferences begin before testing, so the call has undefined behaviour: every range push the model shows safe has a non-empty range.", "quantifier": "all states", "why_tests_cant": "UB is not observable by a test", "anchors": ["include/boost/lockfree/stack.hpp: prepare_node_list"]}
{"id": "C26", "title": "queue is linearizable", "statement": "Every concurrent history of push, bounded_push and pop/consume_one by any number of threads is linearizable to a sequential FIFO queue (pop returning false linearizes where the queue was empty), as long as no thread is delayed between reading and comparing a tagged word while that word's tag wraps around completely.", "quantifier": "any number of threads, all histories, interleavings and node reuse patterns", "why_tests_cant": "as C14", "anchors": ["include/boost/lockfree/queue.hpp: do_push, pop", "include/boost/lockfree/detail/freelist.hpp"]}
{"id": "C27", "title": "queue preserves per-producer order and loses and duplicates nothing", "statement": "Two values pushed one after the other by one thread are popped in that order if both are popped; popped values together with those still queued are exactly the accepted ones, for every interleaving.", "quantifier": "all histories", "why_tests_cant": "as above", "anchors": ["include/boost/lockfree/queue.hpp"]}
{"id": "C28", "title": "queue memory safety", "statement": "No queue operation dereferences memory that was never allocated or returns data from a recycled node; a node is never linked in the queue and in the freelist at once, nor owned by two threads; head never overtakes tail.", "quantifier": "all histories and schedules without a complete tag wrap in a window", "why_tests_cant": "needs rare schedules", "anchors": ["include/boost/lockfree/queue.hpp", "include/boost/lockfree/detail/freelist.hpp"]}
{"id": "C29", "title": "queue capacity accounts for the dummy node", "statement": "A queue with capacity<N> or constructed fixed-size for N elements accepts exactly N elements when used by one thread: push fails iff N elements are queued.", "quantifier": "all N and all sequential histories", "why_tests_cant": "all N", "anchors": ["include/boost/lockfree/queue.hpp: capacity, queue(size_type)", "include/boost/lockfree/detail/freelist.hpp"]}
{"id": "C30", "title": "queue empty() is exact when nothing else runs", "statement": "When no operation is in progress, empty() returns true iff the queue holds no element.", "quantifier": "all quiescent reachable states", "why_tests_cant": "lagging tail pointers depend on schedules", "anchors": ["include/boost/lockfree/queue.hpp: empty"]}
{"id": "C31", "title": "unsynchronized queue operations agree with the synchronized ones", "statement": "On a quiescent queue unsynchronized_push and unsynchronized_pop terminate and have exactly the effect and result of a FIFO list, leaving a state from which thread-safe use may continue.", "quantifier": "all quiescent reachable states and op sequences", "why_tests_cant": "unbounded state", "anchors": ["include/boost/lockfree/queue.hpp: unsynchronized_push, unsynchronized_pop"]}
{"id": "C32", "title": "queue progress", "statement": "Every thread running alone from any reachable state completes its push or pop in a bounded number of steps, including when another thread stopped half-way through a push (lagging tail); compare-exchanges fail only because of another thread's success.", "quantifier": "all reachable states", "why_tests_cant": "as C22", "anchors": ["include/boost/lockfree/queue.hpp"]}
{"id": "C33", "title": "fixed-size limits are enforced", "statement": "A fixed-size structure can be built for every pool size up to 65535 and run-time construction throws above that; every node index and the null handle are then representable in 16 bits and distinct; handle/pointer conversion is a bijection. queue(SIZE_MAX) escapes the check because size+1 wraps.", "quantifier": "all size_t n and all node indices", "why_tests_cant": "2^64 sizes", "anchors": ["include/boost/lockfree/detail/freelist.hpp: runtime_sized_freelist_storage, fixed_size_freelist::get_handle, get_pointer", "include/boost/lockfree/queue.hpp: queue(size_type)"]}
{"id": "C34", "title": "compressed tagged pointers are lossless", "statement": "For every pointer that fits 48 bits and every 16-bit tag, packing then reading gives back the pointer and the tag, set_ptr keeps the tag, set_tag keeps the pointer, equality compares both; for a pointer with any of the upper 16 bits set the pointer read back differs from the one stored.", "quantifier": "all 2^64 pointer and 2^16 tag values", "why_tests_cant": "2^80 combinations", "anchors": ["include/boost/lockfree/detail/tagged_ptr_ptrcompression.hpp"]}
{"id": "C35", "title": "tag increments cycle through the whole tag space", "statement": "get_next_tag visits all 2^k tag values before repeating, for 16-bit and machine-word tags, and never disturbs the pointer or index.", "quantifier": "all tags", "why_tests_cant": "2^64 tags for the DCAS variant", "anchors": ["include/boost/lockfree/detail/tagged_ptr_ptrcompression.hpp", "include/boost/lockfree/detail/tagged_ptr_dcas.hpp", "include/boost/lockfree/detail/freelist.hpp: tagged_index"]}
{"id": "C36", "title": "storage of a compile-time sized freelist holds all nodes", "statement": "The aligned node array of a compile-time sized structure lies entirely inside its storage for 64-byte cache lines wherever the object is placed, and for 128/256-byte cache lines if the object itself is aligned; it does not for a misaligned object on the latter.", "quantifier": "all addresses, node sizes and capacities", "why_tests_cant": "address-dependent", "anchors": ["include/boost/lockfree/detail/freelist.hpp: compiletime_sized_freelist_storage"]}
{"id": "C37", "title": "policy selection", "statement": "capacity<N> or fixed_sized<true> always select the array freelist with 16-bit tagged indices and never the allocating one; without them the allocating freelist with tagged pointers is used; the queue's pool has N+1 nodes, the stack's N.", "quantifier": "all policy combinations and N", "why_tests_cant": "N unbounded", "anchors": ["include/boost/lockfree/detail/parameter.hpp", "include/boost/lockfree/detail/freelist.hpp: select_freelist, select_tagged_handle", "include/boost/lockfree/queue.hpp", "include/boost/lockfree/stack.hpp"]}
{"id": "C38", "title": "reserve makes later bounded pushes succeed", "statement": "After reserve(n) completes on a node-based stack or queue used by one thread, at least n more bounded_push calls succeed without allocating.", "quantifier": "all n and states", "why_tests_cant": "unbounded n and states", "anchors": ["include/boost/lockfree/stack.hpp: reserve", "include/boost/lockfree/queue.hpp: reserve", "include/boost/lockfree/detail/freelist.hpp: reserve"]}
{"id": "C39", "title": "pool memory is only ever recycled internally", "statement": "A push on a node-based structure requests memory only when the freelist was observed empty, one node at a time, and no operation returns memory before destruction; so the number of nodes ever requested is the initial pool plus reservations plus pushes that found the freelist empty, and never decreases.", "quantifier": "all histories", "why_tests_cant": "unbounded histories", "anchors": ["include/boost/lockfree/detail/freelist.hpp: allocate_impl, deallocate_impl"]}
{"id": "C40", "title": "pop reporting empty is truthful", "statement": "If pop (queue or stack) or consume_one returns false, there was an instant between the call and its return at which the structure was empty.", "quantifier": "all histories", "why_tests_cant": "depends on all interleavings", "anchors": ["include/boost/lockfree/queue.hpp: pop", "include/boost/lockfree/stack.hpp: consume_one"]}
{"id": "C41", "title": "queue.empty() under concurrency", "statement": "If queue::empty() returns false, the queue was non-empty at some instant during the call, whichever of the two loads comes first. If it returns true while other threads push and pop, the queue need never have been empty during the call: the two handles are loaded at different times and compared without tags, so a recycled node makes them equal.", "quantifier": "all histories without tag wrap-around; the second part is an existence claim", "why_tests_cant": "needs a whole pop and push between two adjacent loads, and node reuse", "anchors": ["include/boost/lockfree/queue.hpp: empty 301-304"]}
{"id": "C42", "title": "spsc_queue range push and throwing copy constructors", "statement": "If copying an element throws in the first section of a range push, or in push of one element, nothing is accepted and every object constructed is destroyed again. If it throws in the second section (after the range wrapped around the end of the buffer), nothing is accepted either, but the elements constructed in the first section are never destroyed: they leak.", "quantifier": "all states in which a range push wraps around, all positions of the exception", "why_tests_cant": "needs an exception at one particular place combined with one particular alignment of the indices", "anchors": ["include/boost/lockfree/spsc_queue.hpp: push(begin, end) 120-160, copy with std::uninitialized_copy"]}
{"id": "C43", "title": "fixed-size stack holds exactly its capacity", "statement": "A stack of fixed size n (or capacity<n>) never holds more than n elements under any concurrency; from a quiescent state with k elements, any continuation that offers at most n-k elements has no failing push whatever the interleaving; and a push that runs alone fails iff n elements are in the stack.", "quantifier": "all n, executions, interleavings", "why_tests_cant": "unbounded interleavings and capacities; off-by-one in the node pool shows only at exhaustion", "anchors": ["include/boost/lockfree/stack.hpp: stack constructors, push", "include/boost/lockfree/detail/freelist.hpp: fixed_size_freelist"]}
{"id": "C44", "title": "stack is lock-free, with a bound", "statement": "With T threads, the number of steps made by all threads together is at most the sum of a charge per call made plus the number of spurious compare-exchange failures; the charge depends only on the call and T (at most 17 + 6T for push, pop, consume_all, empty). Hence after k steps at least k/(17+6T) - T calls have completed, minus spurious failures: steps cannot go on without calls completing.", "quantifier": "all T, all executions of T threads, all call sequences", "why_tests_cant": "a livelock needs an adversarial schedule of unbounded length", "anchors": ["include/boost/lockfree/stack.hpp", "include/boost/lockfree/detail/freelist.hpp"]}
{"id": "C45", "title": "queue is lock-free, with a bound", "statement": "With T threads, the number of steps made by all threads together (spurious compare-exchange failures not counted) is at most the sum of a charge per call made plus five per spurious failure; the charge depends only on the call and T (at most 17 + 39T for push, pop, empty). Hence steps cannot go on without calls completing, whichever threads are stopped and wherever, including between linking a node and swinging the tail.", "quantifier": "all T, all executions of T threads, all call sequences", "why_tests_cant": "a livelock needs an adversarial schedule of unbounded length", "anchors": ["include/boost/lockfree/queue.hpp", "include/boost/lockfree/detail/freelist.hpp"]}
{"id": "C46", "title": "freelist links fit into nodes and where they are misaligned", "statement": "The 4-byte link of the array freelist fits into every node of a fixed-size stack or queue. Nodes of queues, and nodes of stacks whose element type is aligned to a multiple of 4, are suitably aligned for it; for an element of 3 bytes without alignment requirement every second node of a fixed-size stack is not.", "quantifier": "all element sizes and alignments, all addresses and array lengths", "why_tests_cant": "depends on element type and address; misalignment is harmless on most test machines", "anchors": ["include/boost/lockfree/detail/freelist.hpp: tagged_index, fixed_size_freelist::initialize", "include/boost/lockfree/stack.hpp: node", "include/boost/lockfree/queue.hpp: node"]}
{"id": "C47", "title": "stack under the release/acquire memory model", "statement": "Under the C++ release/acquire memory model (loads may return stale values; memory orders of the loads as written in the code; seq_cst treated as acquire/release; consume loads order only reads through the loaded pointer), the stack has no data race on node contents other than the speculative reads of next, never runs into undefined behaviour, and is linearizable with respect to happens-before: one total order of the calls explains all results by the sequential stack and never places a call before one whose return happens before it. If client synchronisation orders every call after all calls that returned earlier, it is linearizable in the usual sense; without it, it is not (a pop may report empty although a push has returned). Every element received was offered by a call whose invocation happens before the return that delivers it, elements are conserved, and all sequentially consistent executions are included.", "quantifier": "all executions without a complete tag wrap, any number of threads, all stale reads the memory model allows, all client synchronisation", "why_tests_cant": "x86 hardware does not show most stale reads and compilers treat consume as acquire; the orders matter only on weakly ordered machines", "anchors": ["include/boost/lockfree/stack.hpp: link_nodes_atomic, consume_one, consume_all_atomic, empty", "include/boost/lockfree/detail/freelist.hpp: allocate_impl, deallocate_impl"]}
{"id": "C48", "title": "queue under the release/acquire memory model", "statement": "Under the C++ release/acquire memory model (stale reads, memory orders as written in the code, seq_cst treated as acquire/release), and if an atomic load that reads a link word written non-atomically by the freelist is ordered after that write, the queue has no data race on element storage other than the speculative copy in pop, never runs into undefined behaviour on elements, and is linearizable with respect to happens-before: one total order of the calls explains all results by the sequential FIFO queue and never places a call before one whose return happens before it. If client synchronisation orders every call after all calls that returned earlier, it is linearizable in the usual sense; without it, it is not. Every element received was offered by a call whose invocation happens before the return that delivers it, the order of pushes that are ordered by happens-before is kept, elements are conserved. Without the assumption on the freelist's non-atomic link write, a push can return true and lose its element, and elements can be constructed over live ones.", "quantifier": "all executions without a complete tag wrap, any number of threads, all stale reads the memory model allows, torn values of links being written by the freelist, all client synchronisation", "why_tests_cant": "the failing schedules need stale reads that x86 hardware does not show, and a node recycled between two adjacent loads of another thread", "anchors": ["include/boost/lockfree/queue.hpp: do_push, pop, empty, node::node", "include/boost/lockfree/detail/freelist.hpp: allocate_impl, deallocate_impl"]}
{"id": "C49", "title": "queue relies on bytes of a dead object in the node constructor", "statement": "The node constructor of the queue computes the new tag of the link from a load of the not yet initialised `next`, whose value is indeterminate in C++. If that load may return an arbitrary value (for example zero), the queue is not linearizable, even if no tag ever wraps and for every tag width of the library: a push can return true while a later pop finds the queue empty, and elements whose pushes do not overlap can be received in the wrong order. (With the load returning the bytes left by the freelist, C26 holds.)", "quantifier": "all tag widths of the library and unbounded tags, both freelists; existence of an execution", "why_tests_cant": "the value depends on what the compiler does with stores to an object before its constructor; common builds keep the bytes, and the schedule needs a node recycled between a load and a compare-exchange", "anchors": ["include/boost/lockfree/queue.hpp: node::node", "include/boost/lockfree/detail/freelist.hpp: tagged_index::tagged_index", "include/boost/lockfree/detail/tagged_ptr_dcas.hpp: tagged_ptr::tagged_ptr"]}
{"id": "C50", "title": "consume_one and consume_all of queue and consume_all of stack", "statement": "consume_one of the queue makes exactly one call of pop and applies the functor once iff it returned an element; consume_all of stack and queue applies the functor once to each element it pops, in the order of the pops, and returns their number after a pop that returned false; so the container was empty at some instant between its invocation and its return. If the functor throws, no further element is touched and the element it was applied to is gone, the others stay. The queue's functor sees elements in queue order (two elements whose pushes do not overlap are never seen in the wrong order). When all calls have returned, accepted elements are exactly those popped or given to functors plus the contents. Without interference consume_all handles exactly the contents (front to back, top to bottom) and completes within a number of steps linear in their number. consume_all is not atomic: it may return elements that were never in the container together, and its histories are not linearizable with respect to an operation that takes all elements at one instant.", "quantifier": "all executions without a complete tag wrap, any number of threads and calls, functors that throw at any point; existence of an execution for the negative part", "why_tests_cant": "interleavings between the single pops of one consume_all are unbounded in number; the count, order and emptiness claims relate events of several calls", "anchors": ["include/boost/lockfree/queue.hpp: consume_one, consume_all", "include/boost/lockfree/stack.hpp: consume_one, consume_all"]}
{"id": "C51", "title": "stack and queue on the stored representation of tagged handles", "statement": "The algorithms of stack and queue, run on the words the code really stores (16-bit index and 16-bit tag; 48-bit pointer with the tag in the upper 16 bits; pointer and 64-bit tag side by side), with compare-exchanges and equality tests on whole words, handles converted by get_pointer / get_handle, and racing reads that return arbitrary bits, are linearizable, never reach undefined behaviour, conserve elements in the list reached by following handles from the stored words, are lock-free with the same bounds, and never get stuck. Conditions: fixed-size containers have at most 65535 nodes; nodes have distinct non-null addresses, for compressed pointers below 2^48; no tag wraps completely between a load and its comparison. In a stack with compressed pointers the link of a node, declared as a plain pointer by the stack and as a tagged pointer by the freelist, always is a plain pointer. Without the 48-bit condition the claims fail: a push returns true and a following pop finds nothing (stack), a push dereferences null (queue).", "quantifier": "all executions on all three representations, any node addresses, any number of threads and calls, any values of racing reads; existence of an execution for the negative part", "why_tests_cant": "tests run at the addresses the allocator of one machine returns, and with few of the unboundedly many interleavings; values read in a race cannot be provoked", "anchors": ["include/boost/lockfree/stack.hpp: do_push, pop, consume_all_atomic, link_nodes_atomic", "include/boost/lockfree/queue.hpp: do_push, pop, empty, node::node", "include/boost/lockfree/detail/freelist.hpp: freelist_stack, fixed_size_freelist, tagged_index", "include/boost/lockfree/detail/tagged_ptr_ptrcompression.hpp: tagged_ptr", "include/boost/lockfree/detail/tagged_ptr_dcas.hpp: tagged_ptr"]}
{"id": "C52", "title": "the member functions as program text", "statement": "The thread-safe member functions of stack and queue and the freelist functions they call, written statement by statement as structured programs (sequence, if, for(;;), break, continue, return, function calls, try/catch/rethrow, local variables with the names of the code) on the stored words, execute exactly like the machines on words: every execution of the text, in which each assignment and branch is a step of its own, has the history and the shared state of an execution of the machine, and conversely. Hence the text is linearizable, never reaches undefined behaviour, conserves elements, is lock-free (number of statements executed by all threads at most a constant times the charges of the calls plus the spurious failures) and never gets stuck. consume_all_atomic and consume_all_atomic_reversed return the number of elements their functor was applied to.", "quantifier": "all executions of the text, any number of threads and calls, all representations of tagged handles, any values of racing reads, any exceptions", "why_tests_cant": "a test runs some interleavings of compiled code; whether a hand-written transition system follows the control flow of the text (which loop a continue or break leaves, what a failed compare-exchange writes into its first argument, where an exception is caught) is a statement about every path", "anchors": ["include/boost/lockfree/stack.hpp: do_push, prepare_node_list, link_nodes_atomic, consume_one, consume_all_atomic, consume_all_atomic_reversed, empty, reserve", "include/boost/lockfree/queue.hpp: do_push, pop, empty, reserve, node::node", "include/boost/lockfree/detail/freelist.hpp: construct, destruct, allocate_impl, deallocate_impl, reserve"]}
{"id": "C53", "title": "stack and queue calls are lock-free but not wait-free; empty is wait-free", "statement": "No bound on the number of steps of a single call of stack or queue exists: from every reachable state of a non-empty stack (of a non-empty queue whose tail_ is up to date) with two threads between calls, and for every N, there is a continuation in which one thread makes N steps inside one call of push, bounded_push, range push, pop, consume_one, consume_all_atomic, consume_all_atomic_reversed or reserve without returning, although only one other thread moves, which pops an element and pushes it back over and over, and no compare-exchange fails spuriously, no read races, nothing throws and no tag wraps. A call of empty, in contrast, returns at the latest with its third (stack) or fourth (queue) step, whatever the others do, and is never blocked.", "quantifier": "all reachable states of the kind described, all calls, all N, all tag widths; for empty all executions", "why_tests_cant": "starvation needs an adversarial scheduler for an unbounded time, and no test can show that no bound exists or that a bound always holds", "anchors": ["include/boost/lockfree/stack.hpp: link_nodes_atomic, consume_one, consume_all_atomic, consume_all_atomic_reversed, empty, reserve", "include/boost/lockfree/queue.hpp: do_push, pop, empty, reserve", "include/boost/lockfree/detail/freelist.hpp: allocate_impl, deallocate_impl"]}
{"id": "C54", "title": "memory stays bounded: elements at a time plus threads", "statement": "If a stack never holds more than L elements at a time and push, pop (consume_one), empty and reserve are called by at most T threads, without exceptions from copy constructors or functors, then however many calls are made, the number of nodes ever requested from the allocator is at most max(n, L + T) plus the nodes asked for by reserve, n being the number of nodes of the constructor. For a queue the bound is max(n, L + T) + 1 plus reserve. Both bounds are reached.", "quantifier": "all executions, any number of calls, all L, T, n, tag widths, any interleaving and any values of racing reads, as long as no tag wraps completely between a load and its compare-exchange; existence of an execution that reaches the bound (L = 1, T = 2)", "why_tests_cant": "a test sees the memory taken in some runs; that repeated use under contention never accumulates nodes (e.g. because a thread finds the freelist empty while another is about to return a node) is a statement about every interleaving of unboundedly many calls", "anchors": ["include/boost/lockfree/detail/freelist.hpp: allocate_impl, deallocate_impl, reserve", "include/boost/lockfree/stack.hpp: do_push, consume_one", "include/boost/lockfree/queue.hpp: do_push, pop"]}
{"id": "C55", "title": "spsc_queue as program text", "statement": "The thread-safe member functions of ringbuffer_base (push of one element and of a range, consume_one / pop, pop to an array or iterator, consume_all, front, read_available, write_available, empty, with next_index, uninitialized_copy, copy_and_delete and run_functor_and_delete), written statement by statement as structured programs with the local variables of the code and std::size_t arithmetic, execute exactly like the release/acquire machine: every execution of the text, in which each assignment and branch is a step of its own, has the history and the shared state of an execution of the machine, and conversely. Hence the text delivers in order and without loss, respects the capacity, has no data race or access to a dead object, is reliable about available places and elements, is linearizable if loads return the latest store, and is wait-free: a call executes at most a constant number of statements per element transferred, and is never stuck.", "quantifier": "all executions of the text by one producer and one consumer, capacities below 2^63 - 1, element types with and without trivial destructor, stale loads, exceptions from copy constructors and functors as covered by C01 to C13", "why_tests_cant": "whether the transition system used in the other proofs follows the text (which branch of the split copy is taken, what is undone by the rollback of uninitialized_copy, where the index is published) is a statement about every path, every interleaving and every capacity", "anchors": ["include/boost/lockfree/spsc_queue.hpp: ringbuffer_base::push, pop, consume_one, consume_all, front, read_available, write_available, empty, next_index", "include/boost/lockfree/spsc_queue.hpp: copy_and_delete, run_functor_and_delete"]}
{"id": "C56", "title": "what pop leaves in its output argument", "statement": "stack and spsc_queue: a pop (consume_one) that returns false has not written its output argument (the functor was not applied), one that takes an element has written exactly that element, once; consume_all_atomic and the bulk pops write the elements they take, each once, in order, and nothing else. queue: a pop that takes an element leaves exactly it in its argument; a pop that returns false may have overwritten the argument, even with a value that was never in the queue.", "quantifier": "all executions of the program texts of C52 and C55; for the last part, existence of an execution", "why_tests_cant": "whether a failed attempt can leave traces in the caller's object depends on every interleaving of copying the payload and losing the compare-exchange; and that a value never pushed can appear there needs a race a test practically never hits", "anchors": ["include/boost/lockfree/queue.hpp:398-456 (note: might modify return argument even if operation fails)", "include/boost/lockfree/stack.hpp:472-478, 531-569", "include/boost/lockfree/spsc_queue.hpp:162-194, 266-328", "include/boost/lockfree/detail/copy_payload.hpp"]}
{"id": "C57", "title": "lock-freedom of executions without end", "statement": "In every execution without end of finitely many threads on one stack or one queue (thread-safe members), in which compare-exchanges fail spuriously only finitely often and tags do not wrap within one attempt, infinitely many calls return. Without the assumption about spurious failures this is false: there is an execution without end in which one thread never leaves its first push although no other thread moves.", "quantifier": "all executions without end of the machines and of the program texts of C52, any number of threads, all schedules, all calls; for the second part, existence", "why_tests_cant": "a statement about infinite executions: no finite run can confirm or refute it", "anchors": ["include/boost/lockfree/stack.hpp:275-366, 384-569, 609-645", "include/boost/lockfree/queue.hpp:273-335, 398-456", "include/boost/lockfree/detail/freelist.hpp:173-195, 230-243, 543-600"]}
{"id": "C58", "title": "unsynchronized members of stack and queue as program text", "statement": "The not thread-safe member functions (stack: unsynchronized_push of one element and of a range with its rollback, unsynchronized_pop, reserve_unsafe; queue: unsynchronized_push, unsynchronized_pop, reserve_unsafe; with allocate_impl_unsafe, deallocate_impl_unsafe, link_nodes_unsafe, prepare_node_list, construct<false,..>, destruct<false>), written statement by statement with plain stores instead of compare-exchanges, may be used by one thread while no other call is in progress, and thread-safe use may go on afterwards, any number of times: such mixed executions are linearizable with respect to the same sequential specification, meet no undefined behaviour, lose and invent no element, and leave a shared state (all words, tags included) that thread-safe calls alone could have produced with the same history; the same holds in the middle of an unsynchronized call and when allocation, a copy constructor or the copy of pop throws. The unsynchronized functions terminate: a call executes at most a constant number of statements (per element for ranges and reserve_unsafe), and is never stuck while the allocator has memory. What unsynchronized_pop leaves in its output argument is the element taken.", "quantifier": "all executions in which phases of thread-safe use by any number of threads and phases of unsynchronized use by one thread alternate, all three word representations, all exceptions; no tag wraps completely between a load and its compare-exchange in the thread-safe phases", "why_tests_cant": "a plain store instead of a compare-exchange that forgets a tag or a link shows only in a later concurrent phase, under particular interleavings; termination and equality of all reachable states quantify over unboundedly many executions", "anchors": ["include/boost/lockfree/stack.hpp: unsynchronized_push, unsynchronized_pop, link_nodes_unsafe, prepare_node_list, reserve_unsafe", "include/boost/lockfree/queue.hpp: unsynchronized_push, unsynchronized_pop, reserve_unsafe", "include/boost/lockfree/detail/freelist.hpp: allocate_impl_unsafe, deallocate_impl_unsafe, construct, destruct, reserve"]}
{"id": "C59", "title": "constructors and destructors of stack and queue as program text", "statement": "The constructors and destructors of stack and queue, with those of both freelists, written statement by statement. A constructor executed in arbitrary memory always ends, without undefined behaviour, within a bounded number of steps (in terms of n and of spurious failures); if it returns, every word of the object is as in the state from which the executions of C52 and C58 start. It throws only if the allocator or the payload's default constructor throws, or a fixed-size container is asked for more than 65535 nodes; in the last case it always throws. When it throws, it is known exactly what has been given back: nothing if the freelist's constructor threw (the node-based freelist loses the nodes it already has); if the default constructor of the queue's dummy payload threw, all nodes except the dummy (which is lost), or the whole array. After any execution of thread-safe and unsynchronized calls after which no call is in progress, the destructor ends, without undefined behaviour, within a bounded number of steps: ~stack destroys exactly the elements left, top first, each once; ~queue pops all of them; then the freelist gives back every node in the freelist or in the container exactly once (the array as a whole). If no call has thrown, these are all nodes ever allocated and no element is left anywhere.", "quantifier": "all three word representations, all contents of memory before construction, all n, all resolutions of accesses (exceptions, spurious failures); for destructors all executions of C58, any number of threads, after which no call is in progress", "why_tests_cant": "exactly-once release of every node after every reachable state, and termination, quantify over unboundedly many executions; sanitizers see only the executions that were run, and not the paths with exceptions that nobody triggered", "anchors": ["include/boost/lockfree/stack.hpp:140-214, 249-260, 580-598", "include/boost/lockfree/queue.hpp:125-127, 142-148, 183-269, 287-293", "include/boost/lockfree/detail/freelist.hpp:52-66, 86-93, 119-129, 342-383, 404-460"]}
{"id": "C60", "title": "reset(), constructors and destructors of spsc_queue as program text", "statement": "reset(), the constructors and the destructors of spsc_queue, written statement by statement. reset() called while no other call is in progress always ends, without undefined behaviour, within a bounded number of statements, and leaves the queue empty: for a type with trivial destructor both indices are 0 and no slot is touched; otherwise each element that was in the queue has been handed to the functor, in order, and every object ever constructed in a slot has been destroyed once. The earlier stores of the indices stay in their modification orders, and the two stores of reset() are relaxed and release; nevertheless all that C55 says about a queue holds after any number of resets interleaved with any use: order and completeness of delivery (since the last reset), capacity (a bulk push of up to capacity elements after reset() is accepted as a whole), reliability of read_available and write_available, front(), no data race or access to a dead object, linearizability if loads return the latest store, wait-freedom, and no call is ever stuck. A constructor ends; if it returns, the queue is the one from which these executions start, with one slot more than the capacity; if the allocator throws, nothing was allocated. The destructor ends, without undefined behaviour, within a bounded number of statements; it hands each remaining element, in order, to the functor, destroys each object once, and a queue sized at run time gives its array back with the number of slots it was allocated with.", "quantifier": "all capacities below 2^63 - 1, element types with and without trivial destructor, all executions of one producer and one consumer with any number of calls of reset() while no call is in progress, stale loads, exceptions as covered by C55; all contents of memory before construction", "why_tests_cant": "that no thread can ever read an index stored before reset() is a statement about all executions under the C++ memory model; tests run on hardware that seldom returns stale values, and on finitely many sequences of resets", "anchors": ["include/boost/lockfree/spsc_queue.hpp:60-63, 349-360, 447-452, 543-591, 1029-1040"]}
{"id": "C61", "title": "The example programs deliver every object", "statement": "The three programs in examples/, executed line by line on top of the program text of stack, queue and spsc_queue: producers that count objects and push them, again and again if push returns false, consumers that pop until done is true and then once more until pop returns false, main that joins the producers, sets done, joins the consumers and prints. Whenever main prints, it prints that producer_thread_count * iterations objects were produced and exactly as many consumed (given at least one consumer); the values popped by all consumers together are the numbers 1, 2, ... up to that, each exactly once (in the single-producer program: in this order), and the container is empty. No thread ever has undefined behaviour in the container. In the program with spsc_queue this holds with stale loads of both indices; it is the load of done, and main having joined the producer, that make the last pop see all elements.", "quantifier": "all numbers of producers and consumers, all numbers of iterations, all initial sizes, all three representations of tagged words, fixed-size and growing containers, all interleavings of single accesses, spurious failures, racing reads, loads of done that are out of date; for spsc_queue all executions under release/acquire memory", "why_tests_cant": "a run of the examples is one interleaving; that no object is lost, duplicated or left behind depends on the order of the last failing push, done, and the final loop of each consumer in all interleavings", "anchors": ["examples/queue.cpp:14-69", "examples/stack.cpp:14-69", "examples/spsc_queue.cpp:14-61"]}
{"id": "C62", "title": "The program text of the stack under the release/acquire memory model", "statement": "The program text of the stack (the lines of C52, on stored words, every access with the memory order written there) is executed under the release/acquire memory model: a load may return any value of the object the thread has not seen superseded, an access to a node that is not ordered after all earlier ones is undefined behaviour, except for the speculative reads of next, which may then return arbitrary bits. Every such execution has the history, with the same happens-before relation, of an execution of the machine of C47; so the text never runs into undefined behaviour, every thread about to access a node, other than speculatively, knows all earlier accesses to it, and the text is linearizable with respect to happens-before, linearizable in the usual sense if the clients synchronise, delivers only what was offered, conserves elements, and publishes: the call that offered a value happens before the return that delivers it. Without client synchronisation it is not linearizable in the usual sense. Every sequentially consistent execution of the text (C52) is included.", "quantifier": "all executions without a complete tag wrap, any number of threads, all three representations of tagged words, fixed-size and growing stacks, all initial sizes, all stale reads, racing reads and spurious failures the memory model allows, all client synchronisation", "why_tests_cant": "x86 hardware does not show most stale reads and compilers treat consume as acquire; whether the memory orders written at each line suffice shows only on weakly ordered machines, in rare interleavings", "anchors": ["include/boost/lockfree/stack.hpp: link_nodes_atomic, consume_one, consume_all_atomic, empty", "include/boost/lockfree/detail/freelist.hpp: allocate_impl, deallocate_impl"]}
{"id": "C63", "title": "The program text of the queue under the release/acquire memory model", "statement": "The program text of the queue (the lines of C52, on stored words, every access with the memory order written there) is executed under the release/acquire memory model: a load may return any value of the object the thread has not seen superseded; a load of next that is not ordered after a non-atomic write of the freelist may return arbitrary bits; the copy of the payload in pop and the freelist's read of next may return anything if they race; every other access to a node that is not ordered after all earlier ones is undefined behaviour. If a load that reads the freelist's non-atomic write is ordered after it, every such execution has the history, with the same happens-before relation, of an execution of the machine of C48; so the text never runs into undefined behaviour, every thread about to use a node, other than atomically or speculatively, knows all earlier such accesses to it, and the text is linearizable with respect to happens-before, linearizable in the usual sense if the clients synchronise, first in first out, keeps the order of each producer, delivers only what was offered, conserves elements, and publishes: the call that offered a value happens before the return that delivers it. Without client synchronisation it is not linearizable in the usual sense; if loads of the freelist's writes synchronise with nothing, elements can be lost even between synchronised clients. Every sequentially consistent execution of the text in which reads return what is in memory is included.", "quantifier": "all executions without a complete tag wrap, any number of threads, all three representations of tagged words, fixed-size and growing queues, all initial sizes, all stale reads, torn reads, racing reads and spurious failures the memory model allows, all client synchronisation", "why_tests_cant": "x86 hardware keeps stores in order and does not show most stale reads; whether the memory orders written at each line suffice shows only on weakly ordered machines, in rare interleavings", "anchors": ["include/boost/lockfree/queue.hpp: node constructor, do_push, pop, empty", "include/boost/lockfree/detail/freelist.hpp: allocate_impl, deallocate_impl, reserve"]}
{"id": "C64", "title": "The example programs under release/acquire memory", "statement": "examples/queue.cpp and examples/stack.cpp, executed line by line on top of the program text of queue and stack, with the memory orders written in the text: loads may return old values, a racing speculative read may return anything, and the calls of different threads are ordered only by what the program does to order them, that is by the end of a producer and main joining it, and by main's store of true to done and a consumer's load of true. Whenever main prints, it prints that producer_thread_count * iterations objects were produced and exactly as many consumed (given at least one consumer); the values popped are the numbers 1, 2, ... up to that, each exactly once; the container is empty. No thread ever has undefined behaviour in the container; in particular no access to a node is a data race. The return of every push happens before the last pop of every consumer. This is needed: if the load of done is relaxed, main may print that one object was produced and none consumed.", "quantifier": "all numbers of producers and consumers, all numbers of iterations, all initial sizes, all three representations of tagged words, fixed-size and growing containers, all executions of the release/acquire model: interleavings of single accesses, stale loads, spurious failures, racing reads, loads of done that are out of date", "why_tests_cant": "on x86 the last pop sees all pushes whatever the order of the load of done; which executions weaker hardware admits is not under the control of a test", "anchors": ["examples/queue.cpp:14-69", "examples/stack.cpp:14-69", "include/boost/lockfree/queue.hpp:305-460", "include/boost/lockfree/stack.hpp:325-490"]}
{"id": "C65", "title": "The stress tests of stack and queue never fail", "statement": "The stress test of test/test_common.hpp, executed line by line on top of the program text of stack and queue (push or bounded_push, growing or fixed-size), interleaved and under the release/acquire memory model. With at least one reader, no assertion (a number inserted twice, a number popped that was not pushed, a number popped twice) and no check at the end fails, in any execution. Once the readers have been joined: no number is left in data, push_count = pop_count = writer_threads * node_count, every number was popped exactly once, and the container is empty. No thread ever has undefined behaviour in the container. Needed for this: a reader (without one the test fails), and that a reader which reads writer_threads from writers_finished synchronises with the writers (with a relaxed load the test may fail).", "quantifier": "all numbers of writers and readers, all numbers of elements, all initial sizes, bounded_push and push, all three representations of tagged words, fixed-size and growing containers, all executions, also of the release/acquire model: interleavings of single accesses, stale loads, spurious failures, racing reads, allocation failures", "why_tests_cant": "this is the test: a run shows that it passed once, with 4 readers, 4 writers and the schedule and hardware at hand", "anchors": ["test/test_common.hpp:20-152", "test/test_helpers.hpp:18-85", "test/queue_bounded_stress_test.cpp:20-27", "test/queue_fixedsize_stress_test.cpp:21-28", "test/queue_unbounded_stress_test.cpp:20-27", "test/stack_bounded_stress_test.cpp:20-27", "test/stack_fixedsize_stress_test.cpp:21-28", "test/stack_unbounded_stress_test.cpp:21-28", "include/boost/lockfree/queue.hpp:305-460", "include/boost/lockfree/stack.hpp:325-490"]}
{"id": "C66", "title": "The stress tests of spsc_queue never fail", "statement": "Both testers of test/spsc_queue_stress_test.cpp (single elements, and buffers with range push and array pop), executed line by line on top of the program text of spsc_queue under release/acquire memory. In any execution: no popped number is missing in working_set (the assertion), no check at the end fails, the numbers popped so far are the first ones generated, in order, and no thread has undefined behaviour in the queue. Once the reader has been joined, received_nodes = nodes_per_thread, spsc_queue_cnt = 0, working_set is empty, all numbers were popped in order, and the queue is empty. Needed for this: that the reader which loads false from running synchronises with the writer (with relaxed accesses the test may fail).", "quantifier": "both testers, all buffer sizes other than 0, all numbers of elements, all initial values of the generator, all capacities from 1 to 2^63 - 1, all executions: interleavings of single accesses, stale loads of the indices and of running", "why_tests_cant": "this is the test: a run shows that it passed once, with one capacity, one buffer size and the schedule and hardware at hand; x86 hides a missing synchronisation", "anchors": ["test/spsc_queue_stress_test.cpp:27-225", "test/test_helpers.hpp:18-85", "include/boost/lockfree/spsc_queue.hpp:62-385"]}
{"id": "C67", "title": "The freelists on their own: exclusive nodes, no double construction, nothing lost", "statement": "construct and destruct of freelist_stack and fixed_size_freelist, executed line by line on stored words by any number of threads that give back only nodes they have (the contract exercised by test/freelist_test.cpp). In any execution: the history is linearizable with respect to a pool of nodes (construct takes a free or a new node; null is returned only if no node is free, that is, all nodes are in use; destruct makes the node free); construct never returns a node that somebody has; no object is constructed over a live one, none is destroyed that does not live, no null node is accessed (the assertions of dummy); a node that was returned and not given back holds the object it was constructed with, with the value passed; when no call runs and no constructor has thrown, every node is exactly once in the free list or at a user; a freelist of fixed size or used by bounded calls never asks the allocator. Needed for this: the discipline (giving a node back twice is undefined behaviour).", "quantifier": "both freelists, all three representations of tagged words, all numbers of threads and nodes, arbitrary users, throwing constructors, allocation failures, all interleavings of single accesses, spurious failures and racing reads", "why_tests_cant": "test/freelist_test.cpp runs one kind of user with 4 threads and 128 nodes; ABA failures and lost nodes need rare interleavings", "anchors": ["include/boost/lockfree/detail/freelist.hpp:36-258", "include/boost/lockfree/detail/freelist.hpp:397-660", "test/freelist_test.cpp:30-230"]}
{"id": "C68", "title": "The stress test of the freelists cannot fail, and ends with every node free", "statement": "freelist_tester of test/freelist_test.cpp: allocators take nodes from a freelist, enter them into working_set and push them to a queue; deallocators pop them, erase them from working_set and give them back; run joins the allocators, tells the deallocators to stop, and joins them. Freelist and queue are the member functions line by line on stored words. In any execution: no assertion of the test fails (a node is never entered twice into working_set, and a node popped is always there); nothing in freelist or queue is undefined behaviour, in particular no object is constructed over a live one or destroyed twice; nobody gets a node that somebody has. Once run has joined the allocators, the number of nodes pushed is the number of allocators times operations_per_thread. Once it has joined all threads, with at least one deallocator: working_set is empty, every node pushed was popped, the queue is empty, no node is in use, and every node of the freelist is exactly once in the list of free nodes. Without a deallocator the last part is false.", "quantifier": "both freelists, bounded or not, all representations of tagged words for freelist and queue, all numbers of allocators, deallocators, operations and nodes, all interleavings of single accesses, spurious failures and racing reads, allocation failures; a load of running may return an old value", "why_tests_cant": "it is the test: it runs 4 + 4 threads with 1000 operations and 128 nodes under whatever schedule the machine produces", "anchors": ["test/freelist_test.cpp:122-230", "test/test_helpers.hpp:25-85", "include/boost/lockfree/detail/freelist.hpp:36-258", "include/boost/lockfree/detail/freelist.hpp:397-660", "include/boost/lockfree/queue.hpp:290-420"]}
{"id": "C69", "title": "The example program with spsc_queue ends", "statement": "examples/spsc_queue.cpp, executed line by line on the program text of spsc_queue with stale loads. On a queue that can hold at least one element there is no execution without end in which (1) no thread that is able to make a step is left out for ever, (2) no exception is thrown, (3) once done is set, loads of done return false only for some time, (4) a thread that makes calls for ever comes to know every store of the other thread to its index. And no configuration is a dead end: until main has joined all threads or an exception ends the program, some thread can make a step. So such an execution reaches the point at which main prints (and then C61 says what it prints). If done is never seen, or the consumer never sees a store to write_index_, the program can run for ever, although all other conditions hold; and so it can on a queue of capacity 0.", "quantifier": "all numbers of iterations, all capacities, element types with trivial destructor or not, all interleavings of single accesses, all stale loads that the conditions leave; with or without the assumption that loads return the latest store", "why_tests_cant": "a test that ends shows one execution that ends; a livelock of the busy-waiting loops under some schedule would be a test that hangs rarely", "anchors": ["examples/spsc_queue.cpp:14-61", "include/boost/lockfree/spsc_queue.hpp:97-119", "include/boost/lockfree/spsc_queue.hpp:165-180"]}
{"id": "C70", "title": "The freelists are lock-free", "statement": "construct and destruct of freelist_stack and fixed_size_freelist, called by T threads without a container around them. The number of statements executed is at most 42 ((2T + 6)(r + T) + 2f), where r is the number of calls that have returned and f the number of compare-exchanges that failed although the word had the expected value. So in an execution without end in which such failures stop, infinitely many calls return; if they do not stop, there is an execution without end in which no call returns. This holds for arbitrary calls, also for nodes given back twice. If nodes are given back only by who has them, a thread in a call can always make a step as long as the allocator has memory: it waits for no other thread.", "quantifier": "all numbers of threads, calls, nodes, all interleavings of single accesses, both freelists, all representations of words", "why_tests_cant": "a livelock of the compare-exchange loops needs a schedule that repeats for ever; a test sees finitely many steps", "anchors": ["include/boost/lockfree/detail/freelist.hpp:77-117", "include/boost/lockfree/detail/freelist.hpp:173-195", "include/boost/lockfree/detail/freelist.hpp:230-243", "include/boost/lockfree/detail/freelist.hpp:438-489", "include/boost/lockfree/detail/freelist.hpp:543-560", "include/boost/lockfree/detail/freelist.hpp:588-600"]}
{"id": "C71", "title": "No deadlock in the example programs and the stress tests", "statement": "In every reachable state of examples/stack.cpp, examples/queue.cpp, the stress tests of stack, queue and spsc_queue, and the stress test of the freelists: unless the program has ended, or an exception has left a thread function, some thread can execute its next statement, as long as the allocator has memory. In particular no join waits for a thread that has already ended or that is stuck, and no thread is inside a call that cannot go on. (Only deadlock is excluded: a thread that polls for ever is not stuck.)", "quantifier": "all numbers of threads, elements and operations (for the stress tests of stack and queue at least one reader), all interleavings of single accesses; for spsc_queue all values that release/acquire memory allows a load to return", "why_tests_cant": "a test that passes has seen one interleaving; a deadlock needs a particular one, and shows only as a test that does not end", "anchors": ["examples/stack.cpp:20-69", "examples/queue.cpp:20-68", "test/test_common.hpp:48-156", "test/spsc_queue_stress_test.cpp:51-113", "test/spsc_queue_stress_test.cpp:144-217", "test/freelist_test.cpp:145-207"]}
{"id": "C72", "title": "Used by one thread at a time, the containers and freelists behave as the sequential objects", "statement": "If no two calls overlap (one thread, or several threads that hand the object over), then the calls of a stack, queue, spsc_queue or freelist return what the sequential object would return, in the order of the calls, with no reordering left open. In particular: after k pushes that succeed, the pops of a stack return the elements in reverse order and those of a queue in order, and then find the container empty; an spsc_queue for N elements accepts exactly the first N of a sequence of pushes and pops return exactly these in order; a freelist with n nodes hands out n distinct nodes to bounded calls of construct and then returns null, and nodes that are given back are handed out again, the last one first.", "quantifier": "all sequences of calls that do not overlap, all numbers of elements and nodes, all distributions of the calls over threads; sequentially consistent accesses", "why_tests_cant": "the unit tests make these calls with one element type, one capacity and one sequence of values", "anchors": ["test/stack_test.cpp:20-32", "test/queue_test.cpp:24-60", "test/spsc_queue_test.cpp:25-57", "test/freelist_test.cpp:52-118", "include/boost/lockfree/detail/freelist.hpp:77-117", "include/boost/lockfree/detail/freelist.hpp:438-489"]}
{"id": "C73", "title": "The functions of the freelists that are not thread-safe agree with the thread-safe ones", "statement": "construct< false, Bounded > and destruct< false > of freelist_stack and fixed_size_freelist, which use plain stores of pool_ instead of compare-exchanges, may be called by one thread while no other call is in progress, and thread-safe use may go on afterwards, any number of times: every such mixed execution has the same history and the same memory (all words, tags included) as one in which only thread-safe functions are called, also in the middle of a call. So, if users give back only nodes they have: mixed executions are linearizable, meet no undefined behaviour, hand out no node twice, keep the objects, and lose no node. A call makes a bounded number of steps and is never stuck while the allocator has memory. With one thread: of bounded calls of construct on a new freelist of n nodes exactly the first n succeed, and nodes given back are handed out again, the last one first.", "quantifier": "all executions in which phases of thread-safe use by any number of threads and phases of other use by one thread alternate, all numbers of nodes, all three word representations, all exceptions; no tag wraps completely between a load and its compare-exchange in the thread-safe phases", "why_tests_cant": "freelist_test.cpp calls these functions on freelists with 8 nodes, from one thread, and never mixes them with thread-safe calls; a lost tag would show only in a later concurrent phase", "anchors": ["include/boost/lockfree/detail/freelist.hpp:77-117", "include/boost/lockfree/detail/freelist.hpp:196-217", "include/boost/lockfree/detail/freelist.hpp:245-255", "include/boost/lockfree/detail/freelist.hpp:438-489", "include/boost/lockfree/detail/freelist.hpp:562-577", "include/boost/lockfree/detail/freelist.hpp:602-611", "test/freelist_test.cpp:52-118"]}
{"id": "C74", "title": "A call of the stack is delayed only by calls that change the stack", "statement": "In an execution of the stack in which push, pop and empty are called, the number of steps of one thread is at most a constant times: the number of its own calls, the number of spurious failures of its own compare-exchanges, the number of calls (of any thread) that have returned and may have changed the stack, and the number of threads. Calls that found the stack empty, or that were refused, do not count: they delay nobody. Hence, in an execution without end with finitely many spurious failures in which only finitely many calls change the stack, every call of a thread that goes on making steps returns, although lock-freedom alone promises only that some call returns.", "quantifier": "all executions of any finite number of threads calling push, pop and empty, all values, node-based and fixed-size, all word representations, all interleavings; finite prefixes and executions without end", "why_tests_cant": "tests see calls return; that a call in progress cannot be overtaken for ever by others that do not change anything is a statement about executions without end", "anchors": ["include/boost/lockfree/stack.hpp:262-272", "include/boost/lockfree/stack.hpp:352-361", "include/boost/lockfree/stack.hpp:530-549", "include/boost/lockfree/stack.hpp:815-818", "include/boost/lockfree/detail/freelist.hpp:172-195", "include/boost/lockfree/detail/freelist.hpp:230-243", "include/boost/lockfree/detail/freelist.hpp:543-560", "include/boost/lockfree/detail/freelist.hpp:588-600"]}
{"id": "C75", "title": "examples/stack.cpp ends", "statement": "On a fair scheduler, and if stores to done become visible, no exception is thrown, the allocator has memory, and compare-exchanges fail spuriously only finitely often, every execution of examples/stack.cpp comes to an end: every call of push and pop returns, the producers end, main sets done, the consumers find the stack empty and end, and main prints. The assumptions on done and on spurious failures are needed: without either there are executions without end.", "quantifier": "all numbers of producers, consumers and iterations, all initial numbers of nodes, all word representations of a node-based stack, all interleavings of single accesses; no tag wraps completely between a load and its compare-exchange", "why_tests_cant": "the example was seen to end; that it ends on every fair schedule is a statement about executions without end, and lock-freedom alone does not give it, since single calls may starve", "anchors": ["examples/stack.cpp:17-69", "include/boost/lockfree/stack.hpp:262-272", "include/boost/lockfree/stack.hpp:352-361", "include/boost/lockfree/stack.hpp:530-549"]}
{"id": "C76", "title": "A call of the queue is delayed only by calls that change the queue", "statement": "In an execution of the queue in which push, pop and empty are called, the number of steps of one thread is at most a constant times: the number of its own calls, the number of spurious failures of its own compare-exchanges, the number of calls (of any thread) that have returned and may have changed the queue, and the number of threads. Calls that found the queue empty, or that were refused, do not count, although an unsuccessful pop may move tail_ on: that is done at most once for each push. Hence, in an execution without end with finitely many spurious failures in which only finitely many calls change the queue, every call of a thread that goes on making steps returns.", "quantifier": "all executions of any finite number of threads calling push, pop and empty, all values, node-based and fixed-size, all word representations, all interleavings; finite prefixes and executions without end", "why_tests_cant": "tests see calls return; that helping with tail_ and repeated unsuccessful calls cannot keep a call from returning for ever is a statement about executions without end", "anchors": ["include/boost/lockfree/queue.hpp:301-304", "include/boost/lockfree/queue.hpp:335-366", "include/boost/lockfree/queue.hpp:418-457", "include/boost/lockfree/detail/freelist.hpp:172-195", "include/boost/lockfree/detail/freelist.hpp:230-243", "include/boost/lockfree/detail/freelist.hpp:543-560", "include/boost/lockfree/detail/freelist.hpp:588-600"]}
{"id": "C77", "title": "examples/queue.cpp ends", "statement": "On a fair scheduler, and if stores to done become visible, no exception is thrown, the allocator has memory, and compare-exchanges fail spuriously only finitely often, every execution of examples/queue.cpp comes to an end: every call of push and pop returns, the producers end, main sets done, the consumers find the queue empty and end, and main prints. The assumptions on done and on spurious failures are needed: without either there are executions without end.", "quantifier": "all numbers of producers, consumers and iterations, all initial numbers of nodes, all word representations of a node-based queue, all interleavings of single accesses; no tag wraps completely between a load and its compare-exchange", "why_tests_cant": "the example was seen to end; that it ends on every fair schedule is a statement about executions without end, and lock-freedom alone does not give it, since single calls may starve", "anchors": ["examples/queue.cpp:14-68", "include/boost/lockfree/queue.hpp:335-366", "include/boost/lockfree/queue.hpp:418-457"]}
{"id": "C78", "title": "A call of the freelists is delayed only by calls that change the freelist", "statement": "construct and destruct of freelist_stack and fixed_size_freelist, called by T threads without a container around them. The number of statements a thread executes is at most 42 (6 c + 2 f + 2 (r + T)), where c is the number of its calls, f the number of its compare-exchanges that failed although the word had the expected value, and r the number of calls of all threads that have returned, except those of construct that returned null. So a construct that finds no node delays nobody. Hence, in an execution without end with finitely many spurious failures in which only finitely many calls return anything but null, every call of a thread that goes on making steps returns. This holds for arbitrary calls, also for nodes given back twice.", "quantifier": "all numbers of threads, calls, nodes, all interleavings of single accesses, both freelists, all representations of words; finite prefixes and executions without end", "why_tests_cant": "tests see calls return; that a call in progress cannot be overtaken for ever by others that change nothing is a statement about executions without end", "anchors": ["include/boost/lockfree/detail/freelist.hpp:77-117", "include/boost/lockfree/detail/freelist.hpp:173-195", "include/boost/lockfree/detail/freelist.hpp:230-243", "include/boost/lockfree/detail/freelist.hpp:438-489", "include/boost/lockfree/detail/freelist.hpp:543-560", "include/boost/lockfree/detail/freelist.hpp:588-600"]}
{"id": "C79", "title": "No single call of the freelists is certain to finish", "statement": "construct and destruct of freelist_stack and fixed_size_freelist, called without a container around them, are not wait-free. From every reachable state of a freelist that is not empty, in which threads t and u are between calls, and for every number N there is a continuation in which t calls construct, or destruct for a node that holds an object, and executes N statements or more without returning, although only t and u move, u merely takes a node and gives it back again and again, no compare-exchange fails spuriously, nothing throws and no tag wraps between a load and its compare-exchange. So the bound of C78 must count the calls of other threads that change the freelist.", "quantifier": "all numbers N, all reachable states with disciplined users, all nodes and values, both freelists, all faithful representations of words whose tag has more than one value", "why_tests_cant": "it is a statement about the existence of an adversarial schedule of every length; schedulers in tests rarely produce even a short one", "anchors": ["include/boost/lockfree/detail/freelist.hpp:77-117", "include/boost/lockfree/detail/freelist.hpp:173-195", "include/boost/lockfree/detail/freelist.hpp:230-243", "include/boost/lockfree/detail/freelist.hpp:438-489", "include/boost/lockfree/detail/freelist.hpp:543-560", "include/boost/lockfree/detail/freelist.hpp:588-600"]}
{"id": "C80", "title": "No single call of a fixed-size stack or queue is certain to finish, in the program text", "statement": "C53 holds for the statements of the program text. After every history (executed without accidents) that leaves a fixed-size stack not empty, or a fixed-size queue not empty with tail_ up to date, and threads t and u between calls, and for every number N, the text can be executed with that history and then such that t calls push (if a node is free), pop or another looping function and executes N statements or more without returning, although after the history only u calls and returns, no compare-exchange fails spuriously, nothing throws, and no tag wraps between a load and its compare-exchange. So the bounds of C74 and C76 must count the calls of other threads that change the container.", "quantifier": "all numbers N, all histories of the kind described, all values, all calls C53 speaks of, all faithful representations of words of fixed-size containers whose tag has more than one value", "why_tests_cant": "it is a statement about the existence of an adversarial schedule of every length; schedulers in tests rarely produce even a short one", "anchors": ["include/boost/lockfree/stack.hpp:352-361", "include/boost/lockfree/stack.hpp:530-549", "include/boost/lockfree/queue.hpp:335-366", "include/boost/lockfree/queue.hpp:418-457", "include/boost/lockfree/detail/freelist.hpp:543-560", "include/boost/lockfree/detail/freelist.hpp:588-600"]}
