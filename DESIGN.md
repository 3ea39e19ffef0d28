# Formal model of boostorg/lockfree in Lean 4 — design

## 1. What is modelled

All definitions that model code carry file and line numbers of /repo. Specifications are in separate modules that mention no code.

### 1.1 Generic part (no code of /repo except where stated)

| Module | Content |
|---|---|
| `Lin` | histories, sequential specifications, Herlihy–Wing linearizability; a proof rule: simulation by a canonical atomic object |
| `Mach` | machines with any number of threads, executions `MSteps`, well-formed histories |
| `Calls`, `Threads`, `Instant`, `CallInv` | completed calls, the calls of one thread, the instant at which a call takes effect |
| `LockFree`, `Alone` | counting steps: lock-freedom bounds, solo termination |
| `Client`, `ClientInstant`, `ClientCount`, `ClientRun` | routines that call a container; a trace records the calls of routines and those they make on one time axis |
| `Consume` | **code**: `consume_one` of the queue, `consume_all` of stack and queue, as such routines |
| `NotLin`, `After` | search that refutes linearizability of a concrete history; running concrete schedules |
| `Weak`, `WeakLin` | views and vector clocks of a release/acquire memory; linearizability with respect to happens-before |
| `Heap`, `HeapInv`, `HeapObs`, `HeapLen` | **code**: `detail/freelist.hpp`, allocate / deallocate of both freelists, thread-safe and unsafe; its invariant |
| `Release` | **code**: `~freelist_stack` |
| `Tagged`, `Words` | **code**: `tagged_ptr_dcas.hpp`, `tagged_ptr_ptrcompression.hpp`, `tagged_index` as bit vectors; the freelist run on these representations |
| `WordMem`, `WordReps` | **code** again: the freelist on stored words, all racing reads arbitrary; correspondence with `Heap`; the three representations |
| `Text`, `TextRun` | a language of structured programs and its execution; what it means that a program refines a machine |
| `TextPool` | **code** again: the functions of the freelists as program text |
| `TextUnsync` | **code** again: the unsynchronized functions of the freelists as program text; refinement by a thread that is alone |
| `TextTotal` | total correctness of programs executed by one thread |
| `TextLife`, `TextLifeExamples` | **code** again: constructors and destructors of the freelists as program text (C59) |
| `TextFollow` | programs executed from corresponding states; a program as part of another one |
| `Example`, `ExampleInv`, `ExampleEnd` | **code**: the programs in examples/ on top of any container machine; what they have done when they print (C61) |
| `ExampleForever` | executions of them without end |
| `ExampleWeak` | what the threads of these programs know about each other under release/acquire memory (C64) |
| `ExampleRun`, `ExampleExamples`, `ExampleWeakExamples` | concrete executions of them |
| `User`, `UserSince`, `UserRun` | programs that use a container, given as a script: places, calls, actions; the beginnings of calls; their execution |
| `Stress` | **code**: the stress tests of stack and queue, test/test_common.hpp, on top of any container machine (C65) |
| `StressInv`, `StressCalls`, `StressEnd`, `StressWeak` | invariants: variables; calls and values; no check fails; what the last `pop` has seen |
| `StressExamples` | concrete executions of them |
| `Freelist/Spec`, `Freelist/Text`, `Freelist/Inv`, `Freelist/Props`, `Freelist/Examples` | **code** (`Text`): `construct` and `destruct` of the freelists without a container (C67) |
| `Freelist/Progress`, `Freelist/ProgressExamples` | lock-freedom of the freelists (C70); executions without end |
| `Freelist/Unsync`, `Freelist/UnsyncProps`, `Freelist/UnsyncExamples` | **code** (`Unsync`): `construct< false, .. >` and `destruct< false >` of the freelists without a container (C73) |
| `ExampleStuck`, `StressStuck`, `Stack/Stuck`, `Queue/Stuck`, `Spsc/StressStuck`, `Freelist/TesterStuck`, `StuckExamples` | no deadlock in the example programs and the stress tests (C71) |
| `Delay`, `Stack/Delay`, `Stack/DelayExamples` | steps of one thread in an execution; what delays a call of the stack (C74) |
| `Queue/Delay`, `Queue/DelayExamples` | what delays a call of the queue (C76) |
| `Freelist/Delay`, `Freelist/DelayExamples` | what delays a call of the freelists (C78) |
| `TextStarve`, `Freelist/Starve`, `Freelist/StarveExamples` | executions of the text in which one thread is watched; calls of the freelists are not wait-free (C79) |
| `Stack/TextStarve`, `Stack/TextStarveExamples`, `Queue/TextStarve`, `Queue/TextStarveExamples` | calls of fixed-size stacks and queues are not wait-free, in the program text (C80) |
| `ExampleEnds`, `ExampleOwn`, `Stack/ExampleEnds`, `Stack/ExampleEndsExamples` | termination of the example programs if calls return; examples/stack.cpp (C75) |
| `Queue/ExampleEnds`, `Queue/ExampleEndsExamples` | termination of examples/queue.cpp (C77) |
| `Sequential`, `SequentialUse`, `SequentialExamples` | calls that do not overlap: linearizable means sequentially correct; stack, queue, spsc_queue, freelists (C72) |
| `Both`, `Freelist/Tester`, `Freelist/TesterInv`, `Freelist/TesterEnd`, `Freelist/TesterProps`, `Freelist/TesterExamples` | programs that use two containers; **code** (`Tester`): the stress test of the freelists (C68) |
| `Storage` | **code**: node arrays, handle/pointer conversion, size checks, address arithmetic of the compile-time storage, alignment |
| `Policy` | **code**: evaluation of the template options, `select_freelist`, constructor of `fixed_size_freelist` |

### 1.2 `stack.hpp`, `queue.hpp`, `spsc_queue.hpp`

| Module | Stack | Queue | Spsc |
|---|---|---|---|
| `Spec` | sequential meaning of each call | same | same |
| `Model` | **code**: one small step per shared access | same | **code**: release/acquire machine, indices in `BitVec 64` (`Index`) |
| `Observe` | vocabulary for statements | same | (in `Contract`) |
| `Inv`, `Sim`, `Reach` (`Step`) | invariant, preservation, all executions | same | same |
| `Props`, `Safety`, `Pool`, `Reserve`, `Footprint` | property theorems | same | `Props`, `Contract`, `Sim` |
| `Solo`, `Progress`, `Starve` | progress | same | `Progress` |
| `Unsync` | **code**: unsynchronized operations | same | – |
| `Destroy` | **code**: destructor | same | in `Props` |
| `Aba`, `Empty`, `Neg` | `Aba`: tag exhaustion | `Empty`: what `empty()` does not say; `Lifetime`: indeterminate value in the node constructor | `Neg`: exceptions, limits, non-linearizable cases |
| `Consume`, `ConsumeExamples` | `consume_all` | `consume_one`, `consume_all` | (in `Model`) |
| `Examples` | concrete executions meeting the hypotheses | same | same |
| `Weak`, `WeakInv`, `WeakSim`, `WeakProps`, `WeakMore`, `WeakExamples` | **code** again, under release/acquire memory | same (proof also in `WeakMem`, `WeakStep`, `WeakRead`, `WeakWrite`, `WeakRmw`; abstract object in `WeakLin`) | (the model is already release/acquire) |
| `WordModel`, `WordSim`, `WordProps`, `WordExamples` | **code** again, on stored words (C51) | same | – |
| `Text`, `TextSim`, `TextProps`, `TextExamples` | **code** again, as program text on stored words (C52) | same | **code** again, as program text (C55) |
| `TextUnsync`, `TextUnsyncProps`, `TextUnsyncExamples` | **code** again: unsynchronized functions as program text (C58) | same | – |
| `WeakText`, `WeakTextSim`, `WeakTextProps`, `WeakTextExamples` | **code** again: the program text under release/acquire memory (C62) | same (C63) | (the text is already release/acquire) |
| `Example` | examples/stack.cpp (C61) | examples/queue.cpp | examples/spsc_queue.cpp |
| `ExampleWeak` | the same under release/acquire memory (C64) | same | (C61 is already release/acquire) |
| `ExampleEnds`, `ExampleEndsExamples` | | | the program ends (C69); executions without end |
| `Stress` | the stress test, interleaved and under release/acquire memory (C65) | same | `StressProg` (**code**), `Stress`, `StressExamples`: its two stress tests (C66) |
| `Reported`, `TextLife` | **code** again: constructor and destructor as program text (C59) | same | `Shift`, `TextDrain`, `TextLife`, `TextLifeExamples`: **code** again, `reset()` too (C60) |

Machines are total, executable functions `step t shared pc choice : Option (shared × pc × event)`; `choice` resolves every source of
nondeterminism: which operation the client calls, spurious failure of `compare_exchange_weak`, exceptions from user code or the
allocator, values returned by racing reads, which message a load reads. An execution is any sequence of steps of any threads.
Undefined behaviour and lifetime violations are an absorbing program counter `err`, never a default value.

### 1.3 Tags and ABA
The tag of a word is kept modulo `M` as in the code (`M = 2^16` for `tagged_index` and compressed pointers, `2^64` for DCAS; `M = 0`
is an unbounded tag). Beside each tagged word the machine carries a *ghost* version that no branch reads. `fresh` says: when a thread
compares a word with a snapshot it took earlier, fewer than `M` changes of the tag happened since. Safety theorems hold for all
executions whose steps are `fresh`. Without that they are false: `stack_aba_witness` gives a schedule for every `M ≥ 2`,
`queue_aba_witness` for every even `M` (C21).
`queue_linearizable_of_few_changes` is an instance of the hypothesis that needs no ghost.

### 1.4 Memory model
* **Sequentially consistent machines** (stack, queue): interleaving of single accesses. Speculative non-atomic reads of a node that
  may have been recycled return an arbitrary value. In the queue, reads of `next` of a recycled node may be torn, since the
  freelist writes the same bytes non-atomically; the node constructor reads the indeterminate value of a default-initialised
  `atomic` (queue.hpp:120) and the model lets it read what is in memory (`Queue/Lifetime` shows what happens otherwise, C49).
* **Release/acquire machine of the stack** (C47): each atomic object is a list of messages with views; loads may return any message
  the thread has not yet seen superseded; the memory orders are those of the code. `seq_cst` is treated as acquire/release (more
  behaviours, so the theorems carry over). A `consume` load orders only the reads through the loaded pointer (ghost `dep`). Nodes
  are non-atomic; an access not ordered after all earlier ones leads to `err`. Speculative reads of `next` that are not ordered
  return an arbitrary value (formally a data race in C++; known and accepted by the authors of this kind of freelist).
  Clients may synchronise outside calls (`post`, `wait`). Freshness of a compare-exchange counts from the message read.
* **Release/acquire machine of the queue** (C48): as for the stack; in addition the `next` words are atomic objects that the
  freelist overwrites non-atomically (freelist.hpp:238, 595) while `push` and `pop` may load them (queue.hpp:347, 426). The C++
  standard calls this a data race. The machine has a parameter `rel`: what such a load synchronises with. `rel = true`: it
  is ordered after what precedes the write (as on hardware that keeps stores in order, or if the write were a release store), and
  may return any torn value. The positive theorems assume `rel = true`. `rel = false`: it synchronises with nothing; then the
  queue loses elements (`queue_ra_link_write_lost`). The copy of the payload in `pop` before its compare-exchange returns an
  arbitrary value unless ordered; the compare-exchange that validates it must find it ordered, otherwise `err`.
* **SPSC machine**: release/acquire with stale reads and race detection. Assumptions: one producer and one consumer at a time, roles
  may migrate with external synchronisation; no out-of-thin-air values for the relaxed loads of `empty()`, which are
  done in either order (`Choice.swap`); capacity + 1 ≤ 2^63.

### 1.5 Linearizability of bulk operations
`spsc_queue` is linearizable when loads return the latest store and each bulk transfer counts as one call; with stale reads it is
linearizable only in the weaker sense proved in `Sim`/`Contract`; `Neg` has the counterexamples.

## 2. Property by property

* C01–C05, C07–C09: invariant of the SPSC machine relating index histories to total counts; contracts of single calls.
* C06: `BitVec 64` functions equal natural-number arithmetic for sizes up to 2^63. C13: constructor arithmetic and `next_index` for size 0.
* C10: every call of `spsc_queue` has a step bound. C11: simulation by the canonical atomic object. C12, C42: exceptions, with witnesses.
* C14–C18, C40, C25: stack machine; every node is raw, free, linked, held by one thread, or lost; simulation by the canonical stack.
* C19, C20, C38, C39, C43: counting of nodes; destructors; `reserve`.
* C21: see 1.3. C22, C32: solo termination with explicit bounds, a compare-exchange fails only by interference. C44, C45: amortised
  bound on the number of steps of all threads together.
* C23: exceptions are choices of the machine. C24, C31: unsynchronized operations refine the same specification in mixed executions.
* C26–C30, C41: queue machine; Michael–Scott invariant with tag versions; `empty()`.
* C33–C37, C46: bit vectors, address arithmetic, decision logic; the freelist machine on words corresponds to the abstract one.
* C47: release/acquire machine of the stack, simulation by a canonical weak object that keeps its past states.
* C48: release/acquire machine of the queue; ghost history of nodes and of the message at which each was linked; an abstract queue with
  views (`Queue/WeakLin`) that places empty pops by what they had seen of `head_` and `tail_`.
* C49: a variant of the queue machine; schedules evaluated in the kernel and refutation of linearizability by exhaustive search.
* C50: the container machine wrapped in routines; the calls they make form an execution of the container, so its theorems apply; the calls
  made between invocation and return of a routine are determined by its code.
* C51: the machines of stack and queue on words; each step is simulated by a step of the machine on pairs (handle, tag). A racing read may
  return bits that represent no pair; then the snapshot it belongs to is out of date, and the comparison that follows fails.
* C52: the program counters of the machines on words are a hand-made translation of control flow. `Text` replaces it by text: the lists of
  statements in `Stack/Text`, `Queue/Text`, `TextPool` follow the lines of the code, and the order of execution is that of the language.
  `At` relates places in the text to program counters; `Refines` is proved access by access, and `Complete` for the converse.
* C53: executions with the steps of one thread counted (`Watched`); a round in which another thread takes an element and puts it back changes
  the tags of `tos`, `pool_`, `head_` and `tail_`, so the comparison the first thread is about to make fails; rounds are repeated.
* C54: a thread asks the allocator only after having loaded a null `pool_`; at that load every node is in the container or in the hands of a
  thread (C20), and a thread that has loaded null has none. The allocated nodes plus the threads about to ask are bounded ever after.
* C55: as C52, for `spsc_queue`. The machine of `Spsc/Model` plans a bulk transfer once, after the loads; the text computes bounds step by step and
  splits the copy by an `if`. `range_plan` and `take_plan` show that both arrive at the same slots and the same new index.
* C56: at the end of the text (`At.fin`, `Output`) the local variables say what was written; `Queue/TextOutput` has the schedule for the negative
  part.
* C57: `Forever`, a sequence of configurations. If from some step on nothing returned, only finitely many calls would be made, and the bounds of
  C44, C45 and C52 would bound the number of steps. Negative part: a loop of 12 steps that returns to the same configuration.
* C58: as C52, for the functions of one thread alone. Their copies of shared words stay up to date (`NowU`), so a plain store does what the
  compare-exchange of the machine on words does. The queue text lacks the second loads of `head_` and `tail_`; the machine makes these steps
  at once (`RefinesAlone`). `MixedText` alternates phases of both kinds.
* C59: no other thread can observe these functions, so they are verified directly (`Ends`, `Total`), not by refinement of a machine. A constructor
  builds the words of `SMem.initial`, node by node. At rest (`AtRest`), the invariant of C51 gives the linked lists of the freelist and of the
  container; each iteration of a destructor moves one node from the second to the first. `Reported`: a node lost is a call that threw.
* C60: `Used` describes the life of a queue with `reset()` executed line by line; the stores made before it remain in the modification orders. `Shift`:
  two states that differ only in stores no thread can read any more; every access does the same in both (`Corr`), so executions
  correspond step by step (`Program.follow`) to those of C55, where the modification orders are restarted. `consume_all` in `reset()` and in the
  destructor is the text of C55, executed alone; that it ends, and what it does, follows from the theorems about calls (C05, C10).
* C61: `Example.mach` wraps a container machine; its calls form an execution of the container (`Runs.base`), so C52 and C55 apply. `ExampleInv` counts: values handed out
  by `++producer_count`, values accepted, values in the hands of producers. The last `pop` of a consumer is called after all successful `push`es have returned, so in any
  linearization the container is empty from then on (`drained`). For `spsc_queue` the argument is about views: a consumer that has loaded `true` knows the
  last `write_index_`, and nothing is added any more.
* C62: every access of the text says what it is to the memory model (`Access.kind`: access to nodes, load of an object with its memory order, compare-exchange,
  speculative read). `raMach` executes any such text: a load may return an old message, whose word replaces the current one while the statement runs (`withWord`);
  a failing compare-exchange is such a load; nodes accessed must be known to the thread. `RaRel` relates the messages word by word to those of
  the machine of C47, `kind_agrees` says that text and machine agree about each access, and `ra_simulated` puts the machine into the same place.
* C63: the same for the queue. Its text has more kinds of accesses: stores to `next` words, atomic (node constructor) or not (freelist); loads of `next` words that race with
  the latter and return any bits (`torn`); the copy of the payload in `pop`; a strong compare-exchange, which fails only if the word differs; the first operand of `==` in `empty`.
  A stale link is related to the pair the machine of C48 read only as long as the thread has not seen `tail_` (`head_`) change; `LocRel` keeps this until the
  test `tail == tail2` (`head == head2`).
* C64: the programs of C61 on the machines of C62 and C63. The end of a producer and the store to `done` release a view (`post`); joining the producers and loading `true` from
  `done` acquire it (`wait`). `WInv` follows the clocks: a consumer past its loop knows the last event of every producer, so the return of every `push` happens before its last
  `pop`, and `drained` applies to the linearization with respect to happens-before.
* C65: `VInv` is about the variables of the program alone: every number handed out by `generate_id` is in exactly one of `data`, `dequeued` or the hands of a thread
  between two operations. `HInv` relates them to the calls: the numbers popped are those in `dequeued` or in the hands of a reader. That a number popped is still in `data`, so
  that the assertions hold, needs conservation of the container at every moment, not only at the end (`HInv.fair`, from the linearization of the calls so far). `settled`
  is then the argument of C61 and C64.
* C66: one program for both testers; they differ in `Plan`. `SInv` counts: at every place of the writer it is known how many numbers are generated, in `working_set`, pushed, and
  counted; as the queue is a queue, what the reader has popped is the beginning of what was generated, so `working_set` is always an interval. The last, empty `pop` of the
  reader began when the reader knew the last store of `write_index_`: `Runs.induct` gives access to the beginning of every call.
* C67: the freelist lemmas of stack and queue (`aStep_inv`, `dStep_inv`, `saStep_sim`, `sdStep_sim`) with other owners: a node belongs to a thread during `construct` and
  `destruct` and to the users between them. `Shape` relates owners and history. `construct` takes effect at its compare-exchange or allocation, null at the load of a null
  `pool_`.
* C68: `Both` runs two containers side by side; the calls of each are an execution of it alone (`steps_left`, `steps_right`). `NInv` counts each node: it is in use exactly if
  it is in `working_set` or in the hands of a thread outside of it, and it is in `working_set` exactly if it is in the queue or in the hands of a thread next to the queue. So
  the test keeps the discipline that C67 asks for, C67 says that a node received is new, and that gives the assertions. `EInv`: a deallocator that leaves found the queue empty
  after the last `push` had returned (`drained` again).
* C69: in an execution without end every call returns, because it has a bounded number of steps (C55) and its thread is able to make them (`FairRun.returns`, with
  `Mach.count` under the program). What calls do is the contract of C55 (`producerPost`, `consumerPost`). If `push` failed for ever, nothing would be added; the consumer, which
  goes on as `done` is not set, would come to know all elements and take them; the producer would come to know that.
* C70: a thread is charged the steps to the end of its call if `pool_` does not change, two more if its word is stale, and `2 T` for its own successful compare-exchange (`cost`);
  no invariant of the freelist is needed (`cost_own`, `cost_others`).
* C71: if a thread function has not ended, its thread can make a step: it is in a call (never stuck by the theorems of the containers, C70 for the freelist) or at a place that has a
  step. If all have ended, this is recorded, so the joins of the main thread go through. `Mach.CanStep` asks for a step of the model, without the assumption on tags (`Program.ok`):
  a compare-exchange whose tag has wrapped is a step of the code as well. Nothing is said about livelock.
* C72: in a history in which no two calls overlap, the order of a linearization is forced to be that of the calls (`linearizable_sequential`, an equivalence), so the theorems on
  linearizability become equations for the results. What remains open is what the specification leaves open: whether a push or an unbounded `construct` finds memory, and which
  fresh node the latter gets.
* C73: as C58. The copies of `pool_` stay up to date (`NowU`), so the plain store does what a successful compare-exchange does; hence executions in which both kinds of functions are used
  (never at the same time) have the histories and memories of those with thread-safe functions only (`freelist_unsync_same`), and C67 and C72 carry over.
* C74: the potential of C22 and C57 for one thread: its own steps pay from the budget of its own call, and it must pay again only when another thread has changed `tos` or `pool_`.
  Between changes that a call makes and its return the changes are counted with the call (`made`), so that finished calls plus at most `4` per thread bound them. An empty `pop` and a
  refused `push` change nothing. That some assumption on the changes is needed is C53.
* C75: in stack.cpp at most `np * k` values are offered, so at most as many are handed out (C15), and only finitely many calls change the stack; by C74 every call returns. What remains
  is a walk through the program (`FairRun.ends`), the same for every container that serves it (`Serves`).
* C76: as C74, with the potential of C45. Changes are those of `head_`, `tail_`, the link of the last node and `pool_`. An empty `pop` may swing a lagging `tail_`; the swing is counted with
  the `push` that linked the node (`made` is 3 from the link on; `lg` tells whether the swing is still due), so an empty `pop` again delays nobody beyond that.
* C77: as C75, by C76.
* C78: as C74, with the potential of C70 (`cost 0`); only `pool_` matters, and a call changes it at most once. A `construct` that returns null changes nothing; a call that threw is counted,
  although it changes nothing if the exception came from the allocator.
* C79: as C53, on the words of the freelist: a thread that takes a node and gives it back leaves `pool_` with the next tag, so the compare-exchange of the other fails. The execution of the
  machine is turned into one of the text with the steps of the delayed thread counted (`Refines.watched`, from `Refines` and `Complete`).
* C80: the execution of C53 is turned into one of the machine on words (`words_watched`; every step without accidents of the machine on pairs can be made on words, if nodes are not allocated), and
  then into one of the text (`Refines.watched`). Fixed-size containers only: a node-based one may run out of words for addresses, and then the machine on words cannot follow. The statements counted
  include those of the delayed thread during the given history `h`; if `h` contains no event of that thread, as in the examples, all are statements of the one call.

## 3. Trusted base
* Lean 4.33.0's kernel. The theorems of MANIFEST.json use no axioms beyond `propext`, `Classical.choice`, `Quot.sound`
  (checked with `#print axioms` on every one of them: 7 use only `propext`, 52 `propext` and `Quot.sound`, the others all three).
* The reading of the C++ text into the model.
* The specifications (`*/Spec.lean`, first part of `Lin.lean`, `WeakLin.lean`) and the vocabulary modules (`Observe`, `HeapObs`).
* Not modelled: compilers; `boost::parameter` mechanics beyond the resulting constants; allocator
  internals; timing; padding as a performance feature; interprocess use; `is_lock_free`; `BOOST_ASSERT` beyond `front()`.

## 4. Simplifications
* Overloads that differ only in constness of the functor (e.g. stack.hpp:531 and 552) share one model.
* The functor given to `consume_one` and `consume_all` is known only by the elements it is applied to and by whether it throws; it does not
  use the container. The default constructor of `T` (queue.hpp:525, 537) does not throw.
* `unsynchronized_push`, `reserve`, `reserve_unsafe` and range pushes exist only where the code compiles: node-based containers.
* `reset()` of `spsc_queue` for trivially destructible types is one step that restarts the modification orders in `Spsc/Model`; C60 has the lines of the code, and shows
  that this is the same. It is allowed while no other call runs. The threads have synchronised before and after by means outside the queue.
* A reference returned by `front()` is read once by the caller before its next call.
* Program text (C52): calls that only pass on their arguments (`push` to `do_push`) are not separate calls; `deallocate` of the fixed-size freelist takes a
  pointer instead of an index; the member `next` of a stack node is accessed by `set_ptr` / `get_ptr` (C51: the tag part stays 0);
  a compare-exchange says whether it changes the ghost version, and a comparison carries the assumption about tags. A range push of an
  empty range is excluded.
* Nodes are numbered; addresses enter only in `Storage`, `Tagged`, `Words`, `WordReps`. The theorems about stack and queue are proved for pairs (handle, tag)
  and carried over to stored words in C51; those about release/acquire memory in C62 for the stack and C63 for the queue.
* The example programs (C61): `int` is unbounded; a load of `done` may return `false` at any time; the counters are sequentially consistent; `is_lock_free` and the
  output are left out. Stack and queue are sequentially consistent in C61; in C64 the counters order nothing, and the queue is that of C63 with `rel = true`.
* Termination of examples/spsc_queue.cpp (C69): fairness is weak fairness of the scheduler; that stores become visible is expressed by the views of the threads
  (`ProducerSees`, `ConsumerSees`) and for `done` by `DoneSeen`; no exceptions.
* Termination of examples/stack.cpp and queue.cpp (C75, C77): as C69; container and counters are sequentially consistent, `done` may be seen late; a thread counts as able to make a step if the code has one, also
  where the assumption on tags excludes it.
* The stress tests (C65): header of `Stress.lean`. `data` and `dequeued` are sets with atomic operations that order nothing; `long` and `int` are unbounded;
  the calls of `stk.empty()` are left out. The same holds for those of `spsc_queue` (C66): header of `Spsc/StressProg.lean`.
* The freelists on their own (C67): whether the constructor of the object throws is part of the call; `BOOST_LOCKFREE_FREELIST_INIT_RUNS_DTOR` and
  `reserve` are left out; `ThreadSafe = false` is in C73; the object does not overlap the link of its node (`padding` in test/freelist_test.cpp).
* The stress test of the freelists (C68): header of `Freelist/Tester.lean`. `oom_test` and `run_test` of the same file (one thread) are
  instances of C72 and C73 where calls are bounded or the size is fixed; for unbounded calls `freelist_exclusive` and `freelist_unsync_exclusive` say that the nodes are different.

## 5. Findings about the code
* `queue(SIZE_MAX)` of a fixed-size queue: `n + 1` wraps to 0, the pool is empty and `initialize` uses a null node (`queue_without_nodes`).
* Compressed pointers assume a little-endian machine (`ptr_pack_big`) and user-space addresses below 2^48 (otherwise
  `stack_high_addresses_not_linearizable`, `queue_high_addresses_undefined_behaviour`).
* With 128- or 256-byte cache lines the nodes of a compile-time sized freelist may lie outside its storage (`CtStorage.outside_iff`).
* `queue::pop` that returns false may leave a value in its argument that was never pushed (`queue_pop_false_overwrites`; the code documents that
  the argument may be modified).
* Freelist links in nodes of fixed-size stacks with small elements are misaligned (`stackNode_misaligned`).
* `capacity<N>` together with a run-time size is stopped only by a debug assertion; the freelist is then not terminated (`index_init_mismatch`).
* A throwing copy constructor in a push leaks the node (`dropped_nodes_forever`); in a range push of `spsc_queue`, elements (C42); a
  throwing consumer destroys an element twice (C12).
* A range push of an empty range dereferences `end` (`empty_range_push_undefined`).
* `queue::empty()` may return true although the queue was never empty during the call (`queue_empty_true_unreliable`).
* The freelist writes the link of a node without synchronisation while other threads may load it as `next`. On a machine that makes
  that write visible before the preceding pop, a `push` can attach its node to a free node and return `true`: the element is
  lost and its node enters the freelist while it is alive (`queue_ra_link_write_lost`, `queue_ra_link_write_corrupts`).
* The node constructor of the queue takes the tag of the link from memory whose value is indeterminate in C++; if it reads anything else
  than the bytes left by the freelist, pushes are invisible for a while and order is lost (`queue_link_value_lost`, `queue_link_value_order`).
* `consume_all` of stack and queue is not atomic (documented as "sequentially pops"): `queue_consume_all_not_atomic`. An element whose functor
  throws is lost.
* `spsc_queue::empty()` loads relaxed: `false` does not make the element readable (`Neg`, C08).

## 6. Mutation testing
`tools/mutate.py` applies edits to a scratch copy, rebuilds, and records which theorems fail; `seeded/LOG.jsonl` is the log.
