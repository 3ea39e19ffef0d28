{
 "claims": [
  {
   "property": "C01",
   "status": "proved",
   "theorems": [
    "Verif.Spsc.spsc_fifo",
    "Verif.Spsc.spsc_fifo_quiescent",
    "Verif.Spsc.spsc_accepted",
    "Verif.Spsc.spsc_delivered"
   ],
   "note": "release/acquire memory with stale loads, any interleaving; capacity below 2^63"
  },
  {
   "property": "C02",
   "status": "proved",
   "theorems": [
    "Verif.Spsc.spsc_capacity",
    "Verif.Spsc.spsc_producer_call",
    "Verif.Spsc.spsc_producer_exact"
   ],
   "note": ""
  },
  {
   "property": "C03",
   "status": "proved",
   "theorems": [
    "Verif.Spsc.spsc_no_undefined_behaviour"
   ],
   "note": ""
  },
  {
   "property": "C04",
   "status": "proved",
   "theorems": [
    "Verif.Spsc.spsc_slots",
    "Verif.Spsc.spsc_balance",
    "Verif.Spsc.spsc_drain"
   ],
   "note": ""
  },
  {
   "property": "C05",
   "status": "proved",
   "theorems": [
    "Verif.Spsc.spsc_consumer_call",
    "Verif.Spsc.spsc_producer_call",
    "Verif.Spsc.spsc_slots"
   ],
   "note": ""
  },
  {
   "property": "C06",
   "status": "proved",
   "theorems": [
    "Verif.Spsc.nextIndex_spec",
    "Verif.Spsc.nextIndex_exact",
    "Verif.Spsc.readAvail_exact",
    "Verif.Spsc.writeAvail_exact",
    "Verif.Spsc.avail_sum"
   ],
   "note": "all 64-bit values"
  },
  {
   "property": "C07",
   "status": "proved",
   "theorems": [
    "Verif.Spsc.spsc_write_available_reliable",
    "Verif.Spsc.spsc_read_available_reliable",
    "Verif.Spsc.spsc_not_empty_reliable"
   ],
   "note": ""
  },
  {
   "property": "C08",
   "status": "proved",
   "theorems": [
    "Verif.Spsc.spsc_front",
    "Verif.Spsc.spsc_read_available_reliable",
    "Verif.Spsc.spsc_empty_then_front_races"
   ],
   "note": "the last theorem is the negative part: an execution with a data race"
  },
  {
   "property": "C09",
   "status": "proved",
   "theorems": [
    "Verif.Spsc.spsc_reset_trivial",
    "Verif.Spsc.spsc_drain",
    "Verif.Spsc.spsc_full_capacity"
   ],
   "note": "reset() of a type with destructor is consume_all: spsc_drain"
  },
  {
   "property": "C10",
   "status": "proved",
   "theorems": [
    "Verif.Spsc.spsc_wait_free",
    "Verif.Spsc.spsc_never_blocks"
   ],
   "note": "explicit bounds on the number of steps, whatever the other thread does"
  },
  {
   "property": "C11",
   "status": "proved",
   "theorems": [
    "Verif.Spsc.spsc_linearizable",
    "Verif.Spsc.spsc_bulk_push_not_atomic",
    "Verif.Spsc.spsc_bulk_pop_not_atomic"
   ],
   "note": "the last two theorems are the negative part"
  },
  {
   "property": "C12",
   "status": "proved",
   "theorems": [
    "Verif.Spsc.spsc_consume_one_throw",
    "Verif.Spsc.spsc_consume_all_throw"
   ],
   "note": ""
  },
  {
   "property": "C13",
   "status": "proved",
   "theorems": [
    "Verif.Spsc.bufferSize_spec",
    "Verif.Spsc.spsc_size_zero_hangs"
   ],
   "note": ""
  },
  {
   "property": "C14",
   "status": "proved",
   "theorems": [
    "Verif.Stack.stack_linearizable",
    "Verif.Stack.stack_effect_instant",
    "Verif.Stack.stack_linearizable_ideal",
    "Verif.Stack.stack_linearizable_of_few_removals",
    "Verif.Stack.stack_solo_call"
   ],
   "note": "any number of threads, all interleavings of single shared accesses"
  },
  {
   "property": "C15",
   "status": "proved",
   "theorems": [
    "Verif.Stack.stack_conservation",
    "Verif.Stack.stack_delivers_only_offered"
   ],
   "note": ""
  },
  {
   "property": "C16",
   "status": "proved",
   "theorems": [
    "Verif.Stack.range_push_atomic",
    "Verif.Stack.range_push_count",
    "Verif.Stack.stack_step_atomic"
   ],
   "note": ""
  },
  {
   "property": "C17",
   "status": "proved",
   "theorems": [
    "Verif.Stack.consume_all_atomic_snapshot",
    "Verif.Stack.stack_step_atomic"
   ],
   "note": ""
  },
  {
   "property": "C18",
   "status": "proved",
   "theorems": [
    "Verif.Stack.stack_no_undefined_behaviour",
    "Verif.Stack.stack_derefs_allocated",
    "Verif.Stack.stack_ownership_exclusive",
    "Verif.Stack.stack_uses_exclusive",
    "Verif.Stack.stack_free_nodes_dead"
   ],
   "note": ""
  },
  {
   "property": "C19",
   "status": "proved",
   "theorems": [
    "Verif.Stack.push_false_was_exhausted",
    "Verif.Stack.bounded_push_never_allocates",
    "Verif.Stack.bounded_step_no_request",
    "Verif.Queue.queue_push_false_was_exhausted",
    "Verif.Queue.queue_bounded_push_never_allocates"
   ],
   "note": ""
  },
  {
   "property": "C20",
   "status": "proved",
   "theorems": [
    "Verif.Stack.stack_nodes_accounted",
    "Verif.Stack.stack_no_leak",
    "Verif.Stack.stack_destructor",
    "Verif.Stack.stack_destructor_clean",
    "Verif.Queue.queue_nodes_accounted",
    "Verif.Queue.queue_no_leak",
    "Verif.Queue.queue_dropped_nodes_unused",
    "Verif.Queue.queue_destructor",
    "Verif.Queue.queue_destructor_clean"
   ],
   "note": "also with exceptions: exactly the dropped nodes are missing. The array of a fixed-size structure is a member or one allocation, so nodes are not given back singly there"
  },
  {
   "property": "C21",
   "status": "proved",
   "theorems": [
    "Verif.Stack.stack_linearizable",
    "Verif.Stack.stack_aba_witness",
    "Verif.Queue.queue_linearizable",
    "Verif.Queue.queue_aba_witness"
   ],
   "note": "the bounds of stack_linearizable and queue_linearizable meet the schedules of stack_aba_witness (any number of tags from 2 on) and queue_aba_witness (any even number of tags): M-1 increments are harmless, M are not"
  },
  {
   "property": "C22",
   "status": "proved",
   "theorems": [
    "Verif.Stack.stack_solo_bounded",
    "Verif.Stack.stack_solo_completes",
    "Verif.Stack.stack_tos_cas_fails",
    "Verif.Stack.stack_pool_cas_fails"
   ],
   "note": "completion assumes that no copy the thread has of tos or pool_ has wrapped its tag"
  },
  {
   "property": "C23",
   "status": "proved",
   "theorems": [
    "Verif.Stack.push_alloc_throw",
    "Verif.Stack.push_copy_throw",
    "Verif.Stack.range_copy_throw",
    "Verif.Stack.pop_functor_throw",
    "Verif.Stack.dropped_nodes_unused",
    "Verif.Stack.dropped_nodes_forever"
   ],
   "note": ""
  },
  {
   "property": "C24",
   "status": "proved",
   "theorems": [
    "Verif.Stack.unsync_runs",
    "Verif.Stack.mixed_exec_fresh",
    "Verif.Stack.mixed_linearizable",
    "Verif.Stack.unsync_spec",
    "Verif.Stack.unsync_sequence"
   ],
   "note": "allocator and copy constructor do not throw in the unsynchronized calls"
  },
  {
   "property": "C25",
   "status": "proved",
   "theorems": [
    "Verif.Stack.empty_range_push_undefined",
    "Verif.Stack.undefined_only_by_empty_range"
   ],
   "note": ""
  },
  {
   "property": "C26",
   "status": "proved",
   "theorems": [
    "Verif.Queue.queue_linearizable",
    "Verif.Queue.queue_linearizable_ideal",
    "Verif.Queue.queue_linearizable_of_few_changes",
    "Verif.Queue.queue_solo_call"
   ],
   "note": "any number of threads, all interleavings of single shared accesses"
  },
  {
   "property": "C27",
   "status": "proved",
   "theorems": [
    "Verif.Queue.queue_fifo",
    "Verif.Queue.queue_order",
    "Verif.Queue.queue_conservation",
    "Verif.Queue.queue_delivers_only_offered",
    "Verif.Queue.queue_step_atomic"
   ],
   "note": ""
  },
  {
   "property": "C28",
   "status": "proved",
   "theorems": [
    "Verif.Queue.queue_no_undefined_behaviour",
    "Verif.Queue.queue_derefs_allocated",
    "Verif.Queue.queue_ownership_exclusive",
    "Verif.Queue.queue_writes_exclusive",
    "Verif.Queue.queue_free_nodes_dead",
    "Verif.Queue.queue_tail_reachable"
   ],
   "note": ""
  },
  {
   "property": "C29",
   "status": "proved",
   "theorems": [
    "Verif.Queue.queue_fixed_capacity_bound",
    "Verif.Queue.queue_fixed_capacity",
    "Verif.Queue.queue_fixed_capacity_exact"
   ],
   "note": "the bound holds under any concurrency; exactness for a push running alone"
  },
  {
   "property": "C30",
   "status": "proved",
   "theorems": [
    "Verif.Queue.queue_empty_exact",
    "Verif.Queue.queue_empty_test_exact"
   ],
   "note": ""
  },
  {
   "property": "C31",
   "status": "proved",
   "theorems": [
    "Verif.Queue.unsync_runs",
    "Verif.Queue.unsync_defined",
    "Verif.Queue.mixed_exec_fresh",
    "Verif.Queue.mixed_linearizable",
    "Verif.Queue.unsync_spec",
    "Verif.Queue.unsync_sequence"
   ],
   "note": "allocator and copy constructor do not throw in the unsynchronized calls; unsynchronized_push exists for node-based queues only"
  },
  {
   "property": "C32",
   "status": "proved",
   "theorems": [
    "Verif.Queue.queue_solo_bounded",
    "Verif.Queue.queue_solo_completes",
    "Verif.Queue.queue_head_cas_fails",
    "Verif.Queue.queue_tail_cas_fails",
    "Verif.Queue.queue_link_cas_fails",
    "Verif.Queue.queue_pool_cas_fails"
   ],
   "note": "completion assumes that no copy the thread has of a tagged word has wrapped its tag"
  },
  {
   "property": "C33",
   "status": "proved",
   "theorems": [
    "Verif.stackFixed_iff",
    "Verif.queueFixed_iff",
    "Verif.stackCompiles_iff",
    "Verif.queueCompiles_iff",
    "Verif.queue_without_nodes",
    "Verif.NodeArray.pointer_roundtrip",
    "Verif.NodeArray.handle_roundtrip",
    "Verif.NodeArray.null_iff",
    "Verif.indexWords_faithful",
    "Verif.indexWords_unfaithful",
    "Verif.wAlloc_corresponds",
    "Verif.wFree_corresponds"
   ],
   "note": "std::size_t of 64 bits; queue_without_nodes is the negative part, queue(SIZE_MAX)"
  },
  {
   "property": "C34",
   "status": "proved",
   "theorems": [
    "Verif.ptr_pack",
    "Verif.tag_pack",
    "Verif.setPtr_spec",
    "Verif.setTag_spec",
    "Verif.word_eq_iff",
    "Verif.ptr_pack_big",
    "Verif.compressedWords_faithful",
    "Verif.dcasWords_faithful",
    "Verif.wAlloc_corresponds",
    "Verif.wFree_corresponds"
   ],
   "note": "little-endian; ptr_pack_big shows what the same code does on a big-endian machine"
  },
  {
   "property": "C35",
   "status": "proved",
   "theorems": [
    "Verif.nextTag_eq",
    "Verif.nextTag_iterate",
    "Verif.nextTag_cycle",
    "Verif.nextTag_reaches",
    "Verif.pack_next",
    "Verif.Pair.eq_iff"
   ],
   "note": ""
  },
  {
   "property": "C36",
   "status": "proved",
   "theorems": [
    "Verif.CtStorage.inside_64",
    "Verif.CtStorage.inside_aligned",
    "Verif.CtStorage.outside_iff"
   ],
   "note": ""
  },
  {
   "property": "C37",
   "status": "proved",
   "theorems": [
    "Verif.stack_policy",
    "Verif.queue_policy",
    "Verif.policy_capacity",
    "Verif.index_init",
    "Verif.index_init_mismatch"
   ],
   "note": "index_init_mismatch is about a violated precondition"
  },
  {
   "property": "C38",
   "status": "proved",
   "theorems": [
    "Verif.Stack.stack_reserve",
    "Verif.Stack.stack_reserve_balance",
    "Verif.Stack.stack_reserved_push",
    "Verif.Queue.queue_reserve",
    "Verif.Queue.queue_reserve_balance",
    "Verif.Queue.queue_reserved_push"
   ],
   "note": "the balance and the use theorem hold under any concurrency"
  },
  {
   "property": "C39",
   "status": "proved",
   "theorems": [
    "Verif.Stack.stack_memory_requests",
    "Verif.Stack.stack_request_after_empty",
    "Verif.Queue.queue_memory_requests",
    "Verif.Queue.queue_request_after_empty"
   ],
   "note": ""
  },
  {
   "property": "C40",
   "status": "proved",
   "theorems": [
    "Verif.Stack.pop_false_was_empty",
    "Verif.Queue.queue_pop_false_was_empty"
   ],
   "note": ""
  },
  {
   "property": "C41",
   "status": "proved",
   "theorems": [
    "Verif.Queue.queue_empty_false_truthful",
    "Verif.Queue.queue_empty_true_unreliable"
   ],
   "note": "the second theorem is the negative part"
  },
  {
   "property": "C42",
   "status": "proved",
   "theorems": [
    "Verif.Spsc.spsc_range_push_throw_leaks",
    "Verif.Spsc.spsc_balance",
    "Verif.Spsc.spsc_producer_call"
   ],
   "note": "the first section and single push are part of the executions covered by spsc_balance and spsc_producer_call"
  },
  {
   "property": "C43",
   "status": "proved",
   "theorems": [
    "Verif.Stack.stack_fixed_capacity_bound",
    "Verif.Stack.stack_fixed_capacity",
    "Verif.Stack.stack_fixed_capacity_exact"
   ],
   "note": ""
  },
  {
   "property": "C44",
   "status": "proved",
   "theorems": [
    "Verif.Stack.stack_lock_free",
    "Verif.Stack.stack_completions",
    "Verif.Stack.charge_single"
   ],
   "note": ""
  },
  {
   "property": "C45",
   "status": "proved",
   "theorems": [
    "Verif.Queue.queue_lock_free",
    "Verif.Queue.queue_completions",
    "Verif.Queue.charge_single"
   ],
   "note": ""
  },
  {
   "property": "C46",
   "status": "proved",
   "theorems": [
    "Verif.stackNode_holds_link",
    "Verif.queueNode_holds_link",
    "Verif.stackNode_aligned",
    "Verif.queueNode_aligned",
    "Verif.stackNode_misaligned",
    "Verif.CtStorage.nodes_aligned"
   ],
   "note": ""
  },
  {
   "property": "C47",
   "status": "proved",
   "theorems": [
    "Verif.Stack.stack_ra_linearizable",
    "Verif.Stack.stack_ra_no_error",
    "Verif.Stack.stack_ra_race_free",
    "Verif.Stack.stack_ra_linearizable_sync",
    "Verif.Stack.stack_ra_publication",
    "Verif.Stack.stack_ra_delivers_only_offered",
    "Verif.Stack.stack_ra_conservation",
    "Verif.Stack.stack_ra_includes_sc",
    "Verif.Stack.stack_ra_hb_program_order",
    "Verif.Stack.stack_ra_hb_post_wait",
    "Verif.Stack.WEx.stack_ra_not_realtime"
   ],
   "note": "stack_ra_not_realtime is the negative part"
  },
  {
   "property": "C48",
   "status": "proved",
   "theorems": [
    "Verif.Queue.queue_ra_linearizable",
    "Verif.Queue.queue_ra_no_error",
    "Verif.Queue.queue_ra_race_free",
    "Verif.Queue.queue_ra_linearizable_sync",
    "Verif.Queue.queue_ra_fifo",
    "Verif.Queue.queue_ra_order",
    "Verif.Queue.queue_ra_publication",
    "Verif.Queue.queue_ra_delivers_only_offered",
    "Verif.Queue.queue_ra_conservation",
    "Verif.Queue.queue_ra_includes_sc",
    "Verif.Queue.queue_ra_hb_program_order",
    "Verif.Queue.queue_ra_hb_post_wait",
    "Verif.Queue.WEx.queue_ra_not_realtime",
    "Verif.Queue.WEx.queue_ra_link_write_lost",
    "Verif.Queue.WEx.queue_ra_link_write_corrupts"
   ],
   "note": "the positive theorems assume rel = true (a load that reads the freelist's non-atomic link write is ordered after it); the last three theorems are the negative part"
  },
  {
   "property": "C49",
   "status": "proved",
   "theorems": [
    "Verif.Queue.LifeEx.queue_link_value_lost",
    "Verif.Queue.LifeEx.queue_link_value_order"
   ],
   "note": "a negative result about a variant of the queue machine in which the load of queue.hpp:120 may return anything"
  },
  {
   "property": "C50",
   "status": "proved",
   "theorems": [
    "Verif.Queue.queue_consume_exec",
    "Verif.Queue.queue_consume_one",
    "Verif.Queue.queue_consume_all",
    "Verif.Queue.queue_consume_all_was_empty",
    "Verif.Queue.queue_consume_all_order",
    "Verif.Queue.queue_consume_conservation",
    "Verif.Queue.queue_consume_all_alone",
    "Verif.Queue.queue_consume_all_completes",
    "Verif.Queue.CEx.queue_consume_all_not_atomic",
    "Verif.Stack.stack_consume_exec",
    "Verif.Stack.stack_consume_all",
    "Verif.Stack.stack_consume_all_was_empty",
    "Verif.Stack.stack_consume_conservation",
    "Verif.Stack.stack_consume_all_alone",
    "Verif.Stack.stack_consume_all_completes",
    "Verif.Stack.CEx.stack_consume_all_not_atomic"
   ],
   "note": "the functor does not use the container itself; the not_atomic theorems are the negative part"
  },
  {
   "property": "C51",
   "status": "proved",
   "theorems": [
    "Verif.Stack.stack_words_simulated",
    "Verif.Stack.stack_words_linearizable",
    "Verif.Stack.stack_words_no_undefined_behaviour",
    "Verif.Stack.stack_words_conservation",
    "Verif.Stack.stack_words_lock_free",
    "Verif.Stack.stack_words_enabled",
    "Verif.Stack.stack_link_plain",
    "Verif.Stack.stack_linearizable_index",
    "Verif.Stack.stack_linearizable_compressed",
    "Verif.Stack.stack_linearizable_dcas",
    "Verif.Stack.WordEx.stack_high_addresses_not_linearizable",
    "Verif.Queue.queue_words_simulated",
    "Verif.Queue.queue_words_linearizable",
    "Verif.Queue.queue_words_no_undefined_behaviour",
    "Verif.Queue.queue_words_conservation",
    "Verif.Queue.queue_words_lock_free",
    "Verif.Queue.queue_words_enabled",
    "Verif.Queue.queue_linearizable_index",
    "Verif.Queue.queue_linearizable_compressed",
    "Verif.Queue.queue_linearizable_dcas",
    "Verif.Queue.WordEx.queue_high_addresses_undefined_behaviour"
   ],
   "note": "little-endian for compressed pointers; sequentially consistent interleaving; the high_addresses theorems are the negative part"
  },
  {
   "property": "C52",
   "status": "proved",
   "theorems": [
    "Verif.Stack.Code.stack_text_refines",
    "Verif.Stack.Code.stack_text_same",
    "Verif.Stack.Code.stack_text_linearizable",
    "Verif.Stack.Code.stack_text_no_undefined_behaviour",
    "Verif.Stack.Code.stack_text_conservation",
    "Verif.Stack.Code.stack_text_returned",
    "Verif.Stack.Code.stack_text_lock_free",
    "Verif.Stack.Code.stack_text_enabled",
    "Verif.Queue.Code.queue_text_refines",
    "Verif.Queue.Code.queue_text_same",
    "Verif.Queue.Code.queue_text_linearizable",
    "Verif.Queue.Code.queue_text_no_undefined_behaviour",
    "Verif.Queue.Code.queue_text_conservation",
    "Verif.Queue.Code.queue_text_lock_free",
    "Verif.Queue.Code.queue_text_enabled"
   ],
   "note": "range pushes of empty ranges are excluded (undefined behaviour, C25); sequentially consistent interleaving"
  },
  {
   "property": "C53",
   "status": "proved",
   "theorems": [
    "Verif.Stack.stack_not_wait_free",
    "Verif.Stack.stack_empty_wait_free",
    "Verif.Queue.queue_not_wait_free",
    "Verif.Queue.queue_empty_wait_free"
   ],
   "note": "push needs a free node or permission to allocate, range push a free node; reserve of at least one node; C22 and C32 bound a call whose thread is left alone, C44 and C45 the steps of all threads together"
  },
  {
   "property": "C54",
   "status": "proved",
   "theorems": [
    "Verif.Stack.stack_footprint",
    "Verif.Queue.queue_footprint"
   ],
   "note": "range push and consume_all of the stack are excluded, they hold several nodes per thread; fresh tags; no exceptions from copy constructors and functors, which leak nodes (C20)"
  },
  {
   "property": "C55",
   "status": "proved",
   "theorems": [
    "Verif.Spsc.Code.spsc_text_refines",
    "Verif.Spsc.Code.spsc_text_same",
    "Verif.Spsc.Code.spsc_text_linearizable",
    "Verif.Spsc.Code.spsc_text_no_undefined_behaviour",
    "Verif.Spsc.Code.spsc_text_fifo",
    "Verif.Spsc.Code.spsc_text_fifo_quiescent",
    "Verif.Spsc.Code.spsc_text_slots",
    "Verif.Spsc.Code.spsc_text_balance",
    "Verif.Spsc.Code.spsc_text_producer_call",
    "Verif.Spsc.Code.spsc_text_consumer_call",
    "Verif.Spsc.Code.spsc_text_write_available_reliable",
    "Verif.Spsc.Code.spsc_text_read_available_reliable",
    "Verif.Spsc.Code.spsc_text_front",
    "Verif.Spsc.Code.spsc_text_wait_free",
    "Verif.Spsc.Code.spsc_text_never_blocks"
   ],
   "note": "same assumptions as C01 to C13; lengths of ranges and arrays fit into std::size_t; empty() evaluates write_index_ first"
  },
  {
   "property": "C56",
   "status": "proved",
   "theorems": [
    "Verif.Stack.Code.stack_text_output",
    "Verif.Spsc.Code.spsc_text_output",
    "Verif.Queue.Code.queue_text_output",
    "Verif.Queue.Code.queue_pop_false_overwrites"
   ],
   "note": "what is written by conversions or assignment operators of user types is not modelled; the last theorem is the negative part"
  },
  {
   "property": "C57",
   "status": "proved",
   "theorems": [
    "Verif.Stack.stack_always_returns",
    "Verif.Stack.Code.stack_text_always_returns",
    "Verif.Stack.Code.TextEx.stack_spurious_forever",
    "Verif.Queue.queue_always_returns",
    "Verif.Queue.Code.queue_text_always_returns",
    "Verif.Queue.Code.TextEx.queue_spurious_forever"
   ],
   "note": "the theorems named spurious_forever are the negative part"
  },
  {
   "property": "C58",
   "status": "proved",
   "theorems": [
    "Verif.Stack.Code.stack_unsync_text_linearizable",
    "Verif.Stack.Code.stack_unsync_text_no_undefined_behaviour",
    "Verif.Stack.Code.stack_unsync_text_conservation",
    "Verif.Stack.Code.stack_unsync_text_same",
    "Verif.Stack.Code.stack_unsync_text_bounded",
    "Verif.Stack.Code.stack_unsync_text_enabled",
    "Verif.Stack.Code.stack_unsync_text_output",
    "Verif.Queue.Code.queue_unsync_text_linearizable",
    "Verif.Queue.Code.queue_unsync_text_no_undefined_behaviour",
    "Verif.Queue.Code.queue_unsync_text_conservation",
    "Verif.Queue.Code.queue_unsync_text_same",
    "Verif.Queue.Code.queue_unsync_text_bounded",
    "Verif.Queue.Code.queue_unsync_text_enabled",
    "Verif.Queue.Code.queue_unsync_text_output"
   ],
   "note": "destructors, which call unsynchronized_pop, are the subject of C20 and C59; queues of fixed size have no unsynchronized_push (tagged_index has no operator->)"
  },
  {
   "property": "C59",
   "status": "proved",
   "theorems": [
    "Verif.Stack.Code.stack_text_constructor",
    "Verif.Stack.Code.stack_text_constructor_returns",
    "Verif.Stack.Code.stack_text_constructor_too_large",
    "Verif.Stack.Code.stack_text_destructor",
    "Verif.Queue.Code.queue_text_constructor",
    "Verif.Queue.Code.queue_text_constructor_returns",
    "Verif.Queue.Code.queue_text_constructor_too_large",
    "Verif.Queue.Code.queue_text_destructor",
    "Verif.Text.freelist_destructor_total"
   ],
   "note": "the declaration of dummy in ~queue (a default constructor of the payload, which terminates the program if it throws) is not modelled"
  },
  {
   "property": "C60",
   "status": "proved",
   "theorems": [
    "Verif.Spsc.Code.spsc_text_reset",
    "Verif.Spsc.Code.spsc_life_refines",
    "Verif.Spsc.Code.spsc_life_linearizable",
    "Verif.Spsc.Code.spsc_life_no_undefined_behaviour",
    "Verif.Spsc.Code.spsc_life_fifo",
    "Verif.Spsc.Code.spsc_life_fifo_quiescent",
    "Verif.Spsc.Code.spsc_life_slots",
    "Verif.Spsc.Code.spsc_life_balance",
    "Verif.Spsc.Code.spsc_life_producer_call",
    "Verif.Spsc.Code.spsc_life_consumer_call",
    "Verif.Spsc.Code.spsc_life_write_available_reliable",
    "Verif.Spsc.Code.spsc_life_read_available_reliable",
    "Verif.Spsc.Code.spsc_life_front",
    "Verif.Spsc.Code.spsc_life_wait_free",
    "Verif.Spsc.Code.spsc_life_never_blocks",
    "Verif.Spsc.Code.spsc_life_full_capacity",
    "Verif.Spsc.Code.spsc_life_reset_capacity",
    "Verif.Spsc.Code.spsc_text_constructor",
    "Verif.Spsc.Code.spsc_constructed_holds",
    "Verif.Spsc.Code.spsc_text_constructor_fixed",
    "Verif.Spsc.Code.spsc_text_destructor"
   ],
   "note": "same assumptions as C55; the threads synchronise by other means before and after reset(); destructors of elements and consume_noop do not throw"
  },
  {
   "property": "C61",
   "status": "proved",
   "theorems": [
    "Verif.Stack.Code.stack_example",
    "Verif.Stack.Code.stack_example_no_undefined_behaviour",
    "Verif.Queue.Code.queue_example",
    "Verif.Queue.Code.queue_example_no_undefined_behaviour",
    "Verif.Spsc.Code.spsc_example",
    "Verif.Spsc.Code.spsc_example_no_undefined_behaviour"
   ],
   "note": "stack and queue: sequentially consistent interleaving and fresh tags, as in C52; int is unbounded; that main reaches the end is not claimed"
  },
  {
   "property": "C62",
   "status": "proved",
   "theorems": [
    "Verif.Stack.Code.stack_ra_text_refines",
    "Verif.Stack.Code.stack_ra_text_linearizable",
    "Verif.Stack.Code.stack_ra_text_linearizable_sync",
    "Verif.Stack.Code.stack_ra_text_no_undefined_behaviour",
    "Verif.Stack.Code.stack_ra_text_race_free",
    "Verif.Stack.Code.stack_ra_text_publication",
    "Verif.Stack.Code.stack_ra_text_delivers_only_offered",
    "Verif.Stack.Code.stack_ra_text_conservation",
    "Verif.Stack.Code.stack_ra_text_includes_sc",
    "Verif.Stack.Code.stack_ra_text_hb_program_order",
    "Verif.Stack.Code.stack_ra_text_hb_post_wait",
    "Verif.Stack.Code.RaEx.stack_ra_text_not_realtime"
   ],
   "note": "seq_cst is treated as acquire/release, as in C47; racing speculative reads may return anything; stack_ra_text_not_realtime is the negative part"
  },
  {
   "property": "C63",
   "status": "proved",
   "theorems": [
    "Verif.Queue.Code.queue_ra_text_refines",
    "Verif.Queue.Code.queue_ra_text_linearizable",
    "Verif.Queue.Code.queue_ra_text_linearizable_sync",
    "Verif.Queue.Code.queue_ra_text_no_undefined_behaviour",
    "Verif.Queue.Code.queue_ra_text_race_free",
    "Verif.Queue.Code.queue_ra_text_fifo",
    "Verif.Queue.Code.queue_ra_text_order",
    "Verif.Queue.Code.queue_ra_text_publication",
    "Verif.Queue.Code.queue_ra_text_delivers_only_offered",
    "Verif.Queue.Code.queue_ra_text_conservation",
    "Verif.Queue.Code.queue_ra_text_includes_sc",
    "Verif.Queue.Code.queue_ra_text_hb_program_order",
    "Verif.Queue.Code.queue_ra_text_hb_post_wait",
    "Verif.Queue.Code.RaEx.queue_ra_text_not_realtime",
    "Verif.Queue.Code.RaEx.queue_ra_text_link_write_lost"
   ],
   "note": "the positive theorems assume rel = true, as in C48; seq_cst is treated as acquire/release; the last two theorems are the negative part"
  },
  {
   "property": "C64",
   "status": "proved",
   "theorems": [
    "Verif.Stack.Code.stack_ra_example",
    "Verif.Stack.Code.stack_ra_example_last_pop",
    "Verif.Stack.Code.stack_ra_example_no_undefined_behaviour",
    "Verif.Stack.Code.RaExampleEx.stack_ra_example_relaxed_done",
    "Verif.Queue.Code.queue_ra_example",
    "Verif.Queue.Code.queue_ra_example_last_pop",
    "Verif.Queue.Code.queue_ra_example_no_undefined_behaviour",
    "Verif.Queue.Code.RaExampleEx.queue_ra_example_relaxed_done"
   ],
   "note": "assumptions of C62 and C63 (rel = true for the queue); int is unbounded; that main reaches the end is not claimed; the theorems named relaxed_done are the negative part"
  },
  {
   "property": "C65",
   "status": "proved",
   "theorems": [
    "Verif.Stack.Code.stack_stress_never_fails",
    "Verif.Stack.Code.stack_stress_passed",
    "Verif.Stack.Code.stack_stress_no_undefined_behaviour",
    "Verif.Stack.Code.stack_ra_stress_never_fails",
    "Verif.Stack.Code.stack_ra_stress_passed",
    "Verif.Stack.Code.stack_ra_stress_no_undefined_behaviour",
    "Verif.Stack.Code.StressEx.stack_stress_without_reader",
    "Verif.Stack.Code.RaStressEx.stack_ra_stress_relaxed",
    "Verif.Queue.Code.queue_stress_never_fails",
    "Verif.Queue.Code.queue_stress_passed",
    "Verif.Queue.Code.queue_stress_no_undefined_behaviour",
    "Verif.Queue.Code.queue_ra_stress_never_fails",
    "Verif.Queue.Code.queue_ra_stress_passed",
    "Verif.Queue.Code.queue_ra_stress_no_undefined_behaviour",
    "Verif.Queue.Code.StressEx.queue_stress_without_reader",
    "Verif.Queue.Code.RaStressEx.queue_ra_stress_relaxed"
   ],
   "note": "assumptions of C52 for the interleaved theorems and of C62 and C63 (rel = true for the queue) for those named ra; integers are unbounded; the calls of stk.empty() are left out, the passed theorems say that the container is empty; that run reaches its end is not claimed; the theorems named without_reader and relaxed are the negative part"
  },
  {
   "property": "C66",
   "status": "proved",
   "theorems": [
    "Verif.Spsc.Code.spsc_stress_never_fails",
    "Verif.Spsc.Code.spsc_stress_passed",
    "Verif.Spsc.Code.spsc_stress_order",
    "Verif.Spsc.Code.spsc_stress_no_undefined_behaviour",
    "Verif.Spsc.Code.StressEx.spsc_stress_relaxed"
   ],
   "note": "release/acquire memory as in C55; integers are unbounded; the calls of empty() by run are left out, the passed theorem says that the queue is empty; that run reaches its end is not claimed; the theorem named relaxed is the negative part"
  },
  {
   "property": "C67",
   "status": "proved",
   "theorems": [
    "Verif.Freelist.freelist_linearizable",
    "Verif.Freelist.freelist_null",
    "Verif.Freelist.freelist_exclusive",
    "Verif.Freelist.freelist_no_undefined_behaviour",
    "Verif.Freelist.freelist_value",
    "Verif.Freelist.freelist_conservation",
    "Verif.Freelist.freelist_bounded",
    "Verif.Freelist.Ex.freelist_discipline_needed"
   ],
   "note": "assumptions of C51 and C52: sequentially consistent accesses, faithful representation, no complete wrap of the tag between a load and the compare-exchange; whether a constructor throws is part of the call; a node whose constructor throws is never given back (freelist.hpp:77-102), so conservation is claimed without throwing constructors; the last theorem is the negative part"
  },
  {
   "property": "C68",
   "status": "proved",
   "theorems": [
    "Verif.Freelist.Tester.freelist_tester_never_fails",
    "Verif.Freelist.Tester.freelist_tester_no_undefined_behaviour",
    "Verif.Freelist.Tester.freelist_tester_exclusive",
    "Verif.Freelist.Tester.freelist_tester_finished",
    "Verif.Freelist.Tester.freelist_tester_count",
    "Verif.Freelist.Tester.Ex.freelist_tester_without_deallocator"
   ],
   "note": "assumptions of C52 and C67 (sequentially consistent accesses, faithful representations, no complete wrap of a tag between a load and the compare-exchange); the queue of the test is not of fixed size; operations of working_set are single steps; that run reaches its end is not claimed; the last theorem is the negative part"
  },
  {
   "property": "C69",
   "status": "proved",
   "theorems": [
    "Verif.Spsc.Code.spsc_example_ends",
    "Verif.Spsc.Code.spsc_example_never_stuck",
    "Verif.Spsc.Code.EndsEx.spsc_example_done_needed",
    "Verif.Spsc.Code.EndsEx.spsc_example_write_index_needed",
    "Verif.Spsc.Code.EndsEx.spsc_example_room_needed"
   ],
   "note": "fairness and visibility of stores are hypotheses (FairRun), stated on the execution; no exception leaves a thread function; int is unbounded; the theorems named needed are the negative part, there is none for the visibility of read_index_"
  },
  {
   "property": "C70",
   "status": "proved",
   "theorems": [
    "Verif.Freelist.freelist_lock_free",
    "Verif.Freelist.freelist_always_returns",
    "Verif.Freelist.freelist_enabled",
    "Verif.Freelist.Ex.freelist_spurious_forever"
   ],
   "note": "sequentially consistent accesses; the bound counts statements of the program text; lock_free and always_returns assume nothing about the calls or the representation of words, except that no tag wraps completely between a load and its compare-exchange (part of Program.ok, not used in the argument); enabled has the assumptions of C67 and that the allocator has memory; the theorem named spurious is the negative part"
  },
  {
   "property": "C71",
   "status": "proved",
   "theorems": [
    "Verif.Stack.Code.stack_example_never_stuck",
    "Verif.Queue.Code.queue_example_never_stuck",
    "Verif.Stack.Code.stack_stress_never_stuck",
    "Verif.Queue.Code.queue_stress_never_stuck",
    "Verif.Spsc.Code.spsc_stress_never_stuck",
    "Verif.Freelist.Tester.freelist_tester_never_stuck"
   ],
   "note": "sequentially consistent accesses, except for spsc_queue; no assumption on fairness, and no claim that the programs end: a thread that polls can always make a step; a step here need not satisfy the assumption that no tag wraps completely; the state is assumed to be reached by steps that do; examples/spsc_queue.cpp is in C69"
  },
  {
   "property": "C72",
   "status": "proved",
   "theorems": [
    "Verif.Lin.linearizable_sequential",
    "Verif.Stack.Code.stack_sequential",
    "Verif.Stack.Code.stack_sequential_lifo",
    "Verif.Queue.Code.queue_sequential",
    "Verif.Queue.Code.queue_sequential_fifo",
    "Verif.Spsc.Code.spsc_sequential",
    "Verif.Spsc.Code.spsc_sequential_fifo",
    "Verif.Freelist.freelist_sequential",
    "Verif.Freelist.freelist_sequential_oom",
    "Verif.Freelist.freelist_sequential_reuse"
   ],
   "note": "sequentially consistent accesses; the functions that may be called by any thread (push, pop, construct, destruct with ThreadSafe = true); the unsynchronized ones are in C24, C31 and C58; the statements on queue and spsc_queue assume that no call throws; the specification of the freelist allows an unbounded construct to get a fresh node at any time, so exact results are for bounded calls and freelists of fixed size"
  },
  {
   "property": "C73",
   "status": "proved",
   "theorems": [
    "Verif.Freelist.freelist_unsync_same",
    "Verif.Freelist.freelist_unsync_linearizable",
    "Verif.Freelist.freelist_unsync_no_undefined_behaviour",
    "Verif.Freelist.freelist_unsync_exclusive",
    "Verif.Freelist.freelist_unsync_value",
    "Verif.Freelist.freelist_unsync_conservation",
    "Verif.Freelist.freelist_unsync_bounded",
    "Verif.Freelist.freelist_unsync_enabled",
    "Verif.Freelist.freelist_unsync_oom",
    "Verif.Freelist.freelist_unsync_reuse"
   ],
   "note": "sequentially consistent accesses in the thread-safe phases; that a phase of one thread alone is ordered before and after the others is expressed by the model (no other call is in progress); reserve is not included; conservation assumes that no constructor of an object throws, as in C67"
  },
  {
   "property": "C74",
   "status": "proved",
   "theorems": [
    "Verif.Stack.stack_delay",
    "Verif.Stack.Code.stack_text_delay",
    "Verif.Stack.Code.stack_text_calls_return"
   ],
   "note": "sequentially consistent accesses; no tag wraps completely between a load and its compare-exchange (Program.ok); only push, pop and empty are called; a call that returned with an exception counts as one that changed the stack"
  },
  {
   "property": "C75",
   "status": "proved",
   "theorems": [
    "Verif.Example.FairRun.ends",
    "Verif.Stack.Code.stack_example_ends",
    "Verif.Stack.Code.EndsEx.stack_example_done_needed",
    "Verif.Stack.Code.EndsEx.stack_example_spurious_needed"
   ],
   "note": "fairness, visibility of done, memory of the allocator and absence of exceptions are hypotheses (StackRun), stated on the execution; node-based stack (R.fixed = false), as in the program; sequentially consistent accesses"
  },
  {
   "property": "C76",
   "status": "proved",
   "theorems": [
    "Verif.Queue.queue_delay",
    "Verif.Queue.Code.queue_text_delay",
    "Verif.Queue.Code.queue_text_calls_return"
   ],
   "note": "sequentially consistent accesses; no tag wraps completely between a load and its compare-exchange (Program.ok); only push, pop and empty are called; a call that returned with an exception counts as one that changed the queue"
  },
  {
   "property": "C77",
   "status": "proved",
   "theorems": [
    "Verif.Example.FairRun.ends",
    "Verif.Queue.Code.queue_example_ends",
    "Verif.Queue.Code.EndsEx.queue_example_done_needed",
    "Verif.Queue.Code.EndsEx.queue_example_spurious_needed"
   ],
   "note": "fairness, visibility of done, memory of the allocator and absence of exceptions are hypotheses (QueueRun), stated on the execution; node-based queue (R.fixed = false), as in the program; sequentially consistent accesses"
  },
  {
   "property": "C78",
   "status": "proved",
   "theorems": [
    "Verif.Freelist.freelist_delay",
    "Verif.Freelist.freelist_calls_return"
   ],
   "note": "sequentially consistent accesses; no tag wraps completely between a load and its compare-exchange (part of Program.ok, not used in the argument); nothing is assumed about the calls or the representation of words; a call that threw counts as one that changed the freelist; that the assumption on spurious failures is needed is in C70"
  },
  {
   "property": "C79",
   "status": "proved",
   "theorems": [
    "Verif.Freelist.freelist_not_wait_free",
    "Verif.Freelist.freelist_text_not_wait_free",
    "Verif.Freelist.freelist_text_construct_starves"
   ],
   "note": "the tag has more than one value; disciplined users as in C67; the statements in freelist_text_not_wait_free include those the delayed thread executed before its call, bounded by C78; in freelist_text_construct_starves there are none"
  },
  {
   "property": "C80",
   "status": "proved",
   "theorems": [
    "Verif.Stack.Code.stack_text_not_wait_free",
    "Verif.Queue.Code.queue_text_not_wait_free"
   ],
   "note": "fixed-size containers; the tag has more than one value; the statements counted include those the delayed thread executed during the given history, bounded by C74 and C76 (none if the history has no event of that thread)"
  }
 ]
}