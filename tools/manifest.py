#!/usr/bin/env python3
"""Writes /verif/MANIFEST.json from the table below. Each entry: property, status, theorems, note."""
import json, os
S = "Verif.Stack."
def st(*xs): return [S + x for x in xs]
Q = "Verif.Queue."
def qu(*xs): return [Q + x for x in xs]
P = "Verif.Spsc."
def sp(*xs): return [P + x for x in xs]
def ve(*xs): return ["Verif." + x for x in xs]
CLAIMS = [
 ("C01","proved",sp("spsc_fifo","spsc_fifo_quiescent","spsc_accepted","spsc_delivered"),"release/acquire memory with stale loads, any interleaving; capacity below 2^63"),
 ("C02","proved",sp("spsc_capacity","spsc_producer_call","spsc_producer_exact"),""),
 ("C03","proved",sp("spsc_no_undefined_behaviour"),""),
 ("C04","proved",sp("spsc_slots","spsc_balance","spsc_drain"),""),
 ("C05","proved",sp("spsc_consumer_call","spsc_producer_call","spsc_slots"),""),
 ("C06","proved",sp("nextIndex_spec","nextIndex_exact","readAvail_exact","writeAvail_exact","avail_sum"),"all 64-bit values"),
 ("C07","proved",sp("spsc_write_available_reliable","spsc_read_available_reliable","spsc_not_empty_reliable"),""),
 ("C08","proved",sp("spsc_front","spsc_read_available_reliable","spsc_empty_then_front_races"),"the last theorem is the negative part: an execution with a data race"),
 ("C09","proved",sp("spsc_reset_trivial","spsc_drain","spsc_full_capacity"),"reset() of a type with destructor is consume_all: spsc_drain"),
 ("C10","proved",sp("spsc_wait_free","spsc_never_blocks"),"explicit bounds on the number of steps, whatever the other thread does"),
 ("C11","proved",sp("spsc_linearizable","spsc_bulk_push_not_atomic","spsc_bulk_pop_not_atomic"),"the last two theorems are the negative part"),
 ("C12","proved",sp("spsc_consume_one_throw","spsc_consume_all_throw"),""),
 ("C13","proved",sp("bufferSize_spec","spsc_size_zero_hangs"),""),
 ("C14","proved",st("stack_linearizable","stack_effect_instant","stack_linearizable_ideal","stack_linearizable_of_few_removals","stack_solo_call"),"any number of threads, all interleavings of single shared accesses"),
 ("C15","proved",st("stack_conservation","stack_delivers_only_offered"),""),
 ("C16","proved",st("range_push_atomic","range_push_count","stack_step_atomic"),""),
 ("C17","proved",st("consume_all_atomic_snapshot","stack_step_atomic"),""),
 ("C18","proved",st("stack_no_undefined_behaviour","stack_derefs_allocated","stack_ownership_exclusive","stack_uses_exclusive","stack_free_nodes_dead"),""),
 ("C19","proved",st("push_false_was_exhausted","bounded_push_never_allocates","bounded_step_no_request")+qu("queue_push_false_was_exhausted","queue_bounded_push_never_allocates"),""),
 ("C20","proved",st("stack_nodes_accounted","stack_no_leak","stack_destructor","stack_destructor_clean")+qu("queue_nodes_accounted","queue_no_leak","queue_dropped_nodes_unused","queue_destructor","queue_destructor_clean"),"also with exceptions: exactly the dropped nodes are missing. The array of a fixed-size structure is a member or one allocation, so nodes are not given back singly there"),
 ("C21","proved",st("stack_linearizable","stack_aba_witness")+qu("queue_linearizable","queue_aba_witness"),"the bounds of stack_linearizable and queue_linearizable meet the schedules of stack_aba_witness (any number of tags from 2 on) and queue_aba_witness (any even number of tags): M-1 increments are harmless, M are not"),
 ("C22","proved",st("stack_solo_bounded","stack_solo_completes","stack_tos_cas_fails","stack_pool_cas_fails"),"completion assumes that no copy the thread has of tos or pool_ has wrapped its tag"),
 ("C23","proved",st("push_alloc_throw","push_copy_throw","range_copy_throw","pop_functor_throw","dropped_nodes_unused","dropped_nodes_forever"),""),
 ("C24","proved",st("unsync_runs","mixed_exec_fresh","mixed_linearizable","unsync_spec","unsync_sequence"),"allocator and copy constructor do not throw in the unsynchronized calls"),
 ("C25","proved",st("empty_range_push_undefined","undefined_only_by_empty_range"),""),
 ("C26","proved",qu("queue_linearizable","queue_linearizable_ideal","queue_linearizable_of_few_changes","queue_solo_call"),"any number of threads, all interleavings of single shared accesses"),
 ("C27","proved",qu("queue_fifo","queue_order","queue_conservation","queue_delivers_only_offered","queue_step_atomic"),""),
 ("C28","proved",qu("queue_no_undefined_behaviour","queue_derefs_allocated","queue_ownership_exclusive","queue_writes_exclusive","queue_free_nodes_dead","queue_tail_reachable"),""),
 ("C29","proved",qu("queue_fixed_capacity_bound","queue_fixed_capacity","queue_fixed_capacity_exact"),"the bound holds under any concurrency; exactness for a push running alone"),
 ("C30","proved",qu("queue_empty_exact","queue_empty_test_exact"),""),
 ("C31","proved",qu("unsync_runs","unsync_defined","mixed_exec_fresh","mixed_linearizable","unsync_spec","unsync_sequence"),"allocator and copy constructor do not throw in the unsynchronized calls; unsynchronized_push exists for node-based queues only"),
 ("C32","proved",qu("queue_solo_bounded","queue_solo_completes","queue_head_cas_fails","queue_tail_cas_fails","queue_link_cas_fails","queue_pool_cas_fails"),"completion assumes that no copy the thread has of a tagged word has wrapped its tag"),
 ("C33","proved",ve("stackFixed_iff","queueFixed_iff","stackCompiles_iff","queueCompiles_iff","queue_without_nodes","NodeArray.pointer_roundtrip","NodeArray.handle_roundtrip","NodeArray.null_iff","indexWords_faithful","indexWords_unfaithful","wAlloc_corresponds","wFree_corresponds"),"std::size_t of 64 bits; queue_without_nodes is the negative part, queue(SIZE_MAX)"),
 ("C34","proved",ve("ptr_pack","tag_pack","setPtr_spec","setTag_spec","word_eq_iff","ptr_pack_big","compressedWords_faithful","dcasWords_faithful","wAlloc_corresponds","wFree_corresponds"),"little-endian; ptr_pack_big shows what the same code does on a big-endian machine"),
 ("C35","proved",ve("nextTag_eq","nextTag_iterate","nextTag_cycle","nextTag_reaches","pack_next","Pair.eq_iff"),""),
 ("C36","proved",ve("CtStorage.inside_64","CtStorage.inside_aligned","CtStorage.outside_iff"),""),
 ("C37","proved",ve("stack_policy","queue_policy","policy_capacity","index_init","index_init_mismatch"),"index_init_mismatch is about a violated precondition"),
 ("C38","proved",st("stack_reserve","stack_reserve_balance","stack_reserved_push")+qu("queue_reserve","queue_reserve_balance","queue_reserved_push"),"the balance and the use theorem hold under any concurrency"),
 ("C39","proved",st("stack_memory_requests","stack_request_after_empty")+qu("queue_memory_requests","queue_request_after_empty"),""),
 ("C40","proved",st("pop_false_was_empty")+qu("queue_pop_false_was_empty"),""),
 ("C41","proved",qu("queue_empty_false_truthful","queue_empty_true_unreliable"),"the second theorem is the negative part"),
 ("C42","proved",sp("spsc_range_push_throw_leaks","spsc_balance","spsc_producer_call"),"the first section and single push are part of the executions covered by spsc_balance and spsc_producer_call"),
 ("C43","proved",st("stack_fixed_capacity_bound","stack_fixed_capacity","stack_fixed_capacity_exact"),""),
 ("C44","proved",st("stack_lock_free","stack_completions","charge_single"),""),
 ("C45","proved",qu("queue_lock_free","queue_completions","charge_single"),""),
 ("C46","proved",ve("stackNode_holds_link","queueNode_holds_link","stackNode_aligned","queueNode_aligned","stackNode_misaligned","CtStorage.nodes_aligned"),""),
 ("C47","proved",st("stack_ra_linearizable","stack_ra_no_error","stack_ra_race_free","stack_ra_linearizable_sync","stack_ra_publication","stack_ra_delivers_only_offered","stack_ra_conservation","stack_ra_includes_sc","stack_ra_hb_program_order","stack_ra_hb_post_wait","WEx.stack_ra_not_realtime"),"stack_ra_not_realtime is the negative part"),
 ("C48","proved",qu("queue_ra_linearizable","queue_ra_no_error","queue_ra_race_free","queue_ra_linearizable_sync","queue_ra_fifo","queue_ra_order","queue_ra_publication","queue_ra_delivers_only_offered","queue_ra_conservation","queue_ra_includes_sc","queue_ra_hb_program_order","queue_ra_hb_post_wait","WEx.queue_ra_not_realtime","WEx.queue_ra_link_write_lost","WEx.queue_ra_link_write_corrupts"),"the positive theorems assume rel = true (a load that reads the freelist's non-atomic link write is ordered after it); the last three theorems are the negative part"),
 ("C49","proved",qu("LifeEx.queue_link_value_lost","LifeEx.queue_link_value_order"),"a negative result about a variant of the queue machine in which the load of queue.hpp:120 may return anything"),
 ("C50","proved",qu("queue_consume_exec","queue_consume_one","queue_consume_all","queue_consume_all_was_empty","queue_consume_all_order","queue_consume_conservation","queue_consume_all_alone","queue_consume_all_completes","CEx.queue_consume_all_not_atomic")+st("stack_consume_exec","stack_consume_all","stack_consume_all_was_empty","stack_consume_conservation","stack_consume_all_alone","stack_consume_all_completes","CEx.stack_consume_all_not_atomic"),"the functor does not use the container itself; the not_atomic theorems are the negative part"),
 ("C51","proved",st("stack_words_simulated","stack_words_linearizable","stack_words_no_undefined_behaviour","stack_words_conservation","stack_words_lock_free","stack_words_enabled","stack_link_plain","stack_linearizable_index","stack_linearizable_compressed","stack_linearizable_dcas","WordEx.stack_high_addresses_not_linearizable")+qu("queue_words_simulated","queue_words_linearizable","queue_words_no_undefined_behaviour","queue_words_conservation","queue_words_lock_free","queue_words_enabled","queue_linearizable_index","queue_linearizable_compressed","queue_linearizable_dcas","WordEx.queue_high_addresses_undefined_behaviour"),"little-endian for compressed pointers; sequentially consistent interleaving; the high_addresses theorems are the negative part"),
 ("C52","proved",st("Code.stack_text_refines","Code.stack_text_same","Code.stack_text_linearizable","Code.stack_text_no_undefined_behaviour","Code.stack_text_conservation","Code.stack_text_returned","Code.stack_text_lock_free","Code.stack_text_enabled")+qu("Code.queue_text_refines","Code.queue_text_same","Code.queue_text_linearizable","Code.queue_text_no_undefined_behaviour","Code.queue_text_conservation","Code.queue_text_lock_free","Code.queue_text_enabled"),"range pushes of empty ranges are excluded (undefined behaviour, C25); sequentially consistent interleaving"),
 ("C53","proved",st("stack_not_wait_free","stack_empty_wait_free")+qu("queue_not_wait_free","queue_empty_wait_free"),"push needs a free node or permission to allocate, range push a free node; reserve of at least one node; C22 and C32 bound a call whose thread is left alone, C44 and C45 the steps of all threads together"),
 ("C54","proved",st("stack_footprint")+qu("queue_footprint"),"range push and consume_all of the stack are excluded, they hold several nodes per thread; fresh tags; no exceptions from copy constructors and functors, which leak nodes (C20)"),
 ("C55","proved",sp("Code.spsc_text_refines","Code.spsc_text_same","Code.spsc_text_linearizable","Code.spsc_text_no_undefined_behaviour","Code.spsc_text_fifo","Code.spsc_text_fifo_quiescent","Code.spsc_text_slots","Code.spsc_text_balance","Code.spsc_text_producer_call","Code.spsc_text_consumer_call","Code.spsc_text_write_available_reliable","Code.spsc_text_read_available_reliable","Code.spsc_text_front","Code.spsc_text_wait_free","Code.spsc_text_never_blocks"),"same assumptions as C01 to C13; lengths of ranges and arrays fit into std::size_t; empty() evaluates write_index_ first"),
 ("C56","proved",st("Code.stack_text_output")+sp("Code.spsc_text_output")+qu("Code.queue_text_output","Code.queue_pop_false_overwrites"),"what is written by conversions or assignment operators of user types is not modelled; the last theorem is the negative part"),
 ("C57","proved",st("stack_always_returns","Code.stack_text_always_returns","Code.TextEx.stack_spurious_forever")+qu("queue_always_returns","Code.queue_text_always_returns","Code.TextEx.queue_spurious_forever"),"the theorems named spurious_forever are the negative part"),
 ("C58","proved",st("Code.stack_unsync_text_linearizable","Code.stack_unsync_text_no_undefined_behaviour","Code.stack_unsync_text_conservation","Code.stack_unsync_text_same","Code.stack_unsync_text_bounded","Code.stack_unsync_text_enabled","Code.stack_unsync_text_output")+qu("Code.queue_unsync_text_linearizable","Code.queue_unsync_text_no_undefined_behaviour","Code.queue_unsync_text_conservation","Code.queue_unsync_text_same","Code.queue_unsync_text_bounded","Code.queue_unsync_text_enabled","Code.queue_unsync_text_output"),"destructors, which call unsynchronized_pop, are the subject of C20 and C59; queues of fixed size have no unsynchronized_push (tagged_index has no operator->)"),
 ("C59","proved",st("Code.stack_text_constructor","Code.stack_text_constructor_returns","Code.stack_text_constructor_too_large","Code.stack_text_destructor")+qu("Code.queue_text_constructor","Code.queue_text_constructor_returns","Code.queue_text_constructor_too_large","Code.queue_text_destructor")+["Verif.Text.freelist_destructor_total"],"the declaration of dummy in ~queue (a default constructor of the payload, which terminates the program if it throws) is not modelled"),
 ("C60","proved",sp("Code.spsc_text_reset","Code.spsc_life_refines","Code.spsc_life_linearizable","Code.spsc_life_no_undefined_behaviour","Code.spsc_life_fifo","Code.spsc_life_fifo_quiescent","Code.spsc_life_slots","Code.spsc_life_balance","Code.spsc_life_producer_call","Code.spsc_life_consumer_call","Code.spsc_life_write_available_reliable","Code.spsc_life_read_available_reliable","Code.spsc_life_front","Code.spsc_life_wait_free","Code.spsc_life_never_blocks","Code.spsc_life_full_capacity","Code.spsc_life_reset_capacity","Code.spsc_text_constructor","Code.spsc_constructed_holds","Code.spsc_text_constructor_fixed","Code.spsc_text_destructor"),"same assumptions as C55; the threads synchronise by other means before and after reset(); destructors of elements and consume_noop do not throw"),
 ("C61","proved",st("Code.stack_example","Code.stack_example_no_undefined_behaviour")+qu("Code.queue_example","Code.queue_example_no_undefined_behaviour")+sp("Code.spsc_example","Code.spsc_example_no_undefined_behaviour"),"stack and queue: sequentially consistent interleaving and fresh tags, as in C52; int is unbounded; that main reaches the end is not claimed"),
 ("C62","proved",st("Code.stack_ra_text_refines","Code.stack_ra_text_linearizable","Code.stack_ra_text_linearizable_sync","Code.stack_ra_text_no_undefined_behaviour","Code.stack_ra_text_race_free","Code.stack_ra_text_publication","Code.stack_ra_text_delivers_only_offered","Code.stack_ra_text_conservation","Code.stack_ra_text_includes_sc","Code.stack_ra_text_hb_program_order","Code.stack_ra_text_hb_post_wait","Code.RaEx.stack_ra_text_not_realtime"),"seq_cst is treated as acquire/release, as in C47; racing speculative reads may return anything; stack_ra_text_not_realtime is the negative part"),
 ("C63","proved",qu("Code.queue_ra_text_refines","Code.queue_ra_text_linearizable","Code.queue_ra_text_linearizable_sync","Code.queue_ra_text_no_undefined_behaviour","Code.queue_ra_text_race_free","Code.queue_ra_text_fifo","Code.queue_ra_text_order","Code.queue_ra_text_publication","Code.queue_ra_text_delivers_only_offered","Code.queue_ra_text_conservation","Code.queue_ra_text_includes_sc","Code.queue_ra_text_hb_program_order","Code.queue_ra_text_hb_post_wait","Code.RaEx.queue_ra_text_not_realtime","Code.RaEx.queue_ra_text_link_write_lost"),"the positive theorems assume rel = true, as in C48; seq_cst is treated as acquire/release; the last two theorems are the negative part"),
 ("C64","proved",st("Code.stack_ra_example","Code.stack_ra_example_last_pop","Code.stack_ra_example_no_undefined_behaviour","Code.RaExampleEx.stack_ra_example_relaxed_done")+qu("Code.queue_ra_example","Code.queue_ra_example_last_pop","Code.queue_ra_example_no_undefined_behaviour","Code.RaExampleEx.queue_ra_example_relaxed_done"),"assumptions of C62 and C63 (rel = true for the queue); int is unbounded; that main reaches the end is not claimed; the theorems named relaxed_done are the negative part"),
 ("C65","proved",st("Code.stack_stress_never_fails","Code.stack_stress_passed","Code.stack_stress_no_undefined_behaviour","Code.stack_ra_stress_never_fails","Code.stack_ra_stress_passed","Code.stack_ra_stress_no_undefined_behaviour","Code.StressEx.stack_stress_without_reader","Code.RaStressEx.stack_ra_stress_relaxed")+qu("Code.queue_stress_never_fails","Code.queue_stress_passed","Code.queue_stress_no_undefined_behaviour","Code.queue_ra_stress_never_fails","Code.queue_ra_stress_passed","Code.queue_ra_stress_no_undefined_behaviour","Code.StressEx.queue_stress_without_reader","Code.RaStressEx.queue_ra_stress_relaxed"),"assumptions of C52 for the interleaved theorems and of C62 and C63 (rel = true for the queue) for those named ra; integers are unbounded; the calls of stk.empty() are left out, the passed theorems say that the container is empty; that run reaches its end is not claimed; the theorems named without_reader and relaxed are the negative part"),
 ("C66","proved",sp("Code.spsc_stress_never_fails","Code.spsc_stress_passed","Code.spsc_stress_order","Code.spsc_stress_no_undefined_behaviour","Code.StressEx.spsc_stress_relaxed"),"release/acquire memory as in C55; integers are unbounded; the calls of empty() by run are left out, the passed theorem says that the queue is empty; that run reaches its end is not claimed; the theorem named relaxed is the negative part"),
 ("C67","proved",ve("Freelist.freelist_linearizable","Freelist.freelist_null","Freelist.freelist_exclusive","Freelist.freelist_no_undefined_behaviour","Freelist.freelist_value","Freelist.freelist_conservation","Freelist.freelist_bounded","Freelist.Ex.freelist_discipline_needed"),"assumptions of C51 and C52: sequentially consistent accesses, faithful representation, no complete wrap of the tag between a load and the compare-exchange; whether a constructor throws is part of the call; a node whose constructor throws is never given back (freelist.hpp:77-102), so conservation is claimed without throwing constructors; the last theorem is the negative part"),
 ("C68","proved",ve("Freelist.Tester.freelist_tester_never_fails","Freelist.Tester.freelist_tester_no_undefined_behaviour","Freelist.Tester.freelist_tester_exclusive","Freelist.Tester.freelist_tester_finished","Freelist.Tester.freelist_tester_count","Freelist.Tester.Ex.freelist_tester_without_deallocator"),"assumptions of C52 and C67 (sequentially consistent accesses, faithful representations, no complete wrap of a tag between a load and the compare-exchange); the queue of the test is not of fixed size; operations of working_set are single steps; that run reaches its end is not claimed; the last theorem is the negative part"),
 ("C69","proved",sp("Code.spsc_example_ends","Code.spsc_example_never_stuck","Code.EndsEx.spsc_example_done_needed","Code.EndsEx.spsc_example_write_index_needed","Code.EndsEx.spsc_example_room_needed"),"fairness and visibility of stores are hypotheses (FairRun), stated on the execution; no exception leaves a thread function; int is unbounded; the theorems named needed are the negative part, there is none for the visibility of read_index_"),
 ("C70","proved",ve("Freelist.freelist_lock_free","Freelist.freelist_always_returns","Freelist.freelist_enabled","Freelist.Ex.freelist_spurious_forever"),"sequentially consistent accesses; the bound counts statements of the program text; lock_free and always_returns assume nothing about the calls or the representation of words, except that no tag wraps completely between a load and its compare-exchange (part of Program.ok, not used in the argument); enabled has the assumptions of C67 and that the allocator has memory; the theorem named spurious is the negative part"),
 ("C71","proved",ve("Stack.Code.stack_example_never_stuck","Queue.Code.queue_example_never_stuck","Stack.Code.stack_stress_never_stuck","Queue.Code.queue_stress_never_stuck","Spsc.Code.spsc_stress_never_stuck","Freelist.Tester.freelist_tester_never_stuck"),"sequentially consistent accesses, except for spsc_queue; no assumption on fairness, and no claim that the programs end: a thread that polls can always make a step; a step here need not satisfy the assumption that no tag wraps completely; the state is assumed to be reached by steps that do; examples/spsc_queue.cpp is in C69"),
 ("C72","proved",ve("Lin.linearizable_sequential","Stack.Code.stack_sequential","Stack.Code.stack_sequential_lifo","Queue.Code.queue_sequential","Queue.Code.queue_sequential_fifo","Spsc.Code.spsc_sequential","Spsc.Code.spsc_sequential_fifo","Freelist.freelist_sequential","Freelist.freelist_sequential_oom","Freelist.freelist_sequential_reuse"),"sequentially consistent accesses; the functions that may be called by any thread (push, pop, construct, destruct with ThreadSafe = true); the unsynchronized ones are in C24, C31 and C58; the statements on queue and spsc_queue assume that no call throws; the specification of the freelist allows an unbounded construct to get a fresh node at any time, so exact results are for bounded calls and freelists of fixed size"),
 ("C73","proved",ve("Freelist.freelist_unsync_same","Freelist.freelist_unsync_linearizable","Freelist.freelist_unsync_no_undefined_behaviour","Freelist.freelist_unsync_exclusive","Freelist.freelist_unsync_value","Freelist.freelist_unsync_conservation","Freelist.freelist_unsync_bounded","Freelist.freelist_unsync_enabled","Freelist.freelist_unsync_oom","Freelist.freelist_unsync_reuse"),"sequentially consistent accesses in the thread-safe phases; that a phase of one thread alone is ordered before and after the others is expressed by the model (no other call is in progress); reserve is not included; conservation assumes that no constructor of an object throws, as in C67"),
 ("C74","proved",ve("Stack.stack_delay","Stack.Code.stack_text_delay","Stack.Code.stack_text_calls_return"),"sequentially consistent accesses; no tag wraps completely between a load and its compare-exchange (Program.ok); only push, pop and empty are called; a call that returned with an exception counts as one that changed the stack"),
 ("C75","proved",ve("Example.FairRun.ends","Stack.Code.stack_example_ends","Stack.Code.EndsEx.stack_example_done_needed","Stack.Code.EndsEx.stack_example_spurious_needed"),"fairness, visibility of done, memory of the allocator and absence of exceptions are hypotheses (StackRun), stated on the execution; node-based stack (R.fixed = false), as in the program; sequentially consistent accesses"),
 ("C76","proved",ve("Queue.queue_delay","Queue.Code.queue_text_delay","Queue.Code.queue_text_calls_return"),"sequentially consistent accesses; no tag wraps completely between a load and its compare-exchange (Program.ok); only push, pop and empty are called; a call that returned with an exception counts as one that changed the queue"),
 ("C77","proved",ve("Example.FairRun.ends","Queue.Code.queue_example_ends","Queue.Code.EndsEx.queue_example_done_needed","Queue.Code.EndsEx.queue_example_spurious_needed"),"fairness, visibility of done, memory of the allocator and absence of exceptions are hypotheses (QueueRun), stated on the execution; node-based queue (R.fixed = false), as in the program; sequentially consistent accesses"),
 ("C78","proved",ve("Freelist.freelist_delay","Freelist.freelist_calls_return"),"sequentially consistent accesses; no tag wraps completely between a load and its compare-exchange (part of Program.ok, not used in the argument); nothing is assumed about the calls or the representation of words; a call that threw counts as one that changed the freelist; that the assumption on spurious failures is needed is in C70"),
 ("C79","proved",ve("Freelist.freelist_not_wait_free","Freelist.freelist_text_not_wait_free","Freelist.freelist_text_construct_starves"),"the tag has more than one value; disciplined users as in C67; the statements in freelist_text_not_wait_free include those the delayed thread executed before its call, bounded by C78; in freelist_text_construct_starves there are none"),
 ("C80","proved",ve("Stack.Code.stack_text_not_wait_free","Queue.Code.queue_text_not_wait_free"),"fixed-size containers; the tag has more than one value; the statements counted include those the delayed thread executed during the given history, bounded by C74 and C76 (none if the history has no event of that thread)"),
]
out = {"claims":[{"property":p,"status":s,"theorems":t,"note":n} for p,s,t,n in CLAIMS]}
path = os.path.join(os.path.dirname(os.path.abspath(__file__)),"..","MANIFEST.json")
json.dump(out, open(path,"w"), indent=1, ensure_ascii=False)
