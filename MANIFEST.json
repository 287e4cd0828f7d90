{
 "claims": [
  {
   "property": "C01",
   "status": "proved",
   "theorems": [
    "Vecmem.Props.c01_contiguous",
    "Vecmem.Props.c01_contiguous_lawful"
   ],
   "note": ""
  },
  {
   "property": "C02",
   "status": "proved",
   "theorems": [
    "Vecmem.Props.c02_contiguous_exact",
    "Vecmem.Props.c02_contiguous_destroy"
   ],
   "note": ""
  },
  {
   "property": "C03",
   "status": "proved",
   "theorems": [
    "Vecmem.Props.c03_pool",
    "Vecmem.Props.pool_default_sound"
   ],
   "note": "for consistent option sets (Spec/PoolOptions.lean) over any well-behaved upstream, assertions on or off"
  },
  {
   "property": "C04",
   "status": "proved",
   "theorems": [
    "Vecmem.Props.c04_pool_returns_everything"
   ],
   "note": "for consistent option sets; the destructor run after the clients returned their blocks leaves upstream with the other clients' blocks only"
  },
  {
   "property": "C05",
   "status": "partial",
   "theorems": [
    "Vecmem.Props.c05_pool_limits_partial",
    "Vecmem.Props.c05_min_bytes_missed",
    "Vecmem.Props.c05_empty_chunk",
    "Vecmem.Props.c05_overflow",
    "Vecmem.Props.c05_zero_alignment"
   ],
   "note": "proved for option sets without overflow, with non-empty first chunks and attainable byte minimum; the constructor accepts option sets outside of these for which the claim is false (four witnesses)"
  },
  {
   "property": "C06",
   "status": "partial",
   "theorems": [
    "Vecmem.Props.c06_pool_cutoffs_partial",
    "Vecmem.Props.c06_size_cutoff_ignored"
   ],
   "note": "alignment cutoff proved; size cutoff proved when no held block is less aligned than the request; false otherwise (witness): the size cutoff is not rechecked after the search for a sufficiently aligned block"
  },
  {
   "property": "C07",
   "status": "proved",
   "theorems": [
    "Vecmem.Props.c07_binary_page",
    "Vecmem.Props.c07_huge_requests_overlap"
   ],
   "note": "sizes up to any power of two between 2^20 and 2^63, upstream accepting the same limits; above 2^63 the claim is false without assertions (witness)"
  },
  {
   "property": "C08",
   "status": "partial",
   "theorems": [
    "Vecmem.Props.c08_free_memory_is_used_partial",
    "Vecmem.Props.c08_binary_page_merges_partial",
    "Vecmem.Props.c08_small_request_goes_upstream"
   ],
   "note": "complete merging proved in every reachable state; the last clause of the property is false for requests whose page is below 1/256 of the chunk (witness), proved for all others"
  },
  {
   "property": "C09",
   "status": "partial",
   "theorems": [
    "Vecmem.Props.c09_alignment_partial",
    "Vecmem.Props.c09_alignment_ignored"
   ],
   "note": "the code ignores the requested alignment; alignments up to 16 hold and the offset inside the chunk is a multiple of the page size; false beyond (witness)"
  },
  {
   "property": "C10",
   "status": "partial",
   "theorems": [
    "Vecmem.Props.c10_arena_partial",
    "Vecmem.Props.c10_arena_lawful_partial",
    "Vecmem.Props.c10_arena_overlap"
   ],
   "note": "proved for upstreams that never serve two touching blocks (Spec/Arena.lean, Gapped) and bounded sizes; false over upstreams serving adjacent superblocks (witness)"
  },
  {
   "property": "C11",
   "status": "partial",
   "theorems": [
    "Vecmem.Props.c11_arena_not_null_partial",
    "Vecmem.Props.c11_null_answer",
    "Vecmem.Props.c11_maximum_exceeded"
   ],
   "note": "a null answer and an exceeded maximum are possible (witnesses); excluded for the sizes stated"
  },
  {
   "property": "C12",
   "status": "partial",
   "theorems": [
    "Vecmem.Props.c12_arena_partial",
    "Vecmem.Props.c12_deallocate_undefined",
    "Vecmem.Props.c12_superblocks_merged"
   ],
   "note": "deallocation is defined exactly when some held byte is not handed out; false otherwise (witness); superblocks returned exactly over gapped upstreams, false over adjacent ones (witness)"
  },
  {
   "property": "C13",
   "status": "proved",
   "theorems": [
    "Vecmem.Props.c13_debug_detects",
    "Vecmem.Props.c13_debug_transparent",
    "Vecmem.Props.c13_debug_lawful"
   ],
   "note": ""
  },
  {
   "property": "C14",
   "status": "proved",
   "theorems": [
    "Vecmem.Props.c14_choice",
    "Vecmem.Props.c14_choice_lawful"
   ],
   "note": ""
  },
  {
   "property": "C15",
   "status": "proved",
   "theorems": [
    "Vecmem.Props.c15_coalescing",
    "Vecmem.Props.c15_coalescing_first",
    "Vecmem.Props.c15_coalescing_lawful"
   ],
   "note": ""
  },
  {
   "property": "C16",
   "status": "proved",
   "theorems": [
    "Vecmem.Props.c16_conditional",
    "Vecmem.Props.c16_conditional_lawful"
   ],
   "note": ""
  },
  {
   "property": "C17",
   "status": "proved",
   "theorems": [
    "Vecmem.Props.c17_identity",
    "Vecmem.Props.c17_terminal",
    "Vecmem.Props.c17_identity_lawful",
    "Vecmem.Props.c17_terminal_lawful"
   ],
   "note": ""
  },
  {
   "property": "C18",
   "status": "proved",
   "theorems": [
    "Vecmem.Props.c18_instrumenting",
    "Vecmem.Props.c18_instrumenting_lawful"
   ],
   "note": "Exceptions other than bad_alloc leave without event and post-hooks; a null answer of upstream to a non-zero request becomes bad_alloc."
  },
  {
   "property": "C19",
   "status": "partial",
   "theorems": [
    "Vecmem.Props.c19_monitor_partial",
    "Vecmem.Props.c19_average_undefined",
    "Vecmem.Props.c19_total_overflows",
    "Vecmem.Props.c19_average_inexact",
    "Vecmem.Props.c19_double"
   ],
   "note": "Outstanding and maximum exact; total modulo 2^64 (witness for the overflow); the average, computed in IEEE double arithmetic (c19_double), is the rounded mean if fewer than 2^52 bytes were served, and up to a relative error of 2^-51 beyond (c19_average_inexact); it is undefined before the first allocation."
  },
  {
   "property": "C20",
   "status": "proved",
   "theorems": [
    "Vecmem.Props.c20_synchronized",
    "Vecmem.Props.c20_finished",
    "Vecmem.Props.c20_copies_race"
   ],
   "note": "For one object; copies have separate mutexes and race (witness)."
  },
  {
   "property": "C21",
   "status": "partial",
   "theorems": [
    "Vecmem.Props.c21_conventions_partial",
    "Vecmem.Props.c21_terminal_throws"
   ],
   "note": "every resource but the terminal one, which throws bad_alloc for zero bytes (witness)"
  },
  {
   "property": "C22",
   "status": "partial",
   "theorems": [
    "Vecmem.Props.c22_host_malloc_partial",
    "Vecmem.Props.c22_host_aligned_partial",
    "Vecmem.Props.c22_host_lawful_partial",
    "Vecmem.Props.c22_malloc_overflow",
    "Vecmem.Props.c22_aligned_overflow"
   ],
   "note": "both build variants, over any C library following the C standard; sizes for which size + alignment does not overflow; false beyond (witnesses)"
  },
  {
   "property": "C23",
   "status": "proved",
   "theorems": [
    "Vecmem.Props.c23_is_power_of_2",
    "Vecmem.Props.c23_log2",
    "Vecmem.Props.c23_log2_ri",
    "Vecmem.Props.c23_log2_zero_undefined",
    "Vecmem.Props.c23_round_up",
    "Vecmem.Props.c23_round_up_release_overflow"
   ],
   "note": "is_power_of_2(0) is true; log2 is undefined at 0; round_up above 2^63 asserts (release: returns 0)."
  },
  {
   "property": "C24",
   "status": "partial",
   "theorems": [
    "Vecmem.Props.c24_is_aligned_partial",
    "Vecmem.Props.c24_is_aligned_fails"
   ],
   "note": "Exact for alignments up to 2^61; the claim is false for 2^62 (overflow of the dummy space)."
  },
  {
   "property": "C25",
   "status": "proved",
   "theorems": [
    "Vecmem.Props.c25_stacks"
   ],
   "note": "stacks as in Spec/Stack.lean, including host and (restricted) arena resources"
  },
  {
   "property": "C26",
   "status": "proved",
   "theorems": [
    "Vecmem.Props.c26_placement"
   ],
   "note": "all type lists, counts and base addresses without 64-bit overflow"
  },
  {
   "property": "C27",
   "status": "proved",
   "theorems": [
    "Vecmem.Props.c27_vector_buffer",
    "Vecmem.Props.c27_bound"
   ],
   "note": "all element types, capacities, both kinds; destruction returns the memory"
  },
  {
   "property": "C28",
   "status": "partial",
   "theorems": [
    "Vecmem.Props.c28_jagged_buffer_partial",
    "Vecmem.Props.c28_disjoint",
    "Vecmem.Props.c28_capacity_truncated",
    "Vecmem.Props.c28_fixed_misaligned"
   ],
   "note": "capacities below 2^32 (larger ones are truncated, witness); payload alignment fails for over-aligned types in fixed size buffers (witness)"
  },
  {
   "property": "C29",
   "status": "proved",
   "theorems": [
    "Vecmem.Props.c29_device_vector",
    "Vecmem.Props.c29_fixed",
    "Vecmem.Props.c29_assign_own_element"
   ],
   "note": "all programs within the capacity, with and without assertions; assign given a reference to an own element with a non-trivial destructor is excluded (undefined, witness)"
  },
  {
   "property": "C30",
   "status": "proved",
   "theorems": [
    "Vecmem.Props.c30_concurrent_appends",
    "Vecmem.Props.c30_spelled_out",
    "Vecmem.Props.c30_no_races"
   ],
   "note": "all threads, programs and schedules of the atomic steps; fetch_add is taken to be atomic (C46)"
  },
  {
   "property": "C31",
   "status": "partial",
   "theorems": [
    "Vecmem.Props.c31_appends_contained_partial",
    "Vecmem.Props.c31_release_push",
    "Vecmem.Props.c31_release_pop",
    "Vecmem.Props.c31_debug_wrap"
   ],
   "note": "holds with assertions enabled; false without them (witnesses)"
  },
  {
   "property": "C32",
   "status": "partial",
   "theorems": [
    "Vecmem.Props.c32_bounded_list_partial",
    "Vecmem.Props.c32_insert_own_element",
    "Vecmem.Props.c32_false",
    "Vecmem.Props.c32_insert_own_element_forms",
    "Vecmem.Props.c32_assign_own_element",
    "Vecmem.Props.c32_at_checked"
   ],
   "note": "all programs on any number of vectors, except certain references to own elements and, for non-trivial types, the sized constructor and copy assignment; false for these (witnesses)"
  },
  {
   "property": "C33",
   "status": "partial",
   "theorems": [
    "Vecmem.Props.c33_lifetimes_partial",
    "Vecmem.Props.c33_sized_constructor",
    "Vecmem.Props.c33_false",
    "Vecmem.Props.c33_copy_assignment"
   ],
   "note": "all programs on any number of vectors, except the sized constructor, copy assignment and references to own elements; false for these (witnesses)"
  },
  {
   "property": "C34",
   "status": "proved",
   "theorems": [
    "Vecmem.Props.c34_reverse",
    "Vecmem.Props.c34_loop",
    "Vecmem.Props.c34_reverse_loop",
    "Vecmem.Props.c34_reverse_operators",
    "Vecmem.Props.c34_pointers",
    "Vecmem.Props.c34_static_array_equality",
    "Vecmem.Props.c34_static_array_at",
    "Vecmem.Props.c34_static_array_ends",
    "Vecmem.Props.c34_static_array_fill",
    "Vecmem.Props.c34_array_new",
    "Vecmem.Props.c34_array_access",
    "Vecmem.Props.c34_array_fill",
    "Vecmem.Props.c34_device_array",
    "Vecmem.Props.c34_array_iterators",
    "Vecmem.Props.c34_device_array_small"
   ],
   "note": "all sizes, contents, positions and iterator types"
  },
  {
   "property": "C35",
   "status": "partial",
   "theorems": [
    "Vecmem.Props.c35_get_data_partial",
    "Vecmem.Props.c35_run",
    "Vecmem.Props.c35_size",
    "Vecmem.Props.c35_iterate",
    "Vecmem.Props.c35_writes_reach_host_partial",
    "Vecmem.Props.c35_truncated",
    "Vecmem.Props.c35_false"
   ],
   "note": "inner sizes below 2^32 (larger ones are truncated, witness)"
  },
  {
   "property": "C36",
   "status": "proved",
   "theorems": [
    "Vecmem.Props.c36_unique_ptr",
    "Vecmem.Props.c36_operations"
   ],
   "note": "all programs of make/move/swap/reset/release over a family of resources; constructors that throw: see C52"
  },
  {
   "property": "C37",
   "status": "partial",
   "theorems": [
    "Vecmem.Props.c37_copy_partial",
    "Vecmem.Props.c37_false",
    "Vecmem.Props.c37_empty",
    "Vecmem.Props.c37_to_std",
    "Vecmem.Props.c37_to",
    "Vecmem.Props.c37_to_exception"
   ],
   "note": "all contents, sizes and kinds of vectors, except that an empty source leaves the elements of a resizable target in place (witness); copies to std::vector and to() are exact"
  },
  {
   "property": "C38",
   "status": "proved",
   "theorems": [
    "Vecmem.Props.c38_copy",
    "Vecmem.Props.c38_copy_unequal",
    "Vecmem.Props.c38_fast_path_copies_capacity",
    "Vecmem.Props.c38_to_std",
    "Vecmem.Props.c38_to"
   ],
   "note": "all shapes, layouts and combinations; the views share no memory, and resizable views have adjacent size words (as those of buffers have); to() with host accessible size words"
  },
  {
   "property": "C39",
   "status": "partial",
   "theorems": [
    "Vecmem.Props.c39_get_sizes",
    "Vecmem.Props.c39_set_get",
    "Vecmem.Props.c39_set_refused",
    "Vecmem.Props.c39_set_changes",
    "Vecmem.Props.c39_false",
    "Vecmem.Props.c39_scattered_words"
   ],
   "note": "reading and setting are exact; set_sizes does not throw length_error for sizes a fixed size vector does not have, and for some mixtures (witnesses)"
  },
  {
   "property": "C40",
   "status": "partial",
   "theorems": [
    "Vecmem.Props.c40_setup_vector",
    "Vecmem.Props.c40_setup_vector_nothing",
    "Vecmem.Props.c40_setup_jagged",
    "Vecmem.Props.c40_memset_vector",
    "Vecmem.Props.c40_memset_jagged_partial",
    "Vecmem.Props.c40_memset_empty_jagged",
    "Vecmem.Props.c40_setup_container_partial",
    "Vecmem.Props.c40_memset_variables_partial",
    "Vecmem.Props.c40_memset_container_partial",
    "Vecmem.Props.c40_get_size",
    "Vecmem.Props.c40_no_capacity",
    "Vecmem.Props.c40_memset_container_empty",
    "Vecmem.Props.c40_memset_strict",
    "Vecmem.Props.c40_memset_strict_empty"
   ],
   "note": "vectors, jagged vectors and container buffers below 4 GiB; memset of a jagged vector without rows is undefined, and setup skips a resizable container without capacity although it has a size word (witnesses); memset of a container buffer also sets the bytes between its variables, and ends the program if the library is built with VECMEM_FAIL_ON_ASYNC_ERRORS (witness)"
  },
  {
   "property": "C41",
   "status": "partial",
   "theorems": [
    "Vecmem.Props.c41_calls",
    "Vecmem.Props.c41_terminates",
    "Vecmem.Props.c41_wait_partial",
    "Vecmem.Props.c41_copy_visible",
    "Vecmem.Props.c41_wait_false",
    "Vecmem.Props.c41_event",
    "Vecmem.Props.c41_stream_waits",
    "Vecmem.Props.c41_sycl_waits",
    "Vecmem.Props.c41_sycl_terminates",
    "Vecmem.Props.c41_sycl_false"
   ],
   "note": "CUDA streams: all sequences of calls, wait patterns and schedules agree with synchronous copies and end; a user who waits for every event, and reads and writes memory between the calls, gets the synchronous results on a stream and also on a SYCL queue that executes in any order; waiting for an event that the copy object returns because there was nothing to do does not cover earlier operations (witness); for SYCL the order of operations whose events are not waited for is not kept (witness)"
  },
  {
   "property": "C42",
   "status": "partial",
   "theorems": [
    "Vecmem.Props.c42_edm_buffer_partial",
    "Vecmem.Props.c42_capacity_truncated",
    "Vecmem.Props.c42_payload_truncated"
   ],
   "note": "all schemas, capacities below 2^32, kinds of buffers and resources; larger capacities are truncated, and the memory views of 4 GiB and more as well (witnesses)"
  },
  {
   "property": "C43",
   "status": "proved",
   "theorems": [
    "Vecmem.Props.c43_size",
    "Vecmem.Props.c43_size_throws",
    "Vecmem.Props.c43_new",
    "Vecmem.Props.c43_resize",
    "Vecmem.Props.c43_resize_exception",
    "Vecmem.Props.c43_resize_returns",
    "Vecmem.Props.c43_failed_resize",
    "Vecmem.Props.c43_reserve",
    "Vecmem.Props.c43_reserve_resize",
    "Vecmem.Props.c43_at",
    "Vecmem.Props.c43_history"
   ],
   "note": "all schemas with a vector variable, all contents and sizes, all outcomes of allocations; after an exception of resize the sizes can differ, so that size() throws (witness)"
  },
  {
   "property": "C44",
   "status": "partial",
   "theorems": [
    "Vecmem.Props.c44_variables",
    "Vecmem.Props.c44_variables_partial",
    "Vecmem.Props.c44_buffers_partial",
    "Vecmem.Props.c44_same_buffers_partial",
    "Vecmem.Props.c44_empty_not_copied",
    "Vecmem.Props.c44_false",
    "Vecmem.Props.c44_inner_capacities",
    "Vecmem.Props.c44_no_length_error",
    "Vecmem.Props.c44_large_block",
    "Vecmem.Props.c44_paths_differ",
    "Vecmem.Props.c44_to_host",
    "Vecmem.Props.c44_buffer_to_host",
    "Vecmem.Props.c44_get_size",
    "Vecmem.Props.c44_from_host_partial",
    "Vecmem.Props.c44_round_trip"
   ],
   "note": "c44_variables says exactly what a copy variable by variable does, for any contents and capacities, also when it throws; any views copied variable by variable, and any two buffers of equal capacities below 4 GiB (both paths). Not guaranteed (witnesses): an empty vector does not empty its target; the choice to copy one block depends on byte counts only, so that different inner capacities are mixed up or a size above the capacity results; a payload of 4 GiB is not copied. Copies to host containers are exact, for any sizes (c44_to_host, c44_buffer_to_host), and so is a copy of a host container to a buffer and back (c44_round_trip)"
  },
  {
   "property": "C45",
   "status": "proved",
   "theorems": [
    "Vecmem.Props.c45_push_back_default",
    "Vecmem.Props.c45_no_races",
    "Vecmem.Props.c45_progress",
    "Vecmem.Props.c45_full",
    "Vecmem.Props.c45_push_one_variable"
   ],
   "note": "all schemas without jagged vectors (as the code requires), numbers of threads and calls, and schedules, with later assignments by the threads; if the container has room for all calls; atomic fetch_add and sequentially consistent memory are assumed. Witnesses for full containers and for appending to one variable"
  },
  {
   "property": "C46",
   "status": "partial",
   "theorems": [
    "Vecmem.Props.c46_atomic_partial",
    "Vecmem.Props.c46_atomic_class_partial",
    "Vecmem.Props.c46_claim_indices",
    "Vecmem.Props.c46_alone",
    "Vecmem.Props.c46_dummy_lost_update",
    "Vecmem.Props.c46_dummy_load",
    "Vecmem.Props.c46_host_lost_update"
   ],
   "note": "all widths, values, numbers of threads and variables, programs and schedules: linearisable, in real time order, for the CUDA, HIP, SYCL (custom) and POSIX references, for vecmem::atomic in SYCL code, and for vecmem::atomic in CUDA and HIP code without compare_exchange_strong. The dummy reference and vecmem::atomic in host code are right only without interruption (proved, with witnesses). sycl::atomic_ref and std::atomic_ref are not part of the library"
  },
  {
   "property": "C47",
   "status": "partial",
   "theorems": [
    "Vecmem.Props.c47_compare_exchange_partial",
    "Vecmem.Props.c47_atomic_class",
    "Vecmem.Props.c47_atomic_class_false",
    "Vecmem.Props.c47_host_read_twice",
    "Vecmem.Props.c47_memory_orders",
    "Vecmem.Props.c46_alone"
   ],
   "note": "all values, for the CUDA, HIP, SYCL and POSIX references and vecmem::atomic in SYCL code, and for the dummy reference and vecmem::atomic in host code without interruption; false for vecmem::atomic in CUDA and HIP code (exactly what it does instead is proved)"
  },
  {
   "property": "C48",
   "status": "proved",
   "theorems": [
    "Vecmem.Props.c48_restored",
    "Vecmem.Props.c48_no_terminate",
    "Vecmem.Props.c48_allocate",
    "Vecmem.Props.c48_deallocate",
    "Vecmem.Props.c48_allocate_returns",
    "Vecmem.Props.c48_default_device",
    "Vecmem.Props.c48_stream",
    "Vecmem.Props.c48_default_stream",
    "Vecmem.Props.c48_copy",
    "Vecmem.Props.c48_reported",
    "Vecmem.Props.c48_hip_cannot_ask",
    "Vecmem.Props.c48_terminate"
   ],
   "note": "all programs with nested scopes, resources, streams, copies, exceptions, and all failures of the runtime; a call that fails is taken to change nothing. With HIP the current device must be available: an error of hipGetDevice is ignored and device 0 is selected afterwards (witness). A failure to select the previous device again terminates the program (witness)"
  },
  {
   "property": "C49",
   "status": "partial",
   "theorems": [
    "Vecmem.Props.c49_allocator_partial",
    "Vecmem.Props.c49_bytes",
    "Vecmem.Props.c49_overflow",
    "Vecmem.Props.c49_leak",
    "Vecmem.Props.c49_throwing"
   ],
   "note": "representable byte sizes; others are not refused (witness)"
  },
  {
   "property": "C50",
   "status": "partial",
   "theorems": [
    "Vecmem.Props.c50_reflexive",
    "Vecmem.Props.c50_transitive",
    "Vecmem.Props.c50_symmetric_partial",
    "Vecmem.Props.c50_not_symmetric",
    "Vecmem.Props.c50_synchronized",
    "Vecmem.Props.c50_up_to_synchronized",
    "Vecmem.Props.c50_deallocate",
    "Vecmem.Props.c50_same",
    "Vecmem.Props.c50_finest",
    "Vecmem.Props.c50_sycl_kinds"
   ],
   "note": "all pairs of resources of the library: reflexive, transitive, implies interchangeability; symmetric except for synchronized resources (witness)"
  },
  {
   "property": "C51",
   "status": "proved",
   "theorems": [
    "Vecmem.Props.c51_binary_page_returns_everything"
   ],
   "note": ""
  },
  {
   "property": "C52",
   "status": "partial",
   "theorems": [
    "Vecmem.Props.c52_factory_alignment_partial",
    "Vecmem.Props.c52_misaligned",
    "Vecmem.Props.c52_overflow",
    "Vecmem.Props.c52_leak",
    "Vecmem.Props.c52_throwing"
   ],
   "note": "alignment for types that are not over-aligned; false for others, for byte sizes that overflow, and for throwing constructors (witnesses)"
  },
  {
   "property": "C53",
   "status": "partial",
   "theorems": [
    "Vecmem.Props.c53_elements_aligned_partial",
    "Vecmem.Props.c53_misaligned",
    "Vecmem.Props.c53_member_offsets",
    "Vecmem.Props.c53_members_aligned",
    "Vecmem.Props.c53_elements_within"
   ],
   "note": "types aligned to at most 8 bytes; false for others (witness)"
  },
  {
   "property": "C54",
   "status": "proved",
   "theorems": [
    "Vecmem.Props.c54_read",
    "Vecmem.Props.c54_write",
    "Vecmem.Props.c54_subscript"
   ],
   "note": "host containers, all schemas, contents and indices"
  },
  {
   "property": "C55",
   "status": "proved",
   "theorems": [
    "Vecmem.Props.c55_programs",
    "Vecmem.Props.c55_calls_keep"
   ],
   "note": "all programs over any finite or infinite family of resources of the modelled kinds (Works in Spec/World.lean), with any sharing of upstreams; pool, page and arena resources in the configurations of C03, C07 and C10"
  },
  {
   "property": "C56",
   "status": "proved",
   "theorems": [
    "Vecmem.Props.c56_moves",
    "Vecmem.Props.c56_same_behaviour",
    "Vecmem.Props.c56_moved_in_use",
    "Vecmem.Props.c56_destroyed_in_use"
   ],
   "note": "all programs that do not move, replace or destroy objects in use (the last two theorems show why); kinds of resources as in C55"
  },
  {
   "property": "C57",
   "status": "partial",
   "theorems": [
    "Vecmem.Props.c57_streams",
    "Vecmem.Props.c57_queue_memory",
    "Vecmem.Props.c57_queues_partial",
    "Vecmem.Props.c57_queue_false",
    "Vecmem.Props.c57_queue_move_false",
    "Vecmem.Props.c57_stream_own_view",
    "Vecmem.Props.c57_queue_own_view"
   ],
   "note": "Full for CUDA. For SYCL the memory part holds for all programs; what wrappers refer to is proved for programs that assign no view to an owner, and false otherwise (c57_queue_false)."
  },
  {
   "property": "C58",
   "status": "partial",
   "theorems": [
    "Vecmem.Props.c58_sycl",
    "Vecmem.Props.c58_cuda_hip_partial",
    "Vecmem.Props.c58_programs",
    "Vecmem.Props.c58_passed_on",
    "Vecmem.Props.c58_bases",
    "Vecmem.Props.c58_exact",
    "Vecmem.Props.c58_device_kept",
    "Vecmem.Props.c58_sycl_exact",
    "Vecmem.Props.c58_errors",
    "Vecmem.Props.c58_never_bad_alloc",
    "Vecmem.Props.c58_alignment_ignored",
    "Vecmem.Props.c58_coalescing_stops",
    "Vecmem.Props.c58_instrumenting_silent",
    "Vecmem.Props.c58_not_lawful",
    "Vecmem.Props.c58_misaligned",
    "Vecmem.Props.c58_no_fallback"
   ],
   "note": "Full for SYCL. CUDA and HIP resources refuse with std::runtime_error instead of bad_alloc and ignore the alignment, so the claim holds only up to the exception and for alignments that the runtime guarantees anyway; programs over them with resources of all kinds are proved up to the exception (c58_programs), but coalescing resources do not fall back (c58_no_fallback)."
  },
  {
   "property": "C59",
   "status": "partial",
   "theorems": [
    "Vecmem.Props.c59_pipelines_partial",
    "Vecmem.Props.c59_runs_partial",
    "Vecmem.Props.c59_empty_copy",
    "Vecmem.Props.c59_memory",
    "Vecmem.Props.c59_schedules",
    "Vecmem.Props.c59_parallel_filter"
   ],
   "note": "all programs; what is not as with lists, as C37 shows: a copy of an empty vector into a resizable vector leaves the elements of the latter in place (c59_empty_copy); element types have trivial destructors; steps are waited for"
  },
  {
   "property": "C60",
   "status": "proved",
   "theorems": [
    "Vecmem.Props.c60_threads",
    "Vecmem.Props.c60_quiet",
    "Vecmem.Props.c60_upstream",
    "Vecmem.Props.c60_progress"
   ],
   "note": ""
  },
  {
   "property": "C61",
   "status": "proved",
   "theorems": [
    "Vecmem.Props.c61_latest",
    "Vecmem.Props.c61_exchange",
    "Vecmem.Props.c61_not_null",
    "Vecmem.Props.c61_restore"
   ],
   "note": ""
  },
  {
   "property": "C62",
   "status": "partial",
   "theorems": [
    "Vecmem.Props.c62_jagged_pipelines_partial",
    "Vecmem.Props.c62_runs_partial",
    "Vecmem.Props.c62_empty_copy",
    "Vecmem.Props.c62_memory",
    "Vecmem.Props.c62_sources",
    "Vecmem.Props.c62_same_rows",
    "Vecmem.Props.c62_parallel_binning"
   ],
   "note": "all programs in which no jagged vector without rows is memset (undefined, C40); what is not as with lists: a copy of an empty vector (or of a jagged vector without rows) leaves the elements of a resizable vector (the rows of a jagged vector) in place and does not throw (c59_empty_copy, c62_empty_copy); element types have trivial destructors; steps are waited for"
  },
  {
   "property": "C63",
   "status": "proved",
   "theorems": [
    "Vecmem.Props.c63_constructor",
    "Vecmem.Props.c63_constructor_exists",
    "Vecmem.Props.c63_copy",
    "Vecmem.Props.c63_concatenation",
    "Vecmem.Props.c63_concatenation_exists",
    "Vecmem.Props.c63_tie",
    "Vecmem.Props.c63_make_tuple",
    "Vecmem.Props.c63_proxy",
    "Vecmem.Props.c63_assign_value",
    "Vecmem.Props.c63_assign_reference",
    "Vecmem.Props.c63_sources",
    "Vecmem.Props.c63_constant"
   ],
   "note": ""
  },
  {
   "property": "C64",
   "status": "proved",
   "theorems": [
    "Vecmem.Props.c64_stream",
    "Vecmem.Props.c64_terminates",
    "Vecmem.Props.c64_lists",
    "Vecmem.Props.c64_download",
    "Vecmem.Props.c64_hasty",
    "Vecmem.Props.c64_early_look",
    "Vecmem.Props.c64_idle_wait"
   ],
   "note": "all programs; the steps do to the buffers what they do in C59. The last three theorems show that the rules for the host are needed"
  },
  {
   "property": "C65",
   "status": "partial",
   "theorems": [
    "Vecmem.Props.c65_edm_pipelines_partial",
    "Vecmem.Props.c65_runs_partial",
    "Vecmem.Props.c65_memory",
    "Vecmem.Props.c65_sources",
    "Vecmem.Props.c65_same_rows",
    "Vecmem.Props.c65_any_schedule",
    "Vecmem.Props.c65_refused",
    "Vecmem.Props.c65_elements_stay_together"
   ],
   "note": "all programs, also with copies that throw and copies between buffers of different capacities, with exceptions that C40, C42 and C44 show to be necessary: containers without capacity must not be filled (nor set up, if resizable), containers are smaller than 4 GiB, copies between different capacities are not made where these might give the same number of bytes, and a buffer that has not been set up is the target of a copy only if that is made as one block. Variables with nothing to copy are not emptied in the target (c44_empty_not_copied). Element types have trivial destructors; steps are waited for"
  },
  {
   "property": "C66",
   "status": "partial",
   "theorems": [
    "Vecmem.Props.c66_stream",
    "Vecmem.Props.c66_terminates",
    "Vecmem.Props.c66_tables_partial",
    "Vecmem.Props.c66_download",
    "Vecmem.Props.c66_destroyed_early",
    "Vecmem.Props.c66_failed_copy"
   ],
   "note": "all programs whose steps C65 allows, also those that throw; the last two theorems show that the rules for the host are needed: a buffer with jagged vectors must not be destroyed before its setup was waited for if its memory may be used again, and copies that throw leave operations behind that can only be waited for with a later event or by waiting for everything"
  },
  {
   "property": "C67",
   "status": "partial",
   "theorems": [
    "Vecmem.Props.c67_stream",
    "Vecmem.Props.c67_terminates",
    "Vecmem.Props.c67_lists_partial",
    "Vecmem.Props.c67_download",
    "Vecmem.Props.c67_destroyed_early"
   ],
   "note": "all programs whose steps C62 allows; the last theorem shows that the rule for the host is needed: a jagged buffer with a host accessible resource must not be destroyed before its setup was waited for if its memory may be used again"
  },
  {
   "property": "C68",
   "status": "partial",
   "theorems": [
    "Vecmem.Props.c68_moves_partial",
    "Vecmem.Props.c68_runs_partial",
    "Vecmem.Props.c68_memory",
    "Vecmem.Props.c68_in_place",
    "Vecmem.Props.c68_assign",
    "Vecmem.Props.c68_swap_vec",
    "Vecmem.Props.c68_swap_jag",
    "Vecmem.Props.c68_moved_view",
    "Vecmem.Props.c68_dangling"
   ],
   "note": "all programs, with the exceptions of C62; a variable that has been moved from must not be used except to be destroyed, assigned to or moved from: the last two theorems show that it still describes the memory that it owned, also when that has been given back"
  },
  {
   "property": "C69",
   "status": "partial",
   "theorems": [
    "Vecmem.Props.c69_copies",
    "Vecmem.Props.c69_new",
    "Vecmem.Props.c69_variable",
    "Vecmem.Props.c69_row",
    "Vecmem.Props.c69_chain",
    "Vecmem.Props.c69_readonly_partial",
    "Vecmem.Props.c69_equal",
    "Vecmem.Props.c69_equivalence",
    "Vecmem.Props.c69_copy_equal",
    "Vecmem.Props.c69_different",
    "Vecmem.Props.c69_different_same",
    "Vecmem.Props.c69_hole"
   ],
   "note": "all programs; that memory of which no view for writing was made stays as it is holds unless rows are replaced through a jagged view for reading: the array of views is shared with the jagged view for writing that it was made from, so that a view for reading can be put in and taken out as one for writing (c69_hole)"
  },
  {
   "property": "C70",
   "status": "partial",
   "theorems": [
    "Vecmem.Props.c70_moves_partial",
    "Vecmem.Props.c70_runs_partial",
    "Vecmem.Props.c70_memory",
    "Vecmem.Props.c70_in_place",
    "Vecmem.Props.c70_assign",
    "Vecmem.Props.c70_swap",
    "Vecmem.Props.c70_moved_view",
    "Vecmem.Props.c70_indeterminate",
    "Vecmem.Props.c70_dangling"
   ],
   "note": "all programs, with the exceptions of C65; a variable that has been moved from or was default-constructed must not be used except to be destroyed, assigned to or moved from: the last three theorems show that it still describes the memory that it owned, also when that has been given back, or describes any memory"
  },
  {
   "property": "C71",
   "status": "partial",
   "theorems": [
    "Vecmem.Props.c71_no_failure",
    "Vecmem.Props.c71_faults_partial",
    "Vecmem.Props.c71_lawful",
    "Vecmem.Props.c71_arena_partial",
    "Vecmem.Props.c71_lost",
    "Vecmem.Props.c71_silent",
    "Vecmem.Props.c71_twice",
    "Vecmem.Props.c71_arena_free",
    "Vecmem.Props.c71_arena_neighbours",
    "Vecmem.Props.c71_arena_create"
   ],
   "note": "all kinds with the arena apart; the number of blocks that upstream does not get back is bounded by the number of refused requests (pool, debug, choice, coalescing, instrumenting; none for binary page), and c71_lost, c71_silent show that they are lost; a deallocation of an instrumenting resource that throws has given the block back (c71_twice); an arena answers requests well and keeps blocks in use apart until a call is undefined (c71_arena_partial), but giving back blocks and its destruction may be undefined after such an exception (c71_arena_free, c71_arena_create)"
  },
  {
   "property": "C72",
   "status": "partial",
   "theorems": [
    "Vecmem.Props.c72_describes_partial",
    "Vecmem.Props.c72_returns",
    "Vecmem.Props.c72_memory",
    "Vecmem.Props.c72_host",
    "Vecmem.Props.c72_moved_view",
    "Vecmem.Props.c72_dangling",
    "Vecmem.Props.c72_indeterminate",
    "Vecmem.Props.c72_truncated"
   ],
   "note": "all programs; sizes are converted to 32 bits (c72_truncated), the capacity is not set for containers with scalars only (c72_indeterminate), and objects that have been moved from still point to the array of views that they owned, also when it has been given back (c72_moved_view, c72_dangling)"
  },
  {
   "property": "C73",
   "status": "partial",
   "theorems": [
    "Vecmem.Props.c73_posix",
    "Vecmem.Props.c73_cuda_partial",
    "Vecmem.Props.c73_sycl_builtin_partial",
    "Vecmem.Props.c73_values",
    "Vecmem.Props.c73_message_posix",
    "Vecmem.Props.c73_message_cuda_partial",
    "Vecmem.Props.c73_latest_posix",
    "Vecmem.Props.c73_latest_cuda_partial",
    "Vecmem.Props.c73_latest_cuda_exchange",
    "Vecmem.Props.c73_cuda_exchange",
    "Vecmem.Props.c73_cuda_acquire",
    "Vecmem.Props.c73_sycl_custom",
    "Vecmem.Props.c73_sycl_default"
   ],
   "note": "all programs on a release/acquire memory with fences; in full for POSIX references; for CUDA and HIP from stores to loads, as the other operations ignore the order (c73_cuda_exchange, c73_cuda_acquire); for sycl::atomic_ref with explicit orders, as its default is relaxed (c73_sycl_default); the custom SYCL reference ignores all orders (c73_sycl_custom). Load buffering and undefined behaviour by races are not in the memory model"
  },
  {
   "property": "C74",
   "status": "partial",
   "theorems": [
    "Vecmem.Props.c74_cuda_partial",
    "Vecmem.Props.c74_cuda_exchange",
    "Vecmem.Props.c74_sycl_custom"
   ],
   "note": "CUDA and HIP references, for reads with load; it fails for the other operations (c74_cuda_exchange) and for the custom SYCL reference (c74_sycl_custom). The memory model has no total order of sequentially consistent operations, so nothing is claimed for the POSIX references"
  },
  {
   "property": "C75",
   "status": "partial",
   "theorems": [
    "Vecmem.Props.c75_device_no_exceptions",
    "Vecmem.Props.c75_static_no_exceptions",
    "Vecmem.Props.c75_device_caught_partial",
    "Vecmem.Props.c75_static_caught_partial",
    "Vecmem.Props.c75_device_contained",
    "Vecmem.Props.c75_device_programs",
    "Vecmem.Props.c75_static_contained_partial",
    "Vecmem.Props.c75_device_fixed",
    "Vecmem.Props.c75_edm_push",
    "Vecmem.Props.c75_static_wrap",
    "Vecmem.Props.c75_release"
   ],
   "note": "in full, but for counts so large that the sum of sizes wraps, for which the assertions hold (c75_static_wrap, c31_debug_wrap)"
  },
  {
   "property": "C76",
   "status": "partial",
   "theorems": [
    "Vecmem.Props.c76_places",
    "Vecmem.Props.c76_elements",
    "Vecmem.Props.c76_complete",
    "Vecmem.Props.c76_size",
    "Vecmem.Props.c76_heard_posix",
    "Vecmem.Props.c76_heard_cuda_partial",
    "Vecmem.Props.c76_heard_sycl_partial",
    "Vecmem.Props.c76_own",
    "Vecmem.Props.c76_at",
    "Vecmem.Props.c76_final",
    "Vecmem.Props.c76_left",
    "Vecmem.Props.c76_read_final",
    "Vecmem.Props.c76_final_unique",
    "Vecmem.Props.c76_pushes",
    "Vecmem.Props.c76_calls",
    "Vecmem.Props.c76_size_no_signal"
   ],
   "note": "in full, but that with CUDA and HIP references a thread must be told by a store that it loads (c76_heard_cuda_partial; see C73), with sycl::atomic_ref by operations with an explicit order (c76_heard_sycl_partial), and with the custom SYCL reference nothing is claimed about that; the size is no such sign (c76_size_no_signal)"
  },
  {
   "property": "C77",
   "status": "proved",
   "theorems": [
    "Vecmem.Props.c77_sequential",
    "Vecmem.Props.c77_ends",
    "Vecmem.Props.c77_kernel",
    "Vecmem.Props.c77_runs",
    "Vecmem.Props.c77_step",
    "Vecmem.Props.c77_reach",
    "Vecmem.Props.c77_pipelines",
    "Vecmem.Props.c77_goes_on",
    "Vecmem.Props.c77_parallel_filter"
   ],
   "note": "values that are references into the vector itself are left out; elements are made of words (of bytes, in programs) that are written one after the other"
  },
  {
   "property": "C78",
   "status": "proved",
   "theorems": [
    "Vecmem.Props.c78_each",
    "Vecmem.Props.c78_places",
    "Vecmem.Props.c78_elements",
    "Vecmem.Props.c78_final",
    "Vecmem.Props.c78_heard_posix",
    "Vecmem.Props.c78_complete",
    "Vecmem.Props.c78_ends",
    "Vecmem.Props.c78_kernels"
   ],
   "note": "the order of the calls is per vector: nothing is claimed about one order for all vectors together; that the rows of a jagged buffer share no memory is C28"
  },
  {
   "property": "C79",
   "status": "proved",
   "theorems": [
    "Vecmem.Props.c79_sequential",
    "Vecmem.Props.c79_kernel",
    "Vecmem.Props.c79_runs",
    "Vecmem.Props.c79_step_inv",
    "Vecmem.Props.c79_reach",
    "Vecmem.Props.c79_pipelines",
    "Vecmem.Props.c79_goes_on",
    "Vecmem.Props.c79_parallel_binning"
   ],
   "note": "values that are references into the rows are left out; that there is one order for all rows together relies on the machine, on which a thread does not read what is written later (no load buffering)"
  },
  {
   "property": "C80",
   "status": "proved",
   "theorems": [
    "Vecmem.Props.c80_alone",
    "Vecmem.Props.c80_final",
    "Vecmem.Props.c80_one_by_one",
    "Vecmem.Props.c80_ends"
   ],
   "note": "programs that synchronize, and share what they write, are the subject of C73 (c73_latest_posix) and of C76 to C79"
  },
  {
   "property": "C81",
   "status": "proved",
   "theorems": [
    "Vecmem.Props.c81_sequential",
    "Vecmem.Props.c81_append",
    "Vecmem.Props.c81_append_runs",
    "Vecmem.Props.c81_access",
    "Vecmem.Props.c81_access_runs",
    "Vecmem.Props.c81_step_inv",
    "Vecmem.Props.c81_reach",
    "Vecmem.Props.c81_pipelines",
    "Vecmem.Props.c81_goes_on",
    "Vecmem.Props.c81_deterministic",
    "Vecmem.Props.c81_elements_stay_together"
   ],
   "note": "hypotheses on programs as in C65; values that are references into the rows are left out; the assertion of edm::device::at on the size, and reads of views and sizes by kernels that only load and store, are left out of the weak memory"
  },
  {
   "property": "C82",
   "status": "proved",
   "theorems": [
    "Vecmem.Props.c82_given",
    "Vecmem.Props.c82_reads",
    "Vecmem.Props.c82_append",
    "Vecmem.Props.c82_append_runs",
    "Vecmem.Props.c82_rows",
    "Vecmem.Props.c82_rows_runs",
    "Vecmem.Props.c82_access",
    "Vecmem.Props.c82_access_runs",
    "Vecmem.Props.c82_step_inv",
    "Vecmem.Props.c82_reach",
    "Vecmem.Props.c82_pipelines",
    "Vecmem.Props.c82_goes_on",
    "Vecmem.Props.c82_deterministic",
    "Vecmem.Props.c82_elements_stay_together"
   ],
   "note": "hypotheses on programs as in C81; reads of the views and sizes of the inputs are left out of the weak memory"
  },
  {
   "property": "C83",
   "status": "proved",
   "theorems": [
    "Vecmem.Props.c83_append",
    "Vecmem.Props.c83_append_runs",
    "Vecmem.Props.c83_step_inv",
    "Vecmem.Props.c83_reach",
    "Vecmem.Props.c83_pipelines",
    "Vecmem.Props.c83_goes_on",
    "Vecmem.Props.c83_parallel_binning",
    "Vecmem.Props.c83_flatten"
   ],
   "note": "hypotheses on programs as in C79; reads of the views and sizes of the inputs are left out of the weak memory"
  },
  {
   "property": "C84",
   "status": "partial",
   "theorems": [
    "Vecmem.Props.c84_pushes_contained",
    "Vecmem.Props.c84_contained_partial",
    "Vecmem.Props.c84_caught_partial",
    "Vecmem.Props.c84_stopped_partial",
    "Vecmem.Props.c84_others_unharmed_partial",
    "Vecmem.Props.c84_rows_pushes_contained",
    "Vecmem.Props.c84_rows_contained_partial",
    "Vecmem.Props.c84_rows_caught_partial",
    "Vecmem.Props.c84_wrap",
    "Vecmem.Props.c84_release"
   ],
   "note": "in full for calls that append one element; bulk_append: if the sum of the size and the counts does not wrap, otherwise false (c84_wrap)"
  },
  {
   "property": "C85",
   "status": "proved",
   "theorems": [
    "Vecmem.Props.c85_access",
    "Vecmem.Props.c85_access_runs",
    "Vecmem.Props.c85_step_inv",
    "Vecmem.Props.c85_inv",
    "Vecmem.Props.c85_pipelines",
    "Vecmem.Props.c85_goes_on",
    "Vecmem.Props.c85_transform",
    "Vecmem.Props.c85_update_rows"
   ],
   "note": "hypotheses on programs as in C79; reads of the views and sizes are left out of the weak memory, as in C83"
  },
  {
   "property": "C86",
   "status": "proved",
   "theorems": [
    "Vecmem.Props.c86_one_after_other",
    "Vecmem.Props.c86_watch",
    "Vecmem.Props.c86_tickets",
    "Vecmem.Props.c86_watch_counter",
    "Vecmem.Props.c86_counters",
    "Vecmem.Props.c86_ends",
    "Vecmem.Props.c86_histogram"
   ],
   "note": "on the memory model of C73; for the POSIX, CUDA, HIP and both SYCL references (the dummy reference is not atomic, C46)"
  },
  {
   "property": "C87",
   "status": "proved",
   "theorems": [
    "Vecmem.Props.c87_numbers",
    "Vecmem.Props.c87_count",
    "Vecmem.Props.c87_count_runs",
    "Vecmem.Props.c87_pipelines",
    "Vecmem.Props.c87_goes_on",
    "Vecmem.Props.c87_histogram"
   ],
   "note": "on the memory model of C73; element type of four bytes; for the POSIX, CUDA, HIP and both SYCL references"
  },
  {
   "property": "C88",
   "status": "proved",
   "theorems": [
    "Vecmem.Props.c88_loops",
    "Vecmem.Props.c88_any_order",
    "Vecmem.Props.c88_runs",
    "Vecmem.Props.c88_max",
    "Vecmem.Props.c88_atomic_class_false"
   ],
   "note": "on the memory model of C73; the class vecmem::atomic is not part of the property, for it such loops are wrong (c88_atomic_class_false); loops with any bound on the number of tries; for the POSIX, CUDA, HIP and both SYCL references"
  }
 ]
}