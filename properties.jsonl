{"id": "C01", "title": "Contiguous resource never hands out overlapping, misaligned or out-of-range memory", "statement": "Every non-zero allocation served by a contiguous_memory_resource starts at a multiple of the requested (power of two) alignment, lies completely inside the single block taken from upstream at construction, and does not overlap any allocation served before, deallocated or not.", "quantifier": "all upstream block positions and sizes, all histories of allocate/deallocate calls with any sizes and power-of-two alignments", "why_tests_cant": "the padding depends on the numeric base address and on the whole preceding history; tests see a handful of addresses", "anchors": ["core/src/memory/details/contiguous_memory_resource_impl.cpp: allocate, deallocate, constructor"]}
{"id": "C02", "title": "Contiguous resource fails exactly when the request does not fit, and failure is harmless", "statement": "allocate throws bad_alloc exactly when no aligned placement of the request fits behind the bump position; a failed request leaves the resource in the same state, so later requests are served as if it had not been made; deallocate has no effect; the destructor returns the one upstream block with the size it was requested with.", "quantifier": "all histories and request sizes/alignments", "why_tests_cant": "needs all boundary positions and all histories with failures interleaved", "anchors": ["core/src/memory/details/contiguous_memory_resource_impl.cpp: allocate, deallocate, constructor, destructor"]}
{"id": "C03", "title": "Pool resource: live blocks are disjoint, large enough and aligned", "statement": "For every history of correct allocate/deallocate calls on a pool_memory_resource over a well-behaved upstream, each block returned is at least as large as requested, aligned as requested, disjoint from every other live block, and lies inside memory currently held from upstream; no call on such a history runs into undefined behaviour.", "quantifier": "all consistent option sets (accepted by the constructor, products of the limits not overflowing, first chunks not empty; C05 shows what the constructor lets through beyond these), all well-behaved upstreams, all client histories (small, oversized and over-aligned requests mixed, alignments up to 2^61, with and without caching, with and without assertions)", "why_tests_cant": "reuse of free lists and of the oversized cache depends on the complete history", "anchors": ["core/src/memory/details/pool_memory_resource_impl.cpp: allocate, deallocate", "core/include/vecmem/memory/pool_memory_resource.hpp: options"]}
{"id": "C04", "title": "Pool resource gives every upstream block back exactly once", "statement": "When a pool_memory_resource is destroyed after its clients returned their blocks, every block it obtained from upstream has been returned exactly once, with the size and alignment it was requested with.", "quantifier": "all consistent option sets (accepted by the constructor, products of the limits not overflowing, first chunks not empty; C05 shows what the constructor lets through beyond these), all well-behaved upstreams, all client histories (small, oversized and over-aligned requests mixed, alignments up to 2^61, with and without caching, with and without assertions)", "why_tests_cant": "a leak or a double return shows up only for particular orders of oversized allocation, caching and destruction", "anchors": ["core/src/memory/details/pool_memory_resource_impl.cpp: ~pool_memory_resource_impl, allocate, deallocate"]}
{"id": "C05", "title": "Pool options accepted by the constructor keep chunk requests within the configured limits", "statement": "Every set of options that the pool constructor accepts leads only to upstream chunk requests whose block count and byte size lie between the configured minimum and maximum, and the internal consistency assertions never fire.", "quantifier": "all option sets, all bucket sizes, all growth histories", "why_tests_cant": "the option space is eight 64-bit integers; corner cases are non-multiples and tiny minima", "anchors": ["core/src/memory/details/pool_memory_resource_impl.cpp: check_valid, constructor, allocate"]}
{"id": "C06", "title": "Pool resource respects the cache cutoff factors", "statement": "A cached oversized block is reused for a request only if its size and alignment exceed the requested ones by less than the configured cutoff factors.", "quantifier": "all cache contents and requests", "why_tests_cant": "depends on the joint ordering of sizes and alignments in the cache", "anchors": ["core/src/memory/details/pool_memory_resource_impl.cpp: allocate", "core/include/vecmem/memory/pool_memory_resource.hpp: cached_size_cutoff_factor, cached_alignment_cutoff_factor"]}
{"id": "C07", "title": "Binary page resource: live blocks are disjoint and large enough", "statement": "For every history of correct allocate/deallocate calls on a binary_page_memory_resource over a well-behaved upstream, each block returned is at least as large as requested, lies inside memory held from upstream, and is disjoint from every other live block; no internal assertion fires and no undefined behaviour is reached.", "quantifier": "all well-behaved upstreams, all client histories, all sizes up to 2^63", "why_tests_cant": "splitting and merging of pages depends on the complete history of sizes", "anchors": ["core/src/memory/details/binary_page_memory_resource_impl.cpp: allocate, deallocate, find_free_page, split, unsplit"]}
{"id": "C08", "title": "Binary page resource merges freed memory completely", "statement": "Freed buddies are merged eagerly: whenever all client blocks have been returned, every chunk held from upstream is one single free page again, so that any request not larger than the largest chunk held is then served without going to upstream.", "quantifier": "all client histories ending with no live block", "why_tests_cant": "fragmentation bugs need specific orders of frees in deep page trees", "anchors": ["core/src/memory/details/binary_page_memory_resource_impl.cpp: deallocate, unsplit, find_free_page"]}
{"id": "C09", "title": "Binary page resource honours alignment", "statement": "Blocks returned by a binary_page_memory_resource are aligned to the requested alignment.", "quantifier": "all requests and upstream base addresses", "why_tests_cant": "depends on the numeric base address returned by upstream", "anchors": ["core/src/memory/details/binary_page_memory_resource_impl.cpp: allocate, get_addr, superpage constructor"]}
{"id": "C10", "title": "Arena resource: live blocks are disjoint and large enough", "statement": "For every history of correct allocate/deallocate calls on an arena_memory_resource over a well-behaved upstream, each block returned is at least as large as requested and disjoint from every other live block.", "quantifier": "all initial sizes, upstreams and client histories", "why_tests_cant": "coalescing of neighbouring blocks depends on history and on where upstream places superblocks", "anchors": ["core/src/memory/details/arena_memory_resource_impl.cpp: allocate, deallocate, first_fit, coalesce_block, get_block, expand_arena"]}
{"id": "C11", "title": "Arena resource serves or refuses every non-zero request explicitly", "statement": "A non-zero request to an arena_memory_resource either returns a usable block or throws; it never silently returns a null pointer, and the configured maximum size is not exceeded.", "quantifier": "all initial and maximum sizes and all request sizes", "why_tests_cant": "needs requests larger than the superblock size and long expansion histories", "anchors": ["core/src/memory/details/arena_memory_resource_impl.cpp: get_block, expand_arena", "core/include/vecmem/memory/arena_memory_resource.hpp"]}
{"id": "C12", "title": "Arena resource can always take blocks back, and returns superblocks intact", "statement": "Deallocating a live block is always defined, and destroying the arena returns to upstream exactly the superblocks taken from it, each with its original address and size.", "quantifier": "all client histories", "why_tests_cant": "the failing states (arena completely handed out, neighbouring superblocks) need particular histories and addresses", "anchors": ["core/src/memory/details/arena_memory_resource_impl.cpp: deallocate, coalesce_block, ~arena_memory_resource_impl"]}
{"id": "C13", "title": "Debug resource accepts exactly the correct histories", "statement": "A debug_memory_resource over a correct upstream is transparent for correct clients, and throws logic_error for exactly those deallocations that do not match a live allocation in address, size and alignment (double free, wrong size, foreign pointer); it throws on an allocation exactly when upstream returned memory overlapping a live allocation.", "quantifier": "all histories, correct or not, and all upstream behaviours", "why_tests_cant": "quantifies over every incorrect client and upstream", "anchors": ["core/src/memory/details/debug_memory_resource_impl.cpp: allocate, deallocate"]}
{"id": "C14", "title": "Choice resource routes allocation and deallocation alike", "statement": "A choice_memory_resource forwards each non-zero request to the resource its decision function names for that size and alignment and gives a live block back to the resource that served it, even if the decision function answers differently later.", "quantifier": "all decision functions (including stateful ones), all upstreams and histories", "why_tests_cant": "decision functions and histories are unbounded", "anchors": ["core/src/memory/details/choice_memory_resource_impl.cpp: allocate, deallocate"]}
{"id": "C15", "title": "Coalescing resource uses the first upstream that can serve, and frees to the same one", "statement": "A coalescing_memory_resource serves a request from the first upstream in its list that does not throw bad_alloc, throws bad_alloc only if all do, and deallocates each live block through exactly the upstream that served it.", "quantifier": "all lists of upstreams, all histories", "why_tests_cant": "requires failures of arbitrary subsets of upstreams at arbitrary times", "anchors": ["core/src/memory/details/coalescing_memory_resource_impl.cpp: allocate, deallocate"]}
{"id": "C16", "title": "Conditional resource filters by its predicate and nothing else", "statement": "A conditional_memory_resource forwards a non-zero request unchanged when its predicate accepts it and throws bad_alloc without touching upstream otherwise; deallocations are forwarded unchanged.", "quantifier": "all predicates, upstreams and histories", "why_tests_cant": "quantifies over all predicates", "anchors": ["core/src/memory/details/conditional_memory_resource_impl.cpp: allocate, deallocate"]}
{"id": "C17", "title": "Identity is transparent, terminal refuses everything", "statement": "An identity_memory_resource produces for every history exactly the results and upstream effects of using the upstream directly (zero-byte requests and null deallocations excepted, which do not reach upstream); a terminal_memory_resource throws bad_alloc for every non-zero request and ignores deallocations.", "quantifier": "all histories", "why_tests_cant": "observational equivalence over all histories", "anchors": ["core/src/memory/identity_memory_resource.cpp", "core/src/memory/terminal_memory_resource.cpp"]}
{"id": "C18", "title": "Instrumenting resource records every call once, in order, without changing behaviour", "statement": "An instrumenting_memory_resource returns and throws exactly what upstream does, records exactly one event per non-zero allocation attempt (also failed ones, with a null pointer) and per non-null deallocation, in call order, and calls the registered hooks once per event in registration order, pre-hooks before and post-hooks after the upstream call.", "quantifier": "all histories, hook lists and upstreams", "why_tests_cant": "event log equality over unbounded histories", "anchors": ["core/src/memory/details/instrumenting_memory_resource_impl.cpp: allocate, deallocate, add_*_hook"]}
{"id": "C19", "title": "Memory monitor totals equal the live memory", "statement": "A memory_monitor attached to an instrumenting resource reports after every correct history: total_allocation = sum of all successful allocation sizes, outstanding_allocation = sum of sizes of live blocks, maximal_allocation = the maximum of outstanding over the history, and average_allocation consistent with the number of allocations.", "quantifier": "all correct histories", "why_tests_cant": "running totals and peaks over unbounded histories", "anchors": ["core/src/utils/memory_monitor.cpp: post_allocate, pre_deallocate, total_allocation, outstanding_allocation, average_allocation, maximal_allocation"]}
{"id": "C20", "title": "Synchronized resource serialises upstream calls", "statement": "Under every interleaving of threads calling a synchronized_memory_resource, at most one call is inside upstream at any time, and the calls take effect as one sequential history in which every thread's calls keep their program order and get the results of that history.", "quantifier": "all numbers of threads, programs and schedules", "why_tests_cant": "schedules cannot be enumerated by tests", "anchors": ["core/src/memory/synchronized_memory_resource.cpp: do_allocate, do_deallocate, copy constructor, do_is_equal"]}
{"id": "C21", "title": "Zero-size and null conventions", "statement": "For each downstream resource, allocating zero bytes returns a null pointer without any upstream effect and without changing later behaviour, and deallocating a null pointer is a no-op.", "quantifier": "all resources, states and arguments", "why_tests_cant": "must hold in every state of every resource", "anchors": ["core/src/memory/details/memory_resource_impl.hpp: VECMEM_MEMORY_RESOURCE_PIMPL_IMPL"]}
{"id": "C22", "title": "Host resource returns sufficiently large aligned memory and frees the right pointer", "statement": "host_memory_resource returns a pointer aligned to the requested power-of-two alignment with at least the requested bytes inside the block obtained from the C library, and deallocation passes the C library exactly the pointer it returned, for every request size.", "quantifier": "all sizes and power-of-two alignments, all malloc results", "why_tests_cant": "arithmetic near the top of the size range and arbitrary malloc addresses", "anchors": ["core/src/memory/host_memory_resource.cpp: do_allocate, do_deallocate"]}
{"id": "C23", "title": "Integer helpers are exact", "statement": "is_power_of_2, log2, log2_ri and round_up compute the power-of-two test, floor and ceiling of the base-2 logarithm and the exponent of the next power of two for every argument in their domain.", "quantifier": "all 64-bit arguments in the domain", "why_tests_cant": "2^64 arguments", "anchors": ["core/src/utils/integer_math.hpp: is_power_of_2, clzl, log2, log2_ri, round_up"]}
{"id": "C24", "title": "is_aligned decides alignment", "statement": "is_aligned(p, a) returns true exactly when the address is a multiple of the power-of-two alignment a.", "quantifier": "all addresses and alignments", "why_tests_cant": "all 64-bit pairs", "anchors": ["core/src/memory/details/is_aligned.cpp: is_aligned"]}
{"id": "C25", "title": "Stacks of resources are as safe as their parts", "statement": "Any stack built from the correct downstream resources (pool, contiguous, binary page, choice, coalescing, conditional, debug, identity, instrumenting) over a well-behaved base resource is again well-behaved: live blocks are disjoint, large enough and aligned, and correct histories never reach undefined behaviour.", "quantifier": "all finite stacks, all histories", "why_tests_cant": "combinations of resources and histories are unbounded", "anchors": ["core/src/memory/: all *_memory_resource.cpp"]}
{"id": "C26", "title": "Multi-array placement: regions are aligned, disjoint and in bounds", "statement": "aligned_multiple_placement returns for every list of element types and counts start pointers such that every non-empty region is aligned for its type, lies in the allocated block, and regions are disjoint and in order; empty regions get null; the internal assertion never fires.", "quantifier": "all lists of (size, alignment, count) without 64-bit overflow of the total, all base addresses returned by upstream", "why_tests_cant": "numeric base address and arbitrary type lists", "anchors": ["core/include/vecmem/containers/impl/aligned_multiple_placement.ipp: aligned_multiple_placement, aligned_multiple_placement_helper"]}
{"id": "C27", "title": "Vector buffers: size word and payload do not alias", "statement": "A vector_buffer of any capacity, fixed or resizable, exposes a payload array of the given capacity, aligned and inside its own allocation, and, if resizable, a size word that is aligned and disjoint from the payload; capacity zero exposes only null pointers.", "quantifier": "all capacities, element types and base addresses", "why_tests_cant": "numeric base address", "anchors": ["core/include/vecmem/containers/impl/vector_buffer.ipp: vector_buffer constructors"]}
{"id": "C28", "title": "Jagged buffers: inner vectors are disjoint and have the requested capacities", "statement": "A jagged_vector_buffer for any list of capacities exposes one inner vector per capacity, in order, with exactly this capacity; inner payloads are disjoint, in bounds, contiguous; for resizable buffers each inner vector has its own size word, disjoint from all payloads and other size words.", "quantifier": "all capacity lists (zeros included), element types and base addresses", "why_tests_cant": "unbounded capacity lists", "anchors": ["core/include/vecmem/containers/impl/jagged_vector_buffer.ipp: constructors"]}
{"id": "C29", "title": "device_vector behaves like a bounded list", "statement": "Used from one thread, every sequence of device_vector operations (push_back, emplace_back, bulk_append, pop_back, clear, resize, assign, element access, iteration) within the capacity gives the results and contents of the same operations on a list; the pushed element's index is returned; elements outside the affected range are unchanged.", "quantifier": "all operation sequences, capacities and element values", "why_tests_cant": "refinement over unbounded operation sequences", "anchors": ["core/include/vecmem/containers/impl/device_vector.ipp: push_back, emplace_back, bulk_append, pop_back, clear, resize, assign, at, size"]}
{"id": "C30", "title": "Concurrent push_back/bulk_append lose and duplicate nothing", "statement": "If any number of threads append to one resizable device_vector concurrently and the total fits the capacity, then after all have finished the size is the old size plus the number of appended elements, every call got a distinct index (range), every appended element is at its returned index, and the old elements are unchanged.", "quantifier": "all numbers of threads, programs and interleavings of the atomic steps", "why_tests_cant": "interleavings cannot be enumerated", "anchors": ["core/include/vecmem/containers/impl/device_vector.ipp: push_back, emplace_back, bulk_append", "core/include/vecmem/memory/impl/posix_device_atomic_ref.ipp: fetch_add"]}
{"id": "C31", "title": "Appending beyond the capacity is contained", "statement": "Appending to a full device_vector does not write outside its payload and does not make size() exceed capacity().", "quantifier": "all states and operation sequences, concurrent or not", "why_tests_cant": "needs full-vector states and all schedules; in release builds the checks are compiled out", "anchors": ["core/include/vecmem/containers/impl/device_vector.ipp: push_back, bulk_append, pop_back"]}
{"id": "C32", "title": "static_vector behaves like a bounded list", "statement": "Every sequence of static_vector operations within the capacity (push_back, emplace_back, insert in all forms, erase in all forms, pop_back, clear, resize, assign, copy) gives the contents, sizes and returned positions of the same operations on a list, whatever argument values are passed, including references to elements of the vector itself.", "quantifier": "all operation sequences, capacities, positions and values", "why_tests_cant": "refinement over unbounded operation sequences and aliasing patterns", "anchors": ["core/include/vecmem/containers/static_vector.hpp", "core/include/vecmem/containers/impl/static_vector.ipp: insert, emplace, erase, assign, resize"]}
{"id": "C33", "title": "static_vector constructs and destroys each element exactly once", "statement": "Over the life of static_vectors (construction, copy, assignment, modification, destruction) no element is destroyed that was not constructed, none is destroyed twice and none is forgotten.", "quantifier": "all operation sequences", "why_tests_cant": "lifetime errors are invisible for trivial types and only some histories expose them", "anchors": ["core/include/vecmem/containers/impl/static_vector.ipp: constructors, assign, clear, destruct, construct"]}
{"id": "C34", "title": "Fixed-size arrays and reverse iteration", "statement": "static_arrays compare equal exactly when all their elements are equal; at() of static_array and of vecmem::array throws exactly for out-of-range positions; fill sets every element; device_array presents the elements of its view; and iterating any device container from rbegin to rend visits its elements in exactly reversed order.", "quantifier": "all sizes, contents and positions", "why_tests_cant": "all contents", "anchors": ["core/include/vecmem/containers/impl/static_array.ipp", "core/include/vecmem/containers/impl/array.ipp", "core/include/vecmem/containers/impl/device_array.ipp", "core/include/vecmem/containers/details/reverse_iterator.hpp", "core/include/vecmem/containers/impl/reverse_iterator.ipp"]}
{"id": "C35", "title": "Jagged views present the host container faithfully", "statement": "get_data on a jagged vector produces a view through which a jagged_device_vector reads, for all positions, exactly the elements of the host vector of vectors, with equal outer and inner sizes. Writing through it changes the host vectors accordingly, and operations on one row never affect another.", "quantifier": "all jagged contents, positions and programs of operations on the rows", "why_tests_cant": "unbounded shapes including empty rows", "anchors": ["core/include/vecmem/containers/impl/jagged_vector.ipp: get_data", "core/include/vecmem/containers/impl/jagged_vector_data.ipp", "core/include/vecmem/containers/impl/jagged_device_vector.ipp"]}
{"id": "C36", "title": "Owning pointers construct, destroy and free exactly once with matching arguments", "statement": "For every make_unique_obj/make_unique_alloc pointer, destruction destroys each element constructed by the factory exactly once (none for make_unique_alloc) and then returns the memory once to the same resource with the pointer, size and alignment of its allocation; moved-from and released pointers do nothing.", "quantifier": "all element counts, resources and sequences of move/reset/release/destroy", "why_tests_cant": "histories of ownership transfers", "anchors": ["core/include/vecmem/memory/unique_ptr.hpp", "core/include/vecmem/memory/details/unique_obj_deleter.hpp", "core/include/vecmem/memory/details/unique_alloc_deleter.hpp"]}
{"id": "C37", "title": "Copying one-dimensional vectors is exact", "statement": "copy(from, to) makes the target hold exactly the source's elements and, if resizable, its size, for every source size not above the target capacity; it throws length_error otherwise, leaving the target unchanged; to() and copies into std::vector reproduce the source; nothing outside the target is written.", "quantifier": "all memory contents, sizes, capacities and fixed/resizable combinations", "why_tests_cant": "all contents, and special cases such as empty sources into non-empty targets", "anchors": ["core/include/vecmem/utils/impl/copy.ipp: operator(), copy_view_impl, to, get_size, setup"]}
{"id": "C38", "title": "Copying jagged vectors is exact", "statement": "copy(from, to) on jagged views of equal outer size makes every inner target vector hold exactly the inner source vector's elements, whether or not either side is contiguous, and throws length_error when sizes cannot fit; nothing outside the target's payload and size words is written.", "quantifier": "all shapes, layouts (contiguous or not), fixed/resizable combinations and contents", "why_tests_cant": "the fast path for contiguous memory must agree with the slow path for every layout", "anchors": ["core/include/vecmem/utils/impl/copy.ipp: jagged operator(), copy_view_impl (jagged), copy_views_impl, copy_views_contiguous_impl, is_contiguous"]}
{"id": "C39", "title": "Jagged sizes can be read and set", "statement": "get_sizes returns the current inner sizes and set_sizes followed by get_sizes returns what was set, for every resizable jagged buffer and size list within the capacities; set_sizes throws length_error in every other case and then changes nothing.", "quantifier": "all capacity lists, size lists and fixed/resizable mixtures", "why_tests_cant": "zero capacities and mixtures in all positions", "anchors": ["core/include/vecmem/utils/impl/copy.ipp: get_sizes, set_sizes, get_sizes_impl"]}
{"id": "C40", "title": "setup makes buffers valid and empty; memset fills exactly the payload", "statement": "After setup every resizable vector, jagged vector or container buffer has size zero (all inner sizes zero) and the device descriptors equal the host descriptors; memset sets every payload byte and nothing else.", "quantifier": "all buffer shapes, zero capacities included, all prior memory contents", "why_tests_cant": "all shapes and prior contents", "anchors": ["core/include/vecmem/utils/impl/copy.ipp: setup, memset, memset_impl"]}
{"id": "C41", "title": "Asynchronous copies equal synchronous ones once waited for", "statement": "For every sequence of operations issued to an asynchronous copy object on one stream, waiting for the event of an operation makes the effects of it and of all earlier operations on the stream visible, in issue order, with the data the source held when the operation executed; waiting repeatedly is harmless; destroying an event without waiting never loses the operation.", "quantifier": "all operation sequences, schedules of device progress and wait patterns", "why_tests_cant": "device progress is nondeterministic", "anchors": ["cuda/src/utils/cuda/async_copy.cpp", "sycl/src/utils/sycl/async_copy.sycl", "core/include/vecmem/utils/abstract_event.hpp"]}
{"id": "C42", "title": "EDM buffers: every variable gets its own correct region", "statement": "A container buffer of any schema and capacities exposes for each variable a region of the right size and alignment inside the allocation; all regions, size words and layouts are disjoint.", "quantifier": "all schemas (scalars, vectors, jagged vectors mixed), capacity lists and base addresses", "why_tests_cant": "all schemas", "anchors": ["core/include/vecmem/edm/impl/buffer.ipp: setup_fixed, setup_resizable", "core/include/vecmem/edm/details/buffer_traits.hpp"]}
{"id": "C43", "title": "EDM host containers keep one size", "statement": "After resize(n) a host container reports size n and all vector variables have n elements, old elements preserved; size() throws length_error exactly when vector variables have different sizes; reserve changes no contents; at(i) throws exactly when i is out of range.", "quantifier": "all schemas, contents and sizes", "why_tests_cant": "all schemas and histories", "anchors": ["core/include/vecmem/edm/details/host_traits.hpp", "core/include/vecmem/edm/impl/host.ipp"]}
{"id": "C44", "title": "Copying EDM containers is exact", "statement": "copy(from, to) between container views of one schema makes every variable of the target equal to the source's, the same whether the single-block fast path or the per-variable path is taken, and throws length_error if the target cannot hold the source.", "quantifier": "all schemas, capacities, contents and resizability combinations", "why_tests_cant": "the fast path is chosen by byte counts only; agreement must hold for all layouts", "anchors": ["core/include/vecmem/utils/impl/copy.ipp: edm operator(), copy_payload_impl, copy_sizes_impl"]}
{"id": "C45", "title": "EDM push_back_default is safe under concurrency", "statement": "Concurrent push_back_default calls on one resizable device container return distinct consecutive indices, and afterwards every vector variable has a default element at each of them, other elements are unchanged and the size has grown by the number of calls.", "quantifier": "all schemas, numbers of threads and interleavings", "why_tests_cant": "interleavings cannot be enumerated", "anchors": ["core/include/vecmem/edm/impl/device.ipp: push_back_default, size, construct_default"]}
{"id": "C46", "title": "Atomic read-modify-write operations are atomic", "statement": "Each fetch_add/sub/and/or/xor/exchange on a device atomic reference takes effect as one indivisible update of the current value under every interleaving of threads, returning the value it replaced, with modular arithmetic.", "quantifier": "all operand values, numbers of threads and interleavings, for each implementation the library may select", "why_tests_cant": "interleavings cannot be enumerated", "anchors": ["core/include/vecmem/memory/impl/posix_device_atomic_ref.ipp", "core/include/vecmem/memory/impl/dummy_device_atomic_ref.ipp", "core/include/vecmem/memory/impl/cuda_device_atomic_ref.ipp", "core/include/vecmem/memory/impl/atomic.ipp"]}
{"id": "C47", "title": "compare_exchange_strong follows its contract", "statement": "compare_exchange_strong(expected, desired) returns true and stores desired exactly when the current value equals expected; otherwise it returns false, stores nothing and puts the current value into expected.", "quantifier": "all values, each implementation", "why_tests_cant": "all value triples including zero", "anchors": ["core/include/vecmem/memory/impl/atomic.ipp: compare_exchange_strong", "core/include/vecmem/memory/impl/cuda_device_atomic_ref.ipp", "core/include/vecmem/memory/impl/posix_device_atomic_ref.ipp"]}
{"id": "C48", "title": "Device selection is restored", "statement": "After any properly nested use of memory resources and copies bound to devices, the calling thread's current device is what it was before, also if an operation throws.", "quantifier": "all nestings and device numbers", "why_tests_cant": "arbitrary nesting and exceptions", "anchors": ["cuda/src/utils/select_device.cpp", "hip/src/utils/select_device.cpp", "hip/src/utils/run_on_device.hpp"]}
{"id": "C49", "title": "Object allocator pairs construction and deallocation", "statement": "vecmem::allocator::new_object/delete_object and allocate_object/deallocate_object request and return memory with matching size and alignment, sufficient for the objects, for every element count; a count whose byte size is not representable is refused.", "quantifier": "all types (size, alignment) and counts", "why_tests_cant": "counts near 2^64", "anchors": ["core/include/vecmem/memory/impl/allocator.ipp", "core/src/memory/allocator.cpp"]}
{"id": "C50", "title": "Resource equality is an equivalence that implies interchangeability", "statement": "is_equal on memory resources is reflexive and symmetric, and equal resources can deallocate each other's memory.", "quantifier": "all pairs of resources", "why_tests_cant": "all pairs of dynamic types and states", "anchors": ["core/src/memory/details/memory_resource_base.cpp: do_is_equal", "core/src/memory/synchronized_memory_resource.cpp: do_is_equal", "core/src/memory/host_memory_resource.cpp: do_is_equal", "cuda/src/memory/device_memory_resource.cpp: do_is_equal"]}
{"id": "C51", "title": "Binary page resource returns all its memory on destruction", "statement": "Destroying a binary_page_memory_resource, in any state and whatever its clients still hold, gives every chunk taken from upstream back exactly once with the size and alignment it was requested with; afterwards upstream's live blocks are exactly those of its other clients.", "quantifier": "all well-behaved upstreams, all client histories", "why_tests_cant": "must hold after every history of chunk acquisitions", "anchors": ["core/src/memory/details/binary_page_memory_resource_impl.hpp: superpage::memory", "core/src/memory/details/binary_page_memory_resource_impl.cpp: superpage::superpage"]}
{"id": "C52", "title": "Owning pointer factories give sufficient, aligned memory and leak nothing", "statement": "Every object or array made by make_unique_obj/make_unique_alloc lies in memory that is large enough and aligned for its type; counts whose byte size is not representable are refused; if a constructor throws, the objects constructed before are destroyed and the memory is returned.", "quantifier": "all types (size, alignment), counts, resources and positions of a throwing constructor", "why_tests_cant": "numeric addresses, counts near 2^64, and every position of an exception", "anchors": ["core/include/vecmem/memory/unique_ptr.hpp: make_unique_obj, make_unique_alloc"]}
{"id": "C53", "title": "static_vector stores its elements where their type allows", "statement": "Every element of a static_vector is stored at an address that its type's alignment allows, wherever the vector itself is legally placed.", "quantifier": "all element types, capacities, placements of the vector and positions", "why_tests_cant": "misalignment shows up only for particular types, addresses and processors, usually as nothing at all", "anchors": ["core/include/vecmem/containers/static_vector.hpp: array_type, m_elements", "core/include/vecmem/containers/details/static_vector_traits.hpp: static_vector_type"]}
{"id": "C54", "title": "A container proxy refers to one element of every variable", "statement": "The proxy that at(i) or operator[](i) of a host container returns refers to the i-th element of each vector variable, the i-th row of each jagged variable and the scalars; assigning through it changes exactly that value, and an index that is not valid for every vector is refused with an exception.", "quantifier": "all schemas, container contents and sizes (also different sizes per variable), indices, variables and assigned values", "why_tests_cant": "a proxy is built by a recursion over an arbitrary list of variable types, and aliasing must be excluded for every pair of variables and elements", "anchors": ["core/include/vecmem/edm/details/proxy_traits.hpp: proxy_var_type, proxy_data_creator", "core/include/vecmem/edm/impl/host.ipp: at, operator[]", "core/include/vecmem/edm/impl/proxy.ipp: get"]}
{"id": "C55", "title": "Programs with many memory resources, sharing upstreams", "statement": "In a program that creates memory resources over base resources and over each other - several of them possibly sharing an upstream - uses all of them, and destroys each one once nothing depends on it any more, every block that any resource hands out is large enough, aligned and disjoint from the live blocks of all resources; requests succeed or are refused with bad_alloc, deallocations, constructions (unless there is no memory) and destructions succeed; no call affects the existence of another resource; and when all resources have been destroyed, the base resources hold only the blocks that the program itself obtained from them.", "quantifier": "all programs: all finite or infinite families of resources, all upstream relations without cycles, all interleavings of creations, destructions, requests and deallocations, all well-behaved base resources; pools, page resources and arenas in the configurations in which each of them alone keeps its contract", "why_tests_cant": "resources that share an upstream interact through the order of all their calls; tests use one resource or one chain at a time", "anchors": ["core/src/memory/details/*_impl.cpp: constructors, destructors, allocate, deallocate", "core/include/vecmem/memory/*_memory_resource.hpp: constructors taking upstream memory_resource references"]}
{"id": "C56", "title": "Moving memory resources", "statement": "A memory resource that is moved, by move construction or assignment, carries its state and memory along: the new object answers every call as the old one would have done, blocks obtained from the old object can be returned to the new one, the resource that an assignment replaces is destroyed and returns its memory upstream once, self-assignment changes nothing, moved-from objects can be destroyed or assigned to and still treat empty requests and null as harmless, and after the destruction of all objects no upstream memory is lost - in programs that do not move, replace or destroy an object while another resource is built over it.", "quantifier": "all programs of constructions, moves, assignments, destructions and calls on any number of objects over each other and over well-behaved base resources", "why_tests_cant": "ownership has to be right for every order of moves, and upstream references to objects must stay valid for every history", "anchors": ["core/src/memory/details/memory_resource_impl.hpp: VECMEM_MEMORY_RESOURCE_PIMPL_IMPL", "core/include/vecmem/memory/*_memory_resource.hpp: move constructors and assignments"]}
{"id": "C57", "title": "Wrappers of CUDA streams and SYCL queues are values", "statement": "A stream or queue wrapper refers to the stream or queue it was made with, made for or last assigned; copies and moves of it refer to the same one; a stream made by a wrapper stays alive as long as some owning copy exists and is destroyed exactly once, when the last owner is gone; streams and queues that the program brought along are never destroyed; self-assignment changes nothing.", "quantifier": "all programs of constructions, copies, moves, assignments and destructions on any number of wrappers, owning or not", "why_tests_cant": "ownership is passed on along arbitrary chains of copies, moves and assignments, and mistakes show only after a particular history, as another queue being used or as a dangling pointer", "anchors": ["cuda/src/utils/stream_wrapper.cpp: stream_wrapper", "cuda/src/utils/opaque_stream.cpp: opaque_stream", "sycl/src/utils/sycl/queue_wrapper.sycl: queue_wrapper"]}
{"id": "C58", "title": "Memory resources for GPU memory hand out valid memory and work below all other resources", "statement": "The CUDA, HIP and SYCL memory resources for device, host and managed or shared memory, any number of them in one program: every request gives memory that is not null, aligned as asked for and disjoint from all live blocks of all of them, or is refused with std::bad_alloc like in every other memory resource; zero bytes give null; every live block and null can be given back, with the right function, queue and device; resources that are built over them (pools, arenas, coalescing and instrumenting resources ...) work as they do over host memory.", "quantifier": "all runtimes that keep their promises, all families of GPU resources on all devices and queues, all histories of correct calls with failures of the runtime at any point, all programs with resources built over them", "why_tests_cant": "memory is exhausted at arbitrary points of a program, and how an error of the runtime reaches clients depends on the whole stack of resources between them", "anchors": ["cuda/src/memory/*_memory_resource.cpp: do_allocate, do_deallocate", "hip/src/memory/*_memory_resource.cpp: do_allocate, do_deallocate", "sycl/src/memory/*_memory_resource.sycl: do_allocate, do_deallocate", "core/src/memory/details/coalescing_memory_resource_impl.cpp: allocate"]}
{"id": "C59", "title": "Programs with buffers, copies and kernels compute what the same programs on lists compute", "statement": "A program that creates, sets up, fills and destroys any number of vector buffers, copies between them and from and to host vectors, and runs kernels which read buffers and append to (or change) one, behaves as if every buffer were a list of elements: a host vector that a buffer is copied to holds exactly the elements that earlier steps put there, in an order that some interleaving of the kernel's threads explains; no step affects any other buffer; a copy into a buffer that is too small throws and changes nothing; creation may fail and then changes nothing; the memory in use is what the existing buffers own.", "quantifier": "all programs (lists of steps) on any number of buffers of any element types and capacities in any well-behaved resources, all initial contents of memory, all contents of host vectors, all kernels and all schedules of their threads", "why_tests_cant": "an element's way through a program leads through allocation, placement, size words, several copies and concurrent appends, and must be right for all sizes, addresses, schedules and combinations of steps", "anchors": ["core/include/vecmem/containers/data/vector_buffer.hpp: vector_buffer", "core/include/vecmem/utils/copy.hpp: copy", "core/include/vecmem/containers/device_vector.hpp: device_vector"]}
{"id": "C60", "title": "Threads that share memory through a synchronized resource never get overlapping memory", "statement": "Any number of threads allocate and free through one synchronized resource over a well-behaved resource that is not thread safe; blocks may be handed over from thread to thread. At every moment the blocks that threads hold are non-null, aligned, in the address space and pairwise disjoint; calls give memory or bad_alloc, and blocks are always taken back; there is no deadlock; and whenever no call is in progress upstream is as after a sequential history of correct calls, with exactly the held blocks live.", "quantifier": "all well-behaved upstream resources, all numbers of threads, all correct behaviours of threads (which may depend on what they were given), all schedules", "why_tests_cant": "a lost update inside upstream shows only in particular interleavings; all of them, for all histories, must be excluded", "anchors": ["core/src/memory/synchronized_memory_resource.cpp: do_allocate, do_deallocate"]}
{"id": "C61", "title": "The default memory resource can be replaced and put back, by racing threads too", "statement": "Where vecmem supplies get_default_resource and set_default_resource: each call returns the resource installed last before it, which is new_delete_resource() at first and after null was installed, and is never null; the resources that set_default_resource calls return, with the one installed at the end, are exactly the ones that were installed, so that none is lost or returned twice; installing what set_default_resource returned undoes it.", "quantifier": "all interleavings of calls of any number of threads, all resources", "why_tests_cant": "races between threads that replace the default resource", "anchors": ["core/src/memory/default_resource_polyfill.cpp: default_resource, get_default_resource, set_default_resource"]}
{"id": "C62", "title": "Programs with vector buffers and jagged buffers compute what the same programs on lists of rows compute", "statement": "In a program that uses vector buffers and jagged buffers together - creates, sets up, fills and destroys them, copies between them and from and to host vectors, and runs kernels that read any of them and append to (or change) rows of one - every vector buffer behaves as a list of elements and every jagged buffer as a list of rows. Calls of a kernel's threads on all rows take effect one after the other in some order that respects every thread's program. Kernels find, through the array of row views in device memory, the same rows as the host. No step affects another buffer; a copy that does not fit (too many or too few rows, or a row that is too long) throws and changes nothing; the memory in use is what the existing buffers own.", "quantifier": "all programs on any numbers of vector and jagged buffers, any element types, capacities and numbers of rows, resizable or not, with and without a separate host accessible resource, any well-behaved resources, all initial contents of memory, all kernels and all schedules of their threads", "why_tests_cant": "rows share one block, their views are kept twice, in two resources, and size words are packed; whether an element arrives depends on allocation, layout, descriptors, copies and interleavings together, for all shapes", "anchors": ["core/include/vecmem/containers/data/jagged_vector_buffer.hpp: jagged_vector_buffer", "core/include/vecmem/containers/jagged_device_vector.hpp: jagged_device_vector", "core/include/vecmem/utils/copy.hpp: copy"]}
{"id": "C63", "title": "Tuples hold what they were made from, however they are made", "statement": "However a vecmem::tuple is made - from its elements, by converting or copying another tuple, from a first element and a tuple of the others (as the tuples of edm proxies are, via temporary tuples), by tie or by make_tuple - get<I> gives, for an element that is a value, an object of the tuple's own with the value that the I-th source had, and for an element that is a reference, the I-th source itself. Assigning to get<I> of a value changes no other element and nothing outside of the tuple; assigning to get<I> of a reference changes its source only; later changes of sources are seen through references and only through them; through a constant tuple nothing can be changed.", "quantifier": "all numbers and types (value, reference, reference to constant) of elements, all arguments (lvalues, constants, temporaries, the same object several times), all values", "why_tests_cant": "all tuple lengths, mixtures of element types and ways of construction; aliasing between arguments", "anchors": ["core/include/vecmem/utils/tuple.hpp: tuple", "core/include/vecmem/utils/impl/tuple.ipp: get, tie, make_tuple", "core/include/vecmem/edm/details/proxy_traits.hpp: proxy_data_creator"]}
{"id": "C64", "title": "A program that waits only where it must gives what the program that waits everywhere gives", "statement": "Let a program create and destroy buffers, set them up, fill them, copy between them and from and to host arrays, and run kernels, all on one stream, with the host waiting for the events of some of these operations only. If the host itself touches no memory that an operation uses which it has not waited for, then, however the stream progresses, there is no data race, nothing is undefined and nothing blocks; the program ends, and every step has given, the host has read, and memory, buffers and resources are, what they are if each operation is complete when it returns. This holds also when buffers are destroyed, and their memory is handed out again, before the stream has executed the operations on them. A host that waits for (only) a copy to a host array finds there what the buffer holds after all steps before.", "quantifier": "all programs, any numbers of buffers, element types, capacities, well-behaved resources, initial memory, kernels and their schedules, all choices of what to wait for, all interleavings of host and stream", "why_tests_cant": "which operation is pending at which moment depends on the timing of host and device; errors show rarely and only as wrong values", "anchors": ["cuda/src/utils/cuda/async_copy.cpp: async_copy", "core/include/vecmem/utils/copy.hpp: copy", "core/include/vecmem/containers/data/vector_buffer.hpp: vector_buffer"]}
{"id": "C65", "title": "Programs with container buffers compute what their tables say", "statement": "Let a program create and destroy edm::buffers (of fixed size or resizable, with or without jagged vectors, with or without a separate host accessible resource), set them up, fill them, copy between them and from and to edm::host containers, and run kernels on them: kernels that append elements with push_back_default and assign their variables, that append to rows of jagged vectors, that load and store single elements through edm::device without data races, or one thread that calls any operations of the device vectors. Seen as a table - for each variable a list of rows - every container holds after each step, and every step returns, what the step does to tables: nothing else changes. A copy for which a variable is too large throws length_error, with the variables before it copied and those from it on untouched. New elements stay together: the values assigned to one element are found at one index of all variables. A kernel without races leaves the same elements under every schedule. Kernels find the rows that the host finds. At each moment the memory in use is what the existing buffers own, and no two own common memory.", "quantifier": "all programs, any numbers of buffers, schemas, capacities, element types, well-behaved resources, initial memory contents, kernels, and schedules of their threads", "why_tests_cant": "all histories of buffers in one memory and all schedules of kernels; errors of placement, alignment or size words show only as elements of other variables", "anchors": ["core/include/vecmem/edm/buffer.hpp: buffer", "core/include/vecmem/edm/device.hpp: device", "core/include/vecmem/edm/host.hpp: host", "core/include/vecmem/utils/impl/copy.ipp: copy", "core/include/vecmem/containers/impl/device_vector.ipp: device_vector"]}
{"id": "C66", "title": "Programs with container buffers on a stream do what they do if every step is waited for", "statement": "Let a program make edm::buffers, set them up, fill them, copy between them and from and to edm::host containers with an asynchronous copy object, run kernels on the same stream, and destroy the buffers; let the host wait for the events of some of these steps only (there is none of a copy that throws), and read memory. If the host neither writes nor reads memory itself that a step which it has not waited for uses - which includes the host accessible memory that constructors of buffers with jagged vectors write to -, then nothing is ever used by the host and the stream at the same time, nothing is undefined, the program ends, and it gives, reads and leaves in memory and in the resources what the same program gives, reads and leaves if every step is waited for. After the event of a copy to the host was waited for, the host finds the elements of every row of every variable in its arrays.", "quantifier": "all programs, all executions of the stream relative to the host, all schemas, capacities, well-behaved resources, initial memory contents and kernels", "why_tests_cant": "all interleavings of the host with the stream for all programs; races depend on timing, and on which memory resources give away again", "anchors": ["core/include/vecmem/utils/impl/copy.ipp: copy", "core/include/vecmem/edm/buffer.hpp: buffer", "core/include/vecmem/edm/details/buffer_traits.hpp: buffer_alloc", "cuda/src/utils/cuda/async_copy.cpp: async_copy"]}
{"id": "C67", "title": "Programs with vector buffers and jagged buffers on a stream do what they do if every step is waited for", "statement": "Let a program make vector buffers and jagged vector buffers, set them up, fill them, copy between them and from and to vectors and jagged vectors of the host with an asynchronous copy object, run kernels on the same stream that read any number of these buffers and work on one of them, and destroy the buffers; let the host wait for the events of some of these steps only, and read memory. If the host neither writes nor reads memory itself that a step which it has not waited for uses - which includes the host accessible memory that constructors of jagged buffers write to -, then nothing is ever used by the host and the stream at the same time, nothing is undefined, the program ends, and it gives, reads and leaves in memory and in the resources what the same program gives, reads and leaves if every step is waited for. This includes copies which are refused because a row does not fit: they leave nothing behind on the stream. After the event of a copy to the host was waited for, the host finds the elements of every row in its vectors.", "quantifier": "all programs, all executions of the stream relative to the host, any numbers of buffers and rows, capacities, element types, well-behaved resources, initial memory contents and kernels", "why_tests_cant": "all interleavings of the host with the stream for all programs; races depend on timing, and on which memory resources give away again", "anchors": ["core/include/vecmem/utils/impl/copy.ipp: copy", "core/include/vecmem/containers/data/jagged_vector_buffer.hpp: jagged_vector_buffer", "core/include/vecmem/containers/impl/jagged_vector_buffer.ipp: jagged_vector_buffer", "cuda/src/utils/cuda/async_copy.cpp: async_copy"]}
{"id": "C68", "title": "Moving a buffer takes its contents from one variable to another, and nothing else changes", "statement": "vector_buffer and jagged_vector_buffer are move-only. In a program whose buffers are default-constructed, made with any resources, moved to new variables, move-assigned to existing ones, swapped and destroyed in any order, and are otherwise used as in C62, a move leaves the elements or rows, the size, the capacity and whether the buffer has been set up as they are, in the variable moved to; no memory is allocated or written by it, so pointers and views to the buffer stay valid. What a variable held before it was assigned to is given back, to the resource it came from, exactly once. A variable that has been moved from owns nothing; it may be destroyed, assigned to and moved from again. Assigning a variable to itself changes nothing. At any time the memory in use is exactly what the variables own.", "quantifier": "all programs on any numbers of variables and moves between them in any order, any element types, capacities and numbers of rows, resizable or not, with and without a separate host accessible resource, any well-behaved resources, all initial contents of memory, all kernels and all schedules of their threads", "why_tests_cant": "ownership depends on the whole history of moves; a block that is given back twice, to the wrong resource or never shows only for particular histories", "anchors": ["core/include/vecmem/containers/data/vector_buffer.hpp: vector_buffer(vector_buffer&&), operator=(vector_buffer&&)", "core/include/vecmem/containers/data/jagged_vector_buffer.hpp: jagged_vector_buffer(jagged_vector_buffer&&), operator=(jagged_vector_buffer&&)", "core/include/vecmem/memory/details/unique_alloc_deleter.hpp: unique_alloc_deleter"]}
{"id": "C69", "title": "Views are values, and a view for reading never becomes a view for writing", "statement": "Views of vectors, of jagged vectors and of containers can be copied, assigned, compared, and converted to views for reading (of const elements). A view that is made from another one or assigned another one refers to the same memory: in whatever state memory is, it shows the same elements, sizes, rows, variables and capacities, however long the chain of copies and conversions is; views of rows and of variables that are taken from a view show what it shows there. No chain of conversions leads from a view for reading to one for writing, so that memory of which no view for writing was made is not written to. Two views of vectors or jagged vectors compare equal only if they show the same in every memory, the comparison is an equivalence between views for reading and for writing alike, a copy is equal to its original, and views of different non-empty arrays compare different.", "quantifier": "all programs that make, copy, convert, assign, compare and take apart views and write through them, in any order; all element types and sizes, all schemas of containers with any mixture of const variables, all addresses and all contents of memory", "why_tests_cant": "conversions are chosen by the compiler for every combination of types, and what a view gives access to depends on the whole chain that it comes from and on the rows that are in memory at the time", "anchors": ["core/include/vecmem/containers/data/vector_view.hpp: vector_view", "core/include/vecmem/containers/data/jagged_vector_view.hpp: jagged_vector_view", "core/include/vecmem/edm/view.hpp: edm::view", "core/include/vecmem/utils/type_traits.hpp: is_same_nc", "core/include/vecmem/edm/details/view_traits.hpp: view_type"]}
{"id": "C70", "title": "Moving a container buffer takes its table from one variable to another, and nothing else changes", "statement": "edm::buffer is move-only. In a program whose container buffers are default-constructed, made with any resources, moved to new variables, move-assigned to existing ones, swapped and destroyed in any order, and are otherwise used as in C65, a move leaves the elements of all variables of the container, the size, the capacities and whether the buffer has been set up as they are, in the variable moved to; no memory is allocated or written by it, so pointers and views to the buffer stay valid. What a variable held before it was assigned to is given back, each of its blocks to the resource it came from, exactly once. A variable that has been moved from or was default-constructed owns nothing; it may be destroyed, assigned to and moved from. Assigning a variable to itself changes nothing. At any time the memory in use is exactly what the variables own.", "quantifier": "all programs on any numbers of variables and moves between them in any order, any schemas and capacities, resizable or not, with and without a separate host accessible resource, any well-behaved resources, all initial contents of memory and of default-constructed objects, all kernels and all schedules of their threads", "why_tests_cant": "ownership depends on the whole history of moves; a block that is given back twice, to the wrong resource or never shows only for particular histories", "anchors": ["core/include/vecmem/edm/buffer.hpp: buffer(buffer&&), operator=(buffer&&), buffer()", "core/include/vecmem/edm/impl/buffer.ipp: buffer", "core/include/vecmem/edm/view.hpp: view()", "core/include/vecmem/memory/details/unique_alloc_deleter.hpp: unique_alloc_deleter"]}
{"id": "C71", "title": "When the resources' own bookkeeping runs out of memory, what is in use stays safe", "statement": "The resources that keep records (pool, binary page, arena, debug, instrumenting, choice, coalescing) keep them in standard containers whose memory can be exhausted at any insertion. Whatever insertions fail, in any calls of the lifetime of a resource: a request is answered with a block of the size and alignment asked for that is disjoint from all blocks in use and lies in memory that upstream has handed out and not got back, or with bad_alloc; blocks in use are not touched by a request that is refused; giving back a block succeeds, or throws, and then the block is still in use and can be given back again; the destructor gives back all blocks of upstream.", "quantifier": "all histories of calls, all choices of insertions that fail in each of them, any options, upstream resources and numbers of upstream resources", "why_tests_cant": "the failure of any single insertion at any point of any history would have to be injected; which later calls then go wrong depends on the history after it", "anchors": ["core/src/memory/details/pool_memory_resource_impl.cpp: allocate, deallocate", "core/src/memory/details/binary_page_memory_resource_impl.cpp: allocate, allocate_upstream", "core/src/memory/details/arena_memory_resource_impl.cpp: arena, allocate, deallocate, expand_arena, coalesce_block", "core/src/memory/details/debug_memory_resource_impl.cpp: allocate", "core/src/memory/details/instrumenting_memory_resource_impl.cpp: allocate, deallocate", "core/src/memory/details/choice_memory_resource_impl.cpp: allocate", "core/src/memory/details/coalescing_memory_resource_impl.cpp: allocate"]}
{"id": "C72", "title": "Data objects describe their host containers, in memory of their own, wherever they are moved", "statement": "get_data of a host container (edm::host) with any scalars, vectors and jagged vectors, or of a jagged vector, returns an object that has the address of every scalar, address and size of every vector, and address and size of every row of the jagged vectors; or throws length_error exactly if the vectors of the container differ in size; or bad_alloc. Data objects can be moved, assigned and destroyed in any order, together with any other use of the resources: at any time an object that holds the description of a container says what get_data has put in it; the arrays of views are in memory of the resource that was asked for, owned by exactly one object, of exactly the size of the views, and given back to this resource when the object is destroyed or assigned to, or when an exception ends get_data.", "quantifier": "all programs with any number of data objects for any containers, of any sizes, any resources, and any points at which allocations fail", "why_tests_cant": "which object owns an array of views, and whether one is lost or given back twice, depends on the history of moves, assignments and exceptions", "anchors": ["core/include/vecmem/edm/data.hpp: data", "core/include/vecmem/edm/impl/data.ipp: data", "core/include/vecmem/edm/impl/host.ipp: get_data", "core/include/vecmem/containers/data/jagged_vector_data.hpp: jagged_vector_data", "core/include/vecmem/containers/impl/jagged_vector_data.ipp: jagged_vector_data", "core/include/vecmem/containers/impl/jagged_vector.ipp: get_data"]}
{"id": "C73", "title": "What is published with an atomic reference is seen by the thread that receives it", "statement": "If a thread writes variables and then makes a releasing operation on an atomic reference (store, exchange, compare_exchange_strong or fetch_...; the default memory order is the strongest one), and another thread makes an acquiring operation that reads this value or one derived from it by atomic operations, then the other thread sees the writes: accesses that happen after an access to the same variable, in the sense of C++, never read an older value than it has read or written, and write newer ones. Every value read was written by one earlier write or is the initial one, and an atomic operation writes directly after the value that it has read.", "quantifier": "all programs of any number of threads with ordinary and atomic accesses to any variables with any memory orders, and all executions on a memory in which threads may read old values; for each implementation of the references", "why_tests_cant": "reordered accesses show up rarely, depend on the processor and the compiler, and a test observes few of the executions", "anchors": ["core/include/vecmem/memory/impl/posix_device_atomic_ref.ipp: memorder_to_posix_builtin", "core/include/vecmem/memory/impl/cuda_device_atomic_ref.ipp: store, load, exchange, compare_exchange_strong", "core/include/vecmem/memory/impl/sycl_custom_device_atomic_ref.ipp", "core/include/vecmem/memory/details/sycl_builtin_device_atomic_ref.hpp", "core/include/vecmem/memory/memory_order.hpp"]}
{"id": "C74", "title": "Two threads that announce themselves with atomic references do not miss each other", "statement": "If two threads each write a variable and then read the variable of the other one with operations of atomic references with the default memory order, at least one of them reads what the other has written, or something newer.", "quantifier": "all programs of any number of threads, all pairs of variables, and all executions on a memory in which threads may read old values; for each implementation of the references", "why_tests_cant": "both reads must overtake both writes for a failure to show, which depends on the processor and on timing", "anchors": ["core/include/vecmem/memory/impl/cuda_device_atomic_ref.ipp: store, load", "core/include/vecmem/memory/impl/sycl_custom_device_atomic_ref.ipp: store, load", "core/include/vecmem/memory/details/cuda_device_atomic_ref.hpp"]}
{"id": "C75", "title": "Vectors never throw, and with assertions enabled misuse is caught before it does harm", "statement": "No operation of device_vector and static_vector, nor push_back on a vector of a container on the device, throws an exception. With assertions enabled, an operation that does not fit (adding to a full vector, growing beyond the capacity, pop_back, front or back on an empty vector, at, erase or insert at a position that does not exist) does not return; and whatever operations a program makes, other than through operator[], memory outside of the vector is not changed, elements of a device vector are not changed by an operation that does not fit, and the size never exceeds the capacity after an operation that has returned. A device vector that is not resizable rejects all operations that would change its size.", "quantifier": "all states of vectors, all contents of memory, all operations with all arguments, all programs", "why_tests_cant": "operations, positions, counts and sizes are unbounded, and a write past the end may go unnoticed in a test", "anchors": ["core/include/vecmem/containers/impl/device_vector.ipp: device_vector", "core/include/vecmem/containers/impl/static_vector.ipp: static_vector", "core/include/vecmem/containers/static_vector.hpp: assign, insert", "core/include/vecmem/edm/impl/device.ipp"]}
{"id": "C76", "title": "Threads of a kernel can append to a vector or container at once, whatever the memory does", "statement": "If threads change a device vector, or a container on the device, by appending only (push_back, emplace_back, bulk_append, bulk_append_implicit, push_back_default), and what they append fits, then on a memory in which threads may read old values: the calls get places behind the old elements, no two the same and without gaps; an element is written only by the thread that has got its place; the old elements stay as they were; no assertion fails, also not that of at for what a thread has appended itself; when a thread has ended, all that it was to append is there; in the end, the size is the old one plus what was appended, every element has the value given by the call that appended it, and this is what is read after the kernel; every size read is between the old one and what was appended; a thread reads back its own elements; and a thread that was told of an element, or of all appends, by operations of atomic references that release and acquire, reads the element, or the final size.", "quantifier": "all programs of any number of threads that may depend on everything read, all counts and values, all executions on a weak memory, for each implementation of the atomic references", "why_tests_cant": "interleavings and stale reads depend on the device and on timing; sizes and threads are unbounded", "anchors": ["core/include/vecmem/containers/impl/device_vector.ipp: push_back, emplace_back, bulk_append, bulk_append_implicit, bulk_append_implicit_unsafe, at", "core/include/vecmem/edm/impl/device.ipp: push_back_default, construct_default", "core/include/vecmem/memory/impl/cuda_device_atomic_ref.ipp: fetch_add", "core/include/vecmem/memory/impl/posix_device_atomic_ref.ipp: fetch_add"]}
{"id": "C77", "title": "Kernels that append to a vector mean on weak memory what they mean on a memory without old values", "statement": "If the threads of a kernel append to a device vector (push_back, emplace_back, bulk_append, bulk_append_implicit; of values that are not in the vector itself) and there is room for all, then, on a memory in which threads may read old values, no assertion fails, no thread is ever stuck, and when the kernel has ended there is an order of the same calls one step after the other, on a memory without old values, which leaves the vector with the same size and the same elements and in which every call returns the same index.  So in programs that create, set up, fill and copy buffers and run such kernels, every step does to the elements, and returns, what it does according to lists of elements (C59); in particular, a parallel filter followed by a copy to the host gives exactly the filtered values, in some order.", "quantifier": "all element types, all calls of any number of threads, all executions on a weak memory, for each implementation of the atomic references, all programs of buffers, copies and kernels", "why_tests_cant": "stale reads and interleavings depend on the device and on timing; threads, sizes and programs are unbounded", "anchors": ["core/include/vecmem/containers/impl/device_vector.ipp: push_back, emplace_back, bulk_append, bulk_append_implicit, bulk_append_implicit_unsafe, construct", "core/include/vecmem/memory/impl/posix_device_atomic_ref.ipp: fetch_add", "core/include/vecmem/memory/impl/cuda_device_atomic_ref.ipp: fetch_add", "core/include/vecmem/utils/impl/copy.ipp: operator()"]}
{"id": "C78", "title": "Threads may append to several vectors, or rows, at the same time", "statement": "If threads append to several device vectors that share no memory (vectors of different buffers, rows of a jagged vector, containers), each thread to as many of them as it likes and in any order, and there is room for all, then each vector behaves as if it were alone: its appends get places behind its old elements, each place once and without gaps; only the thread that claimed a place of a vector writes there; old elements of all vectors stay; no assertion of any vector fails; no thread is ever stuck; and at the end each vector has the size and elements that some order of the calls on it gives on a memory without old values, with the same indices returned.", "quantifier": "any number of vectors, all programs of any number of threads that change the vectors by appending only, all executions on a weak memory, for each implementation of the atomic references", "why_tests_cant": "stale reads and interleavings depend on the device and on timing; threads, vectors and sizes are unbounded", "anchors": ["core/include/vecmem/containers/impl/device_vector.ipp: push_back, emplace_back, bulk_append, bulk_append_implicit, bulk_append_implicit_unsafe", "core/include/vecmem/containers/impl/jagged_device_vector.ipp: operator[]", "core/include/vecmem/memory/impl/posix_device_atomic_ref.ipp: fetch_add"]}
{"id": "C79", "title": "Programs of vector and jagged buffers mean on weak memory what lists of rows mean", "statement": "If the threads of a kernel append to rows of a resizable jagged buffer, each thread to as many rows as it likes and in any order, and there is room in each row, then, on a memory in which threads may read old values, no assertion fails, the kernel can always go on until it has ended, and then there is one order of all calls on all rows, on a memory without old values, which leaves all rows with the same sizes and elements and in which every call returns the same index.  So in programs that create, set up, fill and copy vector buffers and jagged buffers, and run kernels that append to either and read any of them, every step does to the elements, and returns, what it does according to lists of elements and lists of rows (C62); in particular, elements of a vector that are sorted into rows in parallel, and copied to the host, are found there row by row, each once, in some order.", "quantifier": "any number of rows, capacities, element sizes and threads, all calls that append, all executions on a weak memory, for each implementation of the atomic references, all programs of buffers, copies and kernels", "why_tests_cant": "stale reads and interleavings depend on the device and on timing; rows, threads, sizes and programs are unbounded", "anchors": ["core/include/vecmem/containers/impl/device_vector.ipp: push_back, emplace_back, bulk_append, bulk_append_implicit", "core/include/vecmem/containers/impl/jagged_device_vector.ipp: operator[]", "core/include/vecmem/containers/impl/jagged_vector_buffer.ipp: constructors", "core/include/vecmem/utils/impl/copy.ipp: operator()"]}
{"id": "C80", "title": "Threads that do not race do on weak memory what they do alone", "statement": "If no thread accesses what another thread writes (where it is enough to know what each thread does when it runs alone), then, on a memory in which threads may read old values and with any implementation of the atomic references, every thread makes the accesses that it makes when it runs alone, with the same values read and written, up to any moment, and all of them when it has ended; no assertion fails that does not fail then; the threads can always go on until all have ended; and what they leave in memory is what they leave if they run one after the other, in any order.", "quantifier": "all programs of any number of threads whose next access may depend on all that was read, all memories, all executions on a weak memory, for each implementation of the atomic references", "why_tests_cant": "stale reads depend on the device and on timing; programs, threads and executions are unbounded", "anchors": ["core/include/vecmem/containers/impl/device_vector.ipp: operator[], at", "core/include/vecmem/edm/impl/device.ipp: at, operator[], get", "core/include/vecmem/memory/impl/posix_device_atomic_ref.ipp", "core/include/vecmem/memory/impl/cuda_device_atomic_ref.ipp", "core/include/vecmem/memory/impl/sycl_custom_device_atomic_ref.ipp"]}
{"id": "C81", "title": "Programs with container buffers, whose kernels run on weak memory, do what they do one call after the other", "statement": "Programs (as in C65, with its exceptions) create container buffers, set them up, copy containers between host and device and run kernels whose threads append elements with push_back_default and assign to their variables, append to rows of jagged variables, or load and store elements without races. If the kernels run on a memory in which threads may read old values, with any implementation of the atomic references, then no assertion fails, and every step does to the elements in memory, and returns, what it may do with kernels whose calls run one after the other in some order: appended elements are complete and their variables stay together, no index is given twice, and everything else stays unchanged. What kernels without races leave does not depend on the execution. Every step that fits can be made, so kernels always can run to their ends.", "quantifier": "all programs of any length, all schemas, memories, kernels with any number of threads and calls, all executions on a weak memory, for each implementation of the atomic references", "why_tests_cant": "stale reads depend on the device and on timing; programs, threads, schemas and executions are unbounded", "anchors": ["core/include/vecmem/edm/impl/device.ipp: push_back_default, construct_default, at, operator[]", "core/include/vecmem/containers/impl/device_vector.ipp: push_back, construct, at, operator[]", "core/include/vecmem/containers/impl/jagged_device_vector.ipp: operator[], at", "core/include/vecmem/utils/impl/copy.ipp: operator()", "core/include/vecmem/memory/impl/posix_device_atomic_ref.ipp", "core/include/vecmem/memory/impl/cuda_device_atomic_ref.ipp", "core/include/vecmem/memory/impl/sycl_custom_device_atomic_ref.ipp"]}
{"id": "C82", "title": "Kernels that read their inputs on weak memory read what the inputs hold", "statement": "If no thread writes certain variables, then every execution on a memory in which threads may read old values is one of threads that were given the values of these variables before they started: all other accesses are the same, and what was read is the initial value. So in programs with container buffers (C81), threads of kernels may read elements of other containers, decide by what they have read what they read and append next, and append elements to a container or to rows of a jagged variable, or load and store elements of another container without races; if the elements that they read exist, then no assertion fails, and every step does to the elements in memory, and returns, what it may do with threads that know the elements of their inputs and run one call after the other. Every step that fits can be made, and what kernels without races leave does not depend on the execution. The host then gets the old elements followed by exactly those that the threads append for these inputs.", "quantifier": "all programs of any length, all schemas, memories, kernels with any number of threads, reads and calls that depend on what was read, all executions on a weak memory, for each implementation of the atomic references", "why_tests_cant": "stale reads depend on the device and on timing; programs, threads, inputs and executions are unbounded", "anchors": ["core/include/vecmem/containers/impl/device_vector.ipp: at, operator[], push_back", "core/include/vecmem/containers/impl/jagged_device_vector.ipp: at, operator[]", "core/include/vecmem/edm/impl/device.ipp: at, operator[], push_back_default", "core/include/vecmem/utils/impl/copy.ipp: operator()", "core/include/vecmem/memory/impl/posix_device_atomic_ref.ipp", "core/include/vecmem/memory/impl/cuda_device_atomic_ref.ipp", "core/include/vecmem/memory/impl/sycl_custom_device_atomic_ref.ipp"]}
{"id": "C83", "title": "Kernels that read vectors and jagged vectors on weak memory read what the inputs hold", "statement": "In programs with vector buffers, jagged buffers and copies (C79) on a memory in which threads may read old values, threads of kernels may read elements of other vector buffers and of rows of jagged buffers, decide by what they have read what they read and append next, and append to a vector buffer or to rows of a jagged buffer. If the elements that they read exist and there is room, then no assertion fails, and every step does to the elements in memory, and returns, what it may do with threads that know the elements of their inputs and make one call after the other. Every step that fits can be made. So a kernel that loads the elements of a vector and appends each to the row that it belongs to leaves in each row exactly its elements, and a kernel with a thread for each row of a jagged buffer that appends all elements to a vector leaves there the old elements followed by those of all rows.", "quantifier": "all programs of any length, all element types, memories, kernels with any number of threads, reads and calls that depend on what was read, all executions on a weak memory, for each implementation of the atomic references", "why_tests_cant": "stale reads depend on the device and on timing; programs, threads, inputs and executions are unbounded", "anchors": ["core/include/vecmem/containers/impl/device_vector.ipp: at, operator[], push_back, bulk_append", "core/include/vecmem/containers/impl/jagged_device_vector.ipp: at, operator[]", "core/include/vecmem/containers/impl/jagged_vector_buffer.ipp", "core/include/vecmem/utils/impl/copy.ipp: operator()", "core/include/vecmem/memory/impl/posix_device_atomic_ref.ipp", "core/include/vecmem/memory/impl/cuda_device_atomic_ref.ipp", "core/include/vecmem/memory/impl/sycl_custom_device_atomic_ref.ipp"]}
{"id": "C84", "title": "With assertions enabled, threads that append more than fits are stopped on weak memory before they do harm", "statement": "With assertions enabled, and on a memory in which threads may read old values: threads that append to a device vector, to rows of a jagged vector, or to a container, with any number of elements, never write an element outside of it or over an old element, and no two calls write the same place; a call that gets places which are not all within the capacity does not return, and its thread makes no more accesses; some thread is stopped if and only if more was to be appended than fits; and what threads that have come to their ends were to append is there.", "quantifier": "all vectors, capacities, old sizes, numbers of threads, programs of threads that append and may read, all executions on a weak memory, for each implementation of the atomic references", "why_tests_cant": "which thread gets which place depends on timing; threads, calls and executions are unbounded", "anchors": ["core/include/vecmem/containers/impl/device_vector.ipp: push_back, emplace_back, bulk_append, bulk_append_implicit", "core/include/vecmem/edm/impl/device.ipp: push_back_default", "core/include/vecmem/containers/impl/jagged_device_vector.ipp: operator[]"]}
{"id": "C85", "title": "Threads that load and store elements of vectors and jagged vectors without races act on weak memory as one after the other", "statement": "In programs with vector buffers, jagged buffers and copies (C79, C83) on a memory in which threads may read old values, threads of kernels may load elements of other buffers, and load and store elements of a vector buffer or of rows of a jagged buffer, and decide by what they have loaded what they do next. If, when run alone, each thread only uses elements that exist, and no thread stores an element that another one loads or stores, then every execution leaves exactly the elements that the threads leave when run one after the other, changes nothing else in memory, and every step that fits can be made. So a kernel with a thread for each element that stores a value for it in another vector leaves there the values in order, and a kernel with a thread for each row of a jagged buffer that replaces each element leaves all rows with their elements replaced.", "quantifier": "all programs of any length, all element types, memories, kernels with any number of threads, loads and stores that depend on what was loaded, all executions on a weak memory, for each implementation of the atomic references", "why_tests_cant": "stale reads and the order of threads depend on the device and on timing; programs, threads, inputs and executions are unbounded", "anchors": ["core/include/vecmem/containers/impl/device_vector.ipp: at, operator[]", "core/include/vecmem/containers/impl/jagged_device_vector.ipp: at, operator[]", "core/include/vecmem/containers/impl/jagged_vector_buffer.ipp", "core/include/vecmem/utils/impl/copy.ipp: operator()"]}
{"id": "C86", "title": "Variables that threads change by atomic operations only lose no update on weak memory, so histograms are right", "statement": "On a memory in which threads may read old values: if a variable is changed by atomic operations only that read and write it (fetch_add and the like, exchange, compare_exchange_strong), with any memory orders, then each of these finds what the ones before have made of the initial value, and none is lost. If it is changed by fetch_add(1) only, the calls return the initial value, the next one, and so on, so no two calls get the same value, unless there are more calls than values. A thread that reads such a variable repeatedly, in any way, finds what the changes up to some point have made of it, and this point does not go back; so a count that does not wrap never seems to decrease. If threads read inputs that no thread changes, and change other variables by atomic operations, each variable with operations of one kind (additions and subtractions, conjunctions, disjunctions or exclusive disjunctions), deciding by what they have read which variables and by how much, then, when all threads have ended, however they have run, each variable has what these operations make of its initial value in any order; and the threads can always come to their ends. So threads that fill a histogram leave in each bin its old contents plus the number of values that belong to it.", "quantifier": "all widths, values, memory orders, numbers of threads and variables, programs of threads, all executions on a weak memory, for each implementation of the atomic references", "why_tests_cant": "whether an update is lost depends on timing and on the device; threads, programs and executions are unbounded", "anchors": ["core/include/vecmem/memory/impl/posix_device_atomic_ref.ipp: fetch_add, fetch_sub, fetch_and, fetch_or, fetch_xor, exchange, compare_exchange_strong", "core/include/vecmem/memory/impl/cuda_device_atomic_ref.ipp", "core/include/vecmem/memory/impl/sycl_custom_device_atomic_ref.ipp", "core/include/vecmem/memory/details/sycl_builtin_device_atomic_ref.hpp"]}
{"id": "C87", "title": "Programs with vectors and jagged vectors may count in vectors with atomic operations on weak memory", "statement": "On a memory in which threads may read old values: in programs that create, set up, fill, copy and destroy vector buffers and jagged buffers, and whose kernels append, or load and store elements without races (C85), a kernel may also have threads that load elements of input vectors and jagged vectors, and, depending on what they have loaded, change elements of a vector of four-byte numbers with fetch_add, fetch_sub, fetch_and, fetch_or and fetch_xor, with any memory orders, each element with operations of one kind. However the kernel runs, each element then is what the operations on it make of it, one after the other, and nothing else changes; the kernel can be run to its end in every state of the program. So a kernel that fills a histogram of a vector leaves in each bin its old contents plus the number of elements that belong to it, also after copies and other kernels.", "quantifier": "all programs of steps, contents of memory, numbers of buffers, sizes, kernels, numbers of threads, memory orders, all executions on a weak memory, for each implementation of the atomic references", "why_tests_cant": "whether an update is lost depends on timing and on the device; programs, threads and executions are unbounded", "anchors": ["core/include/vecmem/memory/impl/posix_device_atomic_ref.ipp: fetch_add, fetch_sub, fetch_and, fetch_or, fetch_xor", "core/include/vecmem/memory/impl/cuda_device_atomic_ref.ipp", "core/include/vecmem/memory/impl/sycl_custom_device_atomic_ref.ipp", "core/include/vecmem/containers/impl/device_vector.ipp: operator[]", "core/include/vecmem/utils/impl/copy.ipp", "core/include/vecmem/containers/impl/vector_buffer.ipp"]}
{"id": "C88", "title": "Loops with compare_exchange_strong lose no change on weak memory, so users can make their own atomic operations", "statement": "On a memory in which threads may read old values: threads read inputs that no thread changes, and change other variables by loops that load a value x and try to replace it by f(x) with compare_exchange_strong of the device atomic reference, until that has returned true; the function f and the variable may depend on what they have read. When all threads have ended, however they have run, there is one order of all changes of all threads such that each variable has what these changes make of its initial value in this order: none is lost, and none is made twice. If the changes of a variable commute, its value does not depend on the execution; so a maximum that threads take this way is the maximum of the initial value and all their values. Such threads can all come to their ends.", "quantifier": "all widths, functions, values, numbers of threads, variables and tries, programs of threads, all executions on a weak memory, for each implementation of the atomic references", "why_tests_cant": "whether a change is lost depends on timing and on the device; threads, programs and executions are unbounded", "anchors": ["core/include/vecmem/memory/impl/posix_device_atomic_ref.ipp: load, compare_exchange_strong", "core/include/vecmem/memory/impl/cuda_device_atomic_ref.ipp: load, compare_exchange_strong", "core/include/vecmem/memory/impl/sycl_custom_device_atomic_ref.ipp: load, compare_exchange_strong", "core/include/vecmem/memory/details/sycl_builtin_device_atomic_ref.hpp"]}
