# Formal model of acts-project/vecmem in Lean 4

## Layout

* `properties.jsonl` – the English properties (C01…).
* `lean/Verif/Spec/*.lean` – small, self-contained specifications (what a block is, when blocks are
  disjoint, what a well-behaved memory resource is, list specifications). No model code.
* `lean/Verif/Model/*.lean` – the model, function by function, each definition citing file and lines in `/repo`.
* `lean/Verif/Lemmas/*.lean` – helper lemmas and invariants.
* `lean/Verif/Props/*.lean` – the property theorems, each next to an `example` showing that its hypotheses are
  met by a concrete non-trivial case; negations (bugs found) are stated here as theorems with concrete witnesses.
* `MANIFEST.json` – property → theorems. `seeded/LOG.jsonl` – seeded-bug experiments.

## Modelling conventions

* Addresses and sizes are `Nat`; whenever the C++ code computes in `std::size_t` and the property is about the
  limits, the model wraps explicitly modulo 2^64 (`wrap64`), and 32-bit `unsigned int` values (sizes of device
  vectors and views) wrap modulo 2^32.
* Every call has an outcome: normal result, `std::bad_alloc`, `std::logic_error`, `std::length_error`, …, or `ub`
  (undefined behaviour *or* a failing `assert`). `ub` is a distinct outcome, so "never reaches undefined
  behaviour and no assertion fires" is a theorem, not an assumption.
* A memory resource is a state machine `MR σ` (allocate/deallocate over a state `σ`). A downstream resource is a
  function from an upstream `MR σ` to an `MR (Own × σ)`. "Well-behaved" is `Spec.Lawful`: over every history of
  correct client calls, results are disjoint, in range, aligned, and nothing undefined happens. Each downstream
  resource theorem has the shape `Lawful upstream → Lawful (downstream upstream)`, so stacks compose.
  An upstream shared with other clients is covered by the `interleave` construction (arbitrary foreign calls
  between ours).
* Concurrency: threads are lists of atomic steps, a schedule is any interleaving of them; sequential consistency
  between atomic read-modify-write steps is assumed (the code uses single-location counters).
* Memory contents for copies: a byte map `Nat → UInt8`; size words are four little-endian bytes in it.

## Plan per property

| id | model | proof |
|----|-------|-------|
| C01, C02 | `Model/Contiguous`: bump pointer + `std::align` | invariant over histories; failure/fit equivalence |
| C03, C04, C05, C06 | `Model/Pool`: buckets, oversized list and cache, options check, destructor | invariant: client slots + free slots + cache partition the upstream blocks; negations for leak, cutoff, assertion |
| C07, C08, C09, C51 | `Model/BinaryPage`: superpages with a 511-entry state array, all page_ref operations | tree invariant (extant iff parent split, eager merging), buddy intervals disjoint |
| C10, C11, C12 | `Model/Arena`: ordered free set, first fit, coalescing, expansion | invariant under the hypothesis that upstream never returns touching superblocks; negations otherwise |
| C13 | `Model/Wrappers`: debug | decision logic + transparency |
| C14–C17, C21 | `Model/Wrappers` | forwarding lemmas, `Lawful` preservation |
| C18, C19 | instrumenting, memory_monitor | induction over histories |
| C20 | lock/enter/leave/unlock step machine | invariant over schedules, linearisation |
| C22 | host resource over abstract C allocator | arithmetic; overflow witness |
| C23, C24 | integer math, `std::align` | arithmetic |
| C25 | composition of the `Lawful` theorems over an inductive type of stacks | structural induction |
| C55 | `Spec/World`: a program state with a slot per resource; `Kind` = constructor, calls and destructor of a resource; correct programs as an inductive relation | invariant: the blocks of every resource and of the program partition the blocks its upstreams served |
| C56 | `Model/Handles`: objects owning implementations, references to objects, moves | simulation by the programs of C55: references keep leading to the same implementations |
| C57 | `Model/Streams`: wrappers with a bare pointer and a shared (CUDA) or unique (SYCL) owner, use counts, queue objects | comparison with value semantics (`Spec/Streams`); the use count equals the number of owners; each queue object has one owner |
| C58 | `Model/GpuMemory`: the resources of CUDA, HIP and SYCL over the runtimes, whose promises are in `Spec/GpuMemory` | the state of the runtime is reachable by correct use, with the blocks of the clients; resources over them, of all kinds: the invariant of C55, with either exception for a refusal; for kinds that catch no exception this follows because exchanging the exception commutes with them (`c58_passed_on`) |
| C59 | `Model/Pipeline`: programs over `Model/Buffers`, `Model/Copy` and `Model/DeviceVector`, in one memory of bytes; kernels get device vectors made from bytes, and leave bytes behind | `Spec/Pipeline` says what each step does to lists; an invariant (placement, disjoint blocks, sizes within capacities) makes C26, C29, C30, C37 and C40 applicable at every step of every program; kernels always finish |
| C60 | `Model/Synchronized` (C20), with threads that decide on their calls as they go | `Spec/Threads`: correct threads in any schedule, and the blocks they hold; an invariant says that upstream is in a state that a sequential history of correct calls reaches, with the held blocks and those in flight live, so `Lawful` applies |
| C61 | `Model/DefaultResource`: the atomic pointer and its lazy initialisation | induction over interleavings |
| C62 | `Model/JagPipeline`: C59's programs, extended with jagged buffers; the row views are bytes in memory, and kernels read them there; threads of a kernel make calls on any rows | `Spec/JagPipeline` says what each step does to lists of rows; the steps on vector buffers are those of C59, whose invariant has a frame; a kernel on rows is projected to one C30 kernel per row, and the claims on all rows are merged into one order |
| C63 | `Model/Tuple`: constructors, `get`, `tie` and `make_tuple` over numbered objects; elements are values, references or references to constants | `Tup.Built` (`Spec/Tuple`) says what a tuple made from given objects is; induction on the elements; for proxies also on the temporary tuples |
| C64 | `Model/AsyncPipeline`: the programs of C59 as host programs over the stream of C41; a kernel is an operation on the stream with a declared footprint | `Spec/AsyncPipeline`: `syncRun` is the program that waits everywhere, `streamFits` the rules for the host (no access to busy memory); the safety calculus of C41 (`Safe`) is applied to every step, with the invariant of C59; the lists are those of C59 |
| C65 | `Model/EdmPipeline`: programs over `EdmBuffer`, `EdmCopy`, `EdmToHost` and `EdmDevice` in one memory of bytes; kernels that append elements, append to rows, or load and store elements in any interleaving | `Spec/EdmPipeline`: containers as tables (`EdmStep`), races (`NoRaces`) in terms of the accesses of each thread alone; an invariant over all programs (`EInv`) that is kept by each step; interleavings of threads without races are reduced to running the threads one after the other |
| C66 | `Model/AsyncProgram`: programs on a stream for any sort of steps, including what the host itself writes; `Model/AsyncEdm`: the steps of C65 as such, over the stream of C41 | `Spec/AsyncProgram`, `Spec/AsyncEdm`: the program that waits everywhere, and which memory each step needs; the calls of `vecmem::copy` for containers are shown to wait before they read or end variables (`Lib`), to have footprints (`Foot`), and to be independent of events (`Same`); kernels depend on the memory of their buffers only |
| C67 | `Model/AsyncJag`: the steps of C62 (which include those of C59) as programs on a stream | `Spec/AsyncJag`: which memory each step needs; the method of C66: the calls for jagged vectors wait before they read or end variables, have footprints, are independent of events, and end with an event of the stream if they have anything to do; kernels depend on the memory of their buffers, and on the arrays of views, only |
| C68 | `Model/BufferMoves`: the programs of C62 over C++ variables, with the owning pointers and the resources they know, default construction, move construction, move assignment (which resets the pointers in the order of the members) and destruction | `Spec/BufferMoves`: what is in variables; uses of buffers are local (they depend on the buffers they name only), which makes them steps of C62 on the buffers that have not been moved from; moves permute the owned blocks |
| C69 | `Model/ViewValues`: constructors, conversions, assignments and comparisons of `vector_view`, `jagged_vector_view` and `edm::view`, what the compiler accepts (`is_same_nc`, the conditions of the templates), the views of rows in memory, and writing through views | `Spec/ViewValues`: what a view shows in a memory, and memory `Z` of which no view for writing was made; conversions are copies; every view for writing in a reachable state keeps away from `Z` and from the arrays of views (invariant) |
| C70 | `Model/EdmMoves`: the programs of C65 over C++ variables, as in C68; default-constructed buffers with any contents | `Spec/EdmMoves`: what is in variables; uses of buffers are local, which makes them steps of C65 on the buffers that own memory; moves permute the owned blocks |
| C71 | `Model/Faults`: the functions of pool, binary page, arena, debugging, instrumenting, choice and coalescing resources once more, as functions of which allocations of their own containers fail, with what is left when the exception leaves the function | `Spec/Faults`: histories of calls, each with any failures; the invariants of the kinds (`Lemmas/Kinds`) survive every point of failure, with lost blocks of upstream counted; for the arena a weaker invariant, without the tiling of superblocks; with no failures the models are those of C03-C18 |
| C72 | `Model/HostData`: constructors, defaulted moves and `get_data` of `jagged_vector_data` and `edm::data`, as programs over C++ variables, while others use the same resources | `Spec/HostData`: what data objects say about where the variables of a container are; each array of views is in a block of its own, which later writes to views do not touch; moves permute the owned blocks |
| C73, C74 | `Model/WeakMemory`: each operation of the references as one access with its order and the fences around it, on a memory where a variable has all values written to it and a thread may read any that is not older than what it knows (release/acquire with fences, in the operational form with views). `Spec/WeakMemory` has the happens-before of C++ on lists of accesses, from the orders that were asked for. Invariant: what a thread knows after an access, what the message of a release carries; one proof for all implementations, from the flags of their instructions. C74 from the order of the fences. Executions for the failures `Props/C73_Latest`: a read that is ordered with all writes of the variable gives the last of those before it. |
| C75 | `Spec/Misuse`: which operations do not fit, from the size and the capacity only. Case analysis of the models of device and static vectors with arbitrary memory contents, induction over loops and programs. An assertion and undefined behaviour are one outcome in the model; as memory is arbitrary, only an assertion can be the cause where a claim says that an operation does not return |
| C76 | `Model/WeakVector`: programs of threads, which may depend on all that they have read, on the machine of `Model/WeakMemory`; an appending call is `fetch_add` on the size, the assertion, and the stores of the elements. `Spec/WeakVector` says what a claim of places is in terms of the accesses; `Spec/WeakTasks` which programs only append, and what it is for a program to have run. What a thread has done is related to its program by induction; that claims follow one another comes from the values alone (`c73_values`), by strong induction over the accesses; reads from the happens-before order of C73. The values in the end (`Final`) are those newest in the modification order: a place is written by one call only, whose stores stand in program order. Execution for the size that is seen before its element |
| C77 | `Model/WeakKernel`: the appending calls of `Model/DeviceVectorConcurrent` as programs on the machine of `Model/WeakMemory`, for elements of any type made of words. The theorem `c77_sequential` gives, for each execution that has ended, a schedule of the interleaving model (`Conc`) with the same final vector and the same returned indices: the claims of the size, in its modification order, are the order of the calls (`Lemmas/SequentialRun` runs them in that order), and the final values of the elements are those of `c76_left`. `c77_ends` and `c77_runs` show that executions exist (`Lemmas/WeakProgress`: the newest value of a variable can always be read or followed). `Spec/WeakPipeline` puts such kernels into the programs of C59; `c77_reach` and `c77_pipelines` carry all of C59 over. |
| C78 | `Model/WeakSeveral`: programs that append to any of a family of vectors, on the machine of `Model/WeakMemory`. `c78_each` shows that from each vector the program is one of C76 (appends to the others are accesses to other variables), and that assertions do not change what is done before one fails; so all of C76 holds per vector. `c78_complete`: no assertion fails, and what each call has left. `c78_kernels`: a schedule of the interleaving model for each vector, as in C77. `c78_ends`: progress. Hypotheses: the vectors have different variables (`Apart`), and there is room in each. |
| C79 | The kernels of C78 with the rows of a jagged buffer as vectors. `c79_sequential` gives one schedule of the interleaving model of rows (`RowConc`) for all rows at once: the calls in the order in which their claims entered the trace (`Lemmas/SequentialRows` runs them in that order, `Lemmas/WeakRows` finds it). `Spec/WeakRows`: the bytes of the rows in memory are variables of the machine, and kernels of C62's programs run on it. `c79_pipelines` carries C62 over to such programs, by the same step with another schedule; `c79_goes_on`: steps that fit can always be made; `c79_parallel_binning`: the end-to-end case. |
| C80 | Any programs on the machine of `Model/WeakMemory` (`WProg`). `Spec/RaceFree` says what a program does alone, on a memory with one value per variable, and that programs do not race, in terms of that only. By induction over executions, each thread has made a prefix of its accesses alone (`solo_inv`): what it reads was written by itself, or by nobody, and the machine does not let a thread read what is older than its own last write. `c80_one_by_one`: the values in the end are those after all threads have run one after the other, in any order. `c80_ends`: progress. |
| C81 | The programs of C65 with kernels on the machine of `Model/WeakMemory`. `Spec/WeakContainers`: the bytes of a container in memory are variables of the machine, and the three kinds of kernels run on it. Appends (`c81_append`): as C77, with one call writing several variables; the order of the claims gives a schedule of the interleaving model `DConc` (`Lemmas/EdmOrdered`, `Lemmas/WeakContainer`). Rows: `c79_kernel`. Loads and stores without races (`c81_access`): the accesses of a thread alone are those of `execThread`, so C80 applies (`Lemmas/WeakAccess`). `c81_pipelines` carries C65 over, by the same step with another schedule; `c81_goes_on`: steps that fit can always be made; `c81_deterministic`; `c81_elements_stay_together`: the end-to-end case. |
| C82 | Variables that are only read, on the machine of `Model/WeakMemory` (`Spec/WeakInputs`). `c82_given`: by induction over the execution, with all accesses to these variables taken out (`Lemmas/WeakInputs`), it is an execution of threads that are given their values; `c82_reads`: what was read. `Model/WeakReading`: threads that load elements of input containers, byte by byte, and make calls that append, both depending on what they have loaded. Given the inputs, they are the threads of C81 and C79 (`c82_append`, `c82_rows`); they can be run (`c82_append_runs`, `c82_rows_runs`). Threads that load elements of inputs, and load and store elements of another container (`IProg`), do not race if they do not race when they are given the inputs, so C80 applies (`c82_access`, `c82_access_runs`). `c82_pipelines` carries C81 over to programs with such kernels; `c82_goes_on`; `c82_deterministic`; `c82_elements_stay_together`: the end-to-end case. |
| C83 | As C82, for vector buffers and jagged buffers (`Model/WeakReadingLists`). Given the inputs, threads that load elements and append to a vector are those of C77 (`c83_append`), and can be run (`c83_append_runs`); for rows, C82's theorems are used. `c83_pipelines` carries C79 over to programs with such kernels; `c83_goes_on`. `c83_parallel_binning` and `c83_flatten` are two kernels of users, with what they leave; an example does one after the other |
| C84 | The programs of C76 and C78 without the hypothesis that all fits (`Spec/WeakMisuse`). By induction over a program, a store belongs to a call whose assertion held (`access_at`); the places of claims follow from the modification order of the size as in C76. For calls that append one element in full (`c84_pushes_contained`, `c84_rows_pushes_contained`); for `bulk_append`, if the size does not wrap (`c84_contained_partial`, `c84_caught_partial`, `c84_stopped_partial`, `c84_others_unharmed_partial`, and for rows). False otherwise: `c84_wrap`. Without assertions, `push_back` to a full vector writes outside of it (`c84_release`) |
| C85 | As C83, with kernels that load and store elements in place (`Spec/WeakAccessLists`; the bytes of elements are where `Model/WeakReadingLists` and `Model/WeakReading` find them). Threads that do not race in elements do not race in bytes, so C80 makes every execution that of one thread after the other (`c85_access`), and there is one (`c85_access_runs`). The invariant of C79 is kept (`c85_step_inv`), so `c85_pipelines` and `c85_goes_on` hold for all programs. `c85_transform` and `c85_update_rows` are two kernels of users, with what they leave; an example runs both |
| C86 | On the machine of C73 (`Model/WeakMemory`). By induction over the accesses, a change of a variable in which nothing is stored reads the newest value, as the position behind an older one is taken (`c86_one_after_other`); so calls of `fetch_add(1)` return successive values (`c86_tickets`). What a thread reads is what the changes up to a point have made, and this point does not go back, as reads of one thread are ordered (C73: `c86_watch`, `c86_watch_counter`). For programs of threads (`Model/WeakCounters`), the reads of inputs find the initial values (C82), so the operations of each thread are those of its program; operations of one kind commute, so the result does not depend on the order (`c86_counters`). `c86_ends` with the progress lemmas of C77; `c86_histogram` is the histogram of a user |
| C87 | Programs of C85 with one more step, a kernel that counts (`Model/WeakCounting`, `Spec/WeakCounting`): the elements of the vector are variables of the machine of C73, so are the bytes of the inputs. Threads that are given their inputs do the same (C82), and these are programs of C86, so each element becomes what the operations make of it (`c87_count`); such kernels end (`c87_count_runs`). The bytes of other buffers do not change, so the invariant of C62 is kept (`c87_pipelines`, `c87_goes_on`); `c87_histogram` is a histogram end to end |
| C88 | On the machine of C73, programs with loops (`Model/WeakLoops`), with any bound on the number of tries. Each loop that has ended has made exactly one successful exchange, which replaces the value that it finds by `f` of it (`loop_made`, by induction over the tries); as nothing else is stored, the exchanges act one after the other (C86), in the order in which they were made (`c88_loops`). `c88_any_order` for changes that commute; `c88_runs` lets the threads run one after the other, reading the newest values; `c88_max` is a maximum |
| C26–C28 | placement and buffers | induction over the region list |
| C29–C31 | device_vector, sequential and concurrent | refinement to lists; invariant over schedules; overflow witness |
| C32, C33 | static_vector over raw slots (constructed / not) | refinement to lists; witnesses for aliasing and constructor |
| C53 | class layout | arithmetic; witness |
| C34, C35 | arrays, reverse iterators, jagged views | induction |
| C36, C49, C52 | owning pointers, object allocator | history induction; overflow and exception witnesses; what a factory has done when a constructor throws, for all factories (`c52_throwing`), and `new_object` (`c49_throwing`) |
| C37–C40 | copies over byte memory | frame + content theorems; stale-size witness |
| C41 | FIFO stream and out-of-order SYCL queue with nondeterministic progress, events | invariant over schedules; commuting of independent operations for SYCL |
| C42–C45 | EDM schemas as lists of variable kinds | induction over schemas; witness for jagged fast path |
| C46, C47 | atomics as step programs | linearisation invariant; lost-update and CAS witnesses |
| C48 | device selection stack | induction over nesting |
| C50 | equality relations | decision logic, asymmetry witness |

## Trusted base

Lean 4.33.0's kernel; axioms `propext`, `Classical.choice`, `Quot.sound` at most (per theorem, checked with
`#print axioms`). No axioms of our own. The tie between model and code is reading, documented by citations.
Modelled semantics of the C++ standard library (`std::align`, `std::set`, `std::map`, `std::vector`,
`std::lower_bound`) follows the standard's text.

### Modelled code

Every definition of a file `Verif/Model/*.lean` cites the lines it models and says what it simplifies. In short
(paths below `/repo`; `M` = `core/src/memory`, `I` = `core/include/vecmem`):

| model | code | left out |
|---|---|---|
| `Align`, `IntMath` | `M/details/is_aligned.cpp`, `core/src/utils/integer_math.hpp` | – |
| `Contiguous`, `Pool`, `BinaryPage`, `Arena` | `M/{contiguous,pool,binary_page,arena}_memory_resource.cpp` and their `M/details/*_impl.{hpp,cpp}` | log output; exceptions of the containers' own memory (in `Faults`); the red-black trees behind `std::set`/`std::map` (ordered lists) |
| `Wrappers`, `Monitor`, `Double` | identity, terminal, choice, coalescing, conditional, debug, instrumenting resources; `core/src/utils/memory_monitor.cpp`, with the arithmetic of `double` | exponent range of `double`; time stamps of instrumentation events; log output |
| `Synchronized` | `M/synchronized_memory_resource.cpp` | – (a mutex that blocks; no timed or recursive locking) |
| `Host` | `M/host_memory_resource.cpp` | the C library (`Spec/CLibrary` states its contract) |
| `Equality` | `do_is_equal` of all resources, including CUDA, HIP, SYCL; `M/details/memory_resource_base.cpp` | – |
| `Handles` | `M/details/memory_resource_impl.hpp`, the moves in `M/*_memory_resource.cpp` | – |
| `UniquePtr` | `I/memory/{unique_ptr,allocator}.hpp`, `I/memory/impl/allocator.ipp`, `M/allocator.cpp`, both deleters | element types are sizes with or without trivial constructors and destructors |
| `Buffers` | `I/containers/data/{vector,jagged_vector}_{buffer,view}`, `aligned_multiple_placement`, `unique_alloc_deleter` | – |
| `DeviceVector`, `DeviceVectorConcurrent`, `Iterators` | `I/containers/{device_vector.hpp,impl/device_vector.ipp,impl/reverse_iterator.ipp}` | element constructors are assignments of a value; memory orders weaker than sequential consistency |
| `Arrays`, `StaticVector`, `Layout` | `I/containers/{array,device_array,static_array,static_vector}` and `impl`, `static_vector_traits.hpp` | exceptions of element constructors |
| `Jagged` | `jagged_vector.ipp`, `jagged_vector_data.ipp`, `jagged_device_vector.ipp`, `jagged_device_vector_iterator.ipp` | – |
| `CopyProg`, `Copy`, `HostCopy` | `I/utils/copy.hpp`, `I/utils/impl/copy.ipp`, `core/src/utils/copy.cpp`, `I/utils/abstract_event.hpp` | log output; the direction hint of a copy (`copy::type`, only passed on to the backend) |
| `AsyncCopy` | `cuda/src/utils/cuda/async_copy.cpp`, `sycl/src/utils/sycl/async_copy.sycl` | errors of the runtime (HIP has no asynchronous copy) |
| `EdmBuffer`, `EdmCopy`, `EdmHost`, `EdmDevice`, `EdmToHost` | `I/edm/*`, `I/edm/impl/*`, `I/edm/details/*`, EDM part of `copy.ipp` | `edm::data` except as made by `get_data`; `std::tuple` plumbing |
| `Atomics` | `I/memory/impl/{atomic,posix,cuda,dummy,sycl_custom}_device_atomic_ref.ipp`, `memory_order.hpp` | `hip_device_atomic_ref.hpp` (alias of CUDA's), `sycl_builtin_device_atomic_ref.hpp` (alias of `sycl::atomic_ref`), floating point |
| `GpuDevice`, `Streams` | device selection of CUDA and HIP; stream and queue wrappers | the GPU runtimes (their contracts are in `Spec/GpuDevice`, `Spec/Streams`) |
| `DefaultResource` | `M/default_resource_polyfill.cpp` | – |
| `GpuMemory` | `{cuda,hip,sycl}/src/memory/*_memory_resource.*` | the GPU runtimes (`Spec/GpuMemory`) |
| `Pipeline`, `JagPipeline`, `AsyncPipeline` | programs over `Buffers`, `Copy`, `DeviceVector` and `Jagged`; `device_vector(view)`, `jagged_device_vector(view)` | kernel launches |
| `EdmPipeline` | programs over `EdmBuffer`, `EdmCopy`, `EdmToHost`, `EdmDevice`, `DeviceVector` and `Jagged`; `edm::device(view)` | kernel launches; that a variable of a container with jagged vectors is appended to with `push_back_default` (the code has a static assertion against it) |
| `AsyncProgram`, `AsyncEdm` | the same programs on a CUDA stream | kernel launches; that the resources wait for the stream when memory is given back (as `cudaFree` does) |
| `AsyncJag` | the programs of C62 on a CUDA stream | as `AsyncEdm` |
| `BufferMoves` | the defaulted members of `I/containers/data/{vector,jagged_vector}_buffer.hpp`, moves of `unique_alloc_ptr` | |
| `EdmMoves` | the defaulted members of `I/edm/buffer.hpp` | |
| `ViewValues` | `I/containers/{data,impl}/{vector,jagged_vector}_view`, `I/edm/view.hpp`, `I/edm/impl/view.ipp`, `is_same_nc` of `I/utils/type_traits.hpp` | `volatile`, default constructors (members have no value) |
| `Faults` | the same functions of `M/details/{pool,binary_page,arena,debug,instrumenting,choice,coalescing}_memory_resource_impl.cpp`, with failing `push_back`, `emplace` and `insert` | failures of allocations in constructors other than the arena's, and in messages of exceptions |
| `HostData` | `I/edm/{data,host}.hpp`, `I/edm/impl/{data,host}.ipp` (`get_data`), `I/containers/data/jagged_vector_data.hpp` | the elements (see C43, C44); order of the destructors of a tuple |
| `WeakMemory` | `I/memory/impl/{posix,cuda,sycl_custom}_device_atomic_ref.ipp`, `I/memory/details/{posix,cuda,sycl_builtin}_device_atomic_ref.hpp`: memory orders and fences, `memorder_to_posix_builtin` | load buffering; races as undefined behaviour; the total order of sequentially consistent operations; thread scopes; the dummy reference |
| `WeakVector` | `I/containers/impl/device_vector.ipp`: `emplace_back`, `push_back`, `bulk_append`, `bulk_append_implicit`, `bulk_append_implicit_unsafe`, and `I/edm/impl/device.ipp`: `push_back_default`, `construct_default`, as sequences of accesses on weak memory. Simplified: elements are words, written by one access; the default order of `fetch_add` |
| `WeakKernel` | `I/containers/impl/device_vector.ipp`: `emplace_back`, `push_back`, `bulk_append`, `bulk_append_implicit`, `bulk_append_implicit_unsafe`, `construct`, for elements of any type. Simplified: an element is constructed word by word (in programs of C59: byte by byte, each byte in a variable as wide as the size); arguments that are references into the vector are left out (they are in `DeviceVectorConcurrent`). |
| `WeakSeveral` | as `WeakVector`, for several vectors; `I/containers/impl/jagged_device_vector.ipp`: `operator[]` as the choice of a row. Simplified: the vectors are a family with numbers, and all have the same width of size. | In C79 the rows are those of a jagged buffer in memory, described by the inner views that the device reads (`deviceRows`); these descriptions are read outside of the weak memory, as they were written before the kernel was started.
| `WeakContainer` | `I/edm/impl/device.ipp`: `push_back_default`, `construct_default`, and assignments to variables of the new element, on weak memory, word by word. Simplified: the assertions of `construct_vector` and of `at` are left out. |
| `WeakAccess` | as `EdmPipeline`'s `KProg` (loads and stores of elements), byte by byte on weak memory. Simplified: views and sizes, which such kernels do not change, are read outside of the weak memory. |
| `WeakReading` | kernels of users that load elements of input containers (`device_vector`'s, `jagged_device_vector`'s and `edm::device`'s element access) and append, or load and store elements of another container, on weak memory. Simplified: views and sizes of the inputs are read outside of the weak memory. |
| `WeakReadingLists` | where such kernels find the elements of their inputs: `device_vector`'s and `jagged_device_vector`'s element access, through the views in device memory. Simplified as `WeakReading`. |
| `WeakCounters` | threads of users that read variables, and change others with operations of `device_atomic_ref` whose results they do not use. The operations are those of `WeakMemory`, with its simplifications. |
| `WeakCounting` | `device_atomic_ref` on elements of a `device_vector` of four-byte numbers. An element is one variable of the machine (it is aligned, and only accessed as a whole by the kernel); the view and its size are not read on weak memory. |
| `WeakLoops` | loops of users with `load` and `compare_exchange_strong` of `device_atomic_ref`, with their default orders. The number of tries of a loop is bounded by a parameter, over which the theorems quantify; a thread that has used them up is not at its end. The loop with the class `vecmem::atomic` in device code (`tryUpdateClass`) is only there to show that it is wrong. |
| `Tuple` | `I/utils/tuple.hpp`, `I/utils/impl/tuple.ipp`, `proxy_data_creator` | elements of different types (all are trivially copyable and not constructible from tuples); `tuple_element` |

### Not modelled

`I/concepts/atomic_ref.hpp`, `I/memory/device_address_space.hpp`, `I/utils/{attributes,debug,type_traits}.hpp`,
`I/containers/data/buffer_type.hpp`, `I/containers/details/static_array_traits.hpp`,
`I/memory/polymorphic_allocator.hpp` (type-level or aliases);
the `get_device_name` functions and error strings of CUDA and HIP; `sycl/.../local_accessor.hpp`, `get_queue`,
`cuda_assert_polyfill.sycl`; CMake files, tests, examples and benchmarks.

## Findings

Claims that are false of the code as written; each has a theorem with a concrete witness next to the partial
theorem that does hold.

* C05 `c05_*`: the pool constructor accepts option sets for which its limits do not work (first chunk empty,
  byte minimum not attainable, products overflowing 64 bits, alignment 0).
* C06 `c06_size_cutoff_ignored`: after moving on to a sufficiently aligned cached block the pool does not check
  the size cutoff again.
* C07 `c07_huge_requests_overlap`: requests above 2^63 bytes are served by a page of 256 bytes when assertions are
  disabled.
* C08 `c08_small_request_goes_upstream`: a completely free chunk is not used for requests whose page is smaller
  than 1/256 of it.
* C09 `c09_alignment_ignored`: the binary page resource ignores the requested alignment.
* C10 `c10_arena_overlap`, C12 `c12_superblocks_merged`: the arena merges free blocks by address only, so blocks
  of two superblocks that happen to be adjacent in memory are merged across the border. Upstream then gets back
  merged ranges it never served.
* C11 `c11_null_answer`, `c11_maximum_exceeded`: a request above the superblock size that cannot be met is answered
  with a null pointer, and the maximum size is not checked on growth.
* C12 `c12_deallocate_undefined`: deallocating while every held byte is handed out dereferences the end iterator of
  the set of free blocks.
* Arena, in general: the requested alignment is not used, and rounding sizes up to 256 wraps near 2^64 (hence the
  size limits of the C10-C12 theorems).
* C19 `c19_average_inexact`, `c19_average_undefined`, `c19_total_overflows`: the average is computed with `double` and is off beyond
  2^52 bytes; before the first allocation it is undefined; the total is a 64 bit number that wraps.
* C24: see the note in MANIFEST.json.
* C21 `c21_terminal_throws`: a terminal resource throws for zero bytes instead of returning null.
* C22 `c22_malloc_overflow`, `c22_aligned_overflow`: sizes near 2^64 wrap in the size computations of the host
  resource; the second variant then hands out a block that is too small.
* C20 `c20_copies_race`: copies of a synchronized resource do not exclude one another.
* C28 `c28_capacity_truncated`: a jagged buffer takes `std::size_t` capacities but stores them in 32 bits.
  `c28_fixed_misaligned`: the payload of a fixed size jagged buffer is allocated with the default alignment, so it can
  be misaligned for over-aligned element types (vector buffers and resizable jagged buffers align it themselves).
* C49, C52 `c49_overflow`, `c52_overflow`: `n * sizeof(T)` wraps, and too small a block is returned. `c52_misaligned`:
  the factories use the default alignment for over-aligned types. `c49_leak`, `c52_leak`: an exception from a
  constructor leaks the memory, and the array elements constructed before.
* C29 `c29_assign_own_element`: `device_vector::assign` destroys the elements before it reads its argument, so a
  reference to an own element dangles.
* C31 `c31_release_push`, `c31_release_pop`: the capacity is only checked by assertions. `c31_debug_wrap`: with
  assertions, `bulk_append` still accepts a count that makes the 32-bit sum of the size and the count wrap.
* C32 `c32_insert_own_element`, `c32_insert_own_element_forms`, `c32_assign_own_element`: `static_vector::insert` and
  `emplace` move the elements before they read their argument, `assign` destroys them before.
* C33 `c33_sized_constructor`: the sized constructor sets the size and then calls `assign`, which destroys elements
  that do not exist. `c33_copy_assignment`: there is no copy assignment, the implicit one copies bytes.
* C53 `c53_misaligned`: the array of a `static_vector` is an array of `char` at offset 8.
* `static_vector` moves objects with `memmove`. Formally that is only defined for trivially copyable types; the model
  takes it to relocate the object, as it does on all platforms for most types.
* C34: `static_array<T, 0>` lacks the specialisations its iterators would need, and `array::front() const` applies `*` to
  a `unique_ptr<T[]>`; neither compiles when used, which a model of behaviour cannot express.
* C35 `c35_false`, `c35_truncated`: `get_data` stores inner sizes in 32 bits, so a row of 2^32 elements looks empty.
* C37 `c37_false`: copying an empty vector into a resizable one returns early and leaves its size as it was.
* C38 `c38_fast_path_copies_capacity`: between contiguous jagged vectors of equal capacities whole payloads are copied, so
  elements of a fixed size row behind the copied ones are overwritten. `c38_copy_unequal`: a copy to a jagged vector with
  more rows always throws, unless the source has none. `to` reads the sizes of a resizable jagged source on the host.
* C39 `c39_false`: `set_sizes` accepts (and ignores) sizes which a fixed size jagged vector does not have; views of fixed
  and of variable size are only told apart in one order. `c39_scattered_words`: `get_sizes` reads the size words as one
  array, so it needs them to be adjacent, as in a jagged buffer; a jagged view of independent vectors has them anywhere.
* C40 `c40_memset_strict`: `memset` of a container destroys the event of the block's `memset` without waiting for it, so that
  a build with `VECMEM_FAIL_ON_ASYNC_ERRORS` terminates the program (`discard` models the destructor).
* C40 `c40_memset_empty_jagged`, `c40_memset_container_empty`: `memset` reads the first descriptor of a jagged vector
  without any. `c40_no_capacity`: `setup` of a resizable container without capacity returns before the size is set.
* C41 `c41_wait_false`: an operation that has nothing to do returns an event that does nothing, and waiting for it does not
  wait for earlier operations on the stream. `c41_sycl_false`: the queue of a SYCL `queue_wrapper` is not an in-order queue
  and an event only covers the operations since the one before, so operations that depend on each other may be executed
  in the wrong order if events are ignored.
* C42 `c42_capacity_truncated`: as C28. `c42_payload_truncated`: the size in bytes of the payload view is stored in 32
  bits, so for a payload of 4 GiB or more it is too small (here: 0).
* C44 `c44_empty_not_copied`, `c44_false`: as C37, variable by variable. The payloads are copied as one block if they have
  the same number of bytes, whatever the capacities are: `c44_inner_capacities` (inner capacities 1, 3 and 3, 1: the rows
  are mixed up), `c44_no_length_error` (capacities 4 and 3 with padding: no exception, and the size becomes 4).
  `c44_large_block`: the number of bytes is stored in 32 bits, so 4 GiB are not copied. `c44_paths_differ`: the block copy
  overwrites elements of a fixed size target behind those of the source, the other path does not. The exception for
  different numbers of sizes is thrown after the payload has been copied. Copies to host containers resize their vectors
  first and always go variable by variable; they are exact (`c44_to_host`), and an empty vector does empty its target.
* C43 `c43_failed_resize`: if the allocation for one variable throws in `resize`, the variables before it keep the new size,
  and `size()` and `at` throw `std::length_error` from then on. Not modelled: element types that can be made from a pointer
  to a memory resource. The vectors are made with braces, `{&mr}`, so a `vector<void*>` starts with one element.
* C45 `c45_full`: as C31 for one vector. `c45_push_one_variable`: the vectors of a container share the size word, so
  `get<0>().push_back(x)` makes all vectors longer, and the others have no object at the new index.
* C46: the POSIX, CUDA, HIP and SYCL references and `vecmem::atomic` in SYCL code are atomic, the dummy reference and `vecmem::atomic` in host code are not
  (`c46_dummy_lost_update`, `c46_host_lost_update`). `load` of the dummy reference is a `compare_exchange_strong(0, 0)`, which
  writes, so it can undo a store of another thread (`c46_dummy_load`). The instructions (`atomicAdd`, `__atomic_fetch_add`,
  ...) are taken to be atomic and sequentially consistent here; for memory orders and fences see C73. `sycl::atomic_ref` and
  `std::atomic_ref`, which the library uses if there are such, are not part of it, and are not modelled (C73 takes the default order
  of the former into account).
* C47 `c47_atomic_class_false`: `vecmem::atomic::compare_exchange_strong` returns the result of `atomicCAS`, which is the old
  value, converted to `bool`, and does not update `expected`. `c47_host_read_twice`: in host code it reads the variable
  again to update `expected`. So a loop which tries until it returns true makes a change of 0 twice on a GPU, even with one thread
  (`c88_atomic_class_false`); with `device_atomic_ref`, such loops are right (C88).
* C48: `select_device` of the HIP library ignores an error of `hipGetDevice` and then selects device 0 at the end
  (`c48_hip_cannot_ask`); the CUDA one throws. If the device cannot be selected again the destructor throws, which ends the
  program (`c48_terminate`). The debug message of `stream_wrapper` names the device selected by the caller instead of that of
  the stream, because `select_device::device()` returns the device to go back to (`c48_stream`).
* C50 `c50_not_symmetric`: a `synchronized_memory_resource` is equal to its upstream resource, but the latter is not equal to
  it. `c50_sycl_kinds`: SYCL resources of different kinds are equal if they use the same queue; this is right for giving
  memory back, but the memory they allocate is of different kinds.
* C57 `c57_queue_false`, `c57_queue_move_false`: the copy assignment of the SYCL `queue_wrapper` from a view keeps the queue
  that the target owned so far, and copies and moves look at the owned queue first. So after `a = view`, `a` uses the
  queue of the view, but copies of `a` use the old queue of `a`, and every memory resource or copy object made
  from `a` as well. `c57_stream_own_view`, `c57_queue_own_view`: a wrapper that is assigned a view of its own stream or queue
  destroys it. Not modelled: the device of a new stream (see C48), errors of `cudaStreamCreate`, and the HIP library, which
  has no wrapper of this kind.
* C58: CUDA and HIP resources throw `std::runtime_error` when there is no memory, never `bad_alloc` (`c58_never_bad_alloc`,
  `c58_not_lawful`). A coalescing resource therefore does not go on to its next upstream (`c58_coalescing_stops`,
  `c58_no_fallback`), and an instrumenting one records no event and calls no hook (`c58_instrumenting_silent`). They ignore
  the alignment (`c58_alignment_ignored`, `c58_misaligned`); CUDA itself aligns to 256 bytes.
* C59: element types have trivial destructors (memory is bytes), each step of a program is waited for before the next one, and a
  kernel is taken to touch nothing but the vector it works on, with sequentially consistent memory. Programs may copy
  empty vectors into resizable ones, which has no effect (C37, `c59_empty_copy`); this is the one step that is not as with lists.
* C62: as C59. A jagged buffer's row views are bytes (24 per view, in the order of the members), written by the constructor and
  copied by `setup`; `edm` containers are not part of these programs. Steps that are not as with
  lists: copies of empty vectors (C37), copies of a jagged vector without rows into one with rows (`c62_empty_copy`: no effect,
  nothing thrown). Not allowed: `memset` of a jagged vector without rows (`c40_memset_empty_jagged`).
* C63 `c63_dangling`: a tuple of references to constants can be made from a temporary tuple of values, and then refers to
  objects that no longer exist. `c63_constant_copy`: unlike `std::get`, `get` on a constant tuple of references only gives access
  to constants, but a copy of the tuple gives full access.
* C64: one in-order stream, as in CUDA. The resources do not wait for the stream, and memory stays accessible after it has been
  given back (so that an operation on a destroyed buffer is defined, as it is on memory from a pool); a kernel touches the
  buffers it is given, nothing else. `c64_hasty`, `c64_early_look`: races of hosts that fill or read an array too early; `c64_idle_wait`: a race
  although a later step, which has nothing to do, is waited for. Lists are as in C59.
* C65: the elements are bytes, so element types have trivial destructors. Kernels that load and store elements must be free of races, in
  terms of what each thread accesses when it runs alone. `setup` of a resizable container without capacity does nothing
  (`c40_no_capacity`), and a copy leaves variables of the target as they are for which there is nothing to copy
  (`c44_empty_not_copied`). A copy that throws has copied the variables before the one that does not fit (`c65_refused`). Copies between
  buffers of different capacities are allowed if the numbers of bytes of their elements differ by more than the padding
  (`SizesDiffer`), so that they cannot be copied as one block.
* C66: as C64 and C65. `c66_destroyed_early`: a container with jagged vectors that is destroyed before the stream is done with its `setup`
  makes later constructors race: they write to host accessible memory, which a pool may have given them, while the stream
  still reads it. (For vectors this cannot happen: `c64_stream` allows it.) `c66_failed_copy`: a copy of a container that throws
  `std::length_error` at one variable has given the variables before it to the stream, and returns no event to wait for; programs
  must wait for everything, or for a later event, before they use that memory (`StreamSys.Leaves`).
* C67: as C62 and C64. `c67_destroyed_early`: as `c66_destroyed_early`, for jagged buffers with a host accessible resource. In contrast to
  containers, a copy of a jagged vector that is refused (`std::length_error`) checks all rows before it gives anything to the
  stream, so that `c67_stream` allows it.
* C68 `c68_moved_view`, `c68_dangling`: the defaulted move operations of buffers copy the base class, so a buffer that has been moved from
  still has its capacity and its pointers (to memory of the buffer it was moved to, or to memory that has been given back). The
  documentation does not say what a buffer is after it has been moved from.
* C69 `c69_hole`: `jagged_vector_view<T>` converts to `jagged_vector_view<const T>`, and both share the array of views, which both
  give write access to (`ptr()`, `host_ptr()`).  A `vector_view<const T>` that is stored through the second one is a `vector_view<T>` when read
  through the first one, so a program without any cast writes to memory that it has only a view for reading of (the reason
  why C++ does not convert `T**` to `const T**`).
* C70 `c70_moved_view`, `c70_dangling`: as C68, for `edm::buffer`. `c70_indeterminate`: `edm::view() = default` does not initialise the
  capacity, so `edm::buffer<SCHEMA> b;` has an indeterminate capacity (a `vector_buffer` or `jagged_vector_buffer` made so is empty, as
  their views initialise their members); `edm::buffer<SCHEMA> b{};` sets it to zero.
* C71 `c71_lost`: a block of upstream that a pool, a debugging, an instrumenting or a choice resource cannot record, because the memory
  of its own containers is exhausted, is never given back. `c71_silent`: a coalescing resource then goes on with its next
  upstream resource, without an exception. `c71_twice`: `deallocate` of an instrumenting resource may throw after the
  block has been given back. `c71_arena_neighbours`: a deallocation of an arena that throws loses the free blocks next to the
  block as well. `c71_arena_free`, `c71_arena_create`: an arena is not usable after such an exception: it may
  dereference `end()` when a block is given back, and its destructor may give back what it was not given, or nothing.
* C72 `c72_moved_view`, `c72_dangling`: as C68, for `jagged_vector_data` and `edm::data`: one that has been moved from still has the views, and
  points to an array of views that it does not own. `c72_indeterminate`: `get_data` of a container with scalars only returns an object
  with an indeterminate capacity (as C70). `c72_truncated`: sizes are converted to 32 bits, so a vector of 2^32 elements is
  described as empty.
* C73 `c73_cuda_exchange`, `c73_cuda_acquire`: the CUDA and HIP references have fences in `store` and `load` only. The other operations accept
  a memory order, with the strongest as the default, and ignore it (`atomicAdd` and so on are relaxed), so a message that is sent
  or received with `exchange`, `compare_exchange_strong` or `fetch_add` may arrive without the data, and a lock made from
  them does not protect anything. `c73_sycl_custom`: the custom SYCL reference ignores the order in all operations, also in `store` and `load`.
  `c73_sycl_default`: the default order of `builtin_device_atomic_ref` is the relaxed one, that of all other references is the
  strongest, so code that relies on the default is not portable. `volatile pointer addr` in the CUDA reference (and in `atomic.ipp`) makes the pointer volatile, not
  the variable, so the accesses are ordinary ones in the language; the model takes them to be relaxed atomic accesses.
* C74 `c74_cuda_exchange`, `c74_sycl_custom`: for the same reasons.
* C75 `c75_static_wrap` (and C31 `c31_debug_wrap`, and C84 `c84_wrap` on weak memory): the assertions of `bulk_append` and `insert(pos, count, value)` add sizes that may wrap, so
  that they hold for a count near the maximum of the size type; `insert` has then moved elements out of the array before another
  assertion fails. `c75_release`: without assertions, growing beyond the capacity writes behind the vector.
* C76 `c76_size_no_signal`: the appending calls increase the size before they write the element, so a thread that sees the new size, even with the
  strongest order, may find the old contents at the new place. A kernel cannot read what other threads append while they do; it needs a flag
  of its own, or the end of the kernel. `size()` and `at` read the size in the ordinary way, while other threads add to it with atomic
  operations: a race in the language, which the model takes to read some value that the size has had.
