# Formal model of ASAGI in Lean 4 - design

Source: `/repo` (TUM-I5/ASAGI, pinned). Nothing was built or run; the model is a reading
of the source. Every definition in `lean/Verif/Model/*.lean` cites the file and lines it
models and names its simplifications. The properties are listed in `properties.jsonl`.

## Layout

| path | content |
| --- | --- |
| `lean/Verif/Model/*.lean` | executable model of the code, function by function |
| `lean/Verif/Spec/*.lean` | small specifications, independent of the model |
| `lean/Verif/Proofs/*.lean` | helper lemmas, invariants |
| `lean/Verif/Props/*.lean` | property theorems (one file per area), each with a non-vacuity `example` |
| `MANIFEST.json` | property -> theorem names, status |
| `seeded/LOG.jsonl` | seeded wrong programs and which theorems caught them |

Names: a theorem `Cxx_..._violated` proves the negation of (part of) property Cxx for the code as it is,
with a concrete witness. A theorem `Cxx_..._partial` proves a weaker statement than the property; its
comment and the table below say what is missing.

| module | code |
| --- | --- |
| `Model/Mem`, `Model/Layout` | memory with checked accesses; byte ranges of blocks, slots, windows, buffers |
| `Model/Index` | `Level::open`, `pos2index`, `getMin/Max/Delta`, `round`, reader's offset and scaling |
| `Model/Double` | IEEE binary64 rounding (used as the rounding parameter of `Model/Index`) |
| `Model/Blocked`, `Model/Machine` | block arithmetic of `blocked.h`, exact and in 64/32-bit words |
| `Model/NetCdf` | `getBlock`, `getVar` with the in-place spreading |
| `Model/Lru` | `lru.h`, `cachelist.h` |
| `Model/Levels` | `full.h`, `fulldist.h`, `cache.h`, `passthrough.h` as sequential state machines over all ranks and domains |
| `Model/CacheDist`, `CacheDistLevel`, `CacheDistRun` | `cachedist.h`, `cachemanager.h`, `numacache.h`, `mpiwincache.h`, `mpithreadcache.h` as a transition system with one step per atomic action; an interpreter for examples |
| `Model/CacheDistLib` | the same with the lock of the MPI library (`mpicomm.h`, THREADSAFE_MPI) |
| `Model/FullDistConc` | `fulldist.h`, `numafull.h`, `numafullcache.h`, `mpiwinfull.h`, `mpithreadfull.h` as a transition system with one step per atomic action |
| `Model/CommLife` | `asagi.cpp` 68-76, `mpi/commthread.h` 117-315: starting, stopping, registering and removing over whole histories |
| `Model/CounterConc` | `Counter::inc` (`perf/counter.h` 125-135) of several threads as lock, read and write; `get` (`counter.cpp` 58-93) with each counter read at its own time |
| `Model/Fortran` | `include/asagi.f90`, `asagi_f90.cpp`, `fortran/pointerarray.h` over any class `Grid`; not the static functions |
| `Model/PassConc` | `passthrough.h` 97-122 with several threads as atomic actions |
| `Model/Resources` | what `open` acquires and the destructors release: all level and transfer classes, `Level`'s copy constructor, `simplecontainer.h` 57-112 with `std::vector::resize` as in libstdc++, `grid.cpp` 177-191 |
| `Model/OpenThreads` | `Grid::open` on all threads (`grid.cpp` 214-249): registration (`numa.cpp` 75-154), the waiting and failing operations of `Container::init` of every grid type, broadcast of the result. The barriers count arrivals, which C100 derives from their implementation; pthread failures are not modelled |
| `Model/OpenSync` | The same with the functions of `threads/sync.h` instead of counters: one `Sync` object for all threads (`numa.h` 96), others for the domains (`numa.h` 99, `numacomm.h` 57) in any assignment to the broadcasts; the result is read through the pointer to the variable of thread 0. Without spurious wake-ups (C23) |
| `Model/TypeConc` | `check` of array and struct types by several NUMA domains at once (`arraytype.h` 90-121, `structtype.h` 143-192): the size is fixed under the lock, the MPI data type is created after unlocking. MPI functions succeed; barriers have the meaning of C21 |
| `Model/MpiTypes` | the MPI data types of values (`basictype.h` 99-128, `arraytype.h` 104-111, `structtype.h` 87-126, 143-203) as lists of basic types with displacements and an extent, as in the MPI standard; the copies of a block by all transfer classes, byte for byte. A copy is one step; source and destination are different memories (that places do not overlap is C47). `int` lengths of members do not overflow |
| `Model/WinCache`, `Model/WinCacheRun` | `Model/CacheDist` for MPI windows together with `Model/MpiMutex`: the directory entry is read by the one-sided accesses of `mpi/mutex.h` and `mpiwincache.h` into a buffer of the thread, and written before the unlock |
| `Model/MsgCache`, `Model/MsgCacheRun` | `Model/CacheDist` for the communication thread together with the messages of `transfer/mpithreadcache.h`: tags, one queue of messages and one of replies per pair of processes, `m_infoMutex`, `m_blockMutex`, sends that return early or only when the message was received |
| `Model/FullMsg`, `Model/FullMsgRun` | `Model/FullDistConc` together with the transfers of `transfer/mpithreadfull.h` (request, reply by process, `m_mutex`, sends that return early or late) and `transfer/mpiwinfull.h` (epoch, reads relative to the window of the other process) |
| `Model/SessionComm` | `Model/Session` with the communication of `Model/WinCache`, `Model/MsgCache` and `Model/FullMsg` in the selected implementation |
| `Model/ManyLevels` | several levels of one or several grids that share `mpiLock` and `netcdfLock` of their process: a product of `WinCache`, `CacheDist`, `FullMsg` and `PassConc` in which a thread is inside of one getter at a time and a shared lock is taken only if it is free in all levels |
| `Model/ManySessions` | several opened levels (`Session`) as levels of `ManyLevels`: accesses of FULL levels that only read memory, levels that are used by the threads of one process only, and the choice of the implementation |
| `Model/ManyComm` | several grids, some of them with the communication thread: the product of `ManyLevels`, to which levels of `FullMsg` and `MsgCache` with the communication thread are added; the messages of all grids between two processes are one queue per pair of processes, the communication thread takes the oldest message of a process, finds the level by the tag and works for one level at a time. A grid may be opened by some of the processes; its ranks are translated. One level per grid with the communication thread, all grids open |
| `Model/CommSessions` | several opened levels (`Session`) as levels of `ManyComm`, as in `ManySessions` |
| `Model/OpenWhile` | the MPI calls of `setComm`, `open` and `close` (`mpicomm.h`, `mpialloc.h`, `arraytype.h`, `structtype.h`, `mpiwinfull.h`, `mpiwincache.h`, `grid.cpp` 177-192) with collective operations and `mpiLock`, together with the levels of `ManyLevels` |
| `Model/RecvTable` | the table of receivers of `mpi/commthread.h` 117-315 with all its users on one process; table operations have a begin and an end |
| `Model/CloseMsg` | closing a CACHE grid with the communication thread in all processes: grid.cpp 177-191, mpithreadcache.h 324-338, mpicache.h 83-87, cache.h 76-80 on top of `MsgCache` |
| `Model/CloseWin` | closing a CACHE grid with MPI windows in all processes: mpiwincache.h 120-135, mpicache.h 83-87 on top of `WinCache` |
| `Model/FailedOpen` | what an `open` that returns an error leaves behind: level.h 210-271, simplecontainer.h 78-112 and the type objects |
| `Model/ManyClose` | several grids that are used and closed at the same time: grid.cpp 177-191 for each grid with the communication thread (as in `CloseMsg`, `CloseFull`) and without (barrier and destructors as three steps), commthread.h 280-315 shared by the grids |
| `Model/CloseSessions` | grid.cpp 177-191 for grids that were configured and opened as in `CommSessions`: which threads and processes use and close a level, `close` together with the direct reads of fulldist.h 159-163, the ranks of the communicator of the grid, mpicomm.h 104-119 |
| `Model/CacheCount` | the counters of each domain in the executions of `CacheDist` and `FullDistConc`: cachedist.h 137, 161, 188, cache.h 159, fulldist.h 166, 179, 181, full.h 139, level.h 385-388. An increment is one action (`CountInc` has its reads and writes) |
| `Model/CountInc` | `CacheCount` with `Counter::inc` as lock, read and write: counter.h 125-135, in builds with and without THREADSAFE_COUNTER. A step of an access and the begin of the increment next to it are one action; the mutex is released together with the write |
| `Model/CloseFull` | closing a distributed FULL grid in all processes: full.h 77-81, fulldist.h 91-94, mpithreadfull.h 109-116, mpiwinfull.h 95-103 on top of `FullMsg` |
| `Model/Reopen` | the level classes over several opens: `CacheList::init`, `CacheManager::init` and the `open` functions on an object that was used before |
| `Model/HandleConc` | `fortran/pointerarray.h` with several threads as atomic actions, `std::vector::push_back` as in libstdc++ |
| `Model/DirMachine` | the arithmetic of `transfer/mpicache.h`, `transfer/mpithreadcache.h` 214-248, 573, 599, `cachedist.h` 160 and `mpi/mutex.h` 162-211 in 32 and 64 bits |
| `Model/Convert` | `types/basictype.h` 84-88, `io/netcdfreader.h` 246-291: conversions between the five basic types |
| `Model/Collective` | the lock of `registerReceiver` (`commthread.h` 223-230) and the barrier of `Grid::~Grid` (`grid.cpp` 179-181) |
| `Model/Session` | the path from `setParam` and `open` to the getters: `grid.cpp` 193-240, 278-457 with all level classes |
| `Model/Directory` | the dictionary of `mpicache.h` |
| `Model/MpiMutex` | `mpi/mutex.h` with the locking of `mpiwincache.h` |
| `Model/Messages`, `Model/CommThread`, `Model/MpiCount` | tags and replies, registration and delivery, counts |
| `Model/Sync` | `threads/sync.h`, `threads/once.h` |
| `Model/Races` | order of events in `open` |
| `Model/Counter`, `Model/Params`, `Model/OpenArgs`, `Model/Open`, `Model/Types`, `Model/Api` | counters, parameters, selection, open, value types, registration, handles, node-local ranks |

## Trusted base

* Lean 4.33.0's kernel.
* Axioms: every theorem in the manifest depends on a subset of `propext`, `Classical.choice`,
  `Quot.sound` (checked with `#print axioms` on each of them at every milestone). No `sorry`, no own
  axioms, no `native_decide`, no `bv_decide`. Concrete witnesses and examples are evaluated by the kernel
  (`decide +kernel`).
* The reading of the C++ source. Assumptions on the environment, stated where used:
  * netCDF: `nc_get_varm_*` / `nc_get_vara` deliver the hyperslab they document
    (`Model/NetCdf.lean`, the file is a function from indices to values);
  * POSIX mutexes are exclusive, condition variables wake all current waiters on
    broadcast (spurious wake-ups modelled separately, C23);
  * MPI: messages between a pair of processes on one communicator and tag are delivered,
    in order; `MPI_Fetch_and_op` and `MPI_Compare_and_swap` are atomic; window locks are
    exclusive; a synchronous send completes together with the matching receive; windows have the unified memory
    model (the home process of an entry reads and writes its own memory directly in `mpicache.h`, without
    `MPI_Win_sync`);
  * fairness, only in `C49_fair_partial` (a thread that can continue all the time does so; messages arrive) in
    C102 and `C36_no_starvation` (in addition a lock that is free again and again is granted to everyone who waits for
    it; in `C102_full_transfer` a communication thread also receives the requests of every process; POSIX and MPI do not
    promise this);
  * `std::map`, `std::unordered_map`, `std::vector` behave as finite maps/arrays; a growing
    vector copies its elements and destroys the originals (C42);
  * sequentially consistent memory: data races on plain variables are not modelled as C++ undefined behaviour. One is known, the
    unprotected first check in `Once` (deviation 50). For the memory of the caches there is none: C17 proves that nobody
    reads or writes a slot while another thread writes it, that only writers change the memory, and
    (`C17_only_readers`) that a step depends on no slot but those it reads;
  * `utils::StringUtils` (git submodule, absent from `/repo`): `toUpper` maps ASCII letters
    to upper case and leaves other characters alone; `parse` reads an optional sign and leading digits;
  * each operation on `double` is rounded once to binary64, to nearest even (`Fp.ieee`: C59, C60, C65, C75, C77; `C59_rounding_correct` shows that it is the rounding of IEEE 754).
* Numbers: 64-bit unsigned arithmetic is modelled by unbounded `Nat`. C48 (`Props/Machine.lean`) proves
  that the machine computation gives the same results as long as the number of bytes of the grid and the
  products with the number of processes stay below the stated bounds. Coordinates are rationals with
  infinities and NaN; the rounding of each operation is a parameter. Theorems about `Fp.exact` are about
  exact arithmetic, those about `Fp.ieee` about doubles, those for every `fp` hold for both.
* Undefined behaviour is a distinct outcome where the code can reach it (NaN to integer
  conversion, hand spread >= cache size, dimension of size zero, out-of-range memory accesses).

## What is modelled / not modelled

Modelled: `grid/level/{level,blocked,full,fulldist,cache,cachedist,passthrough}.h`,
`io/netcdfreader.{h,cpp}` (open decision logic, getBlock, in-place spreading),
`cache/{lru,cachelist,cachemanager}.h`, `transfer/*.h`, `mpi/{mutex,commthread,mpicomm}.h`
(protocol level), `threads/{sync,once,mutex,noopmutex}.h`, `numa/{numa.h,numa.cpp,numacomm.h}`,
`types/*.h` (size check state machines, copying of values), `perf/counter.*`,
`fortran/pointerarray.h`, `grid/grid.cpp` (parameters, selection of implementations, open,
counters), `grid/{container,simplecontainer}.h`, `asagi.cpp` (nodeLocalRank), the error enumerations.

Not modelled: the netCDF library, MPI progress, libnuma, memory allocation
failure, logging, `preprocess/` (except the tabulation in `preprocess/test`, see C86), `tools/`, `examples/`,
performance.

Two models of the CACHE and of the distributed FULL grid exist: the sequential one in `Model/Levels` (an
access is one step) and the concurrent one in `Model/CacheDist`, `Model/FullDistConc` (an access is many
steps, copies go value by value). The
distributed lock is atomic in `Model/CacheDist`; `C81_refines` (`Props/WinCache`) proves that the implemented lock
has no other executions. Replies
reach the thread that asked in `Model/CacheDist`; `C82_refines` (`Props/MsgCache`) proves that the implemented
messages (requests that name only a process, replies received by tag) have no other effects on the caches.
Blocks of other processes are read directly in `Model/FullDistConc`; `C83_refines` (`Props/FullMsg`) proves that
the implemented transfers have no other effects. Other
levels of the grid: C38, C39 (`Props/Messages`). The barriers count arrivals in `Model/OpenThreads`; `C100_refines`
(`Props/OpenSync`) proves that the implemented ones have no other effects.

## Model and proof per property

| id | model and proof | result |
| --- | --- | --- |
| C01 | `Index`: `pos2index` on rationals; distance minimality over all samples, ties up, index < size | proved (exact arithmetic) |
| C02 | `Index`: in-range positions need no clamping and are within half a spacing; `C02_double_half_spacing` for doubles | proved |
| C03 | explicit dimension reversal on lists; each function of dimension n reads file dimension dims-1-n | proved (any rounding) |
| C04 | doubles with infinities and NaN, undefined conversion a distinct outcome | proved; NaN shown undefined |
| C05 | `Levels`: open fills the block memory through `getBlock`; refinement to the file | proved |
| C06 | arithmetic bijection for both distribution schemes | proved |
| C07 | memory of all ranks and domains, caches; invariant over histories; refinement to the file; `FullDistConc`: every interleaving, by simulation in `CacheDist` | proved |
| C08 | invariant: slot contents are those of the recorded block; induction over histories | proved |
| C09 | `CacheDist`: inductive invariant over all interleavings; composed with decomposition and `getBlock` | proved |
| C10 | corollary of the refinements | proved |
| C11 | array model of the in-place loop of `getVar`; loop invariant; all shapes | proved |
| C12 | mixed radix lemmas on lists | proved |
| C13-C15 | `Lru` with uninitialised reference bits; invariant on the distance of the hands; termination measure | proved; illegal hand spread shown undefined |
| C16 | invariant of the two maps | proved |
| C17-C19 | `CacheDist`: exclusion and completeness invariants; wait-for order for deadlock freedom; an access always has a way to return | proved |
| C20 | fold over the order of arrival | proved |
| C21, C22 | `Sync`: transition system of mutex and condition variables; inductive invariant, progress | proved (without spurious wake-ups, see C23) |
| C23 | witness trace with a spurious wake-up | violated; partial: without spurious wake-ups |
| C24 | `Sync`: transition system of `Once` | proved |
| C25 | counters as part of the level models, induction over histories | proved |
| C26 | `getCounter` ignores its level | violated; partial: level 0 |
| C27 | map model on lists of characters | proved |
| C28 | minus signs in values are rewritten | violated; partial: every non-negative `int`, and every `int` for BLOCK_SIZE_n; beyond the range of `int` the nearest limit is read (`C28_limits`) |
| C29 | the time dimension default is overwritten | violated; partial: explicit block sizes |
| C30 | decision function; CACHE without MPI selects the opposite NUMA setting | violated for that case; partial: all others |
| C31 | history model of the pointer table | proved (sequential histories) |
| C32 | list model; count of equal names among lower ranks | proved |
| C33 | colour from a hash of the name may be negative | violated; partial: names of at most 15 characters, or of at most 22 ASCII characters |
| C34 | directory entry as a list; invariants over operation sequences | proved; a lossy delete recorded |
| C35 | `CacheDist`: the block read through a window is complete and the requested one | proved |
| C36 | `MpiMutex`: queue invariant, exclusion, order, progress; no starvation in infinite executions (`Proofs/MtxStarve`): windows and process mutexes are free again and again, so the head of the queue releases, and every waiting thread gets to the head | proved |
| C37 | `Messages` and `CacheDist`: replies carry the requested block | proved |
| C38, C39 | tag matching; witness traces with two levels | violated; partial: one level; C39 also several levels whose open requests go to different processes |
| C40 | registration over all ranks, reserved ranges | violated after 32766 registrations; partial: before |
| C41 | tables | violated for C; partial: the others |
| C42 | vector model with copy and destroy | violated; partial: no reallocation; exact condition for every sequence of opens |
| C43 | state machine of `check` | proved |
| C44 | decision function of open | proved |
| C45 | CPU arithmetic | violated for negative numbers; partial: CPU numbers from 0 on |
| C46 | result of domain 0 only | violated; partial: same result on all domains |
| C47 | interval arithmetic | proved |
| C48 | `Machine`: word arithmetic equals exact arithmetic below bounds | proved |
| C49 | `CacheDist`: infinite executions that retry forever; a measure that only refusals increase; invariant of an access that is alone; infinite fair executions, where threads finally only move inside of the retry loop and each request after the last message finds its block | violated (two processes with two threads in one domain; no thread support); partial: with one getter per domain at a time, all getters return in every fair execution; only refusals prolong, an undisturbed access returns |
| C50 | table of names | violated for one documented name; partial: the others |
| C51 | copying of array and struct values | violated for typed getters; getBuf proved |
| C52 | `Races`: order of loading and publishing | violated with several domains; partial: one domain, or lookups after open has returned everywhere |
| C53 | struct description never compared | violated; partial: size recorded |
| C54 | `Races`: request before the receiver is inserted | violated; partial: earlier receivers, or after everyone has registered |
| C55 | decision function | proved |
| C56 | `Races`: barrier between creation and use | proved |
| C57 | count converted to int | violated from 2^31 values; partial: below |
| C58 | `MpiMutex` with late initialisation | violated; partial: early initialisation |
| C59 | `Double`: error bounds of each operation, propagated to the selected index | proved; tolerance shown necessary |
| C60 | `Double`: finiteness of every intermediate result; for the exact condition, which products are NaN (the doubles are multiples of 2^-1074, reciprocals of doubles are not rounded to zero) | violated for extreme values; partial: no overflow; `C60_exact_partial`: exactly when the conversion is undefined |
| C61 | `Params`, `OpenArgs`: last setting or default; the text of a number as `istringstream` reads it, with the limits of `int` and `unsigned int` | proved |
| C62 | `OpenArgs`: induction over open calls | proved |
| C63 | `CacheDist`: invariant over the directory, the updates on the way (alternating announcements and withdrawals) and the owners | proved |
| C64 | `CacheDistLib`: invariant over the holders of the library lock; simulation in `CacheDist` | proved |
| C65 | `Session`: composition of parameters, selection, opening and the getters of all grid types; each kind by its own refinement (C05, C07, C09, C10); exact arithmetic and doubles | proved |
| C66 | `CommLife`: histories of starts, stops, opens and closes; invariant over the tags of open grids | violated for stops with open grids, failed starts and partial starts; partial: grids are closed before the stop |
| C67 | `Collective`: invariant over the barrier in `close` and the requests under way | proved |
| C68 | `Collective`: deadlock freedom by the least open call; decreasing number of steps | violated for concurrent opens and different orders; partial: same order, one opening thread per process |
| C69 | `Convert`: integers, binary floating point formats with rounding to nearest; end to end with C65 | proved; netCDF is assumed to convert like C |
| C70 | `DirMachine`: refinement of the exact directory by the machine one under size bounds | violated for caches with 2^32 slots per process; partial: below |
| C71 | `CounterConc`: invariant `counter + increments not yet done = increments of the log` over all interleavings | proved with THREADSAFE_COUNTER; violated without it (deviation 40) |
| C72 | `Fortran`: simulation of the C++ semantics (grids numbered by creation) by handles, table and memory | proved for unpadded strings; violated for trailing blanks (deviation 41) |
| C73 | `HandleConc`: invariant over all interleavings | proved without use of handles during growth; violated otherwise (deviation 13) |
| C74 | `Reopen`: invariant of a cache with stale table entries, over all histories | proved for FULL on one process and PASS_THROUGH; for CACHE and distributed FULL for blocks not cached before; violated for the others (deviation 42) |
| C75 | C59 (error bounds) composed with the sessions of C65; samples further apart than the errors | proved for almost equidistant samples |
| C76 | `PassConc`: invariant over all interleavings of the getters of a PASS_THROUGH level | proved for threads that took part in `open` (deviation 44) |
| C77 | `Index`, `Double`: rounding errors of the reported range and of the application's arithmetic, then C75; independent specification of the k-th smallest coordinate | proved; in doubles for coordinates below 2^40 spacings |
| C78 | `Resources`: heap of live resources with their uses; ownership invariant over the statements of `open`; the order of the destructors respects the uses | partial: successful opens, finest level first; failing opens up to three kinds of resources (45); growth and re-opening violate it (46) |
| C79 | `OpenThreads`: transition system over threads and calls; invariant: every barrier count is the number of threads beyond it; the thread that is furthest behind can always step | partial: exactly if all domains take part in the same broadcasts (`C79_returns_iff`); one-sided failures hang (24), missing threads hang (19) |
| C80 | `TypeConc`: domains step through `check`, the broadcast of `allocate`, `getMPIType`; invariant with a ghost creator (extends C56 to several files and sizes); equal to the sequential `checkAll` of C43; progress from a second invariant (who waits at a broadcast has arrived there), termination from a measure | proved |
| C81 | `WinCache`: the steps of the lock and of the caches interleaved; simulation: every step is a step of `CacheDist` with an atomic lock or no step; the measure of C18 extended by the steps of the lock | proved |
| C82 | `MsgCache`: queues of messages and replies, calls of `MPI_Send` and `MPI_Isend` as intervals; simulation: every step is a step of `CacheDist`, where requests know their thread, or no step; the simulation relation attributes each request and reply to a thread; a measure on top of that of C49 bounds the steps between two refusals | partial: as in C49, the number of refusals is not bounded; violated in all levels but the first (deviation 6) |
| C83 | `FullMsg`: the transfers of `FullDistConc` in the steps of the code; simulation: every step is a step of `FullDistConc`, where the memory of the other process is read directly, or no step; the relation says who may have a request or reply on the way; the measure of C18 extended by the steps of a transfer | proved (one level: with several, the replies are mixed up, deviation 7) |
| C84 | `SessionComm`: C65 composed with the refinements C81, C82 and C83; the block of a directory entry is computed from its position (C06) | proved (first level with the communication thread, see C38 and C39) |
| C85 | `ManyLevels`: every level is an instance of an interface (`LevelSys.Good`: bounded runs, some step unless it waits for a shared lock, single owner); the product keeps all of it | proved (without the communication thread) |
| C86 | `Blocked`: the formulas for the owner of a block equal the sequential dealing of `preprocess/test/test_index.py`; counts per domain | proved |
| C87 | `ManySessions`: each opened level (`Session`, `SessionComm`) with its selected implementation is an instance of the interface of C85, also with the accesses that only read memory (FULL) and with the threads of one process only; composition with C01, C84 and C85 | proved (without the communication thread) |
| C88 | `ManyComm`: each kind of level is an instance of an interface (`CommSys.Good`: bounded runs up to refusals, some step unless it waits for a shared lock or a communication thread, messages only appended or taken from the front); invariants of the product: the queue restricted to the tags of a level is the queue of this level, one level per communication thread | proved |
| C89 | `CommSessions`: each opened level, also with the communication thread, with its selected implementation is an instance of the interface of C88; composition with C01, C84 and C88 | proved (one level per grid with the communication thread) |
| C90 | `OpenWhile`: the levels of C85 together with the MPI sections of `open` and `close` (collective operations, `mpiLock` held during them); getters and sections can only block each other through `mpiLock` and the barriers: the section with the least number can continue, or a getter of the process that has not reached it | partial: the barrier of `close` and the MPI types are entered without the lock (`C90_one_in_mpi_violated`); two threads of a process that open grids block each other with THREADSAFE_MPI (`C90_two_openers_violated`) The order of the sections is also derived from a history of `setComm`, `open` and `close` calls with any kinds of levels (`C90_history`, `C90_history_in_use`) |
| C91 | `RecvTable`: the threads of one process, the communication thread and `m_lock` as a transition system in which table operations have a begin and an end; other processes may send anything; invariant by induction, a measure for the returns | partial: `send` and the communication thread search the table without the lock (`C91_read_while_erased_violated`: also in programs with one thread; `C91_read_while_inserted_violated`), and the lock of `close` is released by another thread (`C91_foreign_unlock_violated`) |
| C92 | `CloseMsg`, `CloseFull`, `CloseWin`: the transition systems of C81, C82 and C83 with a stage of `close` per process; invariant by induction (before the barrier the state is one of the system without `close`, afterwards nothing but late messages is left), a measure for the returns | proved; messages that arrive after their receiver was removed are directory updates, which nobody waits for |
| C93 | `Levels`: case distinction over the access function in a state reached by any history, with the invariant of the caches | proved |
| C94 | `FailedOpen`: induction over histories of failing opens and getters (values), of calls of open (type object) and of opens of levels (list of levels) | partial: violated (deviation 49) |
| C95 | `ManyClose`: the closing systems of C92 are shown to be instances of the interface of C88 (a step of `close` is one that nobody else notices); the product of C88 then gives values, exclusion and delivery; for progress the first grid of the order that is not closed everywhere can take a step | proved (one level per grid with the communication thread; all grids opened by all processes) |
| C96 | `CloseSessions`: the closing systems of C95, restricted to the threads of a session, with the direct reads of FULL grids and the ranks of the communicator of the grid, are shown to be instances of the interface of C95 (in which the members of the communicator take the place of all processes); C65, C30 and the configuration of a session give the hypotheses | proved (levels with the communication thread: the first one of a grid, as C89; a level without communication is one level for each process, and all processes of the communicator close each of them) |
| C97 | `CacheCount`: a record of all accesses (domain, block, found or not, places from which the block was copied), kept beside the execution from the positions of the threads only; invariant: for each domain and place, counter = returned accesses + running accesses that have counted; sum over the finite set of running threads | proved for builds with THREADSAFE_COUNTER (`CountInc`: the executions with increments as lock, read and write refine those with increments as single actions, and conversely); violated without the option if a domain has several threads (deviation 40), proved without it for CACHE grids with one thread for each domain |
| C98 | `CacheDist` + `CacheCount`: the list of events of an execution (a getter asks, a thread begins to copy a block, takes the slot of another block, the getter returns), from the positions of the threads only; invariants: a domain that has copied a block and not evicted it has a slot for it; with MPI windows a block that was read and not evicted is in the directory, with an entry that nobody is about to withdraw; a slot that is not being filled has a block that was read; the slots are used one after another while the blocks fit (C14) | proved; `C98_thread_reads_twice` and `C98_domains_read_twice`: with the communication thread, or between NUMA domains without MPI, two readers of a new block both read the file; `C98_full_*`: the same for distributed FULL grids, whose events follow from those of the shared cache |
| C99 | `MpiTypes`: packing and unpacking of messages by the parts of the data type; the parts of each type are inside of the extent, do not overlap and contain all declared bytes; induction over the parts of a message and over the copies of a block | proved; `C99_undeclared_violated`, `C99_too_large_violated`, `C99_too_large_undefined`: `open` does not compare the declared struct with the values of the file |
| C100 | `OpenSync` refines `OpenThreads`: a thread counted by the object has arrived; invariant: the number of completed uses of every object by every domain is the number of its broadcasts in the operations the domain has completed (equal for all domains in completed calls, by C79); the theorems about `Sync` (C21, C22) then say that a thread leaves only if all have arrived; for termination each thread has a position that no step of another thread decreases | proved |
| C101 | `OpenSync`: the invariant of C100 gives where all threads are when the tables are written; the step that sets the mark leads to a state in which all threads have registered, so before it all others are in the barrier | proved; `C101_extra_thread_violated`, `C101_spurious_violated` (`OSStepSpurious`) show that the hypotheses are needed |
| C102 | infinite executions `σ : Nat → State` with any calls; general theorem `LockSys.returns` (`Proofs/Starve`): if locks are taken in a fixed order, the holder of a lock needs only later ones, and locks are granted fairly, every thread leaves; instances `CacheDist`, `CacheDistLib`, `FullDistConc`, `PassConc`; `C102_window` (`Proofs/WinStarve`) for `WinCache` with the implemented distributed lock, from C36_no_starvation; `C102_full_transfer` (`Proofs/FullMsgStarve`) for `FullMsg`: a pending reply is received, hence a communication thread returns to receiving, hence a pending request is received, hence the mutex of a process is free again and again, and C102_full applies; `C102_levels` (`Proofs/ManyStarve`, with one instance per kind of level in `ManyStarveKinds` and `ManyStarveWin`) for several levels at the same time: netcdfLock is released by its holder, hence mpiLock is, hence the steps of every level are fair if those of all levels are; `C102_program` (`Proofs/SessionStarve`): the implementations that the parameters select (`Session`, `ManySessions`), also with accesses that only read memory, are such levels | proved; `C102_unfair_lock_violated` shows that fair locks are needed |

## Deviations of the code from the properties

Found while modelling; where a theorem is named, it proves the deviation for the model.

1. The default block size of the time dimension is overwritten (`C29_time_default_violated`).
2. CACHE with MPI OFF selects NUMA sharing exactly when it is switched off (`C30_cache_numa_violated`).
3. `getCounter` ignores the level (`C26_level_violated`).
4. The C error enumeration lacks one value of the C++ enumeration (`C41_c_violated`).
5. Negative CPU numbers for the communication thread (`C45_negative_cpu_violated`).
6. `MPIThreadCache` waits for directory replies without the tag offset of the level
   (`C38_directory_reply_violated`, `C38_directory_wait_violated`).
7. `MPIThreadFull` uses tag 0 for all levels (`C39_levels_mix_violated`).
8. Opening a further level reallocates the vector and destroys opened levels (`C42_reopen_violated`).
9. The condition waits of `Sync` are not in loops (`C23_spurious_violated`, `C23_null_violated`).
10. Deleting an absent directory entry drops a valid one (`C34_lossy_delete`).
11. `Grid::open` returns the result of domain 0 only (`C46_open_result_violated`).
12. A hand spread >= the cache size reads outside of the array (`C13_illegal_spread`); NaN coordinates
    are undefined (`C04_nan_is_undefined`).
13. `PointerArray::get` and `remove` are not protected against a concurrent `add`: when the vector grows, freed
    memory is read (`C73_freed_violated`) or a removed entry comes back (`C73_lost_close_violated`).
14. `nodeLocalRank` passes a negative colour to `MPI_Comm_split` for some names (`C33_colour_violated`).
15. A documented counter name does not exist (`C50_file_load_violated`).
16. Without thread support `try_lock` always fails and block requests repeat forever
    (`C49_noop_violated`).
17. Registration numbers reach the reserved tags (`C40_reserved_tags_violated`).
18. `setParam` rewrites minus signs in values (`C28_negative_violated`, `C28_minus_one_violated`).
19. `setThreads(0)` makes the registration wait for ever; so does one thread whose CPU cannot be determined
    (`C79_missing_thread`).
20. A process can answer requests before all its domains are loaded (`C52_unloaded_violated`).
21. The description of a struct is never compared with the variable (`C53_struct_description_violated`).
22. A request can reach a process before its receiver is registered (`C54_request_lost_violated`).
23. The typed getters of array and struct grids copy the whole value (`C51_typed_overflow_violated`,
    `C51_typed_conversion_violated`).
24. If the allocation, an MPI window or a receiver fails in domain 0, the other domains wait for ever and no thread
    returns from `open` (numacomm.h 136-142; `C79_hang`, `C79_allocation_hang`). The same happens if the file can be
    opened in some domains only.
25. `CommThread::unregisterReceiver` locks a mutex that another thread unlocks (`C91_foreign_unlock_violated`).
26. `MPIWinCache` initialises its locks after others can use them (`C58_late_init_violated`).
27. Counts are converted to `int` (`C57_large_block_violated`, `C57_rejected_violated`).
28. Two processes that request blocks from each other can fail for ever (`C49_livelock_violated`).
29. The buffer of PASS_THROUGH and `m_rankCacheSize` are computed in 32 bits (bound in `C48_pass`).
30. `round` misrounds the largest double below one half (`C59_tolerance_needed`).
31. Finite positions can overflow to NaN in dimensions with one sample (`C60_overflow_violated`,
    `C60_tiny_violated`).
32. `Grid::~Grid` (barrier), `CommThread` and the creation of MPI types call MPI without `mpiLock`, so
    that closing one grid while another one is accessed enters MPI from two threads (`C90_one_in_mpi_violated`; the
    communication thread: read only).
33. `stopCommThread` with open grids resets the tags; after a restart, closing an old grid removes the
    receiver of a new one (`C66_restart_violated`).
34. After a failed `startCommThread` the thread can neither be started nor stopped
    (`C66_failed_start_violated`).
35. `open` hangs on processes with the communication thread if it is missing on others
    (`C66_some_started_violated`).
36. `registerReceiver` holds a lock during a collective operation: threads that open different grids at the
    same time can deadlock (`C68_concurrent_open_violated`). `close` has an undocumented barrier
    (`C68_close_order_violated`).
37. `CommThread::send` and `commThreadHandler` search the table of receivers without the lock. A program with one thread that
    closes a grid and then reads another one searches the table while the communication thread removes the entry
    (`C91_read_while_erased_violated`); a message that arrives while a grid is opened is the other case
    (`C91_read_while_inserted_violated`).
38. The result of `nc_get_varm_*` is ignored (`netcdfreader.h` 246-291): a value that does not fit the type of
    the grid (NC_ERANGE) is stored without any message (`C69_truncates`, `C69_wraps`).
39. The number of slots of a process is computed in 32 bits (`mpicache.h` 101): two domains with 2^31 blocks
    give 0 and a division by zero (`C70_rank_cache_size_violated`).
40. Without THREADSAFE_COUNTER (the default, and documented) increments of two threads are lost
    (`C71_lost_update_violated`, and for two complete getters `C97_unlocked_violated`). Also with it, `get`
    reads the counters without the locks, one after the other: `local_hits` can be 2^64 - 1 while another thread reads a value (`C71_hits_wrap_violated`).
41. The Fortran procedures pass strings with their trailing blanks (`asagi.f90` 341-342, 363): parameters set
    from longer character variables are silently ignored (`C72_padding_violated`).
42. `CacheList::init` does not clear the table `m_blockToIndex` (cachelist.h 86-93). If a level of a CACHE grid (or
    of a FULL grid on several processes) is opened a second time after it was read, the blocks that the cache held
    count as present although the new cache memory is zero: the getters return zeros whatever the new file contains,
    and if the new cache is smaller they leave the arrays (`C74_cache_stale_violated`, `C74_cache_violated`,
    `C74_fulldist_violated`). The memory of the first open is not freed. The documentation asks for one open per
    level (02_usage.h 95) but the library does not refuse the second one.
43. Found by reading, not modelled: `NoNuma::registerThread` (numa/nonuma.h) has one parameter, but `Grid::open`
    (grid.cpp 217) passes two, so builds without thread support (`THREADSAFE=OFF`) do not compile.
44. Threads that did not take part in `open` have the number 0 (numa.h 131-135) and share the buffer of thread 0 in
    PASS_THROUGH grids: both can return the value of the other one (`C76_other_threads_needed`). If the library
    detects several NUMA domains they also use the caches of domain 0, which is harmless.
45. If `MPI_Win_create` fails, `MPIWinFull` does not release its mutex (mpiwinfull.h 93-101 tests `m_mpiWin` only:
    `C78_window_leak`). If the first receiver of `MPIThreadCache` cannot be registered, e.g. because the communication
    thread was not started, the list of cache managers and the mutexes of the directory are not released
    (`C78_receiver_leak`). Found by reading, not modelled: the groups of `MPI_Comm_group` (mpithreadfull.h,
    mpithreadcache.h, commthread.h) are never freed.
46. When the vector of levels grows after a level was opened (levels opened coarse to fine), the old level objects are
    destroyed although the new ones hold the same pointers: closing the grid releases everything a second time
    (`C78_growth_double_free`, for every grid type; deviation 8 has the effect on reads). A level that is opened
    twice leaks what the first open acquired (`C78_reopen_leaks`); with a communication thread the first receiver
    stays registered for an object that no longer exists (`C78_reopen_receiver`).
47. Found by reading, not modelled: `MPICache::init` ignores the result of `Allocator::allocate` and its callers ignore
    the result of `MPICache::init` (mpicache.h 104-108, mpiwincache.h 169, mpithreadcache.h 363), so a failed allocation
    of the dictionary writes through a null pointer. `mpiLock` is held during the collective `MPI_Win_create` and
    `MPI_Comm_dup` of THREADSAFE_MPI builds, so that the deadlock of deviation 36 is possible there, too (this is modelled:
    `C90_two_openers_violated`). `startBarrier`
    reports success without the lock if `pthread_mutex_lock` fails.
48. A thread that did not take part in the first `open` and calls a later `open` is treated as thread 0, i.e. as the
    master of domain 0 (numa.cpp 77-80): `C79_extra_thread`. Two threads then execute the part of the master at the
    same time (`C79_extra_thread_violated`). What happens to the barriers afterwards is not modelled.
49. An `open` that fails changes the grid (C94). It replaces the reader of the level first, so that afterwards every getter
    of a PASS_THROUGH level and every getter of a CACHE level for a block that is not in the cache uses a reader that was
    never opened (`C94_pass_violated`, `C94_cache_violated`). If the type check fails, the level has the coordinates of
    the new file and the values of the old one (`C94_wrong_size_violated`). If memory or communication fail, an array or
    struct type keeps the size it was given, and a later `open` of a file with another size returns `WRONG_SIZE`
    (`C94_later_violated`). An `open` of a finer level that fails destroys the levels opened before
    (`C94_levels_violated`, compare deviation 8). Found by reading, unused: `NetCdfReader::isOpen` (netcdfreader.h
    116-119) returns the opposite.
50. `Once::saveExec` reads `m_state` without the mutex (once.h 73), while another thread may be writing it (85)
    (`C24_race_violated`). `m_state` is a plain `bool`, so this is a data race in C++. `Grid::open` calls it from all
    threads (grid.cpp 224).
51. A consequence of deviation 21: `StructType::check` compares the size of the values only with that of earlier levels, never
    with the declared members (structtype.h 143-192). A struct that is declared larger than the values of the file can be opened; copies by MPI then
    write behind the block, or use a data type that MPI does not allow (`C99_too_large_violated`, `C99_too_large_undefined`).
52. Members that are in the file but not declared are delivered by `getBuf` if the block was read by the own process, and are
    indeterminate if it was copied from another process (`C99_undeclared_violated`).
