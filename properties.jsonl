{"id": "C01", "title": "Getters sample the nearest grid value", "statement": "A getter called with a finite position returns the value of the grid sample whose coordinate is, in every dimension independently, at least as close to the given coordinate as the coordinate of any other sample; on a tie the sample with the larger index wins. In particular the selected index is always a valid index of the file dimension, also for positions far outside the grid. This is about the exact values of the arithmetic expressions; C59 and C60 are about their evaluation in double precision.", "quantifier": "all finite positions, all dimension sizes >= 1, all offsets, all non-zero scalings (ascending or descending coordinate axes)", "why_tests_cant": "positions and grid geometries form an infinite set; boundary and tie cases are exactly where a rounding or clamping error hides", "anchors": ["grid/level/level.h: Level::pos2index, Level::round, Level::getInvScaling", "grid/level/level.h: Level::open"]}
{"id": "C02", "title": "Positions inside [getMin, getMax] are never clamped", "statement": "For every dimension n, getMin(n) <= getMax(n), getDelta(n) >= 0, and a position with getMin(n) <= pos[n] <= getMax(n) selects a sample within half a sample spacing of the position (no clamping takes place), for cell-centered and for vertex-centered grids. (Exact values; see C59 for double precision.)", "quantifier": "all offsets, scalings, sizes, both VALUE_POSITION settings and all positions inside the reported range", "why_tests_cant": "needs every rational position in the range and every geometry", "anchors": ["grid/level/level.h: Level::open", "grid/level/level.h: Level::min, Level::max, Level::delta", "documentation/user/02_usage.h"]}
{"id": "C03", "title": "All per-dimension API arguments use the same dimension order", "statement": "pos[n], getMin(n), getMax(n), getDelta(n) and BLOCK_SIZE_n all refer to the same dimension of the netCDF variable, namely dimension dims-1-n (C order in the file, Fortran order in the API), for every number of dimensions.", "quantifier": "all numbers of dimensions and all dimension numbers n", "why_tests_cant": "one swapped index only shows on particular shapes; the claim is over every rank of the array", "anchors": ["grid/level/level.h: Level::min, Level::max, Level::delta, Level::pos2index", "grid/level/blocked.h: Blocked::open", "grid/simplecontainer.h: SimpleContainer::init"]}
{"id": "C04", "title": "Dimensions of size one accept every finite coordinate", "statement": "If a dimension has exactly one sample, getMin is minus infinity, getMax is plus infinity, getDelta is infinity, and every finite coordinate selects that sample; no undefined conversion is executed. A NaN coordinate (or an infinite one in such a dimension) is outside the contract: the code would execute an undefined double-to-integer conversion. (Exact values; see C60 for double precision.)", "quantifier": "all finite coordinates and all offsets", "why_tests_cant": "infinite arithmetic and NaN propagation across an unbounded value set", "anchors": ["io/netcdfreader.h: NetCdfReader::getScaling", "grid/level/level.h: Level::open, Level::pos2index, Level::getInvScaling"]}
{"id": "C05", "title": "FULL grids return the file's value", "statement": "With grid type FULL on one process and one NUMA domain, after a successful open every getter returns exactly the value stored in the netCDF variable at the selected index, for every block size.", "quantifier": "all files (any dimensions, sizes, contents), all block size settings, all positions", "why_tests_cant": "a data-layout theorem over arbitrary shapes, including partially filled edge blocks", "anchors": ["grid/level/full.h: Full::open, Full::getAt", "grid/level/blocked.h", "io/netcdfreader.h: NetCdfReader::getBlock"]}
{"id": "C06", "title": "Distributed block ownership is a bijection", "statement": "For every number of MPI processes and NUMA domains the block distribution assigns each block of the grid to exactly one (process, domain, slot): owner process < process count, domain < domain count, slot < slots per domain, no two blocks share a place, and the enumeration of local blocks used while opening visits exactly the owned blocks.", "quantifier": "all process counts, domain counts >= 1, all block counts, both distribution schemes (ROUND_ROBIN on/off)", "why_tests_cant": "arithmetic claim over all sizes; off-by-one errors show only when counts do not divide evenly", "anchors": ["grid/level/blocked.h: blockRank, blockDomain, blockOffset, blockNodeOffset, local2global, localBlockCount, nodeBlockCount", "grid/level/full.h: Full::open"]}
{"id": "C07", "title": "Distributed FULL grids return the file's value on every process and thread, after any history", "statement": "With a FULL grid distributed over processes and NUMA domains, every getter on every process returns the file's value at the selected index, whether the block is stored locally, fetched from another NUMA domain, fetched from another process, or found in the block cache, after any sequence of previous accesses and evictions.", "quantifier": "all process/domain counts, cache sizes, hand spreads, block sizes and access histories", "why_tests_cant": "unbounded histories of evictions and transfers", "anchors": ["grid/level/fulldist.h: FullDist::open, FullDist::getAt", "transfer/numafull.h: NumaFull::transfer", "transfer/numafullcache.h: NumaFullCache::transfer", "transfer/mpiwinfull.h: MPIWinFull::transfer", "transfer/mpithreadfull.h: MPIThreadFull::transfer"]}
{"id": "C08", "title": "CACHE grids return the file's value after any history", "statement": "With grid type CACHE, every getter returns the file's value at the selected index after any sequence of previous accesses, hits, misses and evictions, for every cache size, hand spread and block size.", "quantifier": "all access histories, cache sizes >= 1, legal hand spreads, block sizes, files", "why_tests_cant": "stale data after an eviction appears only for particular long histories", "anchors": ["grid/level/cache.h: Cache::getAt, Cache::loadBlock", "cache/cachemanager.h: CacheManager::get", "cache/cachelist.h: CacheList"]}
{"id": "C09", "title": "Shared CACHE grids never serve another block's data", "statement": "With a CACHE grid shared between NUMA domains and processes, a getter returns the file's value at the selected index, no matter whether the block came from the own cache, another domain's cache, another process's cache or the file, for every interleaving with other domains' and processes' accesses.", "quantifier": "all interleavings of accesses by all domains and processes, all cache sizes", "why_tests_cant": "needs all interleavings of block transfer and eviction", "anchors": ["grid/level/cachedist.h: CacheDist::getAt", "transfer/numacache.h: NumaCache::transfer", "transfer/mpiwincache.h", "transfer/mpithreadcache.h"]}
{"id": "C10", "title": "Tuning parameters and grid types never change values", "statement": "FULL, CACHE and PASS_THROUGH grids with any block sizes, cache size, hand spread and distribution return the same value for the same position of the same file.", "quantifier": "all pairs of configurations, histories and positions", "why_tests_cant": "quantifies over pairs of configurations", "anchors": ["grid/level/full.h", "grid/level/cache.h", "grid/level/passthrough.h", "grid/grid.cpp: Grid::initContainers"]}
{"id": "C11", "title": "Compound values are laid out correctly in edge blocks", "statement": "When a block of array or struct values is read whose extent is cut by the end of the file, the compact data delivered by netCDF is spread in place so that every value inside the file ends up at its row-major place in the block, without any value being overwritten before it is moved and without touching memory outside the block.", "quantifier": "all numbers of dimensions, block shapes and clipped shapes, all contents", "why_tests_cant": "in-place overlapping move correctness for arbitrary shapes", "anchors": ["io/netcdfreader.h: NetCdfReader::getBlock, NetCdfReader::getVar<void>"]}
{"id": "C12", "title": "Block decomposition addresses every sample exactly once", "statement": "For every index inside the grid the block number is below the number of blocks, the offset inside the block is below the block size, the block's position is recovered from the block number, and two different indices never share (block, offset).", "quantifier": "all shapes, block shapes and indices", "why_tests_cant": "bijection over arbitrary mixed-radix shapes", "anchors": ["grid/level/blocked.h: blockByCoords, calcBlockPosition, calcOffsetInBlock, Blocked::open"]}
{"id": "C13", "title": "Cache replacement always terminates inside the cache", "statement": "For every cache size >= 1 and hand spread below the cache size (or the default), choosing a slot for a new block terminates after at most (spread+1) hand moves, returns a slot number below the cache size, and never reads an uninitialised reference bit, after any history of accesses. With a spread >= the cache size the code writes out of bounds.", "quantifier": "all sizes, spreads and histories", "why_tests_cant": "termination and initialisation over all histories", "anchors": ["cache/lru.h: LRU::init, LRU::access, LRU::getFree"]}
{"id": "C14", "title": "No block is evicted or reloaded before the cache is full", "statement": "As long as at most CACHE_SIZE different blocks have been accessed, no block is evicted: each block is loaded exactly once, whatever the order and number of repeated accesses.", "quantifier": "all access histories touching at most CACHE_SIZE distinct blocks, all sizes and legal spreads", "why_tests_cant": "unbounded histories with arbitrary repetition", "anchors": ["cache/lru.h: LRU::getFree", "cache/cachelist.h: CacheList::getFreeIndex"]}
{"id": "C15", "title": "Recently used blocks get a second chance", "statement": "A block whose slot has been used since the clearing hand last passed it is evicted only if the clearing hand passes it again during the same search, i.e. only if the spread+1-many slots searched before were all recently used as well.", "quantifier": "all cache states reachable by any history", "why_tests_cant": "statement about all reachable replacement states", "anchors": ["cache/lru.h: LRU::getFree", "documentation/user/02_usage.h"]}
{"id": "C16", "title": "A cache holds each block at most once and never exceeds its size", "statement": "After any sequence of accesses the cache contains at most CACHE_SIZE blocks, no block is stored in two slots, each slot holds at most one block, and the eviction report names exactly the block that was removed.", "quantifier": "all access histories", "why_tests_cant": "invariant over unbounded histories", "anchors": ["cache/cachelist.h: CacheList::getIndex, CacheList::getFreeIndex"]}
{"id": "C17", "title": "Concurrent cache accesses are exclusive and see complete data", "statement": "For any number of threads accessing one cache in any interleaving: at most one thread uses a slot at a time, a thread that is told its block is present sees that block's complete data, and nobody ever sees a partly filled or replaced block.", "quantifier": "all interleavings of any number of threads, any cache size, any access sequence", "why_tests_cant": "schedules cannot be enumerated by tests", "anchors": ["cache/cachemanager.h: CacheManager::get, tryGet, unlock", "threads/mutex.h"]}
{"id": "C18", "title": "Concurrent cache accesses cannot deadlock", "statement": "If every thread eventually finishes with its block, there is never a state in which some thread waits inside the cache and no thread can make progress.", "quantifier": "all reachable states of any number of threads", "why_tests_cant": "absence of a bad state over all schedules", "anchors": ["cache/cachemanager.h: CacheManager::get, tryGet, unlock"]}
{"id": "C19", "title": "Blocks copied from another NUMA domain's cache are the requested, complete blocks", "statement": "A copy from another domain's cache succeeds only if that cache holds the requested block completely loaded; the copy never waits for a lock, and a failed attempt changes nothing.", "quantifier": "all interleavings of lookups from other domains with local accesses, fills and evictions", "why_tests_cant": "race-dependent", "anchors": ["transfer/numacache.h: NumaCache::transfer", "cache/cachemanager.h: CacheManager::tryGet", "threads/noopmutex.h"]}
{"id": "C20", "title": "Thread registration gives unique thread numbers and dense domains with one master each", "statement": "When the configured number of threads open a grid, each gets a different thread number below the thread count, domain numbers are exactly 0..domains-1, threads on the same NUMA node share the domain, threads on different nodes have different domains, each domain has exactly one master thread, and the packed thread-local identifier returns both numbers unchanged.", "quantifier": "all thread counts, all assignments of threads to NUMA nodes, all arrival orders", "why_tests_cant": "quantifies over arrival orders and node assignments", "anchors": ["numa/numa.cpp: Numa::registerThread", "numa/numa.h: Numa::threadId, Numa::domainId, Numa::isMaster"]}
{"id": "C21", "title": "Thread barrier: nobody leaves before everybody has arrived", "statement": "In each use of the barrier by exactly the declared number of threads, no thread passes the barrier before all threads have entered it, for any number of consecutive uses, and a thread that is already in the next use cannot mix with threads still leaving the previous one.", "quantifier": "all interleavings, all thread counts, any number of rounds (without spurious wake-ups)", "why_tests_cant": "schedule-dependent", "anchors": ["threads/sync.h: Sync::startBarrier, waitBarrier, endBarrier, barrier"]}
{"id": "C22", "title": "Broadcast delivers the root's value and the root leaves last", "statement": "A broadcast between the threads of a process gives every thread the root's value, and the root does not leave (its value stays valid) before every other thread has copied it.", "quantifier": "all interleavings, thread counts, rounds and roots", "why_tests_cant": "schedule-dependent lifetime property", "anchors": ["threads/sync.h: Sync::broadcast, waitBarrier"]}
{"id": "C23", "title": "The thread barrier tolerates spurious wake-ups", "statement": "POSIX allows a condition wait to return without a signal; the barrier still must not let a thread pass before all threads have arrived.", "quantifier": "all interleavings including spurious wake-ups", "why_tests_cant": "spurious wake-ups cannot be provoked by tests", "anchors": ["threads/sync.h: Sync::startBarrier, Sync::waitBarrier"]}
{"id": "C24", "title": "One-time initialisation runs exactly once", "statement": "Code protected by the once-guard runs exactly once however many threads call it concurrently, and no caller returns before it has run.", "quantifier": "all interleavings and thread counts", "why_tests_cant": "schedule-dependent", "anchors": ["threads/once.h: Once::saveExec", "grid/grid.cpp: Grid::open"]}
{"id": "C25", "title": "Counters account for every access", "statement": "After any single-threaded history, accesses equals the number of getter calls on blocked/pass-through levels, misses = numa_transfers + mpi_transfers + file_loads, hits + misses = accesses (no wrap-around), and every access causes at most one transfer or load.", "quantifier": "all histories and grid types", "why_tests_cant": "accounting identity over unbounded histories", "anchors": ["perf/counter.h: Counter::inc, Counter::get", "perf/counter.cpp", "grid/level/*.h: getAt"]}
{"id": "C26", "title": "getCounter reports the requested level", "statement": "getCounter(name, level) reports the counter of the given level.", "quantifier": "all levels and histories", "why_tests_cant": "no test opens more than one level", "anchors": ["grid/grid.cpp: Grid::getCounter", "grid/simplecontainer.h: SimpleContainer::getCounter"]}
{"id": "C27", "title": "Parameters: names are case- and dash-insensitive, the last setting wins, levels are independent", "statement": "setParam with names that differ only in case or in '-' versus '_' set the same parameter; reading a parameter yields the last value set for that name and level; settings for one level do not affect another level; the variable name is kept verbatim while other values are normalised.", "quantifier": "all parameter names, values, levels and setting sequences", "why_tests_cant": "all strings and sequences", "anchors": ["grid/grid.cpp: Grid::setParam, Grid::param"]}
{"id": "C28", "title": "Negative numeric parameter values are understood", "statement": "Numeric parameters documented with negative values (the default -1 of CACHE-HAND-SPREAD and TIME-DIMENSION, and -1 for BLOCK-SIZE-i) are stored such that the number can be parsed back.", "quantifier": "all numeric parameters and all negative integers", "why_tests_cant": "the normalisation rewrites the value; depends on every parameter name", "anchors": ["grid/grid.cpp: Grid::setParam"]}
{"id": "C29", "title": "The time dimension defaults to block size one", "statement": "If TIME-DIMENSION is set to a valid dimension and no block size is given for it, blocks have extent 1 in that dimension.", "quantifier": "all dimension counts, time dimensions, sizes", "why_tests_cant": "one branch overwritten by a later loop; only visible in block shape", "anchors": ["grid/level/blocked.h: Blocked::open", "documentation/user/02_usage.h"]}
{"id": "C30", "title": "Grid type and communication parameters select the documented implementation", "statement": "For every combination of GRID, MPI-COMMUNICATION, NUMA-COMMUNICATION and VALUE-POSITION settings and every number of processes and NUMA domains, the level implementation is one that can reach every block: a non-distributed implementation is selected only when each process (domain) holds all data it needs, and data is shared between NUMA domains exactly when NUMA communication is not switched off. Opening ends with the error about missing MPI-3 support exactly for CACHE grids that would have to exchange blocks between processes by windows in a build without MPI-3.", "quantifier": "all combinations of settings, process and domain counts", "why_tests_cant": "combinatorial decision table over unbounded counts", "anchors": ["grid/grid.cpp: Grid::initContainers"]}
{"id": "C31", "title": "Fortran handles are unique and never reused", "statement": "Each created grid gets a handle different from all handles given out before, a handle refers to its grid until that grid is closed, closing one grid leaves all other handles valid, and a closed handle yields no grid.", "quantifier": "all sequences of create and close", "why_tests_cant": "unbounded histories", "anchors": ["fortran/pointerarray.h: PointerArray::add, get, remove", "grid/grid.cpp: Grid::~Grid", "asagi_f90.cpp"]}
{"id": "C32", "title": "nodeLocalRank numbers the processes on each host", "statement": "nodeLocalRank returns the number of lower ranks in the communicator that run on a host with the same name, so the results on one host are exactly 0..k-1, independently of hash collisions between host names.", "quantifier": "all assignments of host names to ranks", "why_tests_cant": "hash collisions are astronomically rare in tests", "anchors": ["asagi.cpp: nodeLocalRank"]}
{"id": "C33", "title": "nodeLocalRank splits the communicator with a legal colour", "statement": "The colour passed to MPI_Comm_split is non-negative (MPI requires this) for every host name.", "quantifier": "all host names", "why_tests_cant": "depends on the host name of the machine", "anchors": ["asagi.cpp: nodeLocalRank, Adler32"]}
{"id": "C34", "title": "The block directory is a bounded duplicate-free set and answers with recorded owners only", "statement": "For any sequence of add, delete and lookup messages for a block, the directory holds at most four owners, all recorded ones first; a lookup answers 'nobody' exactly when none is recorded and otherwise an owner recorded by an add and not yet deleted; the owner number encodes process and cache slot without loss.", "quantifier": "all operation sequences and all random choices", "why_tests_cant": "unbounded histories and random choice", "anchors": ["transfer/mpicache.h: MPICache::fetchBlockInfo, updateBlockInfo, fetchAndUpdateBlockInfo, deleteBlockInfo"]}
{"id": "C35", "title": "One-sided cache sharing: a remote read obtains the requested block", "statement": "With MPI window communication, whenever a process copies a block out of another process's cache, that cache slot holds exactly the requested, complete block during the copy, for every interleaving of lookups, loads and evictions of any number of processes.", "quantifier": "all interleavings of any number of processes, threads, blocks and slots", "why_tests_cant": "distributed schedule-dependent property", "anchors": ["transfer/mpiwincache.h: startTransfer, transfer, endTransfer, addBlock, deleteBlock", "grid/level/cachedist.h: CacheDist::getAt"]}
{"id": "C36", "title": "The distributed lock is exclusive and hands over without losing waiters", "statement": "At most one thread of all processes holds the lock of a block at any time; each waiting thread is eventually the next owner's successor (the queue never loses a waiter), and a release never blocks forever. If window locks and the mutexes of the processes are granted fairly, every thread that requests the lock gets it, although others request it again and again.", "quantifier": "all interleavings of any number of processes and threads", "why_tests_cant": "distributed schedule-dependent property", "anchors": ["mpi/mutex.h: Mutex::acquire, wait, release"]}
{"id": "C37", "title": "Two-sided cache sharing: a reply carries the requested block", "statement": "With the communication thread, whenever a block transfer succeeds, the received data is the requested block; otherwise the block is looked up again or loaded from the file.", "quantifier": "all interleavings of requests, evictions and directory updates", "why_tests_cant": "distributed schedule-dependent property", "anchors": ["transfer/mpithreadcache.h: startTransfer, transfer, endTransfer, BlockTransferer::recv"]}
{"id": "C38", "title": "Two-sided cache sharing works on every level of a grid", "statement": "With the communication thread every directory request is answered by a message the requester is waiting for, on each level of a multi-level grid.", "quantifier": "all levels and numbers of levels", "why_tests_cant": "no test opens more than one level", "anchors": ["transfer/mpithreadcache.h: MPIThreadCache::startTransfer, BlockInfoResponder::recv", "mpi/mpicomm.h: MPIComm::reserveTags"]}
{"id": "C39", "title": "Two-sided FULL transfers of different levels do not mix", "statement": "When threads of one process fetch blocks of different levels of the same grid at the same time, each receives the block of its own level.", "quantifier": "all interleavings of concurrent requests on different levels", "why_tests_cant": "schedule-dependent and multi-level", "anchors": ["transfer/mpithreadfull.h: MPIThreadFull::transfer, MPIThreadFull::recv"]}
{"id": "C40", "title": "Communication-thread tags are unique and agreed upon", "statement": "All processes that register receivers collectively obtain the same tag, different registrations get different tags, messages reach exactly the receiver registered with their tag, and tag ranges reserved by different users of a communicator do not overlap.", "quantifier": "all registration histories and process counts", "why_tests_cant": "unbounded histories across processes", "anchors": ["mpi/commthread.h: CommThread::registerReceiver, unregisterReceiver, handler", "mpi/mpicomm.h: MPIComm::reserveTags"]}
{"id": "C41", "title": "Error codes mean the same in C, C++ and Fortran", "statement": "Each error returned by open has the same meaning when interpreted with the C, the C++ or the Fortran enumeration.", "quantifier": "all error codes", "why_tests_cant": "tests use the C++ interface only", "anchors": ["include/asagi.h: asagi::Grid::Error, asagi_error", "include/asagi.f90", "asagi.cpp"]}
{"id": "C42", "title": "Opening another level leaves opened levels intact", "statement": "After a successful open of a level, opening further levels does not change what getters return for that level.", "quantifier": "all orders of opening levels", "why_tests_cant": "no test opens more than one level", "anchors": ["grid/simplecontainer.h: SimpleContainer::init", "grid/level/level.h: Level::Level(const Level&), Level::~Level", "grid/level/full.h"]}
{"id": "C43", "title": "Array and struct types reject incompatible variables", "statement": "Opening an array-typed grid fails with INVALID_VAR_SIZE unless the variable's size is a multiple of the element size; for array and struct grids the first successfully opened level fixes the value size and later levels with a different size are rejected with WRONG_SIZE without changing the size; getVarSize reports the fixed size; opening a grid of a basic type never fails because of the type.", "quantifier": "all variable sizes and opening sequences", "why_tests_cant": "state machine over all opening sequences", "anchors": ["types/arraytype.h: ArrayType::check, size, convert", "types/structtype.h: StructType::check, size", "types/basictype.h"]}
{"id": "C44", "title": "Open reports unusable files", "statement": "Open reports NOT_OPEN when the file cannot be opened, VAR_NOT_FOUND when the variable is missing, UNSUPPORTED_DIMENSIONS when it has more dimensions than supported, the type error when the type check fails, and SUCCESS otherwise; in a failed open nothing is loaded.", "quantifier": "all files and configurations", "why_tests_cant": "decision over all files", "anchors": ["io/netcdfreader.cpp: NetCdfReader::open", "grid/level/level.h: Level::open"]}
{"id": "C45", "title": "Negative CPU numbers pin the communication thread to the last CPUs", "statement": "startCommThread(-k) pins the communication thread to the k-th last CPU.", "quantifier": "all CPU counts and negative CPU numbers", "why_tests_cant": "depends on the machine's CPU count", "anchors": ["mpi/commthread.h: CommThread::init", "include/asagi.h: startCommThread"]}
{"id": "C46", "title": "Open reports a failure of any NUMA domain to all threads", "statement": "All threads of a process receive the same result from open, and the result is SUCCESS only if all NUMA domains opened the level successfully.", "quantifier": "all combinations of per-domain outcomes", "why_tests_cant": "needs a failure in one domain only", "anchors": ["grid/grid.cpp: Grid::open", "numa/numa.h: Numa::broadcast"]}
{"id": "C47", "title": "Per-domain and per-thread memory does not overlap", "statement": "The block memory of different NUMA domains, the blocks inside one domain, the cache slots and the pass-through buffers of different threads occupy disjoint ranges inside the allocation.", "quantifier": "all sizes, domain counts, block numbers, thread counts", "why_tests_cant": "arithmetic over all sizes", "anchors": ["numa/numacomm.h: NumaComm::allocate", "grid/level/full.h: Full::getAt, Full::open", "grid/level/passthrough.h: PassThrough::getAt", "cache/cachemanager.h: CacheManager::get"]}
{"id": "C48", "title": "64-bit index arithmetic does not wrap", "statement": "If the number of samples rounded up to whole blocks and to the same number of blocks on all processes and NUMA domains, times the value size, is less than 2^63, and the number of NUMA domains of all processes fits in 32 bits, none of the index and address computations wraps around, so the machine arithmetic agrees with exact arithmetic.", "quantifier": "all grids whose padded size is below 2^63 bytes", "why_tests_cant": "needs all shapes near 2^64", "anchors": ["grid/level/blocked.h", "grid/level/full.h: Full::getAt"]}
{"id": "C49", "title": "Block requests between processes terminate", "statement": "With the communication thread a request for a block finally succeeds: if the directory names an owner that holds the block and is not permanently locked, the retry loop ends; in particular also in builds without thread support.", "quantifier": "all interleavings; all build configurations", "why_tests_cant": "liveness", "anchors": ["transfer/mpithreadcache.h: MPIThreadCache::transfer", "threads/noopmutex.h: NoopMutex::try_lock", "cache/cachemanager.h: CacheManager::tryGet", "grid/level/cachedist.h"]}
{"id": "C50", "title": "All documented counter names are recognised", "statement": "Every counter name listed in the user documentation is recognised by getCounter, and unknown names yield 0.", "quantifier": "all names", "why_tests_cant": "documentation versus implementation", "anchors": ["perf/counter.cpp: Counter::name2type", "documentation/user/02_usage.h"]}
{"id": "C51", "title": "Typed getters and getBuf agree", "statement": "getBuf delivers exactly the value of the file, all elements in file order, and writes getVarSize bytes; the typed getters write exactly one value of the requested type, converted from the (first) element. (Violated for array and struct grids: the typed getters copy the whole unconverted value.)", "quantifier": "all array lengths and contents", "why_tests_cant": "all lengths", "anchors": ["types/arraytype.h: ArrayType::convert", "types/structtype.h: StructType::convert", "types/basictype.h: BasicType::convert"]}
{"id": "C52", "title": "Data is visible when open returns", "statement": "When open of a FULL grid distributed over processes has returned on a process, any lookup from any process finds the loaded data of this process.", "quantifier": "all schedules of the NUMA domains of all processes during open", "why_tests_cant": "needs an adverse schedule of the loading threads", "anchors": ["grid/level/fulldist.h: FullDist::open", "transfer/mpiwinfull.h: MPIWinFull::init", "transfer/mpithreadfull.h: MPIThreadFull::init", "grid/grid.cpp: Grid::open"]}
{"id": "C53", "title": "Struct grids match the struct description", "statement": "A grid created with a struct description accepts only variables whose size is the size of the described struct.", "quantifier": "all struct descriptions and variables", "why_tests_cant": "all sizes", "anchors": ["types/structtype.h: StructType::check", "types/structtype.cpp"]}
{"id": "C54", "title": "No request is lost during registration", "statement": "A request sent to the communication thread of another process after registering on the own process is always delivered to the receiver registered on that process.", "quantifier": "all interleavings of registrations and requests on all processes", "why_tests_cant": "needs an adverse schedule", "anchors": ["mpi/commthread.h: CommThread::registerReceiver, handler"]}
{"id": "C55", "title": "The grid stores values of the type it was created with", "statement": "Whatever type (basic, array of basic type, struct) a grid is created with, the level containers it creates are instantiated for exactly this type.", "quantifier": "all creatable types", "why_tests_cant": "enumerates template type lists; holds for every list without duplicates", "anchors": ["grid/grid.cpp: TypeSelector, Grid::Grid", "types/type.h"]}
{"id": "C56", "title": "The type is complete when used", "statement": "Whenever a NUMA domain has passed the type check of open, the communication data type of the grid is available to it.", "quantifier": "all schedules of the NUMA domains", "why_tests_cant": "needs an adverse schedule", "anchors": ["types/arraytype.h: ArrayType::check, getMPIType", "types/structtype.h: StructType::check"]}
{"id": "C57", "title": "Blocks of any size can be transferred", "statement": "A block transferred between processes arrives completely, whatever its number of values. (Violated from 2^31 values on: the number is passed to MPI as int.)", "quantifier": "all block sizes", "why_tests_cant": "needs blocks with billions of values", "anchors": ["transfer/mpiwinfull.h: MPIWinFull::transfer", "transfer/mpithreadfull.h", "transfer/mpiwincache.h", "transfer/mpithreadcache.h"]}
{"id": "C58", "title": "The directory locks work from the beginning", "statement": "No two threads hold the lock of the same directory entry at the same time, even if one process has not finished opening the grid while others already use it. (Violated: a process resets its locks after the other processes can already access them.)", "quantifier": "all schedules of open and lookups on all processes", "why_tests_cant": "needs an adverse schedule of open on one process", "anchors": ["transfer/mpiwincache.h: MPIWinCache::init", "mpi/mutex.h: Mutex::initMutexMem, acquire"]}
{"id": "C59", "title": "Nearest sample in double precision", "statement": "With the coordinate arithmetic done in IEEE double precision, a getter always selects a valid index, and the selected sample is nearest up to a tolerance: its distance to the position exceeds that of any other sample by at most (2 times the relative unevenness of the stored coordinates plus size / 2^47) sample spacings. The tolerance cannot be dropped: the rounding function misrounds the largest double below one half.", "quantifier": "all finite positions, all coordinate variables whose mean spacing lies between 2^-900 and 2^900, all sizes up to 2^50", "why_tests_cant": "rounding errors depend on the bit patterns of offset, scaling and position; there are too many to enumerate", "anchors": ["grid/level/level.h: Level::open, pos2index, getInvScaling, round", "io/netcdfreader.h: NetCdfReader::getOffset, getScaling"]}
{"id": "C60", "title": "No undefined conversion in double precision", "statement": "For every file and every finite position the getters do not execute an undefined conversion from double to integer. (Violated: a product that overflows to infinity is multiplied by zero in a dimension with one sample, and spacings below the numeric precision give an infinite or NaN index; proved for files and positions whose differences do not overflow.)", "quantifier": "all coordinate variables and all finite positions", "why_tests_cant": "needs particular extreme doubles", "anchors": ["grid/level/level.h: Level::pos2index, getInvScaling"]}
{"id": "C61", "title": "Documented options and defaults", "statement": "The variable, block sizes, cache size, hand spread, time dimension, value position, grid type and communication modes used by open are the values last set for the level (for level 0, if the parameter is documented as one for all levels), and the documented defaults if never set; numbers are limited by the range of int (unsigned int for the cache size); a block extent is the configured one limited by the dimension, and NUMA_COMMUNICATION=CACHE has the documented effect.", "quantifier": "all sequences of setParam calls, all levels, all dimensions", "why_tests_cant": "all sequences of settings", "anchors": ["grid/grid.cpp: Grid::setParam, Grid::open, Grid::param", "documentation/user/02_usage.h"]}
{"id": "C62", "title": "Reported ranges belong to level 0", "statement": "After any sequence of successful open calls, in any order of the levels, getMin, getMax and the number of dimensions are those of the last file opened as level 0, and getDelta(n, level) is the spacing in the last file opened as that level.", "quantifier": "all sequences of successful open calls", "why_tests_cant": "all histories of open calls", "anchors": ["grid/simplecontainer.h: SimpleContainer::init", "grid/container.h: Container::getMin, getMax, getDelta"]}
{"id": "C63", "title": "The block directory names only slots that hold the block, each at most once", "statement": "When several processes share their caches, every slot that the directory names for a block contains the complete, current values of exactly this block, except while an update of the directory for this block is on its way (communication thread) or while somebody has locked the directory entry (MPI windows); and no slot is named twice.", "quantifier": "all interleavings of any number of processes, threads, domains, blocks and slots", "why_tests_cant": "distributed schedule-dependent property of announcements and evictions", "anchors": ["transfer/mpicache.h: Dictionary", "transfer/mpithreadcache.h: MPIThreadCache::addBlock, deleteBlock", "transfer/mpiwincache.h: MPIWinCache::addBlock, deleteBlock", "grid/level/cachedist.h: CacheDist::getAt"]}
{"id": "C64", "title": "Builds with THREADSAFE_MPI call MPI from one thread at a time", "statement": "In a build with THREADSAFE_MPI (the default), while any number of threads access a CACHE grid that is shared with MPI windows, at most one thread of each process is inside of the MPI library at any time; the other guarantees of the grid (values, no deadlock, every access returns) still hold although threads wait for remote locks with the lock of the library.", "quantifier": "all interleavings of any number of processes, threads, domains, blocks and slots", "why_tests_cant": "a missing lock shows up only in rare schedules, and with MPI libraries that are not thread-safe as arbitrary corruption", "anchors": ["mpi/mpicomm.h: MPIComm::mpiLock", "transfer/mpiwincache.h: MPIWinCache::startTransfer, endTransfer, addBlock, deleteBlock"]}
{"id": "C65", "title": "What a getter returns depends only on the file, the variable and the position", "statement": "A program configures a grid by any sequence of setParam calls, opens a level with a file and calls a getter. Whatever the parameters (grid type, block sizes, cache size, hand spread, value position, MPI and NUMA communication), the build options, the number of processes, domains and threads and the history of other calls are, a getter that returns delivers the value of the sample nearest to the position of the variable named by the last setting of VARIABLE (or z). In particular two programs with different configurations get the same values.", "quantifier": "all sequences of settings, builds, numbers of processes, domains and threads, files, positions, histories and interleavings", "why_tests_cant": "the product of configurations, machines and schedules is unbounded", "anchors": ["grid/grid.cpp: Grid::setParam, Grid::open, Grid::initContainers", "grid/simplecontainer.h: SimpleContainer::init, getBuf", "grid/level/full.h, fulldist.h, cache.h, cachedist.h, passthrough.h: open, getAt"]}
{"id": "C66", "title": "The communication thread can be started and stopped again and serves every open grid", "statement": "startCommThread reports ALREADY_INITIALIZED to all processes, without effect, if the thread runs on one of them, and starts it otherwise; stopCommThread returns; opening a grid that needs the thread without it reports NOT_INITIALIZED to all processes. Through all starts, stops, opens and closes, a message between two processes of an open grid reaches this grid, with its sender and data.", "quantifier": "all histories of starts, stops, opens and closes by any processes, all communicators", "why_tests_cant": "unbounded histories across processes; depends on the order of restarts and closes", "anchors": ["asagi.cpp: startCommThread, stopCommThread", "mpi/commthread.h: CommThread::init, finialize, registerReceiver, unregisterReceiver, send, commThreadHandler"]}
{"id": "C67", "title": "A grid can be closed while other processes still use it", "statement": "A process may call close as soon as its own getters have returned. Requests of other processes are still answered until all processes have called close; then close returns on all of them.", "quantifier": "all numbers of processes and threads, all interleavings of getters and close", "why_tests_cant": "depends on the timing between processes", "anchors": ["grid/grid.cpp: Grid::~Grid", "transfer/mpithreadfull.h: ~MPIThreadFull", "transfer/mpithreadcache.h: ~MPIThreadCache"]}
{"id": "C68", "title": "Opening and closing several grids returns on all threads", "statement": "Threads and processes may open and close any number of grids; each of these calls returns once all threads concerned have made it.", "quantifier": "all numbers of processes, threads and grids, all orders of calls and all schedules", "why_tests_cant": "a deadlock needs a particular schedule on several processes", "anchors": ["mpi/commthread.h: CommThread::registerReceiver", "grid/grid.cpp: Grid::~Grid"]}
{"id": "C69", "title": "Typed getters convert values as C does, exactly whenever possible", "statement": "A value of the file that is a value of the type of the grid and of the type of the getter is returned unchanged. Otherwise integers are taken modulo the number of values, floating point values are truncated towards zero by integer getters (undefined exactly if the truncated value does not fit), and floating point getters return a nearest number of their type, or an infinity only if the value exceeds all of them.", "quantifier": "all pairs of types of variable, grid and getter, all values", "why_tests_cant": "there are infinitely many values, and the boundaries of the types and of exact representation are easy to miss", "anchors": ["types/basictype.h: BasicType::convert", "io/netcdfreader.h: NetCdfReader::getVar", "include/asagi.h: Grid::getByte, getInt, getLong, getFloat, getDouble"]}
{"id": "C70", "title": "Directory records name the right process, domain and slot on real machines", "statement": "On a machine with 32-bit unsigned int and 64-bit long, every record, directory message and owner number of the distributed mutex is decoded to the process, NUMA domain, slot, directory entry or thread it was made for, for every cache size, number of domains, processes and blocks.", "quantifier": "all cache sizes, numbers of domains, processes, threads and blocks, all sequences of directory changes", "why_tests_cant": "the wrap around of 32-bit products needs caches with billions of blocks", "anchors": ["transfer/mpicache.h: MPICache::init, updateBlockInfo, deleteBlockInfo", "transfer/mpithreadcache.h: addBlock, deleteBlock, Adder::recv, Deleter::recv", "grid/level/cachedist.h: CacheDist::getAt", "mpi/mutex.h: Mutex::lockId, wait"]}
{"id": "C71", "title": "Counters are exact with several threads", "statement": "When several threads read values of the same grid, every counter has, once the reads have returned, exactly the number of accesses, transfers, file loads, hits and misses that happened; while reads are running the counters are at most one per thread behind and never ahead.", "quantifier": "all numbers of threads, all sequences of accesses and all interleavings of them", "why_tests_cant": "a lost increment needs two threads between the same read and write; a test run almost never shows it", "anchors": ["perf/counter.h: Counter::inc, Counter::get", "perf/counter.cpp: Counter::get", "grid/level/cache.h: Cache::getAt", "grid/level/cachedist.h: CacheDist::getAt", "documentation/user/02_usage.h"]}
{"id": "C72", "title": "The Fortran interface does what the C++ interface does", "statement": "For every program that creates, sets up, opens, reads and closes any number of grids through Fortran handles, the handles and values returned are those of the same C++ program with the default arguments of the C++ interface; strings mean their text.", "quantifier": "all grid implementations, all memory allocators, all programs over the calls of the Fortran interface", "why_tests_cant": "programs with any number of grids in any order; memory of closed grids is reused in ways that a test cannot choose", "anchors": ["include/asagi.f90: asagi_grid_create, asagi_grid_set_param, asagi_grid_open, asagi_grid_get_*", "asagi_f90.cpp: f90asagi_grid_*", "fortran/pointerarray.h: PointerArray", "grid/grid.h: Grid::f2c, Grid::c2f"]}
{"id": "C73", "title": "Fortran handles stay valid while other threads create and close grids", "statement": "When several threads create, use and close grids through Fortran handles (each handle only between its creation and its closing), every call reaches the grid of its handle, no handle is given out twice and closed handles refer to no grid.", "quantifier": "all numbers of threads and grids, all interleavings of the memory accesses", "why_tests_cant": "the failure needs a read of the table between two machine instructions of another thread", "anchors": ["fortran/pointerarray.h: PointerArray::add, get, remove", "asagi_f90.cpp: f90asagi_grid_close", "grid/grid.cpp: Grid::init, Grid::~Grid"]}
{"id": "C74", "title": "Opening a level again replaces its values", "statement": "After a successful open of a level, the getters of this level return the values of the file opened last, whatever was done with the level before: failed opens, earlier successful opens and any number of getters.", "quantifier": "all histories of failing and successful opens and getters on one level, all files, block sizes and cache sizes", "why_tests_cant": "the failure depends on which blocks earlier getters left in the cache; a test that opens a level once or reads other positions sees nothing", "anchors": ["cache/cachelist.h: CacheList::init", "cache/cachemanager.h: CacheManager::init", "cache/lru.h: LRU::init", "grid/level/cache.h: Cache::open", "grid/level/full.h: Full::open", "grid/level/fulldist.h: FullDist::open", "grid/level/passthrough.h: PassThrough::open", "grid/simplecontainer.h: SimpleContainer::init"]}
{"id": "C75", "title": "Reading back the samples in double arithmetic", "statement": "At the position of a sample of the file (the coordinates of the sample as doubles), every getter returns exactly the value of this sample, although all positions are converted to indices with rounded floating point operations. The same holds for every position that is clearly closer to this sample than to all others.", "quantifier": "all files with almost equidistant samples (up to 2^45 in a dimension), all samples, all grid types, parameters, builds, machines, histories and interleavings; binary64 arithmetic with rounding to nearest", "why_tests_cant": "Rounding errors depend on the first coordinate, the spacing and the number of samples; an error in one of the 2^45 samples of a dimension is not found by tests of small grids.", "anchors": ["grid/level/level.h: pos2index, round, clamp", "io/netcdfreader.cpp: getOffset, getScaling", "grid/level/full.h: getAt", "grid/level/cache.h: getAt", "grid/level/passthrough.h: getAt"]}
{"id": "C76", "title": "PASS_THROUGH grids with several threads", "statement": "If several threads of an application, which all took part in open, call getters of a PASS_THROUGH grid at the same time, each getter returns the value of the file at its own position, and no getter waits for ever.", "quantifier": "all numbers of threads, positions, files and interleavings of the steps of the getters; any previous content of the buffers", "why_tests_cant": "A mixed-up buffer shows only if one thread reads the file between the read and the copy of another thread; a test sees few of the interleavings.", "anchors": ["grid/level/passthrough.h: PassThrough::getAt", "grid/level/passthrough.h: PassThrough::open", "numa/numa.h: Numa::threadId", "io/netcdfreader.h: NetCdfReader::getBlock"]}
{"id": "C77", "title": "Walking through the grid with getMin and getDelta", "statement": "The positions getMin(n) + k * getDelta(n) (in cell-centered grids getMin(n) + (k + 0.5) * getDelta(n)) read the samples in the order of their coordinates: k = 0 the sample with the smallest coordinate of dimension n, k = 1 the next one, and so on, for ascending and descending coordinates. In double arithmetic this holds if the coordinates are below 2^40 spacings; getMin and getMax are then accurate up to 1/128 spacing.", "quantifier": "all files with (almost) equidistant samples, all dimensions, all sample numbers, vertex- and cell-centered grids, all grid types, configurations and histories", "why_tests_cant": "The rounding errors of the library's and the application's arithmetic depend on the coordinates; a test covers a few files only.", "anchors": ["grid/level/level.h:Level::open", "grid/level/level.h:Level::pos2index", "grid/level/level.h:Level::min", "grid/level/level.h:Level::delta", "io/netcdfreader.h:getScaling", "grid/grid.cpp:Grid::getMin"]}
{"id": "C78", "title": "Closing a grid releases everything it acquired", "statement": "After a grid on which levels were opened (the finest level first, each level once) is closed, exactly the resources that existed before are left: all memory, files, MPI windows and registered receivers of all levels and NUMA domains are released, each exactly once and none while another resource still uses it (a window is freed before the memory it exposes). While the grid is open every level refers to live resources of its own only. If opening failed at any point the grid can still be closed without releasing anything twice.", "quantifier": "all container types, numbers of NUMA domains, sets and orders of levels after the finest one, points of failure, and contents of the rest of the process", "why_tests_cant": "Every combination of grid type, levels, domains and failing call has its own order of releases; failures of MPI calls cannot be provoked in tests.", "anchors": ["grid/grid.cpp:Grid::~Grid", "grid/simplecontainer.h:SimpleContainer::init", "grid/level/level.h:Level::~Level", "grid/level/full.h", "grid/level/cache.h", "grid/level/fulldist.h", "grid/level/cachedist.h", "transfer/mpiwinfull.h", "transfer/mpithreadfull.h", "transfer/mpiwincache.h", "transfer/mpithreadcache.h", "transfer/numacache.h", "cache/cachemanager.h"]}
{"id": "C79", "title": "Opening a grid returns on all threads with the same result", "statement": "If the announced number of threads call open together, any number of times, then every call returns on every thread, in every schedule, and all threads get the same result, whether the initialisation succeeds or fails.", "quantifier": "all numbers of threads, placements on NUMA nodes, orders of arrival, schedules, sequences of calls, grid types, and all points at which the initialisation fails in any domain", "why_tests_cant": "The threads meet at several barriers per call; whether they all arrive depends on the schedule and on which domain fails where, and allocation and MPI failures cannot be provoked in tests.", "anchors": ["grid/grid.cpp:Grid::open", "numa/numa.cpp:Numa::registerThread", "numa/numa.cpp:Numa::createComm", "numa/numacomm.h:NumaComm::broadcast", "numa/numacomm.h:NumaComm::allocate", "grid/simplecontainer.h:SimpleContainer::init", "grid/level/full.h", "grid/level/cache.h", "grid/level/fulldist.h", "grid/level/cachedist.h", "transfer/mpiwincache.h", "transfer/mpithreadcache.h", "transfer/mpiwinfull.h", "transfer/mpithreadfull.h"]}
{"id": "C80", "title": "All NUMA domains agree on the element type", "statement": "When several threads on different NUMA domains open the files of an array or struct grid together, every domain gets the result it would get if the files were checked one after the other, so all domains agree; and the MPI data type a domain uses for a level is complete and exactly as large as one value of that file, and is created only once. The domains never wait for each other forever: under any schedule all of them finish all files.", "quantifier": "all schedules of the domains, numbers of domains, sequences of files with any value sizes, array and struct types", "why_tests_cant": "The type object is shared by all domains and its data type is created after the lock was released; a test runs one interleaving.", "anchors": ["types/arraytype.h:ArrayType::check", "types/structtype.h:StructType::check", "numa/numacomm.h:NumaComm::allocate", "transfer/mpiwinfull.h:MPIWinFull::init", "transfer/mpiwincache.h:MPIWinCache::init"]}
{"id": "C81", "title": "The window caches are correct with the directory lock as it is implemented", "statement": "With one-sided MPI communication and several processes and threads, getters of a CACHE grid return the values of the file, no update of the shared block directory is lost, a block is never copied while its source is being replaced, and every getter returns, although a directory entry is read before the lock on it is granted, the lock is a queue in the memory of another process, and waiting threads are woken by messages.", "quantifier": "all schedules of all threads of all processes, numbers of processes, NUMA domains and threads, cache and block sizes, blocks and positions; with and without THREADSAFE_MPI", "why_tests_cant": "A stale directory entry is used only if another process updates the entry between two operations on an MPI window; tests see few interleavings.", "anchors": ["mpi/mutex.h:Mutex::acquire", "mpi/mutex.h:Mutex::release", "transfer/mpiwincache.h:MPIWinCache::startTransfer", "transfer/mpiwincache.h:MPIWinCache::addBlock", "transfer/mpiwincache.h:MPIWinCache::deleteBlock", "grid/level/cachedist.h:CacheDist::getAt"]}
{"id": "C82", "title": "The caches are correct with the messages of the communication thread as they are implemented", "statement": "With the communication thread and several processes and threads, getters of a CACHE grid return the values of the file and do not block each other for ever, although a request names only the process that has sent it and a reply is received by tag and process only: every reply is received by the thread whose request it answers, no request is handled for the wrong block, and a thread stores exactly the block that it has requested. This also holds if MPI never buffers a message, so that every send waits for its receiver.", "quantifier": "all schedules of all threads and communication threads of all processes, numbers of processes, NUMA domains and threads, cache and block sizes, blocks and positions; with and without buffering of messages", "why_tests_cant": "Replies are mixed up only if two threads of one process have open requests to the same process at the same time, and sends that wait for each other deadlock only with MPI implementations that do not buffer.", "anchors": ["transfer/mpithreadcache.h:MPIThreadCache::startTransfer", "transfer/mpithreadcache.h:MPIThreadCache::transfer", "transfer/mpithreadcache.h:MPIThreadCache::addBlock", "transfer/mpithreadcache.h:MPIThreadCache::deleteBlock", "transfer/mpithreadcache.h:BlockInfoResponder::recv", "transfer/mpithreadcache.h:BlockTransferer::recv", "mpi/commthread.h:CommThread::commThreadHandler", "grid/level/cachedist.h:CacheDist::getAt"]}
{"id": "C83", "title": "Distributed FULL grids are correct with the transfers between processes as they are implemented", "statement": "With several processes and threads, getters of a FULL grid with one level return the values of the file and every getter returns, although a block of another process is fetched by a request that names only a position in the memory of the other process and a reply that is received by process only (or by one-sided reads of parts of a window): every reply contains the block that the receiving thread has asked for, only one thread per process has a transfer open, and no access is outside of the window of the other process. This also holds if MPI never buffers a message, so that every send waits for its receiver.", "quantifier": "all schedules of all threads and communication threads of all processes, numbers of processes, NUMA domains and threads, cache and block sizes, blocks and positions; windows or communication thread; with and without buffering of messages", "why_tests_cant": "Replies are mixed up only if two threads of one process have open requests at the same time, and sends that wait for each other deadlock only with MPI implementations that do not buffer.", "anchors": ["transfer/mpithreadfull.h:MPIThreadFull::transfer", "transfer/mpithreadfull.h:MPIThreadFull::recv", "transfer/mpiwinfull.h:MPIWinFull::transfer", "mpi/commthread.h:CommThread::commThreadHandler", "grid/level/fulldist.h:FullDist::getAt"]}
{"id": "C84", "title": "What a getter returns does not depend on how processes communicate", "statement": "Whatever parameters, build, machine and history: with the messages, locks, windows and threads as they are implemented, a getter of any opened grid level returns the value of the sample of the chosen variable that is nearest to the position, and nothing else; and it does return.", "quantifier": "all sequences of setParam calls, builds, numbers of processes, NUMA domains and threads, files, positions, histories and schedules of all threads and communication threads; with the communication thread, the first level of a grid", "why_tests_cant": "The value depends on the combination of all options with all interleavings of threads and messages; tests can only sample both.", "anchors": ["grid/grid.cpp:Grid::open", "grid/grid.cpp:Grid::initContainers", "grid/level/cachedist.h:CacheDist::getAt", "grid/level/fulldist.h:FullDist::getAt", "transfer/mpithreadcache.h:MPIThreadCache", "transfer/mpiwincache.h:MPIWinCache", "transfer/mpithreadfull.h:MPIThreadFull", "transfer/mpiwinfull.h:MPIWinFull"]}
{"id": "C85", "title": "Several levels and grids can be used at the same time", "statement": "Threads may call getters of different levels and of different grids (of any kinds) at the same time, in one or several processes: every getter returns the value of its own level, as if the other levels were not used; of the threads of one process at most one is inside the netCDF library and, with a thread-safe build, at most one inside the MPI library; and although all levels share the locks of these libraries, no combination of calls deadlocks: every call returns.", "quantifier": "all numbers and kinds of levels (CACHE with MPI windows or without communication, distributed FULL with windows, PASS_THROUGH), threads, processes, positions, and all interleavings of all threads in all levels", "why_tests_cant": "A deadlock between levels needs threads that hold one library lock and wait for another in a particular order; the number of interleavings grows with every level.", "anchors": ["mpi/mpicomm.h:MPIComm::mpiLock", "io/netcdfreader.h:NetCdfReader::getBlock", "io/netcdfreader.h:NetCdfReader::netcdfLock", "mpi/mutex.h", "transfer/mpiwincache.h:MPIWinCache", "transfer/mpiwinfull.h:MPIWinFull::transfer", "grid/level/passthrough.h:PassThrough::getAt"]}
{"id": "C86", "title": "The blocks of a distributed grid are dealt out in order and evenly", "statement": "With round robin distribution block after block goes to the next process, and within each process to the next NUMA domain, and each domain stores its blocks in the order in which it gets them, so that the numbers of blocks (and the memory and the load) of any two domains differ by at most one. Otherwise domain after domain is filled with consecutive blocks.", "quantifier": "all numbers of processes, NUMA domains and blocks, both distributions, every block", "why_tests_cant": "preprocess/test/test_index.py compares the formulas with a tabulation for five sizes only; sizes that are not multiples of the number of domains behave differently from those that are.", "anchors": ["grid/level/blocked.h:Blocked::blockRank", "grid/level/blocked.h:Blocked::blockDomain", "grid/level/blocked.h:Blocked::blockOffset", "preprocess/test/test_index.py"]}
{"id": "C87", "title": "Several grids with different parameters can be used at the same time, from setParam to the getters", "statement": "Any number of grids and levels may be configured by any sequences of setParam calls, opened for any variables, each by all or by some of the processes, and then used at the same time by all their threads. A thread that is in no getter can always call one of any level it has opened, for any position; the call returns, whatever the other threads do in this and in other grids, and the value is always that of the nearest sample of the variable of its own level.", "quantifier": "all numbers of grids and levels, all parameters (except the communication thread), builds, numbers of processes, domains and threads, all files with equidistant samples, all histories and interleavings, all positions", "why_tests_cant": "The combinations of parameters of several grids, of their threads and of the interleavings are unbounded; a wrong lock order or a shared buffer shows only in rare schedules.", "anchors": ["grid/grid.cpp:Grid::open", "grid/grid.cpp:Grid::initContainers", "grid/level/full.h:Full::getAt", "grid/level/fulldist.h:FullDist::getAt", "grid/level/cachedist.h", "grid/level/passthrough.h:PassThrough::getAt", "mpi/mpicomm.h:MPIComm::mpiLock", "io/netcdfreader.h:NetCdfReader::netcdfLock"]}
{"id": "C88", "title": "The communication thread serves several grids at the same time", "statement": "When several grids use the communication thread (each with one level, opened by the same or by different processes) together with grids that do not, the one communication thread of a process serves all of them without mixing them up: no message is lost or reaches another grid, every getter returns the value of its own file, and neither the order of the messages of the different grids nor the shared locks can block any thread, whether MPI buffers messages or not. Every access returns, unless requests for blocks of CACHE grids are refused again and again (C49).", "quantifier": "all numbers of grids, processes, domains and threads, FULL and CACHE with the communication thread combined with all kinds of levels without it, all interleavings, all positions, with and without buffering of MPI messages", "why_tests_cant": "A message that waits behind one of another grid, or a reply that waits for a receiver while the next grid needs the thread, shows only in particular interleavings and MPI implementations.", "anchors": ["mpi/commthread.h:CommThread::run", "mpi/commthread.h:CommThread::send", "mpi/commthread.h:CommThread::registerReceiver", "transfer/mpithreadfull.h:MPIThreadFull::recv", "transfer/mpithreadcache.h:MPIThreadCache", "mpi/mpicomm.h"]}
{"id": "C89", "title": "Several grids with any parameters, with and without the communication thread, can be used at the same time, from setParam to the getters", "statement": "Any number of grids may be configured by any sequences of setParam calls, also with MPI_COMMUNICATION=THREAD, opened for any variables, each by all or by some of the processes, and then used at the same time by all their threads. A thread that is in no getter can always call one of any level it has opened, for any position; whatever it returns is the value of the nearest sample of the variable of its own level, whatever the other threads and the communication threads do for this and for other grids. No messages are lost or reach another grid, no threads block each other, and every access returns, unless requests for blocks of CACHE grids with the communication thread are refused again and again (C49).", "quantifier": "all numbers of grids (one level per grid with the communication thread), all parameters and builds, all numbers of processes, domains and threads, all files with equidistant samples, all histories and interleavings, all positions, with and without buffering of MPI messages", "why_tests_cant": "The combinations of parameters of several grids, of their threads and messages and of the interleavings are unbounded.", "anchors": ["grid/grid.cpp:Grid::open", "grid/grid.cpp:Grid::initContainers", "grid/level/fulldist.h:FullDist::getAt", "grid/level/cachedist.h", "transfer/mpithreadfull.h", "transfer/mpithreadcache.h", "mpi/commthread.h:CommThread::run"]}
{"id": "C90", "title": "Grids can be opened and closed while other threads use other grids", "statement": "While some threads of a program are inside of getters of some grids, one thread per process may open other grids and close grids that its process no longer uses, in the same order in all processes (in builds without THREADSAFE_MPI also several threads). The getters still return the values of their files. A grid that is used anywhere is open in all processes: nobody has freed its windows or memory. No threads block each other: every getter, every open and every close returns. In builds with THREADSAFE_MPI one thread of a process at most is inside of the MPI library at any time.", "quantifier": "all numbers of grids (with MPI windows or without MPI communication), processes and threads, all sequences of open and close, all interleavings of their MPI calls with the steps of the getters", "why_tests_cant": "Whether a getter and a collective operation of another grid block each other, or enter MPI at the same time, depends on the interleaving of the threads of all processes.", "anchors": ["grid/grid.cpp:Grid::~Grid", "mpi/mpicomm.h:MPIComm", "transfer/mpiwincache.h:MPIWinCache::init", "transfer/mpiwinfull.h:MPIWinFull::init", "allocator/mpialloc.h", "types/arraytype.h:ArrayType::check"]}
{"id": "C91", "title": "The communication thread never calls a grid that was closed, and its table of grids is used by one thread at a time", "statement": "Threads of a process open, use and close grids that use the communication thread, and stop and start the thread, at the same time, while other processes send messages. Between the return of open and the call of close a message for a grid is delivered to this grid, and the requests of its getters are sent. After close has returned, the communication thread does not touch the grid any more. Opening and closing never change the table of grids at the same time, and nobody reads it while it is changed. Each lock is released by the thread that took it. Every call returns. If all grids are closed, stopCommThread finds no grid in the table.", "quantifier": "all numbers of threads and grids, all sequences of open, get, close, stopCommThread and startCommThread, all interleavings of the steps of the threads with the communication thread, all messages of other processes at all times", "why_tests_cant": "close returns while the communication thread still works on its message. Whether another call or a message arrives in this moment is decided by the scheduler and the network.", "anchors": ["mpi/commthread.h:registerReceiver", "mpi/commthread.h:unregisterReceiver", "mpi/commthread.h:send", "mpi/commthread.h:commThreadHandler", "mpi/commthread.h:finialize", "transfer/mpithreadfull.h:~MPIThreadFull", "transfer/mpithreadcache.h:~MPIThreadCache"]}
{"id": "C92", "title": "Closing a distributed grid never takes away what another process still uses", "statement": "All processes close a grid whose data is distributed over the processes, each one after its own getters have returned, at any time and in any order. As long as one process has not called close, its getters work as before, also if they need data of processes that are already in close. When the memory of a process is freed, no getter of any process reads it and the communication thread of the process is outside of the grid. Every message that needs an answer arrives while the grid is still registered; later ones are ignored and nobody waits for them. When all processes have called close, it returns in all of them.", "quantifier": "all files, numbers of processes, NUMA domains and threads, all sequences of get calls before close, all moments at which the processes call close, all interleavings of getters, communication threads and the steps of close, all delays of messages and both behaviours of MPI_Send (buffered or not)", "why_tests_cant": "The dangerous moments are short: a reply is still sent, or a message is still on its way, when the grid is closed elsewhere. Which of them occur is decided by the scheduler and by MPI.", "anchors": ["grid/grid.cpp:~Grid", "transfer/mpithreadcache.h:~MPIThreadCache", "transfer/mpiwincache.h:~MPIWinCache", "transfer/mpicache.h:~MPICache", "transfer/mpithreadfull.h:~MPIThreadFull", "transfer/mpiwinfull.h:~MPIWinFull", "mpi/commthread.h:unregisterReceiver", "mpi/commthread.h:commThreadHandler", "grid/level/full.h:~Full", "grid/level/fulldist.h:~FullDist", "grid/level/cache.h:~Cache"]}
{"id": "C93", "title": "Values come from the nearest place that has them, and the counters tell which", "statement": "An access to a distributed FULL grid is served by the memory or the cache of the own NUMA domain if the block is there, else by another domain of the same process if the domains communicate and it has the block, and else by the process that owns the block. The counters of the domain grow by exactly one access and by one NUMA or MPI transfer according to the place, the counters of other domains stay. A CACHE grid reads the file exactly if the block is not in its cache. The next access to the same block finds it in the own domain.", "quantifier": "all files, block sizes, cache sizes, numbers of processes and NUMA domains, modes of NUMA communication, histories of accesses and outcomes of the attempts to lock other caches", "why_tests_cant": "Which place has a block depends on the whole history of accesses and evictions in all domains.", "anchors": ["grid/level/fulldist.h:getAt", "transfer/numafull.h:transfer", "transfer/numafullcache.h:transfer", "transfer/numacache.h:transfer", "grid/level/cache.h:getAt", "perf/counter.h:inc", "cache/cachemanager.h:tryGet"]}
{"id": "C94", "title": "An open that fails changes nothing", "statement": "After a call of open that returned an error, the grid behaves as if open had not been called: the getters of all levels that were opened successfully return the same values as before, and later calls of open have the same results as in a grid without the failed call. In particular, open can be repeated.", "quantifier": "all grid types, element types, files, levels, histories of successful and failing opens and of accesses", "why_tests_cant": "The effect of a failure depends on the state of the grid when it happens and on everything that is done afterwards.", "anchors": ["grid/level/level.h:open", "grid/simplecontainer.h:init", "io/netcdfreader.cpp:open", "io/netcdfreader.h:getBlock", "types/arraytype.h:check", "types/structtype.h:check", "grid/level/full.h:getAt", "grid/level/cache.h:getAt", "grid/level/passthrough.h:getAt"]}
{"id": "C95", "title": "Closing grids while other grids are used", "statement": "Several grids can be used and closed at the same time, by several processes and threads that share the MPI and netCDF libraries and the communication threads. While some grids are being closed, every getter of another grid returns the value of the file of its grid; a grid is not closed while a process has not called close for it or a thread is in one of its getters; what close frees is not used any more by the communication thread; no message of another grid is lost or delivered to the wrong grid; grids that are not closed stay usable. If all processes close the grids in one order, every access returns and every close returns in every process, unless requests for blocks of CACHE grids with the communication thread are refused again and again (C49).", "quantifier": "all sets of opened grids of all types, numbers of processes, threads and NUMA domains, all sets of grids that are closed and orders in which a process closes them, and all interleavings of getters, messages and steps of close", "why_tests_cant": "The steps of close of one grid and the messages and accesses of the others can interleave in unboundedly many ways; a message that arrives between the removal of two receivers, or a process that closes late, depends on timing.", "anchors": ["grid/grid.cpp:~Grid", "mpi/commthread.h:commThread", "mpi/commthread.h:unregisterReceiver", "transfer/mpithreadcache.h:~MPIThreadCache", "transfer/mpithreadfull.h:~MPIThreadFull", "grid/level/fulldist.h:getAt", "grid/level/cachedist.h:getAt", "grid/level/passthrough.h:getAt"]}
{"id": "C96", "title": "The whole life of several grids", "statement": "A program that creates any number of grids, configures each one with any setParam calls, opens each one on some of the processes, uses them from all threads at the same time, and closes some of them while the others are in use, gets from every getter the value of the nearest sample of the variable of this grid, whatever kind of grid, communication and block size the parameters have selected and whatever is closed meanwhile. A getter of a grid can be called until the own process begins to close this grid; no process gets beyond the barrier of close while a thread is in a getter of the grid; processes that have not opened a grid take no part in closing it; grids that are not closed stay usable. If the processes close the grids in one order, every access returns and every grid gets closed in all its processes, unless requests for blocks of CACHE grids with the communication thread are refused again and again (C49).", "quantifier": "all numbers of grids, all sequences of setParam calls for each of them, all variables with equidistant samples, all sets of processes that open a grid, all threads, all sets of grids to close and orders in which a process closes them, and all interleavings of getters, messages and steps of close", "why_tests_cant": "The combinations of parameters, groups of processes, histories and orders of closing are unbounded, and the value must be right for every one of them in every interleaving.", "anchors": ["grid/grid.cpp:setParam", "grid/grid.cpp:open", "grid/grid.cpp:~Grid", "grid/grid.cpp:initContainers", "mpi/mpicomm.h:MPIComm", "mpi/commthread.h:commThread", "transfer/mpithreadcache.h:~MPIThreadCache", "transfer/mpithreadfull.h:~MPIThreadFull", "grid/level/fulldist.h:getAt", "grid/level/cachedist.h:getAt", "grid/level/passthrough.h:getAt"]}
{"id": "C97", "title": "Every access is served by one place, and the counters tell which, with any number of threads", "statement": "When threads of all NUMA domains and processes read a CACHE grid or a distributed FULL grid at the same time, every access for which the own domain has the block copies nothing, and every other access copies the block exactly once: from another domain, by MPI or (CACHE grids only) from the file. In builds with thread-safe counters, when no getter is running in a domain, its counters are exactly the number of its accesses and of those served by the domain itself (local_hits), by another domain (numa_transfers), by MPI (mpi_transfers) and by the file (file_loads), and node_hits and local_misses are the sums; the counters of one domain do not depend on the accesses of the others. While getters run, accesses is exact (up to increments that a thread has begun and not yet written) and the other counters are ahead of the returned accesses only by running accesses that use this place.", "quantifier": "all histories of calls, all numbers of threads, domains and processes, all ways of communication (none, MPI windows, communication thread; with and without NUMA), all cache sizes, all interleavings, including requests that are refused and repeated", "why_tests_cant": "Whether a block is counted twice or not at all depends on the interleaving of evictions, refused requests and retries; tests see some of them only.", "anchors": ["grid/level/cachedist.h:getAt", "grid/level/cache.h:loadBlock", "grid/level/fulldist.h:getAt", "grid/level/full.h:getAt", "grid/level/level.h:incCounter", "perf/counter.h:inc", "perf/counter.cpp:get"]}
{"id": "C98", "title": "Blocks are read from the file again only after they were evicted", "statement": "When threads of all NUMA domains and processes read a CACHE grid at the same time, a domain copies a block into its cache (from the file, another domain or another process) again only after the block was evicted from this cache. With MPI windows, all processes together read a block from the file again only after it was evicted from some cache. A domain whose accesses need no more blocks than its cache has slots never evicts a block and copies each block at most once; with MPI windows, if this holds for all domains, each block is read from the file exactly once by all processes together, and the counters file_loads of all domains add up to the number of different blocks accessed. Whatever a getter returns was read from the file by some process of the grid. With the communication thread, or with NUMA domains but without MPI, a block can be read more than once without an eviction. In a distributed FULL grid a domain copies into its cache only blocks that belong to another domain or process, never from the file, and copies one again only after it was evicted.", "quantifier": "all histories of calls, all numbers of threads, domains and processes, all ways of communication, all cache sizes, all interleavings, all results of rand()", "why_tests_cant": "That a block is read twice shows only when two accesses meet in a short window between the look into the directory and the publication; the values that the getters return are the same either way.", "anchors": ["grid/level/cachedist.h:getAt", "grid/level/cache.h:loadBlock", "cache/cachemanager.h:get", "cache/cachemanager.h:tryGet", "transfer/mpiwincache.h:startTransfer", "transfer/mpiwincache.h:deleteBlock", "transfer/mpithreadcache.h:startTransfer", "transfer/numacache.h:transfer", "grid/level/fulldist.h:getAt"]}
{"id": "C99", "title": "Values are complete after any copies between domains and processes", "statement": "A grid of a basic type, of arrays or of structs: when a block has been read from the file and then copied any number of times between NUMA domains and between processes, by MPI windows or by the communication thread, getBuf of a value of this block delivers every byte of the value (basic types, arrays), or every byte of every member declared with createStruct, exactly as in the file, and writes getVarSize bytes. A copy changes nothing outside of the place of the block in the cache and reads nothing outside of the block. This needs structs whose declared members do not overlap and are inside of the values of the file; open does not check it: members that are not declared are lost by copies between processes only, and a struct declared larger than the values of the file makes copies write behind the block.", "quantifier": "all declarations of values (all basic types, all lengths of arrays, all structs with any number, lengths, displacements and types of members), all sizes of values and blocks, all contents, all sequences of copies in all six ways", "why_tests_cant": "Which bytes are copied depends on the layout of the struct and on the way the block has taken; with one process, or with a layout without gaps, mistakes do not show.", "anchors": ["types/structtype.h:StructType, check, getMPIType", "types/arraytype.h:check, getMPIType", "types/basictype.h:getMPIType", "transfer/mpiwinfull.h:transfer", "transfer/mpithreadfull.h:transfer, recv", "transfer/mpiwincache.h:transfer", "transfer/mpithreadcache.h:transfer, BlockTransferer::recv", "transfer/numafull.h:transfer", "transfer/numacache.h:transfer"]}
{"id": "C100", "title": "Opening a grid works with the thread barriers as they are implemented", "statement": "If the announced number of threads call open together, any number of times, the condition variables and the shared object with which the library lets them wait never mix up two uses: no thread passes a barrier before all have arrived in the same call, every domain gets from each of the consecutive broadcasts the value that the first domain passed to this very broadcast, while the variable it is in still exists, and all threads get the same result. The waiting never makes a call hang: every run ends, and all calls return on all threads exactly if the domains take part in the same broadcasts.", "quantifier": "all numbers of threads, placements on NUMA nodes, schedules, numbers of calls, sequences of operations and broadcasts in each call, points of failure, and all ways in which the broadcasts of the domains share synchronisation objects", "why_tests_cant": "One object serves the registration and the broadcasts of all calls, and a thread can be already in the next use while others still leave the previous one; whether this mixes up two uses or loses a wake-up depends on the schedule.", "anchors": ["threads/sync.h:Sync::startBarrier, waitBarrier, broadcast", "numa/numa.cpp:Numa::registerThread", "numa/numa.cpp:Numa::createComm", "numa/numa.h:Numa::broadcast", "numa/numacomm.h:NumaComm::broadcast", "grid/grid.cpp:Grid::open"]}
{"id": "C101", "title": "Thread numbers and NUMA tables are complete before they are read without a lock", "statement": "If at most the announced number of threads call open, the table of NUMA domains, the table of master threads and the mark that says that all threads have registered are written only while no thread has left its registration, and the mark only while all other threads wait in the barrier of the registration. So no thread reads them while they are written although the readers hold no lock, all threads work with the same complete tables, and nothing changes them later. With one thread more than announced the mark is written while that thread may read it. This relies on condition waits that return only after a signal; a spurious wake-up lets a thread use the tables before the others have registered, and two threads get the same number.", "quantifier": "all numbers of threads, placements on NUMA nodes, schedules without spurious wake-ups, numbers of calls of open, sequences of operations and points of failure", "why_tests_cant": "A race between the first and the last thread that registers needs a particular schedule and seldom has a visible effect.", "anchors": ["numa/numa.cpp:Numa::registerThread", "numa/numa.h:Numa::threadId, domainId, totalDomains", "threads/sync.h:Sync::waitBarrier", "grid/grid.cpp:Grid::open"]}
{"id": "C102", "title": "No thread starves", "statement": "While other threads keep calling getters without end, every getter that is called returns, if threads are not stopped for ever and locks (mutexes, MPI window locks, the lock of the MPI library) are granted fairly, i.e. a thread that waits for a lock which is free again and again finally gets it. This holds for CACHE grids without the communication thread (with and without the lock around MPI calls, with the distributed lock as it is implemented), for distributed FULL grids (with one level also with the messages between processes as they are implemented, if the communication threads are not stopped and do not leave the requests of one process unreceived for ever), and for PASS_THROUGH grids with defined positions. It also holds if several levels, of one or of several grids, are used at the same time and share the locks around the MPI and netCDF libraries, whatever parameters (without the communication thread) each grid was configured with. Without fair locks a thread can wait for ever.", "quantifier": "all infinite executions, numbers of threads, processes, NUMA domains, grids and levels, sequences of setParam calls and of calls of getters", "why_tests_cant": "Starvation is a property of infinite executions; a test sees finite ones and few schedules.", "anchors": ["cache/cachemanager.h: CacheManager::get, tryGet, unlock", "grid/level/cachedist.h: CacheDist::getBlock", "transfer/mpiwincache.h: MPIWinCache", "grid/level/fulldist.h: FullDist::getBlock", "grid/level/passthrough.h: PassThrough::getAt", "mpi/mpicomm.h: MPIComm::mpiLock", "mpi/mutex.h: Mutex::acquire, wait, release"]}
