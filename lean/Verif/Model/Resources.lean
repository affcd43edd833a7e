import Verif.Model.Params
/-
The resources (memory, files, MPI windows, registered receivers) that the levels of a grid acquire when
they are opened and release when the grid is closed.

A heap knows which resources are live. Releasing a resource that is not live (`delete` of a pointer that
was deleted before, a second `MPI_Win_free`), or one that another live resource still uses (the memory of
a window, the data that a registered receiver hands out), is undefined behaviour (`none`).

Simplifications. The NUMA domains execute the statements of `open` in lockstep. The order of allocations
in different domains has no influence but on the numbering. An `open` that fails ends in all domains after
the same statement. The pointers of a level object are a function `Member → Option Nat`. The members
`m_numaDomainId` of the transfer classes are zero until `init` is called, also in other domains; then
all pointers are null and nothing is released. The value type (`m_type`, freed first) and the containers
themselves are not modelled. NetCDF readers are one resource, although they own two arrays.
-/
namespace Asagi

/-- The members of a level that own a resource.
level.h 78, 93, full.h 63, cache.h 61, fulldist.h 67-77, mpicache.h 57-72, mpiwincache.h 74-102, mpiwinfull.h 73-86,
mpithreadcache.h 255-304, mpithreadfull.h 74-97, numacache.h 56-66. -/
inductive Member where
  /-- `Level::m_numaComm`, `m_inputFile`: level.h 77-93 -/
  | numaComm | inputFile
  /-- `Full::m_data`, full.h 63, or `Cache::m_cache`, cache.h 61: one block of memory for all domains -/
  | data
  /-- `FullDist::m_cache`, fulldist.h 68 -/
  | ownCache
  /-- `CacheList::m_indexToBlock`, cachelist.h 67; `LRU::m_referenced`, lru.h 61;
  `CacheManager::m_blockMutexes`, cachemanager.h 68 -/
  | indexToBlock | referenced | blockMutexes
  /-- `PassThrough::m_buf`, passthrough.h 59 -/
  | buf
  /-- `MPIWinFull`, mpiwinfull.h 73-86 -/
  | winMutex | window
  /-- `MPIThreadFull`, mpithreadfull.h 92-96: the registered receiver and the mutex -/
  | receiver | sendRecvMutex
  /-- `MPICache::m_dictionary`, mpicache.h 68 -/
  | dictionary
  /-- `MPIWinCache`, mpiwincache.h 82-96 -/
  | dictWinMutex | dictWin | mpiMutex | cacheWinMutex | cacheWin
  /-- `MPIThreadCache`, mpithreadcache.h 255-304: list of cache managers, mutexes of the directory, the four
  receivers, two mutexes -/
  | managers | blockLocks | infoRecv | transferRecv | addRecv | deleteRecv | infoMutex | transferMutex
  /-- `NumaCache::m_cacheManager`, numacache.h 66 -/
  | numaManagers
deriving DecidableEq, Repr

/-- What a resource is: a member of a level or the array of the vector with the levels of one domain
(simplecontainer.h 58). -/
inductive ResKind where
  | member (m : Member)
  | storage
deriving DecidableEq, Repr

/-- The live resources, with their kinds and the resources that they use. `next` is the next number that
was never used. The memory of the process and what MPI knows, used in simplecontainer.h 78-112, grid.cpp 177-191. -/
structure Heap where
  next : Nat
  live : Nat → Option (ResKind × List Nat)

/-- Acquire a resource. E.g. full.h 101, level.h 222. -/
def Heap.alloc (h : Heap) (k : ResKind) (uses : List Nat) : Heap :=
  { next := h.next + 1, live := fun i => if i = h.next then some (k, uses) else h.live i }

/-- Whether a live resource uses `r`. E.g. the memory of a window, mpiwinfull.h 134-139. -/
def Heap.inUse (h : Heap) (r : Nat) : Bool :=
  (List.range h.next).any fun i =>
    match h.live i with
    | some (_, us) => us.contains r
    | none => false

/-- Release a resource (nothing happens for a null pointer). `none`: it is not live, or still in use.
E.g. full.h 77-81, level.h 147-152. -/
def Heap.free (h : Heap) : Option Nat → Option Heap
  | none => some h
  | some r =>
    if (h.live r).isSome ∧ h.inUse r = false then
      some { h with live := fun i => if i = r then none else h.live i }
    else none

/-- Release several resources one after the other. E.g. mpiwincache.h 120-134. -/
def Heap.freeAll (h : Heap) : List (Option Nat) → Option Heap
  | [] => some h
  | r :: rs => do (← h.free r).freeAll rs

/-- The pointers of the level objects: domain, level, member.
Members of the levels of simplecontainer.h 58, see `Member`. -/
abbrev Ptrs := Nat → Nat → Member → Option Nat

/-- Assignment to a member of a level (see `Member`), e.g. level.h 222. -/
def Ptrs.set (p : Ptrs) (d l : Nat) (m : Member) (v : Option Nat) : Ptrs :=
  fun d' l' m' => if d' = d ∧ l' = l ∧ m' = m then v else p d' l' m'

/-- The containers of a grid: `m_levels` of each domain (same size and capacity in all domains).
simplecontainer.h 58, grid.h 91. -/
structure GridRes where
  heap : Heap
  doms : Nat
  size : Nat
  cap : Nat
  storage : Nat → Option Nat
  ptr : Ptrs

/-- A grid after `initContainers`, grid.cpp 397-457: no level, no memory. -/
def GridRes.constructed (h : Heap) (doms : Nat) : GridRes :=
  { heap := h, doms, size := 0, cap := 0, storage := fun _ => none, ptr := fun _ _ _ => none }

/-- A statement of `open`, executed in all domains.
full.h 86-130, cache.h 87-114, fulldist.h 99-144, cachedist.h 96-129, passthrough.h 82-99. -/
inductive Stmt where
  /-- each domain acquires a resource of its own; existing resources that it uses -/
  | each (m : Member)
  /-- domain 0 acquires a resource (using other members of domain 0 and, for receivers, the level object
  itself) and broadcasts the pointer -/
  | master (m : Member) (uses : List Member) (self : Bool)
  /-- each domain releases its resource -/
  | drop (m : Member)
deriving DecidableEq, Repr

/-- `m = new ...` in the domains `0, ..., n - 1`. E.g. level.h 222, cachemanager.h 99. -/
def newEach (s : GridRes) (l : Nat) (m : Member) : Nat → GridRes
  | 0 => s
  | n + 1 =>
    let s := newEach s l m n
    { s with heap := s.heap.alloc (.member m) [], ptr := s.ptr.set n l m (some s.heap.next) }

/-- `delete m; m = 0L` in the domains `0, ..., n - 1`. level.h 376-380. -/
def dropEach (s : GridRes) (l : Nat) (m : Member) : Nat → Option GridRes
  | 0 => some s
  | n + 1 => do
    let s ← dropEach s l m n
    let h ← s.heap.free (s.ptr n l m)
    pure { s with heap := h, ptr := s.ptr.set n l m none }

/-- One statement of `open` for level `l`.
full.h 86-130, cache.h 87-114, fulldist.h 99-144, cachedist.h 96-129, passthrough.h 82-99. -/
def Stmt.exec (s : GridRes) (l : Nat) : Stmt → Option GridRes
  | .each m => some (newEach s l m s.doms)
  | .drop m => dropEach s l m s.doms
  | .master m uses self =>
    let us := uses.filterMap (s.ptr 0 l) ++ (if self then (s.storage 0).toList else [])
    some { s with
      heap := s.heap.alloc (.member m) us,
      ptr := fun d' l' m' => if l' = l ∧ m' = m then some s.heap.next else s.ptr d' l' m' }

/-- `CacheManager::init`, cachemanager.h 90-103, `CacheList::init`, cachelist.h 87-94, `LRU::init`,
lru.h 77-91. -/
def managerInit : List Stmt := [.each .indexToBlock, .each .referenced, .each .blockMutexes]

/-- `MPITrans::init` of `FullDist`: mpiwinfull.h 115-152, mpithreadfull.h 128-160. The window exposes the
data; the receiver is a part of the level object and reads the data. -/
def mpiFullInit : MpiTrans → List Stmt
  | .no => []
  | .window => [.master .winMutex [] false, .master .window [.data] false]
  | .thread => [.master .receiver [.data] true, .master .sendRecvMutex [] false]

/-- `NumaTrans::init` of `FullDist`: numafull.h 79-97, numafullcache.h 69-87, numacache.h 85-110. -/
def numaFullInit : NumaTrans → List Stmt
  | .fullCache => [.master .numaManagers [] false]
  | _ => []

/-- `MPITrans::init` of `CacheDist`: mpiwincache.h 148-228, mpithreadcache.h 352-446, mpicache.h 93-120.
After the barrier in `Grid::~Grid` messages to the directory (add, delete) may still arrive, but no request
for a block: the list of managers, which is released before the receivers, is not used any more. -/
def mpiCacheInit : MpiTrans → List Stmt
  | .no => []
  | .window => [.master .dictionary [] false, .master .dictWinMutex [] false,
      .master .dictWin [.dictionary] false, .master .mpiMutex [] false, .master .cacheWinMutex [] false,
      .master .cacheWin [.data] false]
  | .thread => [.master .dictionary [] false, .master .managers [] false, .master .blockLocks [] false,
      .master .infoRecv [.dictionary, .blockLocks] true, .master .transferRecv [.data] true,
      .master .addRecv [.dictionary, .blockLocks] true, .master .deleteRecv [.dictionary, .blockLocks] true,
      .master .infoMutex [] false, .master .transferMutex [] false]

/-- `NumaTrans::init` of `CacheDist`: numacache.h 85-110. -/
def numaCacheInit : NumaTrans → List Stmt
  | .no => []
  | _ => [.master .numaManagers [] false]

/-- `open` of the level classes: level.h 210-271, full.h 86-130, cache.h 87-114, fulldist.h 99-144,
cachedist.h 96-129, passthrough.h 82-99. The classes `Full` and `Cache` (types FULL and CACHE) are the
distributed ones without transfer classes; `Full` has no cache. -/
def openStmts (t : ContainerType) : List Stmt :=
  .each .inputFile ::
  match t.kind with
  | .passThrough => [.each .buf]
  | .full => [.master .data [] false, .drop .inputFile] ++
      (if t = .FULL then [] else .each .ownCache :: managerInit ++ mpiFullInit t.mpi ++ numaFullInit t.numa)
  | .cache => [.master .data [] false] ++ managerInit ++ mpiCacheInit t.mpi ++ numaCacheInit t.numa

/-- A list of statements.
full.h 86-130, cache.h 87-114, fulldist.h 99-144, cachedist.h 96-129, passthrough.h 82-99. -/
def execAll (s : GridRes) (l : Nat) : List Stmt → Option GridRes
  | [] => some s
  | st :: sts => do execAll (← st.exec s l) l sts

/-! ### Destructors -/

/-- `CacheManager::~CacheManager`, cachemanager.h 76-79; then its member `m_cacheList`:
`CacheList::~CacheList`, cachelist.h 77-80, and `LRU::~LRU`, lru.h 69-72. -/
def managerDtor : List Member := [.blockMutexes, .indexToBlock, .referenced]

/-- The members that are released in domain 0 only.
mpiwinfull.h 95-103, mpiwincache.h 120-134, mpithreadfull.h 109-116, mpithreadcache.h 324-338, mpicache.h 83-87,
numacomm.h 159-163. -/
def Member.masterOnly : Member → Bool
  | .inputFile | .ownCache | .indexToBlock | .referenced | .blockMutexes | .buf => false
  | _ => true

/-- Destructor of `MPITrans` of `FullDist`: mpiwinfull.h 95-103, mpithreadfull.h 109-116. -/
def mpiFullDtor (p : Member → Option Nat) : MpiTrans → List Member
  | .no => []
  | .window => if (p .window).isSome then [.winMutex, .window] else []
  | .thread => if (p .receiver).isSome then [.receiver, .sendRecvMutex] else []

/-- Destructor of `NumaTrans` of `FullDist`: numacache.h 76-80. -/
def numaFullDtor : NumaTrans → List Member
  | .fullCache => [.numaManagers]
  | _ => []

/-- Destructor of `MPITrans` of `CacheDist`: mpiwincache.h 120-134, mpithreadcache.h 324-338, then the base
class: mpicache.h 83-87. -/
def mpiCacheDtor (p : Member → Option Nat) : MpiTrans → List Member
  | .no => []
  | .window => [.mpiMutex, .dictWinMutex, .cacheWinMutex, .dictWin, .cacheWin, .dictionary]
  | .thread => (if (p .infoRecv).isSome then [.managers, .infoRecv, .transferRecv, .addRecv, .deleteRecv,
      .blockLocks, .infoMutex, .transferMutex] else []) ++ [.dictionary]

/-- Destructor of `NumaTrans` of `CacheDist`: numacache.h 76-80. -/
def numaCacheDtor : NumaTrans → List Member
  | .no => []
  | _ => [.numaManagers]

/-- The destructors of the level classes in the order in which C++ runs them (body, members in reverse
order, base class): fulldist.h 91-94, full.h 77-81, cachedist.h 89-91, cache.h 78-82, passthrough.h 74-77,
level.h 147-152. -/
def dtorMembers (t : ContainerType) (p : Member → Option Nat) : List Member :=
  (match t.kind with
  | .passThrough => [.buf]
  | .full => (if t = .FULL then [] else
      .ownCache :: numaFullDtor t.numa ++ mpiFullDtor p t.mpi ++ managerDtor) ++ [.data]
  | .cache => numaCacheDtor t.numa ++ mpiCacheDtor p t.mpi ++ .data :: managerDtor) ++
  [.inputFile, .numaComm]

/-- What the destructor of the level `l` in domain `d` releases.
fulldist.h 91-94, full.h 77-81, cachedist.h 89-91, cache.h 78-82, passthrough.h 74-77, level.h 147-152. -/
def dtorPtrs (t : ContainerType) (p : Ptrs) (d l : Nat) : List (Option Nat) :=
  ((dtorMembers t (p d l)).filter fun m => d = 0 ∨ m.masterOnly = false).map (p d l)

/-- `m_levels.clear()`, simplecontainer.h 73-76, and the destructor of the vector. -/
def containerPtrs (t : ContainerType) (s : GridRes) (d : Nat) : List (Option Nat) :=
  (List.range s.size).flatMap (dtorPtrs t s.ptr d) ++ [s.storage d]

/-- `Grid::~Grid`, grid.cpp 177-191: the containers in the order of the domains. -/
def GridRes.close (t : ContainerType) (s : GridRes) : Option Heap :=
  s.heap.freeAll ((List.range s.doms).flatMap (containerPtrs t s))

/-! ### The vector of levels -/

/-- New level objects `a, ..., a + n - 1`: the copy constructor of `Level`, level.h 125-132, creates a
communicator (numa.cpp 162-174); all other pointers are those of the temporary object, null. -/
def addLevels (s : GridRes) (a : Nat) : Nat → GridRes
  | 0 => s
  | n + 1 =>
    let s := addLevels s a n
    { s with
      heap := s.heap.alloc (.member .numaComm) [],
      ptr := fun d' l' m' =>
        if l' = a + n then (if m' = .numaComm then some s.heap.next else none) else s.ptr d' l' m' }

/-- New memory for the vector in the domains `0, ..., n - 1`. `resize` in simplecontainer.h 85-87. -/
def newStorage (s : GridRes) : Nat → GridRes
  | 0 => s
  | n + 1 =>
    let s := newStorage s n
    { s with
      heap := s.heap.alloc .storage [],
      storage := fun d => if d = n then some s.heap.next else s.storage d }

/-- Copies of the levels `0, ..., n - 1` for the new memory: own communicators, the same pointers
otherwise (level.h 125-132 and the implicit copy constructors of the other classes). -/
def copyLevels (s : GridRes) : Nat → GridRes
  | 0 => s
  | n + 1 =>
    let s := copyLevels s n
    { s with
      heap := s.heap.alloc (.member .numaComm) [],
      ptr := fun d' l' m' => if l' = n ∧ m' = .numaComm then some s.heap.next else s.ptr d' l' m' }

/-- `m_levels.resize(level + 1, Level(...))`, simplecontainer.h 85-87, as in libstdc++: the temporary object
has a communicator, deleted at the end (level.h 147-152). If the capacity is exceeded, the new memory has
room for `max (2 * size) (l + 1)` objects; the new objects are constructed, the old ones are copied,
destroyed and their memory is released. -/
def GridRes.resize (t : ContainerType) (s : GridRes) (n : Nat) : Option GridRes := do
  let tmp := s.heap.next
  let s := { s with heap := s.heap.alloc (.member .numaComm) [] }
  let s ← if n ≤ s.cap then
      pure { addLevels s s.size (n - s.size) with size := n }
    else do
      let s' := newStorage s s.doms
      let s' := copyLevels (addLevels s' s.size (n - s.size)) s.size
      let h ← s'.heap.freeAll ((List.range s.doms).flatMap (containerPtrs t s))
      pure { s' with heap := h, size := n, cap := max (2 * s.size) n }
  let h ← s.heap.free (some tmp)
  pure { s with heap := h }

/-- `SimpleContainer::init`, simplecontainer.h 78-112, in all domains: the vector is enlarged if necessary,
then the first `k` statements of the `open` of level `l` are executed (all of them if `open` succeeds). -/
def GridRes.openLevel (t : ContainerType) (s : GridRes) (l k : Nat) : Option GridRes := do
  let s ← if s.size ≤ l then s.resize t (l + 1) else pure s
  execAll s l ((openStmts t).take k)

/-- An application opens levels (pairs of the level and the number of statements executed).
simplecontainer.h 78-112, one call after the other. -/
def GridRes.openAll (t : ContainerType) (s : GridRes) : List (Nat × Nat) → Option GridRes
  | [] => some s
  | (l, k) :: ops => do (← s.openLevel t l k).openAll t ops

end Asagi
