import Verif.Model.Levels
/-
Model of the parameter handling of a grid, grid/grid.cpp 193-212 (setParam) and 463-474
(param), and of the selection of the level implementation, grid/grid.cpp 278-392
(initContainers).

Strings are lists of characters.  `utils::StringUtils` is a submodule that is not part of
/repo; its functions are modelled by their documented meaning:
`toUpper` changes the ASCII letters a-z, `startsWith` is a prefix test and `parse<int>` reads
the number with which the text begins (`std::istringstream >> int`).
-/
namespace Asagi

/-- A C string. `const char*` of grid.cpp 193. -/
abbrev Str := List Char

/-- `std::replace(s.begin(), s.end(), '-', '_')` after `toUpper`, grid.cpp 200-201 and
208-209. -/
def upperUnderscore (s : Str) : Str :=
  (s.map Char.toUpper).map (fun c => if c = '-' then '_' else c)

/-- One level of `m_params`: `std::map<std::string, std::string>`, grid.h 85. -/
abbrev ParamMap := Str → Option Str

/-- `m_params`, grid.h 85: one map per level. -/
abbrev Params := List ParamMap

/-- Assignment `map[n] = v`. grid.cpp 211. -/
def ParamMap.assign (m : ParamMap) (n v : Str) : ParamMap := fun k => if k = n then some v else m k

/-- `std::vector::resize(level+1)` if the vector is not large enough, grid.cpp 195-196. -/
def Params.grow (ps : Params) (level : Nat) : Params :=
  if ps.length ≤ level then
    ps ++ List.replicate (level + 1 - ps.length) (fun _ => none)
  else ps

/-- The value that is stored for a parameter, grid.cpp 203-210 (`n` is the converted
name). -/
def storedValue (n value : Str) : Str :=
  if n ≠ "VARIABLE".toList ∧ ¬ "BLOCK_SIZE_".toList <+: n then
    upperUnderscore value
  else value

/-- `Grid::setParam`, grid.cpp 193-212. -/
def setParam (ps : Params) (name value : Str) (level : Nat) : Params :=
  let ps := ps.grow level
  let n := upperUnderscore name
  let v := storedValue n value
  ps.modify level (fun m => m.assign n v)

/-- `Grid::param` before the text is converted, grid.cpp 464-474: `none` means that the
default value is used. -/
def paramText (ps : Params) (name : Str) (level : Nat) : Option Str :=
  ps[level]?.bind (fun m => m name)

/-- Decimal value of the leading digits. Part of `parse<int>`, used in grid.cpp 463-474. -/
def leadingDigits : Str → Nat → Nat
  | c :: cs, acc => if c.isDigit then leadingDigits cs (acc * 10 + (c.toNat - '0'.toNat)) else acc
  | [], acc => acc

/-- The characters skipped before a number (`std::isspace` in the "C" locale), part of `operator>>`. Used
in grid.cpp 473. -/
def isSpace (c : Char) : Bool :=
  c = ' ' ∨ c = '\t' ∨ c = '\n' ∨ c.toNat = 11 ∨ c.toNat = 12 ∨ c = '\r'

/-- The number a text begins with: white space is skipped, optional sign followed by digits; 0 if there is
no number (C++11: a failed extraction stores 0). Part of `parse<int>`. Used in grid.cpp 473. -/
def leadingNumber (s : Str) : Int :=
  match s.dropWhile isSpace with
  | '-' :: cs => -(leadingDigits cs 0 : Int)
  | '+' :: cs => leadingDigits cs 0
  | cs => leadingDigits cs 0

/-- `utils::StringUtils::parse<int>`: numbers outside of the range of `int` (32 bits) are replaced by the
nearest limit (C++11, `std::num_get`). Used in grid.cpp 473. -/
def parseInt (s : Str) : Int := max (-2147483648) (min 2147483647 (leadingNumber s))

/-- `utils::StringUtils::parse<unsigned int>`: as `parseInt`, with the limit of `unsigned int`. Simplified: a
minus sign counts as no number, because the values read with this function contain none (grid.cpp
208-209). Used in grid.cpp 232 and 473. -/
def parseUnsigned (s : Str) : Nat := min 4294967295 (leadingNumber s).toNat

/-- `param<int>(name, default, level)`. grid.cpp 463-474. -/
def paramInt (ps : Params) (name : Str) (default : Int) (level : Nat) : Int :=
  match paramText ps name level with
  | none => default
  | some s => parseInt s

/-- `param<unsigned int>(name, default, level)`. grid.cpp 463-474. -/
def paramUnsigned (ps : Params) (name : Str) (default : Nat) (level : Nat) : Nat :=
  match paramText ps name level with
  | none => default
  | some s => parseUnsigned s

/-- `param<std::string>(name, default, level)`. grid.cpp 463-474. -/
def paramString (ps : Params) (name default : Str) (level : Nat) : Str :=
  (paramText ps name level).getD default

/-- A sequence of `setParam` calls (name, value, level) on a new grid. grid.cpp 193-212. -/
def setParams (calls : List (Str × Str × Nat)) : Params :=
  calls.foldl (fun ps c => setParam ps c.1 c.2.1 c.2.2) []

/-! ### Selection of the implementation -/

/-- Compile-time options: ASAGI_NOMPI, ASAGI_NONUMA, THREADSAFE_MPI, USE_MPI3. CMakeLists.txt 48-57, 141-190. -/
structure Build where
  noMpi : Bool
  noNuma : Bool
  threadsafeMpi : Bool
  mpi3 : Bool

/-- `containerType`, grid.cpp 280-297. -/
inductive ContainerType where
  | CACHE | CACHE_NUMA | CACHE_MPITHREAD | CACHE_MPIWIN | CACHE_MPITHREAD_NUMA
  | CACHE_MPIWIN_NUMA | FULL | FULL_NUMA | FULL_MPITHREAD | FULL_MPIWIN | FULL_MPITHREAD_NUMA
  | FULL_MPIWIN_NUMA | FULL_MPITHREAD_NUMACACHE | FULL_MPIWIN_NUMACACHE | PASS_THROUGH
deriving DecidableEq, Repr

/-- The kind of level behind a container: grid.cpp 399-455. -/
inductive LevelKind where
  | cache | full | passThrough
deriving DecidableEq, Repr

/-- Which class template is instantiated: `Cache`/`CacheDist` (cache.h 193, cachedist.h
219-239), `Full`/`FullDist` (full.h 177, fulldist.h 202-228) or `PassThrough`. -/
def ContainerType.kind : ContainerType → LevelKind
  | .CACHE | .CACHE_NUMA | .CACHE_MPITHREAD | .CACHE_MPIWIN | .CACHE_MPITHREAD_NUMA
  | .CACHE_MPIWIN_NUMA => .cache
  | .PASS_THROUGH => .passThrough
  | _ => .full

/-- Template parameter `NumaTrans` of `CacheDist`/`FullDist` (`NumaFull` and `NumaCache` are
both `.full` here): cachedist.h 217-239, fulldist.h 202-228. The classes without this
parameter never exchange blocks between domains. -/
def ContainerType.numa : ContainerType → NumaTrans
  | .CACHE_NUMA | .CACHE_MPITHREAD_NUMA | .CACHE_MPIWIN_NUMA
  | .FULL_NUMA | .FULL_MPITHREAD_NUMA | .FULL_MPIWIN_NUMA => .full
  | .FULL_MPITHREAD_NUMACACHE | .FULL_MPIWIN_NUMACACHE => .fullCache
  | _ => .no

/-- How blocks are fetched from other processes: the template parameter `MPITrans`.
cachedist.h 64, 217-239, fulldist.h 63, 202-228. -/
inductive MpiTrans where
  | no | thread | window
deriving DecidableEq, Repr

/-- Template parameter `MPITrans` of `CacheDist`/`FullDist`: cachedist.h 217-239,
fulldist.h 202-228. -/
def ContainerType.mpi : ContainerType → MpiTrans
  | .CACHE_MPITHREAD | .CACHE_MPITHREAD_NUMA | .FULL_MPITHREAD | .FULL_MPITHREAD_NUMA
  | .FULL_MPITHREAD_NUMACACHE => .thread
  | .CACHE_MPIWIN | .CACHE_MPIWIN_NUMA | .FULL_MPIWIN | .FULL_MPIWIN_NUMA
  | .FULL_MPIWIN_NUMACACHE => .window
  | _ => .no

/-- Result of the selection: the implementation and the size of the communicator used by the
levels. grid.cpp 278-457. -/
structure Selection where
  type : ContainerType
  ranks : Nat
deriving DecidableEq, Repr

/-- Selection of the MPI communication, grid.cpp 317-331: the type and the size of the
communicator after a possible `setComm(MPI_COMM_SELF)`. `commSize` is `m_comm.size()`. -/
def selectMpi (b : Build) (ps : Params) (commSize : Nat) : Str × Nat :=
  let mpiType := paramString ps "MPI_COMMUNICATION".toList "WINDOW".toList 0
  let mpiType := if b.threadsafeMpi ∧ mpiType = "THREAD".toList then "WINDOW".toList else mpiType
  if commSize = 1 then ("OFF".toList, commSize)
  else if !b.noMpi ∧ mpiType = "OFF".toList then (mpiType, 1)
  else (mpiType, commSize)

/-- Selection of the NUMA communication, grid.cpp 333-343. `domains` is
`m_numa.totalDomains()`. -/
def selectNuma (b : Build) (ps : Params) (domains : Nat) : Str :=
  let numaType :=
    paramString ps "NUMA_COMMUNICATION".toList
      (if b.noNuma then "OFF".toList else "ON".toList) 0
  if domains = 1 then "OFF".toList else numaType

/-- Selection of the container type, grid.cpp 345-392. -/
def selectType (gridType mpiType numaType : Str) : ContainerType :=
  if gridType = "CACHE".toList then
    if mpiType = "OFF".toList then
      if numaType = "OFF".toList then .CACHE_NUMA else .CACHE
    else if mpiType = "THREAD".toList then
      if numaType = "OFF".toList then .CACHE_MPITHREAD else .CACHE_MPITHREAD_NUMA
    else
      if numaType = "OFF".toList then .CACHE_MPIWIN else .CACHE_MPIWIN_NUMA
  else if gridType = "PASS_THROUGH".toList then .PASS_THROUGH
  else
    if mpiType = "OFF".toList then
      if numaType = "OFF".toList then .FULL else .FULL_NUMA
    else if mpiType = "THREAD".toList then
      if numaType = "OFF".toList then .FULL_MPITHREAD
      else if numaType = "CACHE".toList then .FULL_MPITHREAD_NUMACACHE
      else .FULL_MPITHREAD_NUMA
    else
      if numaType = "OFF".toList then .FULL_MPIWIN
      else if numaType = "CACHE".toList then .FULL_MPIWIN_NUMACACHE
      else .FULL_MPIWIN_NUMA

/-- `Grid::initContainers`, grid.cpp 278-457. `none`: `logError` ends the program because the
implementation requires MPI-3 (grid.cpp 408-414, 418-424). -/
def initContainers (b : Build) (ps : Params) (commSize domains : Nat) : Option Selection :=
  let m := selectMpi b ps commSize
  let t := selectType (paramString ps "GRID".toList "FULL".toList 0) m.1 (selectNuma b ps domains)
  if (t = .CACHE_MPIWIN ∨ t = .CACHE_MPIWIN_NUMA) ∧ ¬ b.mpi3 then none
  else some { type := t, ranks := m.2 }

/-- The last parameter of `registerThread` in `Grid::open`, grid.cpp 217-218. -/
def numaDetection (ps : Params) : Bool :=
  decide (paramString ps "NUMA_COMMUNICATION".toList "ON".toList 0 ≠ "OFF".toList)

/-- The value position used by all levels, grid.cpp 71-84 (`true`: cell centred). -/
def cellCentered (ps : Params) : Bool :=
  decide (paramString ps "VALUE_POSITION".toList "CELL_CENTERED".toList 0 ≠
    "VERTEX_CENTERED".toList)

end Asagi
