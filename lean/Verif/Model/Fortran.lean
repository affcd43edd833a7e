import Verif.Model.Params
import Verif.Model.Trans
import Verif.Model.Api
/-
The Fortran interface: the module procedures of include/asagi.f90 (optional arguments, strings), the
functions of asagi_f90.cpp (handles, conversions of integers) and the table of pointers,
fortran/pointerarray.h. The library behind it, the class `grid::Grid`, is a parameter: a type of states,
the result of the constructors and the effect of each member function.

`MPI_Comm_f2c` is the identity here. The static functions (communication thread, node-local rank) do not
use handles and are forwarded as they are; they are left out.
-/
namespace Asagi

/-- The constructors: `asagi::Grid::create`, `createArray`, `createStruct` (include/asagi.h), with the
integers that they get. -/
inductive GridKind where
  | basic (type : Int)
  | array (type : Int)
  | struct (count : Nat) (blockLength displacements : List Nat) (types : List Int)
deriving DecidableEq, Repr

/-- The member functions of `asagi::Grid` that the Fortran interface calls. `P`: positions. asagi_f90.cpp 80-211. -/
inductive GridCall (P : Type) where
  | setComm (comm : Int)
  | setThreads (threads : Nat)
  | setParam (name value : Str) (level : Nat)
  | «open» (filename : Str) (level : Nat)
  | getDimensions
  | getMin (n : Nat)
  | getMax (n : Nat)
  | getDelta (n level : Nat)
  | getVarSize
  | getByte (pos : P) (level : Nat)
  | getInt (pos : P) (level : Nat)
  | getLong (pos : P) (level : Nat)
  | getFloat (pos : P) (level : Nat)
  | getDouble (pos : P) (level : Nat)
  | getBuf (pos : P) (level : Nat)

/-- The class `grid::Grid`. `none`: undefined behaviour. `V`: what a function returns. grid/grid.h 61-240. -/
structure GridClass (σ P V : Type) where
  create : GridKind → σ
  call : σ → GridCall P → Option (σ × V)

/-- The procedures of include/asagi.f90. `none`: optional argument not present. -/
inductive FortranCall (P : Type) where
  | create (type : Option Int)
  | createArray (type : Option Int)
  | createStruct (count : Int) (blockLength displacements types : List Int)
  | setComm (grid : Int) (comm : Int)
  | setThreads (grid : Int) (threads : Int)
  | setParam (grid : Int) (name value : Str) (level : Option Int)
  | «open» (grid : Int) (filename : Str) (level : Option Int)
  | dimensions (grid : Int)
  | min (grid : Int) (n : Int)
  | max (grid : Int) (n : Int)
  | delta (grid : Int) (n : Int) (level : Option Int)
  | varSize (grid : Int)
  | getByte (grid : Int) (pos : P) (level : Option Int)
  | getInt (grid : Int) (pos : P) (level : Option Int)
  | getLong (grid : Int) (pos : P) (level : Option Int)
  | getFloat (grid : Int) (pos : P) (level : Option Int)
  | getDouble (grid : Int) (pos : P) (level : Option Int)
  | getBuf (grid : Int) (pos : P) (level : Option Int)
  | close (grid : Int)

/-- `int` to `unsigned int` (asagi_f90.cpp, the parameters of the member functions). -/
def intToUnsigned (i : Int) : Nat := (i % 2 ^ 32).toNat

/-- `reinterpret_cast<unsigned long*>` of `long`, asagi_f90.cpp 73. -/
def longToUnsigned (i : Int) : Nat := (i % 2 ^ 64).toNat

/-- What a C function reads from `s // c_null_char`, asagi.f90 341-342, 363: the characters before the
first null character. -/
def cString (s : Str) : Str := (s ++ ['\x00']).takeWhile (· ≠ '\x00')

/-- `if( present( level ) ) then l = level else l = 0`, asagi.f90 335-339 and the same in the other
procedures. -/
def optLevel (level : Option Int) : Int :=
  match level with
  | some l => l
  | none => 0

/-- `t = ASAGI_FLOAT` if the type is not present, asagi.f90 295-299, 314-318. The enumerator ASAGI_FLOAT
is 3, asagi.f90 54. -/
def optType (type : Option Int) : Int :=
  match type with
  | some t => t
  | none => 3

/-- The grids in memory by their addresses, the addresses in use, and the table `m_pointers`.
pointerarray.h 61, grid.cpp 477-478. -/
structure FortranState (σ : Type) where
  heap : Nat → Option σ
  live : List Nat
  table : PointerArray

/-- Before the first call: pointerarray.h 61, grid.cpp 477-478. -/
def FortranState.empty {σ : Type} : FortranState σ := ⟨fun _ => none, [], []⟩

/-- `Grid::f2c` (grid.h): an index out of bounds is undefined behaviour (the test in pointerarray.h 88 is
an assertion). -/
def FortranState.f2c {σ : Type} (s : FortranState σ) (grid : Int) : Option (Option Nat) :=
  if grid < 0 then none else s.table.get grid.toNat

/-- `Grid::create...(...)->c2f()`: memory for the grid, the constructor and its `init` (grid.cpp 269-273).
`alloc` gives the address for the addresses in use. -/
def FortranState.new {σ P V : Type} (L : GridClass σ P V) (alloc : List Nat → Nat) (s : FortranState σ)
    (k : GridKind) : FortranState σ × Nat :=
  let a := alloc s.live
  let (table, id) := s.table.add a
  (⟨upd s.heap a (some (L.create k)), a :: s.live, table⟩, id)

/-- `f2c(grid_id)->function(...)`: undefined for the null pointer and for deleted grids. asagi_f90.cpp 80-201. -/
def FortranState.member {σ P V : Type} (L : GridClass σ P V) (s : FortranState σ) (grid : Int)
    (c : GridCall P) : Option (FortranState σ × V) :=
  match s.f2c grid with
  | some (some a) =>
    match s.heap a with
    | some x =>
      match L.call x c with
      | some (x', v) => some ({ s with heap := upd s.heap a (some x') }, v)
      | none => none
    | none => none
  | _ => none

/-- `delete f2c(grid_id)`, asagi_f90.cpp 210: nothing happens for the null pointer; the destructor removes
the entry of the table, grid.cpp 189-190. -/
def FortranState.delete {σ : Type} (s : FortranState σ) (grid : Int) : Option (FortranState σ) :=
  match s.f2c grid with
  | none => none
  | some none => some s
  | some (some a) =>
    match s.heap a with
    | none => none
    | some _ =>
      match s.table.remove grid.toNat with
      | none => none
      | some t => some ⟨upd s.heap a none, s.live.filter (· ≠ a), t⟩

/-- What a call gives back: a handle, a value of the library or nothing. asagi_f90.cpp 46-211. -/
inductive FortranRet (V : Type) where
  | handle (h : Nat)
  | value (v : V)
  | unit
deriving DecidableEq, Repr

/-- One call: the procedure of asagi.f90 and the function of asagi_f90.cpp behind it. -/
def FortranState.step {σ P V : Type} (L : GridClass σ P V) (alloc : List Nat → Nat) (s : FortranState σ) :
    FortranCall P → Option (FortranState σ × FortranRet V)
  | .create t => some ((s.new L alloc (.basic (optType t))).1, .handle (s.new L alloc (.basic (optType t))).2)
  | .createArray t => some ((s.new L alloc (.array (optType t))).1, .handle (s.new L alloc (.array (optType t))).2)
  | .createStruct n b d t =>
    let k := GridKind.struct (intToUnsigned n) (b.map intToUnsigned) (d.map longToUnsigned) t
    some ((s.new L alloc k).1, .handle (s.new L alloc k).2)
  | .setComm g c => ret (s.member L g (.setComm c))
  | .setThreads g n => ret (s.member L g (.setThreads (intToUnsigned n)))
  | .setParam g n v l => ret (s.member L g (.setParam (cString n) (cString v) (intToUnsigned (optLevel l))))
  | .open g f l => ret (s.member L g (.open (cString f) (intToUnsigned (optLevel l))))
  | .dimensions g => ret (s.member L g .getDimensions)
  | .min g n => ret (s.member L g (.getMin (intToUnsigned n)))
  | .max g n => ret (s.member L g (.getMax (intToUnsigned n)))
  | .delta g n l => ret (s.member L g (.getDelta (intToUnsigned n) (intToUnsigned (optLevel l))))
  | .varSize g => ret (s.member L g .getVarSize)
  | .getByte g p l => ret (s.member L g (.getByte p (intToUnsigned (optLevel l))))
  | .getInt g p l => ret (s.member L g (.getInt p (intToUnsigned (optLevel l))))
  | .getLong g p l => ret (s.member L g (.getLong p (intToUnsigned (optLevel l))))
  | .getFloat g p l => ret (s.member L g (.getFloat p (intToUnsigned (optLevel l))))
  | .getDouble g p l => ret (s.member L g (.getDouble p (intToUnsigned (optLevel l))))
  | .getBuf g p l => ret (s.member L g (.getBuf p (intToUnsigned (optLevel l))))
  | .close g => (s.delete g).map fun s' => (s', .unit)
where
  ret (r : Option (FortranState σ × V)) : Option (FortranState σ × FortranRet V) :=
    r.map fun (s', v) => (s', .value v)

/-- A program; `none`: undefined behaviour. asagi_f90.cpp 46-211, one call after the other. -/
def FortranState.run {σ P V : Type} (L : GridClass σ P V) (alloc : List Nat → Nat) (s : FortranState σ) :
    List (FortranCall P) → Option (List (FortranRet V))
  | [] => some []
  | c :: cs => do
    let (s', r) ← s.step L alloc c
    let rs ← s'.run L alloc cs
    pure (r :: rs)

end Asagi
