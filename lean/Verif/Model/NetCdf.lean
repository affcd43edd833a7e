import Verif.Model.Mem
import Verif.Model.Blocked
/-
Model of reading blocks from the netCDF file, io/netcdfreader.h 185-347.
-/
namespace Asagi

/-- The contents of the netCDF variable: dimension sizes (`getSize(i)`,
netcdfreader.h 132-137) and the value at each index. -/
structure NcFile (α : Type) where
  size : List Nat
  val : List Nat → α

/-- `actSize`, netcdfreader.h 199-207. The arguments are the dimension sizes of the file,
the offset of the block and the size of the block. -/
def actSize : List Nat → List Nat → List Nat → List Nat
  | s :: ss, o :: os, b :: bs => (if o + b > s then s - o else b) :: actSize ss os bs
  | _, _, _ => []

/-- Loop computing `imap`, netcdfreader.h 212-213 (`imap[i] = imap[i+1] * size[i+1]`, from
the last dimension to the first; the list argument is `size[n-1], ..., size[1]`). -/
def imapLoop : List Nat → Nat → List Nat → List Nat
  | [], cur, acc => cur :: acc
  | b :: bs, cur, acc => imapLoop bs (cur * b) (cur :: acc)

/-- `imap`, netcdfreader.h 209-213. For a variable without dimensions the code writes
`imap[-1]`: undefined behaviour, `none`. -/
def imap : List Nat → Option (List Nat)
  | [] => none
  | _ :: bs => some (imapLoop bs.reverse 1 [])

/-- All index vectors of a hyperslab with the given extents, in row-major order.
The loops of netcdfreader.h 316-346, and `nc_get_varm_*` (246-291). -/
def boxPositions : List Nat → List (List Nat)
  | [] => [[]]
  | n :: ns => (List.range n).flatMap fun i => (boxPositions ns).map (i :: ·)

/-- Inner product `Σ pos[i] * imap[i]`. `imap` in netcdfreader.h 205-213, 246-291. -/
def dot : List Nat → List Nat → Nat
  | p :: ps, m :: ms => p * m + dot ps ms
  | _, _ => 0

/-- Componentwise sum of an offset and a position. `offset` in netcdfreader.h 246-291. -/
def addPos (off pos : List Nat) : List Nat := List.zipWith (· + ·) off pos

section
variable {α : Type}

/-- netCDF's `nc_get_varm_*` as documented (called in netcdfreader.h 246-291 with unit
stride): the value at `offset + pos` is stored at `buffer[Σ pos[i]*imap[i]]`. External
function: this is an assumption about netCDF. -/
def ncGetVarm (f : NcFile α) (offset count im : List Nat) (buf : Mem α) (base : Nat) :
    Option (Mem α) :=
  (boxPositions count).foldlM
    (fun m pos => m.write (base + dot pos im) (f.val (addPos offset pos))) buf

/-- netCDF's `nc_get_vara` as documented (called in netcdfreader.h 301): the hyperslab is
stored contiguously in row-major order. External function: an assumption about netCDF. -/
def ncGetVara (f : NcFile α) (offset count : List Nat) (buf : Mem α) (base : Nat) :
    Option (Mem α) :=
  buf.copyIn base ((boxPositions count).map fun pos => f.val (addPos offset pos))

/-- `doMapping`, netcdfreader.h 304-307: extents differ in some dimension but the first. -/
def doMapping (size blockSize : List Nat) : Bool :=
  size.tail != blockSize.tail

/-- The carry loop, netcdfreader.h 339-345. All lists are reversed (last dimension first):
`pos`, `size` and `imap`; the last argument is `indexBuf`. -/
def spreadCarry : List Int → List Nat → List Nat → Int → List Int × Int
  | p :: p' :: ps, s :: ss, m :: m' :: ms, indexBuf =>
    if p < 0 then
      let r := spreadCarry ((p' - 1) :: ps) ss (m' :: ms) (indexBuf - m' + m * s)
      (((s : Int) - 1) :: r.1, r.2)
    else (p :: p' :: ps, indexBuf)
  | ps, _, _, indexBuf => (ps, indexBuf)

/-- netcdfreader.h 335-345: decrement the position by one element. -/
def spreadDec (size im : List Nat) : List Int → Int → List Int × Int
  | p :: ps, indexBuf => spreadCarry ((p - 1) :: ps) size im (indexBuf - 1)
  | [], indexBuf => ([], indexBuf - 1)

/-- The loop netcdfreader.h 330-346. The first argument is `indexFile + 1`, so the loop
condition `indexFile >= 0` is the pattern match. `indexBuf` is an integer here (the C++
variable is unsigned and only becomes "negative" after the last iteration).
`memcpy` of one value = read and write of one memory cell, `none` if out of bounds. -/
def spreadLoop (size im : List Nat) (base : Nat) :
    Nat → List Int → Int → Mem α → Option (Mem α)
  | 0, _, _, m => some m
  | indexFile + 1, pos, indexBuf, m =>
    if (indexFile : Int) < indexBuf then do
      let v ← m.read (base + indexFile)
      let m' ← m.write (base + indexBuf.toNat) v
      let r := spreadDec size im pos indexBuf
      spreadLoop size im base indexFile r.1 r.2 m'
    else some m

/-- Loop computing the initial `indexBuf`, netcdfreader.h 324-327. -/
def spreadIndexBuf : List Nat → List Nat → Int → Int
  | s :: ss, b :: bs, acc => spreadIndexBuf ss bs (acc * b + (s - 1))
  | _, _, acc => acc

/-- `getVar<void>`, netcdfreader.h 297-347, for array and struct types. -/
def getVarVoid (f : NcFile α) (offset size blockSize im : List Nat) (buf : Mem α)
    (base : Nat) : Option (Mem α) := do
  let m ← ncGetVara f offset size buf base
  if doMapping size blockSize then
    match size with
    | [] => none
    | s :: ss =>
      spreadLoop size.reverse im.reverse base (prodLoop size 1)
        (size.reverse.map fun x : Nat => (x : Int) - 1)
        (spreadIndexBuf ss blockSize.tail ((s : Int) - 1)) m
  else some m

/-- `getBlock<T>`, netcdfreader.h 194-218. `basic = true`: `T` is a built-in type
(`nc_get_varm_*`); `basic = false`: `T = void` (array and struct types). The block is
written to `buf[base...]`. -/
def getBlock (f : NcFile α) (basic : Bool) (offset size : List Nat) (buf : Mem α)
    (base : Nat) : Option (Mem α) := do
  let act := actSize f.size offset size
  let im ← imap size
  if basic then ncGetVarm f offset act im buf base
  else getVarVoid f offset act size im buf base

end
end Asagi
