/-
Element-granular memory with checked accesses.

The C++ code works on raw byte buffers (`unsigned char* m_data`, grid/level/full.h 63;
`unsigned char* m_cache`, cache/cachemanager.h 56).  All accesses of the modelled code are
multiples of the value size, so the model uses one list cell per value.  (The byte
arithmetic is the subject of `Verif.Model.Layout`.)
An access outside of the allocation is undefined behaviour in C++; here it is the
distinct outcome `none`.  Freshly allocated memory has arbitrary contents: the theorems
quantify over the initial list, so a result that depended on uninitialised memory could
not be proved.
-/
namespace Asagi

/-- A memory block: one list entry per value. full.h 63, cachemanager.h 56. -/
abbrev Mem (α : Type) := List α

namespace Mem
variable {α : Type}

/-- Store one value (`*p = v`); `none` models an out-of-bounds store. netcdfreader.h 296-347, basictype.h 84-88. -/
def write (m : Mem α) (i : Nat) (v : α) : Option (Mem α) :=
  if i < m.length then some (m.set i v) else none

/-- Load one value; `none` models an out-of-bounds load. basictype.h 84-88. -/
def read (m : Mem α) (i : Nat) : Option α := m[i]?

/-- `memcpy(&m[dst], src, src.length)`: transfer/numafull.h 115-116, transfer/numacache.h 125.
`none` if the destination range leaves the allocation. -/
def copyIn (m : Mem α) (dst : Nat) (src : List α) : Option (Mem α) :=
  if dst + src.length ≤ m.length then
    some (m.take dst ++ src ++ m.drop (dst + src.length))
  else none

/-- The source range of a `memcpy` of `len` values starting at `src`;
`none` if the source range leaves the allocation. mpiwincache.h 389-396, numacache.h 125, arraytype.h 149-152. -/
def slice (m : Mem α) (src len : Nat) : Option (List α) :=
  if src + len ≤ m.length then some ((m.drop src).take len) else none

end Mem
end Asagi
