import Verif.Model.Blocked
/-
Where values are stored: byte addresses relative to the start of the allocation
(numa/numacomm.h 132-150) and of the window (transfer/mpiwinfull.h, transfer/mpiwincache.h).
-/
namespace Asagi

/-- A range of bytes.
Of the memory of numacomm.h 132-150 and the windows of mpiwinfull.h 115-152, mpiwincache.h 148-228. -/
structure Range where
  start : Nat
  len : Nat
deriving DecidableEq, Repr

/-- `NumaComm::allocate`, numacomm.h 136: bytes allocated for all domains. -/
def allocSize (size domains : Nat) : Nat := size * domains

/-- `data = &data[size * domainId()]`, numacomm.h 147. -/
def domainBase (size domain : Nat) : Nat := size * domain

/-- Size requested by `Full::open`, full.h 102. -/
def fullSize (typeSize blockElems localBlocks : Nat) : Nat := typeSize * blockElems * localBlocks

/-- Memory that `Full::open` fills with local block `i` of a domain, full.h 122-124. -/
def fullBlock (typeSize blockElems localBlocks domain i : Nat) : Range :=
  ⟨domainBase (fullSize typeSize blockElems localBlocks) domain + typeSize * blockElems * i,
    typeSize * blockElems⟩

/-- Value read by `Full::getAt`, full.h 159-162. -/
def fullValue (typeSize blockElems localBlocks domain i offset : Nat) : Range :=
  ⟨domainBase (fullSize typeSize blockElems localBlocks) domain +
    typeSize * (i * blockElems + offset), typeSize⟩

/-- Memory copied by `NumaFull::transfer`, numafull.h 88-92 and 115-116: m_data is the start of the
memory of the process. -/
def numaFullBlock (typeSize blockElems localBlocks domain i : Nat) : Range :=
  ⟨(localBlocks * domain + i) * (blockElems * typeSize), blockElems * typeSize⟩

/-- Memory read by `MPIWinFull::transfer`, mpiwinfull.h 179-187: displacement unit typeSize (136),
`offset` is `blockNodeOffset`, blocked.h 268-271. -/
def winFullBlock (typeSize blockElems localBlocks domain i : Nat) : Range :=
  ⟨(i + domain * localBlocks) * blockElems * typeSize, blockElems * typeSize⟩

/-- Memory sent by `MPIThreadFull::recv`, mpithreadfull.h 188-189 (m_data of domain 0). -/
def threadFullBlock (typeSize blockElems localBlocks domain i : Nat) : Range :=
  ⟨(i + domain * localBlocks) * blockElems * typeSize, blockElems * typeSize⟩

/-- Size of the window, mpiwinfull.h 134-135. -/
def winFullSize (typeSize blockElems localBlocks domains : Nat) : Nat :=
  localBlocks * blockElems * typeSize * domains

/-- Size requested by `Cache::open`, cache.h 103. -/
def cacheBytes (typeSize blockElems slots : Nat) : Nat := typeSize * blockElems * slots

/-- A cache slot, cachemanager.h 134 with m_blockSize = typeSize * totalBlockSize (cache.h 109-110). -/
def cacheSlot (typeSize blockElems slots domain slot : Nat) : Range :=
  ⟨domainBase (cacheBytes typeSize blockElems slots) domain + slot * (typeSize * blockElems),
    typeSize * blockElems⟩

/-- Memory read by `MPIWinCache::transfer`, mpiwincache.h 363, 371-372, 389-396: `offset` is the
slot number within the process, `cacheOffset + m_cacheSize * numaDomainId` (cachedist.h 157). -/
def winCacheSlot (typeSize blockElems slots domain slot : Nat) : Range :=
  ⟨(slot + slots * domain) * blockElems * typeSize, blockElems * typeSize⟩

/-- Buffer of a thread in `PassThrough`, passthrough.h 95-96, 117-118. -/
def passBuffer (typeSize thread : Nat) : Range := ⟨typeSize * thread, typeSize⟩

end Asagi
