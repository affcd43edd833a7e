/-
The number of values passed to MPI: `m_blockSize` is an `unsigned long`, the count parameter of
`MPI_Get`, `MPI_Send` and `MPI_Recv` an `int` (mpiwinfull.h 179-187, mpithreadfull.h 178 and 188-189,
mpiwincache.h 389-396, mpithreadcache.h 157-159 and 523).
-/
namespace Asagi

/-- Conversion of the `unsigned long` to the 32-bit `int` parameter.
mpiwinfull.h 179-187, mpithreadfull.h 178, 188, mpiwincache.h 389-396, mpithreadcache.h 157-159, 523. -/
def mpiCount (n : Nat) : Int :=
  let m : Nat := n % 2 ^ 32
  if m < 2 ^ 31 then (m : Int) else (m : Int) - 2 ^ 32

/-- Transfer of one block of `blockSize` values into the cache slot: MPI copies `count` values.
`none`: MPI rejects the count (and reports an error, which the code only asserts).
mpiwinfull.h 179-187, mpithreadfull.h 178, 188, mpiwincache.h 389-396, mpithreadcache.h 157-159, 523. -/
def mpiTransfer {α : Type} (blockSize : Nat) (source slot : List α) : Option (List α) :=
  let count := mpiCount blockSize
  if count < 0 then none
  else some (source.take count.toNat ++ slot.drop count.toNat)

end Asagi
