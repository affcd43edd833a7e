import Verif.Spec.ManySessions
import Verif.Spec.ManyStarve
/-
Executions of a program that uses several levels, with any number of calls of getters, see
`Verif.Spec.ManySessions` and `Verif.Spec.Starvation`.
-/
namespace Asagi.Spec
open Asagi Asagi.Props
variable {α : Type}

/-- The positions of the threads in the getters of a level, for each selected implementation as in `LevelImpl`: in the
functions of the caches, of the lock of the directory, of the transfers of FULL grids and of PASS_THROUGH grids. For an
access that only reads memory, the position is whether the value has been read. -/
inductive ImplPos (V : OpenLevel α) : (L : LevelSys α) → LevelPos L → Prop
  | full (mem0 m : Mem α) : V.sel.type = .FULL →
      mem0.length = domainSize V.c (V.S.dist V.sel) * (V.S.dist V.sel).domains →
      fullOpen V.c (V.S.dist V.sel) 0 mem0 = some m →
      ImplPos V ((LevelSys.none.withLocal fun _ pos => fullGetAt V.c (V.S.dist V.sel) m 0 pos).only V.team)
        ⟨Unit × Option α, fun s t => ((), s.2 t)⟩
  | fullDist (s0 : FullDist α) : V.sel.type.kind = .full → V.sel.type ≠ .FULL →
      FullOpened V.c (V.S.full V.sel) s0 →
      ImplPos V ((((V.S.xfer V.K V.sel).sys V.c s0.data
        (decide (V.sel.type.mpi = .window) && V.S.build.threadsafeMpi)).withLocal (V.localRead s0)).only V.team)
        ⟨(Pc α × XferPc α) × Option α, fun s t => ((s.1.st.pc (.user t), s.1.call t), s.2 t)⟩
  | cache : V.sel.type.kind = .cache → V.sel.type.mpi = .no →
      ImplPos V (((V.c.shared (V.S.cache V.sel V.c)).sys V.c).only V.team) ⟨Pc α, fun st t => st.pc (.user t)⟩
  | cacheWindow : V.sel.type.kind = .cache → V.sel.type.mpi = .window →
      ImplPos V (((V.S.win V.K V.sel V.c).sys V.c).only V.team)
        ⟨Pc α × MtxPc, fun ws t => (ws.st.pc (.user t), ws.mtx.pc ((V.S.win V.K V.sel V.c).thr t))⟩
  | passThrough (buf0 : Mem α) : V.sel.type.kind = .passThrough → buf0.length = V.K.total →
      ImplPos V ((passSys V.c V.K.tid V.team buf0).only V.team) ⟨PassPc α, fun s t => s.pc t⟩

end Asagi.Spec
