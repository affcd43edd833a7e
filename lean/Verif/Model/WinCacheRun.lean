import Verif.Model.WinCache
import Verif.Model.CacheDistRun
/-
An interpreter for the caches with MPI windows and the implemented lock, to construct examples of
executions; `Verif.Proofs.WinCacheRun` proves that it only performs steps of `WinStep`.
-/
namespace Asagi
variable {β : Type}

/-- The next step of thread `t` inside of the functions of the lock; `u` is the thread whose message
is received. Lines as in `MtxStep`. mpi/mutex.h 132-203, mpiwincache.h 243-572. -/
def mtxNext (M : MtxParams) (s : MtxState) (t u : Thr) : Option MtxState :=
  match s.pc t with
  | .wantProc l =>
    if s.proc t.rank = none then
      some { s with proc := upd s.proc t.rank (some t), pc := upd s.pc t (.wantWin l) } else none
  | .wantWin l =>
    if s.win (M.home l) = none then
      some { s with win := upd s.win (M.home l) (some t), pc := upd s.pc t (.swap l) } else none
  | .swap l =>
    if s.mem l < 0 then some { s with mem := upd s.mem l (M.lockId t), pc := upd s.pc t (.update l) }
    else some { s with mem := upd s.mem l (M.lockId t), pc := upd s.pc t (.swapped l (s.mem l)) }
  | .swapped l old => some { s with
      win := upd s.win (M.home l) none
      proc := if M.lib then s.proc else upd s.proc t.rank none
      pc := upd s.pc t (.sending l (old / M.total) (M.tagOffset + old % M.total)) }
  | .reProc l =>
    if s.proc t.rank = none then
      some { s with proc := upd s.proc t.rank (some t), pc := upd s.pc t (.reWin l) } else none
  | .reWin l =>
    if s.win (M.home l) = none then
      some { s with win := upd s.win (M.home l) (some t), pc := upd s.pc t (.update l) } else none
  | .relProc l =>
    if s.proc t.rank = none then
      some { s with proc := upd s.proc t.rank (some t), pc := upd s.pc t (.relWin l) } else none
  | .relWin l =>
    if s.win (M.home l) = none then
      some { s with win := upd s.win (M.home l) (some t), pc := upd s.pc t (.cas l) } else none
  | .cas l =>
    if s.mem l = M.lockId t then some { s with mem := upd s.mem l (-1), pc := upd s.pc t (.released l) }
    else some { s with pc := upd s.pc t (.recv l) }
  | .recv l =>
    match s.pc u with
    | .sending l' dest tag =>
      if dest = t.rank ∧ tag = M.tagOffset + t.tid then
        some { s with pc := upd (upd s.pc t (.released l)) u (if M.lib then .reWin l' else .reProc l') }
      else none
    | _ => none
  | _ => none

/-- One element of a schedule.
No code of its own: which thread executes its next step of cachedist.h 135-214, mpiwincache.h 243-572. -/
inductive WinCmd where
  /-- thread `t` calls a getter that needs value `off` of block `b` -/
  | call (t b off : Nat)
  /-- the next step of thread `t`; `rnd`: result of `rand()`; `u`: sender of a received message -/
  | step (t rnd u : Nat)

/-- The step of thread `t` in which it writes the entry `l`. mpiwincache.h 315-334, 465-572. -/
def winWrite (C : WinParams β) (ws : WinState β) (t rnd l : Nat) : Option (WinState β) :=
  match ws.st.pc (.user t) with
  | .own b off s (.del (some o)) =>
    if o = l then some { ws with
        st := { ws.st with
          dl := upd ws.st.dl o (some (.user t))
          dir := upd ws.st.dir o (dictDelete (C.entryFor ws t o) (C.P.entry (C.P.dom t) s))
          }.goto t b off s (.delLocked o)
        mtx := { ws.mtx with pc := upd ws.mtx.pc (C.thr t) (.cas l) } }
    else none
  | .own b off s .add =>
    if b = l then some { ws with
        st := { ws.st with
          dl := upd ws.st.dl b (some (.user t))
          dir := upd ws.st.dir b (dictAdd (C.entryFor ws t b) (C.P.entry (C.P.dom t) s))
          }.goto t b off s .addLocked
        mtx := { ws.mtx with
          win := upd ws.mtx.win (C.M.home l) none
          proc := if C.M.lib then ws.mtx.proc else upd ws.mtx.proc (C.thr t).rank none
          pc := upd ws.mtx.pc (C.thr t) (.held l) } }
    else none
  | .own b off s .start =>
    if b = l then some { ws with
        st := { ws.st with
          dl := upd ws.st.dl b (some (.user t))
          dir := upd ws.st.dir b
            (dictFetchAndUpdate (C.entryFor ws t b) (C.P.entry (C.P.dom t) s) rnd).2
          }.goto t b off s
            (.xfer (dictFetchAndUpdate (C.entryFor ws t b) (C.P.entry (C.P.dom t) s) rnd).1)
        mtx := { ws.mtx with
          win := upd ws.mtx.win (C.M.home l) none
          proc := if C.M.lib then ws.mtx.proc else upd ws.mtx.proc (C.thr t).rank none
          pc := upd ws.mtx.pc (C.thr t) (.held l) } }
    else none
  | _ => none

/-- A step of the getter of thread `t`. cachedist.h 135-214. -/
def winPlain (C : WinParams β) (ws : WinState β) (t rnd : Nat) : Option (WinState β) :=
  if C.tid t < C.total ∧ (ws.st.pc (.user t)).wantsEntry = none ∧
      (ws.st.pc (.user t)).leavesLib = false then
    (execUser C.P ws.st t rnd).map fun st' => { ws with st := st' }
  else none

/-- One element of the schedule, cachedist.h 135-214, mpiwincache.h 243-572; `none` if it is not possible. -/
def WinCmd.exec (C : WinParams β) (ws : WinState β) : WinCmd → Option (WinState β)
  | .call t b off =>
    if C.tid t < C.total then
      match ws.st.pc (.user t) with
      | .idle => if off < C.P.cells then
          some { ws with st := { ws.st with pc := upd ws.st.pc (.user t) (.wantCm b off) } } else none
      | _ => none
    else none
  | .step t rnd u =>
    match ws.mtx.pc (C.thr t) with
    | .idle =>
      match (ws.st.pc (.user t)).wantsEntry with
      | some l =>
        if C.tid t < C.total then
          some { ws with mtx := { ws.mtx with pc := upd ws.mtx.pc (C.thr t) (.wantProc l) } } else none
      | none => winPlain C ws t rnd
    | .update l => winWrite C ws t rnd l
    | .held l =>
      if (ws.st.pc (.user t)).leavesLib = true then
        some { ws with mtx := { ws.mtx with
          pc := upd ws.mtx.pc (C.thr t) (if C.M.lib then .relWin l else .relProc l) } }
      else winPlain C ws t rnd
    | .released l =>
      if (ws.st.pc (.user t)).leavesLib = true then
        (execUser C.P ws.st t rnd).map fun st' => { ws with st := st', mtx := { ws.mtx with
          win := upd ws.mtx.win (C.M.home l) none
          proc := upd ws.mtx.proc (C.thr t).rank none
          pc := upd ws.mtx.pc (C.thr t) .idle } }
      else none
    | _ => (mtxNext C.M ws.mtx (C.thr t) (C.thr u)).map fun m' =>
        { ws with mtx := m', buf := C.fetch ws m' }

/-- A schedule. No code of its own: repeats `WinCmd.exec` (mpiwincache.h 243-572). -/
def winExec (C : WinParams β) (ws : WinState β) : List WinCmd → Option (WinState β)
  | [] => some ws
  | c :: cs => (c.exec C ws).bind fun ws' => winExec C ws' cs

/-- A schedule, from the start. After cachedist.h 96-129. -/
def winRun (C : WinParams β) (cmds : List WinCmd) : Option (WinState β) :=
  (CacheList.init C.P.size C.P.handDiff).bind fun c => winExec C (WinState.start C c) cmds

end Asagi
