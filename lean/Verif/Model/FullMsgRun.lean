import Verif.Model.FullMsg
/-
An interpreter for distributed FULL grids with the implemented transfers, to construct examples of
executions; `Verif.Proofs.FullMsgRun` proves that it only performs steps of `XferStep`.
-/
namespace Asagi
variable {α : Type}

/-- One element of a schedule.
No code of its own: which thread executes its next step of fulldist.h 150-199 or mpithreadfull.h 182-191. -/
inductive XferCmd where
  /-- thread `t` calls a getter -/
  | call (t : Nat) (pos : List Dbl)
  /-- the next step of thread `t` -/
  | user (t : Nat)
  /-- the communication thread of process `r` takes the next message of process `src` -/
  | take (r src : Nat)
  /-- the send of the communication thread of process `r` has ended -/
  | answered (r : Nat)

/-- The next step of a thread outside of `MPITrans::transfer`, fulldist.h 150-199. -/
def xferOut (c : LevelCfg α) (X : XferCfg α) (data : Nat → Mem α) (x : XferSt α) (t : Nat) :
    Option (XferSt α) :=
  match x.st.pc (.user t) with
  | .own b off s (.load k) =>
    if k < c.totalBlockSize then
      if X.F.trans ≠ .no ∧ X.home c b = X.rankT t then
        ((data (X.rankT t)).slice ((X.F.ds.localBlockCount c.totalBlocks *
          X.F.ds.blockDomain c.totalBlocks b + X.F.ds.blockOffset c.totalBlocks b) *
          c.totalBlockSize) c.totalBlockSize).bind fun src => (src[k]?).bind fun v =>
        some { x with st := { x.st with
          data := setCell x.st.data (X.F.dom t) s k v }.goto t b off s (.load (k + 1)) }
      else if k = 0 ∧ X.F.hasMpi = true ∧ x.mx (X.rankT t) = none then
        some { x with mx := upd x.mx (X.rankT t) (some t), call := upd x.call t .locked }
      else none
    else (execUser (c.fullShared X.F) x.st t 0).map fun st' => { x with st := st' }
  | .idle => none
  | _ => (execUser (c.fullShared X.F) x.st t 0).map fun st' => { x with st := st' }

/-- The next step of a thread; messages are buffered.
fulldist.h 150-199, mpithreadfull.h 169-180, mpiwinfull.h 161-191. -/
def xferUser (c : LevelCfg α) (X : XferCfg α) (data : Nat → Mem α) (x : XferSt α) (t : Nat) :
    Option (XferSt α) :=
  match x.call t, x.st.pc (.user t) with
  | .out, _ => xferOut c X data x t
  | .locked, .own b _ _ (.load 0) =>
    if X.win = true then some { x with call := upd x.call t .epoch }
    else some { x.post (X.rankT t) (X.home c b) X.tag (X.F.ds.blockNodeOffset c.totalBlocks b) with
      call := upd x.call t (.sending x.next) }
  | .sending _, .own _ _ _ (.load 0) => some { x with call := upd x.call t .waiting }
  | .waiting, .own b _ _ (.load 0) =>
    match x.mail (X.home c b) (X.rankT t) with
    | m :: rest => some { x with
        mail := upd x.mail (X.home c b) (upd (x.mail (X.home c b)) (X.rankT t) rest)
        call := upd x.call t (.storing m.buf) }
    | [] => none
  | .storing buf, .own b off s (.load k) =>
    if k < c.totalBlockSize then (buf[k]?).bind fun v =>
      some { x with st := { x.st with
        data := setCell x.st.data (X.F.dom t) s k v }.goto t b off s (.load (k + 1)) }
    else some { x with mx := upd x.mx (X.rankT t) none, call := upd x.call t .out }
  | .epoch, .own b off s (.load k) =>
    if k < c.totalBlockSize then
      (winSlice c X.F.ds (data (X.home c b))
        (X.F.ds.blockNodeOffset c.totalBlocks b * c.totalBlockSize) c.totalBlockSize).bind fun src =>
      (src[k]?).bind fun v => some { x with st := { x.st with
        data := setCell x.st.data (X.F.dom t) s k v }.goto t b off s (.load (k + 1)) }
    else some { x with call := upd x.call t .closed }
  | .closed, _ => some { x with mx := upd x.mx (X.rankT t) none, call := upd x.call t .out }
  | _, _ => none

/-- One element of the schedule, fulldist.h 150-199, mpithreadfull.h 169-191, mpiwinfull.h 161-191; `none` if it
is not possible. -/
def XferCmd.exec (c : LevelCfg α) (X : XferCfg α) (data : Nat → Mem α) (x : XferSt α) :
    XferCmd → Option (XferSt α)
  | .call t pos => (fullCall c X.F x.st t pos).map fun st' => { x with st := st' }
  | .user t => xferUser c X data x t
  | .take r src =>
    match x.comm r, x.wire src r with
    | none, m :: rest =>
      if m.tag = X.tag then
        ((data r).slice (m.data * c.totalBlockSize) c.totalBlockSize).bind fun buf =>
        some { x with
          wire := upd x.wire src (upd (x.wire src) r rest)
          mail := upd x.mail r (upd (x.mail r) src (x.mail r src ++ [⟨x.next, buf⟩]))
          comm := upd x.comm r (some (src, x.next))
          next := x.next + 1 }
      else none
    | _, _ => none
  | .answered r =>
    match x.comm r with
    | some _ => some { x with comm := upd x.comm r none }
    | none => none

/-- A schedule. No code of its own: repeats `XferCmd.exec` (fulldist.h 150-199). -/
def xferExec (c : LevelCfg α) (X : XferCfg α) (data : Nat → Mem α) :
    List XferCmd → XferSt α → Option (XferSt α)
  | [], x => some x
  | a :: l, x => (a.exec c X data x).bind (xferExec c X data l)

end Asagi
