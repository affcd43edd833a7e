import Verif.Model.MsgCache
import Verif.Model.CacheDistRun
/-
An interpreter for the caches with the communication thread and the implemented messages, to
construct examples of executions; `Verif.Proofs.MsgCacheRun` proves that it only performs steps of
`MsgCacheStep`.
-/
namespace Asagi
variable {β : Type}

/-- One element of a schedule.
No code of its own: which thread executes its next step of mpithreadcache.h 95-251, 458-603. -/
inductive MsgCmd where
  /-- thread `t` calls a getter that needs value `off` of block `b` -/
  | call (t b off : Nat)
  /-- the next step of thread `t`; `rnd`: result of `rand()` -/
  | user (t rnd : Nat)
  /-- the communication thread of process `r` takes the next message of process `src` -/
  | take (r src rnd : Nat)
  /-- the next step of the communication thread of process `r` -/
  | comm (r : Nat)

/-- The first reply with a tag, and the others. mpithreadcache.h 472, 508-535. -/
def takeFirst (tag : Nat) : List (Rep β) → Option (Rep β × List (Rep β))
  | [] => none
  | m :: l =>
    if m.tag = tag then some (m, l)
    else match takeFirst tag l with
      | none => none
      | some (x, l') => some (x, m :: l')

/-- `MsgParams.talks` as a test. mpithreadcache.h 458-603. -/
def MsgParams.talksB (C : MsgParams β) (t : Nat) : Pc β → Bool
  | .own _ _ _ (.del (some o)) => decide (C.P.home o ≠ C.rankT t)
  | .own b _ _ .add | .own b _ _ .fin | .own b _ _ .start => decide (C.P.home b ≠ C.rankT t)
  | .own _ _ _ (.xfer e) => decide (0 ≤ e)
  | .own _ _ _ (.ask _) => true
  | _ => false

/-- The next step of a thread outside of the functions that send and receive. cachedist.h 135-214. -/
def msgOut (C : MsgParams β) (ms : MsgSt β) (t rnd : Nat) : Option (MsgSt β) :=
  if C.talksB t (ms.st.pc (.user t)) = false then
    (execUser C.P ms.st t rnd).map fun st' => { ms with st := st' }
  else match ms.st.pc (.user t) with
    | .own _ _ s (.del (some o)) => some { ms.post (C.rankT t) (C.P.home o) C.delTag
        (C.opData (C.P.dom t) s o) with call := upd ms.call t (.sendOp ms.next) }
    | .own b _ s .add => some { ms.post (C.rankT t) (C.P.home b) C.addTag
        (C.opData (C.P.dom t) s b) with call := upd ms.call t (.sendOp ms.next) }
    | .own b _ s .fin => some { ms.post (C.rankT t) (C.P.home b) C.addTag
        (C.opData (C.P.dom t) s b) with call := upd ms.call t (.sendOp ms.next) }
    | .own _ _ _ .start =>
      if ms.info (C.rankT t) = none then some { ms with
        info := upd ms.info (C.rankT t) (some t)
        call := upd ms.call t .reqInfo } else none
    | .own b off s (.xfer (.ofNat e)) =>
      if ms.st.blk (C.rankT t) = none then some { ms with
        st := { ms.st with
          blk := upd ms.st.blk (C.rankT t) (some (.user t))
          }.goto t b off s (.ask (ownerRank C.P.rankCache e))
        call := upd ms.call t .reqXfer } else none
    | _ => none

/-- The next step of a thread. cachedist.h 135-214, mpithreadcache.h 458-603. -/
def msgUser (C : MsgParams β) (ms : MsgSt β) (t rnd : Nat) : Option (MsgSt β) :=
  match ms.call t, ms.st.pc (.user t) with
  | .out, _ => msgOut C ms t rnd
  | .sendOp _, p => match p.update C with
    | some (_, _, p') => some { ms with
        st := { ms.st with pc := upd ms.st.pc (.user t) p' }
        call := upd ms.call t .out }
    | none => none
  | .reqInfo, .own b _ _ .start => some { ms.post (C.rankT t) (C.P.home b) C.infoTag (C.doff b) with
        call := upd ms.call t (.sendInfo ms.next) }
  | .sendInfo _, .own _ _ _ .start => some { ms with call := upd ms.call t .waitInfo }
  | .waitInfo, .own b off s .start =>
    match takeFirst 0 (ms.mail (C.P.home b) (C.rankT t)) with
    | some (⟨_, _, .entry e⟩, rest) => some { ms with
        st := ms.st.goto t b off s (.xfer e)
        mail := upd ms.mail (C.P.home b) (upd (ms.mail (C.P.home b)) (C.rankT t) rest)
        info := upd ms.info (C.rankT t) none
        call := upd ms.call t .out }
    | _ => none
  | .reqXfer, .own b _ _ (.ask r) => some { ms.post (C.rankT t) r C.xferTag b with
        call := upd ms.call t (.sendXfer ms.next) }
  | .sendXfer _, .own _ _ _ (.ask _) => some { ms with call := upd ms.call t .waitXfer }
  | .waitXfer, .own b off s (.ask r) =>
    match takeFirst (C.tagOffset + 1) (ms.mail r (C.rankT t)),
        takeFirst (C.tagOffset + 2) (ms.mail r (C.rankT t)) with
    | some (⟨_, _, .block buf⟩, rest), _ => some { ms with
        st := ms.st.goto t b off s (.recv buf 0)
        mail := upd ms.mail r (upd (ms.mail r) (C.rankT t) rest)
        call := upd ms.call t .out }
    | none, some (⟨_, _, .ack⟩, rest) => some { ms with
        st := { ms.st with blk := upd ms.st.blk (C.rankT t) none }.goto t b off s .start
        mail := upd ms.mail r (upd (ms.mail r) (C.rankT t) rest)
        call := upd ms.call t .out }
    | _, _ => none
  | _, _ => none

/-- The next step of a communication thread that does not wait for messages. mpithreadcache.h 95-185. -/
def msgComm (C : MsgParams β) (ms : MsgSt β) (r : Nat) : Option (MsgSt β) :=
  match ms.wait r with
  | some _ => some { ms with wait := upd ms.wait r none }
  | none => match ms.st.pc (.comm r) with
    | .tryDom q _ i =>
      if C.P.domains ≤ i then some { ms.answer r q (C.tagOffset + 2) .ack with
        st := { ms.st with pc := upd ms.st.pc (.comm r) .idle } }
      else (execComm C.P ms.st r).map fun st' => { ms with st := st' }
    | .send q _ i s k buf =>
      if C.P.cells ≤ k then some { ms.answer r q (C.tagOffset + 1) (.block buf) with
        st := { ms.st with pc := upd ms.st.pc (.comm r) (.sent i s) } }
      else (execComm C.P ms.st r).map fun st' => { ms with st := st' }
    | .tryCm _ _ _ => (execComm C.P ms.st r).map fun st' => { ms with st := st' }
    | .sent _ _ => (execComm C.P ms.st r).map fun st' => { ms with st := st' }
    | _ => none

/-- One element of the schedule; `none` if it is not possible.
cachedist.h 135-214, mpithreadcache.h 95-251, 458-603, commthread.h 282-312. -/
def MsgCmd.exec (C : MsgParams β) (ms : MsgSt β) : MsgCmd → Option (MsgSt β)
  | .call t b off =>
    match ms.call t, ms.st.pc (.user t) with
    | .out, .idle => if off < C.P.cells then
        some { ms with st := { ms.st with pc := upd ms.st.pc (.user t) (.wantCm b off) } } else none
    | _, _ => none
  | .user t rnd => msgUser C ms t rnd
  | .take r src rnd =>
    match ms.st.pc (.comm r), ms.wait r, ms.wire src r with
    | .idle, none, m :: rest =>
      if m.tag = C.infoTag then
        some (MsgSt.answer (ms.take src r rest) r src (C.tagOffset + 0)
          (.entry (dictFetch (ms.st.dir (C.blockAt r m.data)) rnd)))
      else if m.tag = C.xferTag then some { ms.take src r rest with
        st := { ms.st with pc := upd ms.st.pc (.comm r) (.tryDom src m.data 0) } }
      else if m.tag = C.addTag then some { ms.take src r rest with
        st := { ms.st with
          dir := upd ms.st.dir (C.opBlock r m.data)
            (dictAdd (ms.st.dir (C.opBlock r m.data)) (C.opEntry src m.data)) } }
      else if m.tag = C.delTag then some { ms.take src r rest with
        st := { ms.st with
          dir := upd ms.st.dir (C.opBlock r m.data)
            (dictDelete (ms.st.dir (C.opBlock r m.data)) (C.opEntry src m.data)) } }
      else none
    | _, _, _ => none
  | .comm r => msgComm C ms r

/-- A schedule. No code of its own: repeats `MsgCmd.exec` (cachedist.h 135-214). -/
def msgExec (C : MsgParams β) (ms : MsgSt β) : List MsgCmd → Option (MsgSt β)
  | [] => some ms
  | c :: cs => (c.exec C ms).bind fun ms' => msgExec C ms' cs

/-- A schedule, from the start. After cachedist.h 96-129. -/
def msgRun (C : MsgParams β) (cmds : List MsgCmd) : Option (MsgSt β) :=
  (CacheList.init C.P.size C.P.handDiff).bind fun c => msgExec C (MsgSt.start C c) cmds

end Asagi
