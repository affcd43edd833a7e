import Verif.Model.CacheDist
/-
An interpreter for the shared caches: executes the steps of a given schedule. It is used to
construct reachable states (examples and counterexamples); `Verif.Proofs.CacheDistRun` proves that
it only performs steps of `DistStep`.
-/
namespace Asagi
variable {β : Type}

/-- One element of a schedule.
No code of its own: which thread executes its next step of cachedist.h 135-214 or mpithreadcache.h 95-251. -/
inductive DistCmd where
  /-- thread `t` calls a getter that needs value `off` of block `b` -/
  | call (t b off : Nat)
  /-- the next step of thread `t`, `rnd` is the result of `rand()` -/
  | user (t rnd : Nat)
  /-- the communication thread of process `r` receives the next directory update of process `src` -/
  | deliver (r src : Nat)
  /-- the communication thread of process `r` receives the request of thread `t` -/
  | accept (r t : Nat)
  /-- the next step of the communication thread of process `r` -/
  | comm (r : Nat)

/-- The next step of a thread that holds a slot; lines as in `UserStep`. cachedist.h 146-214. -/
def execOwn (P : DistParams β) (st : DistState β) (t rnd b off s : Nat) :
    Phase β → Option (DistState β)
  | .del old =>
    match old, P.mode with
    | none, _ => some (st.goto t b off s (.numa 0))
    | some _, .none => some (st.goto t b off s (.numa 0))
    | some o, .window =>
      if st.dl o = none then some ({ st with
        dl := upd st.dl o (some (.user t))
        dir := upd st.dir o (dictDelete (st.dir o) (P.entry (P.dom t) s)) }.goto t b off s (.delLocked o))
      else none
    | some o, .thread => some ((st.sendOp P (P.rankOf (P.dom t)) o
        (.delete (P.entry (P.dom t) s))).goto t b off s (.numa 0))
  | .delLocked o => some ({ st with dl := upd st.dl o none }.goto t b off s (.numa 0))
  | .numa i =>
    if P.numa (P.dom t) b = false ∨ P.domains ≤ i then some (st.goto t b off s .start)
    else if i = P.dom t % P.domains then some (st.goto t b off s (.numa (i + 1)))
    else if P.noop = true ∨ st.cm (P.rankOf (P.dom t) * P.domains + i) ≠ none then
      some (st.goto t b off s (.numa (i + 1)))
    else some ({ st with
        cm := upd st.cm (P.rankOf (P.dom t) * P.domains + i) (some (.user t)) }.goto t b off s (.numaCm i))
  | .numaCm i =>
    match (st.cl (P.rankOf (P.dom t) * P.domains + i)).peek b with
    | none => some ({ st with
        cm := upd st.cm (P.rankOf (P.dom t) * P.domains + i) none }.goto t b off s (.numa (i + 1)))
    | some s' =>
      if st.lk (P.rankOf (P.dom t) * P.domains + i, s') = none then some ({ st with
        lk := upd st.lk (P.rankOf (P.dom t) * P.domains + i, s') (some (.user t))
        cm := upd st.cm (P.rankOf (P.dom t) * P.domains + i) none }.goto t b off s (.numaCopy i s' 0))
      else some ({ st with
        cm := upd st.cm (P.rankOf (P.dom t) * P.domains + i) none }.goto t b off s (.numa (i + 1)))
  | .numaCopy i s' k =>
    if k < P.cells then some ({ st with
        data := setCell st.data (P.dom t) s k
          (st.data (P.rankOf (P.dom t) * P.domains + i) s' k) }.goto t b off s (.numaCopy i s' (k + 1)))
    else some ({ st with
        lk := upd st.lk (P.rankOf (P.dom t) * P.domains + i, s') none }.goto t b off s .add)
  | .add =>
    match P.mode with
    | .none => some (st.goto t b off s .use)
    | .window =>
      if st.dl b = none then some ({ st with
        dl := upd st.dl b (some (.user t))
        dir := upd st.dir b (dictAdd (st.dir b) (P.entry (P.dom t) s)) }.goto t b off s .addLocked)
      else none
    | .thread => some ((st.sendOp P (P.rankOf (P.dom t)) b
        (.add (P.entry (P.dom t) s))).goto t b off s .use)
  | .addLocked => some ({ st with dl := upd st.dl b none }.goto t b off s .use)
  | .start =>
    match P.mode with
    | .none => some (st.goto t b off s (.xfer (-1)))
    | .window =>
      if st.dl b = none then some ({ st with
        dl := upd st.dl b (some (.user t))
        dir := upd st.dir b (dictFetchAndUpdate (st.dir b) (P.entry (P.dom t) s) rnd).2
        }.goto t b off s (.xfer (dictFetchAndUpdate (st.dir b) (P.entry (P.dom t) s) rnd).1))
      else none
    | .thread =>
      if P.home b = P.rankOf (P.dom t) then
        some (st.goto t b off s (.xfer (dictFetch (st.dir b) rnd)))
      else match st.pc (.comm (P.home b)) with
        | .idle => some (st.goto t b off s (.xfer (dictFetch (st.dir b) rnd)))
        | _ => none
  | .xfer (.negSucc _) => some (st.goto t b off s (.load 0))
  | .xfer (.ofNat e) =>
    match P.mode with
    | .none => none
    | .window => some (st.goto t b off s (.copy e 0))
    | .thread =>
      if st.blk (P.rankOf (P.dom t)) = none then some ({ st with
        blk := upd st.blk (P.rankOf (P.dom t)) (some (.user t))
        }.goto t b off s (.ask (ownerRank P.rankCache e)))
      else none
  | .copy e k =>
    if k < P.cells then some ({ st with
        data := setCell st.data (P.dom t) s k (st.data (P.entryDom e) (P.entrySlot e) k)
        }.goto t b off s (.copy e (k + 1)))
    else some (st.goto t b off s .fin)
  | .ask _ =>
    match st.box t with
    | none => none
    | some none => some ({ st with
        box := upd st.box t none
        blk := upd st.blk (P.rankOf (P.dom t)) none }.goto t b off s .start)
    | some (some buf) => some ({ st with box := upd st.box t none }.goto t b off s (.recv buf 0))
  | .recv buf k =>
    if k < P.cells then some ({ st with data := setCell st.data (P.dom t) s k (buf k)
        }.goto t b off s (.recv buf (k + 1)))
    else some ({ st with blk := upd st.blk (P.rankOf (P.dom t)) none }.goto t b off s .fin)
  | .load k =>
    if k < P.cells then some ({ st with data := setCell st.data (P.dom t) s k (P.file b k)
        }.goto t b off s (.load (k + 1)))
    else some (st.goto t b off s .fin)
  | .fin =>
    match P.mode with
    | .none => some (st.goto t b off s .use)
    | .window => some ({ st with dl := upd st.dl b none }.goto t b off s .use)
    | .thread => some ((st.sendOp P (P.rankOf (P.dom t)) b
        (.add (P.entry (P.dom t) s))).goto t b off s .use)
  | .use => some (st.goto t b off s (.out (st.data (P.dom t) s off)))
  | .out _ => some { st with
        lk := upd st.lk (P.dom t, s) none
        pc := upd st.pc (.user t) .idle }

/-- The next step of a thread of the user inside of a getter. cachedist.h 135-214. -/
def execUser (P : DistParams β) (st : DistState β) (t rnd : Nat) : Option (DistState β) :=
  match st.pc (.user t) with
  | .wantCm b off =>
    if st.cm (P.dom t) = none then
      match (st.cl (P.dom t)).get b with
      | .ok (c', s, old) => some { st with
          cl := upd st.cl (P.dom t) c'
          cm := upd st.cm (P.dom t) (some (.user t))
          pc := upd st.pc (.user t) (.wantSlot b off s old) }
      | _ => none
    else none
  | .wantSlot b off s old =>
    if st.lk (P.dom t, s) = none then some { st with
        lk := upd st.lk (P.dom t, s) (some (.user t))
        cm := upd st.cm (P.dom t) none
        pc := upd st.pc (.user t) (.own b off s (if old = some b then .use else .del old)) }
    else none
  | .own b off s ph => execOwn P st t rnd b off s ph
  | _ => none

/-- The next step of a communication thread that works on a request. mpithreadcache.h 137-185. -/
def execComm (P : DistParams β) (st : DistState β) (r : Nat) : Option (DistState β) :=
  match st.pc (.comm r) with
  | .tryDom t b i =>
    if P.domains ≤ i then some { st with
        box := upd st.box t (some none)
        pc := upd st.pc (.comm r) .idle }
    else if P.noop = true ∨ st.cm (r * P.domains + i) ≠ none then
      some { st with pc := upd st.pc (.comm r) (.tryDom t b (i + 1)) }
    else some { st with
        cm := upd st.cm (r * P.domains + i) (some (.comm r))
        pc := upd st.pc (.comm r) (.tryCm t b i) }
  | .tryCm t b i =>
    match (st.cl (r * P.domains + i)).peek b with
    | none => some { st with
        cm := upd st.cm (r * P.domains + i) none
        pc := upd st.pc (.comm r) (.tryDom t b (i + 1)) }
    | some s =>
      if st.lk (r * P.domains + i, s) = none then some { st with
        lk := upd st.lk (r * P.domains + i, s) (some (.comm r))
        cm := upd st.cm (r * P.domains + i) none
        pc := upd st.pc (.comm r) (.send t b i s 0 (fun _ => P.zero)) }
      else some { st with
        cm := upd st.cm (r * P.domains + i) none
        pc := upd st.pc (.comm r) (.tryDom t b (i + 1)) }
  | .send t b i s k buf =>
    if k < P.cells then some { st with
        pc := upd st.pc (.comm r) (.send t b i s (k + 1) (upd buf k (st.data (r * P.domains + i) s k))) }
    else some { st with
        box := upd st.box t (some (some buf))
        pc := upd st.pc (.comm r) (.sent i s) }
  | .sent i s => some { st with
        lk := upd st.lk (r * P.domains + i, s) none
        pc := upd st.pc (.comm r) .idle }
  | _ => none

/-- One element of the schedule; `none` if it is not possible.
Calls of cachedist.h 135, messages of commthread.h 283-312. -/
def DistCmd.exec (P : DistParams β) (st : DistState β) : DistCmd → Option (DistState β)
  | .call t b off =>
    match st.pc (.user t) with
    | .idle => if off < P.cells then some { st with pc := upd st.pc (.user t) (.wantCm b off) } else none
    | _ => none
  | .user t rnd => execUser P st t rnd
  | .deliver r src =>
    match st.pc (.comm r), st.net src r with
    | .idle, (b, op) :: rest => some { st with
        dir := upd st.dir b (dictStep (st.dir b) op)
        net := upd st.net src (upd (st.net src) r rest) }
    | _, _ => none
  | .accept r t =>
    match st.pc (.comm r), st.pc (.user t), st.box t with
    | .idle, .own b _ _ (.ask r'), none =>
      if r' = r then some { st with pc := upd st.pc (.comm r) (.tryDom t b 0) } else none
    | _, _, _ => none
  | .comm r => execComm P st r

/-- A schedule, from any state. No code of its own: repeats `DistCmd.exec` (cachedist.h 135-214). -/
def distExec (P : DistParams β) (st : DistState β) : List DistCmd → Option (DistState β)
  | [] => some st
  | c :: cs => (c.exec P st).bind fun st' => distExec P st' cs

/-- A schedule, from the start. After `CacheDist::open`, cachedist.h 96-129. -/
def distRun (P : DistParams β) (cmds : List DistCmd) : Option (DistState β) :=
  (CacheList.init P.size P.handDiff).bind fun c => distExec P (DistState.start P c) cmds

/-- `n` steps of thread `t`. No code of its own (steps of cachedist.h 135-214). -/
def steps (t n : Nat) : List DistCmd := List.replicate n (.user t 0)

end Asagi
