import Verif.Http.Model
/-
Model of /repo/stream/httprange/stream.go: the sequential stream lane of a reader built by `NewRange`, as a step machine.
One step of a thread is one atomic action of the code (an atomic load, a compare-and-swap, taking the mutex, one `body.Read`,
sending or receiving the request); the local computation around it belongs to the step.

Simplifications: the request headers other than the range are not modelled; `pinOrVerify` is one atomic action here (its
interleaving is PinModel.lean); contexts are not modelled (a cancelled request is a transport error).
-/
namespace Verif.Http

/-- stream.go 19-31 `streamState`. -/
inductive LaneState where
  | pending | open_ | dead
deriving DecidableEq, Repr

/-- A `ReadAt` call that reached the lane: what was asked (`len`, `off`) and the clipped length `k` of `p`. -/
structure RArg where
  len : Nat
  off : Int
  k : Nat
deriving DecidableEq, Repr

/-- Where one `ReadAt` call stands. -/
inductive RPhase where
  | idle
  /-- past reader_at.go 42, before line 131 of stream.go -/
  | planned (a : RArg)
  /-- `dead` was false (line 131) -/
  | sawAlive (a : RArg)
  /-- `pos` was not the offset (line 134), before the swap of `killDetached` -/
  | elsewhere (a : RArg)
  /-- line 171: waiting for the mutex -/
  | wantLock (a : RArg)
  /-- holding the mutex, before line 178 -/
  | locked (a : RArg)
  /-- holding the mutex, at the start of `openStream` (line 182) -/
  | opening (a : RArg)
  /-- holding the mutex, the request is sent (line 261) -/
  | asked (a : RArg) (wantEnd : Int) (conditional : Bool)
  /-- holding the mutex, in the loop (line 187), with the bytes read so far -/
  | reading (a : RArg) (got : Bytes)
  /-- the lane did not answer; the read goes on as a bounded request -/
  | unserved (a : RArg)
  | served (a : RArg) (got : Bytes) (e : Option HErr)
  /-- returned before reaching the lane -/
  | early (len : Nat) (off : Int) (e : Option HErr)
deriving DecidableEq, Repr

/-- Where a closing goroutine stands. -/
inductive CPhase where
  /-- the detached goroutine of `killDetached`, not spawned yet -/
  | absent
  /-- a `Close` call before `dead.Store` (line 89) -/
  | start
  | wantLock
  | locked
  | done
deriving DecidableEq, Repr

/-- Who holds the mutex. -/
inductive Holder where
  | reader (t : Nat)
  | closer (c : Nat)
deriving DecidableEq, Repr

/-- stream.go 42-68 `stream`, the reader's description, the goroutines, and ghost counters. -/
structure Lane where
  mu : Option Holder := none
  /-- what is left of the body, and whether it ends with a transport error; `none` is a nil body -/
  body : Option (Bytes × Bool) := none
  state : LaneState := .pending
  limit : Int := 0
  pos : Int
  dead : Bool := false
  pinned : Option ObjMeta
  readers : Nat → RPhase := fun _ => .idle
  /-- number 0 is the detached closer, the others are `Close` calls -/
  closers : Nat → CPhase := fun c => if c = 0 then .absent else .start
  /-- ghost: lane requests sent -/
  requests : Nat := 0
  /-- ghost: response bodies received -/
  bodies : Nat := 0
  /-- ghost: response bodies closed -/
  closes : Nat := 0
  /-- ghost: a nil body was read -/
  panicked : Bool := false

/-- stream.go 72-76 `newStream`. -/
def newLane (v : View) (m : Option ObjMeta) : Lane := { pos := v.base, pinned := m }

def Lane.setR (s : Lane) (t : Nat) (p : RPhase) : Lane := { s with readers := fun i => if i = t then p else s.readers i }
def Lane.setC (s : Lane) (c : Nat) (p : CPhase) : Lane := { s with closers := fun i => if i = c then p else s.closers i }

/-- stream.go 96-103 `killLocked`. -/
def Lane.killLocked (s : Lane) : Lane :=
  { s with
    closes := if s.state = .open_ then s.closes + 1 else s.closes
    body := if s.state = .open_ then none else s.body
    state := .dead
    dead := true }

/-- The deferred unlock (line 172). -/
def Lane.unlock (s : Lane) : Lane := { s with mu := none }

/-- stream.go 366-384 `streamUnsatisfied`. -/
def streamUnsatisfied (m : Option ObjMeta) (r : Resp) (start : Int) : Option ObjMeta × HErr :=
  match parseContentRange r.contentRange with
  | none => (m, .badStatus)
  | some (first, _, total) =>
    if first ≠ -1 then (m, .badStatus)
    else match pinOrVerify m r total with
      | none => (m, .objectChanged)
      | some m' => if start < total then (m', .objectChanged) else (m', .eof)

/-- stream.go 291-359 `checkStream`: the description afterwards, and the granted end or an error. -/
def checkStream (m : Option ObjMeta) (r : Resp) (start wantEnd : Int) (conditional : Bool) : Option ObjMeta × Except HErr Int :=
  if !encodingOk r then (m, .error .encoding)
  else if r.status = 206 then
    match parseContentRange r.contentRange with
    | none => (m, .error .badContentRange)
    | some (first, last, total) =>
      if first ≠ start ∨ (wantEnd ≥ 0 ∧ last > wantEnd) ∨ (last ≠ wantEnd ∧ last ≠ total - 1) then (m, .error .objectChanged)
      else match pinOrVerify m r total with
        | none => (m, .error .objectChanged)
        | some m' => (m', .ok (last + 1))
  else if r.status = 416 then
    ((streamUnsatisfied m r start).1, .error (streamUnsatisfied m r start).2)
  else if r.status = 200 then
    if r.contentRange = [] ∧ emptyEntity r then
      match pinOrVerify m r 0 with
      | none => (m, .error .objectChanged)
      | some m' => (m', .error .eof)
    else if conditional then (m, .error .objectChanged)
    else (m, .error .rangeIgnored)
  else (m, .error .badStatus)

/-- stream.go 245-250: the last byte asked for, -1 for "to the end". -/
def laneWantEnd (v : View) (m : Option ObjMeta) : Int :=
  if v.end_ ≠ maxInt64 then
    match knownSize m with
    | some size => if v.end_ < size then v.end_ - 1 else -1
    | none => v.end_ - 1
  else -1

/-- What the outside world decides in a step. -/
structure Env where
  /-- answer to the lane's request -/
  resp : Option Resp := none
  /-- how many bytes `body.Read` hands over, at most -/
  take : Nat := 0
  /-- `body.Read` reports the end of the body if it is reached -/
  sayEnd : Bool := false
  /-- `body.Read` fails (a broken connection, a cancelled context) -/
  fault : Bool := false

/-- stream.go 187-221: one turn of the loop of `streamReadAt`. -/
def readTurn (v : View) (s : Lane) (t : Nat) (a : RArg) (got : Bytes) (env : Env) : Lane :=
  let remaining := s.limit - s.pos
  if remaining ≤ 0 then (s.killLocked.unlock).setR t (.served a got (some .eof))
  else if got.length = a.k then s.unlock.setR t (.served a got none)
  else
    let buf := if ((a.k - got.length : Nat) : Int) > remaining then remaining.toNat else a.k - got.length
    match s.body with
    | none => { s with panicked := true }
    | some (rest, failing) =>
      let read := rest.take (min env.take buf)
      let rest' := rest.drop (min env.take buf)
      let got' := got ++ read
      let s' := { s with body := some (rest', failing), pos := v.base + a.off + got'.length }
      if env.fault then (s'.killLocked.unlock).setR t (.served a got' (some .transport))
      else if rest' = [] ∧ env.sayEnd then
        if failing then (s'.killLocked.unlock).setR t (.served a got' (some .transport))
        else if s'.pos ≥ s'.limit then (s'.killLocked.unlock).setR t (.served a got' (some .eof))
        else (s'.killLocked.unlock).setR t (.served a got' (some .unexpectedEOF))
      else s'.setR t (.reading a got')

/-- One action of the `ReadAt` call `t`, which asks for `args t`.  reader_at.go 21-47, stream.go 110-279. -/
def readerStep (v : View) (args : Nat → Nat × Int) (s : Lane) (t : Nat) (env : Env) : Lane :=
  match s.readers t with
  | .idle =>
    -- reader_at.go 22-42
    match readPlan v s.pinned (args t).1 (args t).2 with
    | .done e => s.setR t (.early (args t).1 (args t).2 e)
    | .ask k _ => s.setR t (.planned ⟨(args t).1, (args t).2, k⟩)
  | .planned a => if s.dead then s.setR t (.unserved a) else s.setR t (.sawAlive a)                        -- line 131
  | .sawAlive a => if s.pos ≠ v.base + a.off then s.setR t (.elsewhere a) else s.setR t (.wantLock a)        -- line 134
  | .elsewhere a =>                                                                                        -- lines 110-119
    if s.dead then s.setR t (.unserved a)
    else ({ s with dead := true }.setC 0 .wantLock).setR t (.unserved a)
  | .wantLock a => if s.mu = none then { s with mu := some (.reader t) }.setR t (.locked a) else s            -- line 171
  | .locked a =>                                                                                           -- lines 178-186
    if s.state = .dead ∨ s.dead = true ∨ s.pos ≠ v.base + a.off then s.unlock.setR t (.unserved a)
    else if s.state = .pending then s.setR t (.opening a)
    else s.setR t (.reading a [])
  | .opening a =>                                                                                          -- lines 233-261
    { s with requests := s.requests + 1 }.setR t (.asked a (laneWantEnd v s.pinned) (ifRangeValue s.pinned ≠ []))
  | .asked a wantEnd conditional =>                                                                        -- lines 261-278
    match env.resp with
    | none => (s.killLocked.unlock).setR t (.served a [] (some .transport))
    | some r =>
      let s := { s with bodies := s.bodies + 1 }
      match checkStream s.pinned r v.base wantEnd conditional with
      | (m', .error e) => ({ s with pinned := m', closes := s.closes + 1 }.killLocked.unlock).setR t (.served a [] (some e))
      | (m', .ok granted) =>
        { s with pinned := m', body := some (r.body, r.bodyErr), limit := granted, pos := v.base, state := .open_ }.setR t (.reading a [])
  | .reading a got => readTurn v s t a got env
  | .unserved _ => s
  | .served _ _ _ => s
  | .early _ _ _ => s

/-- One action of a closing goroutine: `kill` (lines 88-93) or the goroutine of `killDetached` (lines 114-118). -/
def closerStep (s : Lane) (c : Nat) : Lane :=
  match s.closers c with
  | .absent => s
  | .start => { s with dead := true }.setC c .wantLock
  | .wantLock => if s.mu = none then { s with mu := some (.closer c) }.setC c .locked else s
  | .locked => s.killLocked.unlock.setC c .done
  | .done => s

/-- One step of the system: a `ReadAt` call, a closing goroutine, or a bounded request (of any goroutine) that settles
more of the reader's description. -/
inductive LaneStep (v : View) (args : Nat → Nat × Int) (honest : Resp → Prop) (settles : Option ObjMeta → Option ObjMeta → Prop) : Lane → Lane → Prop
  | reader (s : Lane) (t : Nat) (env : Env) (h : ∀ r, env.resp = some r → honest r) :
      LaneStep v args honest settles s (readerStep v args s t env)
  | closer (s : Lane) (c : Nat) : LaneStep v args honest settles s (closerStep s c)
  | pin (s : Lane) (m' : Option ObjMeta) (h : settles s.pinned m') : LaneStep v args honest settles s { s with pinned := m' }

/-- Any number of steps, in any interleaving. -/
inductive LaneRun (v : View) (args : Nat → Nat × Int) (honest : Resp → Prop) (settles : Option ObjMeta → Option ObjMeta → Prop) : Lane → Lane → Prop
  | refl (s : Lane) : LaneRun v args honest settles s s
  | tail {a b c : Lane} (h : LaneRun v args honest settles a b) (st : LaneStep v args honest settles b c) : LaneRun v args honest settles a c

end Verif.Http
