import Verif.Http.Model
/-
Model of /repo/stream/httprange/httprange.go 159-185: concurrent `pinOrVerify` calls on the one atomic pointer of a reader.
-/
namespace Verif.Http

/-- httprange.go 126-157 `completedBy`, nil receivers included: the filled description and whether it is a new object. -/
def completedBy (m : Option ObjMeta) (o : ObjMeta) : ObjMeta × Bool :=
  match m with
  | none => (o, true)
  | some m => m.completedBy o

/-- Where one call of `pinOrVerify` stands.  `tries` counts its lost races. -/
inductive Phase where
  | start (tries : Nat)
  | loaded (tries : Nat) (ver : Nat) (m : Option ObjMeta)
  | ok
  | contradiction
deriving DecidableEq, Repr

/-- The reader's atomic pointer: the description it points to and its identity.  Every store installs a freshly allocated object,
so the identity is a counter of the stores: no pointer that a call still holds is ever reused. -/
structure PinState where
  ver : Nat := 0
  pinned : Option ObjMeta
  phase : Nat → Phase

/-- httprange.go 173-185: one atomic action of call `t`, which folds response `(reqs t).1` of complete length `(reqs t).2` in.
The atomic actions are the `Load` (line 176) and the `CompareAndSwap` (line 181); the local computation between
them is done together with the second one. -/
def pinStep (reqs : Nat → Resp × Int) (s : PinState) (t : Nat) : PinState :=
  let set (p : Phase) := fun i => if i = t then p else s.phase i
  match s.phase t with
  | .start k => { s with phase := set (.loaded k s.ver s.pinned) }
  | .loaded k v m =>
    if mismatch m (reqs t).1 (reqs t).2 then { s with phase := set .contradiction }
    else
      let (filled, took) := completedBy m (metaFromResponse (reqs t).1 (reqs t).2)
      if !took then { s with phase := set .ok }
      else if s.ver = v then { ver := s.ver + 1, pinned := some filled, phase := set .ok }
      else { s with phase := set (.start (k + 1)) }
  | _ => s

/-- Any schedule of the atomic actions of any number of calls. -/
def pinRun (reqs : Nat → Resp × Int) (s : PinState) (sched : List Nat) : PinState := sched.foldl (pinStep reqs) s

/-- A reader with description `m` (prior knowledge, or nil) on which no call has begun. -/
def pinInit (m : Option ObjMeta) : PinState := { pinned := m, phase := fun _ => .start 0 }

end Verif.Http
