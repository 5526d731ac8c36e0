import Verif.Common.Path
/-
Model of /repo/vroot/walk.go: WalkDir over a filesystem that does not change during the walk.
-/
namespace Verif.Vroot.Walk
open Verif.Path

inductive Kind where
  | file | dir | link
deriving DecidableEq

/-- A filesystem as seen by the walk; `none` is an error. `listing` is funcs.go 16-35 `ReadDir` (names in the order returned, and whether it succeeded: it may
return some entries with an error); `resolve real budget` is `fsutil.ResolveSymlink`, with the number of links it used; `ident` is walk_unix.go `fileIdentFromSys`
(device and inode number, if the filesystem has them). -/
structure World where
  lstat : Str → Option Kind
  stat : Str → Option Kind
  resolve : Str → Nat → Option (Str × Nat)
  listing : Str → List Str × Bool
  ident : Str → Str → Option Nat

/-- One call of the function: path, real path, information and whether an error was reported. -/
structure Visit where
  path : Str
  real : Str
  info : Option Kind
  failed : Bool
deriving DecidableEq

/-- What the function answers. -/
inductive Answer where
  | ok | skipDir | skipAll | err (n : Nat)
deriving DecidableEq

/-- How loops are recognised: inode, or real path (walk.go 40-74). -/
inductive Key where
  | inode (n : Nat)
  | path (p : Str)
deriving DecidableEq

/-- What happens during a walk: calls of the function, and directories being listed and left. -/
inductive Event where
  | visit (v : Visit)
  | enter (path real : Str)
  | leave
deriving DecidableEq

def visits (evs : List Event) : List Visit := evs.filterMap (fun e => match e with | .visit v => some v | _ => none)

/-- The function walked with: any function of the calls so far and this call. -/
abbrev Fn := List Visit → Visit → Answer

/-- walk.go 43-74: the key of a directory; none if it cannot be told. -/
def keyOf (w : World) (path real : Str) : Option Key :=
  match w.ident path real with
  | some n => some (.inode n)
  | none => if real = [] then none else some (.path real)

/-- Calling the function: the event and the answer. -/
def call (fn : Fn) (evs : List Event) (v : Visit) : List Event × Answer := (evs ++ [.visit v], fn (visits evs) v)

/-- walk.go 176-196: the loop over the entries; `rec` walks an entry. -/
def entries (w : World) (fn : Fn) (rec : Str → Str → Kind → List Event → Option (List Event × Answer)) (path real : Str) :
    List Str → List Event → Option (List Event × Answer)
  | [], evs => some (evs, .ok)
  | d :: ds, evs =>
    let childPath := join2 path d
    let childReal := if real = [] then [] else join2 real d
    match w.lstat childPath with
    | none => some (call fn evs ⟨childPath, childReal, none, true⟩) -- the information is nil here, so SkipDir is returned too (183-187)
    | some k =>
      match rec childPath childReal k evs with
      | none => none
      | some (evs, .ok) => entries w fn rec path real ds evs
      | some (evs, .skipDir) => some (evs, .ok)
      | some (evs, a) => some (evs, a)

/-- walk.go 150-198, from `recordVisited` on: list the directory. -/
def descend (w : World) (fn : Fn) (rec : Str → Str → Kind → List Event → Option (List Event × Answer)) (path real : Str) (evs : List Event) :
    Option (List Event × Answer) :=
  let evs := evs ++ [.enter path real]
  let l := w.listing path
  let go (evs : List Event) := (entries w fn rec path real l.1 evs).map (fun r => (r.1 ++ [.leave], r.2))
  if l.2 then go evs
  else
    match call fn evs ⟨path, real, none, true⟩ with
    | (evs, .ok) => go evs
    | (evs, .skipDir) => some (evs ++ [.leave], .ok)
    | (evs, a) => some (evs ++ [.leave], a)

/-- walk.go 120-141: following a symbolic link: the kind and the real path; none on an error. -/
def follow (w : World) (following : Bool) (path real : Str) (kind : Kind) (budget : Nat) : Option (Kind × Str × Nat) :=
  if following ∧ kind = .link then
    match w.stat path with
    | none => none
    | some k =>
      if real = [] then some (k, [], budget)
      else match w.resolve real budget with
        | none => none
        | some (real', used) => some (k, real', budget - used)
  else some (kind, real, budget)

/-- walk.go 109-198 `walkDir_`. `budget` is `symlinkResolveRemaining`; `keys` are the recorded directories (recorded on the way down, removed on the way up,
77-86 and 154). `none` when the recursion is deeper than `fuel`. -/
def walk (w : World) (following : Bool) (fn : Fn) : (fuel : Nat) → (path real : Str) → Kind → (budget : Nat) → (keys : List Key) → List Event →
    Option (List Event × Answer)
  | 0, _, _, _, _, _, _ => none
  | fuel + 1, path, real, kind, budget, keys, evs =>
    let path := clean path
    match follow w following path real kind budget with
    | none => some (call fn evs ⟨path, real, if following ∧ kind = .link then w.stat path else some kind, true⟩)
    | some (kind, real, budget) =>
      match call fn evs ⟨path, real, some kind, false⟩ with
      | (evs, .ok) =>
        if kind ≠ .dir then some (evs, .ok)
        else match keyOf w path real with
          | none => descend w fn (fun p r k => walk w following fn fuel p r k budget keys) path real evs
          | some key => if key ∈ keys then some (evs, .ok)
            else descend w fn (fun p r k => walk w following fn fuel p r k budget (key :: keys)) path real evs
      | (evs, .skipDir) => some (evs, if kind = .dir then .ok else .skipDir)
      | (evs, a) => some (evs, a)

/-- walk.go 88-107 `walkDir`: the calls made, and the error returned (`ok` for none). -/
def walkDir (w : World) (following : Bool) (fn : Fn) (fuel : Nat) (root : Str) : Option (List Event × Answer) :=
  let res := match w.lstat root with
    | none => some (call fn [] ⟨root, root, none, true⟩)
    | some k => walk w following fn fuel root root k 40 [] []
  res.map (fun r => (r.1, match r.2 with | .skipDir => .ok | .skipAll => .ok | a => a))

end Verif.Vroot.Walk
