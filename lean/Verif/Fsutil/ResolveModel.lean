import Verif.Common.Path
/-
Model of /repo/fsutil/resolve_symlink.go 40-208: `ResolvePath` and `ResolveSymlink` (Unix).

The filesystem is two functions that may answer differently at every call (they get the number of calls made so far), so that a filesystem
changing under the resolution is included. The log of calls is part of the result.
-/
namespace Verif.Fsutil.Resolve
open Verif.Path

/-- `Lstat` (reduced to: error, or whether it is a symlink) and `ReadLink`. -/
structure Fs where
  lstat : Nat → Str → Option Bool
  readlink : Nat → Str → Option Str

/-- A call made on the filesystem, with its answer. -/
inductive Call where
  | lstat (name : Str) (r : Option Bool)
  | readlink (name : Str) (r : Option Str)
  deriving DecidableEq, Repr

abbrev Log := List Call

inductive Err where
  | io | escapes | loop
  deriving DecidableEq, Repr

/-- resolve_symlink.go 16 -/
def maxLinks : Nat := 40

/-- resolve_symlink.go 166-208 `ResolveSymlink`, the loop; `none` stands for the empty string returned for targets outside. -/
def resolveSymlink (fs : Fs) : (max : Nat) → (resolved : Str) → (i : Nat) → Log → Log × Except Err (Option Str × Nat)
  | 0, _, _, log => (log, .error .loop)
  | m + 1, resolved, i, log =>
    match fs.readlink log.length resolved with
    | none => (log ++ [.readlink resolved none], .error .io)
    | some t =>
      if isAbs (clean t) then (log ++ [.readlink resolved (some t)], .ok (none, i + 1))
      else if isLocal (join2 (dir resolved) (clean t)) = false then (log ++ [.readlink resolved (some t)], .ok (none, i + 1))
      else
        match fs.lstat (log.length + 1) (join2 (dir resolved) (clean t)) with
        | none => (log ++ [.readlink resolved (some t), .lstat (join2 (dir resolved) (clean t)) none], .error .io)
        | some false => (log ++ [.readlink resolved (some t), .lstat (join2 (dir resolved) (clean t)) (some false)],
            .ok (some (join2 (dir resolved) (clean t)), i + 1))
        | some true => resolveSymlink fs m (join2 (dir resolved) (clean t)) (i + 1)
            (log ++ [.readlink resolved (some t), .lstat (join2 (dir resolved) (clean t)) (some true)])

/-- How a pass over the components ends: at the end, at a component that cannot be examined, or at a symlink. -/
inductive Scan where
  | all (done : List Str)
  | missing (path : Str)
  | link (done rest : List Str)
  deriving DecidableEq, Repr

/-- resolve_symlink.go 75-100: a pass over the components until the first symlink. -/
def scan (fs : Fs) : (done rest : List Str) → Log → Log × Scan
  | done, [], log => (log, .all done)
  | done, c :: rest, log =>
    match fs.lstat log.length (join (done ++ [c])) with
    | none => (log ++ [.lstat (join (done ++ [c])) none], .missing (join (done ++ c :: rest)))
    | some false => scan fs (done ++ [c]) rest (log ++ [.lstat (join (done ++ [c])) (some false)])
    | some true => (log ++ [.lstat (join (done ++ [c])) (some true)], .link (done ++ [c]) rest)

/-- resolve_symlink.go 68-141: passes over the name, each symlink replaced by what it resolves to. `none` only when the fuel is used up. -/
def loop (fs : Fs) : (fuel cur : Nat) → (name : List Str) → Log → Option (Log × Except (Err × Str) (List Str))
  | 0, _, _, _ => none
  | f + 1, cur, name, log =>
    match scan fs [] name log with
    | (log, .all done) => some (log, .ok done)
    | (log, .missing p) => some (log, .error (.io, p))
    | (log, .link done rest) =>
      match resolveSymlink fs (maxLinks - cur) (clean (join done)) 0 log with
      | (log, .error e) => some (log, .error (e, join done))
      | (log, .ok (r, n)) =>
        if cur + n ≥ maxLinks then some (log, .error (.loop, r.getD (join done)))
        else match r with
          | none => some (log, .error (.escapes, join done))
          | some r => if isLocal r = false then some (log, .error (.escapes, r)) else loop fs f (cur + n) (split r ++ rest) log

/-- resolve_symlink.go 40-151 `ResolvePath`: the calls made and the result. -/
def resolvePath (fs : Fs) (name : Str) (skipLast : Bool) : Option (Log × Except (Err × Str) Str) :=
  if clean name = dot then some ([], .ok dot)
  else if isLocal (clean name) = false then some ([], .error (.escapes, []))
  else
    let cs := split (clean name)
    if skipLast then
      if cs.length ≤ 1 then some ([], .ok (clean name))
      else match loop fs (maxLinks + 1) 0 cs.dropLast [] with
        | none => none
        | some (log, .error e) => some (log, .error e)
        | some (log, .ok done) => some (log, .ok (join (done ++ [cs.getLastD []])))
    else match loop fs (maxLinks + 1) 0 cs [] with
      | none => none
      | some (log, .error e) => some (log, .error e)
      | some (log, .ok done) => some (log, .ok (join done))

end Verif.Fsutil.Resolve
