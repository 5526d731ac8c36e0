import Verif.Overlay.Lock
import Verif.Common.Path
/-
Model of /repo/vroot-adapter/overlayfs/internal/sqlvfs: the names and the files a sqlite database gets inside a `vroot.Fs` (sqlvfs.go 59-142,
file.go 60-102, open.go 47-77). The locks of a handle are those of `Verif.Overlay.Lock` (C64).

Trusted: sqlite, the driver and its registry of VFS names; the filesystem below, which is `Back`: files with contents and names, an open file stays
usable after its name is removed. Left out: directories (a parent always exists), permissions, times. `DSN` is in Dsn.lean, `Sync` in SqlPower.lean.
-/
namespace Verif.Overlay.SqlVfs
open Verif.Path

/-! ## The filesystem below -/

inductive BErr where
  | notExist | exist | invalid | readOnly | closed
  | eof (wrapped : Bool)
  | other (code : Nat)
  deriving DecidableEq, Repr

/-- A filesystem: which file a name stands for, what each file holds, and the names it was asked about. -/
structure Back where
  names : Str → Option Nat
  cell : Nat → List UInt8
  fresh : Nat
  asked : List Str

def Back.ask (b : Back) (name : Str) : Back := { b with asked := b.asked ++ [name] }

/-- `Fs.OpenFile` of the filesystem below; `fault` is a failure of its own. -/
def Back.openFile (b : Back) (name : Str) (create excl : Bool) (fault : Option BErr) : Except BErr Nat × Back :=
  match fault with
  | some e => (.error e, b.ask name)
  | none =>
    if isLocal name = false then (.error .invalid, b.ask name)
    else match b.names name with
      | some id => if create ∧ excl then (.error .exist, b.ask name) else (.ok id, b.ask name)
      | none =>
        if create then
          (.ok b.fresh, { (b.ask name) with names := fun n => if n = name then some b.fresh else b.names n,
                                            cell := fun i => if i = b.fresh then [] else b.cell i, fresh := b.fresh + 1 })
        else (.error .notExist, b.ask name)

/-- `Fs.Remove` of the filesystem below. -/
def Back.remove (b : Back) (name : Str) (fault : Option BErr) : Option BErr × Back :=
  match fault with
  | some e => (some e, b.ask name)
  | none =>
    if isLocal name = false then (some .invalid, b.ask name)
    else if b.names name = none then (some .notExist, b.ask name)
    else (none, { (b.ask name) with names := fun n => if n = name then none else b.names n })

/-- `Fs.Stat` of the filesystem below. -/
def Back.stat (b : Back) (name : Str) (fault : Option BErr) : Option BErr × Back :=
  match fault with
  | some e => (some e, b.ask name)
  | none =>
    if isLocal name = false then (some .invalid, b.ask name)
    else if b.names name = none then (some .notExist, b.ask name) else (none, b.ask name)

/-- What `bytes` written at `off` make of `old`; a gap is filled with zeros. -/
def patch (old : List UInt8) (off : Nat) (bytes : List UInt8) : List UInt8 :=
  if bytes = [] then old
  else old.take off ++ List.replicate (off - old.length) 0 ++ bytes ++ old.drop (off + bytes.length)

def resized (old : List UInt8) (size : Nat) : List UInt8 := old.take size ++ List.replicate (size - old.length) 0

def Back.setCell (b : Back) (id : Nat) (c : List UInt8) : Back := { b with cell := fun i => if i = id then c else b.cell i }

/-! ## The VFS -/

/-- sqlvfs.go 139-141 `cleanPath`. -/
def cleanPath (name : Str) : Str := trimPrefix (clean (slash :: name)) [slash]

/-- The flags of sqlite's `xOpen` the code looks at. -/
structure Flags where
  readwrite : Bool
  create : Bool
  exclusive : Bool
  deleteOnClose : Bool
  readonly : Bool
  deriving DecidableEq, Repr

/-- file.go 41-48 `file`: the open file below (`id`, `writable`, `closed`), its name, the flags, the lock. -/
structure Handle where
  id : Nat
  writable : Bool
  closed : Bool
  name : Str
  flags : Flags
  lk : Lock.File

structure Sys where
  back : Back
  handles : List Handle

/-- What sqlite gets to see as an error. -/
inductive VErr where
  | cantOpen (e : BErr)
  | deleteNoent (e : BErr)
  | raw (e : BErr)
  | closing (unlockFailed : Bool) (close remove : Option BErr)
  deriving DecidableEq, Repr

/-- The calls of sqlite, with what the filesystem below will do wrong: a fault of a transfer also says how many bytes were moved before it; `wrapped` says
whether the end of the file is reported by a wrapping error. -/
inductive Op where
  | open (name : Str) (fl : Flags) (fault : Option BErr)
  | delete (name : Str) (fault : Option BErr)
  | access (name : Str) (fault : Option BErr)
  | fullPath (name : Str)
  | readAt (h n off : Nat) (fault : Option (Nat × BErr)) (wrapped : Bool)
  | writeAt (h : Nat) (bytes : List UInt8) (off : Nat) (fault : Option (Nat × BErr))
  | truncate (h size : Nat) (fault : Option BErr)
  | size (h : Nat) (fault : Option BErr)
  | lock (h : Nat) (r : Lock.Req) (o : Lock.Outcome)
  | close (h : Nat) (unl : Lock.Outcome) (closeFault removeFault : Option BErr)

inductive Out where
  | opened (h : Nat)
  | memory
  | name (s : Str)
  | answer (b : Bool)
  | data (bs : List UInt8) (err : Option VErr)
  | wrote (n : Nat) (err : Option VErr)
  | length (n : Nat)
  | failed (e : VErr)
  | done
  | badHandle
  deriving DecidableEq, Repr

/-- sqlvfs.go 79-106 `Open`. -/
def vOpen (s : Sys) (name : Str) (fl : Flags) (fault : Option BErr) : Out × Sys :=
  if name = [] then (.memory, s)
  else
    match s.back.openFile (cleanPath name) fl.create fl.exclusive fault with
    | (.error e, b) => (.failed (.cantOpen e), { s with back := b })
    | (.ok id, b) => (.opened s.handles.length, { back := b, handles := s.handles ++ [⟨id, fl.readwrite, false, cleanPath name, fl, ⟨fl.readonly, .none, .none⟩⟩] })

/-- sqlvfs.go 109-117 `Delete`. -/
def vDelete (s : Sys) (name : Str) (fault : Option BErr) : Out × Sys :=
  match s.back.remove (cleanPath name) fault with
  | (none, b) => (.done, { s with back := b })
  | (some e, b) => (if e = .notExist then .failed (.deleteNoent e) else .failed (.raw e), { s with back := b })

/-- sqlvfs.go 120-131 `Access`. -/
def vAccess (s : Sys) (name : Str) (fault : Option BErr) : Out × Sys :=
  match s.back.stat (cleanPath name) fault with
  | (none, b) => (.answer true, { s with back := b })
  | (some e, b) => (if e = .notExist then .answer false else .failed (.raw e), { s with back := b })

/-- `File.ReadAt` of the file below: the bytes and the error. -/
def Back.readAt (b : Back) (h : Handle) (n off : Nat) (fault : Option (Nat × BErr)) (wrapped : Bool) : List UInt8 × Option BErr :=
  if h.closed then ([], some .closed)
  else
    let bs := ((b.cell h.id).drop off).take n
    match fault with
    | some (k, e) => (bs.take k, some e)
    | none => (bs, if bs.length < n then some (.eof wrapped) else none)

/-- file.go 72-82 `ReadAt`. -/
def vReadAt (s : Sys) (h : Handle) (n off : Nat) (fault : Option (Nat × BErr)) (wrapped : Bool) : Out :=
  match s.back.readAt h n off fault wrapped with
  | (bs, none) => .data bs none
  | (bs, some e) =>
    match e with
    | .eof _ => .data bs (some (.raw (.eof false)))
    | e => .data bs (some (.raw e))

/-- file.go 85-87 `WriteAt`. -/
def vWriteAt (s : Sys) (h : Handle) (bytes : List UInt8) (off : Nat) (fault : Option (Nat × BErr)) : Out × Sys :=
  if h.closed then (.wrote 0 (some (.raw .closed)), s)
  else if h.writable = false then (.wrote 0 (some (.raw .readOnly)), s)
  else match fault with
    | some (k, e) => (.wrote (bytes.take k).length (some (.raw e)), { s with back := s.back.setCell h.id (patch (s.back.cell h.id) off (bytes.take k)) })
    | none => (.wrote bytes.length none, { s with back := s.back.setCell h.id (patch (s.back.cell h.id) off bytes) })

/-- file.go 90-92 `Truncate`. -/
def vTruncate (s : Sys) (h : Handle) (size : Nat) (fault : Option BErr) : Out × Sys :=
  if h.closed then (.failed (.raw .closed), s)
  else if h.writable = false then (.failed (.raw .readOnly), s)
  else match fault with
    | some e => (.failed (.raw e), s)
    | none => (.done, { s with back := s.back.setCell h.id (resized (s.back.cell h.id) size) })

/-- file.go 101-107 `Size`. -/
def vSize (s : Sys) (h : Handle) (fault : Option BErr) : Out :=
  if h.closed then .failed (.raw .closed)
  else match fault with
    | some e => .failed (.raw e)
    | none => .length (s.back.cell h.id).length

/-- file.go 61-68 `Close`: unlock, close the file below, remove its name when asked to; all errors are joined. Closing the file below ends it and its lock
even when it reports an error (close(2)); closing it twice is an error. -/
def vClose (s : Sys) (i : Nat) (h : Handle) (unl : Lock.Outcome) (closeFault removeFault : Option BErr) : Out × Sys :=
  let (lk, ok) := Lock.unlock .none unl h.lk
  let ce := if h.closed then some .closed else closeFault
  let hs := s.handles.set i { h with closed := true, lk := { lk with held := .none } }
  let (re, b) := if h.flags.deleteOnClose then s.back.remove h.name removeFault else (none, s.back)
  (if ok ∧ ce = none ∧ re = none then .done else .failed (.closing (!ok) ce re), ⟨b, hs⟩)

def step (s : Sys) : Op → Out × Sys
  | .open name fl fault => vOpen s name fl fault
  | .delete name fault => vDelete s name fault
  | .access name fault => vAccess s name fault
  | .fullPath name => (.name (cleanPath name), s)
  | .readAt h n off fault w => match s.handles[h]? with
    | none => (.badHandle, s)
    | some f => (vReadAt s f n off fault w, s)
  | .writeAt h bytes off fault => match s.handles[h]? with
    | none => (.badHandle, s)
    | some f => vWriteAt s f bytes off fault
  | .truncate h size fault => match s.handles[h]? with
    | none => (.badHandle, s)
    | some f => vTruncate s f size fault
  | .size h fault => match s.handles[h]? with
    | none => (.badHandle, s)
    | some f => (vSize s f fault, s)
  | .lock h r o => match s.handles[h]? with
    | none => (.badHandle, s)
    | some f => (if (r.run o f.lk).2 then .done else .failed (.raw (.other 0)), { s with handles := s.handles.set h { f with lk := (r.run o f.lk).1 } })
  | .close h unl cf rf => match s.handles[h]? with
    | none => (.badHandle, s)
    | some f => vClose s h f unl cf rf

def run (s : Sys) : List Op → List Out × Sys
  | [] => ([], s)
  | o :: os => ((step s o).1 :: (run (step s o).2 os).1, (run (step s o).2 os).2)

/-! ## Names -/

/-- Where a sqlite name leads: its components walked from the root; ".." at the root stays there. -/
def walk : (at_ : List Str) → List Str → List Str
  | p, [] => p
  | p, c :: cs => if c = [] ∨ c = dot then walk p cs else if c = dotdot then walk p.dropLast cs else walk (p ++ [c]) cs

def place (name : Str) : List Str := walk [] (split name)

theorem walk_names (cs : List Str) (hcs : ∀ c ∈ cs, slash ∉ c) : ∀ p, (∀ c ∈ p, IsName c) → ∀ c ∈ walk p cs, IsName c := by
  induction cs with
  | nil => intro p hp; exact hp
  | cons c cs ih =>
    intro p hp
    have ih := ih (fun x hx => hcs x (List.mem_cons_of_mem _ hx))
    simp only [walk]
    split
    · exact ih p hp
    · rename_i h1
      split
      · exact ih _ (fun x hx => hp x (List.dropLast_subset _ hx))
      · rename_i h2
        refine ih _ ?_
        intro x hx
        rcases List.mem_append.mp hx with hx | hx
        · exact hp x hx
        · have : x = c := by simpa using hx
          subst this
          exact ⟨⟨fun e => h1 (Or.inl e), hcs x (List.mem_cons_self ..)⟩, fun e => h1 (Or.inr e), h2⟩

theorem place_names (name : Str) : ∀ c ∈ place name, IsName c :=
  walk_names _ (split_no_slash name) [] (by simp)

theorem foldl_walk (cs : List Str) (hcs : ∀ c ∈ cs, slash ∉ c) : ∀ st, (∀ c ∈ st, IsName c) →
    (cs.foldl (cleanStep true) st).reverse = walk st.reverse cs := by
  induction cs with
  | nil => intro st _; rfl
  | cons c cs ih =>
    intro st hst
    have ih := ih (fun x hx => hcs x (List.mem_cons_of_mem _ hx))
    rw [List.foldl_cons, walk]
    by_cases h1 : c = [] ∨ c = dot
    · rw [if_pos h1, show cleanStep true st c = st by unfold cleanStep; rw [if_pos h1]]
      exact ih st hst
    · rw [if_neg h1]
      by_cases h2 : c = dotdot
      · rw [if_pos h2]
        cases st with
        | nil =>
          rw [show cleanStep true [] c = [] by unfold cleanStep; rw [if_neg h1, if_pos h2]; rfl]
          exact ih [] (by simp)
        | cons top rest =>
          have ht := (hst top (List.mem_cons_self ..)).2.2
          rw [show cleanStep true (top :: rest) c = rest by unfold cleanStep; rw [if_neg h1, if_pos h2]; exact if_neg ht]
          rw [show (top :: rest).reverse.dropLast = rest.reverse by simp]
          exact ih rest (fun x hx => hst x (List.mem_cons_of_mem _ hx))
      · rw [if_neg h2, show cleanStep true st c = c :: st by unfold cleanStep; rw [if_neg h1, if_neg h2]]
        rw [show st.reverse ++ [c] = (c :: st).reverse by simp]
        refine ih _ ?_
        intro x hx
        rcases List.mem_cons.mp hx with hx | hx
        · subst hx
          exact ⟨⟨fun e => h1 (Or.inl e), hcs x (List.mem_cons_self ..)⟩, fun e => h1 (Or.inr e), h2⟩
        · exact hst x hx

theorem cleanPath_eq (name : Str) : cleanPath name = join (place name) := by
  have ha : isAbs (slash :: name) = true := by simp [isAbs]
  have hc : comps (slash :: name) = place name := by
    rw [comps, ha, split, if_pos rfl, List.foldl_cons]
    rw [show cleanStep true [] [] = [] by rfl]
    exact foldl_walk _ (split_no_slash name) [] (by simp)
  rw [cleanPath, clean, ha, hc, render, if_pos rfl]
  simp [trimPrefix, List.isPrefixOf]

theorem walk_proper (cs : List Str) (h : ∀ c ∈ cs, IsName c) : ∀ p, walk p cs = p ++ cs := by
  induction cs with
  | nil => intro p; simp [walk]
  | cons c cs ih =>
    intro p
    have hc := h c (List.mem_cons_self ..)
    rw [walk, if_neg (by intro e; rcases e with e | e; exact hc.1.1 e; exact hc.2.1 e), if_neg hc.2.2, ih (fun x hx => h x (List.mem_cons_of_mem _ hx))]
    simp

theorem place_join {p : List Str} (h : ∀ c ∈ p, IsName c) : place (join p) = p := by
  cases p with
  | nil => rfl
  | cons a r =>
    rw [place, split_join (by simp) (fun c hc => (h c hc).1.2), walk_proper _ h]
    rfl

theorem local_join {p : List Str} (h : ∀ c ∈ p, IsName c) : isLocal (join p) = true ↔ p ≠ [] := by
  constructor
  · intro hl e
    subst e
    exact absurd hl (by decide)
  · intro hne
    have hn : Normal false p := .names h
    refine (isLocal_iff _).mpr ⟨join_ne_nil (fun c hc => (h c hc).1) hne, isAbs_join (fun c hc => (h c hc).1), ?_⟩
    have : comps (join p) = p := by
      have := comps_render hn
      rw [render, if_neg (by simp), if_neg hne] at this
      exact this
    rw [this]
    exact h

end Verif.Overlay.SqlVfs
