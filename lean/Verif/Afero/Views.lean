import Verif.Synth.Ranged
/-
C96: the ready-made views of the afero filesystem. /repo/aferofs/synth/impl_fslink.go 81-220 (a range of another view) and impl_tmpdir.go (a file kept in a
directory for temporary files).
-/
namespace Verif.Afero.Views
open Verif.Synth Verif.Synth.Ranged

/-! ### Model: ranged views -/

/-- impl_fslink.go 81-108 `NewRangedFileView`; `probe`: the view could be opened and a byte read at 0. -/
def newRangedView (off n : Int) (probe : Bool) : Option (Int × Int) :=
  if off < 0 then none else if n ≤ 0 then none else if !probe then none else some (off, n)

/-- impl_fslink.go 119-130 `Open`: a section of the opened file; 156-160 the handle is the section reader. -/
def rangedOpen (v : Int × Int) : Section := newSection v.1 v.2

/-- impl_fslink.go 132-143 `Stat`: the size it reports, computed in int64. -/
def rangedStatSize (v : Int × Int) : Int := wrap64 (v.2 - v.1)

/-- impl_fslink.go 183-194 `sectionFile.Stat`: the size it reports. -/
def handleStatSize (s : Section) : Int := s.size

/-- Calls of the users of a range view. -/
inductive ROpen where
  /-- the file below can be opened; its Stat succeeds -/
  | open_ (below stat : Bool)
  /-- a handle is closed -/
  | close

/-- The files below that are open, and the handles that are. -/
structure Opened where
  below : Nat
  handles : Nat
  deriving DecidableEq

/-- impl_fslink.go 119-130 `Open` (124-127: the file below is dropped if its Stat fails), 163-165 `Close` of a handle. -/
def Opened.step (o : Opened) : ROpen → Opened
  | .open_ below stat => if !below then o else if !stat then { o with below := o.below + 1 } else ⟨o.below + 1, o.handles + 1⟩
  | .close => { o with handles := o.handles - 1 }

def Opened.run (o : Opened) : List ROpen → Opened
  | [] => o
  | x :: xs => (o.step x).run xs

/-! ### Model: views in a temporary directory -/

/-- impl_tmpdir.go 33-38 `tmpDirFileView`, and its directory. -/
structure Tmp where
  /-- the files of the directory, by name -/
  disk : List Nat
  /-- `path`; `none` is the empty string -/
  path : Option Nat
  /-- how many temporary files were made so far: std `TempFile` never takes a name twice -/
  made : Nat
  deriving DecidableEq

/-- How the calls on the directory end. -/
structure Luck where
  temp : Bool
  stat : Bool
  open_ : Bool

inductive TResp where
  | file (name : Nat)
  | ok
  | err
  deriving DecidableEq

/-- impl_tmpdir.go 57-72 `create` -/
def Tmp.create (l : Luck) (t : Tmp) : Tmp × Bool :=
  match t.path with
  | some _ => (t, true)
  | none =>
    if !l.temp then (t, false)
    else
      let t1 : Tmp := ⟨t.made :: t.disk, none, t.made + 1⟩
      if !l.stat then (t1, false) else ({ t1 with path := some t.made }, true)

/-- impl_tmpdir.go 74-87 `Open`; `Stat` (89-104) and `Truncate` (106-121) go to the file in the same way. -/
def Tmp.open_ (l : Luck) (t : Tmp) : Tmp × TResp :=
  match t.create l with
  | (t1, false) => (t1, .err)
  | (t1, true) => match t1.path with
    | none => (t1, .err)
    | some p => if !l.open_ then (t1, .err) else (t1, .file p)

/-- impl_tmpdir.go 47-55 `Close`: 51 forgets the path, 52 removes what is now the empty path; no filesystem has a file of that name. -/
def Tmp.close (t : Tmp) : Tmp × TResp :=
  match t.path with
  | some _ => ({ t with path := none }, .err)
  | none => (t, .ok)

inductive TOp where
  | open_ (l : Luck)
  | close

def Tmp.step (t : Tmp) : TOp → Tmp × TResp
  | .open_ l => t.open_ l
  | .close => t.close

def Tmp.run (t : Tmp) : List TOp → Tmp × List TResp
  | [] => (t, [])
  | o :: os => (((t.step o).1.run os).1, (t.step o).2 :: ((t.step o).1.run os).2)

def Tmp.new : Tmp := ⟨[], none, 0⟩

/-! ### C96: ranged views -/

/-- **C96** (range). Every history of calls on a handle of a range view is answered as by a read-only file that holds the bytes `[off, off+n)` of the file
below, and no read on that file leaves the range. Missing from C96: the sizes that the view itself reports, and the closing of the file below, which are wrong. -/
theorem C96_range_partial (r : ReaderAt) (c : Bytes) (hr : Reads r c) (hc : (c.length : Int) ≤ maxInt64) (off n : Int) (probe : Bool) (v : Int × Int)
    (hv : newRangedView off n probe = some v) (hoff : off ≤ maxInt64) (ops : List ROp) (hi : ∀ op ∈ ops, op.Int64) :
    AllRight off.toNat (min n (maxInt64 - off)).toNat (slice c off.toNat n.toNat) 0 ops (rrun r (rangedOpen v) ops) := by
  refine C52_every_range r c hr hc off n v ?_ hoff ops hi
  unfold newRangedView at hv
  unfold newRanged
  split at hv
  · cases hv
  · rename_i h1
    rw [if_neg h1]
    split at hv
    · cases hv
    · rename_i h2
      rw [if_neg h2]
      split at hv
      · cases hv
      · exact hv

/-- **C96** (which ranges). A range view is made exactly for an offset that is not negative and a positive length, if a byte of the file below can be read. -/
theorem C96_accepts (off n : Int) (probe : Bool) (v : Int × Int) : newRangedView off n probe = some v ↔ 0 ≤ off ∧ 0 < n ∧ probe = true ∧ v = (off, n) := by
  unfold newRangedView
  by_cases h1 : off < 0
  · rw [if_pos h1]; constructor
    · intro h; cases h
    · intro h; omega
  · rw [if_neg h1]
    by_cases h2 : n ≤ 0
    · rw [if_pos h2]; constructor
      · intro h; cases h
      · intro h; omega
    · rw [if_neg h2]
      cases probe with
      | false => simp
      | true =>
        simp only [Bool.not_true, Bool.false_eq_true, if_false, Option.some.injEq, true_and]
        exact ⟨fun h => ⟨by omega, by omega, h.symm⟩, fun h => h.2.2.symm⟩

/-- **C96** (size) partial: the view reports the length of the range if the range begins at 0, and in no other case. Missing: every other range. -/
theorem C96_size_partial (off n : Int) (h1 : 0 ≤ off) (h2 : 0 < n) (h3 : off ≤ maxInt64) (h4 : n ≤ maxInt64) : rangedStatSize (off, n) = n ↔ off = 0 := by
  have : wrap64 (n - off) = n - off := by
    apply wrap64_of_isInt64
    unfold IsInt64 minInt64
    unfold maxInt64 at h3 h4 ⊢
    omega
  unfold rangedStatSize
  rw [this]
  omega

/-- The handle of the range [10, 15) reports 5 bytes; the view reports -5. -/
theorem C96_counterexample_size : handleStatSize (rangedOpen (10, 5)) = 5 ∧ rangedStatSize (10, 5) = -5 := by decide

/-- **C96** fails for closing, always: of the files below that were opened none is ever closed, whatever handles are. -/
theorem C96_never_closed (xs : List ROpen) (o : Opened) : o.below ≤ (o.run xs).below := by
  induction xs generalizing o with
  | nil => exact Nat.le_refl _
  | cons x xs ih =>
    refine Nat.le_trans ?_ (ih _)
    cases x with
    | close => exact Nat.le_refl _
    | open_ below stat => cases below <;> cases stat <;> simp [Opened.step]

/-- One handle is opened and closed: no handle is open, one file below is. -/
theorem C96_counterexample_leak : (Opened.mk 0 0).run [.open_ true true, .close] = ⟨1, 0⟩ := by decide

example : newRangedView 2 3 true = some (2, 3) ∧ (rrun (ofBuf ⟨[0, 1, 2, 3, 4, 5, 6], []⟩) (rangedOpen (2, 3)) [.read 2, .read 5, .read 5, .readAt 9 1, .size]).map (·.1)
    = [.data [2, 3] none, .data [4] none, .data [] (some .eof), .data [3, 4] (some .eof), .size 3] := by decide

/-! ### C96: temporary files -/

/-- What the answers say was opened. -/
def files : List TResp → List Nat
  | [] => []
  | .file p :: l => p :: files l
  | _ :: l => files l

theorem step_path (t : Tmp) (l : Luck) : (t.step (.open_ l)).1.path = t.path ∨ t.path = none := by
  cases h : t.path with
  | none => exact .inr rfl
  | some p =>
    left
    simp only [Tmp.step, Tmp.open_, Tmp.create, h]
    split <;> simp [h]

theorem run_keeps (os : List TOp) (ho : ∀ o ∈ os, o ≠ .close) : ∀ (t : Tmp) (p : Nat), t.path = some p → (t.run os).1.path = some p ∧ ∀ q ∈ files (t.run os).2, q = p := by
  induction os with
  | nil => intro t p h; exact ⟨h, by intro q hq; cases hq⟩
  | cons o os ih =>
    intro t p h
    cases o with
    | close => exact absurd rfl (ho .close (by simp))
    | open_ l =>
      have hs : t.step (.open_ l) = (t, if l.open_ then .file p else .err) := by
        simp only [Tmp.step, Tmp.open_, Tmp.create, h]
        cases l.open_ <;> rfl
      simp only [Tmp.run, hs]
      obtain ⟨h1, h2⟩ := ih (fun o hm => ho o (by simp [hm])) t p h
      refine ⟨h1, ?_⟩
      intro q hq
      cases hb : l.open_ with
      | true =>
        simp only [hb, if_true, files, List.mem_cons] at hq
        rcases hq with rfl | hq
        · rfl
        · exact h2 q hq
      | false =>
        simp only [hb, Bool.false_eq_true, if_false, files] at hq
        exact h2 q hq

/-- **C96** (one file) partial: as long as the view is not closed, every successful open is of one and the same file, whatever fails in between. Missing: what
happens at Close. -/
theorem C96_same_file_partial (os : List TOp) (ho : ∀ o ∈ os, o ≠ .close) (t : Tmp) : ∀ p ∈ files (t.run os).2, ∀ q ∈ files (t.run os).2, p = q := by
  induction os generalizing t with
  | nil => intro p hp; cases hp
  | cons o os ih =>
    have ho' : ∀ o ∈ os, o ≠ .close := fun o hm => ho o (by simp [hm])
    cases o with
    | close => exact absurd rfl (ho .close (by simp))
    | open_ l =>
      cases hr : (t.step (.open_ l)).2 with
      | ok => simp only [Tmp.run, hr, files]; exact ih ho' _
      | err => simp only [Tmp.run, hr, files]; exact ih ho' _
      | file x =>
        have hp : (t.step (.open_ l)).1.path = some x := by
          simp only [Tmp.step, Tmp.open_] at hr ⊢
          split at hr
          · cases hr
          · split at hr
            · cases hr
            · split at hr
              · cases hr
              · rename_i hx _ p h2 h3
                cases hr
                rw [if_neg h3]
                exact h2
        have := (run_keeps os ho' _ x hp).2
        intro p hpm q hqm
        simp only [Tmp.run, hr, files, List.mem_cons] at hpm hqm
        have h1 : p = x := hpm.elim id (this p)
        have h2 : q = x := hqm.elim id (this q)
        rw [h1, h2]

/-- **C96** fails for Close, always: no call ever removes a file from the directory for temporary files. -/
theorem C96_never_removed (os : List TOp) (t : Tmp) (p : Nat) (h : p ∈ t.disk) : p ∈ (t.run os).1.disk := by
  induction os generalizing t with
  | nil => exact h
  | cons o os ih =>
    refine ih _ ?_
    cases o with
    | close =>
      simp only [Tmp.step, Tmp.close]
      split <;> exact h
    | open_ l =>
      have hc : p ∈ (t.create l).1.disk := by
        unfold Tmp.create
        split
        · exact h
        · split
          · exact h
          · simp only
            split <;> simp [h]
      simp only [Tmp.step, Tmp.open_]
      generalize t.create l = x at hc
      obtain ⟨t1, b⟩ := x
      cases b with
      | false => exact hc
      | true =>
        simp only
        split
        · exact hc
        · split <;> exact hc

/-- Open, close, open: Close reports an error, the first file stays, and the second open is of a new, empty file: what was written is out of reach. -/
theorem C96_counterexample_tmp :
    let l : Luck := ⟨true, true, true⟩
    Tmp.new.run [.open_ l, .close, .open_ l] = (⟨[1, 0], some 1, 2⟩, [.file 0, .err, .file 1]) := by decide

/-- Two opens of one file. -/
example : (Tmp.new.run [.open_ ⟨false, true, true⟩, .open_ ⟨true, true, true⟩, .open_ ⟨true, true, false⟩, .open_ ⟨true, true, true⟩]).2 = [.err, .file 0, .err, .file 0] := by decide

end Verif.Afero.Views
