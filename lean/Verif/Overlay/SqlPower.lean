import Verif.Overlay.SqlVfsProps
/-
C144: what a loss of power leaves of a database kept inside a `vroot.Fs`: `Sync` and `Delete` of /repo/vroot-adapter/overlayfs/internal/sqlvfs (file.go 94-97,
sqlvfs.go 108-116), and the journal that open.go 21-30 asks sqlite for.

`SqlVfs.lean` (C102) has every effect on the disk at once. Here the filesystem below has a cache, as in Fsutil/PowerLoss.lean (C138): the bytes of a file are safe from its `Sync` on until they change again,
and nothing tells when a name reaches the disk, since the code never syncs a directory. After a loss of power every name is what it was at some moment before, each on its own, and a file with
changes that were not synced has any content. (A write of the bytes that are there already is no change.)
-/
namespace Verif.Overlay.SqlVfs
open Verif.Path

/-- The VFS over a filesystem with a cache: the names at every moment before, and which files have bytes that were not synced. -/
structure Dur where
  sys : Sys
  past : List (Str → Option Nat)
  dirty : Nat → Bool

/-- The calls of sqlite, with the flag of `xSync` (SYNC_DATAONLY) and that of `xDelete` (`syncDir`). -/
inductive DOp where
  | vfs (op : Op)
  | sync (h : Nat) (dataOnly : Bool) (fault : Option BErr)
  | delete (name : Str) (syncDir : Bool) (fault : Option BErr)

/-- A call that does not sync. -/
def Dur.plain (d : Dur) (op : Op) : Out × Dur :=
  let r := step d.sys op
  (r.1, ⟨r.2, d.sys.back.names :: d.past, fun i => d.dirty i || decide (r.2.back.cell i ≠ d.sys.back.cell i)⟩)

/-- file.go 94-97 `Sync`: the flag is not looked at. -/
def Dur.sync (d : Dur) (h : Nat) (_dataOnly : Bool) (fault : Option BErr) : Out × Dur :=
  match d.sys.handles[h]? with
  | none => (.badHandle, d)
  | some f =>
    if f.closed then (.failed (.raw .closed), d)
    else match fault with
      | some e => (.failed (.raw e), d)
      | none => (.done, { d with dirty := fun i => if i = f.id then false else d.dirty i })

/-- The calls; sqlvfs.go 108-116 `Delete` drops `syncDir`. -/
def dstep (d : Dur) : DOp → Out × Dur
  | .vfs op => d.plain op
  | .sync h o fault => d.sync h o fault
  | .delete name _syncDir fault => d.plain (.delete name fault)

def drun (d : Dur) : List DOp → List Out × Dur
  | [] => ([], d)
  | o :: os => ((dstep d o).1 :: (drun (dstep d o).2 os).1, (drun (dstep d o).2 os).2)

/-! ## Specification -/

/-- A filesystem on which nothing waits to be written, and no file is open. -/
def settled (b : Back) : Dur := ⟨⟨b, []⟩, [], fun _ => false⟩

/-- What may be found after a loss of power. -/
def Lost (d : Dur) (found : Str → Option (List UInt8)) : Prop := ∀ q, ∃ f ∈ d.sys.back.names :: d.past, match f q with
  | none => found q = none
  | some i => ∃ b, found q = some b ∧ (d.dirty i = false → b = d.sys.back.cell i)

/-- The filesystem after these calls. -/
def backAfter (b : Back) (ops : List DOp) : Back := (drun (settled b) ops).2.sys.back

/-! ## Proof -/

theorem drun_append (d : Dur) (a b : List DOp) : (drun d (a ++ b)).2 = (drun (drun d a).2 b).2 := by
  induction a generalizing d with
  | nil => rfl
  | cons o os ih => exact ih _

theorem sync_same (d : Dur) (h : Nat) (o : Bool) (fault : Option BErr) : (d.sync h o fault).2.sys = d.sys ∧ (d.sync h o fault).2.past = d.past := by
  unfold Dur.sync
  repeat' split
  all_goals exact ⟨rfl, rfl⟩

theorem dstep_past (d : Dur) (o : DOp) : ∀ f ∈ (dstep d o).2.past, f ∈ d.sys.back.names :: d.past := by
  intro f hf
  cases o with
  | vfs op => exact hf
  | delete n s fault => exact hf
  | sync h o fault =>
    simp only [dstep, (sync_same d h o fault).2] at hf
    exact List.mem_cons_of_mem _ hf

theorem past_mem (ops : List DOp) : ∀ (d : Dur), ∀ f ∈ (drun d ops).2.sys.back.names :: (drun d ops).2.past,
    f ∈ d.past ∨ ∃ k, f = (drun d (ops.take k)).2.sys.back.names := by
  induction ops with
  | nil =>
    intro d f hf
    rcases List.mem_cons.1 hf with rfl | hf
    · exact .inr ⟨0, rfl⟩
    · exact .inl hf
  | cons o os ih =>
    intro d f hf
    rcases ih (dstep d o).2 f hf with h | ⟨k, h⟩
    · rcases List.mem_cons.1 (dstep_past d o f h) with rfl | h
      · exact .inr ⟨0, rfl⟩
      · exact .inl h
    · exact .inr ⟨k + 1, h⟩

theorem dstep_keeps (d : Dur) (o : DOp) : ∀ f ∈ d.sys.back.names :: d.past, f ∈ (dstep d o).2.sys.back.names :: (dstep d o).2.past := by
  intro f hf
  cases o with
  | vfs op => exact List.mem_cons_of_mem _ hf
  | delete n s fault => exact List.mem_cons_of_mem _ hf
  | sync h o fault =>
    simp only [dstep, (sync_same d h o fault).1, (sync_same d h o fault).2]
    exact hf

theorem drun_keeps (ops : List DOp) : ∀ (d : Dur), ∀ f ∈ d.sys.back.names :: d.past, f ∈ (drun d ops).2.sys.back.names :: (drun d ops).2.past := by
  induction ops with
  | nil => intro d f hf; exact hf
  | cons o os ih => intro d f hf; exact ih _ f (dstep_keeps d o f hf)

theorem moment_mem (d : Dur) (pre post : List DOp) : (drun d pre).2.sys.back.names ∈ (drun d (pre ++ post)).2.sys.back.names :: (drun d (pre ++ post)).2.past := by
  rw [drun_append]
  exact drun_keeps post _ _ (by simp)

theorem dstep_clean {d : Dur} {i : Nat} (hi : d.dirty i = false) (o : DOp) (hc : (dstep d o).2.sys.back.cell i = d.sys.back.cell i) : (dstep d o).2.dirty i = false := by
  cases o with
  | vfs op => simp only [dstep, Dur.plain] at hc ⊢; simp [hi, hc]
  | delete n s fault => simp only [dstep, Dur.plain] at hc ⊢; simp [hi, hc]
  | sync h o fault =>
    simp only [dstep, Dur.sync]
    repeat' split
    all_goals simp [hi]

theorem drun_clean (ops : List DOp) : ∀ {d : Dur} {i : Nat} {c : List UInt8}, d.dirty i = false → (∀ k, (drun d (ops.take k)).2.sys.back.cell i = c) → (drun d ops).2.dirty i = false := by
  induction ops with
  | nil => intro d i c h _; exact h
  | cons o os ih =>
    intro d i c h hc
    have h0 : d.sys.back.cell i = c := hc 0
    have h1 : (dstep d o).2.sys.back.cell i = c := hc 1
    exact ih (dstep_clean h o (h1.trans h0.symm)) fun k => hc (k + 1)

/-! ## Theorems -/

/-- **C144** (files). When `xSync` of a file has succeeded, with whatever flag, and its bytes have not changed since, they are found after a loss of power under the name of the file, provided that this name
stood for the file since the filesystem was last at rest. Missing: files made or renamed since; see the counterexamples. -/
theorem C144_synced_partial (b : Back) (pre post : List DOp) (h : Nat) (dataOnly : Bool) (fault : Option BErr) (id : Nat) (n : Str) (c : List UInt8)
    (hh : (drun (settled b) pre).2.sys.handles[h]?.map (·.id) = some id)
    (hok : (dstep (drun (settled b) pre).2 (.sync h dataOnly fault)).1 = .done)
    (hn : ∀ k, (backAfter b ((pre ++ .sync h dataOnly fault :: post).take k)).names n = some id)
    (hc : ∀ k, (backAfter b (pre ++ .sync h dataOnly fault :: post.take k)).cell id = c) :
    ∀ found, Lost (drun (settled b) (pre ++ .sync h dataOnly fault :: post)).2 found → found n = some c := by
  intro found hl
  obtain ⟨f, hf, rfl⟩ := Option.map_eq_some_iff.1 hh
  obtain ⟨g, hg, hm⟩ := hl n
  have hgn : g n = some f.id := by
    rcases past_mem _ (settled b) g hg with hp | ⟨k, rfl⟩
    · cases hp
    · exact hn k
  rw [hgn] at hm
  obtain ⟨x, hx, hd⟩ := hm
  have hclean : (dstep (drun (settled b) pre).2 (.sync h dataOnly fault)).2.dirty f.id = false := by
    simp only [dstep, Dur.sync, hf] at hok ⊢
    split at hok
    · cases hok
    · rename_i hcl
      cases fault with
      | some e => cases hok
      | none => simp [hcl]
  have e : ∀ l, (drun (settled b) (pre ++ .sync h dataOnly fault :: l)).2 = (drun (dstep (drun (settled b) pre).2 (.sync h dataOnly fault)).2 l).2 := fun l => by
    rw [drun_append]; rfl
  have hfin : (drun (settled b) (pre ++ .sync h dataOnly fault :: post)).2.dirty f.id = false := by
    rw [e]
    refine drun_clean post hclean (c := c) fun k => ?_
    have := hc k
    rw [backAfter, e] at this
    exact this
  have hcell := hc post.length
  rw [List.take_length] at hcell
  rw [hx, hd hfin]
  exact congrArg some hcell

/-- **C144** (names). A name that stood for a file at every moment is found after a loss of power, and one that stood for none at no moment is not. -/
theorem C144_names_partial (b : Back) (ops : List DOp) (n : Str) (found : Str → Option (List UInt8)) (hl : Lost (drun (settled b) ops).2 found) :
    ((∀ k, (backAfter b (ops.take k)).names n ≠ none) → found n ≠ none) ∧ ((∀ k, (backAfter b (ops.take k)).names n = none) → found n = none) := by
  obtain ⟨g, hg, hm⟩ := hl n
  rcases past_mem _ (settled b) g hg with hp | ⟨k, rfl⟩
  · cases hp
  constructor
  · intro h
    cases hi : (drun (settled b) (ops.take k)).2.sys.back.names n with
    | none => exact absurd hi (h k)
    | some i => rw [hi] at hm; obtain ⟨x, hx, _⟩ := hm; rw [hx]; simp
  · intro h
    have : (drun (settled b) (ops.take k)).2.sys.back.names n = none := h k
    rw [this] at hm
    exact hm

/-! ## Transactions where names reach the disk at once -/

/-- What may be found after a loss of power on a filesystem that has every change of a name on the disk when the call returns. -/
def LostBytes (d : Dur) (found : Str → Option (List UInt8)) : Prop := ∀ q, match d.sys.back.names q with
  | none => found q = none
  | some i => ∃ b, found q = some b ∧ (d.dirty i = false → b = d.sys.back.cell i)

/-- A write: bytes, place, and a failure after so many bytes, if any. -/
structure Wr where
  bytes : List UInt8
  off : Nat
  fault : Option (Nat × BErr)

/-- The bytes that reach the file. -/
def Wr.moved (w : Wr) : List UInt8 := match w.fault with
  | none => w.bytes
  | some (k, _) => w.bytes.take k

/-- Writes through one handle. -/
def writesOf (h : Nat) (ws : List Wr) : List DOp := ws.map fun w => .vfs (.writeAt h w.bytes w.off w.fault)

/-- What they make of a file. -/
def written (old : List UInt8) (ws : List Wr) : List UInt8 := ws.foldl (fun c w => patch c w.off w.moved) old

/-- A transaction of sqlite with a rollback journal (open.go 21-30 asks for it) as it is done when locking is not exclusive: the journal is made, written and synced, then the database is written and synced, then the
journal is deleted. `hd` is the handle
of the database, `hj` that of the journal. -/
def transaction (hd hj : Nat) (jname : Str) (fl : Flags) (jws dws : List Wr) (o1 o2 : Bool) : List DOp :=
  (.vfs (.open jname fl none) :: (writesOf hj jws ++ [.sync hj o1 none])) ++ ((writesOf hd dws ++ [.sync hd o2 none]) ++ [.delete jname true none])

/-- Before the transaction: the database `n` is open for writing and has nothing unsynced, and there is no journal. -/
structure Ready (d : Dur) (hd : Nat) (n jname : Str) (old : List UInt8) : Prop where
  isOpen : ∃ f, d.sys.handles[hd]? = some f ∧ f.closed = false ∧ f.writable = true ∧ d.sys.back.names n = some f.id ∧ f.id < d.sys.back.fresh ∧ d.dirty f.id = false ∧ d.sys.back.cell f.id = old
  noJournal : d.sys.back.names (cleanPath jname) = none
  named : jname ≠ [] ∧ isLocal (cleanPath jname) = true

/-- `P` holds from `d` on at every moment of these calls. -/
def Always (P : Dur → Prop) (d : Dur) (ops : List DOp) : Prop := ∀ k, P (drun d (ops.take k)).2

theorem Always.append {P : Dur → Prop} {d : Dur} {a b : List DOp} (ha : Always P d a) (hb : Always P (drun d a).2 b) : Always P d (a ++ b) := by
  intro k
  rw [List.take_append, drun_append]
  by_cases hk : k ≤ a.length
  · rw [Nat.sub_eq_zero_of_le hk]; exact ha k
  · rw [List.take_of_length_le (by omega)]; exact hb _

theorem Always.cons {P : Dur → Prop} {d : Dur} {o : DOp} {b : List DOp} (h : P d) (hb : Always P (dstep d o).2 b) : Always P d (o :: b) := by
  intro k
  cases k with
  | zero => exact h
  | succ k => exact hb k

theorem Always.one {P : Dur → Prop} {d : Dur} {o : DOp} (h : P d) (h' : P (dstep d o).2) : Always P d [o] := .cons h fun k => by simpa [drun] using h'

theorem Always.imp {P Q : Dur → Prop} {d : Dur} {a : List DOp} (h : ∀ d, P d → Q d) (ha : Always P d a) : Always Q d a := fun k => h _ (ha k)

theorem write_step {d : Dur} {h : Nat} {f : Handle} (hf : d.sys.handles[h]? = some f) (hc : f.closed = false) (hw : f.writable = true) (w : Wr) :
    (dstep d (.vfs (.writeAt h w.bytes w.off w.fault))).2.sys = { d.sys with back := d.sys.back.setCell f.id (patch (d.sys.back.cell f.id) w.off w.moved) } ∧
    ∀ i, i ≠ f.id → (dstep d (.vfs (.writeAt h w.bytes w.off w.fault))).2.dirty i = d.dirty i := by
  have e : (dstep d (.vfs (.writeAt h w.bytes w.off w.fault))).2.sys = { d.sys with back := d.sys.back.setCell f.id (patch (d.sys.back.cell f.id) w.off w.moved) } := by
    simp only [dstep, Dur.plain, step, hf, vWriteAt, hc, hw, Wr.moved]
    cases w.fault <;> simp
  refine ⟨e, fun i hi => ?_⟩
  have : (dstep d (.vfs (.writeAt h w.bytes w.off w.fault))).2.dirty i =
    (d.dirty i || decide ((dstep d (.vfs (.writeAt h w.bytes w.off w.fault))).2.sys.back.cell i ≠ d.sys.back.cell i)) := rfl
  rw [this, e]
  simp [Back.setCell, hi]

/-- What a file, the handle and the names are like during writes through another handle. -/
structure Still (d : Dur) (n : Str) (i : Nat) (c : List UInt8) (h : Nat) (f : Handle) : Prop where
  names : d.sys.back.names n = some i
  clean : d.dirty i = false
  bytes : d.sys.back.cell i = c
  handle : d.sys.handles[h]? = some f

theorem still_writes {h : Nat} {f : Handle} (hc : f.closed = false) (hw : f.writable = true) {n : Str} {i : Nat} (hi : i ≠ f.id) {c : List UInt8} (ws : List Wr) : ∀ (d : Dur),
    Still d n i c h f → Always (fun d => Still d n i c h f) d (writesOf h ws) ∧ Still (drun d (writesOf h ws)).2 n i c h f ∧
    (drun d (writesOf h ws)).2.sys.handles = d.sys.handles ∧ (drun d (writesOf h ws)).2.sys.back.names = d.sys.back.names ∧
    (drun d (writesOf h ws)).2.sys.back.cell f.id = written (d.sys.back.cell f.id) ws := by
  induction ws with
  | nil => intro d hs; exact ⟨fun k => by simpa [writesOf, drun] using hs, hs, rfl, rfl, rfl⟩
  | cons w ws ih =>
    intro d hs
    obtain ⟨e, hd⟩ := write_step hs.handle hc hw w
    have hs' : Still (dstep d (.vfs (.writeAt h w.bytes w.off w.fault))).2 n i c h f := by
      refine ⟨?_, ?_, ?_, ?_⟩
      · rw [e]; exact hs.names
      · rw [hd i hi]; exact hs.clean
      · rw [e]; exact (if_neg hi).trans hs.bytes
      · rw [e]; exact hs.handle
    obtain ⟨h1, h2, h3, h4, h5⟩ := ih _ hs'
    refine ⟨.cons hs h1, h2, h3.trans (by rw [e]), h4.trans (by rw [e]; rfl), h5.trans ?_⟩
    rw [e]
    simp [written, Back.setCell]

theorem sync_step {d : Dur} {h : Nat} {f : Handle} (hf : d.sys.handles[h]? = some f) (hc : f.closed = false) (o : Bool) :
    (dstep d (.sync h o none)).2 = { d with dirty := fun i => if i = f.id then false else d.dirty i } := by
  simp [dstep, Dur.sync, hf, hc]

/-- What a loss leaves in a transaction: the database as it was, or the whole journal, or the database as it was to become and no journal. -/
def Recoverable (n m : Str) (old journal new : List UInt8) (found : Str → Option (List UInt8)) : Prop :=
  found n = some old ∨ found m = some journal ∨ (found n = some new ∧ found m = none)

theorem Still.found {d : Dur} {n : Str} {i : Nat} {c : List UInt8} {h : Nat} {f : Handle} (hs : Still d n i c h f) {found : Str → Option (List UInt8)} (hl : LostBytes d found) : found n = some c := by
  have := hl n
  rw [hs.names] at this
  obtain ⟨b, hb, hx⟩ := this
  rw [hb, hx hs.clean, hs.bytes]

/-- **C144** (transactions). On a filesystem that has changes of names on the disk at once, whatever came before: when the power fails at any moment of a transaction, the database is as it was, or the whole
journal is there to take it back, or the transaction is complete. Missing: other filesystems, for which it fails; see the counterexamples. -/
theorem C144_transaction_partial (d : Dur) (hd : Nat) (n jname : Str) (old : List UInt8) (hr : Ready d hd n jname old) (fl : Flags) (hcr : fl.create = true) (hrw : fl.readwrite = true)
    (jws dws : List Wr) (o1 o2 : Bool) (k : Nat) (found : Str → Option (List UInt8))
    (hl : LostBytes (drun d ((transaction hd d.sys.handles.length jname fl jws dws o1 o2).take k)).2 found) :
    Recoverable n (cleanPath jname) old (written [] jws) (written old dws) found := by
  obtain ⟨f, hf, hfc, hfw, hfn, hfi, hfd, hfo⟩ := hr.isOpen
  have hnm : n ≠ cleanPath jname := by intro e; rw [e, hr.noJournal] at hfn; cases hfn
  -- the journal is made
  let fj : Handle := ⟨d.sys.back.fresh, fl.readwrite, false, cleanPath jname, fl, ⟨fl.readonly, .none, .none⟩⟩
  have ho : (dstep d (.vfs (.open jname fl none))).2.sys = ⟨{ (d.sys.back.ask (cleanPath jname)) with
      names := fun q => if q = cleanPath jname then some d.sys.back.fresh else d.sys.back.names q,
      cell := fun i => if i = d.sys.back.fresh then [] else d.sys.back.cell i, fresh := d.sys.back.fresh + 1 }, d.sys.handles ++ [fj]⟩ := by
    simp only [dstep, Dur.plain, step, vOpen, if_neg hr.named.1, Back.openFile, hr.named.2, hr.noJournal, hcr]
    simp [fj]
  have hod : (dstep d (.vfs (.open jname fl none))).2.dirty f.id = false := by
    have : (dstep d (.vfs (.open jname fl none))).2.dirty f.id =
      (d.dirty f.id || decide ((dstep d (.vfs (.open jname fl none))).2.sys.back.cell f.id ≠ d.sys.back.cell f.id)) := rfl
    rw [this, hfd, ho]
    simp [Nat.ne_of_lt hfi]
  generalize hd1 : (dstep d (.vfs (.open jname fl none))).2 = d1 at ho hod
  have hjh : d1.sys.handles[d.sys.handles.length]? = some fj := by rw [ho]; simp
  have hdh : d1.sys.handles[hd]? = some f := by
    rw [ho]; simp only
    rw [List.getElem?_append_left (by rw [List.getElem?_eq_some_iff] at hf; exact hf.1)]; exact hf
  have hij : f.id ≠ fj.id := Nat.ne_of_lt hfi
  have s1 : Still d1 n f.id old d.sys.handles.length fj := by
    refine ⟨?_, hod, ?_, hjh⟩
    · rw [ho]; simp only; rw [if_neg hnm]; exact hfn
    · rw [ho]; simp only; rw [if_neg (Nat.ne_of_lt hfi)]; exact hfo
  have hfjw : fj.writable = true := hrw
  -- it is written
  obtain ⟨a1, s2, eh2, en2, ec2⟩ := still_writes (f := fj) rfl hfjw hij jws d1 s1
  generalize hd2 : (drun d1 (writesOf d.sys.handles.length jws)).2 = d2 at s2 eh2 en2 ec2
  have ej : d1.sys.back.cell fj.id = [] := by rw [ho]; simp [fj]
  rw [ej] at ec2
  -- and synced
  have hsy := sync_step s2.handle rfl o1
  generalize hd3 : (dstep d2 (.sync d.sys.handles.length o1 none)).2 = d3 at hsy
  have s3 : Still d3 n f.id old d.sys.handles.length fj := by
    rw [hsy]; exact ⟨s2.names, by simp [hij, s2.clean], s2.bytes, s2.handle⟩
  have j3 : Still d3 (cleanPath jname) fj.id (written [] jws) hd f := by
    rw [hsy]
    refine ⟨?_, by simp, ec2, ?_⟩
    · simp only; rw [en2, ho]; simp [fj]
    · simp only; rw [eh2]; exact hdh
  have c3 : d3.sys.back.cell f.id = old := s3.bytes
  -- the database is written
  obtain ⟨a4, j4, eh4, en4, ec4⟩ := still_writes (f := f) hfc hfw hij.symm dws d3 j3
  generalize hd4 : (drun d3 (writesOf hd dws)).2 = d4 at j4 eh4 en4 ec4
  rw [c3] at ec4
  have hsy5 := sync_step j4.handle hfc o2
  generalize hd5 : (dstep d4 (.sync hd o2 none)).2 = d5 at hsy5
  have j5 : Still d5 (cleanPath jname) fj.id (written [] jws) hd f := by
    rw [hsy5]; exact ⟨j4.names, by simp [j4.clean], j4.bytes, j4.handle⟩
  have s5 : Still d5 n f.id (written old dws) hd f := by
    rw [hsy5]
    refine ⟨?_, by simp, ec4, j4.handle⟩
    simp only; rw [en4]; exact s3.names
  -- the journal is deleted
  have hrm : (dstep d5 (.delete jname true none)).2.sys.back.names = (fun q => if q = cleanPath jname then none else d5.sys.back.names q) ∧
      (dstep d5 (.delete jname true none)).2.sys.back.cell = d5.sys.back.cell ∧ (dstep d5 (.delete jname true none)).2.sys.handles = d5.sys.handles := by
    simp only [dstep, Dur.plain, step, vDelete, Back.remove, hr.named.2, j5.names]
    exact ⟨rfl, rfl, rfl⟩
  have s6 : Still (dstep d5 (.delete jname true none)).2 n f.id (written old dws) hd f := by
    refine ⟨?_, dstep_clean s5.clean _ (by rw [hrm.2.1]), by rw [hrm.2.1]; exact s5.bytes, by rw [hrm.2.2]; exact s5.handle⟩
    rw [hrm.1]; simp only; rw [if_neg hnm]; exact s5.names
  -- together
  let P : Dur → Prop := fun d => ∀ found, LostBytes d found → Recoverable n (cleanPath jname) old (written [] jws) (written old dws) found
  have pn : ∀ {h g} d, Still d n f.id old h g → P d := fun d hs found hl => .inl (hs.found hl)
  have pj : ∀ d, Still d (cleanPath jname) fj.id (written [] jws) hd f → P d := fun d hs found hl => .inr (.inl (hs.found hl))
  have p6 : P (dstep d5 (.delete jname true none)).2 := by
    intro found hl
    refine .inr (.inr ⟨s6.found hl, ?_⟩)
    have := hl (cleanPath jname)
    rw [hrm.1] at this
    simpa using this
  have p0 : P d := by
    have : Still d n f.id old hd f := ⟨hfn, hfd, hfo, hf⟩
    exact pn d this
  have all : Always P d (transaction hd d.sys.handles.length jname fl jws dws o1 o2) := by
    unfold transaction
    refine Always.append (Always.cons p0 ?_) (Always.append ?_ ?_)
    · rw [hd1]
      refine Always.append (a1.imp fun d h => pn d h) ?_
      rw [hd2]
      refine Always.one (pn _ s2) ?_
      rw [hd3]; exact pn _ s3
    · have e3 : (drun d (.vfs (.open jname fl none) :: (writesOf d.sys.handles.length jws ++ [.sync d.sys.handles.length o1 none]))).2 = d3 := by
        show (drun (dstep d (.vfs (.open jname fl none))).2 _).2 = d3
        rw [hd1, drun_append, hd2]; exact hd3
      rw [e3]
      refine Always.append (a4.imp pj) ?_
      rw [hd4]
      refine Always.one (pj _ j4) ?_
      rw [hd5]; exact pj _ j5
    · have e5 : (drun (drun d (.vfs (.open jname fl none) :: (writesOf d.sys.handles.length jws ++ [.sync d.sys.handles.length o1 none]))).2 (writesOf hd dws ++ [.sync hd o2 none])).2 = d5 := by
        have e3 : (drun d (.vfs (.open jname fl none) :: (writesOf d.sys.handles.length jws ++ [.sync d.sys.handles.length o1 none]))).2 = d3 := by
          show (drun (dstep d (.vfs (.open jname fl none))).2 _).2 = d3
          rw [hd1, drun_append, hd2]; exact hd3
        rw [e3, drun_append, hd4]; exact hd5
      rw [e5]
      exact Always.one (pj _ j5) p6
  exact all k found hl

/-! ## Transactions under exclusive locking, once there is a journal -/

/-- A transaction as sqlite does it under locking_mode=exclusive (open.go 27-30) when the journal is there already: the journal is written and synced, then the database is written and synced, then the journal is
made void by writing zeros over its header, and synced. A call that fails leaves what it moved, and sqlite goes no further, so that such a transaction is a beginning of one of these. -/
def exclusive (hd hj : Nat) (jws dws : List Wr) (zeros : List Wr) (o1 o2 o3 : Bool) : List DOp :=
  (writesOf hj jws ++ [.sync hj o1 none]) ++ ((writesOf hd dws ++ [.sync hd o2 none]) ++ (writesOf hj zeros ++ [.sync hj o3 none]))

/-- Database `n` and journal `m` are open for writing through `hd` and `hj`, are different files, and their names stood for them at every moment. -/
structure Both (d : Dur) (hd hj : Nat) (n m : Str) (f g : Handle) : Prop where
  fOpen : d.sys.handles[hd]? = some f ∧ f.closed = false ∧ f.writable = true
  gOpen : d.sys.handles[hj]? = some g ∧ g.closed = false ∧ g.writable = true
  fName : ∀ q ∈ d.sys.back.names :: d.past, q n = some f.id
  gName : ∀ q ∈ d.sys.back.names :: d.past, q m = some g.id
  apart : f.id ≠ g.id

/-- A file with nothing unsynced, and its bytes. -/
def Safe (d : Dur) (i : Nat) (c : List UInt8) : Prop := d.dirty i = false ∧ d.sys.back.cell i = c

theorem safe_found {d : Dur} {n : Str} {i : Nat} {c : List UInt8} (hn : ∀ q ∈ d.sys.back.names :: d.past, q n = some i) (hs : Safe d i c) {found : Str → Option (List UInt8)} (hl : Lost d found) : found n = some c := by
  obtain ⟨q, hq, hm⟩ := hl n
  rw [hn q hq] at hm
  obtain ⟨b, hb, hx⟩ := hm
  rw [hb, hx hs.1, hs.2]

theorem Both.write {d : Dur} {hd hj : Nat} {n m : Str} {f g : Handle} (hb : Both d hd hj n m f g) {h : Nat} {x : Handle} (hx : d.sys.handles[h]? = some x ∧ x.closed = false ∧ x.writable = true) (w : Wr) :
    Both (dstep d (.vfs (.writeAt h w.bytes w.off w.fault))).2 hd hj n m f g := by
  obtain ⟨e, _⟩ := write_step hx.1 hx.2.1 hx.2.2 w
  have ep : (dstep d (.vfs (.writeAt h w.bytes w.off w.fault))).2.past = d.sys.back.names :: d.past := rfl
  have en : (dstep d (.vfs (.writeAt h w.bytes w.off w.fault))).2.sys.back.names = d.sys.back.names := by rw [e]; rfl
  have eh : (dstep d (.vfs (.writeAt h w.bytes w.off w.fault))).2.sys.handles = d.sys.handles := by rw [e]
  refine ⟨by rw [eh]; exact hb.fOpen, by rw [eh]; exact hb.gOpen, ?_, ?_, hb.apart⟩
  · rw [ep, en]; intro q hq; exact hb.fName q (by simpa using hq)
  · rw [ep, en]; intro q hq; exact hb.gName q (by simpa using hq)

theorem Both.sync {d : Dur} {hd hj : Nat} {n m : Str} {f g : Handle} (hb : Both d hd hj n m f g) (h : Nat) (o : Bool) : Both (dstep d (.sync h o none)).2 hd hj n m f g := by
  obtain ⟨e1, e2⟩ := sync_same d h o none
  refine ⟨?_, ?_, ?_, ?_, hb.apart⟩
  all_goals simp only [dstep, e1, e2]
  · exact hb.fOpen
  · exact hb.gOpen
  · exact hb.fName
  · exact hb.gName

theorem both_writes {hd hj : Nat} {n m : Str} {f g : Handle} {h : Nat} {x : Handle} {i : Nat} {c : List UInt8} (hi : i ≠ x.id)
    (hx : ∀ d, Both d hd hj n m f g → d.sys.handles[h]? = some x ∧ x.closed = false ∧ x.writable = true) (ws : List Wr) : ∀ (d : Dur),
    Both d hd hj n m f g → Safe d i c →
    Always (fun d => Both d hd hj n m f g ∧ Safe d i c) d (writesOf h ws) ∧ Both (drun d (writesOf h ws)).2 hd hj n m f g ∧ Safe (drun d (writesOf h ws)).2 i c ∧
    (drun d (writesOf h ws)).2.sys.back.cell x.id = written (d.sys.back.cell x.id) ws := by
  induction ws with
  | nil => intro d hb hs; exact ⟨fun k => by simpa [writesOf, drun] using ⟨hb, hs⟩, hb, hs, rfl⟩
  | cons w ws ih =>
    intro d hb hs
    have ho := hx d hb
    obtain ⟨e, hdi⟩ := write_step ho.1 ho.2.1 ho.2.2 w
    have hs' : Safe (dstep d (.vfs (.writeAt h w.bytes w.off w.fault))).2 i c := by
      refine ⟨by rw [hdi i hi]; exact hs.1, ?_⟩
      rw [e]; exact (if_neg hi).trans hs.2
    obtain ⟨h1, h2, h3, h4⟩ := ih _ (hb.write ho w) hs'
    refine ⟨.cons ⟨hb, hs⟩ h1, h2, h3, h4.trans ?_⟩
    rw [e]
    simp [written, Back.setCell]

theorem sync_safe {d : Dur} {h : Nat} {x : Handle} (hx : d.sys.handles[h]? = some x ∧ x.closed = false ∧ x.writable = true) (o : Bool) :
    Safe (dstep d (.sync h o none)).2 x.id (d.sys.back.cell x.id) ∧ ∀ i c, Safe d i c → Safe (dstep d (.sync h o none)).2 i c := by
  rw [sync_step hx.1 hx.2.1 o]
  refine ⟨⟨by simp, rfl⟩, fun i c hs => ⟨?_, hs.2⟩⟩
  simp only
  split
  · rfl
  · exact hs.1

/-- The database and its journal between transactions: at rest, with these bytes. -/
def Steady (d : Dur) (hd hj : Nat) (n m : Str) (c j : List UInt8) : Prop := ∃ f g, Both d hd hj n m f g ∧ Safe d f.id c ∧ Safe d g.id j

theorem exclusive_spec (d : Dur) (hd hj : Nat) (n m : Str) (old j0 : List UInt8) (hst : Steady d hd hj n m old j0) (jws dws : List Wr) (zeros : List Wr) (o1 o2 o3 : Bool) :
    Always (fun d => ∀ found, Lost d found → found n = some old ∨ found m = some (written j0 jws) ∨ found n = some (written old dws)) d (exclusive hd hj jws dws zeros o1 o2 o3) ∧
    Steady (drun d (exclusive hd hj jws dws zeros o1 o2 o3)).2 hd hj n m (written old dws) (written (written j0 jws) zeros) := by
  obtain ⟨f, g, hb, hf, hg⟩ := hst
  have hxf : ∀ d, Both d hd hj n m f g → d.sys.handles[hd]? = some f ∧ f.closed = false ∧ f.writable = true := fun _ h => h.fOpen
  have hxg : ∀ d, Both d hd hj n m f g → d.sys.handles[hj]? = some g ∧ g.closed = false ∧ g.writable = true := fun _ h => h.gOpen
  let P : Dur → Prop := fun d => ∀ found, Lost d found → found n = some old ∨ found m = some (written j0 jws) ∨ found n = some (written old dws)
  have p1 : ∀ d, Both d hd hj n m f g ∧ Safe d f.id old → P d := fun d h found hl => .inl (safe_found h.1.fName h.2 hl)
  have p2 : ∀ d, Both d hd hj n m f g ∧ Safe d g.id (written j0 jws) → P d := fun d h found hl => .inr (.inl (safe_found h.1.gName h.2 hl))
  have p3 : ∀ d, Both d hd hj n m f g ∧ Safe d f.id (written old dws) → P d := fun d h found hl => .inr (.inr (safe_found h.1.fName h.2 hl))
  -- the journal
  obtain ⟨a1, b1, f1, c1⟩ := both_writes hb.apart hxg jws d hb hf
  rw [hg.2] at c1
  generalize e1 : (drun d (writesOf hj jws)).2 = d1 at b1 f1 c1
  have y1 := sync_safe b1.gOpen o1
  have b2 := b1.sync hj o1
  have f2 := y1.2 _ _ f1
  have g2 := y1.1
  rw [c1] at g2
  generalize e2 : (dstep d1 (.sync hj o1 none)).2 = d2 at b2 f2 g2
  -- the database
  obtain ⟨a3, b3, g3, c3⟩ := both_writes hb.apart.symm hxf dws d2 b2 g2
  rw [f2.2] at c3
  generalize e3 : (drun d2 (writesOf hd dws)).2 = d3 at b3 g3 c3
  have y3 := sync_safe b3.fOpen o2
  have b4 := b3.sync hd o2
  have g4 := y3.2 _ _ g3
  have f4 := y3.1
  rw [c3] at f4
  generalize e4 : (dstep d3 (.sync hd o2 none)).2 = d4 at b4 g4 f4
  -- the journal is made void
  obtain ⟨a5, b5, f5, c5⟩ := both_writes hb.apart hxg zeros d4 b4 f4
  rw [g4.2] at c5
  generalize e5 : (drun d4 (writesOf hj zeros)).2 = d5 at b5 f5 c5
  have y5 := sync_safe b5.gOpen o3
  have b6 := b5.sync hj o3
  have f6 := y5.2 _ _ f5
  have g6 := y5.1
  rw [c5] at g6
  have r1 : (drun d (writesOf hj jws ++ [.sync hj o1 none])).2 = d2 := by rw [drun_append, e1]; exact e2
  have r2 : (drun d2 (writesOf hd dws ++ [.sync hd o2 none])).2 = d4 := by rw [drun_append, e3]; exact e4
  have r3 : (drun d4 (writesOf hj zeros ++ [.sync hj o3 none])).2 = (dstep d5 (.sync hj o3 none)).2 := by rw [drun_append, e5]; rfl
  constructor
  · unfold exclusive
    refine Always.append (Always.append (a1.imp p1) ?_) ?_
    · rw [e1]
      refine Always.one (p1 _ ⟨b1, f1⟩) ?_
      rw [e2]; exact p1 _ ⟨b2, f2⟩
    rw [r1]
    refine Always.append (Always.append (a3.imp p2) ?_) ?_
    · rw [e3]
      refine Always.one (p2 _ ⟨b3, g3⟩) ?_
      rw [e4]; exact p2 _ ⟨b4, g4⟩
    rw [r2]
    refine Always.append (a5.imp p3) ?_
    rw [e5]
    exact Always.one (p3 _ ⟨b5, f5⟩) (p3 _ ⟨b6, f6⟩)
  · unfold exclusive
    rw [drun_append, r1, drun_append, r2, r3]
    exact ⟨f, g, b6, f6, g6⟩

/-- The writes of one transaction to the journal and to the database, the writes that void it, and the flags of the syncs. -/
structure Tx where
  jws : List Wr
  dws : List Wr
  zeros : List Wr
  flags : Bool × Bool × Bool

/-- Transactions one after the other. -/
def allOf (hd hj : Nat) (txs : List Tx) : List DOp := txs.flatMap fun t => exclusive hd hj t.jws t.dws t.zeros t.flags.1 t.flags.2.1 t.flags.2.2

/-- The database after them. -/
def contentAfter (old : List UInt8) (txs : List Tx) : List UInt8 := txs.foldl (fun c t => written c t.dws) old

/-- The journal after them. -/
def journalAfter (j : List UInt8) (txs : List Tx) : List UInt8 := txs.foldl (fun j t => written (written j t.jws) t.zeros) j

/-- The calls of one transaction. -/
def Tx.calls (hd hj : Nat) (t : Tx) : List DOp := exclusive hd hj t.jws t.dws t.zeros t.flags.1 t.flags.2.1 t.flags.2.2

theorem steady_after (hd hj : Nat) (n m : Str) (txs : List Tx) : ∀ (d : Dur) (old j0 : List UInt8), Steady d hd hj n m old j0 →
    Steady (drun d (allOf hd hj txs)).2 hd hj n m (contentAfter old txs) (journalAfter j0 txs) := by
  induction txs with
  | nil => intro d old j0 hst; exact hst
  | cons t ts ih =>
    intro d old j0 hst
    obtain ⟨_, h2⟩ := exclusive_spec d hd hj n m old j0 hst t.jws t.dws t.zeros t.flags.1 t.flags.2.1 t.flags.2.2
    have e : allOf hd hj (t :: ts) = exclusive hd hj t.jws t.dws t.zeros t.flags.1 t.flags.2.1 t.flags.2.2 ++ allOf hd hj ts := by simp [allOf]
    rw [e, drun_append]
    exact ih _ _ _ h2

/-- **C144** (exclusive locking). Once the journal is there and its name on the disk, every sequence of transactions is safe on every filesystem. When the power fails at any moment of a transaction that follows others,
the database is found as the others left it, or the whole journal is found, or the database is found as this one leaves it; and once it is complete, the last. Missing: the transaction that makes the journal; see the
counterexample. -/
theorem C144_exclusive_partial (d : Dur) (hd hj : Nat) (n m : Str) (old j0 : List UInt8) (hst : Steady d hd hj n m old j0) (others : List Tx) (t : Tx) :
    (∀ k found, Lost (drun d (allOf hd hj others ++ (t.calls hd hj).take k)).2 found →
      found n = some (contentAfter old others) ∨ found m = some (written (journalAfter j0 others) t.jws) ∨ found n = some (contentAfter old (others ++ [t]))) ∧
    ∀ found, Lost (drun d (allOf hd hj others ++ t.calls hd hj)).2 found → found n = some (contentAfter old (others ++ [t])) := by
  obtain ⟨h1, f, g, hb, hf, _⟩ := exclusive_spec _ hd hj n m _ _ (steady_after hd hj n m others d old j0 hst) t.jws t.dws t.zeros t.flags.1 t.flags.2.1 t.flags.2.2
  have e : contentAfter old (others ++ [t]) = written (contentAfter old others) t.dws := by simp [contentAfter]
  rw [e]
  constructor
  · intro k found hl
    rw [drun_append] at hl
    exact h1 k found hl
  · intro found hl
    rw [drun_append] at hl
    exact safe_found hb.fName hf hl

/-! ## Where it fails, and cases -/

/-- A database "db" that holds [1]. -/
def dbBack : Back := ⟨fun n => if n = "db".toList then some 0 else none, fun i => if i = 0 then [1] else [], 1, []⟩

/-- A transaction up to the first write to the database: the journal is made, written and synced before. -/
def begun : List DOp := [.vfs (.open "db".toList exFl none), .vfs (.open "db-journal".toList exFl none), .vfs (.writeAt 1 [1] 0 none), .sync 1 false none, .vfs (.writeAt 0 [2] 0 none)]

/-- C144 fails: every call of the transaction succeeds, the journal is synced before the database is written, yet after a loss of power the journal is not there and the database holds neither what it held before
nor what was written. -/
theorem C144_counterexample_journal : (drun (settled dbBack) begun).1 = [.opened 0, .opened 1, .wrote 1 none, .done, .wrote 1 none] ∧
    Lost (drun (settled dbBack) begun).2 (fun q => if q = "db".toList then some [9, 9] else none) := by
  refine ⟨by decide +kernel, fun q => ?_⟩
  refine ⟨(settled dbBack).sys.back.names, moment_mem _ [] begun, ?_⟩
  by_cases hq : q = "db".toList
  · subst hq
    exact ⟨[9, 9], rfl, fun h => absurd h (by decide +kernel)⟩
  · have e : (settled dbBack).sys.back.names q = none := if_neg hq
    simp only [e]
    exact if_neg hq

/-- The rest of it: the database is synced and the journal deleted, which ends the transaction. -/
def committed : List DOp := begun ++ [.sync 0 false none, .delete "db-journal".toList true none]

/-- C144 fails: sqlite asks for the directory to be synced when it deletes a journal, and the call succeeds; after a loss of power the journal is there again, with what the database held before, so that
the next open takes the committed transaction back. (Under exclusive locking sqlite voids the journal instead, which is safe: `C144_exclusive_partial`.) -/
theorem C144_counterexample_delete : (drun (settled dbBack) committed).1 = [.opened 0, .opened 1, .wrote 1 none, .done, .wrote 1 none, .done, .done] ∧
    (backAfter dbBack committed).names "db-journal".toList = none ∧
    Lost (drun (settled dbBack) committed).2 (fun q => if q = "db".toList then some [2] else if q = "db-journal".toList then some [1] else none) := by
  refine ⟨by decide +kernel, by decide +kernel, fun q => ?_⟩
  by_cases hq : q = "db".toList
  · subst hq
    refine ⟨(backAfter dbBack begun).names, moment_mem _ begun _, ?_⟩
    have e : (backAfter dbBack begun).names "db".toList = some 0 := by decide +kernel
    simp only [e]
    exact ⟨[2], rfl, fun _ => by decide +kernel⟩
  by_cases hq' : q = "db-journal".toList
  · subst hq'
    refine ⟨(backAfter dbBack begun).names, moment_mem _ begun _, ?_⟩
    have e : (backAfter dbBack begun).names "db-journal".toList = some 1 := by decide +kernel
    simp only [e]
    exact ⟨[1], rfl, fun _ => by decide +kernel⟩
  · refine ⟨(settled dbBack).sys.back.names, moment_mem _ [] committed, ?_⟩
    have e : (settled dbBack).sys.back.names q = none := if_neg hq
    simp only [e]
    rw [if_neg hq, if_neg hq']

/-- The database, opened, is ready for a transaction; `committed` is one. -/
example : Ready (drun (settled dbBack) [.vfs (.open "db".toList exFl none)]).2 0 "db".toList "db-journal".toList [1] ∧
    DOp.vfs (.open "db".toList exFl none) :: transaction 0 1 "db-journal".toList exFl [⟨[1], 0, none⟩] [⟨[2], 0, none⟩] false false = committed := by
  refine ⟨⟨⟨⟨0, true, false, cleanPath "db".toList, exFl, ⟨false, .none, .none⟩⟩, rfl, rfl, rfl, ?_, ?_, ?_, ?_⟩, ?_, ?_⟩, rfl⟩
  all_goals decide +kernel

/-- A database and a journal that are there from the start. -/
def twoBack : Back := ⟨fun n => if n = "db".toList then some 0 else if n = "db-journal".toList then some 1 else none, fun i => if i = 0 then [1] else [0], 2, []⟩

/-- Opened, they are as `C144_exclusive_partial` asks for. -/
example : Steady (drun (settled twoBack) [.vfs (.open "db".toList exFl none), .vfs (.open "db-journal".toList exFl none)]).2 0 1 "db".toList "db-journal".toList [1] [0] := by
  refine ⟨⟨0, true, false, cleanPath "db".toList, exFl, ⟨false, .none, .none⟩⟩, ⟨1, true, false, cleanPath "db-journal".toList, exFl, ⟨false, .none, .none⟩⟩,
    ⟨⟨rfl, rfl, rfl⟩, ⟨rfl, rfl, rfl⟩, fun q hq => ?_, fun q hq => ?_, by decide⟩, ⟨by decide +kernel, by decide +kernel⟩, ⟨by decide +kernel, by decide +kernel⟩⟩
  all_goals
    have hq' := past_mem _ (settled twoBack) q hq
    rcases hq' with h | ⟨k, rfl⟩
    · cases h
    · match k with
      | 0 | 1 => decide +kernel
      | k + 2 => rw [List.take_of_length_le (by simp)]; decide +kernel

/-- After the transaction the database itself is safe. -/
example : ∀ found, Lost (drun (settled dbBack) committed).2 found → found "db".toList = some [2] := by
  refine C144_synced_partial dbBack begun [.delete "db-journal".toList true none] 0 false none 0 "db".toList [2]
    (by decide +kernel) (by decide +kernel) (fun k => ?_) (fun k => ?_)
  · match k with
    | 0 | 1 | 2 | 3 | 4 | 5 | 6 => decide +kernel
    | k + 7 => rw [List.take_of_length_le (by simp [begun])]; decide +kernel
  · match k with
    | 0 => decide +kernel
    | k + 1 => rw [List.take_of_length_le (by simp)]; decide +kernel

end Verif.Overlay.SqlVfs
