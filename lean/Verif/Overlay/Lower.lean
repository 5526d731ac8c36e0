import Verif.Overlay.Ops
import Verif.Overlay.LookupProps
/-
No operation of the overlay changes a lower layer (C54): neither its content nor its marks, at any point of any history, crashes included.
-/
namespace Verif.Overlay.Stack
open Verif.Path Verif.Prog

/-- Nothing below the top has changed. -/
def LowerSame (S0 S : Sys) : Prop := S.last = S0.last ∧ ∀ i, 0 < i → S.layer i = S0.layer i ∧ S.mask i = S0.mask i

/-- An operation that leaves the lower layers alone, at its crash points and at its end. -/
def Keeps {α : Type} (m : Op α) : Prop := ∀ S0, Holds (LowerSame S0) (LowerSame S0) m (fun _ => LowerSame S0)

theorem LowerSame.refl (S : Sys) : LowerSame S S := ⟨rfl, fun _ _ => ⟨rfl, rfl⟩⟩

theorem LowerSame.trans {S1 S2 S3 : Sys} (h : LowerSame S1 S2) (h' : LowerSame S2 S3) : LowerSame S1 S3 :=
  ⟨h'.1.trans h.1, fun i hi => ⟨((h'.2 i hi).1).trans (h.2 i hi).1, ((h'.2 i hi).2).trans (h.2 i hi).2⟩⟩

theorem lowerSame_onTree (f : Tree → Tree) (S : Sys) : LowerSame S (onTree 0 f S) :=
  ⟨rfl, fun _ hi => ⟨if_neg (Nat.ne_of_gt hi), rfl⟩⟩

theorem lowerSame_onMask (f : Mask → Mask) (S : Sys) : LowerSame S (onMask 0 f S) :=
  ⟨rfl, fun _ hi => ⟨rfl, if_neg (Nat.ne_of_gt hi)⟩⟩

theorem lowerSame_onStage (k : Nat) (v : Option Node) (S : Sys) : LowerSame S (onStage k v S) := ⟨rfl, fun _ _ => ⟨rfl, rfl⟩⟩

theorem Keeps.pure {α : Type} (a : α) : Keeps (Pure.pure a : Op α) := fun _ => Holds.pure fun _ h => h
theorem Keeps.fail {α : Type} (e : Errno) : Keeps (Prog.fail e : Op α) := fun _ => Holds.fail fun _ h => h
theorem Keeps.get : Keeps (Prog.get : Op Sys) := fun _ => Holds.get fun _ h => h
theorem Keeps.modify {f : Sys → Sys} (h : ∀ S, LowerSame S (f S)) : Keeps (Prog.modify f : Op Unit) :=
  fun _ => Holds.modify (fun S hS => hS.trans (h S)) (fun S hS => hS.trans (h S))
theorem Keeps.bind {α β : Type} {m : Op α} {f : α → Op β} (hm : Keeps m) (hf : ∀ a, Keeps (f a)) : Keeps (m >>= f) :=
  fun S0 => Holds.bind (fun _ => LowerSame S0) (hm S0) (fun a => hf a S0) (fun _ _ h => h)
theorem Keeps.attempt {α : Type} {m : Op α} (hm : Keeps m) : Keeps (Prog.attempt m) := fun S0 => Holds.attempt (hm S0)
theorem Keeps.ite {α : Type} {c : Prop} [Decidable c] {m n : Op α} (hm : Keeps m) (hn : Keeps n) : Keeps (if c then m else n) := by
  split <;> assumption

theorem keeps_onTree (f : Tree → Tree) : Keeps (Prog.modify (onTree 0 f) : Op Unit) := Keeps.modify (lowerSame_onTree f)
theorem keeps_onMask (f : Mask → Mask) : Keeps (Prog.modify (onMask 0 f) : Op Unit) := Keeps.modify (lowerSame_onMask f)

theorem keeps_fsMkdir (n : Name) (perm : Nat) : Keeps (fsMkdir 0 n perm) := by
  refine Keeps.get.bind fun S => ?_
  split
  · exact Keeps.fail _
  · split
    · exact Keeps.fail _
    · exact keeps_onTree _

theorem keeps_fsChmod (n : Name) (m : Nat) : Keeps (fsChmod 0 n m) := by
  refine Keeps.get.bind fun S => ?_
  split
  · exact Keeps.fail _
  · split
    · exact Keeps.fail _
    · exact keeps_onTree _

theorem keeps_fsSymlink (t : Str) (n : Name) : Keeps (fsSymlink 0 t n) := by
  refine Keeps.get.bind fun S => ?_
  split
  · exact Keeps.fail _
  · split
    · exact Keeps.fail _
    · exact keeps_onTree _

theorem keeps_fsLink (a b : Name) : Keeps (fsLink 0 a b) := by
  refine Keeps.get.bind fun S => ?_
  split
  · split
    · exact Keeps.fail _
    · exact Keeps.fail _
    · exact Keeps.ite (Keeps.fail _) (keeps_onTree _)
  · exact Keeps.fail _
  · exact Keeps.fail _

theorem keeps_fsOpen (n : Name) (c e t : Bool) (perm : Nat) : Keeps (fsOpen 0 n c e t perm) := by
  refine Keeps.get.bind fun S => ?_
  split
  · exact Keeps.fail _
  · split
    · exact Keeps.ite ((keeps_onTree _).bind fun _ => Keeps.pure _) (Keeps.fail _)
    · exact Keeps.ite (Keeps.fail _) (Keeps.ite ((keeps_onTree _).bind fun _ => Keeps.pure _) (Keeps.pure _))
    · exact Keeps.fail _
    · exact Keeps.fail _

theorem keeps_fsRemove (n : Name) : Keeps (fsRemove 0 n) := by
  refine Keeps.get.bind fun S => ?_
  split
  · exact Keeps.fail _
  · split
    · exact Keeps.fail _
    · exact Keeps.ite (Keeps.fail _) (keeps_onTree _)
    · exact keeps_onTree _

theorem keeps_removeSteps (r : Name) : ∀ fs, Keeps (removeSteps 0 r fs)
  | [] => Keeps.pure _
  | _ :: fs => (keeps_onTree _).bind fun _ => keeps_removeSteps r fs

theorem keeps_fsRemoveAll (n : Name) (o : List (Name → Bool)) : Keeps (fsRemoveAll 0 n o) := by
  refine Keeps.get.bind fun S => ?_
  split
  · exact Keeps.pure _
  · exact Keeps.fail _
  · exact Keeps.ite (Keeps.fail _) ((keeps_removeSteps _ _).bind fun _ => keeps_onTree _)

theorem keeps_fsRename (a b : Name) : Keeps (fsRename 0 a b) := by
  refine Keeps.get.bind fun S => ?_
  split
  · split
    · exact Keeps.fail _
    · refine Keeps.ite (Keeps.fail _) (Keeps.ite (Keeps.fail _) ?_)
      split
      · exact keeps_onTree _
      · exact Keeps.ite (Keeps.fail _) (Keeps.ite (Keeps.fail _) (keeps_onTree _))
      · exact Keeps.ite (Keeps.fail _) (keeps_onTree _)
  · exact Keeps.fail _
  · exact Keeps.fail _

theorem keeps_fsPublish (k : Nat) (n : Name) : Keeps (fsPublish 0 k n) := by
  refine Keeps.get.bind fun S => ?_
  split
  · exact Keeps.fail _
  · exact Keeps.fail _
  · split
    · exact Keeps.fail _
    · exact Keeps.modify fun S => (lowerSame_onStage _ _ S).trans (lowerSame_onTree _ _)

theorem keeps_unmask (n : Name) : Keeps (unmask n) := Keeps.get.bind fun _ => Keeps.ite (keeps_onMask _) (Keeps.pure _)

theorem keeps_unopaque (n : Name) : Keeps (unopaque n) := Keeps.get.bind fun _ => Keeps.ite (keeps_onMask _) (Keeps.pure _)

theorem keeps_forNames {f : Name → Op Unit} (hf : ∀ n, Keeps (f n)) : ∀ l, Keeps (forNames f l)
  | [] => Keeps.pure _
  | n :: l => (hf n).bind fun _ => keeps_forNames hf l

theorem keeps_clearSubtree (n : Name) : Keeps (clearSubtree n) :=
  Keeps.get.bind fun _ => (keeps_forNames keeps_unmask _).bind fun _ => keeps_forNames keeps_unopaque _

theorem keeps_renameSubtree (a b : Name) : Keeps (renameSubtree a b) :=
  Keeps.get.bind fun _ => (keeps_forNames (fun _ => keeps_onMask _) _).bind fun _ => (keeps_forNames (fun _ => keeps_onMask _) _).bind fun _ =>
    (keeps_forNames (fun _ => keeps_onMask _) _).bind fun _ => keeps_forNames (fun _ => keeps_onMask _) _

theorem keeps_copyAttrs (n : Name) (nd : Node) : Keeps (copyAttrs n nd) :=
  (Keeps.attempt (keeps_fsChmod _ _)).bind fun _ => Keeps.pure _

theorem keeps_materializeOne (j : Nat) (n : Name) : Keeps (materializeOne j n) := by
  refine Keeps.get.bind fun S => ?_
  split
  · exact (keeps_fsMkdir _ _).bind fun _ => keeps_copyAttrs _ _
  · exact keeps_fsMkdir _ _

theorem keeps_materializeParents (j : Nat) : ∀ n, Keeps (materializeParents j n)
  | [] => Keeps.pure _
  | _ :: d => by
    refine (keeps_materializeParents j d).bind fun _ => Keeps.get.bind fun S => ?_
    split
    · exact Keeps.pure _
    · exact keeps_materializeOne _ _
    · exact Keeps.fail _

theorem keeps_copyRegular (n : Name) (m : Nat) (data : Str) : Keeps (copyRegular n m data) := by
  refine Keeps.get.bind fun _ => Keeps.bind (Keeps.modify ?_) fun _ =>
    (Keeps.modify (lowerSame_onStage _ _)).bind fun _ => (Keeps.modify (lowerSame_onStage _ _)).bind fun _ =>
    (Keeps.modify (lowerSame_onStage _ _)).bind fun _ => keeps_fsPublish _ _
  exact fun _ => ⟨rfl, fun _ _ => ⟨rfl, rfl⟩⟩

theorem keeps_policyCopyUp (j : Nat) (n : Name) : Keeps (policyCopyUp j n) := by
  refine Keeps.get.bind fun S => ?_
  split
  · exact Keeps.fail _
  · exact Keeps.fail _
  · exact (keeps_materializeParents _ _).bind fun _ => (keeps_fsMkdir _ _).bind fun _ => keeps_copyAttrs _ _
  · exact (keeps_materializeParents _ _).bind fun _ => keeps_fsSymlink _ _
  · exact (keeps_materializeParents _ _).bind fun _ => keeps_copyRegular _ _ _

theorem keeps_copyUp : ∀ n, Keeps (copyUp n)
  | [] => Keeps.pure _
  | c :: d => by
    refine Keeps.get.bind fun S => ?_
    split
    · exact Keeps.pure _
    · exact Keeps.fail _
    · exact Keeps.pure _
    · exact (keeps_policyCopyUp _ _).bind fun _ => keeps_unopaque _

theorem keeps_ensureParent (n : Name) : Keeps (ensureParent n) := by
  refine Keeps.get.bind fun S => ?_
  split
  · exact Keeps.fail _
  · exact keeps_copyUp _
  · exact Keeps.fail _

theorem keeps_unlink (n : Name) {rm : Op Unit} (h : Keeps rm) : Keeps (unlink n rm) := by
  refine Keeps.bind ?_ fun _ => ?_
  · refine Keeps.get.bind fun S => ?_
    split
    · exact keeps_onMask _
    · exact keeps_clearSubtree _
    · exact Keeps.fail _
  · refine (Keeps.attempt h).bind fun r => ?_
    split
    · exact Keeps.pure _
    · exact Keeps.fail _
    · exact Keeps.pure _

theorem keeps_mkdirOne (n : Name) (perm : Nat) : Keeps (mkdirOne n perm) :=
  (keeps_fsMkdir _ _).bind fun _ => (keeps_onMask _).bind fun _ => keeps_unmask _

theorem keeps_renameMarks (a b : Name) (d m : Bool) : Keeps (renameMarks a b d m) :=
  (keeps_clearSubtree _).bind fun _ => (keeps_renameSubtree _ _).bind fun _ =>
    Keeps.bind (Keeps.ite (keeps_onMask _) (Keeps.pure _)) fun _ => Keeps.ite (keeps_onMask _) (keeps_clearSubtree _)

theorem keeps_renameGo (a b : Name) (d : Bool) : Keeps (renameGo a b d) := by
  refine (keeps_copyUp _).bind fun _ => (keeps_ensureParent _).bind fun _ => Keeps.get.bind fun S => ?_
  split
  · exact (keeps_fsRename _ _).bind fun _ => keeps_renameMarks _ _ _ _
  · exact (keeps_fsRename _ _).bind fun _ => keeps_renameMarks _ _ _ _
  · exact Keeps.fail _

/-- A handle the overlay hands out: on a file of one layer, behind the read-only wrapper or not (fs.go 213-228, open.go 65-78), or on a merged
directory (file.go 113-130). -/
inductive Handle
  | file (layer : Nat) (name : Name) (wrapped : Bool)
  | merged (name : Name)

/-- The operations of the overlay on resolved names, and changes through handles. -/
inductive Call
  | chmod (n : Name) (m : Nat) | attr (n : Name) | openWrite (n : Name) (create excl trunc : Bool) (perm : Nat) | openRead (n : Name)
  | remove (n : Name) | removeAll (n : Name) (steps : List (Name → Bool)) | mkdir (n : Name) (perm : Nat) | mkdirAll (n : Name) (perm : Nat)
  | symlink (t : Str) (n : Name) | link (a b : Name) | rename (a b : Name)
  | change (h : Nat) (f : Node → Node)

/-- A change through a handle: any write, truncation or change of attributes. The read-only wrapper refuses it (C38, C39); a merged directory sends
it through copy-up (file.go 312-345). -/
def changeOp (f : Node → Node) : Handle → Op Unit
  | .file i r w => if w then Prog.fail (.other 9) else Prog.modify (onTree i (fun t m => if m = r then (t m).map f else t m))
  | .merged n => do
    let S ← Prog.get
    match S.lookup n with
    | .ok (_, nd) => chmodOp n (f nd).mode
    | .error e => Prog.fail e

/-- The handle a call hands out, if any (fs.go 201-229). -/
def opened (S : Sys) (hs : List Handle) : Call → List Handle
  | .openWrite n c e t perm =>
    match result (openWriteOp n c e t perm) S with
    | .ok r => hs ++ [.file 0 r false]
    | .error _ => hs
  | .openRead n =>
    match S.lookup n with
    | .ok (_, .dir _) => hs ++ [.merged n]
    | .ok (i, _) => hs ++ [.file i n (decide (0 < i))]
    | .error _ => hs
  | _ => hs

/-- The program a call runs. -/
def program (hs : List Handle) : Call → Op Unit
  | .chmod n m => chmodOp n m
  | .attr n => attrOp n
  | .openWrite n c e t perm => do
    let _ ← openWriteOp n c e t perm
    return ()
  | .openRead _ => Pure.pure ()
  | .remove n => removeOp n
  | .removeAll n o => removeAllOp n o
  | .mkdir n p => mkdirOp n p
  | .mkdirAll n p => mkdirAllOp p n
  | .symlink t n => symlinkOp t n
  | .link a b => linkOp a b
  | .rename a b => renameOp a b
  | .change h f =>
    match hs[h]? with
    | none => Pure.pure ()
    | some x => changeOp f x

/-- What a process can get to: any calls one after another, and the crash points in between (after a crash the handles are gone). -/
inductive History (S0 : Sys) : Sys → List Handle → Prop
  | start : History S0 S0 []
  | call {S hs} (c : Call) : History S0 S hs → History S0 (final (program hs c) S) (opened S hs c)
  | crash {S hs} (c : Call) {T} : History S0 S hs → T ∈ crashes (program hs c) S → History S0 T []

/-- Handles that are not behind the wrapper are on the top. -/
def TopOnly (hs : List Handle) : Prop := ∀ i n, Handle.file i n false ∈ hs → i = 0

theorem keeps_chmodOp (n : Name) (m : Nat) : Keeps (chmodOp n m) := (keeps_copyUp n).bind fun _ => keeps_fsChmod _ _

theorem keeps_openWriteOp (n : Name) (c e t : Bool) (perm : Nat) : Keeps (openWriteOp n c e t perm) := by
  refine Keeps.get.bind fun S => ?_
  split
  · exact Keeps.fail _
  · exact Keeps.ite (Keeps.fail _) ((keeps_copyUp _).bind fun _ => keeps_fsOpen _ _ _ _ _)
  · exact Keeps.ite ((keeps_ensureParent _).bind fun _ => (keeps_fsOpen _ _ _ _ _).bind fun _ => (keeps_unmask _).bind fun _ => Keeps.pure _) (Keeps.fail _)
  · exact Keeps.fail _

theorem keeps_removeOp (n : Name) : Keeps (removeOp n) := by
  refine Keeps.get.bind fun S => Keeps.ite (Keeps.fail _) ?_
  split
  · exact Keeps.fail _
  · refine Keeps.bind ?_ fun _ => keeps_unlink _ (keeps_fsRemove _)
    refine Keeps.get.bind fun S => ?_
    split
    · exact Keeps.fail _
    · exact Keeps.pure _
    · exact Keeps.fail _
  · exact keeps_unlink _ (keeps_fsRemove _)

theorem keeps_removeAllOp (n : Name) (o : List (Name → Bool)) : Keeps (removeAllOp n o) := by
  refine Keeps.get.bind fun S => Keeps.ite (Keeps.fail _) ?_
  split
  · exact Keeps.pure _
  · exact Keeps.fail _
  · exact keeps_unlink _ (keeps_fsRemoveAll _ _)

theorem keeps_mkdirOp (n : Name) (p : Nat) : Keeps (mkdirOp n p) := by
  refine Keeps.get.bind fun S => ?_
  split
  · exact Keeps.fail _
  · exact (keeps_ensureParent _).bind fun _ => keeps_mkdirOne _ _
  · exact Keeps.fail _

theorem keeps_mkdirStep (n : Name) (p : Nat) : Keeps (mkdirStep n p) := by
  refine Keeps.get.bind fun S => ?_
  split
  · exact Keeps.pure _
  · exact Keeps.fail _
  · exact (keeps_ensureParent _).bind fun _ => keeps_mkdirOne _ _
  · exact Keeps.fail _

theorem keeps_mkdirAllOp (p : Nat) : ∀ n, Keeps (mkdirAllOp p n)
  | [] => Keeps.pure _
  | _ :: d => (keeps_mkdirAllOp p d).bind fun _ => keeps_mkdirStep _ _

theorem keeps_symlinkOp (t : Str) (n : Name) : Keeps (symlinkOp t n) := by
  refine Keeps.get.bind fun S => ?_
  split
  · exact Keeps.fail _
  · exact (keeps_ensureParent _).bind fun _ => (keeps_fsSymlink _ _).bind fun _ => keeps_unmask _
  · exact Keeps.fail _

theorem keeps_linkOp (a b : Name) : Keeps (linkOp a b) := by
  refine Keeps.get.bind fun S => ?_
  split
  · exact Keeps.fail _
  · split
    · exact Keeps.fail _
    · exact (keeps_copyUp _).bind fun _ => (keeps_ensureParent _).bind fun _ => (keeps_fsLink _ _).bind fun _ => keeps_unmask _
    · exact Keeps.fail _

theorem keeps_renameOp (a b : Name) : Keeps (renameOp a b) := by
  refine Keeps.get.bind fun S => Keeps.ite (Keeps.fail _) ?_
  split
  · exact Keeps.fail _
  · refine Keeps.ite (Keeps.pure _) (Keeps.ite (Keeps.fail _) ?_)
    split
    · exact Keeps.fail _
    · split
      · exact Keeps.fail _
      · exact keeps_renameGo _ _ _

theorem keeps_program {hs : List Handle} (hh : TopOnly hs) (c : Call) : Keeps (program hs c) := by
  cases c with
  | chmod n m => exact keeps_chmodOp n m
  | attr n => exact keeps_copyUp n
  | openWrite n c e t perm => exact (keeps_openWriteOp _ _ _ _ _).bind fun _ => Keeps.pure _
  | openRead n => exact Keeps.pure _
  | remove n => exact keeps_removeOp n
  | removeAll n o => exact keeps_removeAllOp n o
  | mkdir n p => exact keeps_mkdirOp n p
  | mkdirAll n p => exact keeps_mkdirAllOp p n
  | symlink t n => exact keeps_symlinkOp t n
  | link a b => exact keeps_linkOp a b
  | rename a b => exact keeps_renameOp a b
  | change h f =>
    simp only [program]
    split
    · exact Keeps.pure _
    · rename_i x hx
      unfold changeOp
      split
      · rename_i i r w
        cases w with
        | true => exact Keeps.fail _
        | false =>
          have := hh i r (List.mem_of_getElem? hx)
          subst this
          exact keeps_onTree _
      · refine Keeps.get.bind fun S => ?_
        split
        · exact keeps_chmodOp _ _
        · exact Keeps.fail _

theorem topOnly_opened {S : Sys} {hs : List Handle} (hh : TopOnly hs) (c : Call) : TopOnly (opened S hs c) := by
  have key : ∀ x : Handle, (∀ i n, x = .file i n false → i = 0) → TopOnly (hs ++ [x]) := by
    intro x hx i n hm
    rcases List.mem_append.1 hm with hm | hm
    · exact hh i n hm
    · exact hx i n (List.mem_singleton.1 hm).symm
  unfold opened
  split
  · split
    · exact key _ (by intro i n h; cases h; rfl)
    · exact hh
  · split
    · exact key _ (by intro i n h; cases h)
    · rename_i i _ _ _
      refine key _ ?_
      intro i' n h
      simp only [Handle.file.injEq, decide_eq_false_iff_not] at h
      omega
    · exact hh
  · exact hh

/-- **C54**. In every history of calls on the overlay and changes through the handles it hands out, at every crash point and after every
call, the lower layers' content and marks are what they were at the start. -/
theorem C54_lower_unchanged {S0 S : Sys} {hs : List Handle} (h : History S0 S hs) :
    ∀ i, 0 < i → S.layer i = S0.layer i ∧ S.mask i = S0.mask i := by
  have : LowerSame S0 S ∧ TopOnly hs := by
    induction h with
    | start => exact ⟨LowerSame.refl _, by intro i n hm; cases hm⟩
    | call c _ ih => exact ⟨(keeps_program ih.2 c S0 _ ih.1).2, topOnly_opened ih.2 c⟩
    | crash c _ ht ih => exact ⟨(keeps_program ih.2 c S0 _ ih.1).1 _ ht, by intro i n hm; cases hm⟩
  exact this.1.2

open Example in
/-- A history that opens a lower file, tries to change it through that handle, and renames it (which copies it up): the
top has changed, the lower layer still holds the file. -/
example : ∃ S hs, History s1 S hs ∧ (S.layer 0).tree [x] = some (.file 0o644 ['2']) ∧ (S.mask 0).wh ≠ (s1.mask 0).wh ∧
    (S.layer 1).tree [b, a] = some (.file 0o644 ['2']) ∧ S.lookup [b, a] = .error .notExist := by
  have h0 : History s1 s1 [] := .start
  have h1 := History.call (.openRead [b, a]) h0
  have h2 := History.call (.change 0 (fun _ => .file 0 [])) h1
  have h3 := History.call (.rename [b, a] [x]) h2
  exact ⟨_, _, h3, rfl, by decide, rfl, rfl⟩

end Verif.Overlay.Stack
