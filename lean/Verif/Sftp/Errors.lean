import Verif.Common.Str
/-
Errors of an sftp server (C108). Models vroot-adapter/sftpfs/sftpfs.go.

Trusted about github.com/pkg/sftp: the server answers a failed operation with a status code and the text of the Go error (server.go `statusFromError`: ENOENT is NO_SUCH_FILE, EACCES and EPERM are
PERMISSION_DENIED, everything else is FAILURE); the client turns the first two into os.ErrNotExist and os.ErrPermission (client.go `normaliseError`) and the others into a `*StatusError`, whose text is
`sftp: %q (%v)` of the text and the code.
-/
namespace Verif.Sftp.Errors
open Verif

/-- strings.Contains. -/
def contains (s w : Str) : Bool := match s with
  | [] => w.isEmpty
  | c :: r => w.isPrefixOf (c :: r) || contains r w

/-- What went wrong on the server. -/
inductive Errno where
  | exist
  | noent
  | perm
  | other (text : Str)
  deriving DecidableEq, Repr

/-- The text of a `syscall.Errno`. -/
def Errno.text : Errno → Str
  | .exist => "file exists".toList
  | .noent => "no such file or directory".toList
  | .perm => "permission denied".toList
  | .other t => t

/-- Status codes. -/
def fxNoSuchFile : Nat := 2
def fxPermission : Nat := 3
def fxFailure : Nat := 4
def fxUnsupported : Nat := 8

/-- Server side: the code. -/
def Errno.code : Errno → Nat
  | .noent => fxNoSuchFile
  | .perm => fxPermission
  | .exist => fxFailure
  | .other _ => fxFailure

/-- Errors on the client's side. -/
inductive Err where
  /-- fs.ErrNotExist, fs.ErrPermission, fs.ErrExist. -/
  | notExist
  | permission
  | exist
  /-- `*sftp.StatusError`. -/
  | status (code : Nat) (msg : Str)
  /-- errors.Join -/
  | join (a b : Err)
  deriving DecidableEq, Repr

/-- errors.Is for one of the three. -/
def Err.is (e : Err) (t : Err) : Bool := match e with
  | .join a b => a.is t || b.is t
  | e => e == t

/-- errors.AsType[*sftp.StatusError]: the first one. -/
def Err.status? : Err → Option (Nat × Str)
  | .status c m => some (c, m)
  | .join a b => (a.status?).or b.status?
  | _ => none

/-- What the client library reports: `pre` is what the Go error on the server says before the cause (operation and path, "open /srv/a"). -/
def report (pre : Str) (e : Errno) : Err :=
  if e.code = fxNoSuchFile then .notExist
  else if e.code = fxPermission then .permission
  else .status e.code (pre ++ ": ".toList ++ e.text)

/-- The text of a StatusError with code FAILURE. `q` is what %q makes of a character. -/
def statusText (q : Char → Str) (msg : Str) : Str := "sftp: \"".toList ++ msg.flatMap q ++ "\" (SSH_FX_FAILURE)".toList

/-- sftpfs.go 491-505 `mapSftpErr`. -/
def mapSftpErr (q : Char → Str) (err : Err) : Err :=
  match err.status? with
  | none => err
  | some (code, msg) =>
    if code ≠ fxFailure then err
    else if contains (statusText q msg) "file exists".toList || contains (statusText q msg) "file already exists".toList then .join err .exist
    else err

/-- sftpfs.go 470-482 `isSftpNotExist`. -/
def isSftpNotExist (err : Err) : Bool :=
  err.is .notExist || (match err.status? with | some (c, _) => c == fxNoSuchFile | none => false)

/-- sftpfs.go 390-400 `Sync`, of what the file's Sync returned. -/
def sync (err : Option Err) : Option Err :=
  match err with
  | none => none
  | some e => match e.status? with
    | some (c, _) => if c = fxUnsupported then none else some e
    | none => some e

/-- The calls that reach the server. -/
inductive Call where
  | chmod | chown | chtimes | link | lstat | mkdir | mkdirAll | openFile | readLink | remove | rename | stat | symlink | readDir
  deriving DecidableEq, Repr

/-- What a call returns when the server failed: sftpfs.go 148-160 `Mkdir`, 191-210 `OpenFile`, 341-347 `Symlink` map the error, the others hand it on. -/
def Call.err (q : Char → Str) (c : Call) (e : Err) : Err :=
  match c with
  | .mkdir | .openFile | .symlink => mapSftpErr q e
  | _ => e

/-! ## Substrings -/

/-- `w` occurs in `s`. -/
def Occurs (s w : Str) : Prop := ∃ a b, s = a ++ w ++ b

theorem contains_iff (s w : Str) : contains s w = true ↔ Occurs s w := by
  induction s with
  | nil =>
    simp only [contains, List.isEmpty_iff]
    constructor
    · rintro rfl
      exact ⟨[], [], rfl⟩
    · rintro ⟨a, b, h⟩
      have := congrArg List.length h
      simp at this
      exact List.eq_nil_of_length_eq_zero (by omega)
  | cons c r ih =>
    simp only [contains, Bool.or_eq_true, ih, List.isPrefixOf_iff_prefix]
    constructor
    · rintro (⟨b, h⟩ | ⟨a, b, h⟩)
      · exact ⟨[], b, by rw [List.nil_append]; exact h.symm⟩
      · exact ⟨c :: a, b, by rw [h]; rfl⟩
    · rintro ⟨a, b, h⟩
      cases a with
      | nil => exact Or.inl ⟨b, h.symm⟩
      | cons x a =>
        injection h with _ h
        exact Or.inr ⟨a, b, h⟩

/-- A word that lacks a character occurs on one side of it. -/
theorem occurs_split {a b w : Str} {c : Char} (hc : c ∉ w) : Occurs (a ++ c :: b) w ↔ Occurs a w ∨ Occurs b w := by
  constructor
  · rintro ⟨x, y, h⟩
    rw [List.append_assoc] at h
    rcases List.append_eq_append_iff.mp h with ⟨z, hx, hr⟩ | ⟨z, ha, hr⟩
    · -- x = a ++ z, c :: b = z ++ (w ++ y)
      cases z with
      | nil =>
        cases w with
        | nil => exact Or.inl ⟨[], a, rfl⟩
        | cons d w =>
          injection hr with hd _
          exact absurd (by rw [hd]; exact List.mem_cons_self) hc
      | cons d z =>
        injection hr with _ hr
        exact Or.inr ⟨z, y, by rw [hr, List.append_assoc]; rfl⟩
    · -- a = x ++ z, w ++ y = z ++ c :: b
      rcases List.append_eq_append_iff.mp hr with ⟨u, hz, hu⟩ | ⟨u, hw, hu⟩
      · exact Or.inl ⟨x, u, by rw [ha, hz, List.append_assoc]⟩
      · cases u with
        | nil => exact Or.inl ⟨x, [], by rw [ha, hw]; simp⟩
        | cons d u =>
          injection hu with hd _
          subst hd
          exact absurd (by rw [hw]; simp) hc
  · rintro (⟨x, y, rfl⟩ | ⟨x, y, rfl⟩)
    · exact ⟨x, y ++ c :: b, by simp⟩
    · exact ⟨a ++ c :: x, y, by simp⟩

/-- The two texts `mapSftpErr` looks for. -/
def Told (s : Str) : Prop := Occurs s "file exists".toList ∨ Occurs s "file already exists".toList

theorem told_split {a b : Str} {c : Char} (h1 : c ∉ "file exists".toList) (h2 : c ∉ "file already exists".toList) : Told (a ++ c :: b) ↔ Told a ∨ Told b := by
  unfold Told
  rw [occurs_split h1, occurs_split h2]
  constructor
  · rintro ((h | h) | (h | h))
    · exact Or.inl (Or.inl h)
    · exact Or.inr (Or.inl h)
    · exact Or.inl (Or.inr h)
    · exact Or.inr (Or.inr h)
  · rintro ((h | h) | (h | h))
    · exact Or.inl (Or.inl h)
    · exact Or.inr (Or.inl h)
    · exact Or.inl (Or.inr h)
    · exact Or.inr (Or.inr h)

theorem map_exist_iff (q : Char → Str) (msg : Str) : (mapSftpErr q (.status fxFailure msg)).is .exist = true ↔ Told (statusText q msg) := by
  have : mapSftpErr q (.status fxFailure msg) =
      if contains (statusText q msg) "file exists".toList || contains (statusText q msg) "file already exists".toList then .join (.status fxFailure msg) .exist else .status fxFailure msg := rfl
  rw [this]
  unfold Told
  rw [← contains_iff, ← contains_iff]
  cases contains (statusText q msg) "file exists".toList <;> cases contains (statusText q msg) "file already exists".toList <;> simp [Err.is]

theorem not_told_of_no_f {s : Str} (h : 'f' ∉ s) : ¬ Told s := by
  rintro (⟨a, b, rfl⟩ | ⟨a, b, rfl⟩) <;> exact h (by simp)

/-- The quoted text of the message decides. -/
theorem told_status (q : Char → Str) (msg : Str) : Told (statusText q msg) ↔ Told (msg.flatMap q) := by
  have e : statusText q msg = "sftp: ".toList ++ '"' :: (msg.flatMap q ++ '"' :: " (SSH_FX_FAILURE)".toList) := by
    have e1 : "sftp: \"".toList = "sftp: ".toList ++ ['"'] := by decide
    have e2 : "\" (SSH_FX_FAILURE)".toList = '"' :: " (SSH_FX_FAILURE)".toList := by decide
    unfold statusText
    rw [e1, e2, List.append_assoc, List.append_assoc]
    rfl
  rw [e, told_split (by decide) (by decide), told_split (by decide) (by decide)]
  have n2 : ¬ Told " (SSH_FX_FAILURE)".toList := not_told_of_no_f (by decide)
  have n1 : ¬ Told "sftp: ".toList := by
    rintro (h | h)
    · exact absurd ((contains_iff _ _).mpr h) (by decide)
    · exact absurd ((contains_iff _ _).mpr h) (by decide)
  constructor
  · rintro (h | h | h)
    · exact absurd h n1
    · exact h
    · exact absurd h n2
  · exact fun h => Or.inr (Or.inl h)

/-- %q leaves letters, blanks and colons as they are. -/
def Plain (q : Char → Str) : Prop := ∀ c, (c.isAlpha ∨ c = ' ' ∨ c = ':') → q c = [c]

theorem flatMap_plain {q : Char → Str} {s : Str} (h : ∀ c ∈ s, q c = [c]) : s.flatMap q = s := by
  induction s with
  | nil => rfl
  | cons c s ih =>
    rw [List.flatMap_cons, h c List.mem_cons_self, ih (fun x hx => h x (List.mem_cons_of_mem _ hx))]
    rfl

/-- What went wrong is no other error that says a file exists. -/
def Errno.Proper (q : Char → Str) : Errno → Prop
  | .other t => ¬ Told (' ' :: t.flatMap q)
  | _ => True

/-! ## C108 -/

/-- **C108** (existing files). `OpenFile`, `Mkdir` and `Symlink` report fs.ErrExist exactly when the name was there already, as long as what the server says before the cause (which holds the path) does not
itself say that a file exists. -/
theorem C108_exist_partial (q : Char → Str) (hq : Plain q) (c : Call) (hc : c = .openFile ∨ c = .mkdir ∨ c = .symlink) (pre : Str) (hpre : ¬ Told (pre.flatMap q)) (e : Errno) (he : e.Proper q) :
    (c.err q (report pre e)).is .exist = true ↔ e = .exist := by
  have hm : c.err q (report pre e) = mapSftpErr q (report pre e) := by rcases hc with rfl | rfl | rfl <;> rfl
  rw [hm]
  cases e with
  | noent => exact ⟨fun h => absurd (show false = true from h) (by decide), fun h => by cases h⟩
  | perm => exact ⟨fun h => absurd (show false = true from h) (by decide), fun h => by cases h⟩
  | exist =>
    refine ⟨fun _ => rfl, fun _ => ?_⟩
    show (mapSftpErr q (.status fxFailure (pre ++ ": ".toList ++ "file exists".toList))).is .exist = true
    rw [map_exist_iff, told_status]
    have : ("file exists".toList).flatMap q = "file exists".toList := flatMap_plain (by
      intro c hc
      refine hq c ?_
      revert c
      decide)
    rw [List.flatMap_append, this]
    exact Or.inl ⟨_, [], by rw [List.append_nil]⟩
  | other t =>
    refine ⟨fun h => ?_, fun h => by cases h⟩
    exfalso
    have h : (mapSftpErr q (.status fxFailure (pre ++ ": ".toList ++ t))).is .exist = true := h
    rw [map_exist_iff, told_status, List.flatMap_append, List.flatMap_append] at h
    have hcol : (": ".toList).flatMap q = [':', ' '] := by
      show q ':' ++ (q ' ' ++ []) = _
      rw [hq ':' (Or.inr (Or.inr rfl)), hq ' ' (Or.inr (Or.inl rfl))]
      rfl
    rw [hcol] at h
    have e2 : pre.flatMap q ++ [':', ' '] ++ t.flatMap q = pre.flatMap q ++ ':' :: (' ' :: t.flatMap q) := by simp
    rw [e2, told_split (by decide) (by decide)] at h
    rcases h with h | h
    · exact hpre h
    · exact he h

/-- **C108** (missing files, permissions). Every call reports fs.ErrNotExist exactly when something was missing, and fs.ErrPermission exactly when it was refused, whatever the path. -/
theorem C108_missing (q : Char → Str) (c : Call) (pre : Str) (e : Errno) :
    ((c.err q (report pre e)).is .notExist = true ↔ e = .noent) ∧ ((c.err q (report pre e)).is .permission = true ↔ e = .perm) ∧ (isSftpNotExist (report pre e) = true ↔ e = .noent) := by
  have hmap : ∀ msg (t : Err), (t = .notExist ∨ t = .permission) → (mapSftpErr q (.status fxFailure msg)).is t = false := by
    intro msg t ht
    have : mapSftpErr q (.status fxFailure msg) =
        if contains (statusText q msg) "file exists".toList || contains (statusText q msg) "file already exists".toList then .join (.status fxFailure msg) .exist else .status fxFailure msg := rfl
    rw [this]
    rcases ht with rfl | rfl <;> split <;> rfl
  cases e with
  | noent =>
    have hr : c.err q (report pre .noent) = .notExist := by cases c <;> rfl
    rw [hr]
    exact ⟨by decide, by decide, ⟨fun _ => rfl, fun _ => rfl⟩⟩
  | perm =>
    have hr : c.err q (report pre .perm) = .permission := by cases c <;> rfl
    rw [hr]
    exact ⟨by decide, by decide, ⟨fun h => absurd (show false = true from h) (by decide), fun h => by cases h⟩⟩
  | exist =>
    have hr : report pre .exist = .status fxFailure (pre ++ ": ".toList ++ "file exists".toList) := rfl
    rw [hr]
    generalize (pre ++ ": ".toList ++ "file exists".toList) = msg
    refine ⟨?_, ?_, by simp [isSftpNotExist, Err.is, Err.status?, fxFailure, fxNoSuchFile]⟩ <;>
      cases c <;> simp [Call.err, hmap msg .notExist (Or.inl rfl), hmap msg .permission (Or.inr rfl), Err.is]
  | other t =>
    have hr : report pre (.other t) = .status fxFailure (pre ++ ": ".toList ++ t) := rfl
    rw [hr]
    generalize (pre ++ ": ".toList ++ t) = msg
    refine ⟨?_, ?_, by simp [isSftpNotExist, Err.is, Err.status?, fxFailure, fxNoSuchFile]⟩ <;>
      cases c <;> simp [Call.err, hmap msg .notExist (Or.inl rfl), hmap msg .permission (Or.inr rfl), Err.is]

/-- **C108** (nothing hidden). Whatever error comes from the client library, the one reported has its status, and is everything it was. -/
theorem C108_kept (q : Char → Str) (c : Call) (e : Err) : (c.err q e).status? = e.status? ∧ ∀ t, e.is t = true → (c.err q e).is t = true := by
  have key : (mapSftpErr q e).status? = e.status? ∧ ∀ t, e.is t = true → (mapSftpErr q e).is t = true := by
    unfold mapSftpErr
    split
    · exact ⟨rfl, fun t h => h⟩
    · rename_i code msg hs
      split
      · exact ⟨rfl, fun t h => h⟩
      · split
        · refine ⟨?_, fun t h => ?_⟩
          · show (e.status?).or none = _
            rw [hs]
            rfl
          · show (e.is t || Err.exist.is t) = true
            rw [h]
            rfl
        · exact ⟨rfl, fun t h => h⟩
  cases c <;> first | exact key | exact ⟨rfl, fun t h => h⟩

/-- **C108** (Sync). `Sync` succeeds exactly when the server did, or does not know how to. -/
theorem C108_sync (err : Option Err) : sync err = none ↔ err = none ∨ ∃ e m, err = some e ∧ e.status? = some (fxUnsupported, m) := by
  cases err with
  | none => simp [sync]
  | some e =>
    unfold sync
    cases hs : e.status? with
    | none => simp [hs]
    | some cm =>
      obtain ⟨c, m⟩ := cm
      by_cases hc : c = fxUnsupported
      · subst hc
        simp [hs]
      · simp [hs, hc]

/-- What %q does, near enough: quotes and backslashes get a backslash. -/
def quote (c : Char) : Str := if c = '"' ∨ c = '\\' then ['\\', c] else [c]

theorem quote_plain : Plain quote := by
  intro c h
  unfold quote
  rw [if_neg]
  rintro (rfl | rfl) <;> revert h <;> decide

/-- **C108** does not hold: the text that is searched holds the path. Creating a file called "file exists" on a full disk reports that it exists. -/
theorem C108_counterexample_name :
    (Call.openFile.err quote (report "open /srv/file exists".toList (.other "no space left on device".toList))).is .exist = true := by decide

/-- **C108** does not hold: `Link`, and a `Rename` without the POSIX extension, onto a name that is there does not report fs.ErrExist. -/
theorem C108_counterexample_link (q : Char → Str) (c : Call) (hc : c = .link ∨ c = .rename) (pre : Str) : (c.err q (report pre .exist)).is .exist = false := by
  rcases hc with rfl | rfl <;> rfl

/-- The hypotheses of `C108_exist_partial` are met, both ways. -/
example : (Call.mkdir.err quote (report "mkdir /srv/a".toList .exist)).is .exist = true :=
  (C108_exist_partial quote quote_plain .mkdir (by simp) _ (by
    rintro (h | h)
    · exact absurd ((contains_iff _ _).mpr h) (by decide)
    · exact absurd ((contains_iff _ _).mpr h) (by decide)) .exist trivial).mpr rfl

example : (Errno.other "no space left on device".toList).Proper quote := by
  rintro (h | h)
  · exact absurd ((contains_iff _ _).mpr h) (by decide)
  · exact absurd ((contains_iff _ _).mpr h) (by decide)

end Verif.Sftp.Errors
