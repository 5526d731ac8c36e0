import Verif.Vroot.WrapProps
import Verif.Fsutil.TempProps
/-
C99: an io/fs filesystem used as an afero filesystem, /repo/aferofs/iofs.go and operation.go.
-/
namespace Verif.Afero.IoFs
open Verif.Path

abbrev Bytes := List UInt8

/-! ### Model -/

/-- The calls on an open file that the wrapper can make on the file below. `fs.File` has the first three; the others are there if the file has them. -/
inductive FCall where
  | read (k : Nat)
  | stat
  | close
  | readAt (k : Nat) (off : Int)
  | readdir (n : Int)
  | readdirnames (n : Int)
  | readDir (n : Int)
  | seek (off : Int) (whence : Int)
  | sync
  | truncate (size : Int)
  | write (p : Bytes)
  | writeAt (p : Bytes) (off : Int)
  | writeString (s : Bytes)
  deriving DecidableEq

/-- The optional interfaces that the code asks for (operation.go): io.ReaderAt, ReaderDir, ReaderDirnames, io.Seeker, Syncer, Truncator, io.Writer, io.WriterAt,
io.StringWriter; and `fs.ReadDirFile`, which the directories of io/fs have. -/
inductive Method where
  | readAt | readdir | readdirnames | readDir | seek | sync | truncate | write | writeAt | writeString
  deriving DecidableEq

/-- What calls answer. Only names are modelled of a listing. -/
inductive Ans where
  | bytes (d : Bytes)
  | count (n : Nat)
  | pos (n : Int)
  | infos (names : List Str) (err : Option Nat)     -- what was read, and the error if there was one
  | names (names : List Str) (err : Option Nat)
  | info (k : Nat)
  | done
  | path (p : Str)
  | erofs (op path : Str)      -- PathError with EROFS
  | notSupported               -- ErrOpNotSupported
  | failed (k : Nat)           -- an error of the file below
  deriving DecidableEq

/-- A file below: its methods and what they do to the state of the world. -/
structure File (σ : Type) where
  has : Method → Bool
  call : FCall → σ → σ × Ans

/-- iofs.go 159-163 `FsFile`, 165-167. -/
structure FsFile (σ : Type) where
  file : File σ
  path : Str
  readonly : Bool

/-- operation.go: one call, if the file has the method. -/
def via {σ : Type} (f : File σ) (m : Method) (c : FCall) (s : σ) : σ × Ans := if f.has m then f.call c s else (s, .notSupported)

/-- operation.go 39-52 `Readdirnames`. -/
def readdirnames {σ : Type} (f : File σ) (n : Int) (s : σ) : σ × Ans :=
  if f.has .readdirnames then f.call (.readdirnames n) s
  else match via f .readdir (.readdir n) s with
    | (s1, .infos l none) => (s1, .names l none)
    | (s1, .infos _ (some k)) => (s1, .names [] (some k))
    | (s1, a) => (s1, a)

/-- operation.go 97-106 `WriteString`. -/
def writeString {σ : Type} (f : File σ) (p : Bytes) (s : σ) : σ × Ans :=
  if f.has .writeString then f.call (.writeString p) s
  else via f .write (.write p) s

/-- The calls of `afero.File`. -/
inductive Call where
  | read (k : Nat)
  | stat
  | close
  | name
  | readAt (k : Nat) (off : Int)
  | readdir (n : Int)
  | readdirnames (n : Int)
  | seek (off : Int) (whence : Int)
  | sync
  | truncate (size : Int)
  | write (p : Bytes)
  | writeAt (p : Bytes) (off : Int)
  | writeString (s : Bytes)
  deriving DecidableEq

/-- iofs.go 169-219: the methods of `FsFile` (Read, Stat and Close are those of the embedded file). -/
def FsFile.call {σ : Type} (f : FsFile σ) : Call → σ → σ × Ans
  | .read k, s => f.file.call (.read k) s
  | .stat, s => f.file.call .stat s
  | .close, s => f.file.call .close s
  | .name, s => (s, .path f.path)
  | .readAt k off, s => via f.file .readAt (.readAt k off) s
  | .readdir n, s => via f.file .readdir (.readdir n) s
  | .readdirnames n, s => IoFs.readdirnames f.file n s
  | .seek off w, s => via f.file .seek (.seek off w) s
  | .sync, s => via f.file .sync .sync s
  | .truncate n, s => if f.readonly then (s, .erofs "truncate".toList f.path) else via f.file .truncate (.truncate n) s
  | .write p, s => if f.readonly then (s, .erofs "write".toList f.path) else via f.file .write (.write p) s
  | .writeAt p off, s => if f.readonly then (s, .erofs "writeat".toList f.path) else via f.file .writeAt (.writeAt p off) s
  | .writeString p, s => if f.readonly then (s, .erofs "write".toList f.path) else IoFs.writeString f.file p s

/-- The filesystem below: `fs.FS`, and `fs.Stat` of it. -/
structure Below (σ : Type) where
  open_ : Str → σ → σ × Except Nat (File σ)
  stat : Str → σ → σ × Except Nat Nat

/-- The calls of `afero.Fs`. -/
inductive FsCall where
  | create (name : Str)
  | mkdir (name : Str) (perm : Nat)
  | mkdirAll (path : Str) (perm : Nat)
  | open_ (name : Str)
  | openFile (name : Str) (flag : BitVec 64) (perm : Nat)
  | remove (name : Str)
  | removeAll (path : Str)
  | rename (oldname newname : Str)
  | stat (name : Str)
  | name
  | chmod (name : Str) (mode : Nat)
  | chown (name : Str) (uid gid : Int)
  | chtimes (name : Str) (atime mtime : Int)

inductive FsAns (σ : Type) where
  | file (f : FsFile σ)
  | info (k : Nat)
  | name
  | invalid (path : Str)
  | erofs (op path : Str)
  | failed (k : Nat)

/-- The flags looked at in iofs.go 135, with their values on Linux. -/
def writeFlags : BitVec 64 := 1#64 ||| 2#64 ||| 0x400#64 ||| 0x40#64 ||| 0x200#64

/-- iofs.go 123-132 `Open`, with std `fs.ValidPath`. -/
def openCall {σ : Type} (utf8 : Str → Bool) (b : Below σ) (name : Str) (s : σ) : σ × FsAns σ :=
  if !Vroot.validPath utf8 name then (s, .invalid name)
  else match b.open_ name s with
    | (s1, .error k) => (s1, .failed k)
    | (s1, .ok f) => (s1, .file ⟨f, name, true⟩)

/-- iofs.go 95-155: the methods of `IoFsAdapter`. The argument `readonly` of `NewIoFsAdapter` (87-89) is not kept. -/
def fsCall {σ : Type} (utf8 : Str → Bool) (b : Below σ) : FsCall → σ → σ × FsAns σ
  | .chmod n _, s => (s, .erofs "chmod".toList n)
  | .chown n _ _, s => (s, .erofs "chown".toList n)
  | .chtimes n _ _, s => (s, .erofs "chtimes".toList n)
  | .create n, s => (s, .erofs "create".toList n)
  | .mkdir n _, s => (s, .erofs "mkdir".toList n)
  | .mkdirAll n _, s => (s, .erofs "mkdir".toList n)
  | .name, s => (s, .name)
  | .open_ n, s => openCall utf8 b n s
  | .openFile n flag _, s => if flag &&& writeFlags ≠ 0#64 then (s, .erofs "open".toList n) else openCall utf8 b n s
  | .remove n, s => (s, .erofs "remove".toList n)
  | .removeAll n, s => (s, .erofs "remove".toList n)
  | .rename o _, s => (s, .erofs "rename".toList o)
  | .stat n, s => match b.stat n s with
    | (s1, .error k) => (s1, .failed k)
    | (s1, .ok k) => (s1, .info k)

/-- A step of a program that uses the adapter: a call on it, or a call on one of the files that it has handed out. -/
inductive Step where
  | fs (c : FsCall)
  | file (i : Nat) (c : Call)

/-- A run: the state below, and the files handed out so far. -/
def run {σ : Type} (utf8 : Str → Bool) (b : Below σ) : List Step → σ × List (FsFile σ) → σ × List (FsFile σ)
  | [], x => x
  | .fs c :: rest, (s, fs) => match fsCall utf8 b c s with
    | (s1, .file f) => run utf8 b rest (s1, fs ++ [f])
    | (s1, _) => run utf8 b rest (s1, fs)
  | .file i c :: rest, (s, fs) => match fs[i]? with
    | none => run utf8 b rest (s, fs)
    | some f => run utf8 b rest ((f.call c s).1, fs)

/-- iofs.go 23-33 `IoFs.Open`, the other way around; the file is handed out with the `ReadDir` of 41-51. -/
def ioOpen {σ α : Type} (utf8 : Str → Bool) (below : Str → σ → σ × Except Nat α) (name : Str) (s : σ) : σ × Except (Option Nat) α :=
  if !Vroot.validPath utf8 name then (s, .error none)
  else match below name s with
    | (s1, .error k) => (s1, .error (some k))
    | (s1, .ok f) => (s1, .ok f)

/-- iofs.go 41-51 `ReadDir` of such a file: what `Readdir` of the afero file answered, entry by entry. -/
def ioReadDir (answer : List Str × Option Nat) : List Str × Option Nat :=
  match answer.2 with
  | some k => ([], some k)
  | none => (answer.1, none)

/-! ### Specification -/

/-- The calls that may change a file. -/
def Call.mutates : Call → Bool
  | .truncate _ | .write _ | .writeAt _ _ | .writeString _ => true
  | _ => false

def FCall.mutates : FCall → Bool
  | .truncate _ | .write _ | .writeAt _ _ | .writeString _ => true
  | _ => false

/-- The open flags that ask for more than reading: an access mode that is not O_RDONLY, or one of O_APPEND, O_CREATE, O_TRUNC. -/
def WantsWrite (flag : BitVec 64) : Prop := flag.getLsbD 0 = true ∨ flag.getLsbD 1 = true ∨ flag.getLsbD 10 = true ∨ flag.getLsbD 6 = true ∨ flag.getLsbD 9 = true

/-- The calls that may change a filesystem. -/
inductive FsCall.Mutates : FsCall → Prop
  | create n : Mutates (.create n)
  | mkdir n p : Mutates (.mkdir n p)
  | mkdirAll n p : Mutates (.mkdirAll n p)
  | openFile n f p : WantsWrite f → Mutates (.openFile n f p)
  | remove n : Mutates (.remove n)
  | removeAll n : Mutates (.removeAll n)
  | rename o n : Mutates (.rename o n)
  | chmod n m : Mutates (.chmod n m)
  | chown n u g : Mutates (.chown n u g)
  | chtimes n a m : Mutates (.chtimes n a m)

/-- The names that calls are given. -/
def FsCall.path : FsCall → Option Str
  | .create n | .mkdir n _ | .mkdirAll n _ | .open_ n | .openFile n _ _ | .remove n | .removeAll n | .stat n | .chmod n _ | .chown n _ _ | .chtimes n _ _ => some n
  | .rename o _ => some o
  | .name => none

/-- What is looked at (`content`) is not changed by calls that are not mutating; nothing is said about the mutating ones. -/
def QuietFile {σ γ : Type} (content : σ → γ) (f : File σ) : Prop := ∀ c s, c.mutates = false → content (f.call c s).1 = content s

/-- The same for everything that a filesystem hands out. Opening (read-only, all that io/fs can ask for) and inspecting change nothing. -/
structure Quiet {σ γ : Type} (content : σ → γ) (b : Below σ) : Prop where
  stat : ∀ n s, content (b.stat n s).1 = content s
  open_ : ∀ n s, content (b.open_ n s).1 = content s
  files : ∀ n s s1 f, b.open_ n s = (s1, .ok f) → QuietFile content f

/-- What a call asks of the file below: the method needed (none: every file has it) and the call. -/
def Call.meaning : Call → Option (Option Method × FCall)
  | .read k => some (none, .read k)
  | .stat => some (none, .stat)
  | .close => some (none, .close)
  | .name => none
  | .readAt k off => some (some .readAt, .readAt k off)
  | .readdir n => some (some .readdir, .readdir n)
  | .readdirnames n => some (some .readdirnames, .readdirnames n)
  | .seek o w => some (some .seek, .seek o w)
  | .sync => some (some .sync, .sync)
  | .truncate n => some (some .truncate, .truncate n)
  | .write p => some (some .write, .write p)
  | .writeAt p o => some (some .writeAt, .writeAt p o)
  | .writeString p => some (some .writeString, .writeString p)

/-! ### Lemmas -/

theorem flags_iff (flag : BitVec 64) : flag &&& writeFlags ≠ 0#64 ↔ WantsWrite flag := by
  have key : ∀ i, (flag &&& writeFlags).getLsbD i = true ↔ flag.getLsbD i = true ∧ (i = 0 ∨ i = 1 ∨ i = 10 ∨ i = 6 ∨ i = 9) := by
    intro i
    rw [BitVec.getLsbD_and, Bool.and_eq_true]
    constructor
    · rintro ⟨h1, h2⟩
      refine ⟨h1, ?_⟩
      by_cases hi : i < 64
      · have : ∀ i : Fin 64, writeFlags.getLsbD i.1 = true → (i.1 = 0 ∨ i.1 = 1 ∨ i.1 = 10 ∨ i.1 = 6 ∨ i.1 = 9) := by decide
        exact this ⟨i, hi⟩ h2
      · rw [BitVec.getLsbD_of_ge _ _ (by omega)] at h2; cases h2
    · rintro ⟨h1, h | h | h | h | h⟩ <;> exact ⟨h1, by rw [h]; decide⟩
  constructor
  · intro h
    apply Classical.byContradiction
    intro hn
    apply h
    apply BitVec.eq_of_getLsbD_eq
    intro i _
    cases hx : (flag &&& writeFlags).getLsbD i with
    | false => simp
    | true =>
      obtain ⟨h1, h2⟩ := (key i).1 hx
      exfalso
      apply hn
      unfold WantsWrite
      rcases h2 with rfl | rfl | rfl | rfl | rfl <;> simp [h1]
  · intro h h0
    have : ∀ i, flag.getLsbD i = true → (i = 0 ∨ i = 1 ∨ i = 10 ∨ i = 6 ∨ i = 9) → False := by
      intro i h1 h2
      have := (key i).2 ⟨h1, h2⟩
      rw [h0] at this
      simp at this
    rcases h with h | h | h | h | h
    · exact this 0 h (by decide)
    · exact this 1 h (by decide)
    · exact this 10 h (by decide)
    · exact this 6 h (by decide)
    · exact this 9 h (by decide)

theorem via_quiet {σ γ : Type} {content : σ → γ} {f : File σ} (h : QuietFile content f) (m : Method) (c : FCall) (hc : c.mutates = false) (s : σ) :
    content (via f m c s).1 = content s := by
  unfold via
  split
  · exact h c s hc
  · rfl

theorem call_quiet {σ γ : Type} {content : σ → γ} {f : FsFile σ} (h : QuietFile content f.file) (hr : f.readonly = true) (c : Call) (s : σ) :
    content (f.call c s).1 = content s := by
  cases c <;> simp only [FsFile.call, hr, if_true]
  case read k => exact h _ s rfl
  case stat => exact h _ s rfl
  case close => exact h _ s rfl
  case readAt => exact via_quiet h _ _ rfl s
  case readdir => exact via_quiet h _ _ rfl s
  case seek => exact via_quiet h _ _ rfl s
  case sync => exact via_quiet h _ _ rfl s
  case readdirnames n =>
    unfold IoFs.readdirnames
    split
    · exact h _ s rfl
    · have := via_quiet h .readdir (.readdir n) rfl s
      split <;> (rename_i hx; rw [hx] at this; exact this)

theorem fsCall_open {σ : Type} {utf8 : Str → Bool} {b : Below σ} {c : FsCall} {s s1 : σ} {f : FsFile σ} (h : fsCall utf8 b c s = (s1, .file f)) :
    ∃ n, c.path = some n ∧ openCall utf8 b n s = (s1, .file f) := by
  cases c <;> simp only [fsCall] at h
  case open_ n => exact ⟨n, rfl, h⟩
  case openFile n fl p =>
    split at h
    · cases h
    · exact ⟨n, rfl, h⟩
  case stat n => split at h <;> cases h
  all_goals cases h

theorem openCall_file {σ : Type} {utf8 : Str → Bool} {b : Below σ} {n : Str} {s s1 : σ} {f : FsFile σ} (h : openCall utf8 b n s = (s1, .file f)) :
    b.open_ n s = (s1, .ok f.file) ∧ f.path = n ∧ f.readonly = true ∧ Vroot.validPath utf8 n = true := by
  unfold openCall at h
  cases hv : Vroot.validPath utf8 n with
  | false => rw [hv] at h; cases h
  | true =>
    rw [hv] at h
    simp only [Bool.not_true, Bool.false_eq_true, if_false] at h
    split at h
    · cases h
    · rename_i hx; cases h; exact ⟨hx, rfl, rfl, rfl⟩

theorem fsCall_quiet {σ γ : Type} {content : σ → γ} {utf8 : Str → Bool} {b : Below σ} (h : Quiet content b) (c : FsCall) (s : σ) :
    content (fsCall utf8 b c s).1 = content s := by
  have ho : ∀ n, content (openCall utf8 b n s).1 = content s := by
    intro n
    have := h.open_ n s
    unfold openCall
    split
    · rfl
    · split <;> (rename_i hx; rw [hx] at this; exact this)
  cases c <;> simp only [fsCall]
  case open_ n => exact ho n
  case openFile n f p => split; · rfl
                         · exact ho n
  case stat n =>
    have := h.stat n s
    split <;> (rename_i hx; rw [hx] at this; exact this)

/-! ### Theorems -/

/-- **C99**. Whatever a program does with an io/fs filesystem through the adapter and the files it hands out, what is below is not changed: for everything that
reading leaves as it is, however the files below would take a write. -/
theorem C99_readonly {σ γ : Type} (content : σ → γ) (utf8 : Str → Bool) (b : Below σ) (h : Quiet content b) (steps : List Step) (s : σ) :
    content (run utf8 b steps (s, [])).1 = content s := by
  have gen : ∀ (steps : List Step) (s : σ) (fs : List (FsFile σ)), (∀ f ∈ fs, QuietFile content f.file ∧ f.readonly = true) →
      content (run utf8 b steps (s, fs)).1 = content s := by
    intro steps
    induction steps with
    | nil => intro s fs _; rfl
    | cons st steps ih =>
      intro s fs hfs
      cases st with
      | fs c =>
        have hq := fsCall_quiet (utf8 := utf8) h c s
        rw [run]
        cases hx : fsCall utf8 b c s with
        | mk s1 r =>
          rw [hx] at hq
          cases r with
          | file f =>
            obtain ⟨n, _, ho⟩ := fsCall_open hx
            obtain ⟨h1, _, h3, _⟩ := openCall_file ho
            simp only
            rw [ih s1 (fs ++ [f])]
            · exact hq
            · intro g hg
              rw [List.mem_append, List.mem_singleton] at hg
              rcases hg with hg | rfl
              · exact hfs g hg
              · exact ⟨h.files n s s1 _ h1, h3⟩
          | _ => simp only; rw [ih s1 fs hfs]; exact hq
      | file i c =>
        rw [run]
        cases hi : fs[i]? with
        | none => simp only; exact ih s fs hfs
        | some f =>
          simp only
          obtain ⟨h1, h2⟩ := hfs f (List.mem_of_getElem? hi)
          rw [ih _ fs hfs]
          exact call_quiet h1 h2 c s
  exact gen steps s [] (by simp)

/-- **C99** (refusals). Every call on the filesystem that could change it is refused with EROFS for the name given, without asking the filesystem below. -/
theorem C99_refused {σ : Type} (utf8 : Str → Bool) (b : Below σ) (c : FsCall) (h : c.Mutates) (s : σ) :
    ∃ op p, c.path = some p ∧ fsCall utf8 b c s = (s, .erofs op p) := by
  cases h with
  | openFile n f p hw => exact ⟨_, _, rfl, by simp only [fsCall]; rw [if_pos ((flags_iff f).2 hw)]⟩
  | _ => exact ⟨_, _, rfl, rfl⟩

/-- **C99** (opening). Opening for reading hands out a file exactly when the name is valid and the filesystem below opens that name; invalid names do not reach it.
The file knows its name and is read-only. -/
theorem C99_open {σ : Type} (utf8 : Str → Bool) (hu : ∀ x, utf8 x = true ↔ Fsutil.ValidUTF8 x) (b : Below σ) (c : FsCall) (n : Str)
    (hc : c = .open_ n ∨ ∃ fl p, c = .openFile n fl p ∧ ¬ WantsWrite fl) (s : σ) :
    (¬ Vroot.IsValidPath n → fsCall utf8 b c s = (s, .invalid n)) ∧
    (Vroot.IsValidPath n → (∀ s1 k, b.open_ n s = (s1, .error k) → fsCall utf8 b c s = (s1, .failed k)) ∧
      (∀ s1 f, b.open_ n s = (s1, .ok f) → fsCall utf8 b c s = (s1, .file ⟨f, n, true⟩))) := by
  have he : fsCall utf8 b c s = openCall utf8 b n s := by
    rcases hc with rfl | ⟨fl, p, rfl, hw⟩
    · rfl
    · simp only [fsCall]
      rw [if_neg (fun h => hw ((flags_iff fl).1 h))]
  have hv := Vroot.validPath_iff_spec hu n
  rw [he]
  unfold openCall
  constructor
  · intro hn
    have : Vroot.validPath utf8 n = false := by
      cases hx : Vroot.validPath utf8 n with
      | false => rfl
      | true => exact absurd (hv.1 hx) hn
    rw [this]; rfl
  · intro hn
    rw [hv.2 hn]
    simp only [Bool.not_true, Bool.false_eq_true, if_false]
    exact ⟨fun s1 k h => by rw [h], fun s1 f h => by rw [h]⟩

/-- **C99** (files). A file handed out refuses the calls that could change it with EROFS, in any state and without asking the file below, and answers its name;
every other call is the same call of the file below, if that has it, and refused as not supported if it has not. (Readdirnames is left out here.) -/
theorem C99_file_partial {σ : Type} (f : FsFile σ) (hr : f.readonly = true) (c : Call) (hc : ∀ n, c ≠ .readdirnames n) (s : σ) :
    (c.mutates = true → ∃ op, f.call c s = (s, .erofs op f.path)) ∧
    (c.mutates = false → match c.meaning with
      | none => f.call c s = (s, .path f.path)
      | some (none, d) => f.call c s = f.file.call d s
      | some (some m, d) => f.call c s = if f.file.has m = true then f.file.call d s else (s, .notSupported)) := by
  cases c <;> simp only [Call.mutates, FsFile.call, hr, if_true, Call.meaning, via]
  case readdirnames n => exact absurd rfl (hc n)
  all_goals first
    | exact ⟨fun _ => ⟨_, rfl⟩, fun h => (by cases h)⟩
    | exact ⟨fun h => (by cases h), fun _ => trivial⟩
    | exact ⟨fun h => (by cases h), fun _ => rfl⟩

/-- **C99** (names of entries). Readdirnames answers what the file below answers; if that has only Readdir, the names that Readdir lists. -/
theorem C99_readdirnames {σ : Type} (f : FsFile σ) (n : Int) (s : σ) :
    (f.file.has .readdirnames = true → f.call (.readdirnames n) s = f.file.call (.readdirnames n) s) ∧
    (f.file.has .readdirnames = false → f.file.has .readdir = true → ∀ s1 l, f.file.call (.readdir n) s = (s1, .infos l none) →
      f.call (.readdirnames n) s = (s1, .names l none)) ∧
    (f.file.has .readdirnames = false → f.file.has .readdir = false → f.call (.readdirnames n) s = (s, .notSupported)) := by
  refine ⟨fun h => ?_, fun h1 h2 s1 l h => ?_, fun h1 h2 => ?_⟩
  · simp only [FsFile.call, IoFs.readdirnames, h, if_true]
  · simp only [FsFile.call, IoFs.readdirnames, h1, via, h2, if_true, h, Bool.false_eq_true, if_false]
  · simp only [FsFile.call, IoFs.readdirnames, h1, via, h2, Bool.false_eq_true, if_false]

/-- A directory as the filesystems of io/fs have them: it has `ReadDir` and nothing else. -/
def plainDir : File Nat where
  has m := decide (m = .readDir)
  call c s := match c with
    | .readDir _ => (s, .infos ["a".toList] none)
    | .read _ => (s, .failed 21)
    | .stat => (s, .info 1)
    | .close => (s + 1, .done)
    | _ => (s, .failed 0)

/-- **C99** fails for listing: a directory of io/fs that can be listed (`ReadDir`) cannot be listed through the adapter. -/
theorem C99_counterexample_listing : plainDir.call (.readDir (-1)) 0 = (0, .infos ["a".toList] none) ∧
    (FsFile.mk plainDir "d".toList true).call (.readdir (-1)) 0 = (0, .notSupported) ∧
    (FsFile.mk plainDir "d".toList true).call (.readdirnames (-1)) 0 = (0, .notSupported) := ⟨rfl, rfl, rfl⟩

/-- **C99** (the other way: an afero filesystem as one of io/fs). Open hands on valid names only, and gives what the filesystem below gives. -/
theorem C99_io_open {σ α : Type} (utf8 : Str → Bool) (hu : ∀ x, utf8 x = true ↔ Fsutil.ValidUTF8 x) (below : Str → σ → σ × Except Nat α) (n : Str) (s : σ) :
    (¬ Vroot.IsValidPath n → ioOpen utf8 below n s = (s, .error none)) ∧
    (Vroot.IsValidPath n → (∀ s1 k, below n s = (s1, .error k) → ioOpen utf8 below n s = (s1, .error (some k))) ∧
      (∀ s1 f, below n s = (s1, .ok f) → ioOpen utf8 below n s = (s1, .ok f))) := by
  have hv := Vroot.validPath_iff_spec hu n
  unfold ioOpen
  constructor
  · intro hn
    have : Vroot.validPath utf8 n = false := by
      cases hx : Vroot.validPath utf8 n with
      | false => rfl
      | true => exact absurd (hv.1 hx) hn
    rw [this]; rfl
  · intro hn
    rw [hv.2 hn]
    simp only [Bool.not_true, Bool.false_eq_true, if_false]
    exact ⟨fun s1 k h => by rw [h], fun s1 f h => by rw [h]⟩

/-- **C99** fails for listings that fail in the middle: `ReadDir` has to give the entries read so far, with the error; here they are dropped. -/
theorem C99_counterexample_dropped : ioReadDir (["a".toList], some 5) = ([], some 5) := rfl

/-- Without an error the listing is handed on as it is. -/
theorem C99_io_readDir_partial (l : List Str) : ioReadDir (l, none) = (l, none) := rfl

/-! ### Non-vacuity -/

/-- A filesystem with one file that would take a write: the state counts the opens and holds the content. -/
def exBelow : Below (Nat × Bytes) where
  open_ n s := if n = "f".toList then ((s.1 + 1, s.2), .ok {
    has := fun _ => true
    call := fun c s => match c with
      | .write p => ((s.1, s.2 ++ p), .count p.length)
      | .truncate _ => ((s.1, []), .done)
      | .writeString p => ((s.1, s.2 ++ p), .count p.length)
      | .writeAt p _ => ((s.1, p), .count p.length)
      | .read k => (s, .bytes (s.2.take k))
      | _ => (s, .done) }) else (s, .error 2)
  stat _ s := (s, .ok 0)

theorem exBelow_quiet : Quiet (fun s : Nat × Bytes => s.2) exBelow where
  stat := fun _ _ => rfl
  open_ := fun n s => by unfold exBelow; dsimp only; split <;> rfl
  files := fun n s s1 f h => by
    unfold exBelow at h
    dsimp only at h
    split at h
    · cases h
      intro c s hc
      cases c <;> first | rfl | cases hc
    · cases h

example : (run (fun _ => true) exBelow [.fs (.open_ "f".toList), .file 0 (.write [1]), .file 0 (.truncate 0), .fs (.remove "f".toList), .file 0 (.writeString [2])]
    ((0, [7, 8]), [])).1 = (1, [7, 8]) := by decide
example : (fsCall (fun _ => true) exBelow (.openFile "f".toList 0x400#64 0) (0, [7])).1 = (0, [7]) := by decide
example : FsCall.Mutates (.openFile "f".toList 0x400#64 0) := .openFile _ _ _ (by unfold WantsWrite; decide)
example : Vroot.IsValidPath "f".toList ∧ ¬ WantsWrite 0#64 := ⟨⟨Fsutil.valid_ascii (by decide), Or.inr (by decide)⟩, by unfold WantsWrite; decide⟩

end Verif.Afero.IoFs
