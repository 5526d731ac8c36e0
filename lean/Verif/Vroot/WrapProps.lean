import Verif.Vroot.WrapModel
import Verif.Fsutil.Utf8
/-
Properties C38 and C44.
-/
namespace Verif.Vroot
open Verif.Path

/-! ## Specification -/

/-- The calls on a filesystem that may change it. -/
def FsCall.mutating : FsCall → Prop
  | .chmod _ _ | .chown _ _ _ | .chtimes _ _ _ | .create _ | .lchown _ _ _ | .link _ _ | .mkdir _ _ | .mkdirAll _ _ => True
  | .remove _ | .removeAll _ | .rename _ _ | .symlink _ _ => True
  | .openFile _ flag _ => access flag ≠ .rdonly ∨ asksChange flag = true
  | _ => False

/-- The calls on a file that may change it (`sync` makes changes durable). -/
def FileCall.mutating : FileCall → Prop
  | .chmod _ | .chown _ _ | .sync | .truncate _ | .write _ | .writeAt _ _ | .writeString _ => True
  | _ => False

/-- The other calls leave the contents alone (they may move cursors, open and close). -/
structure ReadsAreReads {σ V κ : Type} (w : Inner σ V) (content : σ → κ) : Prop where
  fs : ∀ id c s, ¬ c.mutating → content (w.fs id c s).1 = content s
  file : ∀ id c s, ¬ c.mutating → content (w.file id c s).1 = content s

def Call.mutating : Call → Prop
  | .fs c => c.mutating
  | .file c => c.mutating

/-! ## C38 -/

theorem roFs_content {σ V κ : Type} {w : Inner σ V} {content : σ → κ} (h : ReadsAreReads w content) (id : Nat) (c : FsCall) (s : σ) :
    content (roFs w id c s).1 = content s := by
  cases c with
  | openFile name flag perm =>
    unfold roFs
    by_cases hw : writeOp flag = true
    · simp [hw]
    · simp only [hw]
      apply h.fs
      intro hm
      exact hw ((C39_writeOp flag).2 hm)
  | _ => first | rfl | exact h.fs _ _ _ (fun h => h)

theorem roFile_content {σ V κ : Type} {w : Inner σ V} {content : σ → κ} (h : ReadsAreReads w content) (id : Nat) (c : FileCall) (s : σ) :
    content (roFile w id c s).1 = content s := by
  cases c <;> exact h.file _ _ _ (fun h => h)

theorem clientStep_content {σ V κ : Type} {w : Inner σ V} {content : σ → κ} (h : ReadsAreReads w content) (st : Client σ) (o : Obj) (c : Call) :
    content (clientStep w st o c).1.inner = content st.inner := by
  unfold clientStep
  split
  · split
    · exact roFs_content h _ _ _
    · exact roFile_content h _ _ _
    · rfl
  · rfl

/-- **C38, nothing changes.** For every wrapped filesystem whose reading calls only read: no history of calls on the read-only filesystem, on the sub-roots and
on the files obtained from it, with whatever flags, changes the contents. -/
theorem C38_never_changes {σ V κ : Type} (w : Inner σ V) (content : σ → κ) (h : ReadsAreReads w content) (s : σ) (root : Nat) (ops : List (Obj × Call)) :
    content (clientRun w { inner := s, held := [.root root] } ops).inner = content s := by
  have key : ∀ (ops : List (Obj × Call)) (st : Client σ), content (clientRun w st ops).inner = content st.inner := by
    intro ops
    induction ops with
    | nil => intro st; rfl
    | cons x rest ih =>
      intro st
      rcases x with ⟨o, c⟩
      show content (clientRun w (clientStep w st o c).1 rest).inner = _
      rw [ih, clientStep_content h]
  exact key ops _

/-- **C38, writes are refused.** Every mutating call on anything the client holds is answered with EROFS or EPERM, whatever the wrapped filesystem. -/
theorem C38_mutating_refused {σ V : Type} (w : Inner σ V) (st : Client σ) (o : Obj) (c : Call) (hm : c.mutating) (r : Ret V)
    (hr : (clientStep w st o c).2 = some r) : r = .err .rofs ∨ r = .err .perm := by
  unfold clientStep at hr
  split at hr
  · split at hr
    · rename_i id fc _
      left
      cases fc with
      | openFile name flag perm =>
        have : writeOp flag = true := (C39_writeOp flag).2 hm
        simp [roFs, this] at hr
        exact hr.symm
      | _ => first | exact hm.elim | (cases hr; rfl)
    · rename_i id fc _
      right
      cases fc <;> first | exact hm.elim | (cases hr; rfl)
    · cases hr
  · cases hr

/-- **C38, reads pass through.** Every other call gives exactly what the wrapped filesystem gives. -/
theorem C38_reads_transparent {σ V : Type} (w : Inner σ V) (id : Nat) (s : σ) :
    (∀ c : FsCall, ¬ c.mutating → roFs w id c s = w.fs id c s) ∧ (∀ c : FileCall, ¬ c.mutating → roFile w id c s = w.file id c s) := by
  constructor
  · intro c hm
    cases c with
    | openFile name flag perm =>
      have : writeOp flag = false := by
        cases hw : writeOp flag with
        | false => rfl
        | true => exact absurd ((C39_writeOp flag).1 hw) hm
      simp [roFs, this]
    | _ => first | rfl | exact absurd trivial hm
  · intro c hm
    cases c <;> first | rfl | exact absurd trivial hm

/-- A toy filesystem of one file holding a number of bytes: writing and creating change it. -/
def toy : Inner Nat Nat where
  fs := fun _ c s => match c with
    | .create _ => (0, .file 0)
    | .remove _ => (0, .ok)
    | .removeAll _ => (0, .ok)
    | .openFile _ flag _ => (if writeOp flag then 0 else s, .file 0)
    | .open_ _ => (s, .file 0)
    | .openRoot _ => (s, .root 1)
    | .stat _ => (s, .value s)
    | _ => (s, .ok)
  file := fun _ c s => match c with
    | .write b => (s + b.length, .ok)
    | .truncate n => (n.toNat, .ok)
    | .stat => (s, .value s)
    | _ => (s, .ok)

example : ReadsAreReads toy (fun s => s) := by
  constructor
  · intro id c s hm
    cases c with
    | openFile name flag perm =>
      have : writeOp flag = false := by
        cases hw : writeOp flag with
        | false => rfl
        | true => exact absurd ((C39_writeOp flag).1 hw) hm
      simp [toy, this]
    | _ => first | rfl | exact absurd trivial hm
  · intro id c s hm
    cases c <;> first | rfl | exact absurd trivial hm

/-- Opening a sub-root and a file, writing through it: refused, the file keeps its 5 bytes.  Directly, it would have 8. -/
example : (clientRun toy { inner := 5, held := [.root 0] } [(.root 0, .fs (.openRoot ['d'])), (.root 1, .fs (.open_ ['f'])), (.file 0, .file (.write [1, 2, 3])),
    (.root 1, .fs (.openFile ['f'] 0x242#64 0)), (.root 0, .fs (.remove ['f']))]).inner = 5 ∧ (toy.file 0 (.write [1, 2, 3]) 5).1 = 8 := by decide

/-! ## C44 -/

/-- What io/fs documents as a valid path: valid UTF-8, and "." or slash-separated elements none of which is empty, "." or "..". -/
def IsValidPath (name : Str) : Prop := Fsutil.ValidUTF8 name ∧ (name = dot ∨ ∀ e ∈ split name, e ≠ [] ∧ e ≠ dot ∧ e ≠ dotdot)

theorem split_cons_slash (s : Str) : split (slash :: s) = [] :: split s := by simp [split]

theorem validLoop_eq (s : Str) : ∀ elem, slash ∉ elem → validLoop elem s = (split (elem ++ s)).all (fun e => decide (e ≠ [] ∧ e ≠ dot ∧ e ≠ dotdot)) := by
  induction s with
  | nil =>
    intro elem he
    rw [List.append_nil, split_of_no_slash he]
    simp [validLoop]
  | cons c rest ih =>
    intro elem he
    simp only [validLoop]
    split
    · rename_i hc
      subst hc
      rw [split_append_slash he, ih [] (by simp)]
      simp
    · rename_i hc
      rw [ih (elem ++ [c]) (by
        intro h
        rcases List.mem_append.1 h with h | h
        · exact he h
        · simp at h; exact hc h.symm)]
      simp

theorem validPath_iff_spec {utf8 : Str → Bool} (hu : ∀ s, utf8 s = true ↔ Fsutil.ValidUTF8 s) (name : Str) :
    validPath utf8 name = true ↔ IsValidPath name := by
  unfold validPath IsValidPath
  rw [Bool.and_eq_true, hu, Bool.or_eq_true, decide_eq_true_eq, validLoop_eq name [] (by simp), List.nil_append, List.all_eq_true]
  simp only [decide_eq_true_eq]

/-- **C44, names.** The check accepts exactly the names that io/fs declares valid and that hold no NUL character. -/
theorem C44_valid_exact (utf8 : Str → Bool) (hu : ∀ s, utf8 s = true ↔ Fsutil.ValidUTF8 s) (name : Str) :
    validFsPath utf8 name = true ↔ IsValidPath name ∧ Char.ofNat 0 ∉ name := by
  unfold validFsPath
  rw [Bool.and_eq_true, validPath_iff_spec hu]
  simp

/-- The name of a call. -/
def IoCall.named : IoCall → Option Str
  | .close => none
  | .open_ n | .readDir n | .readFile n | .readLink n | .lstat n | .stat n | .sub n => some n

/-- **C44, refusal.** A call with a name that is not accepted is answered with "invalid" and does not reach the wrapped filesystem. -/
theorem C44_refused {σ V : Type} (utf8 : Str → Bool) (fuel : Nat) (w : Inner σ V) (root : Nat) (c : IoCall) (s : σ) (n : Str) (hn : c.named = some n)
    (hv : validFsPath utf8 n = false) : ioFs utf8 fuel w root c s = (s, .err .inval) := by
  cases c <;> simp [IoCall.named] at hn <;> subst hn <;> simp [ioFs, hv]

/-- **C44, names pass unchanged.** The wrapped filesystem with every call recorded: accepted names reach it as they are, and no others do. -/
def recording {σ V : Type} (w : Inner σ V) : Inner (σ × List FsCall) V where
  fs := fun id c s => let r := w.fs id c s.1; ((r.1, s.2 ++ [c]), r.2)
  file := fun id c s => let r := w.file id c s.1; ((r.1, s.2), r.2)

/-- The call of the wrapped filesystem a call stands for. -/
def IoCall.forwarded : IoCall → FsCall
  | .close => .close
  | .open_ n | .readDir n | .readFile n => .open_ n
  | .readLink n => .readLink n
  | .lstat n => .lstat n
  | .stat n => .stat n
  | .sub n => .openRoot n

theorem readAll_log {σ V : Type} (w : Inner σ V) (id : Nat) : ∀ fuel (s : σ × List FsCall), (readAll (recording w) id fuel s).1.2 = s.2 := by
  intro fuel
  induction fuel with
  | zero => intro s; rfl
  | succ f ih =>
    intro s
    unfold readAll
    split
    · rename_i s' e h
      have := congrArg (fun x => x.1.2) h
      simpa [recording] using this.symm
    · rename_i s' x hx h
      rw [ih]
      have := congrArg (fun x => x.1.2) h
      simpa [recording] using this.symm

theorem openThen_log {σ V : Type} (w : Inner σ V) (root : Nat) (n : Str) (body : Nat → σ × List FsCall → (σ × List FsCall) × Ret V)
    (hb : ∀ id s, (body id s).1.2 = s.2) (s : σ × List FsCall) : (openThen (recording w) root n body s).1.2 = s.2 ++ [.open_ n] := by
  unfold openThen
  split
  · rename_i s1 id h
    have h1 := congrArg (fun x => x.1.2) h
    simp only [recording] at h1
    show (body id s1).1.2 = _
    rw [hb]; exact h1.symm
  · rename_i s1 r hx h
    have h1 := congrArg (fun x => x.1.2) h
    simp only [recording] at h1
    exact h1.symm

theorem C44_forwarded {σ V : Type} (utf8 : Str → Bool) (fuel : Nat) (w : Inner σ V) (root : Nat) (c : IoCall) (s : σ × List FsCall)
    (hv : ∀ n, c.named = some n → validFsPath utf8 n = true) :
    (ioFs utf8 fuel (recording w) root c s).1.2 = s.2 ++ [c.forwarded] := by
  cases c with
  | close => rfl
  | open_ n =>
    have := hv n rfl
    unfold ioFs
    simp only [this, Bool.true_eq_false, if_false]
    split
    · rename_i s1 id h
      have h1 := congrArg (fun x => x.1.2) h
      simp only [recording] at h1
      exact h1.symm
    · rename_i s1 r hx h
      have h1 := congrArg (fun x => x.1.2) h
      simp only [recording] at h1
      exact h1.symm
  | readDir n =>
    unfold ioFs
    simp only [hv n rfl, Bool.true_eq_false, if_false]
    exact openThen_log w root n _ (fun _ _ => rfl) s
  | readFile n =>
    unfold ioFs
    simp only [hv n rfl, Bool.true_eq_false, if_false]
    exact openThen_log w root n _ (fun id s => readAll_log w id fuel s) s
  | readLink n => unfold ioFs; simp only [hv n rfl, Bool.true_eq_false, if_false]; rfl
  | lstat n => unfold ioFs; simp only [hv n rfl, Bool.true_eq_false, if_false]; rfl
  | stat n => unfold ioFs; simp only [hv n rfl, Bool.true_eq_false, if_false]; rfl
  | sub n => unfold ioFs; simp only [hv n rfl, Bool.true_eq_false, if_false]; rfl

theorem readAll_content {σ V κ : Type} {w : Inner σ V} {content : σ → κ} (h : ReadsAreReads w content) (id : Nat) : ∀ fuel s,
    content (readAll w id fuel s).1 = content s := by
  intro fuel
  induction fuel with
  | zero => intro s; rfl
  | succ f ih =>
    intro s
    have hr := h.file id (.read 512) s (fun h => h)
    unfold readAll
    split
    · rename_i s' e heq; rw [heq] at hr; exact hr
    · rename_i s' x hx heq; rw [heq] at hr; rw [ih]; exact hr

theorem openThen_content {σ V κ : Type} {w : Inner σ V} {content : σ → κ} (h : ReadsAreReads w content) (root : Nat) (n : Str) (body : Nat → σ → σ × Ret V)
    (hb : ∀ id s, content (body id s).1 = content s) (s : σ) : content (openThen w root n body s).1 = content s := by
  have hr := h.fs root (.open_ n) s (fun h => h)
  unfold openThen
  split
  · rename_i s1 id heq
    rw [heq] at hr
    show content (w.file id .close (body id s1).1).1 = _
    rw [h.file id .close _ (fun h => h), hb]; exact hr
  · rename_i s1 r hx heq; rw [heq] at hr; exact hr

theorem lstatAll_content {σ V κ : Type} {w : Inner σ V} {content : σ → κ} (h : ReadsAreReads w content) (root : Nat) : ∀ ns s,
    content (lstatAll w root ns s) = content s := by
  intro ns
  induction ns with
  | nil => intro s; rfl
  | cons n rest ih => intro s; show content (lstatAll w root rest _) = _; rw [ih, h.fs root (.lstat n) s (fun h => h)]

/-- **C44, no way to write.** No history of calls on the io/fs view, its sub-filesystems and files changes the contents. -/
theorem C44_never_changes {σ V κ : Type} (utf8 : Str → Bool) (fuel : Nat) (children : Ret V → List Str) (w : Inner σ V) (content : σ → κ)
    (h : ReadsAreReads w content) (ops : List IoOp) (s : σ) :
    content (ops.foldl (fun s op => (ioStep utf8 fuel children w s op).1) s) = content s := by
  have step : ∀ op s, content (ioStep utf8 fuel children w s op).1 = content s := by
    intro op s
    cases op with
    | fs root c =>
      show content (ioFs utf8 fuel w root c s).1 = _
      cases c with
      | close => exact h.fs _ _ _ (fun h => h)
      | open_ n =>
        unfold ioFs
        simp only
        split
        · rfl
        · have hr := h.fs root (.open_ n) s (fun h => h)
          split
          · rename_i s1 id heq
            rw [heq] at hr
            exact (h.file id (.readAt 1 0) s1 (fun h => h)).trans hr
          · rename_i s1 r hx heq; rw [heq] at hr; exact hr
      | readDir n =>
        unfold ioFs; simp only; split
        · rfl
        · exact openThen_content h root n _ (fun id s => h.file id (.readDir (-1)) s (fun h => h)) s
      | readFile n =>
        unfold ioFs; simp only; split
        · rfl
        · exact openThen_content h root n _ (fun id s => readAll_content h id fuel s) s
      | readLink n => unfold ioFs; simp only; split; rfl; exact h.fs _ _ _ (fun h => h)
      | lstat n => unfold ioFs; simp only; split; rfl; exact h.fs _ _ _ (fun h => h)
      | stat n => unfold ioFs; simp only; split; rfl; exact h.fs _ _ _ (fun h => h)
      | sub n => unfold ioFs; simp only; split; rfl; exact h.fs _ _ _ (fun h => h)
    | file root id c =>
      show content (ioFile children w root id c s).1 = _
      cases c with
      | readDir n =>
        show content (lstatAll w root _ _) = _
        rw [lstatAll_content h]; exact h.file _ _ _ (fun h => h)
      | _ => exact h.file _ _ _ (fun h => h)
  induction ops generalizing s with
  | nil => rfl
  | cons op rest ih => rw [List.foldl_cons, ih, step]

/-- The call on a file of the filesystem below that a call of io/fs is named after. -/
def IoFileCall.same : IoFileCall → FileCall
  | .close => .close
  | .name => .name
  | .read n => .read n
  | .readDir n => .readDir n
  | .readdir n => .readdir n
  | .readdirnames n => .readdirnames n
  | .stat => .stat
  | .seek off whence => .seek off whence
  | .readAt n off => .readAt n off

/-- A history of calls: the answers and what they lead to. -/
def answers {σ C R : Type} (f : C → σ → σ × R) : List C → σ → List R × σ
  | [], s => ([], s)
  | c :: cs, s => ((f c s).2 :: (answers f cs (f c s).1).1, (answers f cs (f c s).1).2)

/-- **C44, the same answers.** On a filesystem whose state Lstat does not change, every history of calls on a file of the io/fs view is answered as the same calls on the file itself are, and leads to the same. -/
theorem C44_file_answers {σ V : Type} (children : Ret V → List Str) (w : Inner σ V) (hl : ∀ root n s, (w.fs root (.lstat n) s).1 = s) (root id : Nat) (cs : List IoFileCall) (s : σ) :
    answers (ioFile children w root id) cs s = answers (fun c => w.file id c) (cs.map IoFileCall.same) s := by
  have hall : ∀ ns s, lstatAll w root ns s = s := by
    intro ns
    induction ns with
    | nil => intro s; rfl
    | cons n rest ih => intro s; rw [lstatAll, hl]; exact ih s
  have one : ∀ c s, ioFile children w root id c s = w.file id c.same s := by
    intro c s
    cases c with
    | readDir n => simp only [ioFile, hall, IoFileCall.same]
    | _ => rfl
  induction cs generalizing s with
  | nil => rfl
  | cons c cs ih => simp only [answers, List.map_cons, one, ih]

/-- A filesystem of one file that counts what was read of it: two reads give what is left at the time. -/
example : (∀ root n s, ((⟨fun _ _ s => (s, .ok), fun _ c s => match c with | .read n => (s - n, .value (min n s)) | _ => (s, .ok)⟩ : Inner Nat Nat).fs root (.lstat n) s).1 = s) ∧
    (answers (ioFile (fun _ => []) (⟨fun _ _ s => (s, .ok), fun _ c s => match c with | .read n => (s - n, .value (min n s)) | _ => (s, .ok)⟩ : Inner Nat Nat) 0 0) [.read 3, .stat, .read 3] 5).1 =
      [.value 3, .ok, .value 2] := ⟨fun _ _ _ => rfl, by decide⟩

/-- Names: "a/b" and "." are accepted; "/a", "a/../b", "a//b", "" and names with NUL are not. -/
example : validFsPath (fun _ => true) ['a', '/', 'b'] = true ∧ validFsPath (fun _ => true) ['.'] = true ∧ validFsPath (fun _ => true) ['/', 'a'] = false ∧
    validFsPath (fun _ => true) ['a', '/', '.', '.', '/', 'b'] = false ∧ validFsPath (fun _ => true) ['a', '/', '/', 'b'] = false ∧
    validFsPath (fun _ => true) [] = false ∧ validFsPath (fun _ => true) ['a', Char.ofNat 0] = false := by decide

end Verif.Vroot
