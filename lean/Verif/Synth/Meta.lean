import Verif.Common.Bytes
import Verif.Common.Path
/-!
C124: what synthfs shows of an entry: name, size, mode and time. Code: /repo/vroot/synthfs/node.go, stat.go, inspect.go, chmod.go, tree.go 165-189,
handle.go 140-165, handle_dir.go 49-53 and 143-172, mkdir.go 45-62, open.go 26-52, link.go, add.go 70-80, rename.go 37-46, view_mem_buf.go.

Which node a path leads to is C48 and those after it: here every call is given the node it has found, and the directory an entry is put into.
Times are integers, `none` is the zero time. Simplifications: only calls that succeed; a view is a row of bytes that is written in place or refuses
to be written; the source behind a bound view may change by itself (`outside`).
-/
namespace Verif.Synth.Meta

/-- std io/fs `FileMode` -/
abbrev Mode := BitVec 32

/-- std io/fs 152-180: `ModeDir`, `ModeSymlink`, `ModePerm`, `ModeType` and the bits chmodApply (tree.go 185-186) calls extraBits. -/
def modeDir : Mode := 0x80000000#32
def modeSymlink : Mode := 0x08000000#32
def modePerm : Mode := 0x1ff#32
def modeType : Mode := 0x8f280000#32
def extraBits : Mode := 0x70d00000#32

inductive Kind where
  | dir | file | link
deriving DecidableEq

/-- node.go 30-37 `metadata`; the view of a file is a number. -/
structure Meta where
  kind : Kind
  name : Str
  mode : Mode
  mtime : Int
  size : Nat
  owner : Int × Int
  view : Nat

/-- The nodes, and for every view its bytes and whether it can be written. -/
structure State where
  node : Nat → Option Meta
  data : Nat → Bytes
  mem : Nat → Bool
  nextNode : Nat
  nextView : Nat

/-- option.go: `Umask` and `MaskChmodMode`. -/
structure Opt where
  umask : Mode
  chmodMask : Mode → Mode

/-- option.go 53-56: the defaults. -/
def defaults : Opt := ⟨0o022#32, fun m => m &&& modePerm⟩

/-- The calls, with the time of the clock where it is asked. -/
inductive Call where
  | mkdir (parent : Nat) (now : Int) (name : Str) (perm : Mode)
  | create (parent : Nat) (now : Int) (name : Str) (perm : Mode)
  | symlink (parent : Nat) (now : Int) (name : Str)
  | link (parent : Nat) (n : Nat) (name : Str)
  | add (parent : Nat) (name : Str) (mode : Mode) (mtime : Int) (content : Bytes)
  | rename (n : Nat) (parent : Nat) (name : Str)
  | chmod (n : Nat) (mode : Mode)
  | chown (n : Nat) (uid gid : Int)
  | chtimes (n : Nat) (mtime : Option Int)
  | write (n : Nat) (now : Int) (off : Nat) (p : Bytes)
  | truncate (n : Nat) (now : Int) (size : Nat)
  | outside (view : Nat) (content : Bytes)

def setAt {α} (f : Nat → α) (i : Nat) (x : α) : Nat → α := fun j => if j = i then x else f j

/-- A new node. -/
def put (s : State) (m : Meta) : State := { s with node := setAt s.node s.nextNode (some m), nextNode := s.nextNode + 1 }

/-- A new node with a new view. -/
def putFile (s : State) (m : Meta) (content : Bytes) (mem : Bool) : State :=
  put { s with data := setAt s.data s.nextView content, mem := setAt s.mem s.nextView mem, nextView := s.nextView + 1 } { m with view := s.nextView }

/-- Change the metadata of a node. -/
def onMeta (s : State) (n : Nat) (f : Meta → Meta) : State :=
  match s.node n with
  | none => s
  | some m => { s with node := setAt s.node n (some (f m)) }

/-- Change the bytes of the view of a file, if it can be written. -/
def onData (s : State) (n : Nat) (f : Bytes → Bytes) : State :=
  match s.node n with
  | none => s
  | some m => if m.kind = .file ∧ s.mem m.view then { s with data := setAt s.data m.view (f (s.data m.view)) } else s

/-- view_mem_buf.go 67-89 `writeAt`: nothing for no bytes, zeros in a gap. -/
def writeAt (d : Bytes) (off : Nat) (p : Bytes) : Bytes :=
  if p = [] then d else d.take off ++ List.replicate (off - d.length) 0 ++ p ++ d.drop (off + p.length)

/-- view_mem_buf.go 91-103 `truncate` -/
def truncAt (d : Bytes) (size : Nat) : Bytes := d.take size ++ List.replicate (size - d.length) 0

/-- tree.go 178-189 `chmodApply` -/
def chmodApply (o : Opt) (m : Meta) (mode : Mode) : Meta :=
  { m with mode := (m.mode &&& ~~~modePerm &&& ~~~extraBits) ||| o.chmodMask mode }

/-- The calls. The time `memBuf` keeps (view_mem_buf.go 87, 101) is left out: nothing of synthfs shows it. -/
def step (o : Opt) (s : State) : Call → State
  -- mkdir.go 58-59, node.go 74-86 newDir; node.go 99-106 addEntry leaves the directory's own metadata alone
  | .mkdir _ now name perm => put s ⟨.dir, name, modeDir ||| ((perm &&& ~~~o.umask) &&& modePerm), now, 0, (0, 0), 0⟩
  -- open.go 35-47, view_mem.go 27-36
  | .create _ now name perm => putFile s ⟨.file, name, perm &&& ~~~o.umask, now, 0, (0, 0), 0⟩ [] true
  -- link.go 22-29
  | .symlink _ now name => put s ⟨.link, name, modeSymlink ||| 0o777#32, now, 0, (0, 0), 0⟩
  -- link.go 41-65
  | .link _ n name => match s.node n with
    | some m => if m.kind = .file then put s { m with name := name, size := 0 } else s
    | none => s
  -- add.go 71-80
  | .add _ name mode mtime content =>
    putFile s ⟨.file, name, mode &&& (modePerm ||| (modeType &&& ~~~modeSymlink &&& ~~~modeDir)), mtime, content.length, (0, 0), 0⟩ content false
  -- rename.go 41
  | .rename n _ name => onMeta s n (fun m => { m with name := name })
  -- chmod.go 8-17, handle.go 153-158
  | .chmod n mode => onMeta s n (fun m => chmodApply o m mode)
  -- chmod.go 19-43
  | .chown n uid gid => onMeta s n (fun m => { m with owner := (uid, gid) })
  -- chmod.go 45-56
  | .chtimes n mtime => onMeta s n (fun m => match mtime with | some t => { m with mtime := t } | none => m)
  -- handle.go 82-114, view_mem_buf.go 67-89
  | .write n _ off p => onData s n (fun d => writeAt d off p)
  -- handle.go 116-124, view_mem_buf.go 91-103
  | .truncate n _ size => onData s n (fun d => truncAt d size)
  | .outside v content => if s.mem v then s else { s with data := setAt s.data v content }

/-- Histories. -/
def run (o : Opt) (s : State) : List Call → State
  | [] => s
  | c :: cs => run o (step o s c) cs

/-- root.go 31-35 `NewRoot`: node 0 is the root. -/
def newRoot (o : Opt) (now : Int) : State :=
  put ⟨fun _ => none, fun _ => [], fun _ => false, 0, 0⟩ ⟨.dir, [], modeDir ||| ((0o777#32 &&& ~~~o.umask) &&& modePerm), now, 0, (0, 0), 0⟩

/-- stat.go 13-27: what an fs.FileInfo says. -/
structure Info where
  name : Str
  size : Nat
  mode : Mode
  mtime : Int
deriving DecidableEq

/-- node.go 39-46 `toStat` -/
def toStat (m : Meta) : Info := ⟨m.name, m.size, m.mode, m.mtime⟩

/-- inspect.go 12-32, 50-60 and handle.go 140-150, handle_dir.go 49-53: `Stat`, `Lstat` and `Stat` of handles; the size of a file is its view's. -/
def stat (s : State) (n : Nat) : Option Info :=
  (s.node n).map (fun m => if m.kind = .file then { toStat m with size := (s.data m.view).length } else toStat m)

/-- handle_dir.go 143-172: what `Readdir`, and `Info` of the entries of `ReadDir`, say of an entry. -/
def listed (s : State) (n : Nat) : Option Info := (s.node n).map toStat

/-! ### Specification -/

/-- The bytes reading the file gives (C47, C117). -/
def bytes (s : State) (n : Nat) : Option Bytes :=
  match s.node n with
  | some m => if m.kind = .file then some (s.data m.view) else none
  | none => none

/-- The kind of entry a mode shows. -/
def Shows (mode : Mode) : Kind → Prop
  | .dir => mode &&& modeType = modeDir
  | .link => mode &&& modeType = modeSymlink
  | .file => mode &&& (modeDir ||| modeSymlink) = 0#32

/-- The permission bits given to new files say nothing about a type. -/
def Call.Plain : Call → Prop
  | .create _ _ _ perm => perm &&& modeType = 0#32
  | _ => True

/-- The mask for Chmod lets no type through. -/
def Opt.Plain (o : Opt) : Prop := ∀ m, o.chmodMask m &&& modeType = 0#32

/-- The call sets the mode of the node. -/
def Call.SetsMode (n : Nat) : Call → Prop
  | .chmod k _ => k = n
  | _ => False

/-- The call sets the time of the node. -/
def Call.SetsTime (n : Nat) : Call → Prop
  | .chtimes k (some _) => k = n
  | _ => False

/-- The call gives the node a name. -/
def Call.SetsName (n : Nat) : Call → Prop
  | .rename k _ _ => k = n
  | _ => False

/-! ### Invariant -/

structure Inv (s : State) : Prop where
  fresh : ∀ n m, s.node n = some m → n < s.nextNode ∧ (m.kind = .file → m.view < s.nextView)
  zero : ∀ n m, s.node n = some m → m.kind ≠ .file → m.size = 0

theorem put_inv {s : State} (h : Inv s) (m : Meta) (hm : m.kind = .file → m.view < s.nextView) (hz : m.kind ≠ .file → m.size = 0) :
    Inv (put s m) := by
  refine ⟨fun n m' hn => ?_, fun n m' hn => ?_⟩
  · simp only [put, setAt] at *
    split at hn
    next e => injection hn with hn; subst hn; exact ⟨by omega, hm⟩
    · have := h.fresh n m' hn; exact ⟨by omega, this.2⟩
  · simp only [put, setAt] at *
    split at hn
    next e => injection hn with hn; subst hn; exact hz
    · exact h.zero n m' hn

theorem putFile_inv {s : State} (h : Inv s) (m : Meta) (b : Bytes) (w : Bool) (hk : m.kind = .file) : Inv (putFile s m b w) := by
  refine put_inv (s := { s with data := _, mem := _, nextView := s.nextView + 1 }) ⟨fun n m' hn => ?_, h.zero⟩ _ (fun _ => Nat.lt_succ_self _)
    (fun hne => absurd hk hne)
  have := h.fresh n m' hn
  exact ⟨this.1, fun e => Nat.lt_succ_of_lt (this.2 e)⟩

theorem onMeta_inv {s : State} (h : Inv s) (n : Nat) (f : Meta → Meta) (hf : ∀ m, (f m).kind = m.kind ∧ (f m).view = m.view ∧ (f m).size = m.size) :
    Inv (onMeta s n f) := by
  unfold onMeta
  cases hn : s.node n with
  | none => exact h
  | some m =>
    refine ⟨fun k m' hk => ?_, fun k m' hk => ?_⟩
    · simp only [setAt] at hk
      split at hk
      next e =>
        injection hk with hk
        subst hk
        have := h.fresh n m hn
        rw [(hf m).1, (hf m).2.1, e]
        exact this
      · exact h.fresh k m' hk
    · simp only [setAt] at hk
      split at hk
      next e =>
        injection hk with hk
        subst hk
        rw [(hf m).1, (hf m).2.2]
        exact h.zero n m hn
      · exact h.zero k m' hk

theorem onData_node (s : State) (n : Nat) (f : Bytes → Bytes) :
    (onData s n f).node = s.node ∧ (onData s n f).nextNode = s.nextNode ∧ (onData s n f).nextView = s.nextView := by
  unfold onData
  split
  · exact ⟨rfl, rfl, rfl⟩
  · split <;> exact ⟨rfl, rfl, rfl⟩

theorem onData_inv {s : State} (h : Inv s) (n : Nat) (f : Bytes → Bytes) : Inv (onData s n f) := by
  obtain ⟨a, b, c⟩ := onData_node s n f
  exact ⟨by rw [a, b, c]; exact h.fresh, by rw [a]; exact h.zero⟩

theorem step_inv (o : Opt) {s : State} (h : Inv s) (c : Call) : Inv (step o s c) := by
  cases c with
  | mkdir _ now name perm => exact put_inv h _ (fun e => by cases e) (fun _ => rfl)
  | create _ now name perm => exact putFile_inv h _ _ _ rfl
  | symlink _ now name => exact put_inv h _ (fun e => by cases e) (fun _ => rfl)
  | link _ n name =>
    simp only [step]
    cases hn : s.node n with
    | none => exact h
    | some m =>
      simp only
      split
      · exact put_inv h _ (fun e => (h.fresh n m hn).2 e) (fun _ => rfl)
      · exact h
  | add _ name mode mtime content => exact putFile_inv h _ _ _ rfl
  | rename n _ name => exact onMeta_inv h n _ (fun _ => ⟨rfl, rfl, rfl⟩)
  | chmod n mode => exact onMeta_inv h n _ (fun _ => ⟨rfl, rfl, rfl⟩)
  | chown n uid gid => exact onMeta_inv h n _ (fun _ => ⟨rfl, rfl, rfl⟩)
  | chtimes n mtime => exact onMeta_inv h n _ (fun _ => by cases mtime <;> exact ⟨rfl, rfl, rfl⟩)
  | write n now off p => simp only [step]; exact onData_inv h n _
  | truncate n now size => simp only [step]; exact onData_inv h n _
  | outside v content =>
    simp only [step]
    split
    · exact h
    · exact ⟨h.fresh, h.zero⟩

theorem newRoot_inv (o : Opt) (now : Int) : Inv (newRoot o now) :=
  put_inv ⟨(fun _ _ h => by cases h), (fun _ _ h => by cases h)⟩ _ (fun e => by cases e) (fun _ => rfl)

theorem run_inv (o : Opt) : ∀ cs {s : State}, Inv s → Inv (run o s cs)
  | [], _, h => h
  | c :: cs, _, h => run_inv o cs (step_inv o h c)

theorem run_append (o : Opt) : ∀ as bs (s : State), run o s (as ++ bs) = run o (run o s as) bs
  | [], _, _ => rfl
  | _ :: as, bs, _ => run_append o as bs _

/-! ### One step and one node -/

/-- What a step makes of the metadata of a node that is there. -/
theorem step_node (o : Opt) {s : State} (h : Inv s) {n : Nat} {m : Meta} (hn : s.node n = some m) (c : Call) :
    ∃ m', (step o s c).node n = some m' ∧ m'.kind = m.kind ∧ m'.view = m.view ∧ m'.size = m.size ∧ (¬c.SetsName n → m'.name = m.name) ∧
      (¬c.SetsMode n → m'.mode = m.mode) ∧ (¬c.SetsTime n → m'.mtime = m.mtime) ∧
      (∀ mode, c = .chmod n mode → m' = chmodApply o m mode) ∧ (∀ t, c = .chtimes n (some t) → m'.mtime = t) ∧
      (∀ p x, c = .rename n p x → m'.name = x) := by
  have hlt := (h.fresh n m hn).1
  have hput : ∀ (t : State) (x : Meta), t.node = s.node → t.nextNode = s.nextNode → (put t x).node n = some m := by
    intro t x h1 h2
    simp only [put, setAt, h1, h2]
    rw [if_neg (by omega)]
    exact hn
  have hkeep : ∀ t : State, t.node = s.node → t.node n = some m := fun t e => by rw [e]; exact hn
  have hmeta : ∀ (k : Nat) (f : Meta → Meta), (onMeta s k f).node n = some (if k = n then f m else m) := by
    intro k f
    unfold onMeta
    by_cases e : k = n
    · subst e
      simp only [hn, setAt, if_true]
    · rw [if_neg e]
      cases s.node k with
      | none => exact hn
      | some x =>
        simp only [setAt]
        rw [if_neg (fun h => e h.symm)]
        exact hn
  cases c with
  | mkdir _ now name perm =>
    exact ⟨m, hput _ _ rfl rfl, rfl, rfl, rfl, fun _ => rfl, fun _ => rfl, fun _ => rfl, (fun _ e => by cases e), (fun _ e => by cases e), fun _ _ e => by cases e⟩
  | create _ now name perm =>
    exact ⟨m, hput _ _ rfl rfl, rfl, rfl, rfl, fun _ => rfl, fun _ => rfl, fun _ => rfl, (fun _ e => by cases e), (fun _ e => by cases e), fun _ _ e => by cases e⟩
  | symlink _ now name =>
    exact ⟨m, hput _ _ rfl rfl, rfl, rfl, rfl, fun _ => rfl, fun _ => rfl, fun _ => rfl, (fun _ e => by cases e), (fun _ e => by cases e), fun _ _ e => by cases e⟩
  | link _ k name =>
    refine ⟨m, ?_, rfl, rfl, rfl, fun _ => rfl, fun _ => rfl, fun _ => rfl, (fun _ e => by cases e), (fun _ e => by cases e), fun _ _ e => by cases e⟩
    simp only [step]
    cases s.node k with
    | none => exact hn
    | some x =>
      simp only
      split
      · exact hput _ _ rfl rfl
      · exact hn
  | add _ name mode mtime content =>
    exact ⟨m, hput _ _ rfl rfl, rfl, rfl, rfl, fun _ => rfl, fun _ => rfl, fun _ => rfl, (fun _ e => by cases e), (fun _ e => by cases e), fun _ _ e => by cases e⟩
  | rename k p name =>
    refine ⟨_, hmeta k _, ?_, ?_, ?_, ?_, ?_, ?_, (fun _ e => by cases e), (fun _ e => by cases e), ?_⟩
    · split <;> rfl
    · split <;> rfl
    · split <;> rfl
    · intro hs; rw [if_neg (show ¬k = n from hs)]
    · intro _; split <;> rfl
    · intro _; split <;> rfl
    · intro p' x e; injection e with e1 e2 e3; rw [if_pos e1, ← e3]
  | chmod k mode =>
    refine ⟨_, hmeta k _, ?_, ?_, ?_, ?_, ?_, ?_, ?_, (fun _ e => by cases e), (fun _ _ e => by cases e)⟩
    · split <;> rfl
    · split <;> rfl
    · split <;> rfl
    · intro _; split <;> rfl
    · intro hs; rw [if_neg (show ¬k = n from hs)]
    · intro _; split <;> rfl
    · intro mode' e; injection e with e1 e2; rw [if_pos e1, e2]
  | chown k uid gid =>
    refine ⟨_, hmeta k _, ?_, ?_, ?_, ?_, ?_, ?_, (fun _ e => by cases e), (fun _ e => by cases e), (fun _ _ e => by cases e)⟩
    · split <;> rfl
    · split <;> rfl
    · split <;> rfl
    · intro _; split <;> rfl
    · intro _; split <;> rfl
    · intro _; split <;> rfl
  | chtimes k mtime =>
    refine ⟨_, hmeta k _, ?_, ?_, ?_, ?_, ?_, ?_, (fun _ e => by cases e), ?_, (fun _ _ e => by cases e)⟩
    · cases mtime <;> split <;> rfl
    · cases mtime <;> split <;> rfl
    · cases mtime <;> split <;> rfl
    · intro _; cases mtime <;> split <;> rfl
    · intro _; cases mtime <;> split <;> rfl
    · intro hs
      cases mtime with
      | none => split <;> rfl
      | some t => rw [if_neg (show ¬k = n from hs)]
    · intro t e; injection e with e1 e2; rw [if_pos e1, e2]
  | write k now off p =>
    exact ⟨m, hkeep _ (onData_node s k _).1, rfl, rfl, rfl, fun _ => rfl, fun _ => rfl, fun _ => rfl, (fun _ e => by cases e), (fun _ e => by cases e), fun _ _ e => by cases e⟩
  | truncate k now size =>
    exact ⟨m, hkeep _ (onData_node s k _).1, rfl, rfl, rfl, fun _ => rfl, fun _ => rfl, fun _ => rfl, (fun _ e => by cases e), (fun _ e => by cases e), fun _ _ e => by cases e⟩
  | outside v content =>
    refine ⟨m, ?_, rfl, rfl, rfl, fun _ => rfl, fun _ => rfl, fun _ => rfl, (fun _ e => by cases e), (fun _ e => by cases e), fun _ _ e => by cases e⟩
    simp only [step]
    split <;> exact hn

/-- The same for a history. -/
theorem run_node (o : Opt) : ∀ cs {s : State}, Inv s → ∀ {n : Nat} {m : Meta}, s.node n = some m →
    ∃ m', (run o s cs).node n = some m' ∧ m'.kind = m.kind ∧ m'.view = m.view ∧ m'.size = m.size ∧ ((∀ c ∈ cs, ¬c.SetsName n) → m'.name = m.name) ∧
      ((∀ c ∈ cs, ¬c.SetsMode n) → m'.mode = m.mode) ∧ ((∀ c ∈ cs, ¬c.SetsTime n) → m'.mtime = m.mtime)
  | [], _, _, _, m, hn => ⟨m, hn, rfl, rfl, rfl, fun _ => rfl, fun _ => rfl, fun _ => rfl⟩
  | c :: cs, s, h, n, m, hn => by
    obtain ⟨m1, h1, k1, v1, z1, n1, o1, t1, _⟩ := step_node o h hn c
    obtain ⟨m2, h2, k2, v2, z2, n2, o2, t2⟩ := run_node o cs (step_inv o h c) h1
    refine ⟨m2, h2, k2.trans k1, v2.trans v1, z2.trans z1, fun hh => ?_, fun hh => ?_, fun hh => ?_⟩
    · exact (n2 (fun c hc => hh c (List.mem_cons_of_mem _ hc))).trans (n1 (hh c List.mem_cons_self))
    · exact (o2 (fun c hc => hh c (List.mem_cons_of_mem _ hc))).trans (o1 (hh c List.mem_cons_self))
    · exact (t2 (fun c hc => hh c (List.mem_cons_of_mem _ hc))).trans (t1 (hh c List.mem_cons_self))

theorem stat_some {s : State} {n : Nat} {i : Info} (h : stat s n = some i) :
    ∃ m, s.node n = some m ∧ i.name = m.name ∧ i.mode = m.mode ∧ i.mtime = m.mtime := by
  unfold stat at h
  cases hn : s.node n with
  | none => rw [hn] at h; cases h
  | some m =>
    rw [hn] at h
    simp only [Option.map_some, Option.some.injEq] at h
    refine ⟨m, rfl, ?_⟩
    subst h
    split <;> exact ⟨rfl, rfl, rfl⟩

theorem stat_of {s : State} {n : Nat} {m : Meta} (h : s.node n = some m) :
    ∃ i, stat s n = some i ∧ i.name = m.name ∧ i.mode = m.mode ∧ i.mtime = m.mtime := by
  refine ⟨_, by unfold stat; rw [h]; rfl, ?_⟩
  simp only
  split <;> exact ⟨rfl, rfl, rfl⟩

/-! ### The properties -/

/-- **C124** (sizes). After every history the size `Stat`, `Lstat` and `Stat` of a handle report of a file is the number of bytes reading it gives;
directories and links report 0. -/
theorem C124_size (o : Opt) (now : Int) (cs : List Call) (n : Nat) (i : Info) (h : stat (run o (newRoot o now) cs) n = some i) :
    i.size = (match bytes (run o (newRoot o now) cs) n with | some b => b.length | none => 0) := by
  have hinv := run_inv o cs (newRoot_inv o now)
  generalize run o (newRoot o now) cs = s at h hinv
  unfold stat at h
  unfold bytes
  cases hn : s.node n with
  | none => rw [hn] at h; cases h
  | some m =>
    rw [hn] at h
    simp only [Option.map_some, Option.some.injEq] at h
    subst h
    by_cases hk : m.kind = .file
    · simp only [if_pos hk]
    · simp only [if_neg hk]
      exact hinv.zero n m hn hk

theorem chmod_type {o : Opt} (ho : o.Plain) (m : Meta) (mode : Mode) : (chmodApply o m mode).mode &&& modeType = m.mode &&& modeType := by
  simp only [chmodApply]
  rw [BitVec.and_or_distrib_right, BitVec.and_assoc, BitVec.and_assoc, ho mode, BitVec.or_zero]
  have : (~~~modePerm &&& (~~~extraBits &&& modeType)) = modeType := by decide
  rw [this]

/-- What is shown depends on the type bits only. -/
theorem shows_congr {a b : Mode} (h : a &&& modeType = b &&& modeType) {k : Kind} (hs : Shows b k) : Shows a k := by
  cases k with
  | dir => exact h.trans hs
  | link => exact h.trans hs
  | file =>
    have e : modeType &&& (modeDir ||| modeSymlink) = modeDir ||| modeSymlink := by decide
    simp only [Shows] at *
    rw [← e, ← BitVec.and_assoc, h, BitVec.and_assoc, e]
    exact hs

/-- Every entry shows its kind. -/
def Typed (s : State) : Prop := ∀ n m, s.node n = some m → Shows m.mode m.kind

theorem put_typed {s : State} (h : Typed s) {m : Meta} (hm : Shows m.mode m.kind) : Typed (put s m) := by
  intro n m' hn
  simp only [put, setAt] at hn
  split at hn
  · injection hn with hn; subst hn; exact hm
  · exact h n m' hn

theorem onMeta_typed {s : State} (h : Typed s) (n : Nat) (f : Meta → Meta) (hf : ∀ m, Shows m.mode m.kind → Shows (f m).mode (f m).kind) :
    Typed (onMeta s n f) := by
  unfold onMeta
  cases hn : s.node n with
  | none => exact h
  | some m =>
    intro k m' hk
    simp only [setAt] at hk
    split at hk
    · injection hk with hk; subst hk; exact hf m (h n m hn)
    · exact h k m' hk

theorem dir_shows (x : Mode) : Shows (modeDir ||| (x &&& modePerm)) .dir := by
  simp only [Shows]
  rw [BitVec.and_or_distrib_right, BitVec.and_assoc]
  have e1 : modePerm &&& modeType = 0#32 := by decide
  have e2 : modeDir &&& modeType = modeDir := by decide
  rw [e1, e2, BitVec.and_zero, BitVec.or_zero]

theorem step_typed {o : Opt} (ho : o.Plain) {s : State} (h : Typed s) (c : Call) (hc : c.Plain) : Typed (step o s c) := by
  cases c with
  | mkdir _ now name perm => exact put_typed h (dir_shows _)
  | create _ now name perm =>
    refine put_typed (s := { s with data := _, mem := _, nextView := s.nextView + 1 }) h ?_
    simp only [Shows]
    have e : modeDir ||| modeSymlink = modeType &&& (modeDir ||| modeSymlink) := by decide
    have hp : perm &&& modeType = 0#32 := hc
    rw [BitVec.and_comm perm, BitVec.and_assoc, e, ← BitVec.and_assoc perm, hp, BitVec.zero_and, BitVec.and_zero]
  | symlink _ now name => exact put_typed h (by simp only [Shows]; decide)
  | link _ n name =>
    simp only [step]
    cases hn : s.node n with
    | none => exact h
    | some m =>
      simp only
      split
      · exact put_typed h (h n m hn)
      · exact h
  | add _ name mode mtime content =>
    refine put_typed (s := { s with data := _, mem := _, nextView := s.nextView + 1 }) h ?_
    simp only [Shows]
    rw [BitVec.and_assoc]
    have : (modePerm ||| modeType &&& ~~~modeSymlink &&& ~~~modeDir) &&& (modeDir ||| modeSymlink) = 0#32 := by decide
    rw [this, BitVec.and_zero]
  | rename n _ name => exact onMeta_typed h n _ (fun _ hm => hm)
  | chmod n mode => exact onMeta_typed h n _ (fun m hm => shows_congr (chmod_type ho m mode) hm)
  | chown n uid gid => exact onMeta_typed h n _ (fun _ hm => hm)
  | chtimes n mtime => exact onMeta_typed h n _ (fun _ hm => by cases mtime <;> exact hm)
  | write n now off p => simp only [step, Typed, (onData_node s n _).1]; exact h
  | truncate n now size => simp only [step, Typed, (onData_node s n _).1]; exact h
  | outside v content =>
    simp only [step]
    split
    · exact h
    · exact h

theorem run_typed {o : Opt} (ho : o.Plain) : ∀ cs {s : State}, Typed s → (∀ c ∈ cs, c.Plain) → Typed (run o s cs)
  | [], _, h, _ => h
  | c :: cs, _, h, hc => run_typed ho cs (step_typed ho h c (hc c List.mem_cons_self)) (fun c' h' => hc c' (List.mem_cons_of_mem _ h'))

theorem newRoot_typed (o : Opt) (now : Int) : Typed (newRoot o now) :=
  put_typed (fun _ _ h => by cases h) (dir_shows _)

/-- **C124** (kinds). What a mode says about the kind of an entry is right, and stays right whatever is done, if the permission bits given to new
files hold no type and the mask for Chmod lets none through (the default one does not). -/
theorem C124_kind (o : Opt) (ho : o.Plain) (now : Int) (cs : List Call) (hc : ∀ c ∈ cs, c.Plain) (n : Nat) (i : Info) (m : Meta)
    (hn : (run o (newRoot o now) cs).node n = some m) (h : stat (run o (newRoot o now) cs) n = some i) : Shows i.mode m.kind := by
  obtain ⟨m', hm', _, e, _⟩ := stat_some h
  rw [hn] at hm'
  injection hm' with hm'
  subst hm'
  rw [e]
  exact run_typed ho cs (newRoot_typed o now) hc n m hn

theorem defaults_plain : defaults.Plain := by
  intro m
  show (m &&& modePerm) &&& modeType = 0#32
  rw [BitVec.and_assoc]
  have : modePerm &&& modeType = 0#32 := by decide
  rw [this, BitVec.and_zero]

/-- **C124** (modes). After `Chmod` the permission bits (and setuid, setgid and sticky bits) shown are those asked for, as far as the mask lets them
through, until the next `Chmod` of the same entry: nothing else changes them, not writing, renaming or linking it. The type stays. -/
theorem C124_mode (o : Opt) (ho : o.Plain) (now : Int) (as bs : List Call) (n : Nat) (mode : Mode) (i : Info)
    (hi : stat (run o (newRoot o now) as) n = some i) (hb : ∀ c ∈ bs, ¬c.SetsMode n) :
    ∃ j, stat (run o (newRoot o now) (as ++ .chmod n mode :: bs)) n = some j ∧
      j.mode &&& (modePerm ||| extraBits) = o.chmodMask mode &&& (modePerm ||| extraBits) ∧ j.mode &&& modeType = i.mode &&& modeType := by
  obtain ⟨m, hm, e1, e2, e3⟩ := stat_some hi
  rw [run_append]
  have hinv := run_inv o as (newRoot_inv o now)
  obtain ⟨m1, h1, _, _, _, _, _, _, hch, _, _⟩ := step_node o hinv hm (.chmod n mode)
  obtain ⟨m2, h2, _, _, _, _, o2, _⟩ := run_node o bs (step_inv o hinv (.chmod n mode)) h1
  obtain ⟨j, hj, _, ej, _⟩ := stat_of h2
  refine ⟨j, hj, ?_, ?_⟩
  · rw [ej, o2 hb, hch mode rfl]
    simp only [chmodApply]
    rw [BitVec.and_or_distrib_right, BitVec.and_assoc, BitVec.and_assoc]
    have : (~~~modePerm &&& (~~~extraBits &&& (modePerm ||| extraBits))) = 0#32 := by decide
    rw [this, BitVec.and_zero, BitVec.zero_or]
  · rw [ej, o2 hb, hch mode rfl, e2]
    exact chmod_type ho m mode

/-- **C124** (times, part). The time shown is the last one that `Chtimes` set, and before that the time of the clock when the entry was made, or the
time of the source for an entry that was bound; a zero time changes nothing, and neither does renaming, linking or anything done to other entries.
Missing: that writing a file, or putting an entry into a directory, changes the time; it does not, see below. -/
theorem C124_time_partial (o : Opt) (now : Int) (as bs : List Call) (n : Nat) (i : Info) (hi : stat (run o (newRoot o now) as) n = some i)
    (hb : ∀ c ∈ bs, ¬c.SetsTime n) :
    (∃ j, stat (run o (newRoot o now) (as ++ bs)) n = some j ∧ j.mtime = i.mtime) ∧
    ∀ t, ∃ j, stat (run o (newRoot o now) (as ++ .chtimes n (some t) :: bs)) n = some j ∧ j.mtime = t := by
  obtain ⟨m, hm, e1, e2, e3⟩ := stat_some hi
  have hinv := run_inv o as (newRoot_inv o now)
  refine ⟨?_, fun t => ?_⟩
  · rw [run_append]
    obtain ⟨m2, h2, _, _, _, _, _, t2⟩ := run_node o bs hinv hm
    obtain ⟨j, hj, _, _, ej⟩ := stat_of h2
    exact ⟨j, hj, by rw [ej, t2 hb, e3]⟩
  · rw [run_append]
    obtain ⟨m1, h1, _, _, _, _, _, _, _, ht, _⟩ := step_node o hinv hm (.chtimes n (some t))
    obtain ⟨m2, h2, _, _, _, _, _, t2⟩ := run_node o bs (step_inv o hinv (.chtimes n (some t))) h1
    obtain ⟨j, hj, _, _, ej⟩ := stat_of h2
    exact ⟨j, hj, by rw [ej, t2 hb, ht t rfl]⟩

/-- **C124** (names). The name shown is the one of the last `Rename`, or else the one it was made under. -/
theorem C124_name (o : Opt) (now : Int) (as bs : List Call) (n : Nat) (i : Info) (hi : stat (run o (newRoot o now) as) n = some i)
    (hb : ∀ c ∈ bs, ¬c.SetsName n) :
    (∃ j, stat (run o (newRoot o now) (as ++ bs)) n = some j ∧ j.name = i.name) ∧
    ∀ p x, ∃ j, stat (run o (newRoot o now) (as ++ .rename n p x :: bs)) n = some j ∧ j.name = x := by
  obtain ⟨m, hm, e1, e2, e3⟩ := stat_some hi
  have hinv := run_inv o as (newRoot_inv o now)
  refine ⟨?_, fun p x => ?_⟩
  · rw [run_append]
    obtain ⟨m2, h2, _, _, _, n2, _, _⟩ := run_node o bs hinv hm
    obtain ⟨j, hj, ej, _, _⟩ := stat_of h2
    exact ⟨j, hj, by rw [ej, n2 hb, e1]⟩
  · rw [run_append]
    obtain ⟨m1, h1, _, _, _, _, _, _, _, _, hr⟩ := step_node o hinv hm (.rename n p x)
    obtain ⟨m2, h2, _, _, _, n2, _, _⟩ := run_node o bs (step_inv o hinv (.rename n p x)) h1
    obtain ⟨j, hj, ej, _, _⟩ := stat_of h2
    exact ⟨j, hj, by rw [ej, n2 hb, hr p x rfl]⟩

/-- What a call that makes an entry shows of it at once. -/
theorem C124_made (o : Opt) (now : Int) (as : List Call) (c : Call) :
    let s := run o (newRoot o now) as
    let t := step o s c
    (∀ p w x perm, c = .mkdir p w x perm → stat t s.nextNode = some ⟨x, 0, modeDir ||| ((perm &&& ~~~o.umask) &&& modePerm), w⟩) ∧
    (∀ p w x perm, c = .create p w x perm → stat t s.nextNode = some ⟨x, 0, perm &&& ~~~o.umask, w⟩) ∧
    (∀ p w x, c = .symlink p w x → stat t s.nextNode = some ⟨x, 0, modeSymlink ||| 0o777#32, w⟩) ∧
    (∀ p x mode w b, c = .add p x mode w b → ∃ i, stat t s.nextNode = some i ∧ i.name = x ∧ i.size = b.length ∧ i.mtime = w ∧
      i.mode &&& modePerm = mode &&& modePerm) ∧
    (∀ p k x i, c = .link p k x → stat s k = some i → bytes s k ≠ none → stat t s.nextNode = some { i with name := x } ∧ bytes t s.nextNode = bytes s k) := by
  refine ⟨?_, ?_, ?_, ?_, ?_⟩
  · intro p w x perm e
    subst e
    simp [stat, step, put, setAt, toStat]
  · intro p w x perm e
    subst e
    simp [stat, step, putFile, put, setAt, toStat]
  · intro p w x e
    subst e
    simp [stat, step, put, setAt, toStat]
  · intro p x mode w b e
    subst e
    refine ⟨_, by simp [stat, step, putFile, put, setAt, toStat]; rfl, rfl, rfl, rfl, ?_⟩
    simp only
    rw [BitVec.and_assoc]
    have : (modePerm ||| modeType &&& ~~~modeSymlink &&& ~~~modeDir) &&& modePerm = modePerm := by decide
    rw [this]
  · intro p k x i e hi hb
    subst e
    cases hk : (run o (newRoot o now) as).node k with
    | none => simp [bytes, hk] at hb
    | some m =>
      by_cases hf : m.kind = .file
      · simp only [stat, hk, Option.map_some, hf, if_true, Option.some.injEq] at hi
        subst hi
        simp [stat, bytes, step, hk, hf, put, setAt, toStat]
      · simp [bytes, hk, hf] at hb

/-- Nothing but its source changes a view that cannot be written. -/
theorem step_data (o : Opt) {s : State} (v : Nat) (hv : v < s.nextView) (hm : s.mem v = false) (c : Call) (hc : ∀ b, c ≠ .outside v b) :
    (step o s c).data v = s.data v ∧ (step o s c).mem v = false ∧ v < (step o s c).nextView := by
  have hd : ∀ n f, (onData s n f).data v = s.data v ∧ (onData s n f).mem v = false ∧ v < (onData s n f).nextView := by
    intro n f
    unfold onData
    split
    · exact ⟨rfl, hm, hv⟩
    · split
      next x _ e =>
        refine ⟨?_, hm, hv⟩
        simp only [setAt]
        rw [if_neg]
        intro e'
        rw [← e', hm] at e
        cases e.2
      · exact ⟨rfl, hm, hv⟩
  have ho : ∀ n f, (onMeta s n f).data v = s.data v ∧ (onMeta s n f).mem v = false ∧ v < (onMeta s n f).nextView := by
    intro n f
    unfold onMeta
    split <;> exact ⟨rfl, hm, hv⟩
  have hp : ∀ m b w, (putFile s m b w).data v = s.data v ∧ (putFile s m b w).mem v = false ∧ v < (putFile s m b w).nextView := by
    intro m b w
    simp only [putFile, put, setAt]
    rw [if_neg (by omega), if_neg (by omega)]
    exact ⟨rfl, hm, by omega⟩
  cases c with
  | mkdir => exact ⟨rfl, hm, hv⟩
  | create => exact hp _ _ _
  | symlink => exact ⟨rfl, hm, hv⟩
  | link _ n name =>
    simp only [step]
    split
    · split <;> exact ⟨rfl, hm, hv⟩
    · exact ⟨rfl, hm, hv⟩
  | add => exact hp _ _ _
  | rename => exact ho _ _
  | chmod => exact ho _ _
  | chown => exact ho _ _
  | chtimes => exact ho _ _
  | write => simp only [step]; exact hd _ _
  | truncate => simp only [step]; exact hd _ _
  | outside w b =>
    simp only [step]
    split
    · exact ⟨rfl, hm, hv⟩
    · refine ⟨?_, hm, hv⟩
      simp only [setAt]
      rw [if_neg]
      intro e
      exact hc b (by rw [e])

theorem run_data (o : Opt) (v : Nat) : ∀ cs {s : State}, v < s.nextView → s.mem v = false → (∀ c ∈ cs, ∀ b, c ≠ .outside v b) →
    (run o s cs).data v = s.data v
  | [], _, _, _, _ => rfl
  | c :: cs, _, hv, hm, hc => by
    obtain ⟨a, b, d⟩ := step_data o v hv hm c (hc c List.mem_cons_self)
    exact (run_data o v cs d b (fun c' h' => hc c' (List.mem_cons_of_mem _ h'))).trans a

/-- **C124** (listings, part). What a listing says of an entry is what `Stat` says of it, name, mode and time, and the size as well for directories
and links, and for bound files as long as their source does not change. Missing: the size of other files, see below. -/
theorem C124_listing_partial (o : Opt) (now : Int) (as : List Call) (n : Nat) (i : Info) (h : stat (run o (newRoot o now) as) n = some i) :
    (∃ j, listed (run o (newRoot o now) as) n = some j ∧ j.name = i.name ∧ j.mode = i.mode ∧ j.mtime = i.mtime ∧
      (bytes (run o (newRoot o now) as) n = none → j = i)) ∧
    ∀ p x mode w b bs, (∀ c ∈ bs, ∀ b', c ≠ .outside (run o (newRoot o now) as).nextView b') →
      listed (run o (newRoot o now) (as ++ .add p x mode w b :: bs)) (run o (newRoot o now) as).nextNode =
        stat (run o (newRoot o now) (as ++ .add p x mode w b :: bs)) (run o (newRoot o now) as).nextNode := by
  have hinv := run_inv o as (newRoot_inv o now)
  refine ⟨?_, fun p x mode w b bs hb => ?_⟩
  · generalize run o (newRoot o now) as = s at h
    unfold stat at h
    cases hn : s.node n with
    | none => rw [hn] at h; cases h
    | some m =>
      rw [hn] at h
      simp only [Option.map_some, Option.some.injEq] at h
      refine ⟨toStat m, by simp [listed, hn], ?_⟩
      subst h
      by_cases hk : m.kind = .file
      · simp [hk, bytes, hn, toStat]
      · simp [hk]
  · rw [run_append]
    generalize run o (newRoot o now) as = s at hinv hb
    simp only [run]
    have hinv1 := step_inv o hinv (.add p x mode w b)
    have h1 : (step o s (.add p x mode w b)).node s.nextNode = some ⟨.file, x, mode &&& (modePerm ||| (modeType &&& ~~~modeSymlink &&& ~~~modeDir)), w,
        b.length, (0, 0), s.nextView⟩ := by simp [step, putFile, put, setAt]
    have hd := run_data o s.nextView bs (s := step o s (.add p x mode w b)) (by simp [step, putFile, put]) (by simp [step, putFile, put, setAt]) hb
    have hd0 : (step o s (.add p x mode w b)).data s.nextView = b := by simp [step, putFile, put, setAt]
    obtain ⟨m2, h2, k2, v2, z2, _⟩ := run_node o bs hinv1 h1
    simp only [listed, stat, h2, Option.map_some, k2, if_true, v2, hd, hd0, Option.some.injEq]
    simp only [toStat, z2]

/-- A file into which five bytes are written an hour after it was made. -/
def written : List Call := [.create 0 100 ['f'] 0o644#32, .write 1 3700 0 [1, 2, 3, 4, 5]]

/-- A file created through the filesystem is listed with size 0, whatever it holds; `Stat` says five bytes. -/
theorem C124_counterexample_listing : (stat (run defaults (newRoot defaults 0) written) 1).map (·.size) = some 5 ∧
    (listed (run defaults (newRoot defaults 0) written) 1).map (·.size) = some 0 := by decide

/-- Writing a file does not change its time, although the clock is documented to stamp modified entries. -/
theorem C124_counterexample_write : bytes (run defaults (newRoot defaults 0) written) 1 = some [1, 2, 3, 4, 5] ∧
    (stat (run defaults (newRoot defaults 0) written) 1).map (·.mtime) = some 100 := by decide

/-- Putting an entry into a directory does not change the directory's time. -/
theorem C124_counterexample_dir : (stat (run defaults (newRoot defaults 0) written) 0).map (·.mtime) = some 0 := by decide

/-- `Chmod` of one name of a file is not seen under the other one (the code says that modes are copied when linking; POSIX has one mode). -/
theorem C124_counterexample_link :
    let s := run defaults (newRoot defaults 0) (written ++ [.link 0 1 ['g'], .chmod 1 0o600#32, .write 2 3800 5 [6]])
    (stat s 1).map (fun i => (i.mode, i.size)) = some (0o600#32, 6) ∧ (stat s 2).map (fun i => (i.mode, i.size)) = some (0o644#32, 6) := by decide

/-- Type bits in the permissions given to `OpenFile` are kept: a file that says it is a directory. -/
theorem C124_counterexample_type : bytes (run defaults (newRoot defaults 0) [.create 0 1 ['f'] (modeDir ||| 0o644#32)]) 1 = some [] ∧
    ∃ i, stat (run defaults (newRoot defaults 0) [.create 0 1 ['f'] (modeDir ||| 0o644#32)]) 1 = some i ∧ i.mode &&& modeDir = modeDir :=
  ⟨by decide, _, rfl, by decide⟩

/-! ### Bytes -/

/-- The content `d` with `p` put at `off`, byte by byte. -/
def Patched (d : Bytes) (off : Nat) (p d' : Bytes) : Prop :=
  ∀ i, d'[i]? = if off ≤ i ∧ i < off + p.length then p[i - off]? else if i < d.length then d[i]? else if i < off ∧ p ≠ [] then some 0 else none

/-- The content `d` made `size` long, byte by byte. -/
def Resized (d : Bytes) (size : Nat) (d' : Bytes) : Prop :=
  ∀ i, d'[i]? = if i < size then (if i < d.length then d[i]? else some 0) else none

theorem patched (d : Bytes) (off : Nat) (p : Bytes) : Patched d off p (writeAt d off p) := by
  intro i
  unfold writeAt
  by_cases hp : p = []
  · subst hp
    rw [if_pos rfl, if_neg (by simp)]
    split
    · rfl
    · rw [if_neg (fun h => h.2 rfl)]; exact List.getElem?_eq_none (by omega)
  · rw [if_neg hp]
    have hl : 0 < p.length := List.length_pos_iff.mpr hp
    simp only [List.getElem?_append, List.getElem?_take, List.getElem?_drop, List.getElem?_replicate, List.length_append, List.length_take,
      List.length_replicate]
    by_cases h1 : off ≤ i ∧ i < off + p.length
    · rw [if_pos h1, if_pos (by omega), if_neg (by omega)]
      congr 1
      omega
    · rw [if_neg h1]
      by_cases h2 : i < off
      · by_cases h3 : i < d.length
        · rw [if_pos (by omega), if_pos (by omega), if_pos (by omega), if_pos h2, if_pos h3]
        · rw [if_pos (by omega), if_pos (by omega), if_neg (by omega), if_pos (by omega), if_neg h3, if_pos ⟨h2, hp⟩]
      · rw [if_neg (by omega)]
        by_cases h3 : i < d.length
        · rw [if_pos h3]
          congr 1
          omega
        · rw [if_neg h3, if_neg (fun h => h2 h.1)]
          exact List.getElem?_eq_none (by omega)

theorem resized (d : Bytes) (size : Nat) : Resized d size (truncAt d size) := by
  intro i
  unfold truncAt
  simp only [List.getElem?_append, List.getElem?_take, List.getElem?_replicate, List.length_take]
  by_cases h : i < size
  · by_cases h2 : i < d.length
    · rw [if_pos (by omega), if_pos h, if_pos h, if_pos h2]
    · rw [if_neg (by omega), if_pos (by omega), if_pos h, if_neg h2]
  · rw [if_neg (by omega), if_neg (by omega), if_neg h]

/-- The entry is a file that was made through the filesystem or is a name of one; files added with `AddFile` or `AddFS` cannot be written. -/
def Writable (s : State) (n : Nat) : Prop := ∃ m, s.node n = some m ∧ m.kind = .file ∧ s.mem m.view = true

theorem onData_bytes {s : State} {n : Nat} {d : Bytes} (hd : bytes s n = some d) (f : Bytes → Bytes) :
    (Writable s n → bytes (onData s n f) n = some (f d)) ∧ (¬Writable s n → onData s n f = s) := by
  unfold bytes at hd
  cases hn : s.node n with
  | none => rw [hn] at hd; cases hd
  | some m =>
    rw [hn] at hd
    by_cases hk : m.kind = .file
    · simp only [hk, if_true, Option.some.injEq] at hd
      constructor
      · rintro ⟨m', hm', _, hw⟩
        rw [hn] at hm'
        injection hm' with hm'
        subst hm'
        simp [bytes, onData, hn, hk, hw, setAt, hd]
      · intro hw
        have : ¬(m.kind = .file ∧ s.mem m.view = true) := fun h => hw ⟨m, hn, h.1, h.2⟩
        simp only [onData, hn]
        exact if_neg this
    · simp [hk] at hd

/-- **C124** (bytes). A write puts its bytes at its offset, with zeros in a gap; truncation cuts or fills up with zeros; the size `Stat` reports follows (`C124_size`). A file that was added is not changed by either. -/
theorem C124_bytes (o : Opt) (now : Int) (cs : List Call) (n : Nat) (d : Bytes) (hd : bytes (run o (newRoot o now) cs) n = some d) :
    (Writable (run o (newRoot o now) cs) n →
      (∀ t off p, ∃ d', bytes (run o (newRoot o now) (cs ++ [.write n t off p])) n = some d' ∧ Patched d off p d') ∧
      ∀ t size, ∃ d', bytes (run o (newRoot o now) (cs ++ [.truncate n t size])) n = some d' ∧ Resized d size d') ∧
    (¬Writable (run o (newRoot o now) cs) n →
      (∀ t off p, run o (newRoot o now) (cs ++ [.write n t off p]) = run o (newRoot o now) cs) ∧
      ∀ t size, run o (newRoot o now) (cs ++ [.truncate n t size]) = run o (newRoot o now) cs) := by
  refine ⟨fun hw => ⟨fun t off p => ?_, fun t size => ?_⟩, fun hw => ⟨fun t off p => ?_, fun t size => ?_⟩⟩ <;> rw [run_append]
  · exact ⟨_, (onData_bytes hd _).1 hw, patched d off p⟩
  · exact ⟨_, (onData_bytes hd _).1 hw, resized d size⟩
  · exact (onData_bytes hd (fun d => writeAt d off p)).2 hw
  · exact (onData_bytes hd (fun d => truncAt d size)).2 hw

example : bytes (run defaults (newRoot defaults 0) written) 1 = some [1, 2, 3, 4, 5] ∧ Writable (run defaults (newRoot defaults 0) written) 1 ∧
    bytes (run defaults (newRoot defaults 0) (written ++ [.truncate 1 9 7, .write 1 9 8 [6]])) 1 = some [1, 2, 3, 4, 5, 0, 0, 0, 6] :=
  ⟨by decide, ⟨_, rfl, by decide, by decide⟩, by decide⟩

/-! ### Concrete cases -/

/-- A history with every kind of entry: modes, times and names are set, then other things happen. -/
def busy : List Call :=
  [.mkdir 0 10 ['d'] 0o755#32, .create 1 20 ['f'] 0o666#32, .symlink 1 30 ['l'], .add 1 ['b'] 0o444#32 5 [9, 9], .chmod 2 0o600#32, .chtimes 2 (some 77),
    .rename 2 0 ['g'], .write 2 40 1 [7], .truncate 2 50 3, .chtimes 2 none, .chmod 1 0o700#32, .chown 2 5 5]

example : stat (run defaults (newRoot defaults 0) busy) 2 = some ⟨['g'], 3, 0o600#32, 77⟩ ∧
    bytes (run defaults (newRoot defaults 0) busy) 2 = some [0, 7, 0] ∧
    stat (run defaults (newRoot defaults 0) busy) 1 = some ⟨['d'], 0, modeDir ||| 0o700#32, 10⟩ ∧
    stat (run defaults (newRoot defaults 0) busy) 4 = listed (run defaults (newRoot defaults 0) busy) 4 ∧
    stat (run defaults (newRoot defaults 0) busy) 4 = some ⟨['b'], 2, 0o444#32, 5⟩ := by decide

example : ∀ c ∈ busy, c.Plain := by
  intro c hc
  simp only [busy, List.mem_cons, List.not_mem_nil, or_false] at hc
  rcases hc with h | h | h | h | h | h | h | h | h | h | h | h <;> subst h <;> first | trivial | (simp only [Call.Plain]; decide)

end Verif.Synth.Meta
