import Verif.Common.Path
/-
Model of the masking state of the top layer and of the sqlite metadata store behind it:
/repo/vroot-adapter/overlayfs/state.go 96-268, 341-366 and /repo/vroot-adapter/overlayfs/metadatastore.go,
/repo/vroot-adapter/overlayfs/metadatastore_sqlite.go 124-270.

Strings are byte strings: a byte is the character with that code, so sqlite's BINARY collation (memcmp, then length) is `lexLt`.
sqlite is trusted: a statement does what it says on the rows of the table, and a transaction that reports an error has left the table as it was.
-/
namespace Verif.Overlay
open Verif.Path

/-! ### names, metadatastore.go 57-78 and state.go 355-366 -/

/-- metadatastore.go 59-61 `cleanName`. -/
def cleanName (name : Str) : Str := trimPrefix (clean (slash :: name)) [slash]

/-- metadatastore.go 66-72 `parentName`: everything before the last slash. -/
def parentName (name : Str) : Str := (dirPart name).dropLast

/-- state.go 358-366 `childName`. -/
def childName (dir name : Str) : Str :=
  if dir = [] then name else if name = [] then dir else dir ++ slash :: name

/-- state.go 165-169 and 346-350: the test for "strictly under". -/
def strictlyUnder (dir n : Str) : Bool := n != dir && hasPrefix n (if dir = [] then [] else dir ++ [slash])

/-! ### the store -/

/-- A row of table `node`, metadatastore_sqlite.go 25-31. Simplification: the column `parent`, which is written and indexed but read by no
statement of the package, is left out. -/
structure Row where
  path : Str
  whiteout : Bool
  opq : Bool
  deriving DecidableEq, Repr

abbrev Table := List Row

/-- memcmp order, a proper prefix first: sqlite's BINARY collation. -/
def lexLt : Str → Str → Bool
  | _, [] => false
  | [], _ :: _ => true
  | a :: as, b :: bs => if a.toNat < b.toNat then true else if a = b then lexLt as bs else false

/-- metadatastore_sqlite.go 258-270: the condition of the `DELETE` in `deleteSubtree`. -/
def deletes (name path : Str) : Bool :=
  if name = [] then path != [] else !lexLt path (name ++ [slash]) && lexLt path (name ++ ['0'])

/-- `INSERT INTO node ... ON CONFLICT (path) DO UPDATE`, with `upd` what the update does to an existing row. -/
def upsert (new : Row) (upd : Row → Row) (t : Table) : Table :=
  if t.any (fun r => r.path = new.path) then t.map (fun r => if r.path = new.path then upd r else r) else t ++ [new]

/-- metadatastore_sqlite.go 157-169 `SetWhiteout`, the transaction's body. -/
def Table.setWhiteout (name : Str) (t : Table) : Table :=
  (upsert ⟨name, true, false⟩ (fun r => { r with whiteout := true, opq := false }) t).filter (fun r => !deletes name r.path)

/-- metadatastore_sqlite.go 237-249 `clearMark` on column `whiteout`. -/
def Table.clearWhiteout (name : Str) (t : Table) : Table :=
  (t.map (fun r => if r.path = name then { r with whiteout := false } else r)).filter
    (fun r => !(r.path = name && !r.whiteout && !r.opq))

/-- metadatastore_sqlite.go 180-190 `SetOpaque`, the transaction's body. -/
def Table.setOpaque (name : Str) (t : Table) : Table :=
  upsert ⟨name, false, true⟩ (fun r => { r with opq := true }) t

/-- metadatastore_sqlite.go 237-249 `clearMark` on column `opaque`. -/
def Table.clearOpaque (name : Str) (t : Table) : Table :=
  (t.map (fun r => if r.path = name then { r with opq := false } else r)).filter
    (fun r => !(r.path = name && !r.whiteout && !r.opq))

/-- metadatastore_sqlite.go 126-154 `Load`: the whiteouts. -/
def Table.loadWhiteouts (t : Table) : List Str := (t.filter (·.whiteout)).map (·.path)
/-- metadatastore_sqlite.go 126-154 `Load`: the opaques. -/
def Table.loadOpaques (t : Table) : List Str := (t.filter (·.opq)).map (·.path)

/-! ### the masks in memory -/

/-- state.go 48-51 `layerMask`: two sets, as lists whose order says nothing. -/
structure Marks where
  whiteout : List Str
  opq : List Str
  deriving DecidableEq, Repr

def setInsert (n : Str) (l : List Str) : List Str := if n ∈ l then l else n :: l
def setErase (n : Str) (l : List Str) : List Str := l.filter (fun m => m != n)

/-- state.go 345-353 `dropSubtree`. -/
def dropUnder (name : Str) (l : List Str) : List Str := l.filter (fun n => !strictlyUnder name n)

/-- The overlay's masking of its top layer, the store that persists it, and the number of store calls made. -/
structure MState where
  mem : Marks
  store : Table
  calls : Nat
  deriving Repr

/-- Which store calls fail. -/
abbrev Faults := Nat → Bool

/-- A mutator's outcome: the state and whether it returned an error. -/
abbrev MRes := MState × Bool

/-- state.go 113-122 `setWhiteout`. -/
def setWhiteout (f : Faults) (name : Str) (s : MState) : MRes :=
  if f s.calls then ({ s with calls := s.calls + 1 }, false)
  else ({ mem := { whiteout := dropUnder (cleanName name) (setInsert (cleanName name) s.mem.whiteout),
                   opq := dropUnder (cleanName name) (setErase (cleanName name) s.mem.opq) },
          store := s.store.setWhiteout (cleanName (cleanName name)), calls := s.calls + 1 }, true)

/-- state.go 125-132 `clearWhiteout`. -/
def clearWhiteout (f : Faults) (name : Str) (s : MState) : MRes :=
  if f s.calls then ({ s with calls := s.calls + 1 }, false)
  else ({ mem := { s.mem with whiteout := setErase (cleanName name) s.mem.whiteout },
          store := s.store.clearWhiteout (cleanName (cleanName name)), calls := s.calls + 1 }, true)

/-- state.go 137-144 `setOpaque`. -/
def setOpaque (f : Faults) (name : Str) (s : MState) : MRes :=
  if f s.calls then ({ s with calls := s.calls + 1 }, false)
  else ({ mem := { s.mem with opq := setInsert (cleanName name) s.mem.opq },
          store := s.store.setOpaque (cleanName (cleanName name)), calls := s.calls + 1 }, true)

/-- state.go 148-155 `clearOpaque`. -/
def clearOpaque (f : Faults) (name : Str) (s : MState) : MRes :=
  if f s.calls then ({ s with calls := s.calls + 1 }, false)
  else ({ mem := { s.mem with opq := setErase (cleanName name) s.mem.opq },
          store := s.store.clearOpaque (cleanName (cleanName name)), calls := s.calls + 1 }, true)

def insertStr (n : Str) : List Str → List Str
  | [] => [n]
  | x :: xs => if lexLt x n then x :: insertStr n xs else n :: x :: xs

/-- slices.Sort, state.go 180-181 (any sorting function gives the same list). -/
def sortStrs : List Str → List Str
  | [] => []
  | n :: ns => insertStr n (sortStrs ns)

/-- state.go 164-183 `maskedUnder`. -/
def maskedUnder (dir : Str) (m : Marks) : List Str × List Str :=
  (sortStrs (m.whiteout.filter (strictlyUnder dir)), sortStrs (m.opq.filter (strictlyUnder dir)))

/-- The loops of state.go 195-210 and 247-266: one mutator per name, the first error ends it. -/
def forNames (op : Str → MState → MRes) : List Str → MState → MRes
  | [], s => (s, true)
  | n :: ns, s => match op n s with
    | (s', false) => (s', false)
    | (s', true) => forNames op ns s'

/-- state.go 196-201. -/
def clearWhiteoutIf (f : Faults) (n : Str) (s : MState) : MRes := if n ∈ s.mem.whiteout then clearWhiteout f n s else (s, true)
/-- state.go 204-209. -/
def clearOpaqueIf (f : Faults) (n : Str) (s : MState) : MRes := if n ∈ s.mem.opq then clearOpaque f n s else (s, true)

/-- One step after another, the first error ends it. -/
def andThen (a b : MState → MRes) (s : MState) : MRes :=
  match a s with
  | (s', false) => (s', false)
  | (s', true) => b s'

/-- state.go 192-212 `clearSubtree`. -/
def clearSubtree (f : Faults) (name : Str) (s : MState) : MRes :=
  andThen (forNames (clearWhiteoutIf f) ((maskedUnder (cleanName name) s.mem).1 ++ [cleanName name]))
    (forNames (clearOpaqueIf f) ((maskedUnder (cleanName name) s.mem).2 ++ [cleanName name])) s

/-- state.go 244-246 `rebase`. -/
def rebase (oldDir newDir n : Str) : Str := childName newDir (trimPrefix (trimPrefix n oldDir) [slash])

/-- state.go 238-268 `renameSubtree`. -/
def renameSubtree (f : Faults) (oldDir newDir : Str) (s : MState) : MRes :=
  andThen (forNames (fun n => setWhiteout f (rebase (cleanName oldDir) (cleanName newDir) n)) (maskedUnder (cleanName oldDir) s.mem).1)
    (andThen (forNames (fun n => setOpaque f (rebase (cleanName oldDir) (cleanName newDir) n)) (maskedUnder (cleanName oldDir) s.mem).2)
      (andThen (forNames (clearWhiteout f) (maskedUnder (cleanName oldDir) s.mem).1)
        (forNames (clearOpaque f) (maskedUnder (cleanName oldDir) s.mem).2))) s

/-- state.go 82-91: what a freshly built overlay holds in memory. -/
def loadMarks (t : Table) : Marks := ⟨t.loadWhiteouts.map cleanName, t.loadOpaques.map cleanName⟩

/-- The mark changes an overlay operation is made of. -/
inductive MarkOp where
  | setWhiteout (n : Str) | clearWhiteout (n : Str) | setOpaque (n : Str) | clearOpaque (n : Str)
  | clearSubtree (n : Str) | renameSubtree (a b : Str)
  deriving Repr

def MarkOp.run (f : Faults) : MarkOp → MState → MRes
  | .setWhiteout n => Overlay.setWhiteout f n
  | .clearWhiteout n => Overlay.clearWhiteout f n
  | .setOpaque n => Overlay.setOpaque f n
  | .clearOpaque n => Overlay.clearOpaque f n
  | .clearSubtree n => Overlay.clearSubtree f n
  | .renameSubtree a b => Overlay.renameSubtree f a b

/-- A history: operations whose errors the overlay's user may ignore. -/
def history (f : Faults) : List MarkOp → MState → MState
  | [], s => s
  | op :: ops, s => history f ops (op.run f s).1

/-! ### C61: the range delete -/

theorem lexLt_append (p a b : Str) : lexLt (p ++ a) (p ++ b) = lexLt a b := by
  induction p with
  | nil => rfl
  | cons c p ih => simp [lexLt, ih]

theorem slash_lt_zero : slash.toNat < '0'.toNat := by decide

theorem char_eq_of_toNat {a b : Char} (h : a.toNat = b.toNat) : a = b := by
  apply Char.ext
  exact UInt32.toNat_inj.1 h

theorem lexLt_range (name p : Str) :
    (lexLt p (name ++ [slash]) = false ∧ lexLt p (name ++ ['0']) = true) ↔ ∃ t, p = name ++ slash :: t := by
  induction name generalizing p with
  | nil =>
    cases p with
    | nil => simp [lexLt]
    | cons c t =>
      have hs : slash.toNat = 47 := by decide
      have h0 : ('0' : Char).toNat = 48 := by decide
      simp only [List.nil_append, lexLt, hs, h0]
      constructor
      · intro ⟨h1, h2⟩
        by_cases hc : c = slash
        · exact ⟨t, by rw [hc]⟩
        · exfalso
          have hge : ¬ c.toNat < 47 := by
            intro h; simp [h] at h1
          have : c.toNat ≠ 47 := fun h => hc (char_eq_of_toNat (by rw [h, hs]))
          have hlt : ¬ c.toNat < 48 := by omega
          simp [hlt] at h2
      · rintro ⟨t', ht⟩
        injection ht with hc ht
        subst hc; subst ht
        rw [hs]
        simp
  | cons a name ih =>
    cases p with
    | nil => simp [lexLt]
    | cons c t =>
      by_cases hac : c = a
      · subst hac
        have := ih t
        simp only [List.cons_append, lexLt, Nat.lt_irrefl, if_false, if_true, List.cons.injEq, true_and]
        exact this
      · simp only [List.cons_append, lexLt, List.cons.injEq, hac, false_and, exists_false, iff_false]
        intro ⟨h1, h2⟩
        split at h1
        · cases h1
        · split at h2
          · contradiction
          · cases h2

theorem join_append_ne {as bs : List Str} (ha : as ≠ []) (hb : bs ≠ []) : join (as ++ bs) = join as ++ slash :: join bs := by
  induction as with
  | nil => exact absurd rfl ha
  | cons a as ih =>
    cases as with
    | nil =>
      cases bs with
      | nil => exact absurd rfl hb
      | cons b bs => rfl
    | cons a' as =>
      have := ih (by simp)
      show a ++ slash :: join (a' :: as ++ bs) = (a ++ slash :: join (a' :: as)) ++ slash :: join bs
      rw [this]; simp [List.append_assoc]

/-- Component lists of clean relative names. -/
def CleanComps (cs : List Str) : Prop := ∀ c ∈ cs, IsName c

theorem join_eq_nil {cs : List Str} (h : CleanComps cs) : join cs = [] ↔ cs = [] := by
  constructor
  · intro hj
    apply Classical.byContradiction
    intro hne
    exact join_ne_nil (fun c hc => (h c hc).1) hne hj
  · rintro rfl; rfl

theorem join_inj {as bs : List Str} (ha : CleanComps as) (hb : CleanComps bs) (h : join as = join bs) : as = bs := by
  by_cases hae : as = []
  · subst hae
    exact ((join_eq_nil hb).1 h.symm).symm
  · by_cases hbe : bs = []
    · subst hbe
      exact (join_eq_nil ha).1 h
    · rw [← split_join hae (fun c hc => (ha c hc).1.2), h, split_join hbe (fun c hc => (hb c hc).1.2)]

theorem prefix_slash_comps {as bs : List Str} (ha : CleanComps as) (hb : CleanComps bs) (hne : as ≠ []) :
    (∃ t, join bs = join as ++ slash :: t) ↔ ∃ r, r ≠ [] ∧ bs = as ++ r := by
  constructor
  · rintro ⟨t, ht⟩
    have hbe : bs ≠ [] := by
      rintro rfl
      have : ([] : Str) = join as ++ slash :: t := ht
      simp at this
    have h1 : split (join bs) = bs := split_join hbe (fun c hc => (hb c hc).1.2)
    have h2 : ∀ (as : List Str), as ≠ [] → (∀ c ∈ as, slash ∉ c) → split (join as ++ slash :: t) = as ++ split t := by
      intro as
      induction as with
      | nil => intro h; exact absurd rfl h
      | cons a as ih =>
        intro _ hs
        cases as with
        | nil => exact split_append_slash (hs a List.mem_cons_self) t
        | cons a' as =>
          have := ih (by simp) (fun c hc => hs c (List.mem_cons_of_mem _ hc))
          show split ((a ++ slash :: join (a' :: as)) ++ slash :: t) = _
          rw [List.append_assoc, List.cons_append, split_append_slash (hs a List.mem_cons_self), this]
          rfl
    refine ⟨split t, split_ne_nil t, ?_⟩
    rw [← h1, ht, h2 as hne (fun c hc => (ha c hc).1.2)]
  · rintro ⟨r, hr, rfl⟩
    exact ⟨join r, join_append_ne hne hr⟩

/-- **C61.** Among clean names, the condition of the range delete holds for exactly the names strictly beneath the given one: those whose
components are the name's components followed by at least one more. -/
theorem C61_range_delete_exact {name path : List Str} (hn : CleanComps name) (hp : CleanComps path) :
    deletes (join name) (join path) = true ↔ ∃ rest, rest ≠ [] ∧ path = name ++ rest := by
  unfold deletes
  by_cases he : name = []
  · subst he
    rw [if_pos (show join [] = [] from rfl)]
    simp only [bne_iff_ne, ne_eq, List.nil_append, exists_eq_right', (join_eq_nil hp)]
  · rw [if_neg (by rw [join_eq_nil hn]; exact he)]
    rw [← prefix_slash_comps hn hp he, ← lexLt_range]
    simp [Bool.and_eq_true]

/-- The same on any stored bytes, clean or not: the range is exactly the paths that start with the name and a slash. -/
theorem C61_range_delete_bytes {name path : Str} (hn : name ≠ []) :
    deletes name path = true ↔ ∃ t, path = name ++ slash :: t := by
  unfold deletes
  rw [if_neg hn, ← lexLt_range]
  simp [Bool.and_eq_true]

-- "a/b" is under "a"; "a0", "a" and "a.b" (which sort next to it) are not.
example : deletes ['a'] "a/b".toList = true ∧ deletes ['a'] "a/".toList = true ∧ deletes ['a'] "a0".toList = false ∧
    deletes ['a'] "a.b".toList = false ∧ deletes ['a'] "a".toList = false ∧ deletes [] "x".toList = true ∧ deletes [] [] = false := by
  decide
example : CleanComps [['a'], ['b']] := by
  intro c hc
  simp only [List.mem_cons, List.not_mem_nil, or_false] at hc
  rcases hc with rfl | rfl <;> decide

/-! ### C60: memory and store agree -/

theorem deletes_iff_under (name path : Str) : deletes name path = strictlyUnder name path := by
  unfold strictlyUnder
  by_cases he : name = []
  · subst he
    simp [deletes, hasPrefix]
  · rw [if_neg he]
    rw [Bool.eq_iff_iff, C61_range_delete_bytes he, Bool.and_eq_true, hasPrefix_iff, bne_iff_ne]
    constructor
    · rintro ⟨t, rfl⟩
      refine ⟨?_, t, by simp⟩
      intro h
      have := congrArg List.length h
      simp at this
    · rintro ⟨_, t, rfl⟩
      exact ⟨t, by simp⟩

theorem cleanName_eq (name : Str) : cleanName name = join (comps (slash :: name)) := by
  have h : clean (slash :: name) = slash :: join (comps (slash :: name)) := by
    unfold clean render
    have : isAbs (slash :: name) = true := rfl
    rw [this, if_pos rfl]
  unfold cleanName trimPrefix
  rw [h]
  simp [List.isPrefixOf]

theorem comps_rooted_clean (name : Str) : CleanComps (comps (slash :: name)) := by
  have h := comps_normal (slash :: name)
  have habs : isAbs (slash :: name) = true := rfl
  rw [habs] at h
  generalize comps (slash :: name) = cs at h
  cases h with
  | names h => exact h
  | up hr _ => cases hr

/-- A clean name in the spelling the masking state uses. -/
def IsClean (n : Str) : Prop := ∃ cs, CleanComps cs ∧ n = join cs

theorem cleanName_clean (name : Str) : IsClean (cleanName name) := ⟨_, comps_rooted_clean name, cleanName_eq name⟩

theorem cleanName_of_clean {n : Str} (h : IsClean n) : cleanName n = n := by
  obtain ⟨cs, hcs, rfl⟩ := h
  rw [cleanName_eq]
  congr 1
  have : slash :: join cs = render true cs := rfl
  rw [this]
  exact comps_render (.names hcs)

theorem cleanName_idem (name : Str) : cleanName (cleanName name) = cleanName name := cleanName_of_clean (cleanName_clean name)

/-- Memory and store record the same marks, under clean names, and the store has no row without a mark. -/
structure Agree (s : MState) : Prop where
  whiteout : ∀ n, n ∈ s.mem.whiteout ↔ ∃ r ∈ s.store, r.path = n ∧ r.whiteout = true
  opq : ∀ n, n ∈ s.mem.opq ↔ ∃ r ∈ s.store, r.path = n ∧ r.opq = true
  clean : ∀ r ∈ s.store, IsClean r.path
  marked : ∀ r ∈ s.store, r.whiteout = true ∨ r.opq = true

theorem mem_setInsert {n m : Str} {l : List Str} : m ∈ setInsert n l ↔ m = n ∨ m ∈ l := by
  unfold setInsert
  split
  · constructor
    · exact .inr
    · rintro (rfl | h)
      · assumption
      · exact h
  · exact List.mem_cons

theorem mem_setErase {n m : Str} {l : List Str} : m ∈ setErase n l ↔ m ≠ n ∧ m ∈ l := by
  unfold setErase
  simp [List.mem_filter, and_comm]

theorem mem_dropUnder {n m : Str} {l : List Str} : m ∈ dropUnder n l ↔ strictlyUnder n m = false ∧ m ∈ l := by
  unfold dropUnder
  simp [List.mem_filter, and_comm]

theorem under_self (n : Str) : strictlyUnder n n = false := by simp [strictlyUnder]

theorem mem_upsert {new : Row} {upd : Row → Row} {t : Table} {r : Row} :
    r ∈ upsert new upd t ↔ (r ∈ t ∧ r.path ≠ new.path) ∨ (∃ r' ∈ t, r'.path = new.path ∧ r = upd r') ∨
      (r = new ∧ ∀ r' ∈ t, r'.path ≠ new.path) := by
  unfold upsert
  by_cases h : t.any (fun r => r.path = new.path)
  · rw [if_pos h]
    simp only [List.any_eq_true, decide_eq_true_eq] at h
    obtain ⟨w, hw, hwp⟩ := h
    simp only [List.mem_map]
    constructor
    · rintro ⟨r', hr', rfl⟩
      split
      · rename_i hp; exact .inr (.inl ⟨r', hr', hp, rfl⟩)
      · rename_i hp; exact .inl ⟨hr', hp⟩
    · rintro (⟨hr, hp⟩ | ⟨r', hr', hp, rfl⟩ | ⟨rfl, hn⟩)
      · exact ⟨r, hr, by rw [if_neg hp]⟩
      · exact ⟨r', hr', by rw [if_pos hp]⟩
      · exact absurd hwp (hn w hw)
  · rw [if_neg h]
    have hn : ∀ r' ∈ t, r'.path ≠ new.path := by
      intro r' hr' hp
      exact h (List.any_eq_true.2 ⟨r', hr', by simpa using hp⟩)
    simp only [List.mem_append, List.mem_singleton]
    constructor
    · rintro (hr | rfl)
      · exact .inl ⟨hr, hn r hr⟩
      · exact .inr (.inr ⟨rfl, hn⟩)
    · rintro (⟨hr, _⟩ | ⟨r', hr', hp, _⟩ | ⟨rfl, _⟩)
      · exact .inl hr
      · exact absurd hp (hn r' hr')
      · exact .inr rfl

theorem mem_setWhiteout_row {n : Str} {t : Table} {r : Row} : r ∈ Table.setWhiteout n t ↔
    strictlyUnder n r.path = false ∧ ((r ∈ t ∧ r.path ≠ n) ∨ (r = ⟨n, true, false⟩)) := by
  unfold Table.setWhiteout
  rw [List.mem_filter, mem_upsert, deletes_iff_under]
  simp only [Bool.not_eq_true']
  constructor
  · rintro ⟨h | ⟨r', hr', hp, rfl⟩ | ⟨rfl, _⟩, hu⟩
    · exact ⟨hu, .inl h⟩
    · refine ⟨hu, .inr ?_⟩
      cases r'; simp_all
    · exact ⟨hu, .inr rfl⟩
  · rintro ⟨hu, h | rfl⟩
    · exact ⟨.inl h, hu⟩
    · refine ⟨?_, hu⟩
      by_cases hex : ∃ r' ∈ t, r'.path = n
      · obtain ⟨r', hr', hp⟩ := hex
        refine .inr (.inl ⟨r', hr', hp, ?_⟩)
        cases r'; simp_all
      · exact .inr (.inr ⟨rfl, fun r' hr' hp => hex ⟨r', hr', hp⟩⟩)

theorem mem_setOpaque_row {n : Str} {t : Table} {r : Row} : r ∈ Table.setOpaque n t ↔
    (r ∈ t ∧ r.path ≠ n) ∨ (∃ r' ∈ t, r'.path = n ∧ r = ⟨n, r'.whiteout, true⟩) ∨ (r = ⟨n, false, true⟩ ∧ ∀ r' ∈ t, r'.path ≠ n) := by
  unfold Table.setOpaque
  rw [mem_upsert]
  constructor
  · rintro (h | ⟨r', hr', hp, rfl⟩ | h)
    · exact .inl h
    · refine .inr (.inl ⟨r', hr', hp, ?_⟩)
      cases r'; simp_all
    · exact .inr (.inr h)
  · rintro (h | ⟨r', hr', hp, rfl⟩ | h)
    · exact .inl h
    · refine .inr (.inl ⟨r', hr', hp, ?_⟩)
      cases r'; simp_all
    · exact .inr (.inr h)

theorem mem_clearWhiteout_row {n : Str} {t : Table} {r : Row} : r ∈ Table.clearWhiteout n t ↔
    (r ∈ t ∧ r.path ≠ n) ∨ (∃ r' ∈ t, r'.path = n ∧ r'.opq = true ∧ r = ⟨n, false, true⟩) := by
  unfold Table.clearWhiteout
  rw [List.mem_filter, List.mem_map]
  constructor
  · rintro ⟨⟨r', hr', rfl⟩, hf⟩
    by_cases hp : r'.path = n
    · rw [if_pos hp] at hf ⊢
      have ho : r'.opq = true := by simpa [hp] using hf
      exact .inr ⟨r', hr', hp, ho, by rw [← hp, ← ho]⟩
    · rw [if_neg hp]
      exact .inl ⟨hr', hp⟩
  · rintro (⟨hr, hp⟩ | ⟨r', hr', hp, ho, rfl⟩)
    · exact ⟨⟨r, hr, by rw [if_neg hp]⟩, by simp [hp]⟩
    · refine ⟨⟨r', hr', ?_⟩, by simp⟩
      rw [if_pos hp]
      cases r'; simp_all

theorem mem_clearOpaque_row {n : Str} {t : Table} {r : Row} : r ∈ Table.clearOpaque n t ↔
    (r ∈ t ∧ r.path ≠ n) ∨ (∃ r' ∈ t, r'.path = n ∧ r'.whiteout = true ∧ r = ⟨n, true, false⟩) := by
  unfold Table.clearOpaque
  rw [List.mem_filter, List.mem_map]
  constructor
  · rintro ⟨⟨r', hr', rfl⟩, hf⟩
    by_cases hp : r'.path = n
    · rw [if_pos hp] at hf ⊢
      have ho : r'.whiteout = true := by simpa [hp] using hf
      exact .inr ⟨r', hr', hp, ho, by rw [← hp, ← ho]⟩
    · rw [if_neg hp]
      exact .inl ⟨hr', hp⟩
  · rintro (⟨hr, hp⟩ | ⟨r', hr', hp, ho, rfl⟩)
    · exact ⟨⟨r, hr, by rw [if_neg hp]⟩, by simp [hp]⟩
    · refine ⟨⟨r', hr', ?_⟩, by simp⟩
      rw [if_pos hp]
      cases r'; simp_all

theorem Agree.congr {s : MState} {m : Marks} {t : Table} {k : Nat} (h : Agree s) (hm : m = s.mem) (ht : t = s.store) : Agree ⟨m, t, k⟩ := by
  subst hm; subst ht
  exact ⟨h.whiteout, h.opq, h.clean, h.marked⟩

theorem agree_setWhiteout (f : Faults) (n : Str) {s : MState} (h : Agree s) : Agree (setWhiteout f n s).1 := by
  unfold setWhiteout
  rw [cleanName_idem]
  have hc := cleanName_clean n
  generalize cleanName n = n at hc
  split
  · exact h.congr rfl rfl
  · refine ⟨fun m => ?_, fun m => ?_, fun r hr => ?_, fun r hr => ?_⟩
    · simp only [mem_dropUnder, mem_setInsert, mem_setWhiteout_row]
      constructor
      · rintro ⟨hu, rfl | hm⟩
        · exact ⟨⟨m, true, false⟩, ⟨hu, .inr rfl⟩, rfl, rfl⟩
        · by_cases hmn : m = n
          · subst hmn
            exact ⟨⟨m, true, false⟩, ⟨hu, .inr rfl⟩, rfl, rfl⟩
          · obtain ⟨r, hr, hp, hw⟩ := (h.whiteout m).1 hm
            exact ⟨r, ⟨by rw [hp]; exact hu, .inl ⟨hr, by rw [hp]; exact hmn⟩⟩, hp, hw⟩
      · rintro ⟨r, ⟨hu, hr⟩, hp, hw⟩
        rw [hp] at hu
        refine ⟨hu, ?_⟩
        rcases hr with ⟨hr, hne⟩ | rfl
        · exact .inr ((h.whiteout m).2 ⟨r, hr, hp, hw⟩)
        · exact .inl hp.symm
    · simp only [mem_dropUnder, mem_setErase, mem_setWhiteout_row]
      constructor
      · rintro ⟨hu, hmn, hm⟩
        obtain ⟨r, hr, hp, hw⟩ := (h.opq m).1 hm
        exact ⟨r, ⟨by rw [hp]; exact hu, .inl ⟨hr, by rw [hp]; exact hmn⟩⟩, hp, hw⟩
      · rintro ⟨r, ⟨hu, hr⟩, hp, hw⟩
        rw [hp] at hu
        rcases hr with ⟨hr, hne⟩ | rfl
        · exact ⟨hu, by rw [← hp]; exact hne, (h.opq m).2 ⟨r, hr, hp, hw⟩⟩
        · cases hw
    · simp only [mem_setWhiteout_row] at hr
      rcases hr.2 with ⟨hr, _⟩ | rfl
      · exact h.clean r hr
      · exact hc
    · simp only [mem_setWhiteout_row] at hr
      rcases hr.2 with ⟨hr, _⟩ | rfl
      · exact h.marked r hr
      · exact .inl rfl

theorem agree_setOpaque (f : Faults) (n : Str) {s : MState} (h : Agree s) : Agree (setOpaque f n s).1 := by
  unfold setOpaque
  rw [cleanName_idem]
  have hc := cleanName_clean n
  generalize cleanName n = n at hc
  split
  · exact h.congr rfl rfl
  · refine ⟨fun m => ?_, fun m => ?_, fun r hr => ?_, fun r hr => ?_⟩
    · simp only [mem_setOpaque_row, h.whiteout m]
      constructor
      · rintro ⟨r, hr, hp, hw⟩
        by_cases hrn : r.path = n
        · exact ⟨⟨n, r.whiteout, true⟩, .inr (.inl ⟨r, hr, hrn, rfl⟩), by rw [← hp, hrn], hw⟩
        · exact ⟨r, .inl ⟨hr, hrn⟩, hp, hw⟩
      · rintro ⟨r, ⟨hr, hne⟩ | ⟨r', hr', hp', rfl⟩ | ⟨rfl, _⟩, hp, hw⟩
        · exact ⟨r, hr, hp, hw⟩
        · exact ⟨r', hr', by rw [hp', ← hp], hw⟩
        · cases hw
    · simp only [mem_setOpaque_row, mem_setInsert, h.opq m]
      constructor
      · rintro (rfl | ⟨r, hr, hp, hw⟩)
        · by_cases hex : ∃ r' ∈ s.store, r'.path = m
          · obtain ⟨r', hr', hp⟩ := hex
            exact ⟨_, .inr (.inl ⟨r', hr', hp, rfl⟩), rfl, rfl⟩
          · exact ⟨_, .inr (.inr ⟨rfl, fun r' hr' hp => hex ⟨r', hr', hp⟩⟩), rfl, rfl⟩
        · by_cases hrn : r.path = n
          · exact ⟨⟨n, r.whiteout, true⟩, .inr (.inl ⟨r, hr, hrn, rfl⟩), by rw [← hp, hrn], rfl⟩
          · exact ⟨r, .inl ⟨hr, hrn⟩, hp, hw⟩
      · rintro ⟨r, ⟨hr, hne⟩ | ⟨r', hr', hp', rfl⟩ | ⟨rfl, _⟩, hp, hw⟩
        · exact .inr ⟨r, hr, hp, hw⟩
        · exact .inl hp.symm
        · exact .inl hp.symm
    · simp only [mem_setOpaque_row] at hr
      rcases hr with ⟨hr, _⟩ | ⟨r', hr', hp', rfl⟩ | ⟨rfl, _⟩
      · exact h.clean r hr
      · exact hc
      · exact hc
    · simp only [mem_setOpaque_row] at hr
      rcases hr with ⟨hr, _⟩ | ⟨r', hr', hp', rfl⟩ | ⟨rfl, _⟩
      · exact h.marked r hr
      · exact .inr rfl
      · exact .inr rfl

theorem agree_clearWhiteout (f : Faults) (n : Str) {s : MState} (h : Agree s) : Agree (clearWhiteout f n s).1 := by
  unfold clearWhiteout
  rw [cleanName_idem]
  have hc := cleanName_clean n
  generalize cleanName n = n at hc
  split
  · exact h.congr rfl rfl
  · refine ⟨fun m => ?_, fun m => ?_, fun r hr => ?_, fun r hr => ?_⟩
    · simp only [mem_clearWhiteout_row, mem_setErase, h.whiteout m]
      constructor
      · rintro ⟨hmn, r, hr, hp, hw⟩
        exact ⟨r, .inl ⟨hr, by rw [hp]; exact hmn⟩, hp, hw⟩
      · rintro ⟨r, ⟨hr, hne⟩ | ⟨r', hr', hp', ho, rfl⟩, hp, hw⟩
        · exact ⟨by rw [← hp]; exact hne, r, hr, hp, hw⟩
        · cases hw
    · simp only [mem_clearWhiteout_row, h.opq m]
      constructor
      · rintro ⟨r, hr, hp, hw⟩
        by_cases hrn : r.path = n
        · exact ⟨⟨n, false, true⟩, .inr ⟨r, hr, hrn, hw, rfl⟩, by rw [← hp, hrn], rfl⟩
        · exact ⟨r, .inl ⟨hr, hrn⟩, hp, hw⟩
      · rintro ⟨r, ⟨hr, hne⟩ | ⟨r', hr', hp', ho, rfl⟩, hp, hw⟩
        · exact ⟨r, hr, hp, hw⟩
        · exact ⟨r', hr', by rw [hp', ← hp], ho⟩
    · simp only [mem_clearWhiteout_row] at hr
      rcases hr with ⟨hr, _⟩ | ⟨r', hr', hp', ho, rfl⟩
      · exact h.clean r hr
      · exact hc
    · simp only [mem_clearWhiteout_row] at hr
      rcases hr with ⟨hr, _⟩ | ⟨r', hr', hp', ho, rfl⟩
      · exact h.marked r hr
      · exact .inr rfl

theorem agree_clearOpaque (f : Faults) (n : Str) {s : MState} (h : Agree s) : Agree (clearOpaque f n s).1 := by
  unfold clearOpaque
  rw [cleanName_idem]
  have hc := cleanName_clean n
  generalize cleanName n = n at hc
  split
  · exact h.congr rfl rfl
  · refine ⟨fun m => ?_, fun m => ?_, fun r hr => ?_, fun r hr => ?_⟩
    · simp only [mem_clearOpaque_row, h.whiteout m]
      constructor
      · rintro ⟨r, hr, hp, hw⟩
        by_cases hrn : r.path = n
        · exact ⟨⟨n, true, false⟩, .inr ⟨r, hr, hrn, hw, rfl⟩, by rw [← hp, hrn], rfl⟩
        · exact ⟨r, .inl ⟨hr, hrn⟩, hp, hw⟩
      · rintro ⟨r, ⟨hr, hne⟩ | ⟨r', hr', hp', ho, rfl⟩, hp, hw⟩
        · exact ⟨r, hr, hp, hw⟩
        · exact ⟨r', hr', by rw [hp', ← hp], ho⟩
    · simp only [mem_clearOpaque_row, mem_setErase, h.opq m]
      constructor
      · rintro ⟨hmn, r, hr, hp, hw⟩
        exact ⟨r, .inl ⟨hr, by rw [hp]; exact hmn⟩, hp, hw⟩
      · rintro ⟨r, ⟨hr, hne⟩ | ⟨r', hr', hp', ho, rfl⟩, hp, hw⟩
        · exact ⟨by rw [← hp]; exact hne, r, hr, hp, hw⟩
        · cases hw
    · simp only [mem_clearOpaque_row] at hr
      rcases hr with ⟨hr, _⟩ | ⟨r', hr', hp', ho, rfl⟩
      · exact h.clean r hr
      · exact hc
    · simp only [mem_clearOpaque_row] at hr
      rcases hr with ⟨hr, _⟩ | ⟨r', hr', hp', ho, rfl⟩
      · exact h.marked r hr
      · exact .inl rfl

theorem agree_forNames {op : Str → MState → MRes} (hop : ∀ n s, Agree s → Agree (op n s).1) (ns : List Str) :
    ∀ s, Agree s → Agree (forNames op ns s).1 := by
  induction ns with
  | nil => intro s h; exact h
  | cons n ns ih =>
    intro s h
    have h1 := hop n s h
    unfold forNames
    rcases hr : op n s with ⟨s', b⟩
    rw [hr] at h1
    cases b with
    | false => exact h1
    | true => exact ih s' h1

theorem agree_andThen {a b : MState → MRes} (ha : ∀ s, Agree s → Agree (a s).1) (hb : ∀ s, Agree s → Agree (b s).1) :
    ∀ s, Agree s → Agree (andThen a b s).1 := by
  intro s h
  have h1 := ha s h
  unfold andThen
  rcases hr : a s with ⟨s', r⟩
  rw [hr] at h1
  cases r with
  | false => exact h1
  | true => exact hb s' h1

theorem agree_run (f : Faults) (op : MarkOp) {s : MState} (h : Agree s) : Agree (op.run f s).1 := by
  cases op with
  | setWhiteout n => exact agree_setWhiteout f n h
  | clearWhiteout n => exact agree_clearWhiteout f n h
  | setOpaque n => exact agree_setOpaque f n h
  | clearOpaque n => exact agree_clearOpaque f n h
  | clearSubtree n =>
    refine agree_andThen (agree_forNames ?_ _) (agree_forNames ?_ _) s h
    · intro n s h
      unfold clearWhiteoutIf
      split
      · exact agree_clearWhiteout f n h
      · exact h
    · intro n s h
      unfold clearOpaqueIf
      split
      · exact agree_clearOpaque f n h
      · exact h
  | renameSubtree a b =>
    refine agree_andThen (agree_forNames (fun n s h => agree_setWhiteout f _ h) _)
      (agree_andThen (agree_forNames (fun n s h => agree_setOpaque f _ h) _)
        (agree_andThen (agree_forNames (fun n s h => agree_clearWhiteout f n h) _)
          (agree_forNames (fun n s h => agree_clearOpaque f n h) _))) s h

theorem agree_history (f : Faults) (ops : List MarkOp) {s : MState} (h : Agree s) : Agree (history f ops s) := by
  induction ops generalizing s with
  | nil => exact h
  | cons op ops ih => exact ih (agree_run f op h)

/-- An overlay built over the rows a store holds. -/
def opened (t : Table) : MState := ⟨loadMarks t, t, 0⟩

/-- A store this package wrote: clean names, and no row without a mark (metadatastore_sqlite.go 237-238). -/
def WellKept (t : Table) : Prop := ∀ r ∈ t, IsClean r.path ∧ (r.whiteout = true ∨ r.opq = true)

theorem mem_loadWhiteouts {t : Table} (h : WellKept t) (n : Str) : n ∈ (loadMarks t).whiteout ↔ ∃ r ∈ t, r.path = n ∧ r.whiteout = true := by
  simp only [loadMarks, Table.loadWhiteouts, List.mem_map, List.mem_filter]
  constructor
  · rintro ⟨p, ⟨r, ⟨hr, hw⟩, rfl⟩, rfl⟩
    exact ⟨r, hr, (cleanName_of_clean (h r hr).1).symm, hw⟩
  · rintro ⟨r, hr, rfl, hw⟩
    exact ⟨r.path, ⟨r, ⟨hr, hw⟩, rfl⟩, cleanName_of_clean (h r hr).1⟩

theorem mem_loadOpaques {t : Table} (h : WellKept t) (n : Str) : n ∈ (loadMarks t).opq ↔ ∃ r ∈ t, r.path = n ∧ r.opq = true := by
  simp only [loadMarks, Table.loadOpaques, List.mem_map, List.mem_filter]
  constructor
  · rintro ⟨p, ⟨r, ⟨hr, hw⟩, rfl⟩, rfl⟩
    exact ⟨r, hr, (cleanName_of_clean (h r hr).1).symm, hw⟩
  · rintro ⟨r, hr, rfl, hw⟩
    exact ⟨r.path, ⟨r, ⟨hr, hw⟩, rfl⟩, cleanName_of_clean (h r hr).1⟩

theorem agree_opened {t : Table} (h : WellKept t) : Agree (opened t) :=
  ⟨mem_loadWhiteouts h, mem_loadOpaques h, fun r hr => (h r hr).1, fun r hr => (h r hr).2⟩

/-- **C60.** Open an overlay over a store, run any history of mark changes with any store calls failing: opening a second overlay over the
rows then in the store finds exactly the marks the first holds in memory. -/
theorem C60_reopen_same_marks (t : Table) (ht : WellKept t) (f : Faults) (ops : List MarkOp) (n : Str) :
    (n ∈ (loadMarks (history f ops (opened t)).store).whiteout ↔ n ∈ (history f ops (opened t)).mem.whiteout) ∧
    (n ∈ (loadMarks (history f ops (opened t)).store).opq ↔ n ∈ (history f ops (opened t)).mem.opq) := by
  have h := agree_history f ops (agree_opened ht)
  have hk : WellKept (history f ops (opened t)).store := fun r hr => ⟨h.clean r hr, h.marked r hr⟩
  exact ⟨(mem_loadWhiteouts hk n).trans (h.whiteout n).symm, (mem_loadOpaques hk n).trans (h.opq n).symm⟩

/-- The store stays well kept, so the theorem applies again after reopening. -/
theorem C60_store_well_kept (t : Table) (ht : WellKept t) (f : Faults) (ops : List MarkOp) :
    WellKept (history f ops (opened t)).store := by
  have h := agree_history f ops (agree_opened ht)
  exact fun r hr => ⟨h.clean r hr, h.marked r hr⟩

-- An empty store is well kept; a history with a failing store call in the middle of a directory's removal.
example : WellKept [] := by intro r hr; cases hr
example : (history (fun k => k = 3) [.setOpaque ['d'], .setWhiteout "d/x".toList, .setOpaque "d/y".toList, .clearSubtree ['d'], .setWhiteout ['e']]
    (opened [])).mem = ⟨[['e'], "d/x".toList], ["d/y".toList, ['d']]⟩ := by decide
example : (history (fun k => k = 3) [.setOpaque ['d'], .setWhiteout "d/x".toList, .setOpaque "d/y".toList, .clearSubtree ['d'], .setWhiteout ['e']]
    (opened [])).store = [⟨['d'], false, true⟩, ⟨"d/x".toList, true, false⟩, ⟨"d/y".toList, false, true⟩, ⟨['e'], true, false⟩] := by decide

end Verif.Overlay
