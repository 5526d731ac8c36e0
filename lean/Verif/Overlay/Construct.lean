import Verif.Overlay.Store
/-
Model of the construction and the end of an overlay: /repo/vroot-adapter/overlayfs/datasource.go 62-113 and 175-237, fs.go 68-148, state.go 55-95.

A layer's filesystem is a finite tree of paths (root first) with faults at every call: a failing `Mkdir` changes nothing, a failing `RemoveAll` may have
removed anything beneath its path. What opening the sqlite store does to its own files ("meta.sqlite3" and what sqlite appends to it) is arbitrary.
Left out: symlinks in the place of "merged" and "work", permissions, the widening of handle types.
-/
namespace Verif.Overlay.Construct

/-- A path of a layer, root first (the slash paths of datasource.go 175-218). -/
abbrev Path := List Str

/-- What is at a path: simplified to directories and files (datasource.go 208 `fi.IsDir()`). -/
inductive Node where
  | dir
  | file (content : List UInt8)
  deriving DecidableEq, Repr

/-- The filesystem of a layer (`DataSource.fsys`, datasource.go 52), as a finite map. -/
abbrev Tree := List (Path × Node)

/-- What the filesystem holds at a path. -/
def Tree.get (t : Tree) (p : Path) : Option Node := (t.find? (fun e => e.1 = p)).map (·.2)

/-- The names a canonical layer is made of (datasource.go 18-23). -/
def merged : Str := "merged".toList
def work : Str := "work".toList
def storeName : Str := "meta.sqlite3".toList

/-- The errors the constructors tell apart (datasource.go 67-113, 201-237; fs.go 68-110). -/
inductive Err where
  | notExist | exist | rofs | permission | notCanonical | topReadOnly | invalid | other (code : Nat)
  deriving DecidableEq, Repr

/-- What a filesystem does to the calls of a constructor: a fault for `Stat`, `Mkdir` and the listing, for each `RemoveAll` a fault with what it leaves behind. -/
structure Faults where
  stat : Str → Option Err
  mkdir : Str → Option Err
  list : Option Err
  removeAll : Str → Option (Err × (Path → Bool))

/-- `Fs.Stat` of a name in the root of the layer: whether it is a directory. -/
def stat (f : Faults) (t : Tree) (name : Str) : Except Err Bool :=
  match f.stat name with
  | some e => .error e
  | none => match t.get [name] with
    | none => .error .notExist
    | some n => .ok (decide (n = .dir))

/-- `Fs.Mkdir` of a name in the root of the layer. -/
def mkdir (f : Faults) (t : Tree) (name : Str) : Option Err × Tree :=
  match f.mkdir name with
  | some e => (some e, t)
  | none => match t.get [name] with
    | some _ => (some .exist, t)
    | none => (none, t ++ [([name], .dir)])

/-- datasource.go 201-218 `ensureCanonical`, one name. -/
def ensure (f : Faults) (t : Tree) (name : Str) : Option Err × Tree :=
  match stat f t name with
  | .ok true => (none, t)
  | .ok false => (some .notCanonical, t)
  | .error .notExist => mkdir f t name
  | .error e => (some e, t)

/-- datasource.go 201-218 `ensureCanonical`. -/
def ensureCanonical (f : Faults) (t : Tree) : Option Err × Tree :=
  match ensure f t merged with
  | (some e, t1) => (some e, t1)
  | (none, t1) => ensure f t1 work

/-- How opening the database goes (metadatastore_sqlite.go): for writing and read-only, and what it leaves of the database's own files. -/
structure StoreOpen where
  writable : Option Err
  frozen : Option Err
  files : Tree

/-- A file of the database: "meta.sqlite3" and what sqlite appends to the name. -/
def isStoreFile (p : Path) : Bool :=
  match p with
  | [c] => storeName.isPrefixOf c
  | _ => false

/-- The tree after the database was opened. -/
def withStore (t : Tree) (o : StoreOpen) : Tree := t.filter (fun e => !isStoreFile e.1) ++ o.files.filter (fun e => isStoreFile e.1)

/-- datasource.go 51-58 `DataSource`. -/
structure DataSource where
  tree : Tree
  canonical : Bool
  store : Option Table
  readOnly : Bool

/-- What an error says: `errors.Is(err, EROFS)` or `errors.Is(err, ErrPermission)`. -/
def refusedWrite (e : Err) : Bool := e = .rofs || e = .permission

/-- datasource.go 224-237 `openStore`: whether it is read-only. -/
def openStore (o : StoreOpen) : Except (List Err) Bool :=
  match o.writable with
  | none => .ok false
  | some e =>
    if refusedWrite e = false then .error [e]
    else match o.frozen with
      | some e' => .error [e, e']
      | none => .ok true

/-- datasource.go 62-65 `NewDataSource`. -/
def newPlain (t : Tree) : DataSource := ⟨t, false, none, false⟩

/-- datasource.go 79-89 `NewDataSourceCanonical`; `table` is what the database holds. The tree is returned in any case. -/
def newCanonical (f : Faults) (o : StoreOpen) (table : Table) (t : Tree) : Except (List Err) DataSource × Tree :=
  match ensureCanonical f t with
  | (some e, t1) => (.error [e], t1)
  | (none, t1) =>
    match openStore o with
    | .error es => (.error es, withStore t1 o)
    | .ok ro => (.ok ⟨withStore t1 o, true, some table, ro⟩, withStore t1 o)

/-- The names in a directory in the root of a layer. -/
def children (t : Tree) (d : Str) : List Str :=
  t.filterMap fun e => match e.1 with
    | [a, b] => if a = d then some b else none
    | _ => none

/-- What `RemoveAll` of a path takes with it (datasource.go 190-195). -/
def beneath (p q : Path) : Bool := p.isPrefixOf q

/-- `Fs.RemoveAll`. -/
def removeAll (f : Faults) (t : Tree) (c : Str) : Option Err × Tree :=
  match f.removeAll c with
  | none => (none, t.filter (fun e => !beneath [work, c] e.1))
  | some (er, keep) => (some er, t.filter (fun e => !beneath [work, c] e.1 || keep e.1))

/-- datasource.go 190-195: the loop of `sweepWork`. -/
def sweepLoop (f : Faults) : List Str → Tree → Option Err × Tree
  | [], t => (none, t)
  | c :: cs, t => match removeAll f t c with
    | (some e, t1) => (some e, t1)
    | (none, t1) => sweepLoop f cs t1

/-- datasource.go 179-197 `sweepWork`. -/
def sweepWork (f : Faults) (d : DataSource) : Option Err × Tree :=
  if d.canonical = false then (none, d.tree)
  else match f.list with
    | some .notExist => (none, d.tree)
    | some e => (some e, d.tree)
    | none =>
      if d.tree.get [work] = none then (none, d.tree)
      else if d.tree.get [work] ≠ some .dir then (some (.other 20), d.tree)
      else sweepLoop f (children d.tree work) d.tree

/-- state.go 75-95: the masks of a layer; a fault of `Load` is `load`. -/
def loadMasks (load : Option Err) (d : DataSource) : Except Err Marks :=
  match d.store with
  | none => .ok ⟨[], []⟩
  | some t => match load with
    | some e => .error e
    | none => .ok (loadMarks t)

/-- state.go 75-95: the masks of all layers, stopping at the first failure. -/
def loadAll : List (DataSource × Option Err) → Except Err (List Marks)
  | [] => .ok []
  | (d, l) :: r => match loadMasks l d with
    | .error e => .error e
    | .ok m => match loadAll r with
      | .error e => .error e
      | .ok ms => .ok (m :: ms)

/-- state.go 66-72: a nil lower is refused. -/
def nonNil : List (Option (DataSource × Option Err)) → Option (List (DataSource × Option Err))
  | [] => some []
  | none :: _ => none
  | some d :: r => (nonNil r).map (d :: ·)

/-- state.go 62-96 `newOverlayState`; each layer comes with a fault of its store's `Load`; a nil layer is `none`. -/
def newState (top : Option (DataSource × Option Err)) (lowers : List (Option (DataSource × Option Err))) : Except Err (List Marks) :=
  match top with
  | none => .error .notCanonical
  | some (d, l) =>
    if d.canonical = false ∨ d.store = none then .error .notCanonical
    else match nonNil lowers with
      | none => .error .invalid
      | some ls => loadAll ((d, l) :: ls)

/-- fs.go 86-113 `New`: the masks of the layers, top first, and the top's tree. -/
def new (f : Faults) (top : Option (DataSource × Option Err)) (lowers : List (Option (DataSource × Option Err))) : Except Err (List Marks) × Option Tree :=
  match newState top lowers with
  | .error e => (.error e, top.map (·.1.tree))
  | .ok ms =>
    match top with
    | none => (.error .notCanonical, none)
    | some (d, _) =>
      if d.readOnly then (.error .topReadOnly, some d.tree)
      else match sweepWork f d with
        | (some e, t) => (.error e, some t)
        | (none, t) => (.ok ms, some t)

/-! ### Closing -/

/-- A layer as `Close` meets it (datasource.go 107-113). What is closed is written `(layer, false)` for the store and `(layer, true)` for the filesystem. -/
structure Closing where
  hasStore : Bool
  storeErr : Option Err
  fsErr : Option Err

/-- datasource.go 107-113 `Close`: the things closed and the errors. -/
def closeLayer (i : Nat) (c : Closing) : List (Nat × Bool) × List Err :=
  ((if c.hasStore then [(i, false)] else []) ++ [(i, true)], (if c.hasStore then c.storeErr.toList else []) ++ c.fsErr.toList)

/-- fs.go 140-147: the loop of `Close`. -/
def closeLayers : Nat → List Closing → List (Nat × Bool) × List Err
  | _, [] => ([], [])
  | i, c :: cs => ((closeLayer i c).1 ++ (closeLayers (i + 1) cs).1, (closeLayer i c).2 ++ (closeLayers (i + 1) cs).2)

/-- fs.go 135-148 `Close`. -/
def close (owner : Bool) (ls : List Closing) : List (Nat × Bool) × List Err := if owner = false then ([], []) else closeLayers 0 ls

/-! ## What a layer must be -/

/-- The paths strictly inside "work". -/
def Staged (p : Path) : Prop := ∃ c r, p = work :: c :: r

theorem get_append (t u : Tree) (p : Path) : (t ++ u).get p = (t.get p).or (u.get p) := by
  simp only [Tree.get, List.find?_append]
  cases t.find? (fun e => e.1 = p) <;> simp

theorem get_filter (t : Tree) (q : Path → Bool) (p : Path) : Tree.get (t.filter (fun e => q e.1)) p = if q p then t.get p else none := by
  simp only [Tree.get]
  induction t with
  | nil => simp
  | cons e t ih =>
    rw [List.filter_cons]
    by_cases he : e.1 = p
    · by_cases hq : q p = true
      · rw [if_pos (by rw [he]; exact hq), if_pos hq]; simp [he]
      · rw [if_neg (by rw [he]; exact hq), ih, if_neg hq]; simp [hq]
    · by_cases hq : q e.1 = true
      · rw [if_pos hq, List.find?_cons_of_neg (by simpa using he), List.find?_cons_of_neg (by simpa using he)]
        exact ih
      · rw [if_neg hq, List.find?_cons_of_neg (by simpa using he)]
        exact ih

theorem ensure_spec (f : Faults) (t : Tree) (name : Str) :
    (∀ p, p ≠ [name] → (ensure f t name).2.get p = t.get p) ∧
    (∀ n, t.get [name] = some n → (ensure f t name).2 = t) ∧
    ((ensure f t name).2.get [name] = t.get [name] ∨ (ensure f t name).2.get [name] = some .dir) ∧
    ((ensure f t name).1 = none → (ensure f t name).2.get [name] = some .dir) := by
  unfold ensure stat
  cases hf : f.stat name with
  | some e =>
    by_cases he : e = .notExist
    · subst he
      simp only [mkdir]
      cases f.mkdir name with
      | some e => exact ⟨fun _ _ => rfl, fun _ _ => rfl, Or.inl rfl, fun h => by cases h⟩
      | none =>
        simp only
        cases hg : t.get [name] with
        | some n => exact ⟨fun _ _ => rfl, fun _ _ => rfl, Or.inl hg, fun h => by cases h⟩
        | none =>
          refine ⟨?_, fun n h => (by cases h), Or.inr ?_, fun _ => ?_⟩
          · intro p hp
            simp only [get_append]
            cases t.get p <;> simp [Tree.get, Ne.symm hp]
          · simp only [get_append, hg]; simp [Tree.get]
          · simp only [get_append, hg]; simp [Tree.get]
    · cases e <;> first
        | exact absurd rfl he
        | exact ⟨fun _ _ => rfl, fun _ _ => rfl, Or.inl rfl, fun h => by cases h⟩
  | none =>
    simp only
    cases hg : t.get [name] with
    | none =>
      simp only [mkdir]
      cases f.mkdir name with
      | some e => exact ⟨fun _ _ => rfl, fun n h => (by cases h), Or.inl hg, fun h => by cases h⟩
      | none =>
        simp only [hg]
        refine ⟨?_, fun n h => (by cases h), Or.inr ?_, fun _ => ?_⟩
        · intro p hp
          simp only [get_append]
          cases t.get p <;> simp [Tree.get, Ne.symm hp]
        · simp only [get_append, hg]; simp [Tree.get]
        · simp only [get_append, hg]; simp [Tree.get]
    | some n =>
      cases n with
      | dir => exact ⟨fun _ _ => rfl, fun _ _ => rfl, Or.inl hg, fun _ => hg⟩
      | file c => exact ⟨fun _ _ => rfl, fun _ _ => rfl, Or.inl hg, fun h => by simp at h⟩

theorem withStore_get (t : Tree) (o : StoreOpen) (p : Path) (hp : isStoreFile p = false) : (withStore t o).get p = t.get p := by
  rw [withStore, get_append, get_filter t (fun p => !isStoreFile p) p, get_filter o.files isStoreFile p, hp]
  cases t.get p <;> rfl

theorem merged_ne_work : ([merged] : Path) ≠ [work] := by decide
theorem merged_not_store : isStoreFile [merged] = false := by decide
theorem work_not_store : isStoreFile [work] = false := by decide

theorem ensureCanonical_spec (f : Faults) (t : Tree) :
    (∀ p, p ≠ [merged] → p ≠ [work] → (ensureCanonical f t).2.get p = t.get p) ∧
    (∀ p, (ensureCanonical f t).2.get p = t.get p ∨ (t.get p = none ∧ (ensureCanonical f t).2.get p = some .dir)) ∧
    ((ensureCanonical f t).1 = none → (ensureCanonical f t).2.get [merged] = some .dir ∧ (ensureCanonical f t).2.get [work] = some .dir) := by
  unfold ensureCanonical
  obtain ⟨a1, a2, a3, a4⟩ := ensure_spec f t merged
  generalize hr : ensure f t merged = r at a1 a2 a3 a4
  obtain ⟨e, t1⟩ := r
  have hm : ∀ p, Tree.get t1 p = t.get p ∨ (t.get p = none ∧ Tree.get t1 p = some .dir) := by
    intro p
    by_cases hp : p = [merged]
    · subst hp
      cases hg : t.get [merged] with
      | some n => left; rw [show t1 = t from a2 n hg, hg]
      | none =>
        rcases a3 with h | h
        · left; rw [← hg]; exact h
        · exact Or.inr ⟨rfl, h⟩
    · exact Or.inl (a1 p hp)
  cases e with
  | some e => exact ⟨fun p h1 _ => a1 p h1, hm, fun h => by cases h⟩
  | none =>
    simp only
    obtain ⟨b1, b2, b3, b4⟩ := ensure_spec f t1 work
    refine ⟨fun p h1 h2 => by rw [b1 p h2, a1 p h1], ?_, ?_⟩
    · intro p
      by_cases hp : p = [work]
      · subst hp
        have hw := a1 [work] (Ne.symm merged_ne_work)
        cases hg : t.get [work] with
        | some n => left; rw [b2 n (by rw [hw, hg]), hw, hg]
        | none =>
          rcases b3 with h | h
          · left; rw [h, hw, hg]
          · exact Or.inr ⟨rfl, h⟩
      · rw [b1 p hp]; exact hm p
    · intro h
      exact ⟨by rw [b1 _ merged_ne_work]; exact a4 rfl, b4 h⟩

/-- **C103** (the layout). Whatever fails, making a canonical layer changes nothing that was there but the database's own files, and adds nothing but the two directories; when
it succeeds both are directories, the masks are those of the store, and the layer is read-only exactly when the database could not be opened for writing. -/
theorem C103_layout (f : Faults) (o : StoreOpen) (table : Table) (t : Tree) :
    let r := newCanonical f o table t
    (∀ p, isStoreFile p = false → r.2.get p = t.get p ∨ (t.get p = none ∧ (p = [merged] ∨ p = [work]) ∧ r.2.get p = some .dir)) ∧
    ∀ d, r.1 = .ok d → d.tree = r.2 ∧ d.canonical = true ∧ d.store = some table ∧ r.2.get [merged] = some .dir ∧ r.2.get [work] = some .dir ∧
      (d.readOnly = false ↔ o.writable = none) ∧
      (d.readOnly = true → (o.writable = some .rofs ∨ o.writable = some .permission) ∧ o.frozen = none) := by
  intro r
  obtain ⟨a1, a2, a3⟩ := ensureCanonical_spec f t
  have hframe : ∀ t2, (∀ p, isStoreFile p = false → Tree.get t2 p = (ensureCanonical f t).2.get p) →
      ∀ p, isStoreFile p = false → Tree.get t2 p = t.get p ∨ (t.get p = none ∧ (p = [merged] ∨ p = [work]) ∧ Tree.get t2 p = some .dir) := by
    intro t2 ht p hp
    rw [ht p hp]
    by_cases h1 : p = [merged]
    · rcases a2 p with h | ⟨h, h'⟩
      · exact Or.inl h
      · exact Or.inr ⟨h, Or.inl h1, h'⟩
    · by_cases h2 : p = [work]
      · rcases a2 p with h | ⟨h, h'⟩
        · exact Or.inl h
        · exact Or.inr ⟨h, Or.inr h2, h'⟩
      · exact Or.inl (a1 p h1 h2)
  generalize he : ensureCanonical f t = ec at a3 hframe
  obtain ⟨e, t1⟩ := ec
  cases e with
  | some e =>
    have hr : r = (.error [e], t1) := by simp only [r, newCanonical, he]
    rw [hr]
    exact ⟨hframe t1 (fun _ _ => rfl), fun d h => by cases h⟩
  | none =>
    have a3 := a3 rfl
    simp only at a3 hframe
    cases hs : openStore o with
    | error es =>
      have hr : r = (.error es, withStore t1 o) := by simp only [r, newCanonical, he, hs]
      rw [hr]
      exact ⟨hframe _ (fun p hp => withStore_get t1 o p hp), fun d h => by cases h⟩
    | ok ro =>
      have hr : r = (.ok ⟨withStore t1 o, true, some table, ro⟩, withStore t1 o) := by simp only [r, newCanonical, he, hs]
      rw [hr]
      refine ⟨hframe _ (fun p hp => withStore_get t1 o p hp), ?_⟩
      intro d h
      injection h with h
      subst h
      refine ⟨rfl, rfl, rfl, ?_, ?_, ?_, ?_⟩
      · rw [withStore_get _ _ _ merged_not_store]; exact a3.1
      · rw [withStore_get _ _ _ work_not_store]; exact a3.2
      · unfold openStore at hs
        cases hw : o.writable with
        | none => rw [hw] at hs; injection hs with hs; simp [← hs]
        | some e =>
          rw [hw] at hs
          simp only at hs
          split at hs
          · cases hs
          · split at hs
            · cases hs
            · injection hs with hs; simp [← hs]
      · intro hro
        have hro : ro = true := hro
        subst hro
        unfold openStore at hs
        cases hw : o.writable with
        | none => rw [hw] at hs; cases hs
        | some e =>
          rw [hw] at hs
          simp only at hs
          split at hs
          · cases hs
          · rename_i hrw
            split at hs
            · cases hs
            · rename_i hfz
              refine ⟨?_, hfz⟩
              cases e <;> simp [refusedWrite] at hrw ⊢

theorem ensure_clean {f : Faults} {t : Tree} {name : Str} (hf : f.stat name = none) (hm : f.mkdir name = none) :
    (ensure f t name).1 = none ∧ t.get [name] = none ∨ (ensure f t name).1 = none ∧ t.get [name] = some .dir ∨
    (ensure f t name).1 = some .notCanonical ∧ ∃ c, t.get [name] = some (.file c) := by
  unfold ensure stat
  rw [hf]
  simp only
  cases hg : t.get [name] with
  | none => simp [mkdir, hm, hg]
  | some n => cases n <;> simp

theorem ensure_ro {f : Faults} {t : Tree} {name : Str} (hf : f.stat name = none) (hm : f.mkdir name = some .rofs) :
    (ensure f t name).2 = t ∧ ((ensure f t name).1 = none ↔ t.get [name] = some .dir) := by
  unfold ensure stat
  rw [hf]
  simp only
  cases hg : t.get [name] with
  | none => simp [mkdir, hm]
  | some n => cases n <;> simp

/-- **C103** (a layer can be made). When the filesystem does not fail, a layer is made exactly when no file stands where its directories belong and the database can be
opened, for writing or, when that is refused, for reading. A file in the way is what the error says. -/
theorem C103_made (f : Faults) (o : StoreOpen) (table : Table) (t : Tree) (hs : ∀ n, f.stat n = none) (hm : ∀ n, f.mkdir n = none) :
    ((∃ d, (newCanonical f o table t).1 = .ok d) ↔
      (∀ n ∈ [merged, work], ∀ c, t.get [n] ≠ some (.file c)) ∧
      (o.writable = none ∨ (o.writable = some .rofs ∨ o.writable = some .permission) ∧ o.frozen = none)) ∧
    ((∃ n ∈ [merged, work], ∃ c, t.get [n] = some (.file c)) → (newCanonical f o table t).1 = .error [.notCanonical]) := by
  have hw1 : (ensure f t merged).2.get [work] = t.get [work] := (ensure_spec f t merged).1 [work] (Ne.symm merged_ne_work)
  have hec : ((ensureCanonical f t).1 = none ∧ (∀ n ∈ [merged, work], ∀ c, t.get [n] ≠ some (.file c))) ∨
      ((ensureCanonical f t).1 = some .notCanonical ∧ ∃ n ∈ [merged, work], ∃ c, t.get [n] = some (.file c)) := by
    have h1 := ensure_clean (t := t) (hs merged) (hm merged)
    have h2 := ensure_clean (t := (ensure f t merged).2) (hs work) (hm work)
    rw [hw1] at h2
    unfold ensureCanonical
    generalize ensure f t merged = r at h1 h2
    obtain ⟨e, t1⟩ := r
    simp only at h1 h2
    have hcase : ∀ {g1 g2 : Option Node}, (g1 = none ∨ g1 = some .dir) → (g2 = none ∨ g2 = some .dir) → t.get [merged] = g1 → t.get [work] = g2 →
        ∀ n ∈ [merged, work], ∀ c, t.get [n] ≠ some (.file c) := by
      intro g1 g2 k1 k2 e1 e2 n hn c
      rcases List.mem_cons.mp hn with rfl | hn
      · rw [e1]; rcases k1 with rfl | rfl <;> simp
      · have := List.mem_singleton.mp hn
        subst this
        rw [e2]; rcases k2 with rfl | rfl <;> simp
    have hg1 : e = none ∧ (t.get [merged] = none ∨ t.get [merged] = some .dir) ∨ e = some .notCanonical ∧ ∃ c, t.get [merged] = some (.file c) := by
      rcases h1 with h | h | h
      · exact Or.inl ⟨h.1, Or.inl h.2⟩
      · exact Or.inl ⟨h.1, Or.inr h.2⟩
      · exact Or.inr h
    rcases hg1 with ⟨rfl, k1⟩ | ⟨rfl, c, hc⟩
    · rcases h2 with h | h | h
      · exact Or.inl ⟨h.1, hcase k1 (Or.inl h.2) rfl rfl⟩
      · exact Or.inl ⟨h.1, hcase k1 (Or.inr h.2) rfl rfl⟩
      · obtain ⟨h, c, hc⟩ := h
        exact Or.inr ⟨h, work, by simp, c, hc⟩
    · exact Or.inr ⟨rfl, merged, by simp, c, hc⟩
  have hos : (∃ ro, openStore o = .ok ro) ↔ (o.writable = none ∨ (o.writable = some .rofs ∨ o.writable = some .permission) ∧ o.frozen = none) := by
    unfold openStore
    cases o.writable with
    | none => simp
    | some e =>
      cases o.frozen with
      | none => cases e <;> simp [refusedWrite]
      | some e' => cases e <;> simp [refusedWrite]
  rcases hec with ⟨h1, h2⟩ | ⟨h1, h2⟩
  · refine ⟨?_, fun h => ?_⟩
    · rw [← hos]
      unfold newCanonical
      generalize ensureCanonical f t = ec at h1
      obtain ⟨e, t1⟩ := ec
      simp only at h1
      subst h1
      simp only
      cases openStore o with
      | error es => simp
      | ok ro => simp only [Except.ok.injEq, exists_eq', and_true, true_iff]; exact h2
    · obtain ⟨n, hn, c, hc⟩ := h
      exact absurd hc (h2 n hn c)
  · have hr : (newCanonical f o table t).1 = .error [.notCanonical] := by
      unfold newCanonical
      generalize ensureCanonical f t = ec at h1
      obtain ⟨e, t1⟩ := ec
      simp only at h1
      subst h1
      rfl
    refine ⟨?_, fun _ => hr⟩
    rw [hr]
    constructor
    · rintro ⟨d, hd⟩; cases hd
    · rintro ⟨h, _⟩
      obtain ⟨n, hn, c, hc⟩ := h2
      exact absurd hc (h n hn c)

/-- **C103** (read-only filesystems). On a filesystem that refuses every write a layer is made exactly when its directories are there and the database can be read; the
layer is then read-only, and nothing but possibly the database's own files differs. -/
theorem C103_readonly (f : Faults) (o : StoreOpen) (table : Table) (t : Tree) (hs : ∀ n, f.stat n = none) (hm : ∀ n, f.mkdir n = some .rofs)
    (ho : o.writable = some .rofs) :
    ((∃ d, (newCanonical f o table t).1 = .ok d) ↔ t.get [merged] = some .dir ∧ t.get [work] = some .dir ∧ o.frozen = none) ∧
    (∀ d, (newCanonical f o table t).1 = .ok d → d.readOnly = true) ∧
    ∀ p, isStoreFile p = false → (newCanonical f o table t).2.get p = t.get p := by
  have h1 := ensure_ro (t := t) (hs merged) (hm merged)
  have hec : (ensureCanonical f t).2 = t ∧ ((ensureCanonical f t).1 = none ↔ t.get [merged] = some .dir ∧ t.get [work] = some .dir) := by
    unfold ensureCanonical
    generalize ensure f t merged = r at h1
    obtain ⟨e, t1⟩ := r
    obtain ⟨rfl, h1⟩ := h1
    have h2 := ensure_ro (t := t1) (hs work) (hm work)
    cases e with
    | some e => simp only at h1 ⊢; exact ⟨trivial, by simp only [reduceCtorEq, false_iff] at h1 ⊢; exact fun h => h1 h.1⟩
    | none =>
      simp only at h1 ⊢
      simp only [true_iff] at h1
      exact ⟨h2.1, by rw [h2.2]; simp [h1]⟩
  unfold newCanonical
  generalize ensureCanonical f t = ec at hec
  obtain ⟨e, t1⟩ := ec
  obtain ⟨rfl, hec⟩ := hec
  simp only at hec
  cases e with
  | some e =>
    simp only [reduceCtorEq, false_iff] at hec
    refine ⟨⟨fun ⟨d, h⟩ => (by cases h), fun h => absurd ⟨h.1, h.2.1⟩ hec⟩, fun d h => (by cases h), fun p _ => rfl⟩
  | none =>
    simp only [true_iff] at hec
    simp only
    have hos : openStore o = match o.frozen with | some e' => .error [.rofs, e'] | none => .ok true := by
      unfold openStore; rw [ho]; rfl
    rw [hos]
    cases hf : o.frozen with
    | some e' => exact ⟨⟨fun ⟨d, h⟩ => (by cases h), fun h => (by cases h.2.2)⟩, fun d h => (by cases h), fun p hp => withStore_get _ _ p hp⟩
    | none =>
      exact ⟨⟨fun _ => ⟨hec.1, hec.2, rfl⟩, fun _ => ⟨_, rfl⟩⟩, fun d h => (by injection h with h; rw [← h]), fun p hp => withStore_get _ _ p hp⟩

/-! ## Opening -/

/-- Every path in the tree lies in directories. -/
def Closed (t : Tree) : Prop := ∀ e ∈ t, ∀ p q, e.1 = p ++ q → p ≠ [] → q ≠ [] → t.get p = some .dir

theorem removeAll_frame (f : Faults) (t : Tree) (c : Str) (p : Path) (hp : ¬ Staged p) : (removeAll f t c).2.get p = t.get p := by
  have hb : beneath [work, c] p = false := by
    rw [Bool.eq_false_iff]
    intro h
    obtain ⟨r, hr⟩ := List.isPrefixOf_iff_prefix.mp h
    exact hp ⟨c, r, by rw [← hr]; rfl⟩
  unfold removeAll
  split
  · simp only
    rw [get_filter t (fun p => !beneath [work, c] p) p, hb]; rfl
  · simp only
    rename_i keep _
    rw [get_filter t (fun p => !beneath [work, c] p || keep p) p, hb]; rfl

theorem sweepLoop_frame (f : Faults) : ∀ (cs : List Str) (t : Tree) (p : Path), ¬ Staged p → (sweepLoop f cs t).2.get p = t.get p := by
  intro cs
  induction cs with
  | nil => intro t p _; rfl
  | cons c cs ih =>
    intro t p hp
    have h := removeAll_frame f t c p hp
    rw [sweepLoop]
    generalize removeAll f t c = r at h
    obtain ⟨e, t1⟩ := r
    cases e with
    | some e => exact h
    | none => simp only; rw [ih t1 p hp]; exact h

theorem sweepWork_frame (f : Faults) (d : DataSource) (p : Path) (hp : ¬ Staged p) : (sweepWork f d).2.get p = d.tree.get p := by
  unfold sweepWork
  split
  · rfl
  · split
    · rfl
    · rfl
    · split
      · rfl
      · split
        · rfl
        · exact sweepLoop_frame f _ _ p hp

theorem sweepLoop_sub (f : Faults) : ∀ (cs : List Str) (t : Tree), (∀ e ∈ (sweepLoop f cs t).2, e ∈ t) ∧
    ((sweepLoop f cs t).1 = none → ∀ c ∈ cs, ∀ e ∈ (sweepLoop f cs t).2, beneath [work, c] e.1 = false) := by
  intro cs
  induction cs with
  | nil => intro t; exact ⟨fun e h => h, fun _ c h => by cases h⟩
  | cons c cs ih =>
    intro t
    rw [sweepLoop]
    have h : (∀ e ∈ (removeAll f t c).2, e ∈ t) ∧ ((removeAll f t c).1 = none → ∀ e ∈ (removeAll f t c).2, beneath [work, c] e.1 = false) := by
      unfold removeAll
      split
      · refine ⟨fun e he => (List.mem_filter.mp he).1, fun _ e he => ?_⟩
        have := (List.mem_filter.mp he).2
        simpa using this
      · exact ⟨fun e he => (List.mem_filter.mp he).1, fun h => by cases h⟩
    generalize removeAll f t c = r at h
    obtain ⟨e, t1⟩ := r
    cases e with
    | some e => exact ⟨h.1, fun h => by cases h⟩
    | none =>
      simp only at h ⊢
      obtain ⟨i1, i2⟩ := ih t1
      refine ⟨fun e he => h.1 e (i1 e he), ?_⟩
      intro hn x hx e he
      rcases List.mem_cons.mp hx with rfl | hx
      · exact h.2 trivial e (i1 e he)
      · exact i2 hn x hx e he

theorem mem_of_get {t : Tree} {p : Path} {n : Node} (h : t.get p = some n) : ∃ e ∈ t, e.1 = p := by
  simp only [Tree.get, Option.map_eq_some_iff] at h
  obtain ⟨e, he, _⟩ := h
  exact ⟨e, List.mem_of_find?_eq_some he, by simpa using List.find?_some he⟩

theorem get_of_mem {t : Tree} {e : Path × Node} (h : e ∈ t) : t.get e.1 ≠ none := by
  simp only [Tree.get, ne_eq, Option.map_eq_none_iff, List.find?_eq_none]
  intro hh
  exact hh e h (by simp)

theorem sweepWork_empty (f : Faults) (d : DataSource) (hd : d.canonical = true) (hc : Closed d.tree) (hl : f.list ≠ some .notExist)
    (hok : (sweepWork f d).1 = none) (p : Path) (hp : Staged p) : (sweepWork f d).2.get p = none := by
  obtain ⟨c, r, rfl⟩ := hp
  have hin : ∀ e ∈ d.tree, e.1 = work :: c :: r → d.tree.get [work] = some .dir ∧ c ∈ children d.tree work := by
    intro e he hee
    refine ⟨hc e he [work] (c :: r) (by rw [hee]; rfl) (by simp) (by simp), ?_⟩
    have hex : ∃ e' ∈ d.tree, e'.1 = [work, c] := by
      cases r with
      | nil => exact ⟨e, he, hee⟩
      | cons x r => exact mem_of_get (hc e he [work, c] (x :: r) (by rw [hee]; rfl) (by simp) (by simp))
    obtain ⟨e', he', hee'⟩ := hex
    refine List.mem_filterMap.mpr ⟨e', he', ?_⟩
    rw [hee']
    simp
  have hnone : (∀ e ∈ (sweepWork f d).2, e.1 ≠ work :: c :: r) → (sweepWork f d).2.get (work :: c :: r) = none := by
    intro h
    cases hg : (sweepWork f d).2.get (work :: c :: r) with
    | none => rfl
    | some n =>
      obtain ⟨e, he, hee⟩ := mem_of_get hg
      exact absurd hee (h e he)
  apply hnone
  intro e he hee
  unfold sweepWork at he hok
  rw [if_neg (by rw [hd]; simp)] at he hok
  split at he
  · rename_i h; exact hl h
  · rename_i e' hne h
    rw [h] at hok
    cases e' <;> first | exact hne rfl | cases hok
  · rename_i h
    rw [h] at hok
    simp only at hok
    split at he
    · rename_i hw
      have := (hin e he hee).1
      rw [hw] at this; cases this
    · rename_i hw
      rw [if_neg hw] at hok
      split at he
      · rename_i hw2; rw [if_pos hw2] at hok; cases hok
      · rename_i hw2
        rw [if_neg hw2] at hok
        obtain ⟨s1, s2⟩ := sweepLoop_sub f (children d.tree work) d.tree
        have hb := s2 hok c (hin e (s1 e he) hee).2 e he
        rw [hee] at hb
        simp [beneath] at hb

theorem nonNil_some {lowers : List (Option (DataSource × Option Err))} {ls : List (DataSource × Option Err)} (h : nonNil lowers = some ls) : lowers = ls.map some := by
  induction lowers generalizing ls with
  | nil => cases h; rfl
  | cons x r ih =>
    cases x with
    | none => cases h
    | some d =>
      simp only [nonNil, Option.map_eq_some_iff] at h
      obtain ⟨l, hl, rfl⟩ := h
      rw [ih hl]; rfl

theorem nonNil_map (ls : List (DataSource × Option Err)) : nonNil (ls.map some) = some ls := by
  induction ls with
  | nil => rfl
  | cons x r ih => simp [nonNil, ih]

/-- What the store of a layer says is masked: for a plain layer nothing. -/
def Masked (d : DataSource) (m : Marks) : Prop :=
  match d.store with
  | none => (∀ n, n ∉ m.whiteout) ∧ ∀ n, n ∉ m.opq
  | some t => (∀ n, n ∈ m.whiteout ↔ ∃ row ∈ t, row.whiteout = true ∧ cleanName row.path = n) ∧ (∀ n, n ∈ m.opq ↔ ∃ row ∈ t, row.opq = true ∧ cleanName row.path = n)

/-- The masks of layers, one for each. -/
inductive AllMasked : List (DataSource × Option Err) → List Marks → Prop
  | nil : AllMasked [] []
  | cons {d l m ls ms} : (d.store ≠ none → l = none) → Masked d m → AllMasked ls ms → AllMasked ((d, l) :: ls) (m :: ms)

theorem masked_load {d : DataSource} {l : Option Err} {m : Marks} (h : loadMasks l d = .ok m) : (d.store ≠ none → l = none) ∧ Masked d m := by
  unfold loadMasks at h
  unfold Masked
  cases hs : d.store with
  | none => rw [hs] at h; injection h with h; subst h; simp
  | some t =>
    rw [hs] at h
    cases l with
    | some e => cases h
    | none =>
      injection h with h
      subst h
      refine ⟨fun _ => rfl, ?_, ?_⟩
      · intro n
        simp only [loadMarks, Table.loadWhiteouts, List.mem_map, List.mem_filter]
        constructor
        · rintro ⟨p, ⟨r, ⟨hr, hw⟩, rfl⟩, rfl⟩; exact ⟨r, hr, hw, rfl⟩
        · rintro ⟨r, hr, hw, rfl⟩; exact ⟨r.path, ⟨r, ⟨hr, hw⟩, rfl⟩, rfl⟩
      · intro n
        simp only [loadMarks, Table.loadOpaques, List.mem_map, List.mem_filter]
        constructor
        · rintro ⟨p, ⟨r, ⟨hr, hw⟩, rfl⟩, rfl⟩; exact ⟨r, hr, hw, rfl⟩
        · rintro ⟨r, hr, hw, rfl⟩; exact ⟨r.path, ⟨r, ⟨hr, hw⟩, rfl⟩, rfl⟩

theorem loadAll_masked : ∀ (ls : List (DataSource × Option Err)) (ms : List Marks), loadAll ls = .ok ms → AllMasked ls ms := by
  intro ls
  induction ls with
  | nil => intro ms h; injection h with h; subst h; exact .nil
  | cons x r ih =>
    intro ms h
    obtain ⟨d, l⟩ := x
    rw [loadAll] at h
    cases hl : loadMasks l d with
    | error e => rw [hl] at h; cases h
    | ok m =>
      rw [hl] at h
      simp only at h
      cases hr : loadAll r with
      | error e => rw [hr] at h; cases h
      | ok ms' =>
        rw [hr] at h
        injection h with h
        subst h
        obtain ⟨h1, h2⟩ := masked_load hl
        exact .cons h1 h2 (ih ms' hr)

theorem loadAll_total : ∀ (ls : List (DataSource × Option Err)), (∀ x ∈ ls, x.1.store ≠ none → x.2 = none) → ∃ ms, loadAll ls = .ok ms := by
  intro ls
  induction ls with
  | nil => intro _; exact ⟨[], rfl⟩
  | cons x r ih =>
    intro h
    obtain ⟨d, l⟩ := x
    obtain ⟨ms, hms⟩ := ih (fun y hy => h y (List.mem_cons_of_mem _ hy))
    have : ∃ m, loadMasks l d = .ok m := by
      unfold loadMasks
      cases hs : d.store with
      | none => exact ⟨_, rfl⟩
      | some t =>
        have : l = none := h (d, l) (List.mem_cons_self ..) (by simp [hs])
        subst this
        exact ⟨_, rfl⟩
    obtain ⟨m, hm⟩ := this
    exact ⟨m :: ms, by rw [loadAll, hm]; simp only; rw [hms]⟩

/-- **C103** (opening). An overlay that opens has a canonical, writable top and no missing lower; it masks exactly what the stores of its layers say, each at its place in
the order; and nothing is left in the staging directory. -/
theorem C103_opened (f : Faults) (top : Option (DataSource × Option Err)) (lowers : List (Option (DataSource × Option Err))) (ms : List Marks)
    (h : (new f top lowers).1 = .ok ms) :
    ∃ d l ls, top = some (d, l) ∧ lowers = ls.map some ∧ d.canonical = true ∧ d.store ≠ none ∧ d.readOnly = false ∧ AllMasked ((d, l) :: ls) ms ∧
      (Closed d.tree → f.list ≠ some .notExist → ∃ t, (new f top lowers).2 = some t ∧ ∀ p, Staged p → t.get p = none) := by
  unfold new at h ⊢
  cases hst : newState top lowers with
  | error e => rw [hst] at h; cases h
  | ok ms' =>
    rw [hst] at h
    cases top with
    | none => cases h
    | some dl =>
      obtain ⟨d, l⟩ := dl
      simp only at h ⊢
      have hst' := hst
      simp only [newState] at hst'
      split at hst'
      · cases hst'
      · rename_i hcan
        cases hn : nonNil lowers with
        | none => rw [hn] at hst'; cases hst'
        | some ls =>
          rw [hn] at hst'
          simp only at hst'
          have hd : d.canonical = true := by
            cases hx : d.canonical with
            | true => rfl
            | false => exact absurd (Or.inl hx) hcan
          split at h
          · cases h
          · rename_i hro
            have hsw : (sweepWork f d).1 = none ∧ ms' = ms := by
              generalize sweepWork f d = r at h
              obtain ⟨e, t⟩ := r
              cases e with
              | some e => cases h
              | none => injection h with h; exact ⟨rfl, h⟩
            obtain ⟨hsw, rfl⟩ := hsw
            refine ⟨d, l, ls, rfl, nonNil_some hn, hd, fun hx => hcan (Or.inr hx), by simpa using hro, loadAll_masked _ _ hst', ?_⟩
            intro hc hl
            refine ⟨(sweepWork f d).2, ?_, fun p hp => sweepWork_empty f d hd hc hl hsw p hp⟩
            rw [if_neg hro]
            generalize sweepWork f d = r at hsw
            obtain ⟨e, t⟩ := r
            simp only at hsw
            subst hsw
            rfl

/-- **C103** (nothing lost). Whether opening an overlay succeeds or fails, at whatever call, the top holds everything outside the staging directory as before. -/
theorem C103_kept (f : Faults) (d : DataSource) (l : Option Err) (lowers : List (Option (DataSource × Option Err))) :
    ∃ t, (new f (some (d, l)) lowers).2 = some t ∧ ∀ p, ¬ Staged p → t.get p = d.tree.get p := by
  unfold new
  cases newState (some (d, l)) lowers with
  | error e => exact ⟨d.tree, rfl, fun _ _ => rfl⟩
  | ok ms =>
    simp only
    split
    · exact ⟨d.tree, rfl, fun _ _ => rfl⟩
    · have h := sweepWork_frame f d
      generalize sweepWork f d = r at h
      obtain ⟨e, t⟩ := r
      cases e with
      | some e => exact ⟨t, rfl, h⟩
      | none => exact ⟨t, rfl, h⟩

/-- **C103** (it opens). When nothing fails, every canonical writable top over any layers opens, however much was staged; the refusals name their reason. -/
theorem C103_opens (f : Faults) (d : DataSource) (l : Option Err) (lowers : List (Option (DataSource × Option Err))) (hcan : d.canonical = true) (hst : d.store ≠ none)
    (hf : f.list = none) (hr : ∀ c, f.removeAll c = none) (hload : ∀ x, some x ∈ some (d, l) :: lowers → x.1.store ≠ none → x.2 = none)
    (hw : ∀ c, d.tree.get [work] ≠ some (.file c)) :
    (none ∈ lowers → (new f (some (d, l)) lowers).1 = .error .invalid) ∧
    (none ∉ lowers → d.readOnly = true → (new f (some (d, l)) lowers).1 = .error .topReadOnly) ∧
    (none ∉ lowers → d.readOnly = false → ∃ ms, (new f (some (d, l)) lowers).1 = .ok ms) := by
  have hc : ¬ (d.canonical = false ∨ d.store = none) := by
    intro h
    rcases h with h | h
    · rw [hcan] at h; cases h
    · exact hst h
  have hnn : none ∉ lowers → ∃ ls : List (DataSource × Option Err), lowers = ls.map some := by
    intro h
    induction lowers with
    | nil => exact ⟨[], rfl⟩
    | cons x r ih =>
      cases x with
      | none => exact absurd (List.mem_cons_self ..) h
      | some x =>
        obtain ⟨ls, rfl⟩ := ih (fun y hy => hload y (by
          rcases List.mem_cons.mp hy with hy | hy
          · rw [hy]; exact List.mem_cons_self ..
          · exact List.mem_cons_of_mem _ (List.mem_cons_of_mem _ hy))) (fun hh => h (List.mem_cons_of_mem _ hh))
        exact ⟨x :: ls, rfl⟩
  have hok : none ∉ lowers → ∃ ms, newState (some (d, l)) lowers = .ok ms := by
    intro h
    obtain ⟨ls, hls⟩ := hnn h
    obtain ⟨ms, hms⟩ := loadAll_total ((d, l) :: ls) (fun x hx => hload x (by
      rw [hls]
      rcases List.mem_cons.mp hx with rfl | hx
      · exact List.mem_cons_self ..
      · exact List.mem_cons_of_mem _ (List.mem_map.mpr ⟨x, hx, rfl⟩)))
    refine ⟨ms, ?_⟩
    simp only [newState]
    rw [if_neg hc, hls, nonNil_map]
    exact hms
  have hsw : (sweepWork f d).1 = none := by
    unfold sweepWork
    rw [if_neg (by rw [hcan]; simp), hf]
    simp only
    split
    · rfl
    · split
      · rename_i h1 h2
        cases hg : d.tree.get [work] with
        | none => exact absurd hg h1
        | some n => cases n with
          | dir => exact absurd hg h2
          | file c => exact absurd hg (hw c)
      · have : ∀ cs t, (sweepLoop f cs t).1 = none := by
          intro cs
          induction cs with
          | nil => intro t; rfl
          | cons c cs ih => intro t; rw [sweepLoop, removeAll, hr c]; exact ih _
        exact this _ _
  refine ⟨?_, ?_, ?_⟩
  · intro h
    have : nonNil lowers = none := by
      cases hn : nonNil lowers with
      | none => rfl
      | some ls =>
        rw [nonNil_some hn] at h
        obtain ⟨x, _, hx⟩ := List.mem_map.mp h
        cases hx
    simp only [new, newState]
    rw [if_neg hc, this]
  · intro h hro
    obtain ⟨ms, hms⟩ := hok h
    simp only [new]
    rw [hms]
    simp only
    rw [if_pos hro]
  · intro h hro
    obtain ⟨ms, hms⟩ := hok h
    refine ⟨ms, ?_⟩
    simp only [new]
    rw [hms]
    simp only
    rw [if_neg (by rw [hro]; simp)]
    generalize sweepWork f d = r at hsw
    obtain ⟨e, t⟩ := r
    simp only at hsw
    subst hsw
    rfl

/-! ## Closing -/

theorem closeLayers_spec : ∀ (ls : List Closing) (i : Nat),
    (∀ k b, (k, b) ∈ (closeLayers i ls).1 ↔ ∃ c, i ≤ k ∧ ls[k - i]? = some c ∧ (b = false → c.hasStore = true)) ∧ (closeLayers i ls).1.Nodup ∧
    ∀ e, e ∈ (closeLayers i ls).2 ↔ ∃ c ∈ ls, c.fsErr = some e ∨ (c.hasStore = true ∧ c.storeErr = some e) := by
  intro ls
  induction ls with
  | nil => intro i; simp [closeLayers]
  | cons c cs ih =>
    intro i
    obtain ⟨h1, h2, h3⟩ := ih (i + 1)
    have hmem : ∀ k b, (k, b) ∈ (closeLayer i c).1 ↔ k = i ∧ (b = false → c.hasStore = true) := by
      intro k b
      unfold closeLayer
      cases b <;> cases hs : c.hasStore <;> simp
    refine ⟨?_, ?_, ?_⟩
    · intro k b
      simp only [closeLayers, List.mem_append]
      rw [h1, hmem]
      constructor
      · rintro (⟨rfl, hb⟩ | ⟨c', hk, hc, hb⟩)
        · exact ⟨c, Nat.le_refl _, by simp, hb⟩
        · refine ⟨c', by omega, ?_, hb⟩
          rw [show k - i = (k - (i + 1)) + 1 by omega, List.getElem?_cons_succ]; exact hc
      · rintro ⟨c', hk, hc, hb⟩
        by_cases he : k = i
        · subst he
          simp at hc
          subst hc
          exact Or.inl ⟨rfl, hb⟩
        · refine Or.inr ⟨c', by omega, ?_, hb⟩
          rw [show k - i = (k - (i + 1)) + 1 by omega, List.getElem?_cons_succ] at hc; exact hc
    · simp only [closeLayers]
      refine List.nodup_append.mpr ⟨?_, h2, ?_⟩
      · unfold closeLayer; cases c.hasStore <;> simp
      · intro a ha b hb hab
        obtain ⟨k, b'⟩ := a
        subst hab
        have := (hmem k b').mp ha
        obtain ⟨c', hk, _⟩ := (h1 k b').mp hb
        omega
    · intro e
      simp only [closeLayers, List.mem_append]
      rw [h3]
      constructor
      · rintro (h | ⟨c', hc, h⟩)
        · refine ⟨c, List.mem_cons_self .., ?_⟩
          unfold closeLayer at h
          cases hs : c.hasStore <;> simp [hs] at h ⊢
          · exact h
          · exact h.symm
        · exact ⟨c', List.mem_cons_of_mem _ hc, h⟩
      · rintro ⟨c', hc, h⟩
        rcases List.mem_cons.mp hc with rfl | hc
        · left
          unfold closeLayer
          cases hs : c'.hasStore <;> simp [hs] at h ⊢
          · exact h
          · exact h.symm
        · exact Or.inr ⟨c', hc, h⟩

/-- **C103** (closing). Closing an overlay closes the store and the filesystem of every layer once each, whatever fails, the store before the filesystem it lies in, and tells
every failure; closing an overlay opened from another closes nothing. -/
theorem C103_close (ls : List Closing) :
    (∀ k, k < ls.length → (k, true) ∈ (close true ls).1) ∧
    (∀ k b, (k, b) ∈ (close true ls).1 ↔ ∃ c, ls[k]? = some c ∧ (b = false → c.hasStore = true)) ∧ (close true ls).1.Nodup ∧
    (∀ e, e ∈ (close true ls).2 ↔ ∃ c ∈ ls, c.fsErr = some e ∨ (c.hasStore = true ∧ c.storeErr = some e)) ∧
    (∀ k pre post, (close true ls).1 = pre ++ (k, true) :: post → (k, false) ∉ post) ∧
    close false ls = ([], []) := by
  obtain ⟨h1, h2, h3⟩ := closeLayers_spec ls 0
  refine ⟨?_, ?_, h2, h3, ?_, rfl⟩
  · intro k hk
    exact (h1 k true).mpr ⟨ls[k], Nat.zero_le _, by simp [hk], by simp⟩
  · intro k b
    refine (h1 k b).trans ?_
    simp
  · have key : ∀ (ls : List Closing) (i k : Nat) (pre post : List (Nat × Bool)), (closeLayers i ls).1 = pre ++ (k, true) :: post → (k, false) ∉ post := by
      intro ls
      induction ls with
      | nil => intro i k pre post h; simp [closeLayers] at h
      | cons c cs ih =>
        intro i k pre post h hm
        have hge : ∀ x ∈ (closeLayers (i + 1) cs).1, i + 1 ≤ x.1 := by
          intro x hx
          obtain ⟨c', hk, _⟩ := ((closeLayers_spec cs (i + 1)).1 x.1 x.2).mp hx
          exact hk
        simp only [closeLayers] at h
        rcases List.append_eq_append_iff.mp h with ⟨a, h4, h5⟩ | ⟨a, h4, h5⟩
        · exact ih (i + 1) k a post h5 hm
        · cases a with
          | nil =>
            simp only [List.nil_append] at h5
            exact ih (i + 1) k [] post h5.symm hm
          | cons x a =>
            simp only [List.cons_append, List.cons.injEq] at h5
            obtain ⟨rfl, rfl⟩ := h5
            unfold closeLayer at h4
            have hki : k = i := by
              have : (k, true) ∈ (if c.hasStore = true then [(i, false)] else []) ++ [(i, true)] := by
                have := congrArg (fun l => (k, true) ∈ l) h4
                simp only at this
                rw [this]; simp
              cases hs : c.hasStore <;> simp [hs] at this <;> exact this
            rcases List.mem_append.mp hm with hm | hm
            · cases hs : c.hasStore
              · rw [hs] at h4
                cases pre with
                | nil => simp at h4; rw [h4.2] at hm; cases hm
                | cons y pre => simp at h4
              · rw [hs] at h4
                rcases pre with _ | ⟨y, _ | ⟨z, pre⟩⟩
                · simp at h4
                · simp at h4; rw [h4.2.2] at hm; cases hm
                · simp at h4
            · have := hge _ hm
              simp only at this
              omega
    intro k pre post h
    exact key ls 0 k pre post h

/-! ## Cases -/

def noFaults : Faults := ⟨fun _ => none, fun _ => none, none, fun _ => none⟩
def exTree : Tree := [([merged], .dir), ([merged, "a".toList], .file [1]), ([work], .dir), ([work, "t".toList], .dir), ([work, "t".toList, "u".toList], .file [2])]
def exTop : DataSource := ⟨exTree, true, some [⟨"gone".toList, true, false⟩], false⟩

example : Closed exTree := by
  intro e he p q h hp hq
  simp only [exTree, List.mem_cons, List.not_mem_nil, or_false] at he
  rcases he with rfl | rfl | rfl | rfl | rfl <;> rcases p with _ | ⟨a, _ | ⟨b, _ | ⟨c, p⟩⟩⟩ <;> simp at h hp <;>
    first
    | exact absurd h.2.2.2.2 hq
    | exact absurd h.2.2 hq
    | (obtain ⟨rfl, rfl, _⟩ := h; decide +kernel)
    | (obtain ⟨rfl, rfl⟩ := h; first | decide +kernel | exact absurd rfl hq)
    | (obtain ⟨rfl, _⟩ := h; decide +kernel)
    | (subst h; exact absurd rfl hq)

/-- A staged leftover is swept and the content stays. -/
example : (new noFaults (some (exTop, none)) []).2.map (·.map (·.1)) = some [[merged], [merged, "a".toList], [work]] := by decide +kernel

/-- A layer is made in an empty filesystem. -/
example : (newCanonical noFaults ⟨none, none, [([storeName], .file [])]⟩ [] []).2.map (·.1) = [[merged], [work], [storeName]] := by decide +kernel

end Verif.Overlay.Construct
