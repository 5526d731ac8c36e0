import Verif.Afero.Lemmas
/-
C86: a name of the afero filesystem is found exactly by walking to it; Stat, Chmod. C87: what Mkdir and MkdirAll make.
-/
namespace Verif.Afero
open Verif.Path

/-! ### more about names and walking -/

theorem normal_names {cs : List Str} (h : ∀ c ∈ cs, IsName c) : Normal false cs := .names h

theorem place_render {cs : List Str} (h : ∀ c ∈ cs, IsName c) : place (render false cs) = cs := by
  by_cases hc : cs = []
  · subst hc; decide
  · have hs : split (render false cs) = cs := by
      unfold render
      simp only [Bool.false_eq_true, if_false, if_neg hc]
      exact split_join hc (fun c hcs => (h c hcs).1.2)
    unfold place
    rw [if_neg, hs]
    intro hd
    rw [hd] at hs
    have : cs = [dot] := by rw [← hs]; decide
    exact (h dot (by rw [this]; simp)).2.1 rfl

/-- The place of the parent. -/
theorem place_dir {e : Env} {name : Str} (h : validate e name = none) (hd : name ≠ dot) : place name = place (dir name) ++ [base name] := by
  have hp := place_snoc h hd
  have hn := place_names h
  have hr := render_place h
  rw [hp] at hr hn
  have : dir name = render false (split name).dropLast := by
    rw [hr, dir_render (normal_names hn)]
    rw [← hr]
  rw [this, place_render (fun c hc => hn c (by simp [hc])), hp]

theorem walk_append : ∀ (p q : List Str) (n : Node), walk n (p ++ q) = match walk n p with
    | .error er => .error er
    | .ok k => walk k q
  | [], q, n => rfl
  | c :: p, q, .file _ _ => rfl
  | c :: p, q, .dir m es => by
    simp only [List.cons_append, walk]
    split
    · rfl
    · cases es.find c with
      | none => rfl
      | some k => exact walk_append p q k

/-! ### C86 -/

/-- Which names are valid. -/
def GoodName (utf8 : Str → Bool) (name : Str) : Prop :=
  utf8 name = true ∧ (name = dot ∨ ∀ c ∈ split name, c ≠ [] ∧ c ≠ dot ∧ c ≠ dotdot) ∧ (base name).length ≤ 255

/-- **C86**: a name is valid if it is valid UTF-8, is "." or has only proper elements, and its last element has at most 255 bytes. Any other name
is refused, and nothing happens. -/
theorem C86_valid (e : Env) (name : Str) : validate e name = none ↔ GoodName e.utf8 name := by
  unfold validate GoodName Vroot.validPath
  rw [Vroot.validLoop_eq name [] (by simp), List.nil_append]
  by_cases h1 : e.utf8 name = true
  · by_cases h2 : name = dot ∨ ∀ c ∈ split name, c ≠ [] ∧ c ≠ dot ∧ c ≠ dotdot
    · have : (decide (name = dot) || (split name).all fun c => decide (c ≠ [] ∧ c ≠ dot ∧ c ≠ dotdot)) = true := by
        rw [Bool.or_eq_true, decide_eq_true_eq, List.all_eq_true]
        rcases h2 with h | h
        · exact Or.inl h
        · exact Or.inr fun c hc => decide_eq_true (h c hc)
      rw [h1, this]
      simp only [Bool.and_self, Bool.not_true, Bool.false_eq_true, if_false, true_and, h2]
      split
      · rename_i h; simp; omega
      · rename_i h; simp; omega
    · have : (decide (name = dot) || (split name).all fun c => decide (c ≠ [] ∧ c ≠ dot ∧ c ≠ dotdot)) = false := by
        rw [← Bool.not_eq_true, Bool.or_eq_true, decide_eq_true_eq, List.all_eq_true]
        intro h
        refine h2 (h.imp id fun h c hc => ?_)
        exact of_decide_eq_true (h c hc)
      rw [h1, this]
      simp [h2]
  · simp [h1]

theorem C86_invalid_refused (e : Env) (S : St) (name : Str) (h : ¬ GoodName e.utf8 name) :
    ∃ er, (er = .invalid ∨ er = .nameTooLong) ∧
      stat e S name = (S, .error er) ∧ (∀ mode, chmod e S name mode = (S, .error er)) ∧ (∀ f p, openFile e S name f p = (S, .error er)) ∧
      (∀ p, mkdirAll e S name p = (S, .error er)) ∧ remove e S name = (S, .error er) ∧ removeAll e S name = (S, .error er) ∧
      (∀ v, addFileCall e S name v = (S, .error er)) ∧ (∀ new, rename e S name new = (S, .error er)) ∧
      (∀ old, ∃ er', rename e S old name = (S, .error er')) := by
  rw [← C86_valid] at h
  cases hv : validate e name with
  | none => exact absurd hv h
  | some er =>
    refine ⟨er, ?_, ?_, ?_, ?_, ?_, ?_, ?_, ?_, ?_, ?_⟩
    · unfold validate at hv
      split at hv
      · exact Or.inl (Option.some.inj hv).symm
      · split at hv
        · exact Or.inr (Option.some.inj hv).symm
        · cases hv
    · unfold stat; rw [find_invalid hv]
    · intro mode; unfold chmod; rw [find_invalid hv]
    · intro f p; unfold openFile findParent; rw [hv]
    · intro p; unfold mkdirAll; rw [hv]
    · unfold remove findParent; rw [hv]
    · unfold removeAll; rw [hv]
    · intro v; unfold addFileCall; rw [hv]
    · intro new; unfold rename; rw [hv]
    · intro old
      unfold rename
      cases ho : validate e old with
      | some er' => exact ⟨er', rfl⟩
      | none => exact ⟨er, by simp only [hv]⟩

/-- **C86**: Stat tells what walking to the name gives, or why walking fails; only the view of a file is asked, once. The tree is not changed. -/
theorem C86_stat (e : Env) (S : St) (name : Str) (h : GoodName e.utf8 name) :
    stat e S name = match walk S.root (place name) with
      | .error er => (S, .error er)
      | .ok (.dir m _) => (S, .ok (true, m))
      | .ok (.file m v) => ({ S with asked := S.asked ++ [.stat v] }, match e.answer S.asked.length with
        | none => .ok (false, m)
        | some er => .error (.view er)) := by
  unfold stat
  rw [find_walk e S.root name ((C86_valid e name).2 h)]
  cases walk S.root (place name) with
  | error er => rfl
  | ok n =>
    cases n with
    | dir m es => rfl
    | file m v =>
      simp only [ask]
      cases e.answer S.asked.length <;> rfl

/-- **C86**: what is listed in a directory is what can be found in it. -/
theorem C86_listing {root : Node} {p : List Str} {m : Nat} {es : Ents} (h : root.at p = some (.dir m es)) (c : Str) :
    c ∈ es.names ↔ root.shows (p ++ [c]) ≠ none := by
  rw [Ents.mem_names, Node.shows_append h, shows_eq, Node.at_one]
  simp only [Node.lookup]
  cases es.find c <;> simp

/-- What Chmod leaves of a mode. -/
def chmodded : Info → Nat → Info
  | .dir _, mode => .dir (mode &&& 511)
  | .file _ v, mode => .file (mode &&& (modeType ||| 511)) v

/-- **C86**: Chmod succeeds if the name can be walked to; then the mode there is changed and nothing else anywhere. -/
theorem C86_chmod (e : Env) (S : St) (name : Str) (mode : Nat) (h : GoodName e.utf8 name) :
    (∀ er, walk S.root (place name) = .error er → chmod e S name mode = (S, .error er)) ∧
    (∀ n, walk S.root (place name) = .ok n → ∃ S', chmod e S name mode = (S', .ok ()) ∧ S'.asked = S.asked ∧ S'.next = S.next ∧
      S'.root.shows (place name) = some (chmodded n.info mode) ∧ ∀ q, q ≠ place name → S'.root.shows q = S.root.shows q) := by
  have hv := (C86_valid e name).2 h
  unfold chmod
  rw [find_walk e S.root name hv]
  refine ⟨fun er hw => by rw [hw], fun n hw => ?_⟩
  rw [hw]
  have ha := walk_at _ _ _ hw
  refine ⟨_, rfl, rfl, rfl, ?_, fun q hq => ?_⟩
  · have := Node.modify_shows (f := Node.chmod mode) ha []
    rw [List.append_nil] at this
    refine this.trans ?_
    cases n <;> rfl
  · by_cases hp : place name <+: q
    · obtain ⟨r, rfl⟩ := hp
      refine (Node.modify_shows ha r).trans ?_
      rw [Node.shows_append ha]
      cases r with
      | nil => rw [List.append_nil] at hq; exact absurd rfl hq
      | cons c r => cases n <;> rfl
    · exact Node.modify_other _ _ _ _ hp

/-! ### C87: Mkdir -/

/-- The bits of `perm` that the umask leaves. -/
def masked (umask perm : Nat) (i : Nat) : Bool := decide (i < 9) && perm.testBit i && !umask.testBit i

theorem maskPerm_bits (e : Env) (perm i : Nat) : (maskPerm e perm).testBit i = masked e.umask perm i := by
  have h511 : Nat.testBit 511 i = decide (i < 9) := by
    rw [show 511 = 2 ^ 9 - 1 by decide, Nat.testBit_two_pow_sub_one]
  unfold maskPerm masked
  simp only [Nat.testBit_and, Nat.testBit_xor, h511]
  cases decide (i < 9) <;> simp

theorem findWritableDir_eq (e : Env) (root : Node) (name : Str) (hv : validate e name = none) :
    findWritableDir e root name = match walk root (place name) with
      | .error er => .error er
      | .ok (.file _ _) => .error .notDir
      | .ok (.dir m es) => if mayWrite m then .ok (place name, .dir m es) else .error .acces := by
  unfold findWritableDir
  rw [find_walk e root name hv]
  cases walk root (place name) with
  | error er => rfl
  | ok n =>
    cases n with
    | file _ _ => rfl
    | dir m es =>
      simp only [Node.isDir, Node.mode, Bool.not_true, Bool.false_eq_true, if_false, hasPerm_write]
      cases mayWrite m <;> rfl

/-- Adding an entry to a directory. -/
theorem add_shows {root : Node} {D : List Str} {m : Nat} {es : Ents} (h : root.at D = some (.dir m es)) (b : Str) (k : Node) :
    (∀ q, (root.modify D (Node.add b k)).shows (D ++ [b] ++ q) = k.shows q) ∧
    (∀ q, ¬ D ++ [b] <+: q → (root.modify D (Node.add b k)).shows q = root.shows q) := by
  constructor
  · intro q
    rw [List.append_assoc]
    refine (Node.modify_shows h _).trans ?_
    simp only [Node.add, List.singleton_append, Node.shows, Node.at, Ents.find_add, if_true]
  · intro q hq
    by_cases hp : D <+: q
    · obtain ⟨r, rfl⟩ := hp
      refine (Node.modify_shows h r).trans ?_
      rw [Node.shows_append h]
      cases r with
      | nil => rfl
      | cons c r =>
        have hc : c ≠ b := by
          rintro rfl
          exact hq ⟨r, by simp⟩
        simp only [Node.add, Node.shows, Node.at, Ents.find_add, if_neg hc]
    · exact Node.modify_other _ _ _ _ hp

/-- Taking an entry out of a directory. -/
theorem remove_shows {root : Node} {D : List Str} {m : Nat} {es : Ents} (h : root.at D = some (.dir m es)) (b : Str) :
    (∀ q, (root.modify D (Node.removeName b)).shows (D ++ [b] ++ q) = none) ∧
    (∀ q, ¬ D ++ [b] <+: q → (root.modify D (Node.removeName b)).shows q = root.shows q) := by
  constructor
  · intro q
    rw [List.append_assoc]
    refine (Node.modify_shows h _).trans ?_
    simp only [Node.removeName, List.singleton_append, Node.shows, Node.at, Ents.find_remove, if_true, Option.map_none]
  · intro q hq
    by_cases hp : D <+: q
    · obtain ⟨r, rfl⟩ := hp
      refine (Node.modify_shows h r).trans ?_
      rw [Node.shows_append h]
      cases r with
      | nil => rfl
      | cons c r =>
        have hc : c ≠ b := by
          rintro rfl
          exact hq ⟨r, by simp⟩
        simp only [Node.removeName, Node.shows, Node.at, Ents.find_remove, if_neg hc]
    · exact Node.modify_other _ _ _ _ hp

/-- **C87**: Mkdir of a valid name makes exactly that directory, empty, with the permission bits that the umask leaves, if its parent can be walked to, is
a directory that may be written and searched, and has no such entry yet. -/
theorem C87_mkdir_partial (e : Env) (S : St) (name : Str) (perm : Nat) (h : GoodName e.utf8 name) (hp : GoodName e.utf8 (dir name)) (hd : name ≠ dot)
    {m : Nat} {es : Ents} (hw : walk S.root (place (dir name)) = .ok (.dir m es)) (hm : mayWrite m = true) (hs : maySearch m = true)
    (hx : base name ∉ es.names) :
    ∃ S' md, mkdir e S name perm = (S', .ok ()) ∧ S'.asked = S.asked ∧ S'.next = S.next ∧
      S'.root.shows (place name) = some (.dir md) ∧ (∀ i, md.testBit i = masked e.umask perm i) ∧
      ∀ q, q ≠ place name → S'.root.shows q = S.root.shows q := by
  have hv := (C86_valid e name).2 h
  have hb : base name ≠ dot := fun hb => hd ((base_dot hv).1 hb)
  have hf : es.find (base name) = none := by
    rw [Ents.mem_names] at hx
    exact Classical.byContradiction hx
  have ha := walk_at _ _ _ hw
  unfold mkdir
  rw [findWritableDir_eq e S.root _ ((C86_valid e _).2 hp), hw]
  simp only [hm, if_true, if_neg hb, Node.lookup, hf, Option.isSome_none, Bool.false_eq_true, if_false, Node.mode, hasPerm_search, hasPerm_write, hs,
    Bool.not_true]
  refine ⟨_, maskPerm e perm, rfl, rfl, rfl, ?_, maskPerm_bits e perm, ?_⟩
  · have := (add_shows ha (base name) (.dir (maskPerm e perm) .nil)).1 []
    rw [List.append_nil, ← place_dir hv hd] at this
    exact this
  · intro q hq
    rw [place_dir hv hd] at hq
    by_cases hpq : place (dir name) ++ [base name] <+: q
    · obtain ⟨r, rfl⟩ := hpq
      refine ((add_shows ha (base name) _).1 r).trans ?_
      rw [List.append_assoc, Node.shows_append ha]
      cases r with
      | nil => exact absurd (List.append_nil _) hq
      | cons c r => simp [Node.shows, Node.at, hf, Ents.find]
    · exact (add_shows ha (base name) _).2 q hpq

/-- **C87**: any other Mkdir changes nothing, and says why. -/
theorem C87_mkdir_fails (e : Env) (S : St) (name : Str) (perm : Nat) (h : GoodName e.utf8 name) (hp : GoodName e.utf8 (dir name)) (hd : name ≠ dot) :
    (∀ er, walk S.root (place (dir name)) = .error er → mkdir e S name perm = (S, .error er)) ∧
    (∀ m v, walk S.root (place (dir name)) = .ok (.file m v) → mkdir e S name perm = (S, .error .notDir)) ∧
    (∀ m es, walk S.root (place (dir name)) = .ok (.dir m es) → mayWrite m = false → mkdir e S name perm = (S, .error .acces)) ∧
    (∀ m es, walk S.root (place (dir name)) = .ok (.dir m es) → mayWrite m = true → base name ∈ es.names → mkdir e S name perm = (S, .error .exist)) ∧
    (∀ m es, walk S.root (place (dir name)) = .ok (.dir m es) → mayWrite m = true → base name ∉ es.names → maySearch m = false →
      mkdir e S name perm = (S, .error .acces)) := by
  have hv := (C86_valid e name).2 h
  have hb : base name ≠ dot := fun hb => hd ((base_dot hv).1 hb)
  unfold mkdir
  rw [findWritableDir_eq e S.root _ ((C86_valid e _).2 hp)]
  refine ⟨fun er hw => by rw [hw], fun m v hw => by rw [hw], fun m es hw hm => by rw [hw]; simp [hm], fun m es hw hm hx => ?_, fun m es hw hm hx hs => ?_⟩
  · rw [hw]
    rw [Ents.mem_names] at hx
    obtain ⟨k, hk⟩ := Option.ne_none_iff_exists'.1 hx
    simp only [hm, if_true, if_neg hb, Node.lookup, hk, Option.isSome_some]
  · rw [hw]
    have hf : es.find (base name) = none := by
      rw [Ents.mem_names] at hx
      exact Classical.byContradiction hx
    simp only [hm, if_true, if_neg hb, Node.lookup, hf, Option.isSome_none, Bool.false_eq_true, if_false, Node.mode, hasPerm_search, hs, Bool.not_false]

/-! ### C87: MkdirAll -/

/-- What MkdirAll needs: what is there of the path are directories that may be searched, and if something is missing the directories made may be. -/
def Passable (made : Bool) : Node → List Str → Prop
  | .file _ _, _ => False
  | .dir m _, [] => maySearch m = true
  | .dir m es, c :: p => maySearch m = true ∧ match es.find c with
    | none => made = true
    | some k => Passable made k p

/-- The loop: entries are only added, on the path; nothing below the path changes. -/
theorem mkdirAllLoop_spec (e : Env) (perm : Nat) : ∀ (p : List Str) (n : Node) (r : Node × Option Err), mkdirAllLoop e perm n p = r →
    (∀ q i, n.shows q = some i → r.1.shows q = some i) ∧
    (∀ q, n.shows q = none → r.1.shows q = none ∨ (q <+: p ∧ r.1.shows q = some (.dir (maskPerm e perm)))) ∧
    (r.2 = none → ∀ q, q <+: p → q ≠ [] → ∃ m, r.1.shows q = some (.dir m))
  | [], n, r, h => by
    subst h
    simp only [mkdirAllLoop]
    exact ⟨fun _ _ h => h, fun _ h => Or.inl h, fun _ q hq hne => absurd (List.prefix_nil.1 hq) hne⟩
  | c :: p, .file m v, r, h => by
    subst h
    simp only [mkdirAllLoop]
    exact ⟨fun _ _ h => h, fun _ h => Or.inl h, fun h => by cases h⟩
  | c :: p, .dir m es, r, h => by
    subst h
    -- the directory with the entry
    have key : ∀ (es1 : Ents), (∀ x, x ≠ c → es1.find x = es.find x) →
        (es1.find c = es.find c ∧ es.find c ≠ none ∨ es.find c = none ∧ es1.find c = some (.dir (maskPerm e perm) .nil)) →
        let r : Node × Option Err := match searchable (es1.find c) with
          | .error er => (.dir m es1, some er)
          | .ok k =>
            let r := mkdirAllLoop e perm k p
            (.dir m (es1.update c (fun _ => r.1)), r.2)
        (∀ q i, (Node.dir m es).shows q = some i → r.1.shows q = some i) ∧
        (∀ q, (Node.dir m es).shows q = none → r.1.shows q = none ∨ (q <+: c :: p ∧ r.1.shows q = some (.dir (maskPerm e perm)))) ∧
        (r.2 = none → ∀ q, q <+: c :: p → q ≠ [] → ∃ m', r.1.shows q = some (.dir m')) := by
      intro es1 ho hc
      -- the entries alone
      have h1 : (∀ q i, (Node.dir m es).shows q = some i → (Node.dir m es1).shows q = some i) ∧
          (∀ q, (Node.dir m es).shows q = none → (Node.dir m es1).shows q = none ∨
            (q = [c] ∧ (Node.dir m es1).shows q = some (.dir (maskPerm e perm)))) := by
        refine ⟨fun q i hq => ?_, fun q hq => ?_⟩
        · cases q with
          | nil => exact hq
          | cons x q =>
            by_cases hx : x = c
            · subst hx
              rcases hc with ⟨hc, _⟩ | ⟨hc, _⟩
              · simpa only [Node.shows, Node.at, hc] using hq
              · simp [Node.shows, Node.at, hc] at hq
            · simpa only [Node.shows, Node.at, ho x hx] using hq
        · cases q with
          | nil => cases hq
          | cons x q =>
            by_cases hx : x = c
            · subst hx
              rcases hc with ⟨hc, _⟩ | ⟨_, hc⟩
              · left; simpa only [Node.shows, Node.at, hc] using hq
              · cases q with
                | nil => right; simp [Node.shows, Node.at, hc, Node.info]
                | cons y q => left; simp [Node.shows, Node.at, hc, Ents.find]
            · left; simpa only [Node.shows, Node.at, ho x hx] using hq
      cases hs : searchable (es1.find c) with
      | error er =>
        refine ⟨h1.1, fun q hq => ?_, fun h => by cases h⟩
        rcases h1.2 q hq with h | ⟨rfl, h⟩
        · exact Or.inl h
        · exact Or.inr ⟨List.cons_prefix_cons.2 ⟨rfl, List.nil_prefix⟩, h⟩
      | ok k =>
        obtain ⟨hk, mk, ek, rfl, _⟩ := searchable_ok hs
        obtain ⟨i1, i2, i3⟩ := mkdirAllLoop_spec e perm p (.dir mk ek) _ rfl
        -- what the update shows
        have hu : ∀ q, (Node.dir m (es1.update c fun _ => (mkdirAllLoop e perm (.dir mk ek) p).1)).shows q =
            match q with
            | [] => some (.dir m)
            | x :: q => if x = c then (mkdirAllLoop e perm (.dir mk ek) p).1.shows q else (Node.dir m es1).shows (x :: q) := by
          intro q
          cases q with
          | nil => rfl
          | cons x q =>
            simp only [Node.shows, Node.at, Ents.find_update]
            by_cases hx : x = c
            · subst hx; simp [hk]
            · simp [hx]
        have hat : ∀ q, (Node.dir m es1).shows (c :: q) = (Node.dir mk ek).shows q := by
          intro q; simp only [Node.shows, Node.at, hk]
        refine ⟨fun q i hq => ?_, fun q hq => ?_, fun hr q hq hne => ?_⟩
        · have := h1.1 q i hq
          simp only
          rw [hu]
          cases q with
          | nil => exact this
          | cons x q =>
            by_cases hx : x = c
            · subst hx
              simp only [if_true]
              rw [hat] at this
              exact i1 q i this
            · simpa only [if_neg hx] using this
        · simp only
          rw [hu]
          cases q with
          | nil => cases hq
          | cons x q =>
            by_cases hx : x = c
            · subst hx
              simp only [if_true]
              rcases h1.2 _ hq with h | ⟨h, h'⟩
              · rw [hat] at h
                rcases i2 q h with h | ⟨h, h'⟩
                · exact Or.inl h
                · exact Or.inr ⟨List.cons_prefix_cons.2 ⟨rfl, h⟩, h'⟩
              · rw [hat] at h'
                exact Or.inr ⟨by rw [h]; exact List.cons_prefix_cons.2 ⟨rfl, List.nil_prefix⟩, i1 _ _ h'⟩
            · simp only [if_neg hx]
              rcases h1.2 _ hq with h | ⟨h, _⟩
              · exact Or.inl h
              · simp only [List.cons.injEq] at h; exact absurd h.1 hx
        · simp only
          rw [hu]
          cases q with
          | nil => exact absurd rfl hne
          | cons x q =>
            obtain ⟨rfl, hq'⟩ := List.cons_prefix_cons.1 hq
            simp only [if_true]
            cases q with
            | nil => exact ⟨mk, i1 [] _ rfl⟩
            | cons y q => exact i3 hr _ hq' (by simp)
    cases hf : es.find c with
    | some k =>
      have := key es (fun _ _ => rfl) (Or.inl ⟨rfl, by simp [hf]⟩)
      simp only [mkdirAllLoop, hf] at this ⊢
      exact this
    | none =>
      have := key (es.add c (.dir (maskPerm e perm) .nil)) (fun x hx => by rw [Ents.find_add, if_neg hx]) (Or.inr ⟨hf, by rw [Ents.find_add, if_pos rfl]⟩)
      simp only [mkdirAllLoop, hf] at this ⊢
      exact this

/-- When the loop succeeds. -/
theorem mkdirAllLoop_ok (e : Env) (perm : Nat) : ∀ (p : List Str) (m : Nat) (es : Ents), maySearch m = true →
    ((mkdirAllLoop e perm (.dir m es) p).2 = none ↔ Passable (maySearch (maskPerm e perm)) (.dir m es) p)
  | [], m, es, hm => by simp [mkdirAllLoop, Passable, hm]
  | c :: p, m, es, hm => by
    simp only [mkdirAllLoop, Passable, hm, true_and]
    rcases hf : es.find c with _ | ⟨mk, v⟩ | ⟨mk, ek⟩
    · simp only [Ents.find_add, if_true]
      rw [searchable_some]
      simp only
      by_cases hp : maySearch (maskPerm e perm) = true
      · rw [if_pos hp]
        simp only [hp, iff_true]
        rw [mkdirAllLoop_ok e perm p _ _ hp]
        cases p with
        | nil => simp [Passable, hp]
        | cons x p => simp [Passable, hp, Ents.find]
      · rw [if_neg hp]; simp [hp]
    · simp only [hf]
      cases p <;> simp [searchable, Passable]
    · simp only [hf]
      rw [searchable_some]
      simp only
      by_cases hp : maySearch mk = true
      · rw [if_pos hp]
        exact mkdirAllLoop_ok e perm p mk ek hp
      · rw [if_neg hp]
        cases p <;> simp [Passable, hp]

/-- **C87**: MkdirAll of a valid name changes nothing that is there; what it adds are directories on the path, with the permission bits that the umask
leaves. If it succeeds the name and all its parents are directories. -/
theorem C87_mkdirAll (e : Env) (S S' : St) (name : Str) (perm : Nat) (res : Except Err Unit) (h : mkdirAll e S name perm = (S', res)) :
    S'.asked = S.asked ∧ S'.next = S.next ∧
    (∀ q i, S.root.shows q = some i → S'.root.shows q = some i) ∧
    (∀ q, S.root.shows q = none → S'.root.shows q = none ∨
      (q <+: place name ∧ ∃ md, S'.root.shows q = some (.dir md) ∧ ∀ i, md.testBit i = masked e.umask perm i)) ∧
    (res = .ok () → GoodName e.utf8 name ∧ ((∃ md, S.root.shows [] = some (.dir md)) → ∀ q, q <+: place name → ∃ md, S'.root.shows q = some (.dir md))) := by
  unfold mkdirAll at h
  cases hv : validate e name with
  | some er =>
    rw [hv] at h
    cases h
    exact ⟨rfl, rfl, fun _ _ h => h, fun _ h => Or.inl h, fun h => by cases h⟩
  | none =>
    rw [hv] at h
    simp only at h
    split at h
    · rename_i hd
      cases h
      refine ⟨rfl, rfl, fun _ _ h => h, fun _ h => Or.inl h, fun _ => ⟨(C86_valid e name).1 hv, fun hr q hq => ?_⟩⟩
      have : place name = [] := if_pos hd
      rw [this, List.prefix_nil] at hq
      rw [hq]; exact hr
    · rename_i hd
      cases hs : searchable (some S.root) with
      | error er =>
        rw [hs] at h
        cases h
        exact ⟨rfl, rfl, fun _ _ h => h, fun _ h => Or.inl h, fun h => by cases h⟩
      | ok r =>
        rw [hs] at h
        simp only at h
        have hr := (searchable_ok hs).1
        cases hr
        obtain ⟨i1, i2, i3⟩ := mkdirAllLoop_spec e perm (split name) S.root _ rfl
        have hp : place name = split name := if_neg hd
        cases h
        refine ⟨rfl, rfl, i1, fun q hq => ?_, fun hok => ⟨(C86_valid e name).1 hv, fun hr q hq => ?_⟩⟩
        · rcases i2 q hq with h | ⟨h, h'⟩
          · exact Or.inl h
          · exact Or.inr ⟨by rw [hp]; exact h, _, h', maskPerm_bits e perm⟩
        · cases q with
          | nil => obtain ⟨md, hr⟩ := hr; exact ⟨md, i1 _ _ hr⟩
          | cons c q =>
            refine i3 ?_ _ (by rw [← hp]; exact hq) (by simp)
            cases h2 : (mkdirAllLoop e perm S.root (split name)).2 with
            | none => rfl
            | some er => rw [h2] at hok; cases hok

/-- **C87**: when MkdirAll succeeds. -/
theorem C87_mkdirAll_ok (e : Env) (S : St) (name : Str) (perm : Nat) (h : GoodName e.utf8 name) (hd : name ≠ dot) :
    (mkdirAll e S name perm).2 = .ok () ↔ Passable (masked e.umask perm 6) S.root (place name) := by
  have hv := (C86_valid e name).2 h
  have hp : place name = split name := if_neg hd
  have hm : maySearch (maskPerm e perm) = masked e.umask perm 6 := maskPerm_bits e perm 6
  unfold mkdirAll
  rw [hv, hp]
  simp only [if_neg hd]
  rw [searchable_some]
  cases hr : S.root with
  | file m v => simp [Passable]
  | dir m es =>
    simp only
    by_cases hs : maySearch m = true
    · rw [if_pos hs]
      simp only
      rw [← hm, ← mkdirAllLoop_ok e perm (split name) m es hs]
      cases (mkdirAllLoop e perm (.dir m es) (split name)).2 <;> simp
    · rw [if_neg hs]
      cases split name <;> simp [Passable, hs]

/-! ### examples -/

/-- An environment in which views never fail, with umask 022. -/
def ex : Env := ⟨0o022, true, (· &&& 511), fun _ => true, fun _ => none⟩

theorem ex_good {name : Str} (h : (name = dot ∨ ∀ c ∈ split name, c ≠ [] ∧ c ≠ dot ∧ c ≠ dotdot) ∧ (base name).length ≤ 255) : GoodName ex.utf8 name := ⟨rfl, h⟩

/-- a (0755) holds the file a/f (0644, view 7); the directory b may not be searched. -/
def exTree : St := ⟨.dir 511 (.cons "a".toList (.dir 0o755 (.cons "f".toList (.file 0o644 7) .nil)) (.cons "b".toList (.dir 0o600 .nil) .nil)), [], 8⟩

example : GoodName ex.utf8 "a/f".toList := ex_good (by decide)
example : walk exTree.root (place "a/f".toList) = .ok (.file 0o644 7) := by rfl
example : walk exTree.root (place "b/f".toList) = .error .acces := by rfl
example : walk exTree.root (place "a/f/g".toList) = .error .notDir := by rfl
/- C87_mkdir_partial: the parent of a/d may be changed and has no d. -/
example : ∃ m es, walk exTree.root (place (dir "a/d".toList)) = .ok (.dir m es) ∧ mayWrite m = true ∧ maySearch m = true ∧ base "a/d".toList ∉ es.names :=
  ⟨_, _, rfl, by decide, by decide, by decide⟩
example : (mkdir ex exTree "a/d".toList 0o777).1.root.shows ["a".toList, "d".toList] = some (.dir 0o755) := by decide
example : (mkdirAll ex exTree "a/x/y/z".toList 0o777).1.root.shows ["a".toList, "x".toList, "y".toList, "z".toList] = some (.dir 0o755) := by decide
example : Passable (masked ex.umask 0o777 6) exTree.root (place "a/x/y".toList) := by
  have h : place "a/x/y".toList = ["a".toList, "x".toList, "y".toList] := by decide
  rw [h]
  refine ⟨by decide, ?_⟩
  show Passable _ (.dir 0o755 (.cons "f".toList (.file 0o644 7) .nil)) ["x".toList, "y".toList]
  refine ⟨by decide, ?_⟩
  show masked ex.umask 0o777 6 = true
  decide

/-! ### what is not so -/

/-- Mkdir looks at the parent of the name only: Mkdir("..") succeeds and leaves an entry that no name reaches. -/
theorem C87_counterexample_dotdot : ∃ S', mkdir ex exTree "..".toList 0o777 = (S', .ok ()) ∧ S'.root.shows ["..".toList] ≠ none ∧ ¬ GoodName ex.utf8 "..".toList :=
  ⟨_, rfl, by decide, by unfold GoodName; decide⟩

/-- Mkdir("a/") makes a/a. -/
theorem C87_counterexample_slash : ∃ S', mkdir ex exTree "a/".toList 0o777 = (S', .ok ()) ∧ S'.root.shows ["a".toList, "a".toList] ≠ none :=
  ⟨_, rfl, by decide⟩

/-- A name of 256 bytes: Mkdir makes the directory, and no other call accepts its name. -/
theorem C87_counterexample_long : ∃ name S', mkdir ex exTree name 0o777 = (S', .ok ()) ∧ ¬ GoodName ex.utf8 name ∧ S'.root.shows [name] ≠ none := by
  refine ⟨List.replicate 256 'x', (mkdir ex exTree (List.replicate 256 'x') 0o777).1, ?_, ?_, ?_⟩
  · rfl
  · intro h
    exact absurd h.2.2 (by decide +kernel)
  · decide +kernel

/-- MkdirAll makes a directory in one that may not be written; Mkdir refuses. -/
theorem C87_counterexample_readOnly :
    let S : St := ⟨.dir 511 (.cons "a".toList (.dir 0o555 .nil) .nil), [], 0⟩
    (mkdir ex S "a/d".toList 0o777).2 = .error .acces ∧
    (mkdirAll ex S "a/d".toList 0o777).2 = .ok () ∧ (mkdirAll ex S "a/d".toList 0o777).1.root.shows ["a".toList, "d".toList] = some (.dir 0o755) :=
  ⟨rfl, rfl, by decide⟩

/-- MkdirAll with a permission without the search bit makes the directory and then fails; so it does again. -/
theorem C87_counterexample_search : ∃ S', mkdirAll ex exTree "d".toList 0o600 = (S', .error .acces) ∧ S'.root.shows ["d".toList] = some (.dir 0o600) ∧
    (mkdirAll ex S' "d".toList 0o600).2 = .error .acces ∧ (mkdir ex exTree "d".toList 0o600).2 = .ok () :=
  ⟨_, rfl, by decide, rfl, rfl⟩

/-- Chmod of a file with the directory bit makes it a directory to those who look at its mode. -/
theorem C86_note_chmodDir : ∃ S', chmod ex exTree "a/f".toList 0x800001FF = (S', .ok ()) ∧ S'.root.shows ["a".toList, "f".toList] = some (.file 0x800001FF 7) :=
  ⟨_, rfl, by decide⟩

end Verif.Afero
