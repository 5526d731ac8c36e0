import Verif.Vroot.Prefix
/-
Model of /repo/vroot/osfs/fs.go and of the translation of errors in /repo/vroot/osfs/root.go, and properties C113 and C114.

A call of `Fs` becomes one call of package os with other names, or is refused. What the kernel does with a name (links on the way, changes meanwhile) is not modelled; the documentation says that links can
lead out. Unix separators.
-/
namespace Verif.Vroot.Osfs
open Verif.Path

/-! ## Names -/

/-- std `filepath.Abs`. -/
def abs (cwd p : Str) : Str := if isAbs p then clean p else join2 cwd p

/-- fs.go 43-60 `NewFs`: the root kept; whether it is a directory is the kernel's answer. -/
def newFs (cwd given : Str) : Str := abs cwd given

/-- fs.go 250-258 `endsWithDot`. -/
def endsWithDot (name : Str) : Bool := name = dot || (match name.reverse with
  | '.' :: c :: _ => decide (c = slash)
  | _ => false)

/-- fs.go 79-294: the call of package os (with a full path), or the error. `resolvePath` (fs.go 62-77) is `prefixPath`, `ReadFile` is like `Open`. -/
def osCall (root : Str) (c : FsCall) : Except Errno FsCall :=
  match c with
  | .chmod n m => onPath root n fun p => .ok (.chmod p m)
  | .chown n u g => onPath root n fun p => .ok (.chown p u g)
  | .chtimes n a m => onPath root n fun p => .ok (.chtimes p a m)
  | .close => .ok .close
  | .create n => onPath root n fun p => .ok (.create p)
  | .lchown n u g => onPath root n fun p => .ok (if root = p then .chown p u g else .lchown p u g)
  | .link o n => onPath root o fun o' => onPath root n fun p => .ok (.link o' p)
  | .lstat n => onPath root n fun p => .ok (if root = p then .stat p else .lstat p)
  | .mkdir n m => onPath root n fun p => .ok (.mkdir p m)
  | .mkdirAll n m => onPath root n fun p => .ok (.mkdirAll p m)
  | .name => .ok .name
  | .open_ n => onPath root n fun p => .ok (.open_ p)
  | .openFile n f m => onPath root n fun p => .ok (.openFile p f m)
  | .openRoot n => onPath root n fun p => .ok (.openRoot p)
  | .readLink n => onPath root n fun p => if root = p then .error .inval else .ok (.readLink p)
  | .remove n => onPath root n fun p => .ok (.remove p)
  | .removeAll n => if endsWithDot n then .error .inval else onPath root n fun p => if p = root then .error .inval else .ok (.removeAll p)
  | .rename o n => onPath root o fun o' => onPath root n fun p => .ok (.rename o' p)
  | .stat n => onPath root n fun p => .ok (.stat p)
  | .symlink o n => onPath root n fun p => .ok (.symlink o p)

/-! ## Specification -/

/-- At the root the link itself is not asked for, but what it leads to: the root is taken as resolved. -/
def resolved : FsCall → FsCall
  | .lstat n => .stat n
  | .lchown n u g => .chown n u g
  | c => c

/-- The last element of the name is ".", as in "." and "a/.". -/
def LastIsDot (n : Str) : Prop := (split n).getLast? = some dot

/-! ## Proofs -/

theorem newFs_clean {cwd : Str} (hcwd : isAbs cwd = true) (given : Str) : clean (newFs cwd given) = newFs cwd given ∧ isAbs (newFs cwd given) = true := by
  have hne : cwd ≠ [] := by
    intro h
    rw [h] at hcwd
    cases hcwd
  unfold newFs abs
  by_cases h : isAbs given = true
  · rw [if_pos h]
    exact ⟨clean_clean _, by rw [isAbs_clean]; exact h⟩
  · rw [if_neg h]
    unfold join2
    rw [if_neg (fun h => hne h.1), if_neg hne]
    split
    · exact ⟨clean_clean _, by rw [isAbs_clean]; exact hcwd⟩
    · exact ⟨clean_clean _, by rw [isAbs_clean, isAbs_append hne]; exact hcwd⟩

theorem below_nil {root : Str} (hcl : clean root = root) : below root [] = root := by
  unfold below
  rw [List.append_nil]
  exact hcl

theorem below_root {root : Str} (hcl : clean root = root) {ns : List Str} (hns : ∀ c ∈ ns, IsName c) : below root ns = root ↔ ns = [] := by
  constructor
  · intro h
    exact C40_injective root ns [] hns (by simp) (by rw [below_nil hcl]; exact h)
  · rintro rfl
    exact below_nil hcl

theorem split_getLast (s : Str) : ∀ x, (split s).getLast? = some x ↔ (s = x ∧ slash ∉ x) ∨ ∃ t, s = t ++ slash :: x ∧ slash ∉ x := by
  intro x
  have hj := join_split s
  have hne := split_ne_nil s
  have hno := split_no_slash s
  constructor
  · intro h
    have hl : split s = (split s).dropLast ++ [x] := by
      rw [List.getLast?_eq_some_getLast hne, Option.some.injEq] at h
      rw [← h]
      exact (List.dropLast_concat_getLast hne).symm
    have hx : slash ∉ x := hno x (by rw [hl]; simp)
    by_cases hd : (split s).dropLast = []
    · left
      rw [hd] at hl
      rw [hl] at hj
      exact ⟨hj.symm, hx⟩
    · right
      rw [hl, join_concat hd] at hj
      exact ⟨_, hj.symm, hx⟩
  · rintro (⟨rfl, hx⟩ | ⟨t, rfl, hx⟩)
    · rw [split_of_no_slash hx]
      rfl
    · have : t ++ slash :: x = join (split t ++ [x]) := by
        rw [join_concat (split_ne_nil t), join_split]
      rw [this, split_join (by simp) (by
        intro c hc
        rcases List.mem_append.mp hc with h | h
        · exact split_no_slash t c h
        · rw [List.mem_singleton.mp h]
          exact hx)]
      simp

theorem endsWithDot_iff (n : Str) : endsWithDot n = true ↔ LastIsDot n := by
  unfold LastIsDot
  rw [split_getLast]
  unfold endsWithDot
  rw [Bool.or_eq_true, decide_eq_true_eq]
  constructor
  · rintro (h | h)
    · exact Or.inl ⟨h, by decide⟩
    · split at h
      · rename_i c r hr
        have hc := of_decide_eq_true h
        right
        refine ⟨r.reverse, ?_, by decide⟩
        have := congrArg List.reverse hr
        rw [List.reverse_reverse, hc] at this
        rw [this]
        simp [dot]
      · cases h
  · rintro (⟨h, _⟩ | ⟨t, h, _⟩)
    · exact Or.inl h
    · right
      rw [h]
      simp [dot]

/-- **C113** (confined). For every directory the filesystem was made for, and every call: what reaches the operating system is the same call, every name in it leads to a place at or below that directory, and the
name passed is the full path of the directory followed by the elements of that place. Only for the directory itself is a link followed where the call would not follow one. -/
theorem C113_forwarded (cwd given : Str) (hcwd : isAbs cwd = true) (c c' : FsCall) (h : osCall (newFs cwd given) c = .ok c') :
    (∀ n ∈ c.paths, ∃ ns, placeOf n = some ns) ∧ isAbs (newFs cwd given) = true ∧
    (c' = c.mapPaths (fun n => below (newFs cwd given) ((placeOf n).getD [])) ∨
      (∀ n ∈ c.paths, placeOf n = some []) ∧ c' = resolved (c.mapPaths fun _ => newFs cwd given)) := by
  obtain ⟨hcl, habs⟩ := newFs_clean hcwd given
  generalize newFs cwd given = root at *
  have key : ∀ {p : Str} {k : Str → Except Errno FsCall} {c' : FsCall}, onPath root p k = .ok c' → ∃ ns, placeOf p = some ns ∧ k (below root ns) = .ok c' := fun h => onPath_ok hcl h
  cases c <;> simp only [osCall] at h
  case close => cases h; exact ⟨by simp [FsCall.paths], habs, Or.inl rfl⟩
  case name => cases h; exact ⟨by simp [FsCall.paths], habs, Or.inl rfl⟩
  case link o n =>
    obtain ⟨os, ho, h⟩ := key h
    obtain ⟨ns, hn, h⟩ := key h
    cases h
    refine ⟨by simp [FsCall.paths, ho, hn], habs, Or.inl ?_⟩
    simp [FsCall.mapPaths, ho, hn]
  case rename o n =>
    obtain ⟨os, ho, h⟩ := key h
    obtain ⟨ns, hn, h⟩ := key h
    cases h
    refine ⟨by simp [FsCall.paths, ho, hn], habs, Or.inl ?_⟩
    simp [FsCall.mapPaths, ho, hn]
  case lchown n u g =>
    obtain ⟨ns, hn, h⟩ := key h
    refine ⟨by simp [FsCall.paths, hn], habs, ?_⟩
    by_cases hr : root = below root ns
    · rw [if_pos hr] at h
      have := (below_root hcl (placeOf_some hn).2.2).mp hr.symm
      subst this
      cases h
      right
      refine ⟨by simp [FsCall.paths, hn], ?_⟩
      rw [← hr]
      rfl
    · rw [if_neg hr] at h
      cases h
      left
      simp [FsCall.mapPaths, hn]
  case lstat n =>
    obtain ⟨ns, hn, h⟩ := key h
    refine ⟨by simp [FsCall.paths, hn], habs, ?_⟩
    by_cases hr : root = below root ns
    · rw [if_pos hr] at h
      have := (below_root hcl (placeOf_some hn).2.2).mp hr.symm
      subst this
      cases h
      right
      refine ⟨by simp [FsCall.paths, hn], ?_⟩
      rw [← hr]
      rfl
    · rw [if_neg hr] at h
      cases h
      left
      simp [FsCall.mapPaths, hn]
  case readLink n =>
    obtain ⟨ns, hn, h⟩ := key h
    split at h
    · cases h
    · cases h
      exact ⟨by simp [FsCall.paths, hn], habs, Or.inl (by simp [FsCall.mapPaths, hn])⟩
  case removeAll n =>
    split at h
    · cases h
    · obtain ⟨ns, hn, h⟩ := key h
      split at h
      · cases h
      · cases h
        exact ⟨by simp [FsCall.paths, hn], habs, Or.inl (by simp [FsCall.mapPaths, hn])⟩
  all_goals
    obtain ⟨ns, hn, h⟩ := key h
    cases h
    exact ⟨by simp [FsCall.paths, hn], habs, Or.inl (by simp [FsCall.mapPaths, hn])⟩

/-- **C113** (refused). A call with a name that is absolute or steps above the directory does not reach the operating system. -/
theorem C113_refused (cwd given : Str) (hcwd : isAbs cwd = true) (c : FsCall) (n : Str) (hn : n ∈ c.paths) (hl : placeOf n = none) : ∃ e, osCall (newFs cwd given) c = .error e := by
  cases h : osCall (newFs cwd given) c with
  | error e => exact ⟨e, rfl⟩
  | ok c' =>
    obtain ⟨ns, hns⟩ := (C113_forwarded cwd given hcwd c c' h).1 n hn
    rw [hl] at hns
    cases hns

/-- **C113** (the error). Unless the name ends in ".", for `RemoveAll`, the error says that the name leaves the directory; it says so for no other call. -/
theorem C113_escapes (cwd given : Str) (hcwd : isAbs cwd = true) (c : FsCall) :
    (osCall (newFs cwd given) c = .error .perm ↔ (∃ n ∈ c.paths, placeOf n = none) ∧ ∀ n, c = .removeAll n → ¬ LastIsDot n) := by
  obtain ⟨hcl, _⟩ := newFs_clean hcwd given
  generalize newFs cwd given = root at *
  have one : ∀ (p : Str) (k : Str → Except Errno FsCall), (∀ q, k q ≠ .error .perm) → (onPath root p k = .error .perm ↔ placeOf p = none) := by
    intro p k hk
    unfold onPath
    rw [prefixPath_eq hcl]
    cases placeOf p with
    | none => simp
    | some ns => simp [hk]
  have two : ∀ (o n : Str) (k : Str → Str → Except Errno FsCall), (∀ a b, k a b ≠ .error .perm) →
      ((onPath root o fun o' => onPath root n fun p => k o' p) = .error .perm ↔ placeOf o = none ∨ placeOf n = none) := by
    intro o n k hk
    show onPath root o _ = _ ↔ _
    unfold onPath
    rw [prefixPath_eq hcl, prefixPath_eq hcl]
    cases placeOf o with
    | none => simp
    | some ns =>
      cases placeOf n with
      | none => simp
      | some ns => simp [hk]
  cases c <;> simp only [osCall, FsCall.paths]
  case link o n => rw [two o n (fun a b => .ok (.link a b)) (fun _ _ h => by cases h)]; simp
  case rename o n => rw [two o n (fun a b => .ok (.rename a b)) (fun _ _ h => by cases h)]; simp
  case removeAll n =>
    by_cases hd : endsWithDot n = true
    · rw [if_pos hd]
      constructor
      · intro h
        cases h
      · intro h
        exact absurd ((endsWithDot_iff n).mp hd) (h.2 n rfl)
    · rw [if_neg hd, one _ _ (fun q h => by split at h <;> cases h)]
      constructor
      · intro h
        refine ⟨⟨n, List.mem_cons_self, h⟩, fun m hm hl => ?_⟩
        cases hm
        exact hd ((endsWithDot_iff n).mpr hl)
      · rintro ⟨⟨m, hm, h⟩, _⟩
        rw [List.mem_singleton.mp hm] at h
        exact h
  case readLink n => rw [one _ _ (fun q h => by split at h <;> cases h)]; simp
  case close => simp
  case name => simp
  all_goals
    rw [one _ _ (fun q h => by cases h)]
    simp

/-- **C113** (nothing else is refused), except reading the directory as a link and removing it with all it holds. -/
theorem C113_accepted (cwd given : Str) (hcwd : isAbs cwd = true) (c : FsCall) (hin : ∀ n ∈ c.paths, placeOf n ≠ none)
    (hread : ∀ n, c = .readLink n → placeOf n ≠ some []) (hall : ∀ n, c = .removeAll n → placeOf n ≠ some [] ∧ ¬ LastIsDot n) : ∃ c', osCall (newFs cwd given) c = .ok c' := by
  obtain ⟨hcl, _⟩ := newFs_clean hcwd given
  generalize newFs cwd given = root at *
  have key : ∀ p k, placeOf p ≠ none → ∃ ns, placeOf p = some ns ∧ onPath root p k = k (below root ns) := by
    intro p k hp
    unfold onPath
    rw [prefixPath_eq hcl]
    cases h : placeOf p with
    | none => exact absurd h hp
    | some ns => exact ⟨ns, rfl, rfl⟩
  cases c <;> simp only [osCall]
  case close => exact ⟨_, rfl⟩
  case name => exact ⟨_, rfl⟩
  case link o n =>
    obtain ⟨o', _, h1⟩ := key o (fun o' => onPath root n (fun p => .ok (.link o' p))) (hin o (by simp [FsCall.paths]))
    obtain ⟨n', _, h2⟩ := key n (fun p => .ok (.link (below root o') p)) (hin n (by simp [FsCall.paths]))
    rw [h1, h2]; exact ⟨_, rfl⟩
  case rename o n =>
    obtain ⟨o', _, h1⟩ := key o (fun o' => onPath root n (fun p => .ok (.rename o' p))) (hin o (by simp [FsCall.paths]))
    obtain ⟨n', _, h2⟩ := key n (fun p => .ok (.rename (below root o') p)) (hin n (by simp [FsCall.paths]))
    rw [h1, h2]; exact ⟨_, rfl⟩
  case readLink n =>
    obtain ⟨ns, hn, h2⟩ := key n (fun p => if root = p then .error .inval else .ok (.readLink p)) (hin n (by simp [FsCall.paths]))
    rw [h2, if_neg]
    · exact ⟨_, rfl⟩
    · intro he
      rw [(below_root hcl (placeOf_some hn).2.2).mp he.symm] at hn
      exact hread n rfl hn
  case removeAll n =>
    rw [if_neg (fun h => (hall n rfl).2 ((endsWithDot_iff n).mp h))]
    obtain ⟨ns, hn, h2⟩ := key n (fun p => if p = root then .error .inval else .ok (.removeAll p)) (hin n (by simp [FsCall.paths]))
    rw [h2, if_neg]
    · exact ⟨_, rfl⟩
    · intro he
      rw [(below_root hcl (placeOf_some hn).2.2).mp he] at hn
      exact (hall n rfl).1 hn
  all_goals
    obtain ⟨n', _, h2⟩ := key _ _ (hin _ (by simp only [FsCall.paths]; exact List.mem_cons_self))
    rw [h2]; exact ⟨_, rfl⟩

/-- **C113** (the directory stays). `RemoveAll` never gets the path of the directory itself, and `Remove` and `Rename` get it only for names of it. -/
theorem C113_stays_partial (cwd given : Str) (hcwd : isAbs cwd = true) (n : Str) :
    osCall (newFs cwd given) (.removeAll n) ≠ .ok (.removeAll (newFs cwd given)) ∧
    (osCall (newFs cwd given) (.remove n) = .ok (.remove (newFs cwd given)) → placeOf n = some []) ∧
    (∀ m p, osCall (newFs cwd given) (.rename n m) = .ok (.rename (newFs cwd given) p) → placeOf n = some []) ∧
    (∀ m p, osCall (newFs cwd given) (.rename m n) = .ok (.rename p (newFs cwd given)) → placeOf n = some []) := by
  obtain ⟨hcl, _⟩ := newFs_clean hcwd given
  generalize newFs cwd given = root at *
  have key : ∀ {ns}, placeOf n = some ns → below root ns = root → placeOf n = some [] := by
    intro ns hn h
    rw [(below_root hcl (placeOf_some hn).2.2).mp h] at hn
    exact hn
  refine ⟨?_, ?_, ?_, ?_⟩
  · intro h
    simp only [osCall] at h
    split at h
    · cases h
    · obtain ⟨ns, hn, h⟩ := onPath_ok hcl h
      split at h
      · cases h
      · rename_i hne
        injection h with h
        injection h with h
        exact hne h
  · intro h
    simp only [osCall] at h
    obtain ⟨ns, hn, h⟩ := onPath_ok hcl h
    injection h with h
    injection h with h
    exact key hn h
  · intro m p h
    simp only [osCall] at h
    obtain ⟨ns, hn, h⟩ := onPath_ok hcl h
    obtain ⟨ms, hm, h⟩ := onPath_ok hcl h
    injection h with h
    injection h with h1 h2
    exact key hn h1
  · intro m p h
    simp only [osCall] at h
    obtain ⟨ns, hn, h⟩ := onPath_ok hcl h
    obtain ⟨ms, hm, h⟩ := onPath_ok hcl h
    injection h with h
    injection h with h1 h2
    exact key hm h2

/-- **C113 does not hold for `Remove` and `Rename`:** for every directory, an empty one is removed by `Remove(".")`, and renaming passes it on as well. -/
theorem C113_counterexample_remove (cwd given : Str) (hcwd : isAbs cwd = true) :
    osCall (newFs cwd given) (.remove dot) = .ok (.remove (newFs cwd given)) ∧ osCall (newFs cwd given) (.rename ['x'] dot) = .ok (.rename (below (newFs cwd given) [['x']]) (newFs cwd given)) := by
  obtain ⟨hcl, _⟩ := newFs_clean hcwd given
  generalize newFs cwd given = root at *
  have h1 : placeOf dot = some [] := by decide
  have h2 : placeOf ['x'] = some [['x']] := by decide
  constructor
  · simp [osCall, onPath, prefixPath_eq hcl, h1, below_nil hcl]
  · simp [osCall, onPath, prefixPath_eq hcl, h1, h2, below_nil hcl]

/-- In /w, made for "d/../s": names are below /w/s. -/
example : newFs "/w".toList "d/../s".toList = "/w/s".toList ∧ osCall "/w/s".toList (.stat "a/../b".toList) = .ok (.stat "/w/s/b".toList) ∧ osCall "/w/s".toList (.lstat dot) = .ok (.stat "/w/s".toList) ∧
    osCall "/w/s".toList (.rename ['b'] "../s".toList) = .error .perm ∧ osCall "/w/s".toList (.removeAll "b/.".toList) = .error .inval ∧ osCall "/w/s".toList (.removeAll "b/..".toList) = .error .inval ∧
    osCall "/w/s".toList (.symlink "/etc".toList ['b']) = .ok (.symlink "/etc".toList "/w/s/b".toList) := ⟨by decide, rfl, rfl, rfl, rfl, rfl, rfl⟩

/-! ## Errors of `Root` -/

/-- An error as a chain of wrappings: a `*fs.PathError`, a `*os.LinkError`, another wrapping, and at its end a text. `escapes` is `vroot.ErrPathEscapes`. Errors joined from several are ends. -/
inductive Err where
  | leaf (text : Str)
  | escapes
  | path (op name : Str) (cause : Err)
  | link (op old new : Str) (cause : Err)
  | wrap (text : Str) (cause : Err)
  deriving DecidableEq, Repr

/-- vroot.go `ErrPathEscapes`, and std os `errPathEscapes`. -/
def escapesText : Str := "path escapes from parent".toList

/-- root.go 38-45: `errors.Unwrap` as long as it gives something. -/
def Err.leafErr : Err → Err
  | .path _ _ c => c.leafErr
  | .link _ _ _ c => c.leafErr
  | .wrap _ c => c.leafErr
  | e => e

/-- std `errors.AsType[*fs.PathError]`: the first in the chain. -/
def Err.asPath : Err → Option (Str × Str)
  | .path o n _ => some (o, n)
  | .link _ _ _ c => c.asPath
  | .wrap _ c => c.asPath
  | _ => none

/-- std `errors.AsType[*os.LinkError]`. -/
def Err.asLink : Err → Option (Str × Str × Str)
  | .link o a b _ => some (o, a, b)
  | .path _ _ c => c.asLink
  | .wrap _ c => c.asLink
  | _ => none

/-- `Error()` of the end of a chain. The text of `vroot.ErrPathEscapes` is a parameter. -/
def Err.endText (own : Str) : Err → Str
  | .leaf t => t
  | .escapes => own
  | _ => []

/-- root.go 32-66 `translateEscape`. -/
def translateEscape (own : Str) : Option Err → Option Err
  | none => none
  | some err =>
    if err.leafErr.endText own ≠ escapesText then some err
    else match err.asPath with
      | some (o, n) => some (.path o n .escapes)
      | none => match err.asLink with
        | some (o, a, b) => some (.link o a b .escapes)
        | none => some .escapes

/-- What `errors.Is(err, vroot.ErrPathEscapes)` says. -/
def Err.isEscapes : Err → Bool
  | .escapes => true
  | .path _ _ c => c.isEscapes
  | .link _ _ _ c => c.isEscapes
  | .wrap _ c => c.isEscapes
  | .leaf _ => false

/-- An error of `*os.Root`: an operation with one name or two, and a cause of one piece. -/
inductive OfRoot : Err → Prop
  | path (op name t) : OfRoot (.path op name (.leaf t))
  | link (op old new t) : OfRoot (.link op old new (.leaf t))

theorem leaf_isEscapes (e : Err) : e.isEscapes = true ↔ e.leafErr = .escapes := by
  induction e with
  | leaf => simp [Err.isEscapes, Err.leafErr]
  | escapes => simp [Err.isEscapes, Err.leafErr]
  | path _ _ c ih => exact ih
  | link _ _ _ c ih => exact ih
  | wrap _ c ih => exact ih

/-- **C114** (success stays success, failure failure). -/
theorem C114_nil (own : Str) (e : Option Err) : translateEscape own e = none ↔ e = none := by
  unfold translateEscape
  split
  · simp
  · split
    · simp
    · split
      · simp
      · split <;> simp

/-- **C114** (recognised). For every error, whatever it is wrapped in, that did not say `ErrPathEscapes` before: it does so afterwards exactly when at its end is the text of package os. -/
theorem C114_recognised (own : Str) (e : Err) (hno : e.isEscapes = false) : ∃ e', translateEscape own (some e) = some e' ∧ (e'.isEscapes = true ↔ e.leafErr = .leaf escapesText) := by
  have hend : ∀ e : Err, (∃ t, e.leafErr = .leaf t) ∨ e.leafErr = .escapes := by
    intro e
    induction e with
    | leaf t => exact Or.inl ⟨t, rfl⟩
    | escapes => exact Or.inr rfl
    | path _ _ c ih => exact ih
    | link _ _ _ c ih => exact ih
    | wrap _ c ih => exact ih
  have hleaf : ∃ t, e.leafErr = .leaf t := by
    rcases hend e with h | h
    · exact h
    · rw [(leaf_isEscapes e).mpr h] at hno
      cases hno
  obtain ⟨t, ht⟩ := hleaf
  unfold translateEscape
  simp only [ht, Err.endText]
  by_cases h : t = escapesText
  · rw [if_neg (fun hn => hn h)]
    subst h
    cases e.asPath with
    | some p => exact ⟨_, rfl, by simp [Err.isEscapes]⟩
    | none =>
      cases e.asLink with
      | some p => exact ⟨_, rfl, by simp [Err.isEscapes]⟩
      | none => exact ⟨_, rfl, by simp [Err.isEscapes]⟩
  · rw [if_pos h]
    refine ⟨_, rfl, ?_⟩
    simp [hno, h]

/-- **C114** (what it names). An error of `*os.Root` keeps its operation and names, and any other cause stays what it is. -/
theorem C114_names (own : Str) (e : Err) (h : OfRoot e) : translateEscape own (some e) = some (match e with
    | .path op name (.leaf t) => if t = escapesText then .path op name .escapes else e
    | .link op old new (.leaf t) => if t = escapesText then .link op old new .escapes else e
    | e => e) := by
  cases h with
  | path op name t =>
    show (if t ≠ escapesText then some (Err.path op name (.leaf t)) else some (Err.path op name .escapes)) = some (if t = escapesText then Err.path op name .escapes else .path op name (.leaf t))
    by_cases ht : t = escapesText
    · simp [ht]
    · simp [ht]
  | link op old new t =>
    show (if t ≠ escapesText then some (Err.link op old new (.leaf t)) else some (Err.link op old new .escapes)) = some (if t = escapesText then Err.link op old new .escapes else .link op old new (.leaf t))
    by_cases ht : t = escapesText
    · simp [ht]
    · simp [ht]

theorem translate_other {own : Str} {e : Err} (h : e.leafErr.endText own ≠ escapesText) : translateEscape own (some e) = some e := by
  unfold translateEscape
  simp [h]

/-- **C114** (once is enough). Doing it twice is doing it once. -/
theorem C114_once (own : Str) (e : Option Err) : translateEscape own (translateEscape own e) = translateEscape own e := by
  have fix : ∀ e : Err, (∃ o n, e = .path o n .escapes) ∨ (∃ o a b, e = .link o a b .escapes) ∨ e = .escapes → translateEscape own (some e) = some e := by
    rintro e (⟨o, n, rfl⟩ | ⟨o, a, b, rfl⟩ | rfl)
    · by_cases h : own = escapesText
      · simp [translateEscape, Err.leafErr, Err.endText, h, Err.asPath]
      · exact translate_other h
    · by_cases h : own = escapesText
      · simp [translateEscape, Err.leafErr, Err.endText, h, Err.asPath, Err.asLink]
      · exact translate_other h
    · by_cases h : own = escapesText
      · simp [translateEscape, Err.leafErr, Err.endText, h, Err.asPath, Err.asLink]
      · exact translate_other h
  cases e with
  | none => rfl
  | some e =>
    by_cases h : e.leafErr.endText own = escapesText
    · have h1 : ∃ e', translateEscape own (some e) = some e' ∧ ((∃ o n, e' = .path o n .escapes) ∨ (∃ o a b, e' = .link o a b .escapes) ∨ e' = .escapes) := by
        unfold translateEscape
        simp only [h, ne_eq, not_true_eq_false, if_false]
        cases e.asPath with
        | some p => exact ⟨_, rfl, Or.inl ⟨_, _, rfl⟩⟩
        | none =>
          cases e.asLink with
          | some p => exact ⟨_, rfl, Or.inr (Or.inl ⟨_, _, _, rfl⟩)⟩
          | none => exact ⟨_, rfl, Or.inr (Or.inr rfl)⟩
      obtain ⟨e', he, hs⟩ := h1
      rw [he, fix e' hs]
    · rw [translate_other h, translate_other h]

/-- Both kinds, and another cause. -/
example (own : Str) : translateEscape own (some (.path "open".toList "../a".toList (.leaf escapesText))) = some (.path "open".toList "../a".toList .escapes) ∧
    translateEscape own (some (.wrap "x".toList (.link "rename".toList ['a'] ['b'] (.leaf escapesText)))) = some (.link "rename".toList ['a'] ['b'] .escapes) ∧
    translateEscape own (some (.path "open".toList ['a'] (.leaf "no such file or directory".toList))) = some (.path "open".toList ['a'] (.leaf "no such file or directory".toList)) := ⟨rfl, rfl, rfl⟩

end Verif.Vroot.Osfs
