import Verif.Afero.RenameProps
/-
C90: what OpenFile and AddFile of the afero filesystem do.
-/
namespace Verif.Afero
open Verif.Path

/-! ### C90: OpenFile -/

/-- The access asked for is permitted. -/
def Allowed : Access → Nat → Bool
  | .rd, m => mayRead m
  | .wr, m => mayWrite m
  | .rdwr, m => mayRead m && mayWrite m

theorem hasPerm_flag (f : Flag) (m : Nat) : hasPerm m f.perm = Allowed f.acc m := by
  unfold Flag.perm Allowed
  cases f.acc
  · exact hasPerm_read m
  · exact hasPerm_write m
  · exact hasPerm_readWrite m

/-- Opening a file that is there: it is cut first if that is asked, then opened; the first failure is reported. -/
def opened (e : Env) (S : St) (trunc : Bool) (v : Nat) : St × Except Err Handle :=
  let go : List Ask → St × Except Err Handle := fun pre =>
    ({ S with asked := S.asked ++ pre ++ [.open_ v] }, match e.answer (S.asked ++ pre).length with
      | none => .ok (.file v)
      | some er => .error (.view er))
  if trunc then match e.answer S.asked.length with
    | none => go [.truncate v]
    | some er => ({ S with asked := S.asked ++ [.truncate v] }, .error (.view er))
  else go []

/-- **C90**: opening a name at which there is something: O_EXCL refuses, then the access must be permitted, then a directory can only be read. The tree
does not change; only the view of that file is asked. -/
theorem C90_open_existing (e : Env) (S : St) (name : Str) (f : Flag) (perm : Nat) (h : GoodName e.utf8 name) (hd : name ≠ dot) {m : Nat} {es : Ents} {k : Node}
    (hw : walk S.root (place (dir name)) = .ok (.dir m es)) (hs : maySearch m = true) (hk : es.find (base name) = some k) :
    openFile e S name f perm =
      if f.excl then (S, .error .exist)
      else if Allowed f.acc k.mode = false then (S, .error .acces)
      else match k with
        | .dir _ _ => if f.acc = .rd ∧ f.trunc = false then (S, .ok (.dir (place name))) else (S, .error .isDir)
        | .file _ v => opened e S f.trunc v := by
  have hv := (C86_valid e name).2 h
  have hb : base name ≠ dot := fun hb => hd ((base_dot hv).1 hb)
  unfold openFile
  rw [findParent_eq hv hd, hw]
  simp only [hs, if_true, if_neg hb, Node.lookup, hk, hasPerm_flag]
  by_cases hx : f.excl = true
  · simp [hx]
  · simp only [hx, Bool.false_eq_true, if_false]
    cases ha : Allowed f.acc k.mode with
    | false => simp
    | true =>
      simp only [Bool.not_true, Bool.false_eq_true, if_false]
      cases k with
      | dir mk ek =>
        rw [← place_dir hv hd]
        simp only [Node.isDir, Bool.true_and, openHandle]
        unfold Flag.writable
        cases f.acc <;> cases f.trunc <;> simp
      | file mk v =>
        simp only [Node.isDir, Bool.false_and, Bool.false_eq_true, if_false, opened, openHandle, ask]
        cases f.trunc with
        | false =>
          simp only [Bool.false_eq_true, if_false, List.append_nil]
          cases e.answer S.asked.length <;> rfl
        | true =>
          simp only [if_true]
          cases e.answer S.asked.length with
          | some er => rfl
          | none =>
            simp only
            cases e.answer (S.asked ++ [Ask.truncate v]).length <;> rfl

/-- **C90**: opening a name at which there is nothing. With O_CREATE, in a directory that may be written and searched, a view is allocated; if it can be
looked at and opened the file is there, with what the view says of its mode, and nothing else has changed. -/
theorem C90_open_create_partial (e : Env) (S : St) (name : Str) (f : Flag) (perm : Nat) (h : GoodName e.utf8 name) (hd : name ≠ dot) {m : Nat} {es : Ents}
    (hw : walk S.root (place (dir name)) = .ok (.dir m es)) (hs : maySearch m = true) (hk : es.find (base name) = none) :
    (f.create = false → openFile e S name f perm = (S, .error .noent)) ∧
    (f.create = true → mayWrite m = false → openFile e S name f perm = (S, .error .acces)) ∧
    (f.create = true → mayWrite m = true → e.alloc = false → openFile e S name f perm = (S, .error .rofs)) ∧
    (f.create = true → mayWrite m = true → e.alloc = true →
      (∀ er, e.answer S.asked.length = some er → ∃ S', openFile e S name f perm = (S', .error (.view er)) ∧ S'.root = S.root ∧ S'.asked = S.asked ++ [.stat S.next]) ∧
      (∀ er, e.answer S.asked.length = none → e.answer (S.asked.length + 1) = some er → ∃ S', openFile e S name f perm = (S', .error (.view er)) ∧
        S'.root = S.root ∧ S'.asked = S.asked ++ [.stat S.next, .open_ S.next]) ∧
      (e.answer S.asked.length = none → e.answer (S.asked.length + 1) = none → ∃ S', openFile e S name f perm = (S', .ok (.file S.next)) ∧
        S'.asked = S.asked ++ [.stat S.next, .open_ S.next] ∧ S'.next = S.next + 1 ∧
        S'.root.shows (place name) = some (.file (e.allocMode perm) S.next) ∧ ∀ q, q ≠ place name → S'.root.shows q = S.root.shows q)) := by
  have hv := (C86_valid e name).2 h
  have hb : base name ≠ dot := fun hb => hd ((base_dot hv).1 hb)
  have ha := walk_at _ _ _ hw
  unfold openFile
  rw [findParent_eq hv hd, hw]
  simp only [hs, if_true, if_neg hb, Node.lookup, hk, Node.mode, hasPerm_change]
  refine ⟨fun hc => by simp [hc], fun hc hm => by simp [hc, hm], fun hc hm hal => by simp [hc, hm, hal], fun hc hm hal => ?_⟩
  simp only [hc, hm, hal, Bool.and_self, Bool.not_true, Bool.false_eq_true, if_false, ask]
  refine ⟨fun er h1 => ?_, fun er h1 h2 => ?_, fun h1 h2 => ?_⟩
  · rw [h1]; exact ⟨_, rfl, rfl, rfl⟩
  · rw [h1]
    simp only [List.length_append, List.length_singleton, h2]
    exact ⟨_, rfl, rfl, by simp⟩
  · rw [h1]
    simp only [List.length_append, List.length_singleton, h2]
    refine ⟨_, rfl, by simp [change], rfl, ?_, ?_⟩
    · have := (add_shows ha (base name) (.file (e.allocMode perm) S.next)).1 []
      rw [List.append_nil, ← place_dir hv hd] at this
      exact this
    · intro q hq
      rw [place_dir hv hd] at hq
      by_cases hpq : place (dir name) ++ [base name] <+: q
      · obtain ⟨r, rfl⟩ := hpq
        refine ((add_shows ha (base name) _).1 r).trans ?_
        rw [List.append_assoc, Node.shows_append ha]
        cases r with
        | nil => exact absurd (List.append_nil _) hq
        | cons c r => simp [Node.shows, Node.at, hk]
      · exact (add_shows ha (base name) _).2 q hpq

/-- **C90**: a name whose directory cannot be walked to is not opened; "." is the root, however it is opened. -/
theorem C90_open_fails (e : Env) (S : St) (name : Str) (f : Flag) (perm : Nat) (h : GoodName e.utf8 name) :
    (name ≠ dot →
      (∀ er, walk S.root (place (dir name)) = .error er → openFile e S name f perm = (S, .error er)) ∧
      (∀ m v, walk S.root (place (dir name)) = .ok (.file m v) → openFile e S name f perm = (S, .error .notDir)) ∧
      (∀ m es, walk S.root (place (dir name)) = .ok (.dir m es) → maySearch m = false → openFile e S name f perm = (S, .error .acces))) ∧
    (name = dot → ∀ m es, S.root = .dir m es → openFile e S name f perm = (S, .ok (.dir []))) := by
  have hv := (C86_valid e name).2 h
  refine ⟨fun hd => ?_, ?_⟩
  · unfold openFile
    rw [findParent_eq hv hd]
    exact ⟨fun er hw => by rw [hw], fun m v hw => by rw [hw], fun m es hw hs => by rw [hw]; simp [hs]⟩
  · rintro rfl m es hr
    unfold openFile findParent
    rw [hv]
    simp only [if_true]
    rw [if_pos (show base dot = dot by decide), hr]
    rfl

/-! ### C90: AddFile -/

/-- What is below the path is not touched by MkdirAll. -/
theorem mkdirAllLoop_below (e : Env) (perm : Nat) : ∀ (p : List Str) (n : Node) (r : List Str), r ≠ [] → (mkdirAllLoop e perm n p).1.at (p ++ r) = n.at (p ++ r)
  | [], n, r, _ => rfl
  | c :: p, .file _ _, r, _ => rfl
  | c :: p, .dir m es, r, hr => by
    simp only [mkdirAllLoop, List.cons_append]
    have hne : ∃ x q, p ++ r = x :: q := by
      cases h : p ++ r with
      | nil => simp at h; exact absurd h.2 hr
      | cons x q => exact ⟨x, q, rfl⟩
    cases hf : es.find c with
    | some k =>
      simp only [hf]
      cases hs : searchable (some k) with
      | error er => rfl
      | ok k' =>
        have := (searchable_ok hs).1
        cases this
        simp only [Node.at, Ents.find_update, if_true, hf, Option.map_some]
        exact mkdirAllLoop_below e perm p k r hr
    | none =>
      simp only [Ents.find_add, if_true]
      have hnil : (Node.dir (maskPerm e perm) .nil).at (p ++ r) = none := by
        obtain ⟨x, q, h⟩ := hne
        rw [h]; simp [Node.at, Ents.find]
      cases hs : searchable (some (Node.dir (maskPerm e perm) .nil)) with
      | error er =>
        simp only [Node.at, Ents.find_add, if_true, hf]
        exact hnil
      | ok k' =>
        have := (searchable_ok hs).1
        cases this
        simp only [Node.at, Ents.find_update, if_true, Ents.find_add, Option.map_some, hf]
        rw [mkdirAllLoop_below e perm p _ r hr]
        exact hnil

theorem mkdirAll_below (e : Env) (S : St) (name : Str) (perm : Nat) (r : List Str) (hr : r ≠ []) :
    (mkdirAll e S name perm).1.root.at (place name ++ r) = S.root.at (place name ++ r) := by
  unfold mkdirAll
  split
  · rfl
  · split
    · rfl
    · rename_i hd
      have hp : place name = split name := if_neg hd
      cases hs : searchable (some S.root) with
      | error er => rfl
      | ok k =>
        have := (searchable_ok hs).1
        cases this
        rw [hp]
        exact mkdirAllLoop_below e perm _ _ r hr

theorem filePart_valid {e : Env} {name : Str} (h : validate e name = none) (hd : name ≠ dot) : filePart name = base name ∧ filePart name ≠ [] := by
  have hp := place_snoc h hd
  have hps : place name = split name := if_neg hd
  have hn := place_names h
  have hx : IsName (base name) := hn _ (by rw [hp]; simp)
  have key : filePart name = base name := by
    rcases List.eq_nil_or_concat (split name).dropLast with hD | ⟨D, y, hD⟩
    · have hs : split name = [base name] := by rw [← hps, hp, hD]; rfl
      have : name = base name := by
        have := join_split name
        rw [hs] at this
        exact this.symm
      have hno : slash ∉ name := by rw [this]; exact hx.1.2
      unfold filePart
      rw [takeWhile_all hno, List.reverse_reverse]
      exact this
    · rw [List.concat_eq_append] at hD
      have hs : split name = (D ++ [y]) ++ [base name] := by rw [← hps, hp, hD]
      have hj : name = join (D ++ [y]) ++ slash :: base name := by
        have := join_split name
        rw [hs, join_concat (by simp)] at this
        exact this.symm
      rw [show filePart name = filePart (join (D ++ [y]) ++ slash :: base name) by rw [← hj]]
      unfold filePart
      rw [List.reverse_append, List.reverse_cons, List.append_assoc]
      have := takeWhile_rev hx.1.2 (join (D ++ [y])).reverse
      simp only [List.singleton_append, this, List.reverse_reverse]
  exact ⟨key, by rw [key]; exact hx.1.1⟩

/-- **C90**: AddFile of a view that can be looked at and is not a directory. If it succeeds, the file is at the name, all its parents are directories
(those that were missing have been made with mode 0777 less the umask), whatever was at the name is gone and its views, and no others, have been
told; all else is as it was. -/
theorem C90_addFile_partial (e : Env) (S S' : St) (path : Str) (v : View) (h : GoodName e.utf8 path) (hd : path ≠ dot)
    (hok : addFileCall e S path v = (S', .ok ())) :
    v.isDir = false ∧ e.answer S.asked.length = none ∧
    S'.root.shows (place path) = some (.file v.mode v.id) ∧ (∀ c r, S'.root.shows (place path ++ c :: r) = none) ∧
    (∀ q, q <+: place path → q ≠ place path → ((∃ md, S.root.shows [] = some (.dir md)) → ∃ md, S'.root.shows q = some (.dir md))) ∧
    (∀ q i, ¬ place path <+: q → S.root.shows q = some i → S'.root.shows q = some i) ∧
    (∀ q, ¬ place path <+: q → S.root.shows q = none → S'.root.shows q = none ∨
      (q <+: place path ∧ ∃ md, S'.root.shows q = some (.dir md) ∧ ∀ i, md.testBit i = masked e.umask 0o777 i)) ∧
    S'.asked = S.asked ++ [.stat v.id] ++ (match S.root.at (place path) with | some k => k.views.map Ask.close | none => []) ∧ S'.next = S.next := by
  have hv := (C86_valid e path).2 h
  have hpl := place_dir hv hd
  have hfile := filePart_valid hv hd
  unfold addFileCall at hok
  rw [hv] at hok
  unfold addFile ask at hok
  simp only at hok
  cases han : e.answer S.asked.length with
  | some er => rw [han] at hok; cases hok
  | none =>
    rw [han] at hok
    simp only at hok
    split at hok
    · cases hok
    · rename_i hvd
      rw [if_neg hfile.2] at hok
      have hdir : clean (dirPart path) = dir path := rfl
      rw [hdir, hfile.1] at hok
      cases hmk : mkdirAll e ⟨S.root, S.asked ++ [.stat v.id], S.next⟩ (dir path) 511 with
      | mk S2 res =>
        rw [hmk] at hok
        have hbelow := mkdirAll_below e ⟨S.root, S.asked ++ [.stat v.id], S.next⟩ (dir path) 511 [base path] (by simp)
        rw [hmk, ← hpl] at hbelow
        simp only at hbelow
        obtain ⟨m1, m2, m3, m4, m5⟩ := C87_mkdirAll e _ S2 (dir path) 511 res hmk
        cases res with
        | error er => cases hok
        | ok u =>
          obtain ⟨hgd, m5⟩ := m5 rfl
          simp only at hok m1 m2 m3 m4 m5
          cases hfi : find e S2.root (dir path) with
          | error er => rw [hfi] at hok; cases hok
          | ok r =>
            obtain ⟨loc, parent⟩ := r
            rw [hfi] at hok
            simp only at hok
            obtain ⟨_, hloc, _, hat⟩ := find_ok hfi
            cases hse : searchable (some parent) with
            | error er => rw [hse] at hok; cases hok
            | ok p' =>
              rw [hse] at hok
              simp only at hok
              obtain ⟨hpp, mp, ep, hp', _⟩ := searchable_ok hse
              cases hpp
              subst hp'
              split at hok
              · cases hok
              · have hl : (Node.dir mp ep).lookup (base path) = S.root.at (place path) := by
                  rw [← hbelow, hpl, Node.at_snoc, ← hloc, hat]; rfl
                rw [hl] at hok
                subst hloc
                obtain ⟨a1, a2⟩ := add_shows hat (base path) (.file v.mode v.id)
                rw [← hpl] at a1 a2
                have hroot : S'.root = S2.root.modify (place (dir path)) (Node.add (base path) (.file v.mode v.id)) := by
                  cases hx : S.root.at (place path) with
                  | none => rw [hx] at hok; cases hok; rfl
                  | some k => rw [hx] at hok; cases hok; rfl
                have hnext : S'.next = S2.next := by
                  cases hx : S.root.at (place path) with
                  | none => rw [hx] at hok; cases hok; rfl
                  | some k => rw [hx] at hok; cases hok; rfl
                have hpre : ∀ q, q <+: place path → q ≠ place path → q <+: place (dir path) := by
                  intro q hq hne
                  rw [hpl] at hq hne
                  rcases List.prefix_concat_iff.1 hq with h | h
                  · exact absurd h hne
                  · exact h
                refine ⟨by simpa using hvd, rfl, ?_, ?_, ?_, ?_, ?_, ?_, by rw [hnext, m2]⟩
                · rw [hroot]
                  have := a1 []
                  rw [List.append_nil] at this
                  exact this
                · intro c r
                  rw [hroot]
                  exact a1 (c :: r)
                · intro q hq hne hr
                  obtain ⟨md, hmd⟩ := m5 hr q (hpre q hq hne)
                  refine ⟨md, ?_⟩
                  rw [hroot, a2 q (fun hp => hne ?_)]
                  · exact hmd
                  · exact List.IsPrefix.eq_of_length hq (Nat.le_antisymm hq.length_le hp.length_le)
                · intro q i hnp hq
                  rw [hroot, a2 q hnp]
                  exact m3 q i hq
                · intro q hnp hq
                  rw [hroot, a2 q hnp]
                  rcases m4 q hq with h | ⟨h, h'⟩
                  · exact Or.inl h
                  · refine Or.inr ⟨?_, h'⟩
                    rw [hpl]
                    exact h.trans (List.prefix_append _ _)
                · cases hx : S.root.at (place path) with
                  | none => rw [hx] at hok; cases hok; simp [change, m1]
                  | some k => rw [hx] at hok; cases hok; simp [change, closeAll, m1]

/-- **C90**: an AddFile that fails takes nothing away and tells no view; what it may have made are directories on the path. -/
theorem C90_addFile_fails (e : Env) (S S' : St) (path : Str) (v : View) (er : Err) (h : addFileCall e S path v = (S', .error er)) :
    (∀ q i, S.root.shows q = some i → S'.root.shows q = some i) ∧
    (∀ q, S.root.shows q = none → S'.root.shows q = none ∨
      (q <+: place path ∧ ∃ md, S'.root.shows q = some (.dir md) ∧ ∀ i, md.testBit i = masked e.umask 0o777 i)) ∧
    (S'.asked = S.asked ∨ S'.asked = S.asked ++ [.stat v.id]) := by
  unfold addFileCall at h
  cases hv : validate e path with
  | some er' => rw [hv] at h; cases h; exact ⟨fun _ _ h => h, fun _ h => Or.inl h, Or.inl rfl⟩
  | none =>
    rw [hv] at h
    unfold addFile ask at h
    simp only at h
    cases han : e.answer S.asked.length with
    | some er' => rw [han] at h; cases h; exact ⟨fun _ _ h => h, fun _ h => Or.inl h, Or.inr rfl⟩
    | none =>
      rw [han] at h
      simp only at h
      split at h
      · cases h; exact ⟨fun _ _ h => h, fun _ h => Or.inl h, Or.inr rfl⟩
      · split at h
        · cases h; exact ⟨fun _ _ h => h, fun _ h => Or.inl h, Or.inr rfl⟩
        · cases hmk : mkdirAll e ⟨S.root, S.asked ++ [.stat v.id], S.next⟩ (clean (dirPart path)) 511 with
          | mk S2 res =>
            obtain ⟨m1, m2, m3, m4, m5⟩ := C87_mkdirAll e _ S2 _ 511 res hmk
            simp only at m1 m2 m3 m4
            have hpre : place (clean (dirPart path)) <+: place path := by
              by_cases hd : path = dot
              · subst hd
                exact ⟨[], by decide⟩
              · exact ⟨[base path], (place_dir hv hd).symm⟩
            have hS2 : S' = S2 := by
              rw [hmk] at h
              cases res with
              | error er' => cases h; rfl
              | ok u =>
                simp only at h
                cases hfi : find e S2.root (clean (dirPart path)) with
                | error er => rw [hfi] at h; cases h; rfl
                | ok r =>
                  obtain ⟨loc, parent⟩ := r
                  rw [hfi] at h
                  simp only at h
                  cases hse : searchable (some parent) with
                  | error er => rw [hse] at h; cases h; rfl
                  | ok p' =>
                    rw [hse] at h
                    simp only at h
                    split at h
                    · cases h; rfl
                    · cases h
            subst hS2
            refine ⟨m3, fun q hq => ?_, Or.inr m1⟩
            rcases m4 q hq with h | ⟨h, h'⟩
            · exact Or.inl h
            · exact Or.inr ⟨h.trans hpre, h'⟩

/-! ### examples -/

example : ∃ S', openFile ex exTree "a/g".toList ⟨.rdwr, true, true, false, false⟩ 0o640 = (S', .ok (.file 8)) ∧
    S'.root.shows ["a".toList, "g".toList] = some (.file 0o640 8) := ⟨_, rfl, by decide⟩
example : ∃ m es, walk exTree.root (place (dir "a/g".toList)) = .ok (.dir m es) ∧ maySearch m = true ∧ es.find (base "a/g".toList) = none :=
  ⟨_, _, rfl, by decide, by rfl⟩
example : ∃ S', addFileCall ex exTree "a/p/q".toList ⟨9, 0o600, false⟩ = (S', .ok ()) ∧ S'.root.shows ["a".toList, "p".toList] = some (.dir 0o755) := ⟨_, rfl, by decide⟩
/-- A whole directory is replaced, and its views are told. -/
example : ∃ S', addFileCall ex exTree "a".toList ⟨9, 0o600, false⟩ = (S', .ok ()) ∧ S'.asked = [.stat 9, .close 7] := ⟨_, rfl, by decide⟩

/-! ### what is not so -/

/-- The umask is not applied to files: the view is allocated with the permission bits as given, while Mkdir masks them. -/
theorem C90_counterexample_umask : ∃ S', openFile ex exTree "f".toList ⟨.rdwr, true, false, false, false⟩ 0o666 = (S', .ok (.file 8)) ∧
    S'.root.shows ["f".toList] = some (.file 0o666 8) ∧ masked ex.umask 0o666 1 = false := ⟨_, rfl, by decide, by decide⟩

/-- AddFile(".") succeeds and puts a file into the root that no name reaches: "." is the root. -/
theorem C90_counterexample_dot : ∃ S', addFileCall ex exTree dot ⟨9, 0o600, false⟩ = (S', .ok ()) ∧ S'.root.shows [dot] = some (.file 0o600 9) ∧
    place dot = [] ∧ (stat ex S' dot).2 = .ok (true, 511) := ⟨_, rfl, by decide, by decide, rfl⟩

/-- The root is opened for writing, exclusively and cut; another directory is not. -/
theorem C90_counterexample_root :
    (openFile ex exTree dot ⟨.rdwr, true, true, true, false⟩ 0).2 = .ok (.dir []) ∧
    (openFile ex exTree "a".toList ⟨.rdwr, false, false, true, false⟩ 0).2 = .error .isDir := ⟨rfl, rfl⟩

end Verif.Afero
