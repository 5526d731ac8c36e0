import Verif.Synth.TreeInv
/-
Every call keeps the invariant of the synthetic tree (helper lemmas for C48, C49, C51).
-/
namespace Verif.Synth.Tree
open Verif.Path

/-- Entries may disappear, nothing else changes. -/
structure Shr (s s' : St) : Prop where
  look : ∀ i, s'.look i = s.look i
  sub : ∀ d k c, s'.lookup d k = some c → s.lookup d k = some c
  good : Good s → Good s'

theorem Shr.refl (s : St) : Shr s s := ⟨fun _ => rfl, fun _ _ _ h => h, id⟩

theorem Shr.trans {a b c : St} (h : Shr a b) (h' : Shr b c) : Shr a c :=
  ⟨fun i => (h'.look i).trans (h.look i), fun d k x hx => h.sub d k x (h'.sub d k x hx), fun g => h'.good (h.good g)⟩

theorem shr_removeEntry (s : St) (d : Id) (k : Str) : Shr s (s.removeEntry d k) := by
  refine ⟨look_removeEntry s d k, ?_, fun h => good_removeEntry h d k⟩
  intro d' k' c hc
  rw [lookup_removeEntry] at hc
  split at hc
  · cases hc
  · exact hc

theorem shr_closeView (s : St) (i : Id) : Shr s (s.closeView i) :=
  ⟨look_closeView s i, fun d k c hc => by rw [lookup_closeView] at hc; exact hc, fun h => good_closeView h i⟩

theorem shr_clear (s : St) (d : Id) : Shr s (s.clear d) := by
  refine ⟨look_clear s d, ?_, fun h => good_clear h d⟩
  intro d' k c hc
  rw [lookup_clear] at hc
  split at hc
  · cases hc
  · exact hc

theorem shr_eachChild {rec : Id → St → Option St} (hrec : ∀ c s s', rec c s = some s' → Shr s s') :
    ∀ (cs : List Id) (s s' : St), eachChild rec cs s = some s' → Shr s s' := by
  intro cs
  induction cs with
  | nil => intro s s' h; cases h; exact Shr.refl s
  | cons c cs ih =>
    intro s s' h
    simp only [eachChild] at h
    cases hc : rec c s with
    | none => rw [hc] at h; cases h
    | some s1 =>
      rw [hc] at h
      exact (hrec c s s1 hc).trans (ih s1 s' h)

theorem shr_removeSubtree : ∀ (fuel : Nat) (n : Id) (s s' : St), removeSubtree fuel n s = some s' → Shr s s' := by
  intro fuel
  induction fuel with
  | zero => intro n s s' h; cases h
  | succ fuel ih =>
    intro n s s' h
    simp only [removeSubtree] at h
    split at h
    · cases he : eachChild (removeSubtree fuel) (s.entries n) s with
      | none => rw [he] at h; cases h
      | some s1 =>
        rw [he] at h
        cases h
        exact (shr_eachChild ih _ s s1 he).trans (shr_clear s1 n)
    · cases h; exact shr_closeView s n
    · cases h; exact Shr.refl s

theorem shr_unlink (s : St) (d : Id) (k : Str) : Shr s (s.unlink d k) := by
  unfold St.unlink
  split
  · exact Shr.refl s
  · exact (shr_removeEntry s d k).trans (shr_closeView _ _)

/-- Kept by every call but Rename: the invariant, that directories stay directories, and that nothing contains itself. -/
structure Pres (s s' : St) : Prop where
  good : Good s → Good s'
  keeps : Keeps s s'
  acyclic : Acyclic s → Acyclic s'

theorem Pres.refl (s : St) : Pres s s := ⟨id, Keeps.refl s, id⟩
theorem Pres.trans {a b c : St} (h : Pres a b) (h' : Pres b c) : Pres a c := ⟨fun g => h'.good (h.good g), h.keeps.trans h'.keeps, fun g => h'.acyclic (h.acyclic g)⟩
theorem Shr.pres {s s' : St} (h : Shr s s') : Pres s s' := ⟨h.good, Keeps.of_look h.look, acyclic_shrink h.sub⟩

theorem pres_views {s s' : St} (hn : s'.nodes = s.nodes) (he : s'.nextElem = s.nextElem) : Pres s s' := by
  have hd : ∀ i, s'.dir? i = s.dir? i := by intro i; unfold St.dir?; rw [hn]
  have hk : ∀ d k, s'.lookup d k = s.lookup d k := by intro d k; unfold St.lookup; rw [hd]
  have hl : ∀ i, s'.look i = s.look i := by intro i; unfold St.look; rw [hn]
  refine ⟨fun h => ?_, Keeps.of_look hl, acyclic_shrink (fun d k c hc => by rw [hk] at hc; exact hc)⟩
  apply h.shrink hl
  · intro d k c hc; rw [hk] at hc; exact hc
  · intro d r hr; rw [hd] at hr; rw [he]; exact h.dirs d r hr

theorem not_under_fresh {s : St} {d : Id} (hd : s.isDir d) : ¬ Under s s.nodes.length d := by
  intro h
  obtain ⟨r, hr⟩ := hd
  have hlt := lt_of_dir hr
  rcases h with h | h
  · subst h; exact absurd hlt (Nat.lt_irrefl _)
  · obtain ⟨k, e, he, _⟩ := h.first
    obtain ⟨r', hr'⟩ := lookup_isDir he
    exact absurd (lt_of_dir hr') (Nat.lt_irrefl _)

theorem acyclic_put {s : St} (h : Acyclic s) {d : Id} (hd : s.isDir d) {k : Str} {n : Node} (hb : n.Blank) : Acyclic (s.put d k n) := by
  refine acyclic_add (d := d) (c := s.nodes.length) ?_ h (not_under_fresh hd)
  intro a k' x hx
  rw [lookup_put hd hb] at hx
  split at hx
  · rename_i hc; cases hx; exact .inr ⟨hc.1, rfl⟩
  · exact .inl hx

theorem pres_put {s : St} {d : Id} (hd : s.isDir d) {k : Str} {n : Node} (hb : n.Blank) (hname : n.name = k)
    (hpar : ∀ r, n = .dir r → r.parent = some d) : Pres s (s.put d k n) :=
  ⟨fun h => good_put h hd hb hname hpar, keeps_put s d k n, fun h => acyclic_put h hd hb⟩

theorem pres_putDir {s : St} {d : Id} (hd : s.isDir d) (k : Str) (mode : Nat) : Pres s (s.putDir d k mode).1 :=
  pres_put hd (by simp [Node.Blank, newDir]) rfl (by intro r hr; cases hr; rfl)

theorem putDir_isDir {s : St} {d : Id} (k : Str) (mode : Nat) : (s.putDir d k mode).1.isDir (s.putDir d k mode).2 := by
  rw [isDir_iff_look]
  refine ⟨newDir k mode (some d), ?_⟩
  unfold St.putDir
  simp only [look_put, if_true]
  rfl

theorem resolveParent_dir {s : St} {b st : Id} {name : Str} {p : Id} {base : Str} (h : resolveParent s b st name = .ok (p, base)) : s.isDir p := by
  unfold resolveParent at h
  split at h
  · cases h
  · split at h
    · cases h
    · split at h
      · cases h
      · split at h
        · cases h
        · rename_i r hr; cases h; exact ⟨_, hr⟩

theorem pres_mkdirOne (s : St) (b : Id) (name : Str) (mode : Nat) : Pres s (mkdirOne s b name mode).1 := by
  unfold mkdirOne
  split
  · exact Pres.refl s
  · rename_i parent base hp
    split
    · exact Pres.refl s
    · split
      · exact Pres.refl s
      · exact pres_putDir (resolveParent_dir hp) base mode

theorem pres_mkdirEach (b : Id) (mode : Nat) : ∀ (ps : List Str) (s : St), Pres s (mkdirEach b mode ps s).1 := by
  intro ps
  induction ps with
  | nil => intro s; exact Pres.refl s
  | cons p rest ih =>
    intro s
    have h1 := pres_mkdirOne s b p mode
    simp only [mkdirEach]
    split
    · rename_i s1 e; rw [e] at h1; exact h1.trans (ih s1)
    · rename_i s1 e
      rw [e] at h1
      split
      · exact h1
      · split
        · exact h1
        · exact h1.trans (ih s1)
    · rename_i s1 e _ he; rw [he] at h1; exact h1

theorem pres_mkdirAll (s : St) (b : Id) (name : Str) (mode : Nat) : Pres s (mkdirAll s b name mode).1 := by
  unfold mkdirAll
  split
  · exact Pres.refl s
  · split
    · exact Pres.refl s
    · exact pres_mkdirEach b mode _ s

theorem pres_create (s : St) (b : Id) (name : Str) (mode : Nat) : Pres s (create s b name mode).1 := by
  unfold create
  split
  · exact Pres.refl s
  · rename_i parent base hp
    split
    · exact Pres.refl s
    · have h1 : Pres s { s with nextView := s.nextView + 1 } := pres_views rfl rfl
      exact h1.trans (pres_put (n := .file base mode s.nextView) (h1.keeps _ (resolveParent_dir hp)) trivial rfl (by intro r hr; cases hr))

theorem pres_symlink (s : St) (b : Id) (target name : Str) : Pres s (symlink s b target name).1 := by
  unfold symlink
  split
  · exact Pres.refl s
  · rename_i parent base hp
    split
    · exact Pres.refl s
    · exact pres_put (n := .link base target) (resolveParent_dir hp) trivial rfl (by intro r hr; cases hr)

theorem pres_link (s : St) (b : Id) (old new : Str) : Pres s (link s b old new).1 := by
  unfold link
  split
  · exact Pres.refl s
  · split
    · rename_i nm mode view hf
      split
      · exact Pres.refl s
      · rename_i parent base hp
        split
        · exact Pres.refl s
        · exact pres_put (n := .file base mode view) (resolveParent_dir hp) trivial rfl (by intro r hr; cases hr)
    · exact Pres.refl s

theorem pres_remove (s : St) (b : Id) (name : Str) (busy : Bool) : Pres s (remove s b name busy).1 := by
  unfold remove
  split
  · exact Pres.refl s
  · split
    · exact Pres.refl s
    · split
      · exact Pres.refl s
      · split
        · exact Pres.refl s
        · exact ((shr_removeEntry s _ _).trans (shr_closeView _ _)).pres

theorem pres_removeAll (fuel : Nat) (s : St) (b : Id) (name : Str) : Pres s (removeAll fuel s b name).1 := by
  unfold removeAll
  split
  · exact Pres.refl s
  · split
    · exact Pres.refl s
    · split
      · exact Pres.refl s
      · split
        · exact Pres.refl s
        · split
          · exact Pres.refl s
          · split
            · exact Pres.refl s
            · rename_i s1 h1
              exact ((shr_removeSubtree fuel _ s s1 h1).trans (shr_removeEntry s1 _ _)).pres

/-- The state in which the move of a rename happens. -/
theorem rename_cases (s : St) (b : Id) (old new : Str) : (rename s b old new).1 = s ∧ (rename s b old new).2 ≠ none ∨
    ∃ op ob t np nb s2, resolveParent s b b old = .ok (op, ob) ∧ s.lookup op ob = some t ∧ resolveParent s b b new = .ok (np, nb) ∧
      s.entries ((s.lookup np nb).getD s.nodes.length) = [] ∧ Shr s s2 ∧ (∀ d k, s2.lookup d k = if d = np ∧ k = nb then none else s.lookup d k) ∧
      rename s b old new = (s2.move op ob t np nb, none) := by
  unfold rename
  split
  · left; simp
  · rename_i op ob hop
    split
    · left; simp
    · rename_i t ht
      split
      · left; simp
      · rename_i np nb hnp
        split
        · rename_i hex
          right
          refine ⟨op, ob, t, np, nb, s, hop, ht, hnp, ?_, Shr.refl s, ?_, rfl⟩
          · rw [hex]
            unfold St.entries St.dir?
            simp
          · intro d k
            split
            · rename_i h; rw [h.1, h.2, hex]
            · rfl
        · rename_i ex hex
          split
          · left; simp
          · rename_i hne
            right
            refine ⟨op, ob, t, np, nb, _, hop, ht, hnp, ?_, (shr_removeEntry s np nb).trans (shr_closeView (s.removeEntry np nb) ex), ?_, rfl⟩
            · rw [hex]; simpa using hne
            · intro d k
              rw [lookup_closeView, lookup_removeEntry]

theorem good_rename (s : St) (b : Id) (old new : Str) (h : Good s) : Good (rename s b old new).1 := by
  rcases rename_cases s b old new with ⟨he, _⟩ | ⟨op, ob, t, np, nb, s2, hop, ht, hnp, _, hs, _, he⟩
  · rw [he]; exact h
  · rw [he]
    obtain ⟨n, hn, _⟩ := h.child op ob t ht
    refine good_move (hs.good h) (hs.pres.keeps _ (resolveParent_dir hnp)) ⟨n, (hs.look t).trans hn⟩ (fun e => h.rootFree op ob (e ▸ ht)) ?_
    intro d k hk
    exact h.single d k op ob t (hs.sub d k t hk) ht

theorem keeps_rename (s : St) (b : Id) (old new : Str) : Keeps s (rename s b old new).1 := by
  rcases rename_cases s b old new with ⟨he, _⟩ | ⟨op, ob, t, np, nb, s2, hop, ht, hnp, _, hs, _, he⟩
  · rw [he]; exact Keeps.refl s
  · rw [he]; exact hs.pres.keeps.trans (keeps_move s2 op ob t np nb)

theorem acyclic_rename (s : St) (b : Id) (old new : Str) (htame : (Call.rename old new).Tame s b) (h : Acyclic s) : Acyclic (rename s b old new).1 := by
  rcases rename_cases s b old new with ⟨he, _⟩ | ⟨op, ob, t, np, nb, s2, hop, ht, hnp, _, hs, _, he⟩
  · rw [he]; exact h
  · rw [he]
    refine acyclic_add (d := np) (c := t) ?_ h (htame op ob t np nb hop ht hnp)
    intro a k x hx
    rw [lookup_move (hs.pres.keeps _ (resolveParent_dir hnp))] at hx
    split at hx
    · rename_i hc; cases hx; exact .inr ⟨hc.1, rfl⟩
    · split at hx
      · cases hx
      · exact .inl (hs.sub _ _ _ hx)

theorem pres_materialize {fuel : Nat} {s : St} {dst : Id} {base : Str} {mode : Nat} {ov : Bool} {s1 : St} {d : Id} (hd : s.isDir dst)
    (h : materializeDir fuel s dst base mode ov = some (s1, d)) : Pres s s1 ∧ s1.isDir d := by
  unfold materializeDir at h
  split at h
  · cases h; exact ⟨pres_putDir hd base mode, putDir_isDir base mode⟩
  · rename_i ex hex
    split at h
    · rename_i hc
      cases h
      refine ⟨Pres.refl s, ?_⟩
      cases hx : s.dir? d with
      | none => rw [hx] at hc; exact absurd hc.1 (by simp)
      | some r => exact ⟨r, hx⟩
    · have h1 := shr_removeEntry s dst base
      split at h
      · cases hr : removeSubtree fuel ex (s.removeEntry dst base) with
        | none => rw [hr] at h; cases h
        | some s2 =>
          rw [hr] at h
          cases h
          have h2 := h1.trans (shr_removeSubtree fuel ex _ s2 hr)
          exact ⟨h2.pres.trans (pres_putDir (h2.pres.keeps _ hd) base mode), putDir_isDir base mode⟩
      · cases h
        exact ⟨h1.pres.trans (pres_putDir (h1.pres.keeps _ hd) base mode), putDir_isDir base mode⟩

mutual
theorem pres_addWalk (fuel : Nat) (cb : AddFunc) (s : St) (dst : Id) (base path : Str) (hd : s.isDir dst) : (src : Src) → Pres s (addWalk fuel cb s dst base path src).1
  | .bad => Pres.refl s
  | .dir mode ok kids => by
    simp only [addWalk]
    split
    · exact Pres.refl s
    · exact Pres.refl s
    · split
      · exact Pres.refl s
      · rename_i s1 d hm
        have h1 := pres_materialize hd hm
        split
        · exact h1.1.trans (pres_addKids fuel cb s1 d path h1.2 kids)
        · exact h1.1
    · split
      · exact Pres.refl s
      · rename_i s1 d hm
        have h1 := pres_materialize hd hm
        split
        · exact h1.1.trans (pres_addKids fuel cb s1 d path h1.2 kids)
        · exact h1.1
  | .link target => by
    simp only [addWalk]
    split
    · exact Pres.refl s
    · exact Pres.refl s
    · cases target with
      | none => exact Pres.refl s
      | some t =>
        simp only
        split
        · exact Pres.refl s
        · exact pres_put (n := .link base t) hd trivial rfl (by intro r hr; cases hr)
    · cases target with
      | none => exact Pres.refl s
      | some t =>
        have h1 := (shr_unlink s dst base).pres
        exact h1.trans (pres_put (n := .link base t) (h1.keeps _ hd) trivial rfl (by intro r hr; cases hr))
  | .file mode view => by
    simp only [addWalk]
    split
    · exact Pres.refl s
    · exact Pres.refl s
    · cases view with
      | none => exact Pres.refl s
      | some v =>
        simp only
        split
        · exact pres_views rfl rfl
        · exact pres_put (n := .file base mode v) hd trivial rfl (by intro r hr; cases hr)
    · cases view with
      | none => exact Pres.refl s
      | some v =>
        have h1 := (shr_unlink s dst base).pres
        exact h1.trans (pres_put (n := .file base mode v) (h1.keeps _ hd) trivial rfl (by intro r hr; cases hr))
theorem pres_addKids (fuel : Nat) (cb : AddFunc) (s : St) (d : Id) (path : Str) (hd : s.isDir d) : (kids : List (Str × Src)) → Pres s (addKids fuel cb s d path kids).1
  | [] => Pres.refl s
  | (k, c) :: rest => by
    have h1 := pres_addWalk fuel cb s d k (slashJoin path k) hd c
    simp only [addKids]
    split
    · rename_i s1 e he; rw [he] at h1; exact h1
    · rename_i s1 he
      rw [he] at h1
      exact h1.trans (pres_addKids fuel cb s1 d path (h1.keeps _ hd) rest)
end

theorem pres_ensureEach (b : Id) : ∀ (ps : List Str) (parent : Id) (s : St), s.isDir parent →
    Pres s (ensureEach b ps parent s).1 ∧ ∀ d, (ensureEach b ps parent s).2 = .ok d → (ensureEach b ps parent s).1.isDir d := by
  intro ps
  induction ps with
  | nil => intro parent s hp; refine ⟨Pres.refl s, ?_⟩; intro d hd; cases hd; exact hp
  | cons p rest ih =>
    intro parent s hp
    simp only [ensureEach]
    split
    · split
      · exact ⟨Pres.refl s, by intro d hd; cases hd⟩
      · rename_i r _ hr; exact ih _ s ⟨_, hr⟩
    · split
      · exact ⟨Pres.refl s, by intro d hd; cases hd⟩
      · rename_i pp pb hpp
        have h1 : Pres s (s.putDir pp pb 0o755).1 := pres_putDir (resolveParent_dir hpp) pb 0o755
        have h2 := ih s.nodes.length (s.putDir pp pb 0o755).1 (putDir_isDir pb 0o755)
        exact ⟨h1.trans h2.1, h2.2⟩
    · exact ⟨Pres.refl s, by intro d hd; cases hd⟩

theorem pres_ensureParents {s : St} {b : Id} (hb : s.isDir b) (name : Str) :
    Pres s (ensureParents s b name).1 ∧ ∀ d base, (ensureParents s b name).2 = .ok (d, base) → (ensureParents s b name).1.isDir d := by
  unfold ensureParents
  split
  · exact ⟨Pres.refl s, by intro d base hd; cases hd⟩
  · rename_i slash hs
    split
    · exact ⟨Pres.refl s, by intro d base hd; cases hd⟩
    · split
      · exact ⟨Pres.refl s, by intro d base hd; cases hd; exact hb⟩
      · have h1 := pres_ensureEach b (Fsutil.vPathFromHead (splitLast slash).1) b s hb
        split
        · rename_i s1 e he; rw [he] at h1; exact ⟨h1.1, by intro d base hd; cases hd⟩
        · rename_i s1 d he
          rw [he] at h1
          refine ⟨h1.1, ?_⟩
          intro d' base hd
          cases hd
          exact h1.2 d rfl

theorem pres_addFS (fuel : Nat) (cb : AddFunc) {s : St} {b : Id} (hb : s.isDir b) (name : Str) (src : Src) : Pres s (addFS fuel cb s b name src).1 := by
  unfold addFS
  split
  · exact Pres.refl s
  · rename_i slash hs
    split
    · split
      · exact pres_addKids fuel cb s b dot hb _
      · exact Pres.refl s
    · have h1 := pres_ensureParents hb name
      split
      · rename_i s1 e he; rw [he] at h1; exact h1.1
      · rename_i s1 d base he
        rw [he] at h1
        exact h1.1.trans (pres_addWalk fuel cb s1 d base slash (h1.2 d base rfl) src)

theorem pres_addFile (cb : AddFunc) {s : St} {b : Id} (hb : s.isDir b) (name : Str) (mode view : Nat) : Pres s (addFile cb s b name mode view).1 := by
  unfold addFile
  have h1 := pres_ensureParents hb name
  split
  · rename_i s1 e he; rw [he] at h1; exact h1.1
  · rename_i s1 d base he
    rw [he] at h1
    split
    · exact h1.1
    · exact h1.1
    · exact h1.1
    · have h2 := (shr_unlink s1 d base).pres
      exact h1.1.trans (h2.trans (pres_put (n := .file base mode view) (h2.keeps _ (h1.2 d base rfl)) trivial rfl (by intro r hr; cases hr)))

theorem pres_call (c : Call) (hc : ∀ o n, c ≠ .rename o n) {s : St} {b : Id} (hb : s.isDir b) : Pres s (callOn s b c).1 := by
  cases c with
  | mkdir n m => exact pres_mkdirOne s b n m
  | mkdirAll n m => exact pres_mkdirAll s b n m
  | create n m => exact pres_create s b n m
  | symlink t n => exact pres_symlink s b t n
  | link o n => exact pres_link s b o n
  | remove n busy => exact pres_remove s b n busy
  | removeAll fuel n => exact pres_removeAll fuel s b n
  | rename o n => exact absurd rfl (hc o n)
  | addFile cb n m v => exact pres_addFile cb hb n m v
  | addFS fuel cb n src => exact pres_addFS fuel cb hb n src
  | openRoot n => exact Pres.refl s

theorem good_call (c : Call) {s : St} {b : Id} (hb : s.isDir b) (h : Good s) : Good (callOn s b c).1 := by
  cases c with
  | rename o n => exact good_rename s b o n h
  | _ => exact (pres_call _ (by intro o n hh; cases hh) hb).good h

theorem keeps_call (c : Call) {s : St} {b : Id} (hb : s.isDir b) : Keeps s (callOn s b c).1 := by
  cases c with
  | rename o n => exact keeps_rename s b o n
  | _ => exact (pres_call _ (by intro o n hh; cases hh) hb).keeps

theorem acyclic_call (c : Call) {s : St} {b : Id} (hb : s.isDir b) (ht : c.Tame s b) (h : Acyclic s) : Acyclic (callOn s b c).1 := by
  cases c with
  | rename o n => exact acyclic_rename s b o n ht h
  | _ => exact (pres_call _ (by intro o n hh; cases hh) hb).acyclic h

/-! ### Histories -/

structure WGood (w : World) : Prop where
  good : Good w.st
  roots : ∀ b ∈ w.roots, w.st.isDir b

theorem good_init : Good World.init.st := by
  have hd : ∀ d r, World.init.st.dir? d = some r → d = 0 ∧ r = newDir [] 0o755 none := by
    intro d r h
    rw [dir?_iff] at h
    match d with
    | 0 => simp [World.init] at h; exact ⟨rfl, h.symm⟩
    | d + 1 => simp [World.init] at h
  have hk : ∀ d k c, World.init.st.lookup d k ≠ some c := by
    intro d k c h
    obtain ⟨r, hr⟩ := lookup_isDir h
    rw [lookup_of_dir hr, (hd d r hr).2] at h
    cases h
  refine ⟨?_, ?_, ?_, ⟨newDir [] 0o755 none, rfl⟩, ?_, ?_, by intro r hr; simp [World.init, St.look, skel, newDir] at hr; rw [← hr]⟩
  · intro d r h
    rw [(hd d r h).2]
    refine ⟨?_, ?_, ?_, ?_⟩ <;> simp [newDir]
  · intro d k c h; exact absurd h (hk d k c)
  · intro d k d' k' c h; exact absurd h (hk d k c)
  · intro d k h; exact absurd h (hk d k 0)
  · intro d r p h hp
    rw [(hd d r h).2] at hp
    cases hp

theorem wgood_init : WGood World.init := by
  refine ⟨good_init, ?_⟩
  intro b hb
  simp [World.init] at hb
  subst hb
  exact good_init.root

theorem wgood_step {w : World} (h : WGood w) (r : Nat) (c : Call) : WGood (w.step r c) := by
  unfold World.step
  split
  · exact h
  · rename_i b hb
    have hbd := h.roots b (List.mem_of_getElem? hb)
    have hp := good_call c hbd h.good
    have hk := keeps_call c hbd
    have hsame : WGood ⟨(callOn w.st b c).1, w.roots⟩ := ⟨hp, fun x hx => hk x (h.roots x hx)⟩
    split
    · rename_i n
      split
      · rename_i d hd
        refine ⟨hp, ?_⟩
        intro x hx
        rcases List.mem_append.1 hx with hx | hx
        · exact hk x (h.roots x hx)
        · simp at hx
          subst hx
          apply hk
          unfold openRoot at hd
          split at hd
          · cases hd
          · split at hd
            · cases hd
            · rename_i r' hr'; cases hd; exact ⟨_, hr'⟩
      · exact hsame
    · exact hsame

theorem wgood_run : ∀ (hist : List (Nat × Call)) (w : World), WGood w → WGood (w.run hist) := by
  intro hist
  induction hist with
  | nil => intro w h; exact h
  | cons x rest ih =>
    intro w h
    obtain ⟨r, c⟩ := x
    exact ih _ (wgood_step h r c)

end Verif.Synth.Tree
