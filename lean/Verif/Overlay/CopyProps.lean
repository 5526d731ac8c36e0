import Verif.Overlay.RemoveProps
/-
Copy-up does not change the merged view (C57).
-/
namespace Verif.Overlay.Stack
open Verif.Path Verif.Prog

/-- The same, the permission bits of a directory excepted. -/
def SameButDirMode (o o' : Option Node) : Prop := o = o' ∨ ∃ m m', o = some (.dir m) ∧ o' = some (.dir m')

theorem SameButDirMode.refl (o : Option Node) : SameButDirMode o o := Or.inl rfl

theorem SameButDirMode.symm {o o' : Option Node} (h : SameButDirMode o o') : SameButDirMode o' o := by
  rcases h with h | ⟨m, m', h1, h2⟩
  · exact Or.inl h.symm
  · exact Or.inr ⟨m', m, h2, h1⟩

theorem SameButDirMode.trans {o o' o'' : Option Node} (h : SameButDirMode o o') (h' : SameButDirMode o' o'') : SameButDirMode o o'' := by
  rcases h with rfl | ⟨m, m', h1, h2⟩
  · exact h'
  · rcases h' with rfl | ⟨m1, m2, h3, h4⟩
    · exact Or.inr ⟨m, m', h1, h2⟩
    · exact Or.inr ⟨m, m2, h1, h4⟩

theorem SameButDirMode.dir {o o' : Option Node} (h : SameButDirMode o o') : (∃ m, o = some (.dir m)) ↔ ∃ m, o' = some (.dir m) := by
  rcases h with rfl | ⟨m, m', h1, h2⟩
  · exact Iff.rfl
  · exact ⟨fun _ => ⟨m', h2⟩, fun _ => ⟨m, h1⟩⟩

theorem SameButDirMode.ne_none {o o' : Option Node} (h : SameButDirMode o o') (hne : o' ≠ none) : o ≠ none := by
  rcases h with rfl | ⟨m, m', h1, _⟩
  · exact hne
  · rw [h1]; simp

/-- The top has come to hold more of what the view showed, nothing else has changed. -/
structure Grown (S0 S : Sys) : Prop where
  lower : LowerSame S0 S
  tree : (S.layer 0).IsTree
  mask : S.mask 0 = S0.mask 0
  top : ∀ m, S.top m = S0.top m ∨ (S0.top m = none ∧ S0.view m ≠ none ∧ SameButDirMode (S.top m) (S0.view m))

theorem Grown.refl {S : Sys} (hT : (S.layer 0).IsTree) : Grown S S := ⟨LowerSame.refl S, hT, rfl, fun _ => Or.inl rfl⟩

theorem Grown.masks {S0 S : Sys} (h : Grown S0 S) (n : Name) : S.Masks 0 n ↔ S0.Masks 0 n := by
  unfold Sys.Masks; rw [h.mask]

theorem Grown.view {S0 S : Sys} (hT : (S0.layer 0).IsTree) (h : Grown S0 S) : ∀ m, SameButDirMode (S.view m) (S0.view m) ∧
    (S.top m = S0.top m → S.view m = S0.view m) ∧ (S.top m ≠ S0.top m → S.view m = S.top m) := by
  intro m
  induction m with
  | nil =>
    rw [S.view_root h.tree, S0.view_root hT]
    refine ⟨?_, fun e => e, fun _ => rfl⟩
    rcases h.top [] with e | ⟨e, _, _⟩
    · exact Or.inl e
    · obtain ⟨m, hm⟩ := hT.root
      unfold Sys.top at e; rw [hm] at e; cases e
  | cons c d ih =>
    have hdir : S.ViewDir d ↔ S0.ViewDir d := ih.1.dir
    by_cases hd : S0.ViewDir d
    · have hd' := hdir.2 hd
      rcases h.top (c :: d) with e | ⟨e, hv, hs⟩
      · have : S.view (c :: d) = S0.view (c :: d) := by
          cases ht : S0.top (c :: d) with
          | some nd => rw [S0.view_top hT hd ht, S.view_top h.tree hd' (e.trans ht)]
          | none =>
            by_cases hm : S0.Masks 0 (c :: d)
            · rw [S0.view_masked hT hd ht hm, S.view_masked h.tree hd' (e.trans ht) ((h.masks _).2 hm)]
            · rw [S0.view_low hT hd ht hm, S.view_low h.tree hd' (e.trans ht) (fun h' => hm ((h.masks _).1 h')), h.lower.low]
        exact ⟨Or.inl this, fun _ => this, fun hne => absurd e hne⟩
      · cases ht : S.top (c :: d) with
        | none => rw [ht] at hs; exact absurd rfl (hs.ne_none hv)
        | some nd =>
          have hvw := S.view_top h.tree hd' ht
          rw [hvw]
          refine ⟨?_, fun e' => ?_, fun _ => rfl⟩
          · rw [← ht]; exact hs
          · rw [e] at e'; cases e'
    · have hd' : ¬ S.ViewDir d := fun h' => hd (hdir.1 h')
      rw [S.view_none_of_parent hd', S0.view_none_of_parent hd]
      refine ⟨Or.inl rfl, fun _ => rfl, fun hne => ?_⟩
      rcases h.top (c :: d) with e | ⟨e, hv, _⟩
      · exact absurd e hne
      · exact absurd (S0.view_none_of_parent hd) hv

theorem Grown.viewDir {S0 S : Sys} (hT : (S0.layer 0).IsTree) (h : Grown S0 S) (d : Name) : S.ViewDir d ↔ S0.ViewDir d := (h.view hT d).1.dir

theorem Grown.trans {S0 S1 S2 : Sys} (hT : (S0.layer 0).IsTree) (h : Grown S0 S1) (h' : Grown S1 S2) : Grown S0 S2 where
  lower := h.lower.trans h'.lower
  tree := h'.tree
  mask := h'.mask.trans h.mask
  top := fun m => by
    have hv := (h.view hT m).1
    rcases h'.top m with e' | ⟨e', hv', hs'⟩
    · rw [e']; exact h.top m
    · right
      refine ⟨?_, hv.symm.ne_none hv', hs'.trans hv⟩
      rcases h.top m with e | ⟨_, hne, hs⟩
      · exact e.symm.trans e'
      · exact absurd e' (hs.ne_none hne)

theorem Grown.trees {S0 S : Sys} (hS : S0.Trees) (h : Grown S0 S) : S.Trees := by
  intro j hj
  by_cases e : j = 0
  · rw [e]; exact h.tree
  · rw [(h.lower.2 j (by omega)).1]; exact hS j (by rw [← h.lower.1]; exact hj)

/-- Only `layer 0`'s tree differs. -/
structure Grow1 (n : Name) (v : Node) (S S' : Sys) : Prop where
  lower : LowerSame S S'
  mask : S'.mask 0 = S.mask 0
  enum : (S'.layer 0).enum = (S.layer 0).enum
  follow : (S'.layer 0).follow = (S.layer 0).follow
  top : S'.top = setTree S.top n (some v)

theorem grow1_onTree (n : Name) (v : Node) (S : Sys) : Grow1 n v S (onTree 0 (fun t => setTree t n (some v)) S) :=
  ⟨lowerSame_onTree _ S, rfl, rfl, rfl, rfl⟩

theorem isTree_set {S S' : Sys} (hT : (S.layer 0).IsTree) {c : Str} {d : Name} {v : Node} (hg : S'.top = setTree S.top (c :: d) (some v))
    {m : Nat} (hp : S.top d = some (.dir m)) (hv : v.isDir = true ∨ ∀ c', S.top (c' :: c :: d) = none) : (S'.layer 0).IsTree where
  root := by
    show ∃ m, S'.top [] = _
    rw [hg]; exact hT.root
  closed := fun c' d' h => by
    have h : S'.top (c' :: d') ≠ none := h
    show ∃ m, S'.top d' = _
    rw [hg] at h ⊢
    by_cases e : d' = c :: d
    · rw [e] at h ⊢
      have hne : c' :: c :: d ≠ c :: d := by
        intro e'; have := congrArg List.length e'; simp at this
      have e1 : setTree S.top (c :: d) (some v) (c' :: c :: d) = S.top (c' :: c :: d) := if_neg hne
      rw [e1] at h
      rcases hv with hv | hv
      · cases v with
        | dir k => exact ⟨k, if_pos rfl⟩
        | _ => cases hv
      · exact absurd (hv c') h
    · have e1 : setTree S.top (c :: d) (some v) d' = S.top d' := if_neg e
      rw [e1]
      by_cases e2 : c' :: d' = c :: d
      · cases e2; exact ⟨m, hp⟩
      · have e3 : setTree S.top (c :: d) (some v) (c' :: d') = S.top (c' :: d') := if_neg e2
        rw [e3] at h
        exact hT.closed c' d' h

/-- Adding to the top, or correcting, an entry that the view showed already. -/
theorem Grown.grow {S0 S S' : Sys} {c : Str} {d : Name} {v : Node} (h : Grown S0 S) (hg : Grow1 (c :: d) v S S') {m : Nat}
    (hp : S.top d = some (.dir m)) (hv : v.isDir = true ∨ ∀ c', S.top (c' :: c :: d) = none)
    (ht : S0.top (c :: d) = none) (hview : S0.view (c :: d) ≠ none) (hs : SameButDirMode (some v) (S0.view (c :: d))) : Grown S0 S' where
  lower := h.lower.trans hg.lower
  tree := isTree_set h.tree hg.top hp hv
  mask := hg.mask.trans h.mask
  top := fun k => by
    rw [hg.top]
    by_cases e : k = c :: d
    · rw [e]
      right
      refine ⟨ht, hview, ?_⟩
      have : setTree S.top (c :: d) (some v) (c :: d) = some v := if_pos rfl
      rw [this]; exact hs
    · have : setTree S.top (c :: d) (some v) k = S.top k := if_neg e
      rw [this]; exact h.top k

/-- Everything the top has gained is exactly what the view showed. -/
def Exact (S0 S : Sys) : Prop := ∀ m, S.top m = S0.top m ∨ S.top m = S0.view m

theorem Exact.view {S0 S : Sys} (hT : (S0.layer 0).IsTree) (h : Grown S0 S) (he : Exact S0 S) (m : Name) : S.view m = S0.view m := by
  by_cases e : S.top m = S0.top m
  · exact (h.view hT m).2.1 e
  · rw [(h.view hT m).2.2 e]
    exact (he m).resolve_left e

/-- Run from a known state. -/
theorem holds_get_fix {I : Sys → Prop} {S : Sys} {α : Type} {f : Sys → Op α} {Q : Except Errno α → Sys → Prop}
    (h : Holds I (fun s => s = S) (f S) Q) : Holds I (fun s => s = S) (Prog.get >>= f) Q := by
  intro s hs
  subst hs
  exact h s rfl

/-- Creating in the top a directory that the view shows. -/
theorem holds_fsMkdir_grow {S0 : Sys} {c : Str} {d : Name} (hT : (S0.layer 0).IsTree) (hdir : S0.ViewDir (c :: d)) (perm : Nat) {S : Sys} (h : Grown S0 S)
    {m : Nat} (hp : S.top d = some (.dir m)) (hn : S.top (c :: d) = none) :
    Holds (Grown S0) (fun s => s = S) (fsMkdir 0 (c :: d) perm) (fun r s => r = .ok () ∧ Grown S0 s ∧ Grow1 (c :: d) (.dir (S.umask perm)) S s) := by
  have hd : S.ViewDir d := (h.viewDir hT d).2 hdir.parent
  have hent : (S.layer 0).entry (c :: d) = .ok (c :: d) := by
    rcases S.top_entry h.tree (c := c) hd with ⟨_, he⟩ | ⟨hnone, _⟩
    · exact he
    · rw [hp] at hnone; cases hnone
  refine holds_get_fix ?_
  rw [hent]
  simp only
  have e : (S.layer 0).tree (c :: d) = none := hn
  rw [e]
  have ht0 : S0.top (c :: d) = none := by
    rcases h.top (c :: d) with e | ⟨e, _⟩
    · exact e.symm.trans hn
    · exact e
  obtain ⟨mm, hmm⟩ := hdir
  have key : Grown S0 (onTree 0 (fun t => setTree t (c :: d) (some (.dir (S.umask perm)))) S) :=
    h.grow (grow1_onTree _ _ S) hp (Or.inl rfl) ht0 (by rw [hmm]; simp) (Or.inr ⟨_, _, rfl, hmm⟩)
  exact Holds.modify (fun s hs => by rw [hs]; exact key) (fun s hs => by rw [hs]; exact ⟨rfl, key, grow1_onTree _ _ S⟩)

/-- Setting the mode of a directory of the top that the view showed before it was there. -/
theorem holds_copyAttrs_grow {S0 : Sys} {c : Str} {d : Name} (hT : (S0.layer 0).IsTree) (hdir : S0.ViewDir (c :: d)) (nd : Node) {S : Sys} (h : Grown S0 S)
    {k : Nat} (hn : S.top (c :: d) = some (.dir k)) (h0 : S0.top (c :: d) = none) :
    Holds (Grown S0) (fun s => s = S) (copyAttrs (c :: d) nd) (fun r s => r = .ok () ∧ Grown S0 s ∧ Grow1 (c :: d) (.dir nd.mode) S s) := by
  have hd : S.ViewDir d := (h.viewDir hT d).2 hdir.parent
  obtain ⟨m, hp⟩ : ∃ m, S.top d = some (.dir m) := h.tree.closed c d (by
    have : (S.layer 0).tree (c :: d) = some (.dir k) := hn
    rw [this]; simp)
  have hent : (S.layer 0).entry (c :: d) = .ok (c :: d) := by
    rcases S.top_entry h.tree (c := c) hd with ⟨_, he⟩ | ⟨hnone, _⟩
    · exact he
    · rw [hp] at hnone; cases hnone
  have e : (S.layer 0).tree (c :: d) = some (.dir k) := hn
  have htg : (S.layer 0).target (c :: d) = .ok (c :: d) := by
    unfold Layer.target; rw [hent]; simp only [e]
  obtain ⟨mm, hmm⟩ := hdir
  have key : Grown S0 (onTree 0 (fun t => setTree t (c :: d) (some ((Node.dir k).withMode nd.mode))) S) :=
    h.grow (grow1_onTree _ _ S) hp (Or.inl rfl) h0 (by rw [hmm]; simp) (Or.inr ⟨_, _, rfl, hmm⟩)
  refine Holds.bind (fun r s => r = .ok (.ok ()) ∧ Grown S0 s ∧ Grow1 (c :: d) (.dir nd.mode) S s) (Holds.attempt ?_) (fun _ => Holds.pure fun s h => ⟨rfl, h.2⟩)
    (fun e s h => by cases h.1)
  refine holds_get_fix ?_
  rw [htg]
  simp only
  rw [e]
  exact Holds.modify (fun s hs => by rw [hs]; exact key) (fun s hs => by rw [hs]; exact ⟨rfl, key, grow1_onTree _ _ S⟩)

/-- The missing directories above `d` are all shown by layer `j`. -/
def FromLayer (S : Sys) (j : Nat) (d : Name) : Prop := ∀ a, a <:+ d → S.top a = none → ∃ m, S.lookup a = .ok (j, .dir m)

theorem setTree_self (t : Tree) (n : Name) (v : Option Node) : setTree t n v n = v := if_pos rfl
theorem setTree_ne {t : Tree} {n m : Name} {v : Option Node} (h : m ≠ n) : setTree t n v m = t m := if_neg h

theorem setTree_twice (t : Tree) (n : Name) (v w : Option Node) : setTree (setTree t n v) n w = setTree t n w := by
  funext m
  unfold setTree
  split <;> rfl

theorem search_lstat {S : Sys} {n : Name} {p : Errno} : ∀ {k i : Nat} {x : Nat × Node}, S.search n p k i = .ok x → (S.layer x.1).lstat n = .ok x.2 := by
  intro k
  induction k with
  | zero => intro i x h; cases h
  | succ k ih =>
    intro i x h
    unfold Sys.search at h
    cases hl : (S.layer i).lstat n with
    | ok nd => rw [hl] at h; cases h; exact hl
    | error e =>
      rw [hl] at h
      cases e with
      | notExist => exact ih h
      | notDir =>
        simp only at h
        cases hb : (S.layer i).blockedIn n.tail with
        | error e => rw [hb] at h; cases h
        | ok b =>
          rw [hb] at h
          cases b with
          | true => cases h
          | false => exact ih h
      | _ => cases h

theorem lookup_lstat {S : Sys} {n : Name} {x : Nat × Node} (h : S.lookup n = .ok x) : (S.layer x.1).lstat n = .ok x.2 := by
  rw [S.lookup_eq] at h
  exact search_lstat h

theorem stat_of_dir {L : Layer} {n : Name} {m : Nat} (h : L.lstat n = .ok (.dir m)) : L.stat n = .ok (.dir m) := by
  unfold Layer.lstat at h
  unfold Layer.stat Layer.target
  cases he : L.entry n with
  | error e => rw [he] at h; cases h
  | ok r =>
    rw [he] at h
    simp only at h ⊢
    cases ht : L.tree r with
    | none => rw [ht] at h; cases h
    | some nd =>
      rw [ht] at h
      cases h
      simp only [ht]

theorem Sys.lookup_of_view {S : Sys} {n : Name} {nd : Node} (h : S.view n = some nd) : ∃ i, S.lookup n = .ok (i, nd) := by
  cases n with
  | nil =>
    unfold view at h
    split at h
    · rename_i i x hx; cases h; exact ⟨i, hx⟩
    · cases h
  | cons c d =>
    rw [S.view_cons (S.view_parent (by rw [h]; simp))] at h
    split at h
    · rename_i i x hx; cases h; exact ⟨i, hx⟩
    · cases h

/-- What bringing the directories above a name into the top establishes. -/
def Ready (S0 : Sys) (j : Nat) (d : Name) (S : Sys) : Prop := Grown S0 S ∧ (∀ a, ¬ a <:+ d → S.top a = S0.top a) ∧ (FromLayer S0 j d → Exact S0 S)

theorem holds_materializeOne {S0 : Sys} {c : Str} {d : Name} (hT : (S0.layer 0).IsTree) (hdir : S0.ViewDir (c :: d)) {j : Nat} (hj : 0 < j) {S : Sys}
    (h : Ready S0 j d S) {m : Nat} (hp : S.top d = some (.dir m)) (hn : S.top (c :: d) = none) :
    Holds (Grown S0) (fun s => s = S) (materializeOne j (c :: d)) (fun r s => r = .ok () ∧ Ready S0 j (c :: d) s ∧ ∃ k, s.top (c :: d) = some (.dir k)) := by
  obtain ⟨hG, hrest, hE⟩ := h
  have ht0 : S0.top (c :: d) = none := by
    rcases hG.top (c :: d) with e | ⟨e, _⟩
    · exact e.symm.trans hn
    · exact e
  have rest : ∀ {s : Sys} {v : Node}, s.top = setTree S.top (c :: d) (some v) → ∀ a, ¬ a <:+ c :: d → s.top a = S0.top a := by
    intro s v he a ha
    rw [he, setTree_ne (fun e => ha (by rw [e]; exact List.suffix_refl _))]
    exact hrest a (fun h' => ha (h'.trans (List.suffix_cons c d)))
  have hlow : (S.layer j).stat (c :: d) = (S0.layer j).stat (c :: d) := by rw [(hG.lower.2 j hj).1]
  refine holds_get_fix ?_
  rw [hlow]
  cases hst : (S0.layer j).stat (c :: d) with
  | error e =>
    refine (holds_fsMkdir_grow hT hdir _ hG hp hn).weaken (fun s h => h) (fun s h => h) (fun r s h => ⟨h.1, ⟨h.2.1, rest h.2.2.top, fun hf => ?_⟩, ?_⟩)
    · exfalso
      obtain ⟨m', hm'⟩ := hf (c :: d) (List.suffix_refl _) ht0
      rw [stat_of_dir (lookup_lstat hm')] at hst; cases hst
    · exact ⟨_, by rw [h.2.2.top]; exact setTree_self ..⟩
  | ok nd =>
    refine Holds.bind _ (holds_fsMkdir_grow hT hdir _ hG hp hn) (fun _ => ?_) (fun e s h => by cases h.1)
    refine Holds.fix fun S1 h1 => ?_
    have hk : S1.top (c :: d) = some (.dir (S.umask nd.mode)) := by rw [h1.2.2.top]; exact setTree_self ..
    refine (holds_copyAttrs_grow hT hdir nd h1.2.1 hk ht0).weaken (fun s h => h) (fun s h => h) (fun r s h => ?_)
    have htop : s.top = setTree S.top (c :: d) (some (.dir nd.mode)) := by rw [h.2.2.top, h1.2.2.top, setTree_twice]
    refine ⟨h.1, ⟨h.2.1, rest htop, fun hf => ?_⟩, ⟨_, by rw [htop]; exact setTree_self ..⟩⟩
    intro a
    rw [htop]
    by_cases e : a = c :: d
    · right
      rw [e, setTree_self]
      obtain ⟨m', hm'⟩ := hf (c :: d) (List.suffix_refl _) ht0
      rw [stat_of_dir (lookup_lstat hm')] at hst
      cases hst
      rw [S0.view_cons hdir.parent, hm']
      rfl
    · rw [setTree_ne e]
      exact hE (fun a ha => hf a (ha.trans (List.suffix_cons c d))) a

theorem holds_materializeParents {S0 : Sys} (hT : (S0.layer 0).IsTree) {j : Nat} (hj : 0 < j) : ∀ {d : Name}, S0.ViewDir d →
    Holds (Grown S0) (fun s => s = S0) (materializeParents j d) (fun r s => r = .ok () ∧ Ready S0 j d s ∧ ∃ k, s.top d = some (.dir k)) := by
  intro d
  induction d with
  | nil =>
    intro _
    refine Holds.pure fun s hs => ?_
    rw [hs]
    exact ⟨rfl, ⟨Grown.refl hT, fun _ _ => rfl, fun _ _ => Or.inl rfl⟩, hT.root⟩
  | cons c d ih =>
    intro hdir
    refine Holds.bind _ (ih hdir.parent) (fun _ => ?_) (fun e s h => by cases h.1)
    refine Holds.fix fun S h => ?_
    obtain ⟨_, hR, m, hp⟩ := h
    have hd : S.ViewDir d := (hR.1.viewDir hT d).2 hdir.parent
    refine holds_get_fix ?_
    rw [S.top_lstat hR.1.tree hd]
    cases hn : S.top (c :: d) with
    | none => exact holds_materializeOne hT hdir hj hR hp hn
    | some nd =>
      refine Holds.pure fun s hs => ?_
      rw [hs]
      have hv : ∃ k, nd = .dir k := by
        have := ((hR.1.viewDir hT _).2 hdir).top_dirs hR.1.tree (c :: d) nd (List.suffix_refl _) hn
        cases nd with
        | dir k => exact ⟨k, rfl⟩
        | _ => cases this
      obtain ⟨k, rfl⟩ := hv
      refine ⟨rfl, ⟨hR.1, fun a ha => hR.2.1 a (fun h' => ha (h'.trans (List.suffix_cons c d))), fun hf => hR.2.2 (fun a ha => hf a (ha.trans (List.suffix_cons c d)))⟩, k, hn⟩

/-- What a completed copy-up has established. -/
def Copied (S0 : Sys) (j : Nat) (n : Name) (S : Sys) : Prop :=
  Grown S0 S ∧ (∀ a, ¬ a <:+ n → S.top a = S0.top a) ∧ S.top n = S0.view n ∧ (FromLayer S0 j n.tail → Exact S0 S)

theorem Ready.copied {S0 S S' : Sys} {j : Nat} {c : Str} {d : Name} {nd : Node} (h : Ready S0 j d S) (hv : S0.view (c :: d) = some nd)
    (htop : S'.top = setTree S.top (c :: d) (some nd)) (hg : Grown S0 S') : Copied S0 j (c :: d) S' := by
  refine ⟨hg, ?_, ?_, ?_⟩
  · intro a ha
    rw [htop, setTree_ne (fun e => ha (by rw [e]; exact List.suffix_refl _))]
    exact h.2.1 a (fun h' => ha (h'.trans (List.suffix_cons c d)))
  · rw [htop, setTree_self, hv]
  · intro hf a
    rw [htop]
    by_cases e : a = c :: d
    · right; rw [e, setTree_self, hv]
    · rw [setTree_ne e]; exact h.2.2 hf a

theorem Ready.entry {S0 S : Sys} {j : Nat} {c : Str} {d : Name} (hT : (S0.layer 0).IsTree) (hd : S0.ViewDir d) (h : Ready S0 j d S) {k : Nat}
    (hp : S.top d = some (.dir k)) : (S.layer 0).entry (c :: d) = .ok (c :: d) := by
  rcases S.top_entry h.1.tree (c := c) ((h.1.viewDir hT d).2 hd) with ⟨_, he⟩ | ⟨hnone, _⟩
  · exact he
  · rw [hp] at hnone; cases hnone

theorem holds_policyCopyUp {S0 : Sys} (hT : (S0.layer 0).IsTree) {j : Nat} (hj : 0 < j) {c : Str} {d : Name} (hd : S0.ViewDir d) {nd : Node}
    (hv : S0.view (c :: d) = some nd) (hl : (S0.layer j).lstat (c :: d) = .ok nd) (ht0 : S0.top (c :: d) = none) :
    Holds (Grown S0) (fun s => s = S0) (policyCopyUp j (c :: d)) (fun r s => Grown S0 s ∧ (r = .ok () → Copied S0 j (c :: d) s) ∧ (nd ≠ .special → r = .ok ())) := by
  refine holds_get_fix ?_
  rw [hl]
  have ready_none : ∀ {S}, Ready S0 j d S → S.top (c :: d) = none := by
    intro S h
    rw [h.2.1 (c :: d) (fun h' => absurd h'.length_le (by simp))]
    exact ht0
  cases nd with
  | special => exact Holds.fail fun s hs => by rw [hs]; exact ⟨Grown.refl hT, fun e => (by cases e), fun e => absurd rfl e⟩
  | dir m =>
    refine Holds.bind _ (holds_materializeParents hT hj hd) (fun _ => ?_) (fun e s h => by cases h.1)
    refine Holds.fix fun S h => ?_
    obtain ⟨_, hR, k, hp⟩ := h
    refine Holds.bind _ (holds_fsMkdir_grow hT ⟨m, hv⟩ m hR.1 hp (ready_none hR)) (fun _ => ?_) (fun e s h => by cases h.1)
    refine Holds.fix fun S1 h1 => ?_
    have hk : S1.top (c :: d) = some (.dir (S.umask m)) := by rw [h1.2.2.top]; exact setTree_self ..
    refine (holds_copyAttrs_grow hT ⟨m, hv⟩ (.dir m) h1.2.1 hk ht0).weaken (fun s h => h) (fun s h => h) (fun r s h => ⟨h.2.1, fun _ => ?_, fun _ => h.1⟩)
    exact hR.copied hv (by rw [h.2.2.top, h1.2.2.top, setTree_twice]; rfl) h.2.1
  | link t =>
    refine Holds.bind _ (holds_materializeParents hT hj hd) (fun _ => ?_) (fun e s h => by cases h.1)
    refine Holds.fix fun S h => ?_
    obtain ⟨_, hR, k, hp⟩ := h
    refine holds_get_fix ?_
    rw [hR.entry hT hd hp]
    simp only
    have e : (S.layer 0).tree (c :: d) = none := ready_none hR
    rw [e]
    have key : Grown S0 (onTree 0 (fun t' => setTree t' (c :: d) (some (.link t))) S) :=
      hR.1.grow (grow1_onTree _ _ S) hp (Or.inr fun c' => top_none_below hR.1.tree e (List.suffix_cons c' _)) ht0 (by rw [hv]; simp) (Or.inl hv.symm)
    exact Holds.modify (fun s hs => by rw [hs]; exact key) (fun s hs => by rw [hs]; exact ⟨key, fun _ => hR.copied hv rfl key, fun _ => rfl⟩)
  | file m data =>
    refine Holds.bind _ (holds_materializeParents hT hj hd) (fun _ => ?_) (fun e s h => by cases h.1)
    refine Holds.fix fun S h => ?_
    obtain ⟨_, hR, k, hp⟩ := h
    have e : (S.layer 0).tree (c :: d) = none := ready_none hR
    -- staging changes nothing of the layers
    have same : ∀ {s : Sys}, s.layer = S.layer → s.mask = S.mask → s.last = S.last → Grown S0 s := by
      intro s h1 h2 h3
      refine ⟨⟨h3.trans hR.1.lower.1, fun i hi => ?_⟩, ?_, ?_, ?_⟩
      · rw [h1, h2]; exact hR.1.lower.2 i hi
      · rw [h1]; exact hR.1.tree
      · rw [h2]; exact hR.1.mask
      · intro a; unfold Sys.top; rw [h1]; exact hR.1.top a
    refine holds_get_fix ?_
    refine Holds.bind (fun r s => r = .ok () ∧ s.layer = S.layer ∧ s.mask = S.mask ∧ s.last = S.last)
      (Holds.modify (fun s hs => by subst hs; exact same rfl rfl rfl) (fun s hs => by subst hs; exact ⟨rfl, rfl, rfl, rfl⟩)) (fun _ => ?_) (fun e s h => by cases h.1)
    refine Holds.bind (fun r s => r = .ok () ∧ s.layer = S.layer ∧ s.mask = S.mask ∧ s.last = S.last)
      (Holds.modify (fun s hs => same hs.2.1 hs.2.2.1 hs.2.2.2) (fun s hs => ⟨rfl, hs.2.1, hs.2.2.1, hs.2.2.2⟩)) (fun _ => ?_) (fun e s h => by cases h.1)
    refine Holds.bind (fun r s => r = .ok () ∧ s.layer = S.layer ∧ s.mask = S.mask ∧ s.last = S.last)
      (Holds.modify (fun s hs => same hs.2.1 hs.2.2.1 hs.2.2.2) (fun s hs => ⟨rfl, hs.2.1, hs.2.2.1, hs.2.2.2⟩)) (fun _ => ?_) (fun e s h => by cases h.1)
    refine Holds.bind (fun r s => r = .ok () ∧ s.layer = S.layer ∧ s.mask = S.mask ∧ s.last = S.last ∧ s.stage (S.temp + 1) = some (.file m data))
      (Holds.modify (fun s hs => same hs.2.1 hs.2.2.1 hs.2.2.2) (fun s hs => ⟨rfl, hs.2.1, hs.2.2.1, hs.2.2.2, if_pos rfl⟩)) (fun _ => ?_) (fun e s h => by cases h.1)
    refine Holds.fix fun S1 h1 => ?_
    obtain ⟨_, hl1, hm1, hla1, hst1⟩ := h1
    have hent : (S1.layer 0).entry (c :: d) = .ok (c :: d) := by rw [hl1]; exact hR.entry hT hd hp
    refine holds_get_fix ?_
    rw [hent, hst1]
    simp only
    have e1 : (S1.layer 0).tree (c :: d) = none := by rw [hl1]; exact e
    rw [e1]
    have htop1 : S1.top = S.top := by unfold Sys.top; rw [hl1]
    have g1 : Grow1 (c :: d) (.file m data) S1 (onTree 0 (fun t => setTree t (c :: d) (some (.file m data))) (onStage (S.temp + 1) none S1)) :=
      ⟨⟨rfl, fun i hi => ⟨if_neg (Nat.ne_of_gt hi), rfl⟩⟩, rfl, rfl, rfl, rfl⟩
    have key := (same hl1 hm1 hla1).grow g1 (by rw [htop1]; exact hp)
      (Or.inr fun c' => top_none_below (same hl1 hm1 hla1).tree e1 (List.suffix_cons c' _)) ht0 (by rw [hv]; simp) (Or.inl hv.symm)
    exact Holds.modify (fun s hs => by rw [hs]; exact key)
      (fun s hs => by rw [hs]; exact ⟨key, fun _ => hR.copied hv (by rw [g1.top, htop1]; rfl) key, fun _ => rfl⟩)

/-- The whole of copy-up. -/
theorem holds_copyUp_answer {S0 : Sys} (hT : (S0.layer 0).IsTree) {c : Str} {d : Name} (hd : S0.ViewDir d)
    (ho : c :: d ∈ (S0.mask 0).op → S0.top (c :: d) ≠ none) :
    Holds (Grown S0) (fun s => s = S0) (copyUp (c :: d)) (fun r s => Grown S0 s ∧
      (r = .ok () → (∀ a, ¬ a <:+ c :: d → s.top a = S0.top a) ∧ s.top (c :: d) = S0.view (c :: d) ∧
        ((∀ i nd, S0.lookup (c :: d) = .ok (i, nd) → FromLayer S0 i d) → Exact S0 s)) ∧
      (∀ nd, S0.view (c :: d) = some nd → nd ≠ .special → r = .ok ())) := by
  refine holds_get_fix ?_
  cases hl : S0.lookup (c :: d) with
  | error e =>
    have hv : S0.view (c :: d) = none := by rw [S0.view_cons hd, hl]
    have ht : S0.top (c :: d) = none := by
      cases ht : S0.top (c :: d) with
      | none => rfl
      | some nd => rw [S0.view_top hT hd ht] at hv; cases hv
    by_cases he : e = .notExist
    · subst he
      exact Holds.pure fun s hs => by rw [hs]; exact ⟨Grown.refl hT, fun _ => ⟨fun _ _ => rfl, by rw [ht, hv], fun _ _ => Or.inl rfl⟩, fun _ _ _ => rfl⟩
    · cases e <;> first | exact absurd rfl he | exact Holds.fail fun s hs => by rw [hs]; exact ⟨Grown.refl hT, fun e => (by cases e), fun nd h _ => by rw [hv] at h; cases h⟩
  | ok x =>
    obtain ⟨i, nd⟩ := x
    have hv : S0.view (c :: d) = some nd := by rw [S0.view_cons hd, hl]
    cases i with
    | zero =>
      have ht : S0.top (c :: d) = some nd := by
        have := lookup_lstat hl
        simp only at this
        rw [S0.top_lstat hT hd] at this
        cases ht : S0.top (c :: d) with
        | none => rw [ht] at this; cases this
        | some x => rw [ht] at this; cases this; rfl
      exact Holds.pure fun s hs => by rw [hs]; exact ⟨Grown.refl hT, fun _ => ⟨fun _ _ => rfl, by rw [ht, hv], fun _ _ => Or.inl rfl⟩, fun _ _ _ => rfl⟩
    | succ j =>
      have ht : S0.top (c :: d) = none := by
        cases ht : S0.top (c :: d) with
        | none => rfl
        | some x => rw [S0.lookup_top hT hd ht] at hl; cases hl
      refine Holds.bind _ (holds_policyCopyUp hT (Nat.succ_pos j) hd hv (lookup_lstat hl) ht) (fun _ => ?_) 
        (fun e s h => ⟨h.1, fun e => (by cases e), fun nd' h1 h2 => by rw [hv] at h1; cases h1; cases h.2.2 h2⟩)
      refine Holds.fix fun S h => ?_
      have hno : c :: d ∉ (S.mask 0).op := by rw [h.1.mask]; exact fun h' => ho h' ht
      refine holds_get_fix ?_
      rw [if_neg hno]
      refine Holds.pure fun s hs => ?_
      rw [hs]
      obtain ⟨_, h2, h3, h4⟩ := h.2.1 rfl
      exact ⟨h.1, fun _ => ⟨h2, h3, fun hf => h4 (hf _ _ rfl)⟩, fun _ _ _ => rfl⟩

theorem holds_copyUp {S0 : Sys} (hT : (S0.layer 0).IsTree) {c : Str} {d : Name} (hd : S0.ViewDir d)
    (ho : c :: d ∈ (S0.mask 0).op → S0.top (c :: d) ≠ none) :
    Holds (Grown S0) (fun s => s = S0) (copyUp (c :: d)) (fun r s => Grown S0 s ∧
      (r = .ok () → (∀ a, ¬ a <:+ c :: d → s.top a = S0.top a) ∧ s.top (c :: d) = S0.view (c :: d) ∧
        ((∀ i nd, S0.lookup (c :: d) = .ok (i, nd) → FromLayer S0 i d) → Exact S0 s))) :=
  (holds_copyUp_answer hT hd ho).weaken (fun _ h => h) (fun _ h => h) (fun _ _ h => ⟨h.1, h.2.1⟩)

/-! ### the property -/

/-- **C57**. Copying a name up changes nothing that the merged view shows, at any crash point, except the permission bits of directories on the
way to the name (and of the name, if it is a directory, until copy-up is complete). The name is one whose directory is shown as a directory;
the top has no leftover opaque mark for a directory it does not hold. -/
theorem C57_copyUp_partial {S : Sys} (hS : S.Trees) {c : Str} {d : Name} (hd : S.ViewDir d) (ho : c :: d ∈ (S.mask 0).op → S.top (c :: d) ≠ none) :
    (∀ S' ∈ crashes (copyUp (c :: d)) S ++ [final (copyUp (c :: d)) S], ∀ m, SameButDirMode (S'.view m) (S.view m)) ∧
    (result (copyUp (c :: d)) S = .ok () → ∀ m, (m = c :: d ∨ ¬ m <:+ c :: d) → (final (copyUp (c :: d)) S).view m = S.view m) ∧
    (result (copyUp (c :: d)) S = .ok () → (final (copyUp (c :: d)) S).top (c :: d) = S.view (c :: d)) := by
  have hT := hS 0 (Nat.zero_le _)
  have h := holds_copyUp hT (c := c) hd ho S rfl
  refine ⟨?_, ?_, ?_⟩
  · intro S' hS' m
    rcases List.mem_append.1 hS' with h' | h'
    · exact ((h.1 S' h').view hT m).1
    · rw [List.mem_singleton.1 h']; exact (h.2.1.view hT m).1
  · intro hr m hm
    obtain ⟨h1, h2, _⟩ := h.2.2 hr
    rcases hm with rfl | hm
    · by_cases e : (final (copyUp (c :: d)) S).top (c :: d) = S.top (c :: d)
      · exact (h.2.1.view hT _).2.1 e
      · rw [← h2]
        exact (h.2.1.view hT _).2.2 e
    · exact (h.2.1.view hT m).2.1 (h1 m hm)
  · exact fun hr => (h.2.2 hr).2.1

/-- **C57**, exactly: when the directories that have to be created in the top are shown by the layer the name is copied from, nothing at all changes. -/
theorem C57_exact_partial {S : Sys} (hS : S.Trees) {c : Str} {d : Name} (hd : S.ViewDir d) (ho : c :: d ∈ (S.mask 0).op → S.top (c :: d) ≠ none)
    (hf : ∀ i nd, S.lookup (c :: d) = .ok (i, nd) → FromLayer S i d) (hr : result (copyUp (c :: d)) S = .ok ()) (m : Name) :
    (final (copyUp (c :: d)) S).view m = S.view m := by
  have hT := hS 0 (Nat.zero_le _)
  have h := holds_copyUp hT (c := c) hd ho S rfl
  exact Exact.view hT h.2.1 ((h.2.2 hr).2.2 hf) m

theorem search_index {S : Sys} {n : Name} {p : Errno} : ∀ {k i : Nat} {x : Nat × Node}, S.search n p k i = .ok x → i ≤ x.1 ∧ x.1 < i + k := by
  intro k
  induction k with
  | zero => intro i x h; cases h
  | succ k ih =>
    intro i x h
    unfold Sys.search at h
    have next : S.search n p k (i + 1) = .ok x → i ≤ x.1 ∧ x.1 < i + (k + 1) := fun h => by have := ih h; omega
    cases hl : (S.layer i).lstat n with
    | ok nd => rw [hl] at h; cases h; exact ⟨Nat.le_refl _, by omega⟩
    | error e =>
      rw [hl] at h
      cases e with
      | notExist => exact next h
      | notDir =>
        simp only at h
        cases hb : (S.layer i).blockedIn n.tail with
        | error e => rw [hb] at h; cases h
        | ok b =>
          rw [hb] at h
          cases b with
          | true => cases h
          | false => exact next h
      | _ => cases h

theorem lookup_le_last {S : Sys} {n : Name} {x : Nat × Node} (h : S.lookup n = .ok x) : x.1 ≤ S.last := by
  rw [S.lookup_eq] at h
  have := search_index h
  have := S.cutFrom_le_last n 0
  omega

/-- **C57** for an overlay with one lower layer: nothing at all changes. -/
theorem C57_one_lower {S : Sys} (hS : S.Trees) (hlast : S.last ≤ 1) {c : Str} {d : Name} (hd : S.ViewDir d)
    (ho : c :: d ∈ (S.mask 0).op → S.top (c :: d) ≠ none) (hr : result (copyUp (c :: d)) S = .ok ()) (m : Name) :
    (final (copyUp (c :: d)) S).view m = S.view m := by
  have hT := hS 0 (Nat.zero_le _)
  -- a name missing in the top and shown is shown by the one lower layer
  have one : ∀ {c' : Str} {d' : Name} {i : Nat} {nd : Node}, S.ViewDir d' → S.lookup (c' :: d') = .ok (i, nd) → S.top (c' :: d') = none → i = 1 := by
    intro c' d' i nd hn hl ht
    have h1 := lookup_le_last hl
    have h2 := lookup_lstat hl
    simp only at h1 h2
    by_cases e : i = 0
    · rw [e, S.top_lstat hT hn, ht] at h2; cases h2
    · omega
  by_cases ht : S.top (c :: d) = none
  · refine C57_exact_partial hS hd ho ?_ hr m
    intro i nd hl a ha hta
    have hi : i = 1 := one hd hl ht
    obtain ⟨k, hk⟩ := hd.suffix ha
    obtain ⟨i', hi'⟩ := S.lookup_of_view hk
    have hne : a ≠ [] := by
      rintro rfl
      obtain ⟨m, hm⟩ := hT.root
      unfold Sys.top at hta; rw [hm] at hta; cases hta
    obtain ⟨c', d', rfl⟩ := List.exists_cons_of_ne_nil hne
    have := one (Sys.ViewDir.parent ⟨k, hk⟩) hi' hta
    rw [this] at hi'
    exact ⟨k, by rw [hi]; exact hi'⟩
  · -- already in the top
    cases hn : S.top (c :: d) with
    | none => exact absurd hn ht
    | some nd =>
      have hl := S.lookup_top hT hd hn
      have : copyUp (c :: d) S = ([], S, .ok ()) := by
        simp only [copyUp, Bind.bind, Prog.bind, Prog.get, hl, Pure.pure, Prog.pure, List.append_nil]
      unfold final
      rw [this]

namespace Example
/-- Two lower layers: the upper one holds `a` with mode 0700, the other holds `a` with mode 0755 and the file `a/x`. -/
def s3 : Sys where
  last := 2
  layer := fun i => if i = 0 then layerOf [([], .dir 0o755)] (.error .notExist)
    else if i = 1 then layerOf [([], .dir 0o755), ([a], .dir 0o700)] (.error .notExist)
    else layerOf [([], .dir 0o755), ([a], .dir 0o755), ([x, a], .file 0o644 ['1'])] (.error .notExist)
  mask := fun _ => ⟨[], []⟩
  stage := fun _ => none
  temp := 0
  umask := id

/-- One lower layer with `a/x`, an empty top. -/
def s4 : Sys where
  last := 1
  layer := fun i => if i = 0 then layerOf [([], .dir 0o755)] (.error .notExist)
    else layerOf [([], .dir 0o755), ([a], .dir 0o755), ([x, a], .file 0o644 ['1'])] (.error .notExist)
  mask := fun _ => ⟨[], []⟩
  stage := fun _ => none
  temp := 0
  umask := id

theorem s4_trees : s4.Trees ∧ s4.ListsAll := by
  have h : ∀ j, (s4.layer j).IsTree ∧ (s4.layer j).Lists := by
    intro j
    by_cases hj : j = 0
    · subst hj
      exact ⟨okList_isTree (by decide), okList_lists (by decide)⟩
    · have : s4.layer j = layerOf [([], .dir 0o755), ([a], .dir 0o755), ([x, a], .file 0o644 ['1'])] (.error .notExist) := by simp [s4, hj]
      rw [this]
      exact ⟨okList_isTree (by decide), okList_lists (by decide)⟩
  exact ⟨fun j _ => (h j).1, fun j _ => (h j).2⟩

/-- The calls `RemoveAll("a")`, `Mkdir("a")`, and a crash in `Rename("a", "b")` right after the top has moved the directory. -/
def stale : Sys :=
  let S1 := final (removeAllOp [a] []) s4
  let S2 := final (mkdirOp [a] 0o755) S1
  (crashes (renameOp [a] [b]) S2)[0]?.getD S2
end Example

open Example in
/-- A directory on the way is created with the mode it has in the layer the file is copied from, not with the mode it shows. -/
theorem C57_counterexample_modes :
    s3.view [a] = some (.dir 0o700) ∧ result (copyUp [x, a]) s3 = .ok () ∧ (final (copyUp [x, a]) s3).view [a] = some (.dir 0o755) := ⟨rfl, rfl, rfl⟩

open Example in
/-- With a leftover opaque mark copy-up makes lower content visible that was hidden: an interrupted rename leaves such a mark, and a `Chmod` of the
directory then brings back the content that was removed before. -/
theorem C57_counterexample_stale_opaque :
    (∃ hs, History s4 stale hs) ∧ stale.view [a] = some (.dir 0o755) ∧ stale.view [x, a] = none ∧
    result (copyUp [a]) stale = .ok () ∧ (final (copyUp [a]) stale).view [x, a] = some (.file 0o644 ['1']) := by
  refine ⟨⟨_, History.crash (.rename [a] [b]) (History.call (.mkdir [a] 0o755) (History.call (.removeAll [a] []) History.start)) ?_⟩, rfl, rfl, rfl, rfl⟩
  exact List.mem_of_getElem? (i := 0) rfl

open Example in
/-- Copying up `a/x` from the lower layer of a two-layer overlay: seven states on the way, the file is in the top at the end. -/
example : s4.Trees ∧ s4.ViewDir [a] ∧ ([x, a] ∈ (s4.mask 0).op → s4.top [x, a] ≠ none) ∧ result (copyUp [x, a]) s4 = .ok () ∧
    s4.top [x, a] = none ∧ (final (copyUp [x, a]) s4).top [x, a] = some (.file 0o644 ['1']) ∧ (crashes (copyUp [x, a]) s4).length = 7 :=
  ⟨s4_trees.1, ⟨_, rfl⟩, by decide, rfl, rfl, rfl, rfl⟩

end Verif.Overlay.Stack
