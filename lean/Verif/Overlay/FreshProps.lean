import Verif.Overlay.CopyProps
/-
New entries: directories (C56), and what operations on one name do to the others (C68).
-/
namespace Verif.Overlay.Stack
open Verif.Path Verif.Prog

theorem holds_ensureParent_answer {S0 : Sys} (hT : (S0.layer 0).IsTree) {c : Str} {d : Name} (hd : S0.ViewDir d) (ho : d ∈ (S0.mask 0).op → S0.top d ≠ none) :
    Holds (Grown S0) (fun s => s = S0) (ensureParent (c :: d)) (fun r s => Grown S0 s ∧ (∀ a, ¬ a <:+ d → r = .ok () → s.top a = S0.top a) ∧
      (r = .ok () → ∃ k, s.top d = some (.dir k)) ∧ r = .ok ()) := by
  refine holds_get_fix ?_
  show Holds _ _ (match S0.lookup d with | .error e => Prog.fail e | .ok (_, .dir _) => copyUp d | .ok _ => Prog.fail .notDir) _
  obtain ⟨m, hm⟩ := hd
  obtain ⟨i, hi⟩ := S0.lookup_of_view hm
  rw [hi]
  simp only
  cases d with
  | nil =>
    refine Holds.pure fun s hs => ?_
    rw [hs]
    exact ⟨Grown.refl hT, fun _ _ _ => rfl, fun _ => hT.root, rfl⟩
  | cons c' d' =>
    refine (holds_copyUp_answer hT (Sys.ViewDir.parent ⟨m, hm⟩) ho).weaken (fun s h => h) (fun s h => h)
      (fun r s h => ⟨h.1, fun a ha hr => (h.2.1 hr).1 a ha, fun hr => ?_, h.2.2 _ hm (by simp)⟩)
    rw [(h.2.1 hr).2.1]
    exact ⟨m, hm⟩

theorem holds_ensureParent {S0 : Sys} (hT : (S0.layer 0).IsTree) {c : Str} {d : Name} (hd : S0.ViewDir d) (ho : d ∈ (S0.mask 0).op → S0.top d ≠ none) :
    Holds (Grown S0) (fun s => s = S0) (ensureParent (c :: d)) (fun r s => Grown S0 s ∧ (∀ a, ¬ a <:+ d → r = .ok () → s.top a = S0.top a) ∧
      (r = .ok () → ∃ k, s.top d = some (.dir k))) :=
  (holds_ensureParent_answer hT hd ho).weaken (fun _ h => h) (fun _ h => h) (fun _ _ h => ⟨h.1, h.2.1, h.2.2.1⟩)

/-- A state while a new entry at `n` is made: only the entry and the marks on its own name differ, and nothing shows beneath it. -/
structure NewMid (n : Name) (v : Node) (S0 S : Sys) : Prop where
  lower : LowerSame S0 S
  tree : (S.layer 0).IsTree
  top : ∀ m, m ≠ n → S.top m = S0.top m
  wh : ∀ m, m ≠ n → (m ∈ (S.mask 0).wh ↔ m ∈ (S0.mask 0).wh)
  op : ∀ m, m ≠ n → (m ∈ (S.mask 0).op ↔ m ∈ (S0.mask 0).op)
  absent : S0.top n = none
  shut : v.isDir = false ∨ ∀ m, n <:+ m → m ≠ n → S.Masks 0 m ∨ S0.low m = none
  val : S.top n = some v

theorem NewMid.view_out {n : Name} {v : Node} {S0 S : Sys} (hT : (S0.layer 0).IsTree) (h : NewMid n v S0 S) {m : Name} (hm : ¬ n <:+ m) : S.view m = S0.view m := by
  refine view_congr hT h.tree h.lower (fun a ha => ?_)
  have hne : ∀ b, b <:+ a → b ≠ n := fun b hb e => hm (by rw [← e]; exact hb.trans ha)
  exact ⟨h.top a (hne a (List.suffix_refl _)), masks_congr fun b hb => ⟨h.wh b (hne b hb), fun _ => h.op b (hne b hb)⟩⟩

theorem NewMid.view_below {n : Name} {v : Node} {S0 S : Sys} (hT : (S0.layer 0).IsTree) (h : NewMid n v S0 S) {m : Name} (hm : n <:+ m) (hne : m ≠ n) : S.view m = none := by
  obtain ⟨c, d, rfl⟩ : ∃ c d, m = c :: d := by
    cases m with
    | nil => exact absurd (List.suffix_nil.1 hm).symm hne
    | cons c d => exact ⟨c, d, rfl⟩
  by_cases hd : S.ViewDir d
  · have ht : S.top (c :: d) = none := (h.top _ hne).trans (top_none_below hT h.absent hm)
    rcases h.shut with hnd | hs
    · have := hd.top_dirs h.tree n v (suffix_cons_ne hm (Ne.symm hne)) h.val
      rw [hnd] at this; cases this
    · rcases hs _ hm hne with hk | hk
      · exact S.view_masked h.tree hd ht hk
      · by_cases hm' : S.Masks 0 (c :: d)
        · exact S.view_masked h.tree hd ht hm'
        · rw [S.view_low h.tree hd ht hm', h.lower.low, hk]
  · exact S.view_none_of_parent hd

theorem NewMid.view_at {c : Str} {d : Name} {v : Node} {S0 S : Sys} (hT : (S0.layer 0).IsTree) (h : NewMid (c :: d) v S0 S) (hd : S0.ViewDir d) :
    S.view (c :: d) = some v := by
  refine S.view_top h.tree ?_ h.val
  obtain ⟨m, hm⟩ := hd
  exact ⟨m, by rw [h.view_out hT (fun h' => absurd h'.length_le (by simp))]; exact hm⟩

/-- Nothing shows beneath a name that does not show. -/
theorem shut_of_absent {S : Sys} (hS : S.Trees) {c : Str} {d : Name} (hd : S.ViewDir d) (hv : S.view (c :: d) = none) :
    ∀ m, c :: d <:+ m → S.Masks 0 m ∨ S.low m = none := by
  have hT := hS 0 (Nat.zero_le _)
  have ht : S.top (c :: d) = none := by
    cases ht : S.top (c :: d) with
    | none => rfl
    | some nd => rw [S.view_top hT hd ht] at hv; cases hv
  intro m hm
  by_cases hk : S.Masks 0 (c :: d)
  · left
    obtain ⟨r, rfl⟩ := hm
    induction r with
    | nil => exact hk
    | cons c' r ih => exact S.masks_mono ih
  · right
    rw [S.view_low hT hd ht hk] at hv
    exact S.low_below hS hv hm

/-- A new entry in the top. -/
theorem NewMid.created {c : Str} {d : Name} {S S' : Sys} {v : Node} (hT : (S.layer 0).IsTree) (hg : Grow1 (c :: d) v S S')
    (hn : S.top (c :: d) = none) {k : Nat} (hp : S.top d = some (.dir k))
    (hs : ∀ m, c :: d <:+ m → S.Masks 0 m ∨ S.low m = none) : NewMid (c :: d) v S S' where
  lower := hg.lower
  tree := isTree_set hT hg.top hp (Or.inr fun c' => top_none_below hT hn (List.suffix_cons c' _))
  top := fun m hm => by rw [hg.top, setTree_ne hm]
  wh := fun m _ => by rw [hg.mask]
  op := fun m _ => by rw [hg.mask]
  absent := hn
  shut := Or.inr fun m hm _ => by
    have : S'.Masks 0 m ↔ S.Masks 0 m := by unfold Sys.Masks; rw [hg.mask]
    rw [this]; exact hs m hm
  val := by rw [hg.top, setTree_self]

/-- The mark on the name comes off last. -/
theorem holds_unmask_new {n : Name} {v : Node} {S1 S2 : Sys} (h : NewMid n v S1 S2)
    (hs : v.isDir = false ∨ n ∈ (S2.mask 0).op) : Holds (NewMid n v S1) (fun s => s = S2) (unmask n) (fun r s => r = .ok () ∧ NewMid n v S1 s ∧ (s.mask 0).op = (S2.mask 0).op) := by
  have key : NewMid n v S1 (onMask 0 (fun m => ⟨m.wh.filter (fun x => x ≠ n), m.op⟩) S2) := by
    refine ⟨h.lower.trans (lowerSame_onMask _ S2), h.tree, h.top, ?_, h.op, h.absent, ?_, ?_⟩
    · intro m hm
      rw [← h.wh m hm]
      show m ∈ (S2.mask 0).wh.filter (fun x => x ≠ n) ↔ _
      rw [mem_filter_ne]
      exact ⟨fun h => h.1, fun h => ⟨h, hm⟩⟩
    · rcases hs with hs | hs
      · exact Or.inl hs
      · refine Or.inr fun m hm hne => Or.inl ?_
        exact Or.inr ⟨n, hm, Ne.symm hne, Or.inr hs⟩
    · exact h.val
  refine holds_get_fix ?_
  refine Holds.ite (fun _ => ?_) (fun _ => Holds.pure fun s hs => by rw [hs]; exact ⟨rfl, h, rfl⟩)
  exact Holds.modify (fun s hs => by rw [hs]; exact key) (fun s hs => by rw [hs]; exact ⟨rfl, key, rfl⟩)

theorem holds_mkdirOne {S1 : Sys} (hS : S1.Trees) {c : Str} {d : Name} (hd : S1.ViewDir d) (hv : S1.view (c :: d) = none) {k : Nat}
    (hp : S1.top d = some (.dir k)) (perm : Nat) :
    Holds (NewMid (c :: d) (.dir (S1.umask perm)) S1) (fun s => s = S1) (mkdirOne (c :: d) perm)
      (fun r s => r = .ok () ∧ NewMid (c :: d) (.dir (S1.umask perm)) S1 s ∧ c :: d ∈ (s.mask 0).op) := by
  have hT := hS 0 (Nat.zero_le _)
  have hn : S1.top (c :: d) = none := by
    cases ht : S1.top (c :: d) with
    | none => rfl
    | some nd => rw [S1.view_top hT hd ht] at hv; cases hv
  have hent : (S1.layer 0).entry (c :: d) = .ok (c :: d) := by
    rcases S1.top_entry hT (c := c) hd with ⟨_, he⟩ | ⟨hnone, _⟩
    · exact he
    · rw [hp] at hnone; cases hnone
  have hc : NewMid (c :: d) (.dir (S1.umask perm)) S1 (onTree 0 (fun t => setTree t (c :: d) (some (.dir (S1.umask perm)))) S1) :=
    NewMid.created hT (grow1_onTree _ _ S1) hn hp (shut_of_absent hS hd hv)
  refine Holds.bind (fun r s => r = .ok () ∧ s = onTree 0 (fun t => setTree t (c :: d) (some (.dir (S1.umask perm)))) S1) ?_ (fun _ => ?_) (fun e s h => by cases h.1)
  · refine holds_get_fix ?_
    rw [hent]
    simp only
    have e : (S1.layer 0).tree (c :: d) = none := hn
    rw [e]
    exact Holds.modify (fun s hs => by rw [hs]; exact hc) (fun s hs => by rw [hs]; exact ⟨rfl, rfl⟩)
  · have hc2 : NewMid (c :: d) (.dir (S1.umask perm)) S1 (onMask 0 (fun m => ⟨m.wh, (c :: d) :: m.op⟩) (onTree 0 (fun t => setTree t (c :: d) (some (.dir (S1.umask perm)))) S1)) := by
      refine ⟨hc.lower.trans (lowerSame_onMask _ _), hc.tree, hc.top, hc.wh, ?_, hc.absent, ?_, ?_⟩
      · intro m hm
        rw [← hc.op m hm]
        show m ∈ (c :: d) :: _ ↔ _
        rw [List.mem_cons]
        exact ⟨fun h => h.resolve_left hm, Or.inr⟩
      · refine Or.inr fun m hm hne => Or.inl (Or.inr ⟨c :: d, hm, Ne.symm hne, Or.inr ?_⟩)
        exact List.mem_cons_self ..
      · exact hc.val
    refine Holds.bind (fun r s => r = .ok () ∧ s = onMask 0 (fun m => ⟨m.wh, (c :: d) :: m.op⟩) (onTree 0 (fun t => setTree t (c :: d) (some (.dir (S1.umask perm)))) S1))
      (Holds.modify (fun s hs => by rw [hs.2]; exact hc2) (fun s hs => by rw [hs.2]; exact ⟨rfl, rfl⟩)) (fun _ => ?_) (fun e s h => by cases h.1)
    refine (holds_unmask_new hc2 (Or.inr (List.mem_cons_self ..))).weaken (fun s h => h.2) (fun s h => h) (fun r s h => ⟨h.1, h.2.1, ?_⟩)
    rw [h.2.2]; exact List.mem_cons_self ..

/-! ### Mkdir -/

/-- What shows after `S'` and did not in `S`: directories among `p` only. What showed still does. -/
def OnlyNewDirs (p : Name → Prop) (S S' : Sys) : Prop :=
  ∀ m, SameButDirMode (S'.view m) (S.view m) ∨ (p m ∧ S.view m = none ∧ ∃ k, S'.view m = some (.dir k))

theorem Grown.only {S0 S : Sys} (hT : (S0.layer 0).IsTree) (h : Grown S0 S) (p : Name → Prop) : OnlyNewDirs p S0 S := fun m => Or.inl (h.view hT m).1

theorem view_none_below {S : Sys} {n m : Name} (h : S.view n = none) (hm : n <:+ m) : S.view m = none := by
  obtain ⟨r, rfl⟩ := hm
  induction r with
  | nil => exact h
  | cons c' r ih => exact S.view_none_of_parent (fun hv => by obtain ⟨m, hm⟩ := hv; exact absurd (ih.symm.trans hm) (by simp))

theorem NewMid.rest {c : Str} {d : Name} {v : Node} {S0 S1 S : Sys} (hT : (S0.layer 0).IsTree) (hG : Grown S0 S1) (h : NewMid (c :: d) v S1 S)
    (hv : S0.view (c :: d) = none) {m : Name} (hm : m ≠ c :: d) : SameButDirMode (S.view m) (S0.view m) := by
  by_cases hs : c :: d <:+ m
  · rw [h.view_below hG.tree hs hm, view_none_below hv hs]
    exact SameButDirMode.refl _
  · rw [h.view_out hG.tree hs]
    exact (hG.view hT m).1

theorem NewMid.only {c : Str} {d : Name} {k : Nat} {S0 S1 S : Sys} (hT : (S0.layer 0).IsTree) (hG : Grown S0 S1) (h : NewMid (c :: d) (.dir k) S1 S)
    (hd : S0.ViewDir d) (hv : S0.view (c :: d) = none) : OnlyNewDirs (fun m => m = c :: d) S0 S := by
  intro m
  by_cases e : m = c :: d
  · right
    rw [e]
    exact ⟨rfl, hv, k, h.view_at hG.tree ((hG.viewDir hT d).2 hd)⟩
  · exact Or.inl (h.rest hT hG hv e)

/-- What the making of one directory does, from the state where it is known to be missing. -/
theorem holds_mkdirNew {S0 : Sys} (hS : S0.Trees) {c : Str} {d : Name} (hd : S0.ViewDir d) (hv : S0.view (c :: d) = none)
    (ho : d ∈ (S0.mask 0).op → S0.top d ≠ none) (perm : Nat) :
    Holds (OnlyNewDirs (fun m => m = c :: d) S0) (fun s => s = S0) (do ensureParent (c :: d); mkdirOne (c :: d) perm)
      (fun r s => OnlyNewDirs (fun m => m = c :: d) S0 s ∧ (r = .ok () → ∃ S1, Grown S0 S1 ∧ NewMid (c :: d) (.dir (S1.umask perm)) S1 s ∧ c :: d ∈ (s.mask 0).op)) := by
  have hT := hS 0 (Nat.zero_le _)
  refine Holds.bind (fun r s => Grown S0 s ∧ (r = .ok () → ∃ k, s.top d = some (.dir k))) ?_ (fun _ => ?_) (fun e s h => ⟨h.1.only hT _, fun e => by cases e⟩)
  · exact (holds_ensureParent hT hd ho).weaken (fun s h => h) (fun s h => h.only hT _) (fun r s h => ⟨h.1, h.2.2⟩)
  · refine Holds.fix fun S1 h1 => ?_
    obtain ⟨k, hk⟩ := h1.2 rfl
    have hG := h1.1
    have hv1 : S1.view (c :: d) = none := by
      rcases (hG.view hT (c :: d)).1 with e | ⟨_, _, _, e⟩
      · rw [e]; exact hv
      · rw [hv] at e; cases e
    refine (holds_mkdirOne (hG.trees hS) ((hG.viewDir hT d).2 hd) hv1 hk perm).weaken (fun s h => h) (fun s h => h.only hT hG hd hv)
      (fun r s h => ⟨h.2.1.only hT hG hd hv, fun _ => ⟨S1, hG, h.2.1, h.2.2⟩⟩)

/-- **C56**, `Mkdir` of a name that does not show, in a directory that does: after a success the name shows a directory, nothing shows beneath it,
whatever the layers hold there, and every other name shows what it showed (permission bits of directories excepted). At every crash point, and
after a failure, nothing new shows except possibly that directory. The top has no leftover opaque mark for a parent it does not hold. -/
theorem C56_mkdir_partial {S : Sys} (hS : S.Trees) {c : Str} {d : Name} (hd : S.ViewDir d) (hv : S.view (c :: d) = none)
    (ho : d ∈ (S.mask 0).op → S.top d ≠ none) (perm : Nat) :
    (result (mkdirOp (c :: d) perm) S = .ok () →
      (∃ k, (final (mkdirOp (c :: d) perm) S).view (c :: d) = some (.dir k)) ∧
      (∀ m, c :: d <:+ m → m ≠ c :: d → (final (mkdirOp (c :: d) perm) S).view m = none) ∧
      ∀ m, m ≠ c :: d → SameButDirMode ((final (mkdirOp (c :: d) perm) S).view m) (S.view m)) ∧
    (∀ S' ∈ crashes (mkdirOp (c :: d) perm) S ++ [final (mkdirOp (c :: d) perm) S], OnlyNewDirs (fun m => m = c :: d) S S') := by
  have hT := hS 0 (Nat.zero_le _)
  have h : Holds (OnlyNewDirs (fun m => m = c :: d) S) (fun s => s = S) (mkdirOp (c :: d) perm)
      (fun r s => OnlyNewDirs (fun m => m = c :: d) S s ∧ (r = .ok () → ∃ S1, Grown S S1 ∧ NewMid (c :: d) (.dir (S1.umask perm)) S1 s ∧ c :: d ∈ (s.mask 0).op)) := by
    refine holds_get_fix ?_
    cases hl : S.lookup (c :: d) with
    | ok x => rw [S.view_cons hd, hl] at hv; cases hv
    | error e =>
      by_cases he : e = .notExist
      · subst he
        exact holds_mkdirNew hS hd hv ho perm
      · cases e <;> first | exact absurd rfl he | exact Holds.fail fun s h => by rw [h]; exact ⟨fun m => Or.inl (SameButDirMode.refl _), fun e => by cases e⟩
  have h := h S rfl
  refine ⟨fun hr => ?_, ?_⟩
  · obtain ⟨S1, hG, hN, _⟩ := h.2.2 hr
    exact ⟨⟨_, hN.view_at hG.tree ((hG.viewDir hT d).2 hd)⟩, fun m hm hne => hN.view_below hG.tree hm hne, fun m hne => hN.rest hT hG hv hne⟩
  · intro S' hS'
    rcases List.mem_append.1 hS' with h' | h'
    · exact h.1 S' h'
    · rw [List.mem_singleton.1 h']; exact h.2.1

/-- A name that shows is not made again. -/
theorem C56_exists {S : Sys} {c : Str} {d : Name} (hv : S.view (c :: d) ≠ none) (perm : Nat) :
    result (mkdirOp (c :: d) perm) S = .error .exist ∧ final (mkdirOp (c :: d) perm) S = S ∧ crashes (mkdirOp (c :: d) perm) S = [] := by
  cases hn : S.view (c :: d) with
  | none => exact absurd hn hv
  | some nd =>
    obtain ⟨i, hi⟩ := S.lookup_of_view hn
    have : mkdirOp (c :: d) perm S = ([], S, .error .exist) := by
      simp only [mkdirOp, Bind.bind, Prog.bind, Prog.get, hi, Prog.fail, List.append_nil]
    unfold result final crashes
    rw [this]
    exact ⟨rfl, rfl, rfl⟩

/-- **C56** (listing): the new directory lists nothing, even if lower layers hold symlinks above it. -/
theorem C56_listing_partial {S : Sys} (hS : S.Trees) {c : Str} {d : Name} (hd : S.ViewDir d) (hv : S.view (c :: d) = none)
    (ho : d ∈ (S.mask 0).op → S.top d ≠ none) (perm : Nat) (hr : result (mkdirOp (c :: d) perm) S = .ok ())
    (hL : ((final (mkdirOp (c :: d) perm) S).layer 0).Lists) : (final (mkdirOp (c :: d) perm) S).readDir (c :: d) = .ok [] := by
  have hT := hS 0 (Nat.zero_le _)
  have h : Holds (fun _ => True) (fun s => s = S) (mkdirOp (c :: d) perm)
      (fun r s => r = .ok () → ∃ S1 k, Grown S S1 ∧ NewMid (c :: d) (.dir k) S1 s ∧ c :: d ∈ (s.mask 0).op) := by
    refine holds_get_fix ?_
    cases hl : S.lookup (c :: d) with
    | ok x => rw [S.view_cons hd, hl] at hv; cases hv
    | error e =>
      by_cases he : e = .notExist
      · subst he
        exact (holds_mkdirNew hS hd hv ho perm).weaken (fun s h => h) (fun _ _ => trivial) (fun r s h hr => by
          obtain ⟨S1, h1, h2, h3⟩ := h.2 hr
          exact ⟨S1, _, h1, h2, h3⟩)
      · cases e <;> first | exact absurd rfl he | exact Holds.fail fun s h e => by cases e
  obtain ⟨S1, k, hG, hN, hop⟩ := (h S rfl).2 hr
  generalize hF : final (mkdirOp (c :: d) perm) S = F at hL
  have hF' : F = (mkdirOp (c :: d) perm S).2.1 := hF.symm
  rw [← hF'] at hN hop
  have hdF : F.ViewDir d := by
    obtain ⟨m, hm⟩ := (hG.viewDir hT d).2 hd
    exact ⟨m, by rw [hN.view_out hG.tree (fun h' => absurd h'.length_le (by simp))]; exact hm⟩
  have hlk := F.lookup_top hN.tree hdF hN.val
  have hcut : F.childCut (c :: d) = 0 := by
    apply Nat.le_antisymm _ (Nat.zero_le _)
    apply Decidable.byContradiction
    intro hlt
    exact ((F.le_childCut (c :: d) 1).1 (by omega)).2 0 (by omega) ⟨c :: d, List.suffix_refl _, Or.inr hop⟩
  have hls : (F.layer 0).lstat (c :: d) = .ok (.dir k) := by rw [F.top_lstat hN.tree hdF, hN.val]
  obtain ⟨p, hp⟩ : ∃ p, F.top d = some (.dir p) := hN.tree.closed c d (by
    have : (F.layer 0).tree (c :: d) = some (.dir k) := hN.val
    rw [this]; simp)
  have hent : (F.layer 0).entry (c :: d) = .ok (c :: d) := by
    rcases F.top_entry hN.tree (c := c) hdF with ⟨_, he⟩ | ⟨hnone, _⟩
    · exact he
    · rw [hp] at hnone; cases hnone
  have hen : (F.layer 0).enum (F.layer 0).tree (c :: d) = [] := by
    rw [List.eq_nil_iff_forall_not_mem]
    intro c' hc'
    refine ((hL (c :: d) k hN.val).2 c').1 hc' ?_
    have hne : c' :: c :: d ≠ c :: d := by
      intro e'; have := congrArg List.length e'; simp at this
    exact (hN.top _ hne).trans (top_none_below hG.tree hN.absent (List.suffix_cons c' _))
  unfold Sys.readDir
  rw [hlk]
  simp only [hcut]
  show Except.map sortEntries (F.readLoop (c :: d) 1 0 []) = _
  simp only [Sys.readLoop, hls, hent, hen, Sys.collect]
  rfl

/-! ### MkdirAll -/

theorem OnlyNewDirs.trans {p q r : Name → Prop} {S0 S1 S2 : Sys} (h : OnlyNewDirs p S0 S1) (h' : OnlyNewDirs q S1 S2) (hp : ∀ m, p m → r m)
    (hq : ∀ m, q m → r m) : OnlyNewDirs r S0 S2 := by
  intro m
  rcases h m with h1 | ⟨h1, h2, k, h3⟩ <;> rcases h' m with g1 | ⟨g1, g2, l, g3⟩
  · exact Or.inl (g1.trans h1)
  · refine Or.inr ⟨hq m g1, ?_, l, g3⟩
    rcases h1 with e | ⟨_, _, e, _⟩
    · rw [← e]; exact g2
    · rw [g2] at e; cases e
  · right
    obtain ⟨k', hk'⟩ := g1.dir.2 ⟨k, h3⟩
    exact ⟨hp m h1, h2, k', hk'⟩
  · rw [g2] at h3; cases h3

/-- The top holds every directory above `n` that it marks opaque. -/
def OpaqueHeld (n : Name) (S : Sys) : Prop := ∀ a, a <:+ n → a ∈ (S.mask 0).op → S.top a ≠ none

theorem Grown.held {n : Name} {S0 S : Sys} (h : Grown S0 S) (ho : OpaqueHeld n S0) : OpaqueHeld n S := by
  intro a ha hop
  rw [h.mask] at hop
  rcases h.top a with e | ⟨e, _⟩
  · rw [e]; exact ho a ha hop
  · exact absurd e (ho a ha hop)

theorem NewMid.held {n m : Name} {v : Node} {S0 S : Sys} (h : NewMid m v S0 S) (ho : OpaqueHeld n S0) : OpaqueHeld n S := by
  intro a ha hop
  by_cases e : a = m
  · rw [e, h.val]; simp
  · rw [h.top a e]
    exact ho a ha ((h.op a e).1 hop)

theorem NewMid.trees {m : Name} {v : Node} {S0 S : Sys} (h : NewMid m v S0 S) (hS : S0.Trees) : S.Trees := by
  intro j hj
  by_cases e : j = 0
  · rw [e]; exact h.tree
  · rw [(h.lower.2 j (by omega)).1]; exact hS j (by rw [← h.lower.1]; exact hj)

theorem holds_mkdirAll {S : Sys} (hS : S.Trees) {n : Name} (ho : OpaqueHeld n S) (perm : Nat) : ∀ {m : Name}, m <:+ n →
    Holds (OnlyNewDirs (fun a => a <:+ m) S) (fun s => s = S) (mkdirAllOp perm m)
      (fun r s => OnlyNewDirs (fun a => a <:+ m) S s ∧ (r = .ok () → s.Trees ∧ OpaqueHeld n s ∧ s.ViewDir m)) := by
  intro m
  induction m with
  | nil =>
    intro _
    refine Holds.pure fun s hs => ?_
    rw [hs]
    exact ⟨fun m => Or.inl (SameButDirMode.refl _), fun _ => ⟨hS, ho, S.viewDir_root (hS 0 (Nat.zero_le _))⟩⟩
  | cons c d ih =>
    intro hm
    have hdn : d <:+ n := (List.suffix_cons c d).trans hm
    have widen : ∀ {s}, OnlyNewDirs (fun a => a <:+ d) S s → OnlyNewDirs (fun a => a <:+ c :: d) S s := fun h a =>
      (h a).imp id fun h => ⟨h.1.trans (List.suffix_cons c d), h.2⟩
    refine Holds.bind _ ((ih hdn).weaken (fun s h => h) (fun s h => widen h) (fun r s h => h)) (fun _ => ?_) (fun e s h => ⟨widen h.1, fun e => by cases e⟩)
    refine Holds.fix fun S1 h1 => ?_
    obtain ⟨hO, h1⟩ := h1
    obtain ⟨hS1, ho1, hd1⟩ := h1 rfl
    have hT1 := hS1 0 (Nat.zero_le _)
    refine holds_get_fix ?_
    have stay : ∀ e, Holds (OnlyNewDirs (fun a => a <:+ c :: d) S) (fun s => s = S1) (Prog.fail e : Op Unit)
        (fun r s => OnlyNewDirs (fun a => a <:+ c :: d) S s ∧ (r = .ok () → s.Trees ∧ OpaqueHeld n s ∧ s.ViewDir (c :: d))) :=
      fun e => Holds.fail fun s hs => by rw [hs]; exact ⟨widen hO, fun e => by cases e⟩
    cases hl : S1.lookup (c :: d) with
    | ok x =>
      obtain ⟨i, nd⟩ := x
      cases nd with
      | dir k =>
        refine Holds.pure fun s hs => ?_
        rw [hs]
        exact ⟨widen hO, fun _ => ⟨hS1, ho1, k, by rw [S1.view_cons hd1, hl]⟩⟩
      | _ => exact stay _
    | error e =>
      have hv : S1.view (c :: d) = none := by rw [S1.view_cons hd1, hl]
      by_cases he : e = .notExist
      · subst he
        have comp : ∀ s, OnlyNewDirs (fun m => m = c :: d) S1 s → OnlyNewDirs (fun a => a <:+ c :: d) S s := fun s h =>
          hO.trans h (fun m hm => hm.trans (List.suffix_cons c d)) (fun m hm => by rw [hm]; exact List.suffix_refl _)
        refine (holds_mkdirNew hS1 hd1 hv (ho1 d hdn) perm).weaken (fun s h => h) comp (fun r s h => ⟨comp s h.1, fun hr => ?_⟩)
        obtain ⟨S2, hG, hN, _⟩ := h.2 hr
        exact ⟨hN.trees (hG.trees hS1), hN.held (hG.held ho1), _, hN.view_at hG.tree ((hG.viewDir hT1 d).2 hd1)⟩
      · cases e <;> first | exact absurd rfl he | exact stay _

/-- **C56**, `MkdirAll`: after a success the name shows a directory. At every point, whatever the outcome, everything that showed before still does
(permission bits of directories excepted) and what is new is directories on the path of the name, nothing else: each new directory holds at
most the next one of them. -/
theorem C56_mkdirAll_partial {S : Sys} (hS : S.Trees) {n : Name} (ho : OpaqueHeld n S) (perm : Nat) :
    (result (mkdirAllOp perm n) S = .ok () → (final (mkdirAllOp perm n) S).ViewDir n) ∧
    (∀ S' ∈ crashes (mkdirAllOp perm n) S ++ [final (mkdirAllOp perm n) S], OnlyNewDirs (fun a => a <:+ n) S S') := by
  have h := holds_mkdirAll hS ho perm (List.suffix_refl n) S rfl
  refine ⟨fun hr => (h.2.2 hr).2.2, ?_⟩
  intro S' hS'
  rcases List.mem_append.1 hS' with h' | h'
  · exact h.1 S' h'
  · rw [List.mem_singleton.1 h']; exact h.2.1

open Example in
/-- With a leftover opaque mark on the parent (an interrupted rename leaves one, `C57_counterexample_stale_opaque`) making a directory brings back content
that was hidden beside it. -/
theorem C56_counterexample_stale_opaque : stale.view [x, a] = none ∧ result (mkdirOp [b, a] 0o755) stale = .ok () ∧
    (final (mkdirOp [b, a] 0o755) stale).view [x, a] = some (.file 0o644 ['1']) := ⟨rfl, rfl, rfl⟩

namespace Example
/-- `s4` after `RemoveAll("a")`. -/
def s5 : Sys := final (removeAllOp [a] []) s4
end Example

open Example in
/-- The directory `a` was removed while a lower layer still holds `a/x`; it is made again, alone and with a directory `a/b` in it. -/
example : s5.ViewDir [] ∧ s5.view [a] = none ∧ ([] ∈ (s5.mask 0).op → s5.top [] ≠ none) ∧ OpaqueHeld [b, a] s5 ∧ result (mkdirOp [a] 0o700) s5 = .ok () ∧
    (final (mkdirOp [a] 0o700) s5).view [a] = some (.dir 0o700) ∧ (final (mkdirOp [a] 0o700) s5).view [x, a] = none ∧ s5.low [x, a] ≠ none ∧
    result (mkdirAllOp 0o700 [b, a]) s5 = .ok () ∧ (crashes (mkdirAllOp 0o700 [b, a]) s5).length = 5 := by
  refine ⟨⟨_, rfl⟩, rfl, by decide, ?_, rfl, rfl, rfl, by decide, rfl, rfl⟩
  intro a ha h
  have e : (s5.mask 0).op = [] := rfl
  rw [e] at h; cases h

open Example in
example : s5.Trees := by
  have h := (holds_unlink s4_trees.1 (n := [a]) (by simp) ((holds_fsRemoveAll s4_trees.1 ⟨_, rfl⟩ []).weaken (fun s h => h) (fun s h => h) (fun r s h => h.2)) s4 rfl).2.1
  intro j hj
  by_cases e : j = 0
  · rw [e]; exact h.tree
  · have := (h.lower.2 j (by omega)).1
    exact this ▸ s4_trees.1 j hj

end Verif.Overlay.Stack
