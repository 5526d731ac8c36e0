import Verif.Overlay.RenameProps
/-
What chmod, open for writing, symlink and link do to the name they are made on and to all others (C68).
-/
namespace Verif.Overlay.Stack
open Verif.Path Verif.Prog

/-- At most the name `n` changes, to `v`; other names keep what they show, permission bits of directories excepted. -/
def OnlyAt (n : Name) (v : Option Node) (S S' : Sys) : Prop :=
  ∀ m, SameButDirMode (S'.view m) (S.view m) ∨ (m = n ∧ S'.view m = v)

theorem Grown.onlyAt {S0 S : Sys} (hT : (S0.layer 0).IsTree) (h : Grown S0 S) (n : Name) (v : Option Node) : OnlyAt n v S0 S := fun m => Or.inl (h.view hT m).1

/-- An entry of the top replaced by another of the same kind. -/
structure Replaced (n : Name) (v : Node) (S0 S : Sys) : Prop where
  lower : LowerSame S0 S
  mask : S.mask 0 = S0.mask 0
  top : S.top = setTree S0.top n (some v)
  was : ∃ v0, S0.top n = some v0 ∧ v0.isDir = v.isDir

theorem replaced_onTree {n : Name} {v v0 : Node} {S : Sys} (h : S.top n = some v0) (hk : v0.isDir = v.isDir) :
    Replaced n v S (onTree 0 (fun t => setTree t n (some v)) S) :=
  ⟨lowerSame_onTree _ S, rfl, rfl, v0, h, hk⟩

theorem Node.dir_of_isDir {v : Node} (h : v.isDir = true) : ∃ k, v = .dir k := by
  cases v with
  | dir k => exact ⟨k, rfl⟩
  | _ => cases h

theorem Replaced.tree {n : Name} {v : Node} {S0 S : Sys} (hT : (S0.layer 0).IsTree) (h : Replaced n v S0 S) : (S.layer 0).IsTree := by
  obtain ⟨v0, h0, hk⟩ := h.was
  have dirs : ∀ d, (∃ k, S0.top d = some (.dir k)) → ∃ k, S.top d = some (.dir k) := by
    rintro d ⟨k, hd⟩
    rw [h.top]
    by_cases e : d = n
    · rw [e, setTree_self]
      rw [e, h0] at hd; cases hd
      obtain ⟨k', rfl⟩ := Node.dir_of_isDir hk.symm
      exact ⟨k', rfl⟩
    · rw [setTree_ne e]; exact ⟨k, hd⟩
  refine ⟨dirs [] hT.root, fun c d hc => dirs d (hT.closed c d ?_)⟩
  have hc : S.top (c :: d) ≠ none := hc
  show S0.top (c :: d) ≠ none
  rw [h.top] at hc
  by_cases e : c :: d = n
  · rw [e, h0]; simp
  · rw [setTree_ne e] at hc; exact hc

theorem Replaced.views {n : Name} {v : Node} {S0 S : Sys} (hT : (S0.layer 0).IsTree) (h : Replaced n v S0 S) (m : Name) :
    (m ≠ n → S.view m = S0.view m) ∧ (S.ViewDir m ↔ S0.ViewDir m) := by
  have hT' := h.tree hT
  obtain ⟨v0, h0, hk⟩ := h.was
  have htop : S.top n = some v := by rw [h.top, setTree_self]
  induction m with
  | nil =>
    refine ⟨fun hne => ?_, fun _ => S0.viewDir_root hT, fun _ => S.viewDir_root hT'⟩
    rw [S.view_root hT', S0.view_root hT, h.top, setTree_ne hne]
  | cons c d ih =>
    have hmask : S.Masks 0 (c :: d) ↔ S0.Masks 0 (c :: d) := by unfold Sys.Masks; rw [h.mask]
    have hother : c :: d ≠ n → S.view (c :: d) = S0.view (c :: d) := by
      intro hne
      by_cases hd : S0.ViewDir d
      · have hd' := ih.2.2 hd
        have ht : S.top (c :: d) = S0.top (c :: d) := by rw [h.top, setTree_ne hne]
        cases hv : S0.top (c :: d) with
        | some x => rw [S0.view_top hT hd hv, S.view_top hT' hd' (ht.trans hv)]
        | none =>
          by_cases hm : S0.Masks 0 (c :: d)
          · rw [S0.view_masked hT hd hv hm, S.view_masked hT' hd' (ht.trans hv) (hmask.2 hm)]
          · rw [S0.view_low hT hd hv hm, S.view_low hT' hd' (ht.trans hv) (fun h' => hm (hmask.1 h')), h.lower.low]
      · rw [S0.view_none_of_parent hd, S.view_none_of_parent (fun h' => hd (ih.2.1 h'))]
    refine ⟨hother, ?_⟩
    by_cases e : c :: d = n
    · by_cases hd : S0.ViewDir d
      · have hd' := ih.2.2 hd
        have e0 : S0.view (c :: d) = some v0 := S0.view_top hT hd (by rw [e]; exact h0)
        have e1 : S.view (c :: d) = some v := S.view_top hT' hd' (by rw [e]; exact htop)
        unfold Sys.ViewDir
        rw [e0, e1]
        constructor
        · rintro ⟨k, hk1⟩; cases hk1; obtain ⟨k', rfl⟩ := Node.dir_of_isDir hk; exact ⟨k', rfl⟩
        · rintro ⟨k, hk1⟩; cases hk1; obtain ⟨k', rfl⟩ := Node.dir_of_isDir hk.symm; exact ⟨k', rfl⟩
      · have hd' : ¬ S.ViewDir d := fun h' => hd (ih.2.1 h')
        unfold Sys.ViewDir
        rw [S0.view_none_of_parent hd, S.view_none_of_parent hd']
    · unfold Sys.ViewDir; rw [hother e]

theorem Replaced.view_at {c : Str} {d : Name} {v : Node} {S0 S : Sys} (hT : (S0.layer 0).IsTree) (h : Replaced (c :: d) v S0 S) (hd : S0.ViewDir d) :
    S.view (c :: d) = some v :=
  S.view_top (h.tree hT) ((h.views hT d).2.2 hd) (by rw [h.top, setTree_self])

theorem Replaced.onlyAt {c : Str} {d : Name} {v : Node} {S0 S1 S : Sys} (hT : (S0.layer 0).IsTree) (hG : Grown S0 S1) (h : Replaced (c :: d) v S1 S) (hd : S0.ViewDir d) :
    OnlyAt (c :: d) (some v) S0 S := by
  intro m
  by_cases e : m = c :: d
  · right; rw [e]; exact ⟨rfl, h.view_at hG.tree ((hG.viewDir hT d).2 hd)⟩
  · left; rw [(h.views hG.tree m).1 e]; exact (hG.view hT m).1

/-- The layer's own name of an entry that the top holds in a directory that shows. -/
theorem top_entry_held {S : Sys} (hT : (S.layer 0).IsTree) {c : Str} {d : Name} (hd : S.ViewDir d) {k : Nat} (hp : S.top d = some (.dir k)) :
    (S.layer 0).entry (c :: d) = .ok (c :: d) := by
  rcases S.top_entry hT (c := c) hd with ⟨_, he⟩ | ⟨hnone, _⟩
  · exact he
  · rw [hp] at hnone; cases hnone

theorem Node.withMode_isDir (nd : Node) (m : Nat) : (nd.withMode m).isDir = nd.isDir := by cases nd <;> rfl

def Node.isLink : Node → Bool
  | .link _ => true
  | _ => false

theorem target_held {S : Sys} (hT : (S.layer 0).IsTree) {c : Str} {d : Name} (hd : S.ViewDir d) {k : Nat} (hp : S.top d = some (.dir k))
    (hl : ∀ nd, S.top (c :: d) = some nd → nd.isLink = false) : (S.layer 0).target (c :: d) = .ok (c :: d) := by
  unfold Layer.target
  rw [top_entry_held hT hd hp]
  simp only
  cases hv : (S.layer 0).tree (c :: d) with
  | none => rfl
  | some nd =>
    cases nd with
    | link t => have := hl _ hv; cases this
    | _ => rfl

/-! ### Chmod -/

theorem holds_chmodOp {S0 : Sys} (hS : S0.Trees) {c : Str} {d : Name} (hd : S0.ViewDir d) {nd : Node} (hv : S0.view (c :: d) = some nd) (hl : nd.isLink = false)
    (ho : c :: d ∈ (S0.mask 0).op → S0.top (c :: d) ≠ none) (mode : Nat) :
    Holds (OnlyAt (c :: d) (some (nd.withMode mode)) S0) (fun s => s = S0) (chmodOp (c :: d) mode)
      (fun r s => OnlyAt (c :: d) (some (nd.withMode mode)) S0 s ∧ (r = .ok () → s.view (c :: d) = some (nd.withMode mode)) ∧ (r ≠ .ok () → Grown S0 s)) := by
  have hT := hS 0 (Nat.zero_le _)
  refine Holds.bind (fun r s => Grown S0 s ∧ (r = .ok () → s.top (c :: d) = S0.view (c :: d))) ?_ (fun _ => ?_)
    (fun e s h => ⟨h.1.onlyAt hT _ _, fun e => (by cases e), fun _ => h.1⟩)
  · exact (holds_copyUp hT hd ho).weaken (fun s h => h) (fun s h => h.onlyAt hT _ _) (fun r s h => ⟨h.1, fun hr => (h.2 hr).2.1⟩)
  · refine Holds.fix fun S1 h1 => ?_
    obtain ⟨hG, h1⟩ := h1
    have ht := (h1 rfl).trans hv
    obtain ⟨k, hk⟩ := hG.tree.closed c d (by show S1.top _ ≠ none; rw [ht]; simp)
    have hd1 := (hG.viewDir hT d).2 hd
    refine holds_get_fix ?_
    rw [target_held hG.tree hd1 hk (fun nd' h' => by rw [ht] at h'; cases h'; exact hl)]
    simp only
    rw [show (S1.layer 0).tree (c :: d) = some nd from ht]
    simp only
    have hR : Replaced (c :: d) (nd.withMode mode) S1 (onTree 0 (fun t => setTree t (c :: d) (some (nd.withMode mode))) S1) :=
      replaced_onTree ht (nd.withMode_isDir mode).symm
    refine Holds.modify (fun s h => by rw [h]; exact hR.onlyAt hT hG hd) (fun s h => ⟨by rw [h]; exact hR.onlyAt hT hG hd, fun _ => ?_, fun hne => absurd rfl hne⟩)
    rw [h]; exact hR.view_at hG.tree hd1

/-- **C68** (`Chmod`): after a success the name shows the new permission bits and nothing else of it changed; after a failure or a crash it shows the
old or the new bits. Every other name shows what it showed, at every crash point. The name is resolved: it is not a symlink. -/
theorem C68_chmod_partial {S : Sys} (hS : S.Trees) {c : Str} {d : Name} (hd : S.ViewDir d) {nd : Node} (hv : S.view (c :: d) = some nd) (hl : nd.isLink = false)
    (ho : c :: d ∈ (S.mask 0).op → S.top (c :: d) ≠ none) (mode : Nat) :
    (result (chmodOp (c :: d) mode) S = .ok () → (final (chmodOp (c :: d) mode) S).view (c :: d) = some (nd.withMode mode)) ∧
    (result (chmodOp (c :: d) mode) S ≠ .ok () → ∀ m, SameButDirMode ((final (chmodOp (c :: d) mode) S).view m) (S.view m)) ∧
    ∀ S' ∈ crashes (chmodOp (c :: d) mode) S ++ [final (chmodOp (c :: d) mode) S], OnlyAt (c :: d) (some (nd.withMode mode)) S S' := by
  have hT := hS 0 (Nat.zero_le _)
  have h := holds_chmodOp hS hd hv hl ho mode S rfl
  refine ⟨h.2.2.1, fun hr m => ((h.2.2.2 hr).view hT m).1, fun S' hS' => ?_⟩
  rcases List.mem_append.1 hS' with h' | h'
  · exact h.1 S' h'
  · rw [List.mem_singleton.1 h']; exact h.2.1

/-! ### opening for writing -/

/-- What a file shows right after it is opened for writing. -/
def openedNode (nd : Node) (trunc : Bool) : Node :=
  match nd with
  | .file m data => .file m (if trunc then [] else data)
  | n => n

theorem holds_openExisting {S0 : Sys} (hS : S0.Trees) {c : Str} {d : Name} (hd : S0.ViewDir d) {nd : Node} (hv : S0.view (c :: d) = some nd) (hl : nd.isLink = false)
    (ho : c :: d ∈ (S0.mask 0).op → S0.top (c :: d) ≠ none) (create excl trunc : Bool) (perm : Nat) :
    Holds (OnlyAt (c :: d) (some (openedNode nd trunc)) S0) (fun s => s = S0) (openWriteOp (c :: d) create excl trunc perm)
      (fun r s => OnlyAt (c :: d) (some (openedNode nd trunc)) S0 s ∧
        (∀ q, r = .ok q → q = c :: d ∧ (create && excl) = false ∧ (∃ m data, nd = .file m data) ∧ s.top (c :: d) = s.view (c :: d) ∧ s.view (c :: d) = some (openedNode nd trunc)) ∧
        ((∀ q, r ≠ .ok q) → Grown S0 s)) := by
  have hT := hS 0 (Nat.zero_le _)
  have stop : ∀ e : Errno, Holds (OnlyAt (c :: d) (some (openedNode nd trunc)) S0) (fun s => s = S0) (Prog.fail e : Op Name)
      (fun r s => OnlyAt (c :: d) (some (openedNode nd trunc)) S0 s ∧
        (∀ q, r = .ok q → q = c :: d ∧ (create && excl) = false ∧ (∃ m data, nd = .file m data) ∧ s.top (c :: d) = s.view (c :: d) ∧ s.view (c :: d) = some (openedNode nd trunc)) ∧
        ((∀ q, r ≠ .ok q) → Grown S0 s)) :=
    fun e => Holds.fail fun s h => ⟨by rw [h]; exact (Grown.refl hT).onlyAt hT _ _, fun q e => (by cases e), fun _ => by rw [h]; exact Grown.refl hT⟩
  obtain ⟨i, hi⟩ := S0.lookup_of_view hv
  have go : Holds (OnlyAt (c :: d) (some (openedNode nd trunc)) S0) (fun s => s = S0)
      (if (create && excl) = true then Prog.fail .exist else do copyUp (c :: d); fsOpen 0 (c :: d) create excl trunc perm : Op Name)
      (fun r s => OnlyAt (c :: d) (some (openedNode nd trunc)) S0 s ∧
        (∀ q, r = .ok q → q = c :: d ∧ (create && excl) = false ∧ (∃ m data, nd = .file m data) ∧ s.top (c :: d) = s.view (c :: d) ∧ s.view (c :: d) = some (openedNode nd trunc)) ∧
        ((∀ q, r ≠ .ok q) → Grown S0 s)) := by
    refine Holds.ite (fun _ => stop _) (fun hce => ?_)
    have hce : (create && excl) = false := by simpa using hce
    refine Holds.bind (fun r s => Grown S0 s ∧ (r = .ok () → s.top (c :: d) = S0.view (c :: d))) ?_ (fun _ => ?_)
      (fun e s h => ⟨h.1.onlyAt hT _ _, fun q e => (by cases e), fun _ => h.1⟩)
    · exact (holds_copyUp hT hd ho).weaken (fun s h => h) (fun s h => h.onlyAt hT _ _) (fun r s h => ⟨h.1, fun hr => (h.2 hr).2.1⟩)
    refine Holds.fix fun S1 h1 => ?_
    obtain ⟨hG, h1⟩ := h1
    have ht := (h1 rfl).trans hv
    obtain ⟨k, hk⟩ := hG.tree.closed c d (by show S1.top _ ≠ none; rw [ht]; simp)
    have hd1 := (hG.viewDir hT d).2 hd
    refine holds_get_fix ?_
    rw [hce, target_held hG.tree hd1 hk (fun nd' h' => by rw [ht] at h'; cases h'; exact hl)]
    simp only [Bool.false_eq_true, if_false]
    rw [show (S1.layer 0).tree (c :: d) = some nd from ht]
    have stop1 : ∀ e : Errno, Holds (OnlyAt (c :: d) (some (openedNode nd trunc)) S0) (fun s => s = S1) (Prog.fail e : Op Name)
        (fun r s => OnlyAt (c :: d) (some (openedNode nd trunc)) S0 s ∧
          (∀ q, r = .ok q → q = c :: d ∧ True ∧ (∃ m data, nd = .file m data) ∧ s.top (c :: d) = s.view (c :: d) ∧ s.view (c :: d) = some (openedNode nd trunc)) ∧
          ((∀ q, r ≠ .ok q) → Grown S0 s)) :=
      fun e => Holds.fail fun s h => ⟨by rw [h]; exact hG.onlyAt hT _ _, fun q e => (by cases e), fun _ => by rw [h]; exact hG⟩
    cases nd with
    | dir m => exact stop1 _
    | link t => cases hl
    | special => exact stop1 _
    | file m data =>
      simp only
      cases trunc with
      | false =>
        refine Holds.pure fun s h => ?_
        rw [h]
        have hvw := S1.view_top hG.tree hd1 ht
        refine ⟨hG.onlyAt hT _ _, fun q e => ?_, fun hne => absurd rfl (hne _)⟩
        cases e
        exact ⟨rfl, trivial, ⟨m, data, rfl⟩, ht.trans hvw.symm, hvw⟩
      | true =>
        have hR : Replaced (c :: d) (.file m []) S1 (onTree 0 (fun t => setTree t (c :: d) (some (.file m []))) S1) := replaced_onTree ht rfl
        refine Holds.bind (fun r s => r = .ok () ∧ s = onTree 0 (fun t => setTree t (c :: d) (some (.file m []))) S1) ?_ (fun _ => ?_) (fun e s h => by cases h.1)
        · exact Holds.modify (fun s h => by rw [h]; exact hR.onlyAt hT hG hd) (fun s h => ⟨rfl, by rw [h]⟩)
        · refine Holds.pure fun s h => ?_
          rw [h.2]
          have hvw := hR.view_at hG.tree hd1
          refine ⟨hR.onlyAt hT hG hd, fun q e => ?_, fun hne => absurd rfl (hne _)⟩
          cases e
          refine ⟨rfl, trivial, ⟨m, data, rfl⟩, ?_, hvw⟩
          rw [hvw, hR.top, setTree_self]
  refine holds_get_fix ?_
  rw [hi]
  cases nd with
  | dir m => exact stop _
  | link t => cases hl
  | file m data => exact go
  | special => exact go

/-- **C68** (open for writing, the name shows): a success means a regular file, not opened exclusively; the handle is on that very name, the name shows the file,
emptied if asked to be, from the top. Every other name shows what it showed, at every crash point; a failure changes nothing. -/
theorem C68_open_partial {S : Sys} (hS : S.Trees) {c : Str} {d : Name} (hd : S.ViewDir d) {nd : Node} (hv : S.view (c :: d) = some nd) (hl : nd.isLink = false)
    (ho : c :: d ∈ (S.mask 0).op → S.top (c :: d) ≠ none) (create excl trunc : Bool) (perm : Nat) :
    (∀ q, result (openWriteOp (c :: d) create excl trunc perm) S = .ok q → q = c :: d ∧ (create && excl) = false ∧ ∃ m data, nd = .file m data ∧
      (final (openWriteOp (c :: d) create excl trunc perm) S).view (c :: d) = some (.file m (if trunc then [] else data)) ∧
      (final (openWriteOp (c :: d) create excl trunc perm) S).top (c :: d) = some (.file m (if trunc then [] else data))) ∧
    ((∀ q, result (openWriteOp (c :: d) create excl trunc perm) S ≠ .ok q) →
      ∀ m, SameButDirMode ((final (openWriteOp (c :: d) create excl trunc perm) S).view m) (S.view m)) ∧
    ∀ S' ∈ crashes (openWriteOp (c :: d) create excl trunc perm) S ++ [final (openWriteOp (c :: d) create excl trunc perm) S],
      OnlyAt (c :: d) (some (openedNode nd trunc)) S S' := by
  have hT := hS 0 (Nat.zero_le _)
  have h := holds_openExisting hS hd hv hl ho create excl trunc perm S rfl
  refine ⟨fun q hq => ?_, fun hr m => ((h.2.2.2 hr).view hT m).1, fun S' hS' => ?_⟩
  · obtain ⟨h1, h2, ⟨m, data, rfl⟩, h4, h5⟩ := h.2.2.1 q hq
    exact ⟨h1, h2, m, data, rfl, h5, h4.trans h5⟩
  · rcases List.mem_append.1 hS' with h' | h'
    · exact h.1 S' h'
    · rw [List.mem_singleton.1 h']; exact h.2.1

/-! ### new entries that are not directories -/

theorem NewMid.onlyAt {c : Str} {d : Name} {v : Node} {S0 S1 S : Sys} (hT : (S0.layer 0).IsTree) (hG : Grown S0 S1) (h : NewMid (c :: d) v S1 S)
    (hd : S0.ViewDir d) (hv : S0.view (c :: d) = none) : OnlyAt (c :: d) (some v) S0 S := by
  intro m
  by_cases e : m = c :: d
  · right; rw [e]; exact ⟨rfl, h.view_at hG.tree ((hG.viewDir hT d).2 hd)⟩
  · exact Or.inl (h.rest hT hG hv e)

/-- The common part: the entry is put into the top, then the mark on its name comes off. -/
theorem holds_putNew {S0 S1 : Sys} (hS : S0.Trees) (hG : Grown S0 S1) {c : Str} {d : Name} (hd : S0.ViewDir d) (hv : S0.view (c :: d) = none) {k : Nat}
    (hp : S1.top d = some (.dir k)) {v : Node} (hk : v.isDir = false) :
    Holds (OnlyAt (c :: d) (some v) S0) (fun s => s = onTree 0 (fun t => setTree t (c :: d) (some v)) S1) (unmask (c :: d))
      (fun r s => r = .ok () ∧ OnlyAt (c :: d) (some v) S0 s ∧ s.view (c :: d) = some v ∧ s.top (c :: d) = some v) ∧
    OnlyAt (c :: d) (some v) S0 (onTree 0 (fun t => setTree t (c :: d) (some v)) S1) := by
  have hT := hS 0 (Nat.zero_le _)
  have hd1 := (hG.viewDir hT d).2 hd
  have hv1 : S1.view (c :: d) = none := by
    rcases (hG.view hT (c :: d)).1 with e | ⟨_, _, _, e⟩
    · rw [e]; exact hv
    · rw [hv] at e; cases e
  have hn : S1.top (c :: d) = none := by
    cases ht : S1.top (c :: d) with
    | none => rfl
    | some nd => rw [S1.view_top hG.tree hd1 ht] at hv1; cases hv1
  have hN : NewMid (c :: d) v S1 (onTree 0 (fun t => setTree t (c :: d) (some v)) S1) :=
    NewMid.created hG.tree (grow1_onTree _ _ S1) hn hp (shut_of_absent (hG.trees hS) hd1 hv1)
  refine ⟨?_, hN.onlyAt hT hG hd hv⟩
  exact (holds_unmask_new hN (Or.inl hk)).weaken (fun s h => h) (fun s h => h.onlyAt hT hG hd hv)
    (fun r s h => ⟨h.1, h.2.1.onlyAt hT hG hd hv, h.2.1.view_at hG.tree hd1, h.2.1.val⟩)

theorem new_absent {S0 S1 : Sys} (hT : (S0.layer 0).IsTree) (hG : Grown S0 S1) {c : Str} {d : Name} (hd : S0.ViewDir d) (hv : S0.view (c :: d) = none) : S1.top (c :: d) = none := by
  have hd1 := (hG.viewDir hT d).2 hd
  cases ht : S1.top (c :: d) with
  | none => rfl
  | some nd =>
    have := S1.view_top hG.tree hd1 ht
    rcases (hG.view hT (c :: d)).1 with e | ⟨_, _, _, e⟩
    · rw [e, hv] at this; cases this
    · rw [hv] at e; cases e

/-- The call fails before anything but copy-up happened. -/
theorem holds_createOp {S0 : Sys} (hS : S0.Trees) {c : Str} {d : Name} (hd : S0.ViewDir d) (hv : S0.view (c :: d) = none)
    (ho : d ∈ (S0.mask 0).op → S0.top d ≠ none) (excl trunc : Bool) (perm : Nat) :
    Holds (fun s => ∃ k, OnlyAt (c :: d) (some (.file k [])) S0 s) (fun s => s = S0) (openWriteOp (c :: d) true excl trunc perm)
      (fun r s => (∃ k, OnlyAt (c :: d) (some (.file k [])) S0 s) ∧
        (∀ q, r = .ok q → q = c :: d ∧ ∃ k, s.view (c :: d) = some (.file k []) ∧ s.top (c :: d) = some (.file k [])) ∧ ((∀ q, r ≠ .ok q) → Grown S0 s)) := by
  have hT := hS 0 (Nat.zero_le _)
  refine holds_get_fix ?_
  cases hl : S0.lookup (c :: d) with
  | ok x => rw [S0.view_cons hd, hl] at hv; cases hv
  | error e =>
    by_cases he : e = .notExist
    · subst he
      simp only [if_true]
      refine Holds.bind (fun r s => Grown S0 s ∧ (r = .ok () → ∃ k, s.top d = some (.dir k))) ?_ (fun _ => ?_)
        (fun e s h => ⟨⟨0, h.1.onlyAt hT _ _⟩, fun q e => (by cases e), fun _ => h.1⟩)
      · exact (holds_ensureParent hT hd ho).weaken (fun s h => h) (fun s h => ⟨0, h.onlyAt hT _ _⟩) (fun r s h => ⟨h.1, h.2.2⟩)
      refine Holds.fix fun S1 h1 => ?_
      obtain ⟨hG, h1⟩ := h1
      obtain ⟨k, hk⟩ := h1 rfl
      have hd1 := (hG.viewDir hT d).2 hd
      have hn := new_absent hT hG hd hv
      obtain ⟨hput, hput'⟩ := holds_putNew hS hG hd hv hk (v := .file (S1.umask perm) []) rfl
      refine Holds.bind (fun r s => r = .ok (c :: d) ∧ s = onTree 0 (fun t => setTree t (c :: d) (some (.file (S1.umask perm) []))) S1) ?_ (fun q => ?_) (fun e s h => by cases h.1)
      · refine holds_get_fix ?_
        have hx : (if (true && excl) = true then (S1.layer 0).entry (c :: d) else (S1.layer 0).target (c :: d)) = .ok (c :: d) := by
          rw [top_entry_held hG.tree hd1 hk, target_held hG.tree hd1 hk (fun nd h => by rw [hn] at h; cases h)]
          split <;> rfl
        rw [hx]
        simp only
        rw [show (S1.layer 0).tree (c :: d) = none from hn]
        simp only
        rw [if_pos ⟨trivial, by simp, by show Option.any _ ((S1.layer 0).tree d) = true; rw [show (S1.layer 0).tree d = some (.dir k) from hk]; rfl⟩]
        refine Holds.bind (fun r s => r = .ok () ∧ s = onTree 0 (fun t => setTree t (c :: d) (some (.file (S1.umask perm) []))) S1)
          (Holds.modify (fun s h => ⟨S1.umask perm, by rw [h]; exact hput'⟩) (fun s h => ⟨rfl, by rw [h]⟩)) (fun _ => ?_) (fun e s h => by cases h.1)
        exact Holds.pure fun s h => ⟨rfl, h.2⟩
      · refine Holds.fix fun s0 h0 => ?_
        obtain ⟨e1, e2⟩ := h0
        cases e1
        refine Holds.bind _ (hput.weaken (fun s h => h.trans e2) (fun s h => ⟨_, h⟩) (fun r s h => h)) (fun _ => ?_) (fun e s h => by cases h.1)
        refine Holds.pure fun s h => ⟨⟨_, h.2.1⟩, fun q e => ?_, fun hne => absurd rfl (hne _)⟩
        cases e
        exact ⟨rfl, _, h.2.2⟩
    · have stop : ∀ e : Errno, Holds (fun s => ∃ k, OnlyAt (c :: d) (some (.file k [])) S0 s) (fun s => s = S0) (Prog.fail e : Op Name)
          (fun r s => (∃ k, OnlyAt (c :: d) (some (.file k [])) S0 s) ∧
            (∀ q, r = .ok q → q = c :: d ∧ ∃ k, s.view (c :: d) = some (.file k []) ∧ s.top (c :: d) = some (.file k [])) ∧ ((∀ q, r ≠ .ok q) → Grown S0 s)) :=
        fun e => Holds.fail fun s h => ⟨⟨0, by rw [h]; exact (Grown.refl hT).onlyAt hT _ _⟩, fun q e => (by cases e), fun _ => by rw [h]; exact Grown.refl hT⟩
      cases e <;> first | exact absurd rfl he | exact stop _

/-- **C68** (open for writing, the name does not show): with `O_CREATE` a success puts an empty file at exactly that name, and nothing else changes, at any crash
point; a failure changes nothing. -/
theorem C68_create_partial {S : Sys} (hS : S.Trees) {c : Str} {d : Name} (hd : S.ViewDir d) (hv : S.view (c :: d) = none)
    (ho : d ∈ (S.mask 0).op → S.top d ≠ none) (excl trunc : Bool) (perm : Nat) :
    (∀ q, result (openWriteOp (c :: d) true excl trunc perm) S = .ok q → q = c :: d ∧ ∃ k,
      (final (openWriteOp (c :: d) true excl trunc perm) S).view (c :: d) = some (.file k []) ∧
      (final (openWriteOp (c :: d) true excl trunc perm) S).top (c :: d) = some (.file k [])) ∧
    ((∀ q, result (openWriteOp (c :: d) true excl trunc perm) S ≠ .ok q) →
      ∀ m, SameButDirMode ((final (openWriteOp (c :: d) true excl trunc perm) S).view m) (S.view m)) ∧
    ∀ S' ∈ crashes (openWriteOp (c :: d) true excl trunc perm) S ++ [final (openWriteOp (c :: d) true excl trunc perm) S],
      ∃ k, OnlyAt (c :: d) (some (.file k [])) S S' := by
  have hT := hS 0 (Nat.zero_le _)
  have h := holds_createOp hS hd hv ho excl trunc perm S rfl
  refine ⟨h.2.2.1, fun hr m => ((h.2.2.2 hr).view hT m).1, fun S' hS' => ?_⟩
  rcases List.mem_append.1 hS' with h' | h'
  · exact h.1 S' h'
  · rw [List.mem_singleton.1 h']; exact h.2.1

/-- Without `O_CREATE` a name that does not show cannot be opened, and nothing changes. -/
theorem C68_open_missing {S : Sys} {c : Str} {d : Name} (hd : S.ViewDir d) (hv : S.view (c :: d) = none) (excl trunc : Bool) (perm : Nat) :
    (∃ e, result (openWriteOp (c :: d) false excl trunc perm) S = .error e) ∧ final (openWriteOp (c :: d) false excl trunc perm) S = S ∧
    crashes (openWriteOp (c :: d) false excl trunc perm) S = [] := by
  have : ∃ e, openWriteOp (c :: d) false excl trunc perm S = ([], S, .error e) := by
    simp only [openWriteOp, Bind.bind, Prog.bind, Prog.get]
    cases hl : S.lookup (c :: d) with
    | ok x => rw [S.view_cons hd, hl] at hv; cases hv
    | error e => cases e <;> exact ⟨_, rfl⟩
  obtain ⟨e, h⟩ := this
  unfold result final crashes
  rw [h]
  exact ⟨⟨e, rfl⟩, rfl, rfl⟩

theorem holds_symlinkOp {S0 : Sys} (hS : S0.Trees) {c : Str} {d : Name} (hd : S0.ViewDir d) (hv : S0.view (c :: d) = none)
    (ho : d ∈ (S0.mask 0).op → S0.top d ≠ none) (target : Str) :
    Holds (OnlyAt (c :: d) (some (.link target)) S0) (fun s => s = S0) (symlinkOp target (c :: d))
      (fun r s => OnlyAt (c :: d) (some (.link target)) S0 s ∧ (r = .ok () → s.view (c :: d) = some (.link target)) ∧ (r ≠ .ok () → Grown S0 s)) := by
  have hT := hS 0 (Nat.zero_le _)
  refine holds_get_fix ?_
  cases hl : S0.lookup (c :: d) with
  | ok x => rw [S0.view_cons hd, hl] at hv; cases hv
  | error e =>
    by_cases he : e = .notExist
    · subst he
      refine Holds.bind (fun r s => Grown S0 s ∧ (r = .ok () → ∃ k, s.top d = some (.dir k))) ?_ (fun _ => ?_)
        (fun e s h => ⟨h.1.onlyAt hT _ _, fun e => (by cases e), fun _ => h.1⟩)
      · exact (holds_ensureParent hT hd ho).weaken (fun s h => h) (fun s h => h.onlyAt hT _ _) (fun r s h => ⟨h.1, h.2.2⟩)
      refine Holds.fix fun S1 h1 => ?_
      obtain ⟨hG, h1⟩ := h1
      obtain ⟨k, hk⟩ := h1 rfl
      have hd1 := (hG.viewDir hT d).2 hd
      have hn := new_absent hT hG hd hv
      obtain ⟨hput, hput'⟩ := holds_putNew hS hG hd hv hk (v := .link target) rfl
      refine Holds.bind (fun r s => r = .ok () ∧ s = onTree 0 (fun t => setTree t (c :: d) (some (.link target))) S1) ?_ (fun _ => ?_) (fun e s h => by cases h.1)
      · refine holds_get_fix ?_
        rw [top_entry_held hG.tree hd1 hk]
        simp only
        rw [show (S1.layer 0).tree (c :: d) = none from hn]
        exact Holds.modify (fun s h => by rw [h]; exact hput') (fun s h => ⟨rfl, by rw [h]⟩)
      · exact hput.weaken (fun s h => h.2) (fun s h => h) (fun r s h => ⟨h.2.1, fun _ => h.2.2.1, fun hne => absurd h.1 hne⟩)
    · have stop : ∀ e : Errno, Holds (OnlyAt (c :: d) (some (.link target)) S0) (fun s => s = S0) (Prog.fail e : Op Unit)
          (fun r s => OnlyAt (c :: d) (some (.link target)) S0 s ∧ (r = .ok () → s.view (c :: d) = some (.link target)) ∧ (r ≠ .ok () → Grown S0 s)) :=
        fun e => Holds.fail fun s h => ⟨by rw [h]; exact (Grown.refl hT).onlyAt hT _ _, fun e => (by cases e), fun _ => by rw [h]; exact Grown.refl hT⟩
      cases e <;> first | exact absurd rfl he | exact stop _

/-- **C68** (`Symlink`): a name that does not show becomes exactly that symlink; nothing else changes, at any crash point; a failure changes nothing. -/
theorem C68_symlink_partial {S : Sys} (hS : S.Trees) {c : Str} {d : Name} (hd : S.ViewDir d) (hv : S.view (c :: d) = none)
    (ho : d ∈ (S.mask 0).op → S.top d ≠ none) (target : Str) :
    (result (symlinkOp target (c :: d)) S = .ok () → (final (symlinkOp target (c :: d)) S).view (c :: d) = some (.link target)) ∧
    (result (symlinkOp target (c :: d)) S ≠ .ok () → ∀ m, SameButDirMode ((final (symlinkOp target (c :: d)) S).view m) (S.view m)) ∧
    ∀ S' ∈ crashes (symlinkOp target (c :: d)) S ++ [final (symlinkOp target (c :: d)) S], OnlyAt (c :: d) (some (.link target)) S S' := by
  have hT := hS 0 (Nat.zero_le _)
  have h := holds_symlinkOp hS hd hv ho target S rfl
  refine ⟨h.2.2.1, fun hr m => ((h.2.2.2 hr).view hT m).1, fun S' hS' => ?_⟩
  rcases List.mem_append.1 hS' with h' | h'
  · exact h.1 S' h'
  · rw [List.mem_singleton.1 h']; exact h.2.1

theorem holds_linkOp {S0 : Sys} (hS : S0.Trees) {co cn : Str} {dO dn : Name} (hd1 : S0.ViewDir dO) (hd2 : S0.ViewDir dn) (hv : S0.view (cn :: dn) = none)
    (ho1 : co :: dO ∈ (S0.mask 0).op → S0.top (co :: dO) ≠ none) (ho2 : dn ∈ (S0.mask 0).op → S0.top dn ≠ none) :
    Holds (OnlyAt (cn :: dn) (S0.view (co :: dO)) S0) (fun s => s = S0) (linkOp (co :: dO) (cn :: dn))
      (fun r s => OnlyAt (cn :: dn) (S0.view (co :: dO)) S0 s ∧
        (r = .ok () → s.view (cn :: dn) = S0.view (co :: dO) ∧ ∃ nd, S0.view (co :: dO) = some nd ∧ nd.isDir = false) ∧ (r ≠ .ok () → Grown S0 s)) := by
  have hT := hS 0 (Nat.zero_le _)
  have stop : ∀ {S1 : Sys}, Grown S0 S1 → ∀ e : Errno, Holds (OnlyAt (cn :: dn) (S0.view (co :: dO)) S0) (fun s => s = S1) (Prog.fail e : Op Unit)
      (fun r s => OnlyAt (cn :: dn) (S0.view (co :: dO)) S0 s ∧
        (r = .ok () → s.view (cn :: dn) = S0.view (co :: dO) ∧ ∃ nd, S0.view (co :: dO) = some nd ∧ nd.isDir = false) ∧ (r ≠ .ok () → Grown S0 s)) :=
    fun hG e => Holds.fail fun s h => ⟨by rw [h]; exact hG.onlyAt hT _ _, fun e => (by cases e), fun _ => by rw [h]; exact hG⟩
  refine holds_get_fix ?_
  cases hl : S0.lookup (co :: dO) with
  | error e => exact stop (Grown.refl hT) e
  | ok x =>
    obtain ⟨i, nd⟩ := x
    have hvo : S0.view (co :: dO) = some nd := by rw [S0.view_cons hd1, hl]
    cases hl2 : S0.lookup (cn :: dn) with
    | ok x => rw [S0.view_cons hd2, hl2] at hv; cases hv
    | error e =>
      by_cases he : e = .notExist
      · subst he
        simp only
        refine Holds.bind (fun r s => Grown S0 s ∧ (r = .ok () → s.top (co :: dO) = S0.view (co :: dO))) ?_ (fun _ => ?_)
          (fun e s h => ⟨h.1.onlyAt hT _ _, fun e => (by cases e), fun _ => h.1⟩)
        · exact (holds_copyUp hT hd1 ho1).weaken (fun s h => h) (fun s h => h.onlyAt hT _ _) (fun r s h => ⟨h.1, fun hr => (h.2 hr).2.1⟩)
        refine Holds.fix fun S1 h1 => ?_
        obtain ⟨hG1, h1⟩ := h1
        have h1 := h1 rfl
        refine Holds.bind (fun r s => Grown S1 s ∧ (r = .ok () → ∃ k, s.top dn = some (.dir k))) ?_ (fun _ => ?_)
          (fun e s h => ⟨(hG1.trans hT h.1).onlyAt hT _ _, fun e => (by cases e), fun _ => hG1.trans hT h.1⟩)
        · refine (holds_ensureParent (c := cn) hG1.tree ((hG1.viewDir hT dn).2 hd2) (fun hop => ?_)).weaken (fun s h => h)
            (fun s h => (hG1.trans hT h).onlyAt hT _ _) (fun r s h => ⟨h.1, h.2.2⟩)
          rw [hG1.mask] at hop
          rcases hG1.top dn with e | ⟨e, _⟩
          · rw [e]; exact ho2 hop
          · exact absurd e (ho2 hop)
        refine Holds.fix fun S2 h2 => ?_
        obtain ⟨hG2, h2⟩ := h2
        obtain ⟨k, hk⟩ := h2 rfl
        have hG := hG1.trans hT hG2
        have hdn := (hG.viewDir hT dn).2 hd2
        have hn := new_absent hT hG hd2 hv
        -- the top holds the old name as it shows
        have hsrc : S2.top (co :: dO) = some nd := by
          rcases hG2.top (co :: dO) with e | ⟨e, _⟩
          · rw [e, h1, hvo]
          · rw [h1, hvo] at e; cases e
        obtain ⟨ko, hko⟩ := hG.tree.closed co dO (by show S2.top _ ≠ none; rw [hsrc]; simp)
        have hentO := top_entry_held (c := co) hG.tree ((hG.viewDir hT dO).2 hd1) hko
        have hentN := top_entry_held (c := cn) hG.tree hdn hk
        refine Holds.bind (fun r s => (r = .ok () → nd.isDir = false ∧ s = onTree 0 (fun t => setTree t (cn :: dn) (some nd)) S2) ∧ (r ≠ .ok () → s = S2)) ?_ (fun _ => ?_)
          (fun e s h => ⟨by rw [h.2 (by simp)]; exact hG.onlyAt hT _ _, fun e => (by cases e), fun _ => by rw [h.2 (by simp)]; exact hG⟩)
        · refine holds_get_fix ?_
          rw [hentO, hentN]
          simp only
          rw [show (S2.layer 0).tree (co :: dO) = some nd from hsrc, show (S2.layer 0).tree (cn :: dn) = none from hn]
          simp only
          refine Holds.ite (fun _ => Holds.fail fun s h => ⟨fun e => (by cases e), fun _ => h⟩) (fun hnd => ?_)
          have hnd : nd.isDir = false := by simpa using hnd
          refine Holds.modify (fun s h => ?_) (fun s h => ⟨fun _ => ⟨hnd, by rw [h]⟩, fun hne => absurd rfl hne⟩)
          rw [h, hvo]; exact (holds_putNew hS hG hd2 hv hk hnd).2
        · refine Holds.fix fun S3 h3 => ?_
          obtain ⟨hnd, h3⟩ := h3.1 rfl
          rw [hvo]
          exact (holds_putNew hS hG hd2 hv hk hnd).1.weaken (fun s h => h.trans h3) (fun s h => h)
            (fun r s h => ⟨h.2.1, fun _ => ⟨h.2.2.1, nd, rfl, hnd⟩, fun hne => absurd h.1 hne⟩)
      · cases e <;> first | exact absurd rfl he | exact stop (Grown.refl hT) _

/-- **C68** (`Link`): a name that does not show comes to show what the old name shows, which is no directory; the old name and everything else show what they showed,
at any crash point; a failure changes nothing. -/
theorem C68_link_partial {S : Sys} (hS : S.Trees) {co cn : Str} {dO dn : Name} (hd1 : S.ViewDir dO) (hd2 : S.ViewDir dn) (hv : S.view (cn :: dn) = none)
    (ho1 : co :: dO ∈ (S.mask 0).op → S.top (co :: dO) ≠ none) (ho2 : dn ∈ (S.mask 0).op → S.top dn ≠ none) :
    (result (linkOp (co :: dO) (cn :: dn)) S = .ok () → (final (linkOp (co :: dO) (cn :: dn)) S).view (cn :: dn) = S.view (co :: dO) ∧
      ∃ nd, S.view (co :: dO) = some nd ∧ nd.isDir = false) ∧
    (result (linkOp (co :: dO) (cn :: dn)) S ≠ .ok () → ∀ m, SameButDirMode ((final (linkOp (co :: dO) (cn :: dn)) S).view m) (S.view m)) ∧
    ∀ S' ∈ crashes (linkOp (co :: dO) (cn :: dn)) S ++ [final (linkOp (co :: dO) (cn :: dn)) S], OnlyAt (cn :: dn) (S.view (co :: dO)) S S' := by
  have hT := hS 0 (Nat.zero_le _)
  have h := holds_linkOp hS hd1 hd2 hv ho1 ho2 S rfl
  refine ⟨h.2.2.1, fun hr m => ((h.2.2.2 hr).view hT m).1, fun S' hS' => ?_⟩
  rcases List.mem_append.1 hS' with h' | h'
  · exact h.1 S' h'
  · rw [List.mem_singleton.1 h']; exact h.2.1

open Example in
/-- Chmod of a lower file, creating a file over a removed one, a symlink and a link, each with the hypotheses met and the outcome described. -/
example : s6.Trees ∧ s6.ViewDir [b] ∧ s6.view [x, b] = some (.file 0o644 ['2']) ∧ result (chmodOp [x, b] 0o600) s6 = .ok () ∧
    (final (chmodOp [x, b] 0o600) s6).view [x, b] = some (.file 0o600 ['2']) ∧
    s7.ViewDir [b] ∧ s7.view [x, b] = none ∧ result (openWriteOp [x, b] true true false 0o600) s7 = .ok [x, b] ∧
    (final (openWriteOp [x, b] true true false 0o600) s7).view [x, b] = some (.file 0o600 []) ∧
    result (openWriteOp [x] false false true 0) s6 = .ok [x] ∧ (final (openWriteOp [x] false false true 0) s6).view [x] = some (.file 0o644 []) ∧
    result (symlinkOp ['t'] [a, b]) s6 = .ok () ∧ (final (symlinkOp ['t'] [a, b]) s6).view [a, b] = some (.link ['t']) ∧
    result (linkOp [x, b] [a]) s6 = .ok () ∧ (final (linkOp [x, b] [a]) s6).view [a] = some (.file 0o644 ['2']) ∧
    (crashes (linkOp [x, b] [a]) s6).length = 8 :=
  ⟨s6_trees, ⟨_, rfl⟩, rfl, rfl, rfl, ⟨_, rfl⟩, rfl, rfl, rfl, rfl, rfl, rfl, rfl, rfl, rfl, rfl⟩

end Verif.Overlay.Stack
