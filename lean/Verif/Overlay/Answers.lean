import Verif.Overlay.Reach
/-
What the calls of the overlay answer (C84): a call that the merged view allows succeeds, one that it does not allow is refused with the usual error,
wherever the layers keep what the view shows.
-/
namespace Verif.Overlay.Stack
open Verif.Path Verif.Prog

/-! ### specification: the answers, from what shows -/

/-- `Mkdir`, `Symlink`: the name must be free. -/
def freshAnswer : Option Node → Except Errno Unit
  | none => .ok ()
  | some _ => .error .exist

/-- Opening for writing; the handle is on the name itself. -/
def openAnswer (n : Name) (create excl : Bool) : Option Node → Except Errno Name
  | none => if create then .ok n else .error .notExist
  | some (.dir _) => .error .isDir
  | some _ => if create && excl then .error .exist else .ok n

/-- `Chmod`, `Chown`, `Chtimes`. -/
def chmodAnswer : Option Node → Except Errno Unit
  | none => .error .notExist
  | some _ => .ok ()

/-- `Remove`; `empty` says that nothing shows beneath the name. -/
def removeAnswer (empty : Prop) [Decidable empty] : Option Node → Except Errno Unit
  | none => .error .notExist
  | some (.dir _) => if empty then .ok () else .error .notEmpty
  | some _ => .ok ()

/-- `Link`. -/
def linkAnswer : (old new : Option Node) → Except Errno Unit
  | none, _ => .error .notExist
  | some _, some _ => .error .exist
  | some (.dir _), none => .error .isDir
  | some _, none => .ok ()

/-- What `Rename` answers about the target; `empty` says that nothing shows beneath it. -/
def replaceAnswer (empty : Prop) [Decidable empty] : (old : Node) → (new : Option Node) → Except Errno Unit
  | _, none => .ok ()
  | .dir _, some (.dir _) => if empty then .ok () else .error .notEmpty
  | .dir _, some _ => .error .notDir
  | _, some (.dir _) => .error .isDir
  | _, some _ => .ok ()

open Classical in
/-- `Rename`. `shared` says that a lower layer contributes to the old name, `empty` that nothing shows beneath the new one. -/
noncomputable def renameAnswer (old new : Name) (shared empty : Prop) : (vo vn : Option Node) → Except Errno Unit
  | none, _ => .error .notExist
  | some nd, vn =>
    if old = new then .ok ()
    else if old <:+ new then .error .inval
    else if nd.isDir = true ∧ shared then .error .xdev
    else replaceAnswer empty nd vn

/-- A lower layer holds the name, and nothing above it hides what the layer has beneath the name. -/
def Sys.Shared (S : Sys) (n : Name) : Prop := ∃ j nd, 0 < j ∧ j ≤ S.last ∧ (∀ i, i < j → ¬ S.MasksBelow i n) ∧ (S.layer j).lstat n = .ok nd

/-- Whatever shows on the way to the name, itself included, is a directory. -/
def Sys.Way (S : Sys) (n : Name) : Prop := ∀ m, m <:+ n → ∀ nd, S.view m = some nd → nd.isDir = true

/-- A lower layer's own path resolution fails in no other way than by a component that is missing or is no directory. -/
def Sys.Plain (S : Sys) : Prop := ∀ j t n e, 0 < j → (S.layer j).follow t n = .error e → e = .notExist ∨ e = .notDir

/-- Nothing shows in the directory. -/
def Sys.Bare (S : Sys) (n : Name) : Prop := ∀ c, S.view (c :: n) = none

/-! ### lookups -/

theorem LowerSame.plain {S S' : Sys} (h : LowerSame S S') (hP : S.Plain) : S'.Plain := by
  intro j t n e hj he
  rw [(h.2 j hj).1] at he
  exact hP j t n e hj he

theorem realDir_plain {S : Sys} (hP : S.Plain) {j : Nat} (hj : 0 < j) : ∀ {n : Name} {e : Errno}, (S.layer j).realDir n = .error e → e = .notExist ∨ e = .notDir := by
  intro n
  induction n with
  | nil => intro e h; cases h
  | cons c d ih =>
    intro e h
    unfold Layer.realDir at h
    cases hr : (S.layer j).realDir d with
    | error e' => rw [hr] at h; cases h; exact ih hr
    | ok r =>
      rw [hr] at h
      simp only at h
      cases ht : (S.layer j).tree (c :: r) with
      | none => rw [ht] at h; cases h; exact Or.inl rfl
      | some nd =>
        rw [ht] at h
        cases nd with
        | dir m => cases h
        | link t =>
          simp only [Layer.jump] at h
          cases hf : (S.layer j).follow (S.layer j).tree (c :: r) with
          | error e' => rw [hf] at h; cases h; exact hP j _ _ _ hj hf
          | ok q =>
            rw [hf] at h
            simp only at h
            cases hq : (S.layer j).tree q with
            | none => rw [hq] at h; cases h; exact Or.inl rfl
            | some x => rw [hq] at h; cases x <;> cases h; all_goals exact Or.inr rfl
        | _ => cases h; exact Or.inr rfl

theorem lstat_plain {S : Sys} (hP : S.Plain) {j : Nat} (hj : 0 < j) {n : Name} {e : Errno} (h : (S.layer j).lstat n = .error e) : e = .notExist ∨ e = .notDir := by
  cases n with
  | nil =>
    simp only [Layer.lstat, Layer.entry] at h
    cases ht : (S.layer j).tree [] with
    | none => rw [ht] at h; cases h; exact Or.inl rfl
    | some nd => rw [ht] at h; cases h
  | cons c d =>
    simp only [Layer.lstat, Layer.entry] at h
    cases hr : (S.layer j).realDir d with
    | error e' => rw [hr] at h; cases h; exact realDir_plain hP hj hr
    | ok r =>
      rw [hr] at h
      simp only at h
      cases ht : (S.layer j).tree (c :: r) with
      | none => rw [ht] at h; cases h; exact Or.inl rfl
      | some nd => rw [ht] at h; cases h

theorem blockedIn_plain {S : Sys} (hP : S.Plain) {j : Nat} (hj : 0 < j) : ∀ (n : Name), ∃ b, (S.layer j).blockedIn n = .ok b := by
  intro n
  induction n with
  | nil =>
    unfold Layer.blockedIn
    cases hl : (S.layer j).lstat [] with
    | ok nd => exact ⟨_, rfl⟩
    | error e => rcases lstat_plain hP hj hl with rfl | rfl <;> exact ⟨_, rfl⟩
  | cons c d ih =>
    unfold Layer.blockedIn
    cases hl : (S.layer j).lstat (c :: d) with
    | ok nd => exact ⟨_, rfl⟩
    | error e =>
      rcases lstat_plain hP hj hl with rfl | rfl
      · exact ⟨_, rfl⟩
      · exact ih

theorem search_plain {S : Sys} (hP : S.Plain) {n : Name} : ∀ (k i : Nat), 0 < i → ∀ {e : Errno}, S.search n .notExist k i = .error e → e = .notExist := by
  intro k
  induction k with
  | zero => intro i _ e h; cases h; rfl
  | succ k ih =>
    intro i hi e h
    unfold Sys.search at h
    cases hl : (S.layer i).lstat n with
    | ok nd => rw [hl] at h; cases h
    | error e' =>
      rw [hl] at h
      rcases lstat_plain hP hi hl with rfl | rfl
      · exact ih (i + 1) (by omega) h
      · simp only at h
        obtain ⟨b, hb⟩ := blockedIn_plain hP hi n.tail
        rw [hb] at h
        cases b with
        | true => cases h; rfl
        | false => exact ih (i + 1) (by omega) h

theorem perr_dir {S : Sys} {c : Str} {d : Name} (hd : S.ViewDir d) : S.perr (c :: d) = .notExist := by
  obtain ⟨m, hm⟩ := hd
  obtain ⟨i, hi⟩ := S.lookup_of_view hm
  show blockedErr (S.lookup d) = .notExist
  rw [hi]; rfl

theorem lookupFrom_plain {S : Sys} (hP : S.Plain) {c : Str} {d : Name} (hd : S.ViewDir d) {e : Errno} (h : S.lookupFrom (c :: d) 1 = .error e) : e = .notExist := by
  unfold Sys.lookupFrom at h
  rw [perr_dir hd] at h
  exact search_plain hP _ _ (by omega) h

/-- In a directory that shows, a name that does not show is reported missing. -/
theorem lookup_missing {S : Sys} (hT : (S.layer 0).IsTree) (hP : S.Plain) {c : Str} {d : Name} (hd : S.ViewDir d) (hv : S.view (c :: d) = none) :
    S.lookup (c :: d) = .error .notExist := by
  cases ht : S.top (c :: d) with
  | some nd => rw [S.view_top hT hd ht] at hv; cases hv
  | none =>
    by_cases hm : S.Masks 0 (c :: d)
    · exact S.lookup_masked hT hd ht hm
    · rw [S.lookup_low hT hd ht hm]
      rw [S.view_cons hd, S.lookup_low hT hd ht hm] at hv
      cases hl : S.lookupFrom (c :: d) 1 with
      | ok x => rw [hl] at hv; cases hv
      | error e => rw [lookupFrom_plain hP hd hl]

/-! ### the calls -/

section
variable {S : Sys} {c : Str} {d : Name}

theorem Good.ne (hS : Good S) {a : Name} : a ∈ (S.mask 0).op → S.top a ≠ none := fun ho => hS.held.ne_none ho

/-- Copying up a name that shows and is no device. -/
theorem answer_copyUp (hS : Good S) (hd : S.ViewDir d) {nd : Node} (hv : S.view (c :: d) = some nd) (hs : nd ≠ .special) :
    Holds (fun _ => True) (fun s => s = S) (copyUp (c :: d)) (fun r s => r = .ok () ∧ Good s ∧ Grown S s ∧ s.top (c :: d) = some nd ∧ ∀ a, ¬ a <:+ c :: d → s.top a = S.top a) :=
  (Holds.and ((inv_copyUp closed_good (c :: d)).at hS) (holds_copyUp_answer hS.sound.isTree hd hS.ne)).weaken (fun _ h => h) (fun _ _ => trivial)
    (fun r s h => by
      have hr := h.2.2.2 nd hv hs
      exact ⟨hr, h.1, h.2.1, (h.2.2.1 hr).2.1.trans hv, (h.2.2.1 hr).1⟩)

/-- Bringing the parent of a name into the top. -/
theorem answer_ensureParent (hS : Good S) (hd : S.ViewDir d) :
    Holds (fun _ => True) (fun s => s = S) (ensureParent (c :: d)) (fun r s => r = .ok () ∧ Good s ∧ Grown S s ∧ ∃ k, s.top d = some (.dir k)) :=
  (Holds.and (good_ensureParent hS (n := c :: d) hd) (holds_ensureParent_answer hS.sound.isTree (c := c) hd hS.ne)).weaken (fun _ h => h) (fun _ _ => trivial)
    (fun _ _ h => ⟨h.2.2.2.2, h.1.1, h.1.2, h.2.2.2.1 h.2.2.2.2⟩)

theorem Grown.fresh {S1 : Sys} (hT : (S.layer 0).IsTree) (hG : Grown S S1) {n : Name} (hv : S.view n = none) : S1.view n = none := by
  rcases (hG.view hT n).1 with e | ⟨_, _, _, e⟩
  · rw [e]; exact hv
  · rw [hv] at e; cases e

theorem answer_mkdirOp (hS : Good S) (hP : S.Plain) (hd : S.ViewDir d) (perm : Nat) : result (mkdirOp (c :: d) perm) S = freshAnswer (S.view (c :: d)) := by
  cases hv : S.view (c :: d) with
  | some nd => exact (C56_exists (by rw [hv]; simp) perm).1
  | none =>
    have hT := hS.sound.isTree
    have h : Holds (fun _ => True) (fun s => s = S) (mkdirOp (c :: d) perm) (fun r _ => r = .ok ()) := by
      refine holds_get_fix ?_
      rw [lookup_missing hT hP hd hv]
      refine Holds.bind _ (answer_ensureParent hS hd) (fun _ => ?_) (fun e s h => by cases h.1)
      refine Holds.fix fun S1 h1 => ?_
      obtain ⟨_, hg, hG, k, hk⟩ := h1
      exact (holds_mkdirOne hg.sound.trees ((hG.viewDir hT d).2 hd) (hG.fresh hT hv) hk perm).weaken (fun _ h => h) (fun _ _ => trivial) (fun _ _ h => h.1)
    exact (h S rfl).2

theorem answer_mkdirNew (hS : Good S) (hd : S.ViewDir d) (hv : S.view (c :: d) = none) (perm : Nat) :
    Holds (fun _ => True) (fun s => s = S) (do ensureParent (c :: d); mkdirOne (c :: d) perm) (fun r _ => r = .ok ()) := by
  have hT := hS.sound.isTree
  refine Holds.bind _ (answer_ensureParent hS hd) (fun _ => ?_) (fun e s h => by cases h.1)
  refine Holds.fix fun S1 h1 => ?_
  obtain ⟨_, hg, hG, k, hk⟩ := h1
  exact (holds_mkdirOne hg.sound.trees ((hG.viewDir hT d).2 hd) (hG.fresh hT hv) hk perm).weaken (fun _ h => h) (fun _ _ => trivial) (fun _ _ h => h.1)

theorem unmask_ok (n : Name) (P : Sys → Prop) : Holds (fun _ => True) P (unmask n) (fun r _ => r = .ok ()) := by
  refine Holds.fix fun S0 _ => holds_get_fix (Holds.ite (fun _ => ?_) (fun _ => Holds.pure fun _ _ => rfl))
  exact Holds.modify (fun _ _ => trivial) (fun _ _ => rfl)

theorem answer_symlinkOp (hS : Good S) (hP : S.Plain) (hd : S.ViewDir d) (target : Str) : result (symlinkOp target (c :: d)) S = freshAnswer (S.view (c :: d)) := by
  have hT := hS.sound.isTree
  have h : Holds (fun _ => True) (fun s => s = S) (symlinkOp target (c :: d)) (fun r _ => r = freshAnswer (S.view (c :: d))) := by
    refine holds_get_fix ?_
    cases hv : S.view (c :: d) with
    | some nd =>
      obtain ⟨i, hi⟩ := S.lookup_of_view hv
      rw [hi]
      exact Holds.fail fun _ _ => rfl
    | none =>
      rw [lookup_missing hT hP hd hv]
      refine Holds.bind _ (answer_ensureParent hS hd) (fun _ => ?_) (fun e s h => by cases h.1)
      refine Holds.fix fun S1 h1 => ?_
      obtain ⟨_, hg, hG, k, hk⟩ := h1
      refine Holds.bind (fun r _ => r = .ok ()) ?_ (fun _ => unmask_ok _ _) (fun e s h => by cases h)
      refine holds_get_fix ?_
      rw [top_entry_held hG.tree ((hG.viewDir hT d).2 hd) hk]
      simp only
      rw [show (S1.layer 0).tree (c :: d) = none from new_absent hT hG hd hv]
      exact Holds.modify (fun _ _ => trivial) (fun _ _ => rfl)
  exact (h S rfl).2

theorem answer_openWriteOp (hS : Good S) (hP : S.Plain) (hd : S.ViewDir d) (hl : ∀ nd, S.view (c :: d) = some nd → nd.isLink = false ∧ nd ≠ .special)
    (create excl trunc : Bool) (perm : Nat) :
    result (openWriteOp (c :: d) create excl trunc perm) S = openAnswer (c :: d) create excl (S.view (c :: d)) := by
  have hT := hS.sound.isTree
  have h : Holds (fun _ => True) (fun s => s = S) (openWriteOp (c :: d) create excl trunc perm) (fun r _ => r = openAnswer (c :: d) create excl (S.view (c :: d))) := by
    refine holds_get_fix ?_
    cases hv : S.view (c :: d) with
    | none =>
      rw [lookup_missing hT hP hd hv]
      simp only [openAnswer]
      refine Holds.ite (fun hc => ?_) (fun hc => ?_)
      · rw [if_pos hc, hc]
        refine Holds.bind _ (answer_ensureParent hS hd) (fun _ => ?_) (fun e s h => by cases h.1)
        refine Holds.fix fun S1 h1 => ?_
        obtain ⟨_, hg, hG, k, hk⟩ := h1
        have hd1 := (hG.viewDir hT d).2 hd
        have hn := new_absent hT hG hd hv
        refine Holds.bind (fun r _ => r = .ok (c :: d)) ?_ (fun q => ?_) (fun e s h => by cases h)
        · refine holds_get_fix ?_
          have hx : (if (true && excl) = true then (S1.layer 0).entry (c :: d) else (S1.layer 0).target (c :: d)) = .ok (c :: d) := by
            rw [top_entry_held hG.tree hd1 hk, target_held hG.tree hd1 hk (fun nd h => by rw [hn] at h; cases h)]
            split <;> rfl
          rw [hx]
          simp only
          rw [show (S1.layer 0).tree (c :: d) = none from hn]
          simp only
          rw [if_pos ⟨trivial, by simp, by show Option.any _ ((S1.layer 0).tree d) = true; rw [show (S1.layer 0).tree d = some (.dir k) from hk]; rfl⟩]
          exact Holds.bind (fun r _ => r = .ok ()) (Holds.modify (fun _ _ => trivial) (fun _ _ => rfl)) (fun _ => Holds.pure fun _ _ => rfl) (fun e s h => by cases h)
        · refine Holds.bind (fun r _ => r = .ok () ∧ q = c :: d) ?_ (fun _ => Holds.pure fun s h => by rw [h.2]) (fun e s h => by cases h.1)
          refine Holds.fix fun s0 h0 => ?_
          exact (unmask_ok (c :: d) (fun s => s = s0)).weaken (fun _ h => h) (fun _ _ => trivial) (fun _ _ h => ⟨h, by cases h0; rfl⟩)
      · rw [if_neg hc]
        exact Holds.fail fun _ _ => rfl
    | some nd =>
      obtain ⟨i, hi⟩ := S.lookup_of_view hv
      rw [hi]
      obtain ⟨hlk, hsp⟩ := hl nd hv
      cases nd with
      | dir m => exact Holds.fail fun _ _ => rfl
      | link t => cases hlk
      | special => exact absurd rfl hsp
      | file m data =>
        simp only [openAnswer]
        refine Holds.ite (fun hc => ?_) (fun hc => ?_)
        · rw [if_pos hc]
          exact Holds.fail fun _ _ => rfl
        · rw [if_neg hc]
          refine Holds.bind _ (answer_copyUp hS hd hv hsp) (fun _ => ?_) (fun e s h => by cases h.1)
          refine Holds.fix fun S1 h1 => ?_
          obtain ⟨_, hg, hG, ht, _⟩ := h1
          obtain ⟨k, hk⟩ := hG.tree.closed c d (by show S1.top _ ≠ none; rw [ht]; simp)
          refine holds_get_fix ?_
          rw [if_neg hc, target_held hG.tree ((hG.viewDir hT d).2 hd) hk (fun nd' h' => by rw [ht] at h'; cases h'; rfl)]
          simp only
          rw [show (S1.layer 0).tree (c :: d) = some (.file m data) from ht]
          simp only
          rw [if_neg hc]
          refine Holds.ite (fun _ => ?_) (fun _ => Holds.pure fun _ _ => rfl)
          exact Holds.bind (fun r _ => r = .ok ()) (Holds.modify (fun _ _ => trivial) (fun _ _ => rfl)) (fun _ => Holds.pure fun _ _ => rfl) (fun e s h => by cases h)
  exact (h S rfl).2

theorem answer_chmodOp (hS : Good S) (hP : S.Plain) (hd : S.ViewDir d) (hl : ∀ nd, S.view (c :: d) = some nd → nd.isLink = false ∧ nd ≠ .special) (mode : Nat) :
    result (chmodOp (c :: d) mode) S = chmodAnswer (S.view (c :: d)) := by
  have hT := hS.sound.isTree
  have h : Holds (fun _ => True) (fun s => s = S) (chmodOp (c :: d) mode) (fun r _ => r = chmodAnswer (S.view (c :: d))) := by
    cases hv : S.view (c :: d) with
    | none =>
      have hlk := lookup_missing hT hP hd hv
      refine Holds.bind (fun r s => r = .ok () ∧ s = S) ?_ (fun _ => ?_) (fun e s h => by cases h.1)
      · refine holds_get_fix ?_
        rw [hlk]
        exact Holds.pure fun s h => ⟨rfl, h⟩
      · refine Holds.weaken (P' := fun s => s = S) ?_ (fun _ h => h.2) (fun _ h => h) (fun _ _ h => h)
        refine holds_get_fix ?_
        have ht : S.top (c :: d) = none := new_absent hT (Grown.refl hT) hd hv
        rcases S.top_entry hT (c := c) hd with ⟨⟨k, hk⟩, _⟩ | ⟨_, he⟩
        · rw [target_held hT hd hk (fun nd h => by rw [ht] at h; cases h)]
          simp only
          rw [show (S.layer 0).tree (c :: d) = none from ht]
          exact Holds.fail fun _ _ => rfl
        · unfold Layer.target
          rw [he]
          exact Holds.fail fun _ _ => rfl
    | some nd =>
      obtain ⟨hlk, hsp⟩ := hl nd hv
      refine Holds.bind _ (answer_copyUp hS hd hv hsp) (fun _ => ?_) (fun e s h => by cases h.1)
      refine Holds.fix fun S1 h1 => ?_
      obtain ⟨_, hg, hG, ht, _⟩ := h1
      obtain ⟨k, hk⟩ := hG.tree.closed c d (by show S1.top _ ≠ none; rw [ht]; simp)
      refine holds_get_fix ?_
      rw [target_held hG.tree ((hG.viewDir hT d).2 hd) hk (fun nd' h' => by rw [ht] at h'; cases h'; exact hlk)]
      simp only
      rw [show (S1.layer 0).tree (c :: d) = some nd from ht]
      exact Holds.modify (fun _ _ => trivial) (fun _ _ => rfl)
  exact (h S rfl).2

/-! removal -/

theorem maskRemoved_ok (hS : S.Trees) (hP : S.Plain) (hd : S.ViewDir d) :
    Holds (fun _ => True) (fun s => s = S) (maskRemoved (c :: d)) (fun r s => r = .ok () ∧ Masked (c :: d) S s) := by
  have hr : Holds (fun _ => True) (fun s => s = S) (maskRemoved (c :: d)) (fun r _ => r = .ok ()) := by
    refine holds_get_fix ?_
    cases hl : S.lookupFrom (c :: d) 1 with
    | ok x => exact Holds.modify (fun _ _ => trivial) (fun _ _ => rfl)
    | error e =>
      rw [lookupFrom_plain hP hd hl]
      exact (holds_clearSubtree (S0 := S) (c :: d) (p := fun m => c :: d <:+ m) (fun _ h => h)).weaken (fun s h => by rw [h]; exact MarksCut.refl _ _) (fun _ _ => trivial)
        (fun _ _ h => h.1)
  refine (Holds.and hr (holds_maskRemoved hS (c :: d))).weaken (fun _ h => h) (fun _ _ => trivial) (fun r s h => ?_)
  obtain ⟨h1, h2⟩ := h
  subst h1
  exact ⟨rfl, h2⟩

theorem unlink_ok (hS : S.Trees) (hP : S.Plain) (hd : S.ViewDir d) {rm : Op Unit}
    (h : ∀ S1, Masked (c :: d) S S1 → result rm S1 = .ok () ∨ result rm S1 = .error .notExist) :
    Holds (fun _ => True) (fun s => s = S) (unlink (c :: d) rm) (fun r _ => r = .ok ()) := by
  refine Holds.bind _ (maskRemoved_ok hS hP hd) (fun _ => ?_) (fun e s h => by cases h.1)
  refine Holds.bind (fun r _ => r = .ok (.ok ()) ∨ r = .ok (.error .notExist)) (Holds.attempt fun s hs => ⟨fun _ _ => trivial, ?_⟩) (fun r => ?_) (fun e s h => by rcases h with h | h <;> cases h)
  · rcases h s hs.2 with e | e
    · exact Or.inl (congrArg _ e)
    · exact Or.inr (congrArg _ e)
  · refine Holds.fix fun s0 h0 => ?_
    rcases h0 with h0 | h0
    · cases h0; exact Holds.pure fun _ _ => rfl
    · cases h0; exact Holds.pure fun _ _ => rfl

theorem answer_removeAllOp (hS : Good S) (hP : S.Plain) (hd : S.ViewDir d) (steps : List (Name → Bool)) : result (removeAllOp (c :: d) steps) S = .ok () := by
  have hT := hS.sound.isTree
  have h : Holds (fun _ => True) (fun s => s = S) (removeAllOp (c :: d) steps) (fun r _ => r = .ok ()) := by
    refine holds_get_fix (Holds.ite (fun h => by cases h) (fun _ => ?_))
    cases hv : S.view (c :: d) with
    | none =>
      rw [lookup_missing hT hP hd hv]
      exact Holds.pure fun _ _ => rfl
    | some nd =>
      obtain ⟨i, hi⟩ := S.lookup_of_view hv
      rw [hi]
      exact unlink_ok hS.sound.trees hP hd fun S1 h1 => Or.inl (holds_fsRemoveAll hS.sound.trees hd steps S1 h1).2.1
  exact (h S rfl).2

/-- Nothing in the top beneath a directory that shows nothing. -/
theorem Sys.Bare.top (hT : (S.layer 0).IsTree) {n : Name} (hd : S.ViewDir n) (h : S.Bare n) (c' : Str) : S.top (c' :: n) = none := by
  cases ht : S.top (c' :: n) with
  | none => rfl
  | some x => have := h c'; rw [S.view_top hT hd ht] at this; cases this

theorem Sys.Bare.enum (hS : Good S) {n : Name} (hd : S.ViewDir n) (h : S.Bare n) {m : Nat} (hm : S.top n = some (.dir m)) : (S.layer 0).enum (S.layer 0).tree n = [] := by
  rw [List.eq_nil_iff_forall_not_mem]
  intro c' hc'
  exact ((hS.sound.lists n m hm).2 c').1 hc' (h.top hS.sound.isTree hd c')

theorem fsRemove_answer (hS : Good S) (hd : S.ViewDir d) {nd : Node} (hv : S.view (c :: d) = some nd) (he : nd.isDir = true → S.Bare (c :: d)) {S1 : Sys}
    (h1 : Masked (c :: d) S S1) : result (fsRemove 0 (c :: d)) S1 = .ok () ∨ result (fsRemove 0 (c :: d)) S1 = .error .notExist := by
  have hT := hS.sound.isTree
  have h : Holds (fun _ => True) (fun s => s = S1) (fsRemove 0 (c :: d)) (fun r _ => r = .ok () ∨ r = .error .notExist) := by
    refine holds_get_fix ?_
    rw [h1.layer]
    rcases S.top_entry hT (c := c) hd with ⟨_, hent⟩ | ⟨_, hent⟩
    · rw [hent]
      simp only
      cases ht : (S.layer 0).tree (c :: d) with
      | none => exact Holds.fail fun _ _ => Or.inr rfl
      | some x =>
        have hx : x = nd := by
          have := S.view_top hT hd ht
          rw [hv] at this; cases this; rfl
        subst hx
        cases x with
        | dir m =>
          simp only
          refine Holds.ite (fun h => ?_) (fun _ => Holds.modify (fun _ _ => trivial) (fun _ _ => Or.inl rfl))
          rcases h with h | h
          · cases h
          · exact absurd ((he rfl).enum hS ⟨m, hv⟩ ht) h
        | _ => exact Holds.modify (fun _ _ => trivial) (fun _ _ => Or.inl rfl)
    · rw [hent]
      exact Holds.fail fun _ _ => Or.inr rfl
  exact (h S1 rfl).2

/-- The listing of a directory, as far as emptiness goes: what `readDir` answers, when it sees what the view shows. -/
def ListsBare (S : Sys) (n : Name) : Prop := (S.readDir n = .ok [] ∧ S.Bare n) ∨ (∃ x xs, S.readDir n = .ok (x :: xs)) ∧ ¬ S.Bare n

theorem listsBare_of_noLink (hS : S.Trees) (hl : S.ListsAll) {n : Name} (hn0 : S.NoLinkAbove n) (hn : S.NoLinkAt n) (hd : S.ViewDir n) : ListsBare S n := by
  obtain ⟨m, hm⟩ := hd
  obtain ⟨i, hi⟩ := S.lookup_of_view hm
  obtain ⟨es, hes, hmem, _⟩ := C53_listing_partial hS hl hn0 hn hi
  cases es with
  | nil =>
    refine Or.inl ⟨hes, fun c => ?_⟩
    rw [S.view_cons ⟨m, hm⟩]
    cases hlk : S.lookup (c :: n) with
    | error e => rfl
    | ok x => have := (hmem c x.1 x.2).2 hlk; cases this
  | cons x xs =>
    refine Or.inr ⟨⟨x, xs, hes⟩, fun hb => ?_⟩
    have := (hmem x.name x.layer x.node).1 (List.mem_cons_self ..)
    have hv := hb x.name
    rw [S.view_cons ⟨m, hm⟩, this] at hv
    cases hv

theorem answer_removeOp (hS : Good S) (hP : S.Plain) (hd : S.ViewDir d) (hL : S.ViewDir (c :: d) → ListsBare S (c :: d)) [Decidable (S.Bare (c :: d))] :
    result (removeOp (c :: d)) S = removeAnswer (S.Bare (c :: d)) (S.view (c :: d)) := by
  have hT := hS.sound.isTree
  have h : Holds (fun _ => True) (fun s => s = S) (removeOp (c :: d)) (fun r _ => r = removeAnswer (S.Bare (c :: d)) (S.view (c :: d))) := by
    refine holds_get_fix (Holds.ite (fun h => by cases h) (fun _ => ?_))
    cases hv : S.view (c :: d) with
    | none =>
      rw [lookup_missing hT hP hd hv]
      exact Holds.fail fun _ _ => rfl
    | some nd =>
      obtain ⟨i, hi⟩ := S.lookup_of_view hv
      rw [hi]
      have go : (nd.isDir = true → S.Bare (c :: d)) → Holds (fun _ => True) (fun s => s = S) (unlink (c :: d) (fsRemove 0 (c :: d))) (fun r _ => r = .ok ()) := fun he =>
        unlink_ok hS.sound.trees hP hd fun S1 h1 => fsRemove_answer hS hd hv he h1
      cases nd with
      | dir m =>
        simp only [removeAnswer]
        rcases hL ⟨m, hv⟩ with ⟨hr, hb⟩ | ⟨⟨x, xs, hr⟩, hb⟩
        · rw [if_pos hb]
          refine Holds.bind (fun r s => r = .ok () ∧ s = S) ?_ (fun _ => (go fun _ => hb).weaken (fun _ h => h.2) (fun _ h => h) (fun _ _ h => h)) (fun e s h => by cases h.1)
          refine holds_get_fix ?_
          rw [hr]
          exact Holds.pure fun s h => ⟨rfl, h⟩
        · rw [if_neg hb]
          refine Holds.bind (fun r _ => r = .error .notEmpty) ?_ (fun _ => ?_) (fun e s h => h)
          · refine holds_get_fix ?_
            rw [hr]
            exact Holds.fail fun _ _ => rfl
          · exact fun s h => by cases h
      | _ => exact go (fun h => by cases h)
  exact (h S rfl).2

/-! links -/

theorem Good.grown (hS : Good S) {S1 : Sys} (hG : Grown S S1) {n : Name} : n ∈ (S1.mask 0).op → S1.top n ≠ none := by
  intro hop
  rw [hG.mask] at hop
  rcases hG.top n with e | ⟨e, _⟩
  · rw [e]; exact hS.ne hop
  · exact absurd e (hS.ne hop)

theorem answer_linkOp (hS : Good S) (hP : S.Plain) {co cn : Str} {dO dn : Name} (hd1 : S.ViewDir dO) (hd2 : S.ViewDir dn) (hs : S.view (co :: dO) ≠ some .special) :
    result (linkOp (co :: dO) (cn :: dn)) S = linkAnswer (S.view (co :: dO)) (S.view (cn :: dn)) := by
  have hT := hS.sound.isTree
  have h : Holds (fun _ => True) (fun s => s = S) (linkOp (co :: dO) (cn :: dn)) (fun r _ => r = linkAnswer (S.view (co :: dO)) (S.view (cn :: dn))) := by
    refine holds_get_fix ?_
    cases hvo : S.view (co :: dO) with
    | none =>
      rw [lookup_missing hT hP hd1 hvo]
      exact Holds.fail fun _ _ => rfl
    | some nd =>
      obtain ⟨i, hi⟩ := S.lookup_of_view hvo
      rw [hi]
      simp only
      cases hvn : S.view (cn :: dn) with
      | some x =>
        obtain ⟨j, hj⟩ := S.lookup_of_view hvn
        rw [hj]
        exact Holds.fail fun _ _ => by cases nd <;> rfl
      | none =>
        rw [lookup_missing hT hP hd2 hvn]
        simp only
        have hsp : nd ≠ .special := fun e => hs (by rw [hvo, e])
        refine Holds.bind _ (answer_copyUp hS hd1 hvo hsp) (fun _ => ?_) (fun e s h => by cases h.1)
        refine Holds.fix fun S1 h1 => ?_
        obtain ⟨_, hg1, hG1, ht1, _⟩ := h1
        refine Holds.bind _ (answer_ensureParent hg1 (c := cn) ((hG1.viewDir hT dn).2 hd2)) (fun _ => ?_) (fun e s h => by cases h.1)
        refine Holds.fix fun S2 h2 => ?_
        obtain ⟨_, hg2, hG2, k, hk⟩ := h2
        have hG := hG1.trans hT hG2
        have ht2 : S2.top (co :: dO) = some nd := by
          rcases hG2.top (co :: dO) with e | ⟨e, _⟩
          · rw [e]; exact ht1
          · rw [ht1] at e; cases e
        obtain ⟨ko, hko⟩ := hG.tree.closed co dO (by show S2.top _ ≠ none; rw [ht2]; simp)
        refine Holds.bind (fun r _ => r = linkAnswer (some nd) none) ?_ (fun _ => ?_) (fun e s h => h)
        · refine holds_get_fix ?_
          rw [top_entry_held hG.tree ((hG.viewDir hT dO).2 hd1) hko, top_entry_held hG.tree ((hG.viewDir hT dn).2 hd2) hk]
          simp only
          rw [show (S2.layer 0).tree (co :: dO) = some nd from ht2, show (S2.layer 0).tree (cn :: dn) = none from new_absent hT hG hd2 hvn]
          simp only
          cases nd with
          | dir m => exact Holds.fail fun _ _ => rfl
          | _ => exact Holds.modify (fun _ _ => trivial) (fun _ _ => rfl)
        · refine Holds.fix fun s0 h0 => ?_
          rw [← h0]
          exact unmask_ok _ _
  exact (h S rfl).2

/-! `Rename` -/

theorem anyHolds_plain (hP : S.Plain) {n : Name} : ∀ (k i : Nat), 0 < i →
    (anyHolds S n k i = some .xdev ∧ (∃ j nd, i ≤ j ∧ j < i + k ∧ (S.layer j).lstat n = .ok nd)) ∨
    (anyHolds S n k i = none ∧ ∀ j nd, i ≤ j → j < i + k → (S.layer j).lstat n ≠ .ok nd) := by
  intro k
  induction k with
  | zero => intro i _; exact Or.inr ⟨rfl, fun j nd h1 h2 => absurd h2 (by omega)⟩
  | succ k ih =>
    intro i hi
    unfold anyHolds
    cases hl : (S.layer i).lstat n with
    | ok nd => exact Or.inl ⟨rfl, i, nd, by omega, by omega, hl⟩
    | error e =>
      have step : (anyHolds S n k (i + 1) = some .xdev ∧ (∃ j nd, i ≤ j ∧ j < i + (k + 1) ∧ (S.layer j).lstat n = .ok nd)) ∨
          (anyHolds S n k (i + 1) = none ∧ ∀ j nd, i ≤ j → j < i + (k + 1) → (S.layer j).lstat n ≠ .ok nd) := by
        rcases ih (i + 1) (by omega) with ⟨h, j, nd, h1, h2, h3⟩ | ⟨h, h'⟩
        · exact Or.inl ⟨h, j, nd, by omega, by omega, h3⟩
        · refine Or.inr ⟨h, fun j nd h1 h2 => ?_⟩
          by_cases e : j = i
          · rw [e, hl]; simp
          · exact h' j nd (by omega) (by omega)
      rcases lstat_plain hP hi hl with rfl | rfl <;> exact step

theorem dirCheck_answer (hP : S.Plain) (n : Name) : (renameDirCheck S n = some .xdev ∧ S.Shared n) ∨ (renameDirCheck S n = none ∧ ¬ S.Shared n) := by
  rcases anyHolds_plain hP (n := n) (S.childCut n) 1 (by omega) with ⟨h, j, nd, h1, h2, h3⟩ | ⟨h, h'⟩
  · obtain ⟨h4, h5⟩ := (S.le_childCut n j).1 (by omega)
    exact Or.inl ⟨h, j, nd, by omega, h4, h5, h3⟩
  · refine Or.inr ⟨h, ?_⟩
    rintro ⟨j, nd, h1, h2, h3, h4⟩
    exact h' j nd (by omega) (by have := (S.le_childCut n j).2 ⟨h2, h3⟩; omega) h4

/-- What the check of the target finds. -/
theorem targetCheck_answer (hS : Good S) (hP : S.Plain) (hd : S.ViewDir d) (hL : S.ViewDir (c :: d) → ListsBare S (c :: d)) [Decidable (S.Bare (c :: d))] (nd : Node) :
    (∃ e, renameTargetCheck S (c :: d) nd.isDir = some e ∧ replaceAnswer (S.Bare (c :: d)) nd (S.view (c :: d)) = .error e) ∨
    (renameTargetCheck S (c :: d) nd.isDir = none ∧ replaceAnswer (S.Bare (c :: d)) nd (S.view (c :: d)) = .ok () ∧
      ∀ x, S.view (c :: d) = some x → x.isDir = nd.isDir ∧ (x.isDir = true → S.Bare (c :: d))) := by
  unfold renameTargetCheck
  cases hv : S.view (c :: d) with
  | none =>
    rw [lookup_missing hS.sound.isTree hP hd hv]
    exact Or.inr ⟨rfl, by cases nd <;> rfl, fun x h => by cases h⟩
  | some x =>
    obtain ⟨i, hi⟩ := S.lookup_of_view hv
    rw [hi]
    cases x with
    | dir m =>
      simp only
      cases hb : nd.isDir with
      | false => exact Or.inl ⟨.isDir, rfl, by cases nd <;> first | rfl | cases hb⟩
      | true =>
        cases nd with
        | dir k =>
          rcases hL ⟨m, hv⟩ with ⟨hr, he⟩ | ⟨⟨y, ys, hr⟩, he⟩
          · exact Or.inr ⟨by rw [hr]; rfl, if_pos he, fun x h => by cases h; exact ⟨rfl, fun _ => he⟩⟩
          · exact Or.inl ⟨.notEmpty, by rw [hr]; rfl, if_neg he⟩
        | _ => cases hb
    | _ =>
      simp only
      cases nd with
      | dir k => exact Or.inl ⟨.notDir, rfl, rfl⟩
      | _ => exact Or.inr ⟨rfl, rfl, fun x h => by cases h; exact ⟨rfl, fun h => by cases h⟩⟩

theorem answer_renameOp (hS : Good S) (hP : S.Plain) {co cn : Str} {dO dn : Name} (hd1 : S.ViewDir dO) (hd2 : S.ViewDir dn) (hs : S.view (co :: dO) ≠ some .special)
    (hL : S.ViewDir (cn :: dn) → ListsBare S (cn :: dn)) :
    result (renameOp (co :: dO) (cn :: dn)) S =
      renameAnswer (co :: dO) (cn :: dn) (S.Shared (co :: dO)) (S.Bare (cn :: dn)) (S.view (co :: dO)) (S.view (cn :: dn)) := by
  classical
  have hT := hS.sound.isTree
  have h : Holds (fun _ => True) (fun s => s = S) (renameOp (co :: dO) (cn :: dn))
      (fun r _ => r = renameAnswer (co :: dO) (cn :: dn) (S.Shared (co :: dO)) (S.Bare (cn :: dn)) (S.view (co :: dO)) (S.view (cn :: dn))) := by
    refine holds_get_fix (Holds.ite (fun h => by rcases h with h | h <;> cases h) (fun _ => ?_))
    cases hvo : S.view (co :: dO) with
    | none =>
      rw [lookup_missing hT hP hd1 hvo]
      exact Holds.fail fun _ _ => rfl
    | some nd =>
      obtain ⟨i, hi⟩ := S.lookup_of_view hvo
      rw [hi]
      simp only [renameAnswer]
      have hsp : nd ≠ .special := fun e => hs (by rw [hvo, e])
      refine Holds.ite (fun h => ?_) (fun h1 => ?_)
      · rw [if_pos h]; exact Holds.pure fun _ _ => rfl
      rw [if_neg h1]
      refine Holds.ite (fun h => ?_) (fun ha => ?_)
      · rw [if_pos h]; exact Holds.fail fun _ _ => rfl
      rw [if_neg ha]
      have hchk : ((if nd.isDir then renameDirCheck S (co :: dO) else none) = some .xdev ∧ (nd.isDir = true ∧ S.Shared (co :: dO))) ∨
          ((if nd.isDir then renameDirCheck S (co :: dO) else none) = none ∧ ¬ (nd.isDir = true ∧ S.Shared (co :: dO))) := by
        cases hb : nd.isDir with
        | false => exact Or.inr ⟨rfl, fun h => by cases h.1⟩
        | true =>
          rcases dirCheck_answer hP (co :: dO) with ⟨h, h'⟩ | ⟨h, h'⟩
          · exact Or.inl ⟨h, rfl, h'⟩
          · exact Or.inr ⟨h, fun hh => h' hh.2⟩
      rcases hchk with ⟨hc, hb⟩ | ⟨hc, hb⟩
      · rw [hc, if_pos hb]; exact Holds.fail fun _ _ => rfl
      rw [hc, if_neg hb]
      simp only
      rcases targetCheck_answer hS hP hd2 hL nd with ⟨e, he, hr⟩ | ⟨he, hr, htgt⟩
      · rw [he]
        exact Holds.fail fun _ _ => by rw [← hr]
      rw [he]
      refine Holds.weaken (Q' := fun r _ => r = .ok ()) ?_ (fun _ h => h) (fun _ h => h) (fun _ _ h => by rw [h, ← hr])
      -- the move
      refine Holds.bind _ (answer_copyUp hS hd1 hvo hsp) (fun _ => ?_) (fun e s h => by cases h.1)
      refine Holds.fix fun S1 h1 => ?_
      obtain ⟨_, hg1, hG1, ht1, hout1⟩ := h1
      refine Holds.bind _ (answer_ensureParent hg1 (c := cn) ((hG1.viewDir hT dn).2 hd2)) (fun _ => ?_) (fun e s h => by cases h.1)
      refine Holds.fix fun S2 h2 => ?_
      obtain ⟨_, hg2, hG2, k, hk⟩ := h2
      have hG := hG1.trans hT hG2
      have ht2 : S2.top (co :: dO) = some nd := by
        rcases hG2.top (co :: dO) with e | ⟨e, _⟩
        · rw [e]; exact ht1
        · rw [ht1] at e; cases e
      obtain ⟨ko, hko⟩ := hG.tree.closed co dO (by show S2.top _ ≠ none; rw [ht2]; simp)
      have hv1 := (hG.viewDir hT dO).2 hd1
      have hv2 := (hG.viewDir hT dn).2 hd2
      have hapart : ¬ cn :: dn <:+ co :: dO := by
        intro hsuf
        obtain ⟨r, hr⟩ := hsuf
        -- the target is above the old name, so it shows a directory that is not empty
        rcases List.eq_nil_or_concat r with e | ⟨r', c', e⟩
        · rw [e] at hr; exact h1 hr.symm
        · have hpath : c' :: cn :: dn <:+ co :: dO := ⟨r', by rw [← hr, e]; simp⟩
          have hup : S.view (c' :: cn :: dn) ≠ none := fun hnone => by
            rw [view_none_below hnone hpath] at hvo; cases hvo
          have hdir : S.ViewDir (cn :: dn) := by
            by_cases hd : S.ViewDir (cn :: dn)
            · exact hd
            · exact absurd (S.view_none_of_parent hd) hup
          obtain ⟨m, hm⟩ := hdir
          exact hup ((htgt _ hm).2 rfl c')
      have mv : Holds (fun _ => True) (fun s => s = S2) (fsRename 0 (co :: dO) (cn :: dn)) (fun r _ => r = .ok ()) := by
        refine holds_get_fix ?_
        rw [top_entry_held hG.tree hv1 hko, top_entry_held hG.tree hv2 hk]
        simp only
        rw [show (S2.layer 0).tree (co :: dO) = some nd from ht2]
        simp only
        refine Holds.ite (fun h => h.elim (fun h => absurd h ha) (fun h => by cases h)) (fun _ => Holds.ite (fun h => absurd h hapart) (fun _ => ?_))
        have go : Holds (fun _ => True) (fun s => s = S2) (Prog.modify (onTree 0 (fun t => moveTree t (co :: dO) (cn :: dn))) : Op Unit) (fun r _ => r = .ok ()) :=
          Holds.modify (fun _ _ => trivial) (fun _ _ => rfl)
        cases hx : (S2.layer 0).tree (cn :: dn) with
        | none => exact go
        | some x =>
          have hvx : S2.view (cn :: dn) = some x := S2.view_top hG.tree hv2 hx
          have hkind : x.isDir = nd.isDir ∧ (x.isDir = true → S.Bare (cn :: dn)) := by
            rcases (hG.view hT (cn :: dn)).1 with e | ⟨m, m', e1, e2⟩
            · rw [hvx] at e; exact htgt x e.symm
            · rw [hvx] at e1
              cases e1
              have := htgt _ e2
              exact ⟨this.1, fun _ => this.2 rfl⟩
          cases x with
          | dir m =>
            have hnd : nd.isDir = true := hkind.1.symm
            refine Holds.ite (fun h => by rw [hnd] at h; cases h) (fun _ => Holds.ite (fun h => ?_) (fun _ => go))
            exfalso
            refine h (Sys.Bare.enum hg2 ⟨m, hvx⟩ (fun c' => ?_) hx)
            rcases (hG.view hT (c' :: cn :: dn)).1 with e | ⟨_, _, _, e⟩
            · rw [e]; exact hkind.2 rfl c'
            · rw [hkind.2 rfl c'] at e; cases e
          | _ =>
            have hnd : nd.isDir = false := hkind.1.symm
            exact Holds.ite (fun h => by rw [hnd] at h; cases h) (fun _ => go)
      have both : ∀ b, Holds (fun _ => True) (fun s => s = S2) (do fsRename 0 (co :: dO) (cn :: dn); renameMarks (co :: dO) (cn :: dn) nd.isDir b) (fun r _ => r = .ok ()) := by
        intro b
        refine Holds.bind (fun r _ => r = .ok ()) mv (fun _ => ?_) (fun e s h => by cases h)
        exact Holds.fix fun S3 _ => (holds_renameMarks ha S3 nd.isDir b).weaken (fun _ h => h) (fun _ _ => trivial) (fun _ _ h => h.1)
      refine holds_get_fix ?_
      cases hl : S2.lookupFrom (co :: dO) 1 with
      | ok x => exact both true
      | error e =>
        rw [lookupFrom_plain (hG.lower.plain hP) hv1 hl]
        exact both false
  exact (h S rfl).2

/-! `MkdirAll` -/

theorem Sys.Way.up {n : Name} {c : Str} (h : S.Way (c :: n)) : S.Way n := fun m hm => h m (hm.trans (List.suffix_cons c n))

theorem answer_mkdirAllOp (hS : Good S) (hP : S.Plain) (perm : Nat) : ∀ n, (S.Way n → result (mkdirAllOp perm n) S = .ok ()) ∧ (¬ S.Way n → result (mkdirAllOp perm n) S = .error .notDir) := by
  have main : ∀ n, Holds (fun _ => True) (fun s => s = S) (mkdirAllOp perm n) (fun r _ => (S.Way n → r = .ok ()) ∧ (¬ S.Way n → r = .error .notDir)) := by
    intro n
    induction n with
    | nil =>
      refine Holds.pure fun s hs => ⟨fun _ => rfl, fun h => ?_⟩
      refine absurd (fun m hm nd hv => ?_) h
      rw [List.suffix_nil.1 hm] at hv
      obtain ⟨k, hk⟩ := S.viewDir_root hS.sound.isTree
      rw [hk] at hv; cases hv; rfl
    | cons c d ih =>
      refine Holds.bind _ (Holds.and ih (Holds.and ((good_mkdirAllOp perm d).at hS) (Holds.and (holds_mkdirAll hS.sound.trees (n := d) (fun a _ ha => hS.ne ha) perm (List.suffix_refl d))
        ((keeps_mkdirAllOp perm d S).weaken (fun s (h : s = S) => by rw [h]; exact LowerSame.refl S) (fun _ h => h) (fun _ _ h => h))))
        |>.weaken (fun _ h => h) (fun _ _ => trivial) (fun _ _ h => h)) (fun _ => ?_) (fun e s h => ?_)
      · refine Holds.fix fun S1 h1 => ?_
        obtain ⟨⟨h0, h0'⟩, hg, ⟨hO, h1⟩, hlow⟩ := h1
        have hw : S.Way d := Classical.byContradiction fun h => by cases h0' h
        obtain ⟨_, _, hd⟩ := h1 rfl
        have hsame : SameButDirMode (S1.view (c :: d)) (S.view (c :: d)) := by
          rcases hO (c :: d) with h | ⟨h, _⟩
          · exact h
          · have := h.length_le
            rw [List.length_cons] at this; omega
        have hway : S.Way (c :: d) ↔ ∀ nd, S1.view (c :: d) = some nd → nd.isDir = true := by
          constructor
          · intro h nd hv
            rcases hsame with e | ⟨m, m', e, _⟩
            · exact h _ (List.suffix_refl _) nd (e ▸ hv)
            · rw [e] at hv; cases hv; rfl
          · intro h m hm nd hv
            rcases List.suffix_cons_iff.1 hm with e | hm
            · rw [e] at hv
              rcases hsame with e | ⟨_, m', _, e⟩
              · exact h nd (e ▸ hv)
              · rw [e] at hv; cases hv; rfl
            · exact hw m hm nd hv
        rw [hway]
        refine holds_get_fix ?_
        cases hv : S1.view (c :: d) with
        | none =>
          rw [lookup_missing hg.sound.isTree (hlow.plain hP) hd hv]
          exact (answer_mkdirNew hg hd hv perm).weaken (fun _ h => h) (fun _ h => h) (fun _ _ h => ⟨fun _ => h, fun h' => absurd (fun nd h => by cases h) h'⟩)
        | some nd =>
          obtain ⟨i, hi⟩ := S1.lookup_of_view hv
          rw [hi]
          cases nd with
          | dir m => exact Holds.pure fun _ _ => ⟨fun _ => rfl, fun h' => absurd (fun nd h => by cases h; rfl) h'⟩
          | _ => exact Holds.fail fun _ _ => ⟨fun h' => (by cases h' _ rfl), fun _ => rfl⟩
      · have hn : ¬ S.Way d := fun h' => by cases h.1.1 h'
        exact ⟨fun hw => absurd hw.up hn, fun _ => congrArg Except.error (Except.error.inj (h.1.2 hn))⟩
  exact fun n => (main n S rfl).2

end

/-! ### at every point of a history -/

section
variable {S0 S : Sys} {hs : List Handle}

theorem lower_runs {may : Sys → Call → Prop} {dies : Call → Prop} (h : Runs may dies S0 S hs) : LowerSame S0 S := by
  induction h with
  | start => exact LowerSame.refl _
  | call c hr _ ih => exact (keeps_program hr.topOnly c S0 _ ih).2
  | crash c hr _ _ ht ih => exact (keeps_program hr.topOnly c S0 _ ih).1 _ ht

theorem lists_runs (h0 : Sound S0) (hm : Held S0) (hl : ∀ j, 0 < j → j ≤ S0.last → (S0.layer j).Lists) (h : CleanRuns S0 S hs) : S.ListsAll := by
  intro j hj
  have hlow := lower_runs h
  by_cases e : j = 0
  · rw [e]; exact (good_runs ⟨h0, hm⟩ h).sound.lists
  · rw [(hlow.2 j (by omega)).1]
    exact hl j (by omega) (by rw [← hlow.1]; exact hj)

/-- **C84**, `Mkdir` and `Symlink`: in a directory that shows they succeed exactly where nothing shows under the name. -/
theorem C84_new_partial (h0 : Sound S0) (hm : Held S0) (hP : S0.Plain) (h : CleanRuns S0 S hs) {c : Str} {d : Name} (hd : S.ViewDir d) (perm : Nat) (target : Str) :
    result (mkdirOp (c :: d) perm) S = freshAnswer (S.view (c :: d)) ∧ result (symlinkOp target (c :: d)) S = freshAnswer (S.view (c :: d)) :=
  have hS := good_runs ⟨h0, hm⟩ h
  have hP := (lower_runs h).plain hP
  ⟨answer_mkdirOp hS hP hd perm, answer_symlinkOp hS hP hd target⟩

/-- **C84**, opening for writing: a file opens whichever layer holds it, unless the call insists on making it; a name that is free opens only if the call
makes it; a directory never does. (A symlink there, and devices, apart.) -/
theorem C84_open_partial (h0 : Sound S0) (hm : Held S0) (hP : S0.Plain) (h : CleanRuns S0 S hs) {c : Str} {d : Name} (hd : S.ViewDir d)
    (hl : ∀ nd, S.view (c :: d) = some nd → nd.isLink = false ∧ nd ≠ .special) (create excl trunc : Bool) (perm : Nat) :
    result (openWriteOp (c :: d) create excl trunc perm) S = openAnswer (c :: d) create excl (S.view (c :: d)) :=
  answer_openWriteOp (good_runs ⟨h0, hm⟩ h) ((lower_runs h).plain hP) hd hl create excl trunc perm

/-- **C84**, `Chmod`: it succeeds on whatever shows, whichever layer holds it. (A symlink there, and devices, apart.) -/
theorem C84_chmod_partial (h0 : Sound S0) (hm : Held S0) (hP : S0.Plain) (h : CleanRuns S0 S hs) {c : Str} {d : Name} (hd : S.ViewDir d)
    (hl : ∀ nd, S.view (c :: d) = some nd → nd.isLink = false ∧ nd ≠ .special) (mode : Nat) : result (chmodOp (c :: d) mode) S = chmodAnswer (S.view (c :: d)) :=
  answer_chmodOp (good_runs ⟨h0, hm⟩ h) ((lower_runs h).plain hP) hd hl mode

open Classical in
/-- **C84**, `Remove`: it succeeds on whatever shows, except a directory in which something shows. (No layer that counts has a symlink on the way to it.) -/
theorem C84_remove_partial (h0 : Sound S0) (hm : Held S0) (hP : S0.Plain) (hl : ∀ j, 0 < j → j ≤ S0.last → (S0.layer j).Lists) (h : CleanRuns S0 S hs) {c : Str} {d : Name}
    (hd : S.ViewDir d) (hn : S.ViewDir (c :: d) → S.NoLinkAbove (c :: d) ∧ S.NoLinkAt (c :: d)) :
    result (removeOp (c :: d)) S = removeAnswer (S.Bare (c :: d)) (S.view (c :: d)) :=
  have hS := good_runs ⟨h0, hm⟩ h
  answer_removeOp hS ((lower_runs h).plain hP) hd fun hv => listsBare_of_noLink hS.sound.trees (lists_runs h0 hm hl h) (hn hv).1 (hn hv).2 hv

/-- **C84**, `RemoveAll`: it succeeds, whatever shows or does not. -/
theorem C84_removeAll_partial (h0 : Sound S0) (hm : Held S0) (hP : S0.Plain) (h : CleanRuns S0 S hs) {c : Str} {d : Name} (hd : S.ViewDir d) (steps : List (Name → Bool)) :
    result (removeAllOp (c :: d) steps) S = .ok () :=
  answer_removeAllOp (good_runs ⟨h0, hm⟩ h) ((lower_runs h).plain hP) hd steps

/-- **C84**, `MkdirAll`: it succeeds exactly when whatever shows on the way to the name, itself included, is a directory. -/
theorem C84_mkdirAll_partial (h0 : Sound S0) (hm : Held S0) (hP : S0.Plain) (h : CleanRuns S0 S hs) (n : Name) (perm : Nat) :
    (S.Way n → result (mkdirAllOp perm n) S = .ok ()) ∧ (¬ S.Way n → result (mkdirAllOp perm n) S = .error .notDir) :=
  answer_mkdirAllOp (good_runs ⟨h0, hm⟩ h) ((lower_runs h).plain hP) perm n

/-- **C84**, `Link`. (Devices apart.) -/
theorem C84_link_partial (h0 : Sound S0) (hm : Held S0) (hP : S0.Plain) (h : CleanRuns S0 S hs) {co cn : Str} {dO dn : Name} (hd1 : S.ViewDir dO) (hd2 : S.ViewDir dn)
    (hs : S.view (co :: dO) ≠ some .special) : result (linkOp (co :: dO) (cn :: dn)) S = linkAnswer (S.view (co :: dO)) (S.view (cn :: dn)) :=
  answer_linkOp (good_runs ⟨h0, hm⟩ h) ((lower_runs h).plain hP) hd1 hd2 hs

/-- **C84**, `Rename`: onto itself it succeeds; into itself it does not; a directory that a lower layer contributes to does not move; a directory replaces
only an empty directory, something else only something else; otherwise it succeeds. (Devices apart; no layer that counts has a symlink on the way to
a directory that is the target.) -/
theorem C84_rename_partial (h0 : Sound S0) (hm : Held S0) (hP : S0.Plain) (hl : ∀ j, 0 < j → j ≤ S0.last → (S0.layer j).Lists) (h : CleanRuns S0 S hs)
    {co cn : Str} {dO dn : Name} (hd1 : S.ViewDir dO) (hd2 : S.ViewDir dn) (hs : S.view (co :: dO) ≠ some .special)
    (hn : S.ViewDir (cn :: dn) → S.NoLinkAbove (cn :: dn) ∧ S.NoLinkAt (cn :: dn)) :
    result (renameOp (co :: dO) (cn :: dn)) S =
      renameAnswer (co :: dO) (cn :: dn) (S.Shared (co :: dO)) (S.Bare (cn :: dn)) (S.view (co :: dO)) (S.view (cn :: dn)) :=
  have hS := good_runs ⟨h0, hm⟩ h
  answer_renameOp hS ((lower_runs h).plain hP) hd1 hd2 hs fun hv => listsBare_of_noLink hS.sound.trees (lists_runs h0 hm hl h) (hn hv).1 (hn hv).2 hv

end

namespace Example

theorem s4e_plain : s4e.Plain ∧ (∀ j, 0 < j → j ≤ s4e.last → (s4e.layer j).Lists) ∧ (∀ d, s4e.NoLinkAbove d) ∧ ∀ d, s4e.NoLinkAt d := by
  have low : ∀ j, 0 < j → s4e.layer j = layerOf [([], .dir 0o755), ([a], .dir 0o755), ([x, a], .file 0o644 ['1'])] (.error .notExist) := fun j hj => by
    have e : s4e.layer j = s4.layer j := if_neg (by omega)
    rw [e]; simp [s4, Nat.ne_of_gt hj]
  have nolink : ∀ j n t, (s4e.layer j).tree n ≠ some (.link t) := by
    intro j n t
    by_cases hj : j = 0
    · subst hj
      exact noLink_treeOf (l := [([], .dir 0o755)]) (by decide) n t
    · rw [low j (by omega)]
      exact noLink_treeOf (by decide) n t
  refine ⟨fun j t n e hj he => ?_, fun j hj _ => ?_, fun d j x t _ _ _ _ => nolink j x t, fun d j x t _ _ _ => nolink j x t⟩
  · rw [low j hj] at he
    cases he
    exact Or.inl rfl
  · rw [low j hj]
    exact okList_lists (by decide)

end Example

open Example in
/-- The hypotheses are met, and the answers differ: `a` and `a/x` are of the lower layer only; `b` is free. -/
example : Sound s4e ∧ Held s4e ∧ CleanRuns s4e s4e [] ∧ s4e.ViewDir [] ∧ s4e.ViewDir [a] ∧ s4e.top [a] = none ∧ s4e.view [x, a] = some (.file 0o644 ['1']) ∧
    s4e.view [b] = none ∧ s4e.Shared [a] ∧ ¬ s4e.Bare [a] ∧
    result (mkdirOp [b, a] 0o700) s4e = .ok () ∧ result (mkdirOp [x, a] 0o700) s4e = .error .exist ∧
    result (openWriteOp [x, a] true false true 0o600) s4e = .ok [x, a] ∧ result (openWriteOp [x, a] true true true 0o600) s4e = .error .exist ∧
    result (openWriteOp [x, a] false true false 0o600) s4e = .ok [x, a] ∧ result (chmodOp [x, a] 0o600) s4e = .ok () ∧
    result (linkOp [x, a] [b]) s4e = .ok () ∧ result (renameOp [x, a] [b]) s4e = .ok () ∧ result (renameOp [a] [b]) s4e = .error .xdev ∧
    result (mkdirAllOp 0o700 [b, b, a]) s4e = .ok () ∧ result (mkdirAllOp 0o700 [b, x, a]) s4e = .error .notDir :=
  ⟨s4e_sound.1, s4e_sound.2, .start, ⟨_, rfl⟩, ⟨_, rfl⟩, rfl, rfl, rfl, ⟨1, _, by decide, Nat.le_refl 1, (by rintro _ _ ⟨_, _, h | h⟩ <;> cases h), rfl⟩,
    fun h => (by cases h x), rfl, rfl, rfl, rfl, rfl, rfl, rfl, rfl, rfl, rfl, rfl⟩

open Example in
/-- The same through the theorems, after calls: in `s5e` the directory `a` is one of the top that hides the lower one, so it is empty and moves. -/
example : result (renameOp [a] [b]) s5e = .ok () ∧ result (removeOp [a]) s4e = .error .notEmpty := by
  refine ⟨?_, ?_⟩
  · have hn : ¬ s5e.Shared [a] := by
      rintro ⟨j, nd, h1, _, h3, _⟩
      exact h3 0 h1 ⟨[a], List.suffix_refl _, Or.inr (by decide)⟩
    rw [C84_rename_partial s4e_sound.1 s4e_sound.2 s4e_plain.1 s4e_plain.2.1 s5e_runs ⟨_, rfl⟩ ⟨_, rfl⟩ (by rw [show s5e.view [a] = some (.dir 0o755) from rfl]; simp)
      (by rintro ⟨_, h⟩; cases h), show s5e.view [a] = some (.dir 0o755) from rfl, show s5e.view [b] = none from rfl]
    simp only [renameAnswer]
    rw [if_neg (by decide), if_neg (by decide), if_neg (fun h => hn h.2)]
    rfl
  · rw [C84_remove_partial s4e_sound.1 s4e_sound.2 s4e_plain.1 s4e_plain.2.1 .start ⟨_, rfl⟩ (fun _ => ⟨s4e_plain.2.2.1 _, s4e_plain.2.2.2 _⟩),
      show s4e.view [a] = some (.dir 0o755) from rfl]
    exact if_neg fun h => by cases h x

end Verif.Overlay.Stack
