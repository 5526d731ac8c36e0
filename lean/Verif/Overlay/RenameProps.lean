import Verif.Overlay.FreshProps
/-
Rename in the overlay (C58), and what is left when it is interrupted (C59).
-/
namespace Verif.Overlay.Stack
open Verif.Path Verif.Prog

/-! ### specification -/

/-- A view with the subtree at `old` moved to `new`. -/
def movedView (old new : Name) (v : Name → Option Node) (m : Name) : Option Node :=
  if new <:+ m then v (m.take (m.length - new.length) ++ old)
  else if old <:+ m then none
  else v m

theorem take_append_sub (r n : Name) : (r ++ n).take ((r ++ n).length - n.length) = r := by
  rw [List.length_append, Nat.add_sub_cancel]
  exact List.take_left

theorem movedView_new (old new : Name) (v : Name → Option Node) (r : Name) : movedView old new v (r ++ new) = v (r ++ old) := by
  unfold movedView
  rw [if_pos (List.suffix_append r new), take_append_sub]

theorem movedView_old {old new : Name} {v : Name → Option Node} {m : Name} (h1 : ¬ new <:+ m) (h2 : old <:+ m) : movedView old new v m = none := by
  unfold movedView
  rw [if_neg h1, if_pos h2]

theorem movedView_out {old new : Name} {v : Name → Option Node} {m : Name} (h1 : ¬ new <:+ m) (h2 : ¬ old <:+ m) : movedView old new v m = v m := by
  unfold movedView
  rw [if_neg h1, if_neg h2]

theorem moveTree_new (t : Tree) (old new r : Name) : moveTree t old new (r ++ new) = t (r ++ old) := by
  unfold moveTree
  rw [if_pos (List.suffix_append r new), take_append_sub]

theorem moveTree_old {t : Tree} {old new m : Name} (h1 : ¬ new <:+ m) (h2 : old <:+ m) : moveTree t old new m = none := by
  unfold moveTree
  rw [if_neg h1, if_pos h2]

theorem moveTree_out {t : Tree} {old new m : Name} (h1 : ¬ new <:+ m) (h2 : ¬ old <:+ m) : moveTree t old new m = t m := by
  unfold moveTree
  rw [if_neg h1, if_neg h2]

/-! ### the check that only the top contributes to the directory -/

theorem anyHolds_none {S : Sys} {n : Name} : ∀ {k i : Nat}, anyHolds S n k i = none → ∀ j, i ≤ j → j < i + k → ∃ e, (S.layer j).lstat n = .error e := by
  intro k
  induction k with
  | zero => intro i _ j h1 h2; omega
  | succ k ih =>
    intro i h j h1 h2
    unfold anyHolds at h
    have next : anyHolds S n k (i + 1) = none → j ≠ i → ∃ e, (S.layer j).lstat n = .error e := fun h hne => ih h j (by omega) (by omega)
    cases hl : (S.layer i).lstat n with
    | ok nd => rw [hl] at h; cases h
    | error e =>
      by_cases hj : j = i
      · rw [hj]; exact ⟨e, hl⟩
      · rw [hl] at h
        cases e with
        | notExist => exact next h hj
        | notDir => exact next h hj
        | _ => cases h

theorem masks_below {S : Sys} {j : Nat} {n m : Name} (h : S.MasksBelow j n) (hm : n <:+ m) (hne : m ≠ n) : S.Masks j m := by
  obtain ⟨a, ha, h⟩ := h
  refine Or.inr ⟨a, ha.trans hm, ?_, h⟩
  rintro rfl
  exact hne (List.IsSuffix.eq_of_length hm (Nat.le_antisymm hm.length_le ha.length_le)).symm

theorem shut_of_check {S : Sys} (hS : S.Trees) {n : Name} (h : renameDirCheck S n = none) : ∀ m, n <:+ m → m ≠ n → S.Masks 0 m ∨ S.low m = none := by
  intro m hm hne
  by_cases hk : S.Masks 0 m
  · exact Or.inl hk
  right
  obtain ⟨r, rfl⟩ := hm
  -- the entry of `n` on the way to `m`
  obtain ⟨r', c, rfl⟩ : ∃ r' c, r = r' ++ [c] := by
    rcases List.eq_nil_or_concat r with e | ⟨r', c, e⟩
    · exact absurd (by rw [e]; rfl) hne
    · exact ⟨r', c, by rw [e, List.concat_eq_append]⟩
  have hcn : c :: n <:+ (r' ++ [c]) ++ n := ⟨r', by simp⟩
  refine S.low_below hS ?_ hcn
  cases hl : S.lookupFrom (c :: n) 1 with
  | error e => unfold Sys.low; rw [hl]
  | ok x =>
    exfalso
    have hi := search_index (show S.search _ _ _ _ = _ from hl)
    have hst := search_lstat (show S.search _ _ _ _ = _ from hl)
    have hcut := (S.le_cutFrom (c :: n) 1 x.1).1 (by omega)
    have hle : x.1 ≤ S.childCut n := by
      rw [S.le_childCut]
      refine ⟨hcut.1, fun j hj hb => ?_⟩
      by_cases h0 : j = 0
      · exact hk (masks_below (h0 ▸ hb) ⟨r' ++ [c], rfl⟩ hne)
      · exact hcut.2 j (by omega) hj ((S.masks_cons j c n).2 (Or.inr hb))
    obtain ⟨e, he⟩ := anyHolds_none (S := S) h x.1 hi.1 (by omega)
    rw [Layer.lstat_error (hS x.1 hcut.1) he] at hst
    cases hst

/-! ### the states of a rename -/

/-- Everything before the move: only copy-up. After the move: `RenMid`. `S2` is the state right before the move. -/
structure RenMid (old new : Name) (S2 S : Sys) : Prop where
  lower : LowerSame S2 S
  top : S.top = moveTree S2.top old new
  wh : ∀ m, ¬ (old <:+ m ∨ new <:+ m) → (m ∈ (S.mask 0).wh ↔ m ∈ (S2.mask 0).wh)
  op : ∀ m, ¬ (old <:+ m ∨ new <:+ m) → (m ∈ (S.mask 0).op ↔ m ∈ (S2.mask 0).op)

/-- What is known right before the move. -/
structure Movable (old new : Name) (S2 : Sys) : Prop where
  trees : S2.Trees
  apart1 : ¬ old <:+ new
  apart2 : ¬ new <:+ old
  newNe : new ≠ []
  src : ∃ nd, S2.top old = some nd
  dst : ∃ k, S2.top new.tail = some (.dir k)
  srcDir : S2.ViewDir old.tail
  dstDir : S2.ViewDir new.tail
  shut : ∀ nd, S2.top old = some nd → nd.isDir = true → ∀ m, old <:+ m → m ≠ old → S2.Masks 0 m ∨ S2.low m = none

theorem Movable.oldNe {old new : Name} {S2 : Sys} (h : Movable old new S2) : old ≠ [] := fun e => h.apart1 (by rw [e]; exact List.nil_suffix)

theorem isTree_move {old new : Name} {S2 S : Sys} (hM : Movable old new S2) (h : S.top = moveTree S2.top old new) : (S.layer 0).IsTree where
  root := by
    have hT := hM.trees 0 (Nat.zero_le _)
    show ∃ m, S.top [] = _
    rw [h, moveTree_out (fun h => hM.newNe (List.suffix_nil.1 h)) (fun h => hM.oldNe (List.suffix_nil.1 h))]
    exact hT.root
  closed := fun c d hc => by
    have hT := hM.trees 0 (Nat.zero_le _)
    have hc : S.top (c :: d) ≠ none := hc
    show ∃ m, S.top d = _
    rw [h] at hc ⊢
    by_cases h1 : new <:+ c :: d
    · rcases List.suffix_cons_iff.1 h1 with e | h2
      · -- the new name itself: its directory is outside both
        have hd : d = new.tail := by rw [e]; rfl
        obtain ⟨k, hk⟩ := hM.dst
        rw [moveTree_out, hd]
        · exact ⟨k, hk⟩
        · intro h'; have := h'.length_le; rw [e] at this; simp at this; omega
        · intro h'; exact hM.apart1 (by rw [e]; exact h'.trans (List.suffix_cons c d))
      · obtain ⟨r, rfl⟩ := h2
        rw [← List.cons_append, moveTree_new] at hc
        rw [moveTree_new]
        exact hT.closed c (r ++ old) hc
    · by_cases h2 : old <:+ c :: d
      · rw [moveTree_old h1 h2] at hc; exact absurd rfl hc
      · rw [moveTree_out h1 h2] at hc
        rw [moveTree_out (fun h' => h1 (h'.trans (List.suffix_cons c d))) (fun h' => h2 (h'.trans (List.suffix_cons c d)))]
        exact hT.closed c d hc

theorem RenMid.tree {old new : Name} {S2 S : Sys} (hM : Movable old new S2) (h : RenMid old new S2 S) : (S.layer 0).IsTree := isTree_move hM h.top

theorem RenMid.view_out {old new : Name} {S2 S : Sys} (hM : Movable old new S2) (h : RenMid old new S2 S) {m : Name} (h1 : ¬ new <:+ m) (h2 : ¬ old <:+ m) :
    S.view m = S2.view m := by
  refine view_congr (hM.trees 0 (Nat.zero_le _)) (h.tree hM) h.lower (fun a ha => ?_)
  have out : ∀ b, b <:+ a → ¬ (old <:+ b ∨ new <:+ b) := fun b hb h' =>
    h'.elim (fun h' => h2 (h'.trans (hb.trans ha))) (fun h' => h1 (h'.trans (hb.trans ha)))
  refine ⟨?_, masks_congr fun b hb => ⟨h.wh b (out b hb), fun _ => h.op b (out b hb)⟩⟩
  rw [h.top, moveTree_out (fun h' => h1 (h'.trans ha)) (fun h' => h2 (h'.trans ha))]

theorem RenMid.dstDir {old new : Name} {S2 S : Sys} (hM : Movable old new S2) (h : RenMid old new S2 S) : S.ViewDir new.tail := by
  obtain ⟨k, hk⟩ := hM.dstDir
  obtain ⟨c, d, e⟩ := List.exists_cons_of_ne_nil hM.newNe
  refine ⟨k, ?_⟩
  rw [h.view_out hM]
  · exact hk
  · intro h'; have := h'.length_le; rw [e] at this; simp at this; omega
  · intro h'; exact hM.apart1 (h'.trans (by rw [e]; exact List.suffix_cons c d))

theorem Movable.src_view {old new : Name} {S2 : Sys} (hM : Movable old new S2) {nd : Node} (h : S2.top old = some nd) : S2.view old = some nd := by
  obtain ⟨c, d, e⟩ := List.exists_cons_of_ne_nil hM.oldNe
  have hd := hM.srcDir
  rw [e] at h hd ⊢
  exact S2.view_top (hM.trees 0 (Nat.zero_le _)) hd h

theorem RenMid.view_new_root {old new : Name} {S2 S : Sys} (hM : Movable old new S2) (h : RenMid old new S2 S) : S.view new = S2.view old := by
  obtain ⟨nd, hnd⟩ := hM.src
  have ht : S.top new = some nd := by rw [h.top]; exact (moveTree_new S2.top old new []).trans hnd
  obtain ⟨c, d, e⟩ := List.exists_cons_of_ne_nil hM.newNe
  have hd := h.dstDir hM
  rw [hM.src_view hnd]
  rw [e] at ht hd ⊢
  exact S.view_top (h.tree hM) hd ht

/-- Nothing of the moved subtree is lost: what the old name and the names beneath it showed, the new name shows as soon as the top has moved it. -/
theorem RenMid.no_loss {old new : Name} {S2 S : Sys} (hM : Movable old new S2) (h : RenMid old new S2 S) {r : Name} {x : Node}
    (hx : S2.view (r ++ old) = some x) : S.view (r ++ new) = some x := by
  induction r generalizing x with
  | nil => exact (h.view_new_root hM).trans hx
  | cons c r ih =>
    have hT := hM.trees 0 (Nat.zero_le _)
    have hp : S2.ViewDir (r ++ old) := S2.view_parent (by rw [← List.cons_append, hx]; simp)
    obtain ⟨k, hk⟩ := hp
    have hp' : S.ViewDir (r ++ new) := ⟨k, ih hk⟩
    rw [List.cons_append]
    cases ht : S2.top (c :: (r ++ old)) with
    | some y =>
      have : S2.view (c :: (r ++ old)) = some y := S2.view_top hT ⟨k, hk⟩ ht
      rw [List.cons_append, this] at hx
      cases hx
      refine S.view_top (h.tree hM) hp' ?_
      rw [h.top, ← List.cons_append, moveTree_new]
      exact ht
    | none =>
      exfalso
      obtain ⟨nd, hnd⟩ := hM.src
      -- the source is a directory, since it shows something beneath it
      have hdir : nd.isDir = true := by
        have hold : S2.ViewDir old := Sys.ViewDir.suffix ⟨k, hk⟩ (List.suffix_append r old)
        exact hold.top_dirs hT old nd (List.suffix_refl _) hnd
      have hne : c :: (r ++ old) ≠ old := fun e => by have := congrArg List.length e; simp at this; omega
      rw [List.cons_append] at hx
      rcases hM.shut nd hnd hdir (c :: (r ++ old)) ⟨c :: r, rfl⟩ hne with hm | hl
      · rw [S2.view_masked hT ⟨k, hk⟩ ht hm] at hx; cases hx
      · by_cases hm : S2.Masks 0 (c :: (r ++ old))
        · rw [S2.view_masked hT ⟨k, hk⟩ ht hm] at hx; cases hx
        · rw [S2.view_low hT ⟨k, hk⟩ ht hm, hl] at hx; cases hx

/-- Beneath the new name nothing else shows, once it is masked or when the lower layers hold nothing there. -/
theorem RenMid.view_new {old new : Name} {S2 S : Sys} (hM : Movable old new S2) (h : RenMid old new S2 S)
    (hs : ∀ nd, S2.top old = some nd → nd.isDir = true → new ∈ (S.mask 0).op ∨ S2.low new = none) (r : Name) : S.view (r ++ new) = S2.view (r ++ old) := by
  cases hx : S2.view (r ++ old) with
  | some x => exact h.no_loss hM hx
  | none =>
    cases r with
    | nil => obtain ⟨nd, hnd⟩ := hM.src; rw [List.nil_append, hM.src_view hnd] at hx; cases hx
    | cons c r =>
      rw [List.cons_append]
      by_cases hp : S.ViewDir (r ++ new)
      · have hT := hM.trees 0 (Nat.zero_le _)
        obtain ⟨nd, hnd⟩ := hM.src
        have hdir : nd.isDir = true := by
          have hnew : S.ViewDir new := hp.suffix (List.suffix_append r new)
          refine hnew.top_dirs (h.tree hM) new nd (List.suffix_refl _) ?_
          rw [h.top]; exact (moveTree_new S2.top old new []).trans hnd
        have hne : c :: (r ++ new) ≠ new := fun e => by have := congrArg List.length e; simp at this; omega
        have hne' : c :: (r ++ old) ≠ old := fun e => by have := congrArg List.length e; simp at this; omega
        have hsub : new <:+ c :: (r ++ new) := ⟨c :: r, rfl⟩
        cases ht : S.top (c :: (r ++ new)) with
        | some y =>
          -- then the old subtree held it too, in a directory that shows
          exfalso
          have ht2 : S2.top (c :: (r ++ old)) = some y := by
            rw [h.top, ← List.cons_append, moveTree_new] at ht; exact ht
          -- every name between is a directory of the top, hence of the view
          have hv : ∀ r', r' <:+ r → S2.ViewDir (r' ++ old) := by
            intro r'
            induction r' with
            | nil =>
              intro _
              cases nd with
              | dir k => exact ⟨k, hM.src_view hnd⟩
              | _ => cases hdir
            | cons c' r' ih =>
              intro hr'
              have hpar := ih ((List.suffix_cons c' r').trans hr')
              have hdt : ∀ {q : Name}, q <:+ r → ∃ k, S2.top (q ++ old) = some (.dir k) := by
                intro q hq
                obtain ⟨q', rfl⟩ := hq
                clear ih hpar hr'
                have : S2.top (c :: (q' ++ q ++ old)) ≠ none := by rw [ht2]; simp
                have base : ∃ k, S2.top (q' ++ q ++ old) = some (.dir k) := hT.closed c (q' ++ q ++ old) this
                clear this
                induction q' with
                | nil => exact base
                | cons c1 q' ih' =>
                  obtain ⟨k, hk⟩ := base
                  have hk : S2.top (c1 :: (q' ++ q ++ old)) = some (.dir k) := hk
                  have b2 : ∃ k, S2.top (q' ++ q ++ old) = some (.dir k) := hT.closed c1 (q' ++ q ++ old) (by
                    show S2.top _ ≠ none
                    rw [hk]; simp)
                  obtain ⟨k2, hk2⟩ := b2
                  clear ht ht2 hp hx hsub hne hne'
                  -- go down to `q`
                  have down : ∀ q' : Name, (∃ k, S2.top (q' ++ q ++ old) = some (.dir k)) → ∃ k, S2.top (q ++ old) = some (.dir k) := by
                    intro q'
                    induction q' with
                    | nil => exact fun h => h
                    | cons c2 q'' ih2 =>
                      rintro ⟨k, hk⟩
                      refine ih2 (hT.closed c2 (q'' ++ q ++ old) ?_)
                      have hk : S2.top (c2 :: (q'' ++ q ++ old)) = some (.dir k) := hk
                      show S2.top _ ≠ none
                      rw [hk]; simp
                  exact down q' ⟨k2, hk2⟩
              obtain ⟨k, hk⟩ := hdt hr'
              exact ⟨k, S2.view_top hT hpar hk⟩
          have := S2.view_top hT (hv r (List.suffix_refl r)) ht2
          rw [List.cons_append, this] at hx; cases hx
        | none =>
          rcases hs nd hnd hdir with hop | hlow
          · exact S.view_masked (h.tree hM) hp ht (masks_of_op hsub (Ne.symm hne) hop)
          · by_cases hm : S.Masks 0 (c :: (r ++ new))
            · exact S.view_masked (h.tree hM) hp ht hm
            · rw [S.view_low (h.tree hM) hp ht hm, h.lower.low]
              exact S2.low_below hM.trees hlow hsub
      · exact S.view_none_of_parent hp

theorem RenMid.view_old {old new : Name} {S2 S : Sys} (hM : Movable old new S2) (h : RenMid old new S2 S)
    (hs : old ∈ (S.mask 0).wh ∨ S2.low old = none) {m : Name} (hm : old <:+ m) (hnew : ¬ new <:+ m) : S.view m = none := by
  obtain ⟨c, d, rfl⟩ : ∃ c d, m = c :: d := by
    cases m with
    | nil => exact absurd (List.suffix_nil.1 hm) hM.oldNe
    | cons c d => exact ⟨c, d, rfl⟩
  by_cases hd : S.ViewDir d
  · have ht : S.top (c :: d) = none := by rw [h.top, moveTree_old hnew hm]
    rcases hs with hw | hl
    · exact S.view_masked (h.tree hM) hd ht (masks_of_wh hm hw)
    · by_cases hk : S.Masks 0 (c :: d)
      · exact S.view_masked (h.tree hM) hd ht hk
      · rw [S.view_low (h.tree hM) hd ht hk, h.lower.low]
        exact S2.low_below hM.trees hl hm
  · exact S.view_none_of_parent hd

/-- When both places are masked (or there is nothing to mask) the view is the moved view. -/
theorem RenMid.view_all {old new : Name} {S2 S : Sys} (hM : Movable old new S2) (h : RenMid old new S2 S)
    (hn : ∀ nd, S2.top old = some nd → nd.isDir = true → new ∈ (S.mask 0).op ∨ S2.low new = none)
    (ho : old ∈ (S.mask 0).wh ∨ S2.low old = none) (m : Name) : S.view m = movedView old new S2.view m := by
  by_cases h1 : new <:+ m
  · obtain ⟨r, rfl⟩ := h1
    rw [movedView_new]
    exact h.view_new hM hn r
  · by_cases h2 : old <:+ m
    · rw [movedView_old h1 h2]
      exact h.view_old hM ho h2 h1
    · rw [movedView_out h1 h2]
      exact h.view_out hM h1 h2

/-! ### the marks -/

theorem MarksOff.trans {p : Name → Prop} {S0 S1 S2 : Sys} (h : MarksOff p S0 S1) (h' : MarksOff p S1 S2) : MarksOff p S0 S2 :=
  ⟨h'.layer.trans h.layer, h'.last.trans h.last, fun i hi => (h'.mask i hi).trans (h.mask i hi), fun m hm => (h'.wh m hm).trans (h.wh m hm),
    fun m hm => (h'.op m hm).trans (h.op m hm)⟩

theorem RenMid.marks {old new : Name} {S2 S S' : Sys} (h : RenMid old new S2 S) (h' : MarksOff (fun m => old <:+ m ∨ new <:+ m) S S') : RenMid old new S2 S' :=
  ⟨h.lower.trans h'.lower, h'.top.trans h.top, fun m hm => (h'.wh m hm).trans (h.wh m hm), fun m hm => (h'.op m hm).trans (h.op m hm)⟩

theorem holds_clearSubtree_off {p : Name → Prop} {S0 : Sys} {n : Name} (hp : ∀ m, n <:+ m → p m) :
    Holds (MarksOff p S0) (MarksOff p S0) (clearSubtree n) (fun r s => r = .ok () ∧ MarksOff p S0 s) := by
  refine Holds.fix fun S1 h1 => ?_
  exact (holds_clearSubtree n hp).weaken (fun s h => by rw [h]; exact MarksCut.refl p S1) (fun s h => h1.trans h.toMarksOff) (fun r s h => ⟨h.1, h1.trans h.2.toMarksOff⟩)

theorem setOpaque_off {p : Name → Prop} {S0 S : Sys} {n : Name} (hn : p n) (h : MarksOff p S0 S) : MarksOff p S0 (onMask 0 (fun m => ⟨m.wh, n :: m.op⟩) S) := by
  refine h.step (fun m _ => Iff.rfl) (fun m hm => ?_)
  simp only [List.mem_cons]
  exact ⟨fun h => h.resolve_left (fun e => hm (e ▸ hn)), Or.inr⟩

theorem holds_setOpaque_off {p : Name → Prop} {S0 : Sys} {n : Name} (hn : p n) :
    Holds (MarksOff p S0) (MarksOff p S0) (setOpaque n) (fun r s => r = .ok () ∧ MarksOff p S0 s) :=
  Holds.modify (fun _ h => setOpaque_off hn h) (fun _ h => ⟨rfl, setOpaque_off hn h⟩)

theorem holds_setWhiteout_off {p : Name → Prop} {S0 : Sys} {n : Name} (hp : ∀ m, n <:+ m → p m) :
    Holds (MarksOff p S0) (MarksOff p S0) (setWhiteout n) (fun r s => r = .ok () ∧ MarksOff p S0 s) :=
  Holds.modify (fun _ h => setWhiteout_off hp h) (fun _ h => ⟨rfl, setWhiteout_off hp h⟩)

theorem holds_clearWhiteout_off {p : Name → Prop} {S0 : Sys} {n : Name} (hn : p n) :
    Holds (MarksOff p S0) (MarksOff p S0) (clearWhiteout n) (fun r s => r = .ok () ∧ MarksOff p S0 s) := by
  have key : ∀ S, MarksOff p S0 S → MarksOff p S0 (onMask 0 (fun m => ⟨m.wh.filter (fun x => x ≠ n), m.op⟩) S) := fun S h => by
    refine h.step (fun m hm => ?_) (fun m _ => Iff.rfl)
    simp only [mem_filter_ne]
    exact ⟨fun h => h.1, fun h => ⟨h, fun e => hm (e ▸ hn)⟩⟩
  exact Holds.modify key (fun s h => ⟨rfl, key s h⟩)

theorem holds_clearOpaque_off {p : Name → Prop} {S0 : Sys} {n : Name} (hn : p n) :
    Holds (MarksOff p S0) (MarksOff p S0) (clearOpaque n) (fun r s => r = .ok () ∧ MarksOff p S0 s) := by
  have key : ∀ S, MarksOff p S0 S → MarksOff p S0 (onMask 0 (fun m => ⟨m.wh, m.op.filter (fun x => x ≠ n)⟩) S) := fun S h => by
    refine h.step (fun m _ => Iff.rfl) (fun m hm => ?_)
    simp only [mem_filter_ne]
    exact ⟨fun h => h.1, fun h => ⟨h, fun e => hm (e ▸ hn)⟩⟩
  exact Holds.modify key (fun s h => ⟨rfl, key s h⟩)

theorem holds_renameSubtree {p : Name → Prop} {S0 : Sys} {old new : Name} (ho : ∀ m, old <:+ m → p m) (hn : ∀ m, new <:+ m → p m) :
    Holds (MarksOff p S0) (MarksOff p S0) (renameSubtree old new) (fun r s => r = .ok () ∧ MarksOff p S0 s) := by
  refine Holds.bind (fun r S => r = .ok S ∧ MarksOff p S0 S) (Holds.get fun S h => ⟨rfl, h⟩) (fun S => ?_) (fun e s h => by cases h.1)
  have reb : ∀ n : Name, new <:+ rebase old new n := fun n => List.suffix_append _ _
  refine Holds.weaken (P' := MarksOff p S0) ?_ (fun s h => h.2) (fun s h => h) (fun r s h => h)
  refine Holds.bind (fun r S => r = .ok () ∧ MarksOff p S0 S) (holds_forNames fun m hm => holds_setWhiteout_off (fun x hx => hn x ((reb m).trans hx))) (fun _ => ?_) (fun e s h => by cases h.1)
  refine Holds.weaken (P' := MarksOff p S0) ?_ (fun s h => h.2) (fun s h => h) (fun r s h => h)
  refine Holds.bind (fun r S => r = .ok () ∧ MarksOff p S0 S) (holds_forNames fun m hm => holds_setOpaque_off (hn _ (reb m))) (fun _ => ?_) (fun e s h => by cases h.1)
  refine Holds.weaken (P' := MarksOff p S0) ?_ (fun s h => h.2) (fun s h => h) (fun r s h => h)
  refine Holds.bind (fun r S => r = .ok () ∧ MarksOff p S0 S) (holds_forNames fun m hm => holds_clearWhiteout_off (ho _ (mem_under.1 hm).2.1)) (fun _ => ?_) (fun e s h => by cases h.1)
  refine Holds.weaken (P' := MarksOff p S0) ?_ (fun s h => h.2) (fun s h => h) (fun r s h => h)
  exact holds_forNames fun m hm => holds_clearOpaque_off (ho _ (mem_under.1 hm).2.1)

theorem holds_renameMarks {old new : Name} (ha : ¬ old <:+ new) (S3 : Sys) (isDir maskOld : Bool) :
    Holds (MarksOff (fun m => old <:+ m ∨ new <:+ m) S3) (fun s => s = S3) (renameMarks old new isDir maskOld)
      (fun r s => r = .ok () ∧ MarksOff (fun m => old <:+ m ∨ new <:+ m) S3 s ∧ (isDir = true → new ∈ (s.mask 0).op) ∧ (maskOld = true → old ∈ (s.mask 0).wh)) := by
  have weak : ∀ {m : Op Unit} {Q : Except Errno Unit → Sys → Prop}, Holds (MarksOff (fun m => old <:+ m ∨ new <:+ m) S3) (MarksOff (fun m => old <:+ m ∨ new <:+ m) S3) m Q →
      Holds (MarksOff (fun m => old <:+ m ∨ new <:+ m) S3) (fun s => (Except.ok () : Except Errno Unit) = .ok () ∧ MarksOff (fun m => old <:+ m ∨ new <:+ m) S3 s) m Q :=
    fun h => h.weaken (fun s h => h.2) (fun s h => h) (fun r s h => h)
  refine Holds.weaken (P' := MarksOff (fun m => old <:+ m ∨ new <:+ m) S3) ?_ (fun s h => by rw [h]; exact MarksOff.refl _ S3) (fun s h => h) (fun r s h => h)
  refine Holds.bind _ (holds_clearSubtree_off (n := new) fun m hm => Or.inr hm) (fun _ => ?_) (fun e s h => by cases h.1)
  refine weak (Holds.bind _ (holds_renameSubtree (fun m hm => Or.inl hm) (fun m hm => Or.inr hm)) (fun _ => ?_) (fun e s h => by cases h.1))
  refine Holds.weaken (P' := MarksOff (fun m => old <:+ m ∨ new <:+ m) S3) ?_ (fun s h => h.2) (fun s h => h) (fun r s h => h)
  refine Holds.bind (fun r s => r = .ok () ∧ MarksOff (fun m => old <:+ m ∨ new <:+ m) S3 s ∧ (isDir = true → new ∈ (s.mask 0).op)) ?_ (fun _ => ?_) (fun e s h => by cases h.1)
  · cases isDir with
    | false => exact Holds.pure fun s h => ⟨rfl, h, fun e => by cases e⟩
    | true =>
      exact Holds.modify (fun s h => setOpaque_off (Or.inr (List.suffix_refl _)) h)
        (fun s h => ⟨rfl, setOpaque_off (Or.inr (List.suffix_refl _)) h, fun _ => List.mem_cons_self ..⟩)
  · refine Holds.ite (fun hm => ?_) (fun hm => ?_)
    · refine Holds.modify (fun s h => setWhiteout_off (fun m hm => Or.inl hm) h.2.1) (fun s h => ⟨rfl, setWhiteout_off (fun m hm => Or.inl hm) h.2.1, fun hd => ?_, fun _ => List.mem_cons_self ..⟩)
      show new ∈ (s.mask 0).op.filter _
      rw [List.mem_filter]
      exact ⟨h.2.2 hd, by simpa using ha⟩
    · refine Holds.fix fun S4 h4 => ?_
      refine (holds_clearSubtree (S0 := S4) old (p := fun m => old <:+ m) (fun m hm => hm)).weaken (fun s h => by rw [h]; exact MarksCut.refl _ S4) (fun s h => ?_) (fun r s h => ⟨h.1, ?_, fun hd => ?_, fun e => absurd e hm⟩)
      · exact h4.2.1.trans ⟨h.layer, h.last, h.mask, fun m hm => h.wh m (fun h' => hm (Or.inl h')), fun m hm => h.op m (fun h' => hm (Or.inl h'))⟩
      · exact h4.2.1.trans ⟨h.2.layer, h.2.last, h.2.mask, fun m hm => h.2.wh m (fun h' => hm (Or.inl h')), fun m hm => h.2.op m (fun h' => hm (Or.inl h'))⟩
      · exact (h.2.op new ha).2 (h4.2.2 hd)

/-! ### the call -/

/-- A state during a rename: still copying up, or after the move. -/
def DuringRename (old new : Name) (S0 S : Sys) : Prop :=
  Grown S0 S ∨ ∃ S2, Grown S0 S2 ∧ (∀ r, S2.view (r ++ old) = S0.view (r ++ old)) ∧ Movable old new S2 ∧ RenMid old new S2 S

/-- The state after a successful rename. -/
def AfterRename (old new : Name) (S0 S : Sys) : Prop :=
  ∃ S2, Grown S0 S2 ∧ (∀ r, S2.view (r ++ old) = S0.view (r ++ old)) ∧ Movable old new S2 ∧ RenMid old new S2 S ∧
    (∀ nd, S2.top old = some nd → nd.isDir = true → new ∈ (S.mask 0).op) ∧ (old ∈ (S.mask 0).wh ∨ S2.low old = none)

theorem AfterRename.during {old new : Name} {S0 S : Sys} (h : AfterRename old new S0 S) : DuringRename old new S0 S := by
  obtain ⟨S2, h1, h2, h3, h4, _⟩ := h
  exact Or.inr ⟨S2, h1, h2, h3, h4⟩

/-- The move and the marks, from the state right before. -/
theorem holds_move {co : Str} {dO : Name} {new : Name} {S0 S2 : Sys} {nd : Node} (hG : Grown S0 S2) (hV : ∀ r, S2.view (r ++ (co :: dO)) = S0.view (r ++ (co :: dO)))
    (hS : S2.Trees) (ha : ¬ co :: dO <:+ new) (hn : new ≠ []) (hsrc : S2.top (co :: dO) = some nd) {k : Nat} (hdst : S2.top new.tail = some (.dir k))
    (hsd : S2.ViewDir dO) (hdd : S2.ViewDir new.tail)
    (hshut : nd.isDir = true → ∀ m, co :: dO <:+ m → m ≠ co :: dO → S2.Masks 0 m ∨ S2.low m = none) {maskOld : Bool} (hm : maskOld = false → S2.low (co :: dO) = none) :
    Holds (DuringRename (co :: dO) new S0) (fun s => s = S2) (do fsRename 0 (co :: dO) new; renameMarks (co :: dO) new nd.isDir maskOld)
      (fun r s => (r = .ok () → AfterRename (co :: dO) new S0 s) ∧ DuringRename (co :: dO) new S0 s ∧ (r ≠ .ok () → Grown S0 s)) := by
  have hT := hS 0 (Nat.zero_le _)
  obtain ⟨cn, dn, rfl⟩ := List.exists_cons_of_ne_nil hn
  have hentO : (S2.layer 0).entry (co :: dO) = .ok (co :: dO) := by
    rcases S2.top_entry hT (c := co) hsd with ⟨_, he⟩ | ⟨hnone, _⟩
    · exact he
    · obtain ⟨k', hk'⟩ := hT.closed co dO (by show S2.top _ ≠ none; rw [hsrc]; simp)
      unfold Sys.top at hnone; rw [hk'] at hnone; cases hnone
  have hentN : (S2.layer 0).entry (cn :: dn) = .ok (cn :: dn) := by
    rcases S2.top_entry hT (c := cn) hdd with ⟨_, he⟩ | ⟨hnone, _⟩
    · exact he
    · rw [hdst] at hnone; cases hnone
  refine Holds.bind (fun r s => (r = .ok () → ¬ cn :: dn <:+ co :: dO ∧ s = onTree 0 (fun t => moveTree t (co :: dO) (cn :: dn)) S2) ∧ (r ≠ .ok () → s = S2)) ?_ (fun _ => ?_)
    (fun e s h => ⟨fun e => (by cases e), Or.inl (by rw [h.2 (by simp)]; exact hG), fun _ => by rw [h.2 (by simp)]; exact hG⟩)
  · -- the move itself
    refine holds_get_fix ?_
    rw [hentO, hentN]
    simp only
    have e : (S2.layer 0).tree (co :: dO) = some nd := hsrc
    rw [e]
    simp only
    refine Holds.ite (fun h => ?_) (fun _ => Holds.ite (fun _ => ?_) (fun h2 => ?_))
    · exact h.elim (fun h => absurd h ha) (fun h => by cases h)
    · exact Holds.fail fun s h => ⟨fun e => (by cases e), fun _ => h⟩
    · have hM : Movable (co :: dO) (cn :: dn) S2 := ⟨hS, ha, h2, by simp, ⟨nd, hsrc⟩, ⟨k, hdst⟩, hsd, hdd, fun nd' hnd' => by rw [hsrc] at hnd'; cases hnd'; exact hshut⟩
      have hmid : RenMid (co :: dO) (cn :: dn) S2 (onTree 0 (fun t => moveTree t (co :: dO) (cn :: dn)) S2) :=
        ⟨lowerSame_onTree _ S2, rfl, fun _ _ => Iff.rfl, fun _ _ => Iff.rfl⟩
      have go : Holds (DuringRename (co :: dO) (cn :: dn) S0) (fun s => s = S2) (Prog.modify (onTree 0 (fun t => moveTree t (co :: dO) (cn :: dn))) : Op Unit)
          (fun r s => (r = .ok () → ¬ cn :: dn <:+ co :: dO ∧ s = onTree 0 (fun t => moveTree t (co :: dO) (cn :: dn)) S2) ∧ (r ≠ .ok () → s = S2)) :=
        Holds.modify (fun s h => by rw [h]; exact Or.inr ⟨S2, hG, hV, hM, hmid⟩) (fun s h => ⟨fun _ => ⟨h2, by rw [h]⟩, fun hne => absurd rfl hne⟩)
      have stop : ∀ e : Errno, Holds (DuringRename (co :: dO) (cn :: dn) S0) (fun s => s = S2) (Prog.fail e : Op Unit)
          (fun r s => (r = .ok () → ¬ cn :: dn <:+ co :: dO ∧ s = onTree 0 (fun t => moveTree t (co :: dO) (cn :: dn)) S2) ∧ (r ≠ .ok () → s = S2)) :=
        fun e => Holds.fail fun s h => ⟨fun e => (by cases e), fun _ => h⟩
      cases hr : (S2.layer 0).tree (cn :: dn) with
      | none => exact go
      | some x =>
        cases x with
        | dir m => exact Holds.ite (fun _ => stop _) (fun _ => Holds.ite (fun _ => stop _) (fun _ => go))
        | _ => exact Holds.ite (fun _ => stop _) (fun _ => go)
  · -- the marks
    refine Holds.fix fun S3 h3 => ?_
    obtain ⟨h2, h3⟩ := h3.1 rfl
    have hM : Movable (co :: dO) (cn :: dn) S2 := ⟨hS, ha, h2, by simp, ⟨nd, hsrc⟩, ⟨k, hdst⟩, hsd, hdd, fun nd' hnd' => by rw [hsrc] at hnd'; cases hnd'; exact hshut⟩
    have hmid : RenMid (co :: dO) (cn :: dn) S2 S3 := by
      rw [h3]; exact ⟨lowerSame_onTree _ S2, rfl, fun _ _ => Iff.rfl, fun _ _ => Iff.rfl⟩
    refine (holds_renameMarks ha S3 nd.isDir maskOld).weaken (fun s h => h) (fun s h => Or.inr ⟨S2, hG, hV, hM, hmid.marks h⟩)
      (fun r s h => ⟨fun _ => ⟨S2, hG, hV, hM, hmid.marks h.2.1, fun nd' hnd' hd => ?_, ?_⟩, Or.inr ⟨S2, hG, hV, hM, hmid.marks h.2.1⟩, fun hne => absurd h.1 hne⟩)
    · rw [hsrc] at hnd'; cases hnd'; exact h.2.2.1 hd
    · cases maskOld with
      | true => exact Or.inl (h.2.2.2 rfl)
      | false => exact Or.inr (hm rfl)

theorem holds_renameOp {S0 : Sys} (hS : S0.Trees) {co cn : Str} {dO dn : Name} (hd1 : S0.ViewDir dO) (hd2 : S0.ViewDir dn)
    (ho1 : co :: dO ∈ (S0.mask 0).op → S0.top (co :: dO) ≠ none) (ho2 : dn ∈ (S0.mask 0).op → S0.top dn ≠ none) (hne : co :: dO ≠ cn :: dn) :
    Holds (DuringRename (co :: dO) (cn :: dn) S0) (fun s => s = S0) (renameOp (co :: dO) (cn :: dn))
      (fun r s => (r = .ok () → AfterRename (co :: dO) (cn :: dn) S0 s) ∧ DuringRename (co :: dO) (cn :: dn) S0 s ∧ (r ≠ .ok () → Grown S0 s)) := by
  have hT := hS 0 (Nat.zero_le _)
  have stop : ∀ e : Errno, Holds (DuringRename (co :: dO) (cn :: dn) S0) (fun s => s = S0) (Prog.fail e : Op Unit)
      (fun r s => (r = .ok () → AfterRename (co :: dO) (cn :: dn) S0 s) ∧ DuringRename (co :: dO) (cn :: dn) S0 s ∧ (r ≠ .ok () → Grown S0 s)) :=
    fun e => Holds.fail fun s h => ⟨fun e => (by cases e), Or.inl (by rw [h]; exact Grown.refl hT), fun _ => by rw [h]; exact Grown.refl hT⟩
  refine holds_get_fix (Holds.ite (fun _ => stop _) (fun _ => ?_))
  cases hl : S0.lookup (co :: dO) with
  | error e => exact stop e
  | ok x =>
    obtain ⟨i, nd⟩ := x
    have hv : S0.view (co :: dO) = some nd := by rw [S0.view_cons hd1, hl]
    refine Holds.ite (fun h => absurd h hne) (fun _ => Holds.ite (fun _ => stop _) (fun ha => ?_))
    cases hc : (if nd.isDir then renameDirCheck S0 (co :: dO) else none) with
    | some e => exact stop e
    | none =>
      simp only
      cases ht : renameTargetCheck S0 (cn :: dn) nd.isDir with
      | some e => exact stop e
      | none =>
        simp only
        have hshut : nd.isDir = true → ∀ m, co :: dO <:+ m → m ≠ co :: dO → S0.Masks 0 m ∨ S0.low m = none := by
          intro hd
          rw [if_pos hd] at hc
          exact shut_of_check hS hc
        -- copy-up of the old name
        refine Holds.bind (fun r s => Grown S0 s ∧ (r = .ok () → (∀ a, ¬ a <:+ co :: dO → s.top a = S0.top a) ∧ s.top (co :: dO) = S0.view (co :: dO))) ?_ (fun _ => ?_)
          (fun e s h => ⟨fun e => (by cases e), Or.inl h.1, fun _ => h.1⟩)
        · exact (holds_copyUp hT hd1 ho1).weaken (fun s h => h) (fun s h => Or.inl h) (fun r s h => ⟨h.1, fun hr => ⟨(h.2 hr).1, (h.2 hr).2.1⟩⟩)
        refine Holds.fix fun S1 h1 => ?_
        obtain ⟨hG1, h1⟩ := h1
        obtain ⟨h1a, h1b⟩ := h1 rfl
        -- and of the new parent
        refine Holds.bind (fun r s => Grown S1 s ∧ (∀ a, ¬ a <:+ dn → r = .ok () → s.top a = S1.top a) ∧ (r = .ok () → ∃ k, s.top dn = some (.dir k))) ?_ (fun _ => ?_)
          (fun e s h => ⟨fun e => (by cases e), Or.inl (hG1.trans hT h.1), fun _ => hG1.trans hT h.1⟩)
        · refine (holds_ensureParent (c := cn) hG1.tree ((hG1.viewDir hT dn).2 hd2) (fun hop => ?_)).weaken (fun s h => h) (fun s h => Or.inl (hG1.trans hT h)) (fun r s h => h)
          rw [hG1.mask] at hop
          rcases hG1.top dn with e | ⟨e, _⟩
          · rw [e]; exact ho2 hop
          · exact absurd e (ho2 hop)
        refine Holds.fix fun S2 h2 => ?_
        obtain ⟨hG2, h2a, h2b⟩ := h2
        obtain ⟨k, hk⟩ := h2b rfl
        have h2a := fun a ha => h2a a ha rfl
        have hG := hG1.trans hT hG2
        have hout : ∀ r, ¬ (r ++ (co :: dO)) <:+ dn := fun r h' => ha (((List.suffix_append r _).trans h').trans (List.suffix_cons cn dn))
        have hsrc : S2.top (co :: dO) = some nd := by rw [h2a (co :: dO) (hout []), h1b]; exact hv
        have hV : ∀ r, S2.view (r ++ (co :: dO)) = S0.view (r ++ (co :: dO)) := by
          intro r
          by_cases hr : r = []
          · rw [hr, List.nil_append]
            by_cases e : S2.top (co :: dO) = S0.top (co :: dO)
            · exact (hG.view hT _).2.1 e
            · rw [(hG.view hT _).2.2 e, hsrc, hv]
          · refine (hG.view hT _).2.1 ?_
            rw [h2a _ (hout r), h1a]
            intro h'
            have := h'.length_le
            rw [List.length_append] at this
            exact hr (List.eq_nil_of_length_eq_zero (by omega))
        have hshut2 : nd.isDir = true → ∀ m, co :: dO <:+ m → m ≠ co :: dO → S2.Masks 0 m ∨ S2.low m = none := by
          intro hd m hm hmne
          rw [hG.masks, hG.lower.low]
          exact hshut hd m hm hmne
        refine holds_get_fix ?_
        cases hlo : S2.lookupFrom (co :: dO) 1 with
        | ok x =>
          exact holds_move hG hV (hG.trees hS) ha (by simp) hsrc hk ((hG.viewDir hT dO).2 hd1) ((hG.viewDir hT dn).2 hd2) hshut2 (fun e => by cases e)
        | error e =>
          have hlow : S2.low (co :: dO) = none := by unfold Sys.low; rw [hlo]
          have bail : ∀ e : Errno, Holds (DuringRename (co :: dO) (cn :: dn) S0) (fun s => s = S2) (Prog.fail e : Op Unit)
              (fun r s => (r = .ok () → AfterRename (co :: dO) (cn :: dn) S0 s) ∧ DuringRename (co :: dO) (cn :: dn) S0 s ∧ (r ≠ .ok () → Grown S0 s)) :=
            fun e => Holds.fail fun s h => ⟨fun e => (by cases e), Or.inl (by rw [h]; exact hG), fun _ => by rw [h]; exact hG⟩
          cases e with
          | notExist =>
            exact holds_move hG hV (hG.trees hS) ha (by simp) hsrc hk ((hG.viewDir hT dO).2 hd1) ((hG.viewDir hT dn).2 hd2) hshut2 (fun _ => hlow)
          | _ => exact bail _

theorem movedView_congr {old new : Name} {v v' : Name → Option Node} (h1 : ∀ r, v (r ++ old) = v' (r ++ old)) (h2 : ∀ m, SameButDirMode (v m) (v' m)) (m : Name) :
    SameButDirMode (movedView old new v m) (movedView old new v' m) := by
  by_cases hn : new <:+ m
  · obtain ⟨r, rfl⟩ := hn
    rw [movedView_new, movedView_new, h1]
    exact SameButDirMode.refl _
  · by_cases ho : old <:+ m
    · rw [movedView_old hn ho, movedView_old hn ho]; exact SameButDirMode.refl _
    · rw [movedView_out hn ho, movedView_out hn ho]; exact h2 m

theorem AfterRename.view {old new : Name} {S0 S : Sys} (hT : (S0.layer 0).IsTree) (h : AfterRename old new S0 S) :
    (∀ m, SameButDirMode (S.view m) (movedView old new S0.view m)) ∧ (∀ r, S.view (r ++ new) = S0.view (r ++ old)) ∧ ∀ m, old <:+ m → S.view m = none := by
  obtain ⟨S2, hG, hV, hM, hR, h1, h2⟩ := h
  have hall := hR.view_all hM (fun nd a b => Or.inl (h1 nd a b)) h2
  refine ⟨fun m => ?_, fun r => ?_, fun m hm => ?_⟩
  · rw [hall]; exact movedView_congr hV (fun m => (hG.view hT m).1) m
  · rw [hall, movedView_new, hV]
  · rw [hall, movedView_old ?_ hm]
    intro hn
    rcases List.suffix_or_suffix_of_suffix hn hm with h | h
    · exact hM.apart2 h
    · exact hM.apart1 h

/-- **C58**: after a successful `Rename` the new name and the names beneath it show exactly what the old name and the names beneath it showed, nothing
shows at or beneath the old name, and every other name shows what it showed (permission bits of directories excepted), whatever the layers and
the marks hold. Both parents show as directories; the top has no leftover opaque mark on the old name or the new parent. -/
theorem C58_rename_partial {S : Sys} (hS : S.Trees) {co cn : Str} {dO dn : Name} (hd1 : S.ViewDir dO) (hd2 : S.ViewDir dn)
    (ho1 : co :: dO ∈ (S.mask 0).op → S.top (co :: dO) ≠ none) (ho2 : dn ∈ (S.mask 0).op → S.top dn ≠ none) (hne : co :: dO ≠ cn :: dn)
    (hr : result (renameOp (co :: dO) (cn :: dn)) S = .ok ()) :
    (∀ r, (final (renameOp (co :: dO) (cn :: dn)) S).view (r ++ cn :: dn) = S.view (r ++ co :: dO)) ∧
    (∀ m, co :: dO <:+ m → (final (renameOp (co :: dO) (cn :: dn)) S).view m = none) ∧
    (∀ m, ¬ co :: dO <:+ m → ¬ cn :: dn <:+ m → SameButDirMode ((final (renameOp (co :: dO) (cn :: dn)) S).view m) (S.view m)) := by
  have hT := hS 0 (Nat.zero_le _)
  obtain ⟨h1, h2, h3⟩ := ((holds_renameOp hS hd1 hd2 ho1 ho2 hne S rfl).2.1 hr).view hT
  exact ⟨h2, h3, fun m ho hn => by have := h1 m; rwa [movedView_out hn ho] at this⟩

/-- **C58** (failure): a `Rename` that fails leaves every name as it was (permission bits of directories excepted). -/
theorem C58_failed_partial {S : Sys} (hS : S.Trees) {co cn : Str} {dO dn : Name} (hd1 : S.ViewDir dO) (hd2 : S.ViewDir dn)
    (ho1 : co :: dO ∈ (S.mask 0).op → S.top (co :: dO) ≠ none) (ho2 : dn ∈ (S.mask 0).op → S.top dn ≠ none)
    (hr : result (renameOp (co :: dO) (cn :: dn)) S ≠ .ok ()) (m : Name) : SameButDirMode ((final (renameOp (co :: dO) (cn :: dn)) S).view m) (S.view m) := by
  have hT := hS 0 (Nat.zero_le _)
  by_cases hne : co :: dO = cn :: dn
  · rw [← hne] at hr ⊢
    have : final (renameOp (co :: dO) (co :: dO)) S = S := by
      show (renameOp (co :: dO) (co :: dO) S).2.1 = S
      simp only [renameOp, Bind.bind, Prog.bind, Prog.get, List.cons_ne_nil, or_self, if_false, if_true]
      cases S.lookup (co :: dO) <;> rfl
    rw [this]; exact SameButDirMode.refl _
  · exact (((holds_renameOp hS hd1 hd2 ho1 ho2 hne S rfl).2.2.2 hr).view hT m).1

/-- Onto its own name: nothing happens. -/
theorem C58_same_name (n : Name) (S : Sys) : final (renameOp n n) S = S ∧ crashes (renameOp n n) S = [] := by
  have : ∃ r, renameOp n n S = ([], S, r) := by
    simp only [renameOp, Bind.bind, Prog.bind, Prog.get, or_self, if_true]
    by_cases h : n = []
    · rw [if_pos h]; exact ⟨_, rfl⟩
    · rw [if_neg h]; cases S.lookup n <;> exact ⟨_, rfl⟩
  obtain ⟨r, h⟩ := this
  unfold final crashes
  rw [h]
  exact ⟨rfl, rfl⟩

/-- What the target may show: a name that shows a directory is not replaced by anything else, and a name that shows something else is not replaced by a
directory; a directory is not moved beneath itself. Nothing changes. -/
theorem C58_refused {S : Sys} {old new : Name} {x y : Node} (hx : S.view old = some x) (hne : old ≠ new)
    (h : old <:+ new ∨ (S.view new = some y ∧ x.isDir ≠ y.isDir)) :
    (∃ e, result (renameOp old new) S = .error e) ∧ final (renameOp old new) S = S ∧ crashes (renameOp old new) S = [] := by
  have key : ∃ e, renameOp old new S = ([], S, .error e) := by
    obtain ⟨i, hi⟩ := S.lookup_of_view hx
    simp only [renameOp, Bind.bind, Prog.bind, Prog.get, hi]
    by_cases h0 : old = [] ∨ new = []
    · rw [if_pos h0]; exact ⟨_, rfl⟩
    rw [if_neg h0, if_neg hne]
    by_cases hs : old <:+ new
    · rw [if_pos hs]; exact ⟨_, rfl⟩
    rw [if_neg hs]
    obtain ⟨hy, hxy⟩ := h.resolve_left hs
    obtain ⟨j, hj⟩ := S.lookup_of_view hy
    cases (if x.isDir then renameDirCheck S old else none) with
    | some e => exact ⟨_, rfl⟩
    | none =>
      have : ∃ e, renameTargetCheck S new x.isDir = some e := by
        unfold renameTargetCheck
        rw [hj]
        cases y with
        | dir k =>
          have : x.isDir = false := by cases hb : x.isDir with
            | false => rfl
            | true => exact absurd (hb.trans rfl) hxy
          simp only [this, if_true]
          exact ⟨_, rfl⟩
        | _ =>
          have : x.isDir = true := by cases hb : x.isDir with
            | true => rfl
            | false => exact absurd (hb.trans rfl) hxy
          simp only [this, if_true]
          exact ⟨_, rfl⟩
      obtain ⟨e, he⟩ := this
      simp only [he]
      exact ⟨_, rfl⟩
  obtain ⟨e, h⟩ := key
  unfold result final crashes
  rw [h]
  exact ⟨⟨e, rfl⟩, rfl, rfl⟩

/-- A directory that shows something is not replaced by a `Rename`: nothing changes and an error is returned. (Under the proviso of C53: what a lower
layer shows through a symlink of its own is not seen by the check.) -/
theorem C58_nonempty_target_refused_partial {S : Sys} (hS : S.Trees) (hl : S.ListsAll) {old new : Name} {x : Node} (hx : S.view old = some x)
    (hne : old ≠ new) (hn0 : S.NoLinkAbove new) (hn : S.NoLinkAt new) {c : Str} (hc : S.view (c :: new) ≠ none) :
    (∃ e, result (renameOp old new) S = .error e) ∧ final (renameOp old new) S = S ∧ crashes (renameOp old new) S = [] := by
  obtain ⟨m, hm⟩ := S.view_parent hc
  obtain ⟨j, hj⟩ := S.lookup_of_view hm
  obtain ⟨es, hes, hmem, _⟩ := C53_listing_partial hS hl hn0 hn hj
  obtain ⟨nd, hnd⟩ := Option.ne_none_iff_exists'.1 hc
  obtain ⟨k, hk⟩ := S.lookup_of_view hnd
  have hin := (hmem c k nd).2 hk
  have hcheck : ∃ e, renameTargetCheck S new x.isDir = some e := by
    unfold renameTargetCheck
    rw [hj]
    by_cases hb : x.isDir = false
    · simp only [hb, if_true]; exact ⟨_, rfl⟩
    · simp only [hb, hes]
      cases es with
      | nil => cases hin
      | cons y ys => exact ⟨_, rfl⟩
  have key : ∃ e, renameOp old new S = ([], S, .error e) := by
    obtain ⟨i, hi⟩ := S.lookup_of_view hx
    simp only [renameOp, Bind.bind, Prog.bind, Prog.get, hi]
    by_cases h0 : old = [] ∨ new = []
    · rw [if_pos h0]; exact ⟨_, rfl⟩
    rw [if_neg h0, if_neg hne]
    by_cases hs : old <:+ new
    · rw [if_pos hs]; exact ⟨_, rfl⟩
    rw [if_neg hs]
    cases (if x.isDir then renameDirCheck S old else none) with
    | some e => exact ⟨_, rfl⟩
    | none =>
      obtain ⟨e, he⟩ := hcheck
      simp only [he]
      exact ⟨_, rfl⟩
  obtain ⟨e, h⟩ := key
  unfold result final crashes
  rw [h]
  exact ⟨⟨e, rfl⟩, rfl, rfl⟩

/-- **C59** (others): at every crash point of a `Rename`, every name that is neither at nor beneath the two names shows what it showed. -/
theorem C59_others_partial {S : Sys} (hS : S.Trees) {co cn : Str} {dO dn : Name} (hd1 : S.ViewDir dO) (hd2 : S.ViewDir dn)
    (ho1 : co :: dO ∈ (S.mask 0).op → S.top (co :: dO) ≠ none) (ho2 : dn ∈ (S.mask 0).op → S.top dn ≠ none) (hne : co :: dO ≠ cn :: dn) :
    ∀ S' ∈ crashes (renameOp (co :: dO) (cn :: dn)) S, ∀ m, ¬ co :: dO <:+ m → ¬ cn :: dn <:+ m → SameButDirMode (S'.view m) (S.view m) := by
  have hT := hS 0 (Nat.zero_le _)
  intro S' hS' m ho hn
  rcases (holds_renameOp hS hd1 hd2 ho1 ho2 hne S rfl).1 S' hS' with hG | ⟨S2, hG, _, hM, hR⟩
  · exact (hG.view hT m).1
  · rw [hR.view_out hM hn ho]; exact (hG.view hT m).1

/-- **C59** (no loss): at every crash point the whole overlay shows what it showed before, or everything the old name and the names beneath it
showed is shown at the new name. -/
theorem C59_no_loss_partial {S : Sys} (hS : S.Trees) {co cn : Str} {dO dn : Name} (hd1 : S.ViewDir dO) (hd2 : S.ViewDir dn)
    (ho1 : co :: dO ∈ (S.mask 0).op → S.top (co :: dO) ≠ none) (ho2 : dn ∈ (S.mask 0).op → S.top dn ≠ none) (hne : co :: dO ≠ cn :: dn) :
    ∀ S' ∈ crashes (renameOp (co :: dO) (cn :: dn)) S, (∀ m, SameButDirMode (S'.view m) (S.view m)) ∨
      ∀ r x, S.view (r ++ co :: dO) = some x → S'.view (r ++ cn :: dn) = some x := by
  have hT := hS 0 (Nat.zero_le _)
  intro S' hS'
  rcases (holds_renameOp hS hd1 hd2 ho1 ho2 hne S rfl).1 S' hS' with hG | ⟨S2, hG, hV, hM, hR⟩
  · exact Or.inl fun m => (hG.view hT m).1
  · exact Or.inr fun r x hx => hR.no_loss hM ((hV r).trans hx)

/-- **C59** (atomic): when the layers beneath the top hold nothing for the old name and, if a directory is moved, nothing for the new one, then every crash
point shows the overlay as it was before or as it is after the rename. -/
theorem C59_atomic_partial {S : Sys} (hS : S.Trees) {co cn : Str} {dO dn : Name} (hd1 : S.ViewDir dO) (hd2 : S.ViewDir dn)
    (ho1 : co :: dO ∈ (S.mask 0).op → S.top (co :: dO) ≠ none) (ho2 : dn ∈ (S.mask 0).op → S.top dn ≠ none) (hne : co :: dO ≠ cn :: dn)
    (hl1 : S.low (co :: dO) = none) (hl2 : S.ViewDir (co :: dO) → S.low (cn :: dn) = none) :
    ∀ S' ∈ crashes (renameOp (co :: dO) (cn :: dn)) S, (∀ m, SameButDirMode (S'.view m) (S.view m)) ∨
      ∀ m, SameButDirMode (S'.view m) (movedView (co :: dO) (cn :: dn) S.view m) := by
  have hT := hS 0 (Nat.zero_le _)
  intro S' hS'
  rcases (holds_renameOp hS hd1 hd2 ho1 ho2 hne S rfl).1 S' hS' with hG | ⟨S2, hG, hV, hM, hR⟩
  · exact Or.inl fun m => (hG.view hT m).1
  · refine Or.inr fun m => ?_
    rw [hR.view_all hM (fun nd hnd hdir => Or.inr ?_) (Or.inr (by rw [hG.lower.low]; exact hl1))]
    · exact movedView_congr hV (fun m => (hG.view hT m).1) m
    · rw [hG.lower.low]
      have hv : S.view (co :: dO) = some nd := (hV []).symm.trans (hM.src_view hnd)
      cases nd with
      | dir k => exact hl2 ⟨k, hv⟩
      | _ => cases hdir

namespace Example
/-- A lower layer with the file `x` and the directory `b` holding `x`; an empty top. -/
def s6 : Sys where
  last := 1
  layer := fun i => if i = 0 then layerOf [([], .dir 0o755)] (.error .notExist)
    else layerOf [([], .dir 0o755), ([x], .file 0o644 ['1']), ([b], .dir 0o755), ([x, b], .file 0o644 ['2'])] (.error .notExist)
  mask := fun _ => ⟨[], []⟩
  stage := fun _ => none
  temp := 0
  umask := id

theorem s6_trees : s6.Trees := by
  intro j _
  by_cases hj : j = 0
  · subst hj
    exact okList_isTree (by decide)
  · have : s6.layer j = layerOf [([], .dir 0o755), ([x], .file 0o644 ['1']), ([b], .dir 0o755), ([x, b], .file 0o644 ['2'])] (.error .notExist) := by simp [s6, hj]
    rw [this]
    exact okList_isTree (by decide)

/-- An empty directory in the top, and one that is not empty in the lower layer. -/
def s8 : Sys where
  last := 1
  layer := fun i => if i = 0 then layerOf [([], .dir 0o755), ([a], .dir 0o755)] (.error .notExist)
    else layerOf [([], .dir 0o755), ([b], .dir 0o755), ([x, b], .file 0o644 ['2'])] (.error .notExist)
  mask := fun _ => ⟨[], []⟩
  stage := fun _ => none
  temp := 0
  umask := id

theorem s8_ok : s8.Trees ∧ s8.ListsAll ∧ (∀ d, s8.NoLinkAbove d) ∧ ∀ d, s8.NoLinkAt d := by
  have h : ∀ j, (s8.layer j).IsTree ∧ (s8.layer j).Lists ∧ ∀ n t, (s8.layer j).tree n ≠ some (.link t) := by
    intro j
    by_cases hj : j = 0
    · subst hj
      exact ⟨okList_isTree (by decide), okList_lists (by decide), noLink_treeOf (by decide)⟩
    · have : s8.layer j = layerOf [([], .dir 0o755), ([b], .dir 0o755), ([x, b], .file 0o644 ['2'])] (.error .notExist) := by
        simp [s8, hj]
      rw [this]
      exact ⟨okList_isTree (by decide), okList_lists (by decide), noLink_treeOf (by decide)⟩
  exact ⟨fun j _ => (h j).1, fun j _ => (h j).2.1, fun d j a t _ _ _ _ => (h j).2.2 a t, fun d j a t _ _ _ => (h j).2.2 a t⟩

/-- After `Remove("b/x")` and `Mkdir("a")`: `a` and `b` are both empty directories. -/
def s7 : Sys := final (mkdirOp [a] 0o700) (final (removeOp [x, b]) s6)

end Example

open Example in
/-- `a` is not moved onto `b`, which shows `b/x`. -/
example : s8.Trees ∧ s8.ListsAll ∧ s8.NoLinkAbove [b] ∧ s8.NoLinkAt [b] ∧ s8.view [a] = some (.dir 0o755) ∧ s8.view [x, b] ≠ none ∧
    result (renameOp [a] [b]) s8 = .error .notEmpty :=
  ⟨s8_ok.1, s8_ok.2.1, s8_ok.2.2.1 _, s8_ok.2.2.2 _, rfl, (by rw [show s8.view [x, b] = some (.file 0o644 ['2']) from rfl]; simp), rfl⟩

open Example in
/-- A file of the lower layer is moved over another name: the two names and everything else are as C58 says, and the hypotheses are met. -/
example : s6.Trees ∧ s6.ViewDir [] ∧ s6.ViewDir [b] ∧ result (renameOp [x] [a, b]) s6 = .ok () ∧
    (final (renameOp [x] [a, b]) s6).view [a, b] = some (.file 0o644 ['1']) ∧ (final (renameOp [x] [a, b]) s6).view [x] = none ∧
    (final (renameOp [x] [a, b]) s6).view [x, b] = some (.file 0o644 ['2']) := ⟨s6_trees, ⟨_, rfl⟩, ⟨_, rfl⟩, rfl, rfl, rfl, rfl⟩

open Example in
/-- A crash between the move and the whiteout: the file is in both places, neither the state before nor the state after. -/
theorem C59_counterexample_old_resurfaces :
    ∃ S' ∈ crashes (renameOp [x] [a]) s6, S'.view [x] = some (.file 0o644 ['1']) ∧ S'.view [a] = some (.file 0o644 ['1']) :=
  ⟨_, List.mem_of_getElem? (i := 5) rfl, rfl, rfl⟩

open Example in
/-- An empty directory is moved onto an empty directory; in between the marks of the target are cleared before the moved directory is marked opaque: a
crash there brings back a file that was removed. -/
theorem C59_counterexample_removed_resurfaces :
    s7.view [x, b] = none ∧ s7.view [x, a] = none ∧ result (renameOp [a] [b]) s7 = .ok () ∧ (final (renameOp [a] [b]) s7).view [x, b] = none ∧
    ∃ S' ∈ crashes (renameOp [a] [b]) s7, S'.view [x, b] = some (.file 0o644 ['2']) :=
  ⟨rfl, rfl, rfl, rfl, _, List.mem_of_getElem? (i := 1) rfl, rfl⟩

open Example in
/-- The case of `C59_atomic_partial`: a new directory is renamed to a name no layer holds, with three crash points. -/
example : s7.ViewDir [a] ∧ s7.low [a] = none ∧ s7.low [['c']] = none ∧ s7.ViewDir [] ∧ [a] ∈ (s7.mask 0).op ∧ s7.top [a] ≠ none ∧
    (crashes (renameOp [a] [['c']]) s7).length = 3 := ⟨⟨_, rfl⟩, rfl, rfl, ⟨_, rfl⟩, by decide, by decide, rfl⟩

end Verif.Overlay.Stack
