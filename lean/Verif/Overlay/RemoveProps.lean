import Verif.Overlay.Marks
/-
Removal from the overlay (C55).
-/
namespace Verif.Overlay.Stack
open Verif.Path Verif.Prog

/-- A state in the middle of a removal of `n`. -/
structure RemMid (n : Name) (S0 S : Sys) : Prop where
  lower : LowerSame S0 S
  tree : (S.layer 0).IsTree
  out : ∀ m, ¬ n <:+ m → S.top m = S0.top m ∧ (m ∈ (S.mask 0).wh ↔ m ∈ (S0.mask 0).wh) ∧ (m ∈ (S.mask 0).op ↔ m ∈ (S0.mask 0).op)
  inn : ∀ m, n <:+ m → S.top m = S0.top m ∨ S.top m = none
  shut : S = S0 ∨ (∀ m, n <:+ m → S0.low m = none) ∨ n ∈ (S.mask 0).wh

theorem not_suffix_parts {n m a : Name} (h : ¬ n <:+ m) (ha : a <:+ m) : ¬ n <:+ a := fun h' => h (h'.trans ha)

/-- Outside the removed name nothing changes. -/
theorem RemMid.view_out {n : Name} {S0 S : Sys} (hT : (S0.layer 0).IsTree) (h : RemMid n S0 S) {m : Name} (hm : ¬ n <:+ m) : S.view m = S0.view m := by
  refine view_congr hT h.tree h.lower (fun a ha => ⟨(h.out a (not_suffix_parts hm ha)).1, masks_congr fun b hb => ?_⟩)
  have := (h.out b (not_suffix_parts hm (hb.trans ha))).2
  exact ⟨this.1, fun _ => this.2⟩

/-- At and under the removed name things stay or go. -/
theorem RemMid.view_in {n : Name} {S0 S : Sys} (hT : (S0.layer 0).IsTree) (h : RemMid n S0 S) (hn : n ≠ []) {m : Name} (hm : n <:+ m) :
    S.view m = S0.view m ∨ S.view m = none := by
  obtain ⟨r, rfl⟩ := hm
  rcases h.shut with rfl | hsh
  · exact Or.inl rfl
  have key : ∀ {c d}, S.ViewDir d → n <:+ c :: d → (S.ViewDir d → S0.ViewDir d) → S.view (c :: d) = S0.view (c :: d) ∨ S.view (c :: d) = none := by
    intro c d hd hm hd0
    cases ht : S.top (c :: d) with
    | some nd =>
      rcases h.inn _ hm with e | e
      · left
        rw [S.view_top h.tree hd ht, S0.view_top hT (hd0 hd) (e.symm.trans ht)]
      · rw [e] at ht; cases ht
    | none =>
      right
      rcases hsh with hl | hw
      · by_cases hk : S.Masks 0 (c :: d)
        · exact S.view_masked h.tree hd ht hk
        · rw [S.view_low h.tree hd ht hk, h.lower.low, hl _ hm]
      · exact S.view_masked h.tree hd ht (masks_of_wh hm hw)
  induction r with
  | nil =>
    obtain ⟨c, d, rfl⟩ := List.exists_cons_of_ne_nil hn
    by_cases hd : S.ViewDir d
    · refine key hd (List.suffix_refl _) ?_
      rintro ⟨mm, hmm⟩
      refine ⟨mm, ?_⟩
      rw [← h.view_out hT (m := d) ?_]
      · exact hmm
      · intro hs; have := hs.length_le; simp only [List.length_cons] at this; omega
    · exact Or.inr (S.view_none_of_parent hd)
  | cons c r ih =>
    by_cases hd : S.ViewDir (r ++ n)
    · refine key hd ⟨c :: r, rfl⟩ ?_
      rintro ⟨mm, hmm⟩
      rcases ih with e | e
      · exact ⟨mm, e.symm.trans hmm⟩
      · exact absurd (e.symm.trans hmm) (by simp)
    · exact Or.inr (S.view_none_of_parent hd)

/-- Once the top holds nothing there, the name is gone. -/
theorem RemMid.gone {n : Name} {S0 S : Sys} (h : RemMid n S0 S) (hn : n ≠ []) (ht : ∀ m, n <:+ m → S.top m = none)
    (hsh : (∀ m, n <:+ m → S0.low m = none) ∨ n ∈ (S.mask 0).wh) {m : Name} (hm : n <:+ m) : S.view m = none := by
  obtain ⟨c, d, rfl⟩ : ∃ c d, m = c :: d := by
    cases m with
    | nil => exact absurd (List.suffix_nil.1 hm) hn
    | cons c d => exact ⟨c, d, rfl⟩
  by_cases hd : S.ViewDir d
  · rcases hsh with hl | hw
    · by_cases hk : S.Masks 0 (c :: d)
      · exact S.view_masked h.tree hd (ht _ hm) hk
      · rw [S.view_low h.tree hd (ht _ hm) hk, h.lower.low, hl _ hm]
    · exact S.view_masked h.tree hd (ht _ hm) (masks_of_wh hm hw)
  · exact S.view_none_of_parent hd

/-! ### the steps -/

/-- After the masking half of `unlink`. -/
structure Masked (n : Name) (S0 S : Sys) : Prop extends MarksOff (fun m => n <:+ m) S0 S where
  shut : (∀ m, n <:+ m → S0.low m = none) ∨ n ∈ (S.mask 0).wh

theorem Masked.mid {n : Name} {S0 S : Sys} (hT : (S0.layer 0).IsTree) (h : Masked n S0 S) : RemMid n S0 S where
  lower := h.lower
  tree := by rw [h.layer]; exact hT
  out := fun m hm => ⟨by rw [h.top], h.wh m hm, h.op m hm⟩
  inn := fun m _ => Or.inl (by rw [h.top])
  shut := Or.inr h.shut

theorem RemMid.refl {n : Name} {S : Sys} (hT : (S.layer 0).IsTree) : RemMid n S S :=
  ⟨LowerSame.refl S, hT, fun _ _ => ⟨rfl, Iff.rfl, Iff.rfl⟩, fun _ _ => Or.inl rfl, Or.inl rfl⟩

theorem holds_maskRemoved {S0 : Sys} (hS : S0.Trees) (n : Name) :
    Holds (RemMid n S0) (fun S => S = S0) (maskRemoved n) (fun r S => match r with | .ok _ => Masked n S0 S | .error _ => S = S0) := by
  have hT := hS 0 (Nat.zero_le _)
  refine Holds.bind (fun r S => r = .ok S0 ∧ S = S0) (Holds.get fun S h => by rw [h]; exact ⟨rfl, rfl⟩) (fun S => ?_) (fun e s h => by cases h.1)
  cases hl : S.lookupFrom n 1 with
  | ok x =>
    have key : ∀ s, (Except.ok S : Except Errno Sys) = .ok S0 ∧ s = S0 →
        Masked n S0 (onMask 0 (fun m => ⟨n :: m.wh.filter (fun x => ¬ n <:+ x), m.op.filter (fun x => ¬ n <:+ x)⟩) s) := by
      rintro s ⟨_, rfl⟩
      exact ⟨setWhiteout_off (fun _ h => h) (MarksOff.refl _ _), Or.inr (List.mem_cons_self ..)⟩
    exact Holds.modify (fun s h => (key s h).mid hT) (fun s h => key s h)
  | error e =>
    by_cases he : e = .notExist
    · subst he
      simp only
      intro s hs
      have hSS : S = S0 := by injection hs.1
      have hlow : ∀ m, n <:+ m → S0.low m = none := by
        have h0 : S0.low n = none := by unfold Sys.low; rw [← hSS, hl]
        exact fun m hm => S0.low_below hS h0 hm
      have := holds_clearSubtree (S0 := S0) n (p := fun m => n <:+ m) (fun _ h => h) s (by rw [hs.2]; exact MarksCut.refl _ _)
      refine ⟨fun t ht => ?_, ?_⟩
      · have h1 := this.1 t ht
        exact Masked.mid hT ⟨h1.toMarksOff, Or.inl hlow⟩
      · have h1 := this.2
        rw [h1.1]
        exact ⟨h1.2.toMarksOff, Or.inl hlow⟩
    · cases e <;> first | exact absurd rfl he | exact Holds.fail fun s h => h.2

theorem isTree_sub {L L' : Layer} (hL : L.IsTree) (hr : L'.tree [] = L.tree []) (h : ∀ c d, L'.tree (c :: d) ≠ none →
    L'.tree (c :: d) = L.tree (c :: d) ∧ L'.tree d = L.tree d) : L'.IsTree where
  root := by rw [hr]; exact hL.root
  closed := fun c d hc => by
    obtain ⟨h1, h2⟩ := h c d hc
    rw [h2]; exact hL.closed c d (by rw [← h1]; exact hc)

theorem top_none_below {S : Sys} (hT : (S.layer 0).IsTree) {n m : Name} (h : S.top n = none) (hm : n <:+ m) : S.top m = none := by
  obtain ⟨r, rfl⟩ := hm
  induction r with
  | nil => exact h
  | cons c r ih =>
    cases hc : S.top ((c :: r) ++ n) with
    | none => rfl
    | some nd =>
      obtain ⟨m, hm⟩ := hT.closed c (r ++ n) (by unfold Sys.top at hc; rw [← List.cons_append, hc]; simp)
      unfold Sys.top at ih
      rw [hm] at ih; cases ih

/-- The top after a change of its tree. -/
theorem top_onTree (f : Tree → Tree) (S : Sys) : (onTree 0 f S).top = f S.top := rfl

theorem Masked.removed {n : Name} {S0 S : Sys} (hT : (S0.layer 0).IsTree) (h : Masked n S0 S) {f : Tree → Tree} (hn : n ≠ [])
    (hout : ∀ m, ¬ n <:+ m → f S0.top m = S0.top m) (hin : ∀ m, n <:+ m → f S0.top m = S0.top m ∨ f S0.top m = none)
    (hcl : ∀ c d, f S0.top (c :: d) ≠ none → f S0.top d = S0.top d) : RemMid n S0 (onTree 0 f S) where
  lower := h.lower.trans (lowerSame_onTree f S)
  tree := by
    have e : (onTree 0 f S).layer 0 = { S.layer 0 with tree := f S.top } := rfl
    rw [e, h.top]
    refine isTree_sub (L := S0.layer 0) hT ?_ ?_
    · exact hout [] (fun hs => hn (List.suffix_nil.1 hs))
    · intro c d hc
      refine ⟨?_, hcl c d hc⟩
      by_cases hs : n <:+ c :: d
      · exact (hin _ hs).resolve_right hc
      · exact hout _ hs
  out := fun m hm => ⟨by rw [top_onTree, h.top]; exact hout m hm, h.wh m hm, h.op m hm⟩
  inn := fun m hm => by rw [top_onTree, h.top]; exact hin m hm
  shut := Or.inr h.shut

/-- What the removal of an entry of the top establishes. -/
def Removed (n : Name) (S0 : Sys) (r : Except Errno Unit) (S : Sys) : Prop :=
  RemMid n S0 S ∧ ((∀ m, n <:+ m → S0.low m = none) ∨ n ∈ (S.mask 0).wh) ∧ (r = .ok () ∨ r = .error .notExist → ∀ m, n <:+ m → S.top m = none)

theorem holds_fsRemove {S0 : Sys} (hS : S0.Trees) (hL : (S0.layer 0).Lists) {c : Str} {d : Name} (hd : S0.ViewDir d) :
    Holds (RemMid (c :: d) S0) (Masked (c :: d) S0) (fsRemove 0 (c :: d)) (Removed (c :: d) S0) := by
  have hT := hS 0 (Nat.zero_le _)
  refine Holds.fix fun S h => ?_
  have stay : ∀ e, (e = Errno.notExist → ∀ m, c :: d <:+ m → S.top m = none) → Holds (RemMid (c :: d) S0) (fun s => s = S) (Prog.fail e) (Removed (c :: d) S0) := by
    intro e he
    refine Holds.fail fun s hs => ?_
    rw [hs]
    refine ⟨h.mid hT, h.shut, ?_⟩
    rintro (hr | hr)
    · cases hr
    · injection hr with hr; exact he hr
  have gone : (∀ c', S0.top (c' :: c :: d) = none) →
      Holds (RemMid (c :: d) S0) (fun s => s = S) (Prog.modify (onTree 0 (fun t => setTree t (c :: d) none))) (Removed (c :: d) S0) := by
    intro hch
    have hmid : RemMid (c :: d) S0 (onTree 0 (fun t => setTree t (c :: d) none) S) := by
      refine h.removed hT (by simp) ?_ ?_ ?_
      · intro m hm
        exact if_neg (fun e => hm (by rw [e]; exact List.suffix_refl _))
      · intro m _
        by_cases e : m = c :: d
        · exact Or.inr (if_pos e)
        · exact Or.inl (if_neg e)
      · intro c' d' hc
        show (if _ then _ else _) = _
        rw [if_neg]
        intro e
        apply hc
        show (if _ then _ else _) = _
        split
        · rfl
        · rw [e]; exact hch c'
    refine Holds.modify (fun s hs => by rw [hs]; exact hmid) (fun s hs => ?_)
    rw [hs]
    refine ⟨hmid, h.shut, fun _ m hm => ?_⟩
    exact top_none_below hmid.tree (by show (if _ then _ else _) = _; exact if_pos rfl) hm
  have hent := S0.top_entry hT (c := c) hd
  rw [show (S0.layer 0) = S.layer 0 by rw [h.layer]] at hent
  refine Holds.bind (fun r s => r = .ok S ∧ s = S) (Holds.get fun s hs => by rw [hs]; exact ⟨rfl, rfl⟩) (fun X => ?_) (fun e s h => by cases h.1)
  by_cases hX : X = S
  · rw [hX]
    refine Holds.weaken (P' := fun s => s = S) ?_ (fun s h => h.2) (fun s h => h) (fun r s h => h)
    rcases hent with ⟨⟨m0, hm0⟩, he⟩ | ⟨hnone, he⟩
    · rw [he]
      simp only
      have e1 : (S.layer 0).tree (c :: d) = S0.top (c :: d) := congrFun h.top _
      rw [e1]
      cases hn : S0.top (c :: d) with
      | none => exact stay _ (fun _ m hm => by rw [h.top]; exact top_none_below hT hn hm)
      | some nd =>
        have hno : nd.isDir = false → ∀ c', S0.top (c' :: c :: d) = none := by
          intro hnd c'
          cases hc : S0.top (c' :: c :: d) with
          | none => rfl
          | some x =>
            obtain ⟨m, hm⟩ := hT.closed c' (c :: d) (by unfold Sys.top at hc; rw [hc]; simp)
            unfold Sys.top at hn
            rw [hm] at hn; cases hn; cases hnd
        cases nd with
        | dir m =>
          refine Holds.ite (fun _ => stay _ (fun e => by cases e)) (fun hc => gone ?_)
          intro c'
          have he' : (S.layer 0).enum (S.layer 0).tree (c :: d) = [] := by
            apply Decidable.byContradiction
            intro h'; exact hc (Or.inr h')
          rw [h.layer] at he'
          have := (hL (c :: d) m hn).2 c'
          rw [he'] at this
          apply Decidable.byContradiction
          intro hx
          exact absurd (this.2 hx) (by simp)
        | file _ _ => exact gone (hno rfl)
        | link _ => exact gone (hno rfl)
        | special => exact gone (hno rfl)
    · rw [he]
      simp only
      refine stay _ (fun _ m hm => ?_)
      rw [h.top]
      exact top_none_below hT hnone ((List.suffix_cons c d).trans hm)
  · intro s hs
    exact absurd (by injection hs.1) hX

theorem anyUp_iff {f : Name → Bool} : ∀ {m : Name}, anyUp f m = true ↔ ∃ a, a <:+ m ∧ f a = true := by
  intro m
  induction m with
  | nil =>
    constructor
    · exact fun h => ⟨[], List.suffix_refl _, h⟩
    · rintro ⟨a, ha, h⟩; rw [List.suffix_nil.1 ha] at h; exact h
  | cons c d ih =>
    unfold anyUp
    rw [Bool.or_eq_true, ih]
    constructor
    · rintro (h | ⟨a, ha, h⟩)
      · exact ⟨_, List.suffix_refl _, h⟩
      · exact ⟨a, ha.trans (List.suffix_cons c d), h⟩
    · rintro ⟨a, ha, h⟩
      rcases List.suffix_cons_iff.1 ha with rfl | ha
      · exact Or.inl h
      · exact Or.inr ⟨a, ha, h⟩

theorem holds_removeSteps {S0 : Sys} {n : Name} (hn : n ≠ []) (fs : List (Name → Bool)) :
    Holds (RemMid n S0) (fun S => RemMid n S0 S ∧ ((∀ m, n <:+ m → S0.low m = none) ∨ n ∈ (S.mask 0).wh)) (do
      removeSteps 0 n fs
      Prog.modify (onTree 0 (fun t => dropUnder t n (fun _ => true)))) (fun r S => r = .ok () ∧ Removed n S0 r S) := by
  have step : ∀ (f : Name → Bool) S, RemMid n S0 S ∧ ((∀ m, n <:+ m → S0.low m = none) ∨ n ∈ (S.mask 0).wh) →
      RemMid n S0 (onTree 0 (fun t => dropUnder t n f) S) ∧ ((∀ m, n <:+ m → S0.low m = none) ∨ n ∈ ((onTree 0 (fun t => dropUnder t n f) S).mask 0).wh) := by
    rintro f S ⟨h, hs⟩
    refine ⟨⟨h.lower.trans (lowerSame_onTree _ S), ?_, ?_, ?_, Or.inr hs⟩, hs⟩
    · refine isTree_sub (L := S.layer 0) h.tree ?_ ?_
      · exact if_neg (fun hh => hn (List.suffix_nil.1 hh.1))
      · intro c d hc
        have hcd : ¬ (n <:+ c :: d ∧ anyUp (fun a => decide (n <:+ a) && f a) (c :: d) = true) := fun hh => hc (if_pos hh)
        refine ⟨if_neg hcd, if_neg fun hh => hcd ⟨hh.1.trans (List.suffix_cons c d), ?_⟩⟩
        rw [anyUp_iff] at hh ⊢
        obtain ⟨_, a, ha, hf⟩ := hh
        exact ⟨a, ha.trans (List.suffix_cons c d), hf⟩
    · intro m hm
      refine ⟨?_, (h.out m hm).2⟩
      rw [← (h.out m hm).1]
      exact if_neg (fun hh => hm hh.1)
    · intro m hm
      by_cases hh : n <:+ m ∧ anyUp (fun a => decide (n <:+ a) && f a) m = true
      · exact Or.inr (if_pos hh)
      · rcases h.inn m hm with e | e
        · left; rw [← e]; exact if_neg hh
        · right; rw [← e]; exact if_neg hh
  have all : ∀ fs, Holds (RemMid n S0) (fun S => RemMid n S0 S ∧ ((∀ m, n <:+ m → S0.low m = none) ∨ n ∈ (S.mask 0).wh)) (removeSteps 0 n fs)
      (fun r S => r = .ok () ∧ RemMid n S0 S ∧ ((∀ m, n <:+ m → S0.low m = none) ∨ n ∈ (S.mask 0).wh)) := by
    intro fs
    induction fs with
    | nil => exact Holds.pure fun s h => ⟨rfl, h⟩
    | cons f fs ih =>
      refine Holds.bind (fun r S => r = .ok () ∧ RemMid n S0 S ∧ ((∀ m, n <:+ m → S0.low m = none) ∨ n ∈ (S.mask 0).wh)) ?_ (fun _ => ?_) (fun e s h => by cases h.1)
      · exact Holds.modify (fun s h => (step f s h).1) (fun s h => ⟨rfl, step f s h⟩)
      · exact ih.weaken (fun s h => h.2) (fun s h => h) (fun r s h => h)
  refine Holds.bind _ (all fs) (fun _ => ?_) (fun e s h => by cases h.1)
  refine Holds.modify (fun s h => (step _ s h.2).1) (fun s h => ⟨rfl, (step _ s h.2).1, (step _ s h.2).2, fun _ m hm => ?_⟩)
  show (if _ then _ else _) = _
  exact if_pos ⟨hm, anyUp_iff.2 ⟨n, hm, by simp⟩⟩

theorem holds_fsRemoveAll {S0 : Sys} (hS : S0.Trees) {c : Str} {d : Name} (hd : S0.ViewDir d) (fs : List (Name → Bool)) :
    Holds (RemMid (c :: d) S0) (Masked (c :: d) S0) (fsRemoveAll 0 (c :: d) fs) (fun r S => r = .ok () ∧ Removed (c :: d) S0 r S) := by
  have hT := hS 0 (Nat.zero_le _)
  refine Holds.fix fun S h => ?_
  have hent := S0.top_entry hT (c := c) hd
  rw [show (S0.layer 0) = S.layer 0 by rw [h.layer]] at hent
  refine Holds.bind (fun r s => r = .ok S ∧ s = S) (Holds.get fun s hs => by rw [hs]; exact ⟨rfl, rfl⟩) (fun X => ?_) (fun e s h => by cases h.1)
  by_cases hX : X = S
  · rw [hX]
    refine Holds.weaken (P' := fun s => s = S) ?_ (fun s h => h.2) (fun s h => h) (fun r s h => h)
    rcases hent with ⟨⟨m0, hm0⟩, he⟩ | ⟨hnone, he⟩
    · rw [he]
      simp only [reduceCtorEq, if_false]
      exact (holds_removeSteps (by simp) fs).weaken (fun s hs => by rw [hs]; exact ⟨h.mid hT, h.shut⟩) (fun s h => h) (fun r s h => h)
    · rw [he]
      simp only
      refine Holds.pure fun s hs => ⟨rfl, ?_⟩
      rw [hs]
      refine ⟨h.mid hT, h.shut, fun _ m hm => ?_⟩
      rw [h.top]
      exact top_none_below hT hnone ((List.suffix_cons c d).trans hm)
  · intro s hs
    exact absurd (by injection hs.1) hX

/-- What `unlink` leaves. -/
theorem holds_unlink {S0 : Sys} (hS : S0.Trees) {n : Name} (hn : n ≠ []) {rm : Op Unit}
    (hrm : Holds (RemMid n S0) (Masked n S0) rm (Removed n S0)) :
    Holds (RemMid n S0) (fun S => S = S0) (unlink n rm) (fun r S => RemMid n S0 S ∧ (r = .ok () → ∀ m, n <:+ m → S.view m = none)) := by
  have hT := hS 0 (Nat.zero_le _)
  refine Holds.bind _ (holds_maskRemoved hS n) (fun _ => ?_) (fun e s h => ?_)
  · refine Holds.bind (fun r S => match r with | .ok r => Removed n S0 r S | .error _ => False) (Holds.attempt hrm) (fun r => ?_) (fun e s h => h.elim)
    cases r with
    | ok u => exact Holds.pure fun s h => ⟨h.1, fun _ m hm => h.1.gone hn (h.2.2 (Or.inl rfl)) h.2.1 hm⟩
    | error e =>
      cases e with
      | notExist => exact Holds.pure fun s h => ⟨h.1, fun _ m hm => h.1.gone hn (h.2.2 (Or.inr rfl)) h.2.1 hm⟩
      | _ => exact Holds.fail fun s h => ⟨h.1, fun e => by cases e⟩
  · have e1 : s = S0 := h
    rw [e1]
    exact ⟨RemMid.refl hT, fun e => by cases e⟩

/-! ### the property -/

/-- Between `S` and `S'` nothing outside `n` changed, and nothing at or under `n` appeared or changed: it can only have gone. -/
def OnlyGone (n : Name) (S S' : Sys) : Prop :=
  (∀ m, ¬ n <:+ m → S'.view m = S.view m) ∧ ∀ m, n <:+ m → S'.view m = S.view m ∨ S'.view m = none

theorem RemMid.only {n : Name} {S0 S : Sys} (hT : (S0.layer 0).IsTree) (hn : n ≠ []) (h : RemMid n S0 S) : OnlyGone n S0 S :=
  ⟨fun _ hm => h.view_out hT hm, fun _ hm => h.view_in hT hn hm⟩

theorem OnlyGone.refl (n : Name) (S : Sys) : OnlyGone n S S := ⟨fun _ _ => rfl, fun _ _ => Or.inl rfl⟩

theorem holds_removeOp {S : Sys} (hS : S.Trees) (hL : (S.layer 0).Lists) {c : Str} {d : Name} (hd : S.ViewDir d) :
    Holds (OnlyGone (c :: d) S) (fun s => s = S) (removeOp (c :: d)) (fun r S' => OnlyGone (c :: d) S S' ∧ (r = .ok () → ∀ m, c :: d <:+ m → S'.view m = none)) := by
  have hT := hS 0 (Nat.zero_le _)
  have hu : Holds (OnlyGone (c :: d) S) (fun s => s = S) (unlink (c :: d) (fsRemove 0 (c :: d))) (fun r S' => OnlyGone (c :: d) S S' ∧ (r = .ok () → ∀ m, c :: d <:+ m → S'.view m = none)) :=
    (holds_unlink hS (by simp) (holds_fsRemove hS hL hd)).weaken (fun s h => h) (fun s h => h.only hT (by simp)) (fun r s h => ⟨h.1.only hT (by simp), h.2⟩)
  have hf : ∀ e, Holds (OnlyGone (c :: d) S) (fun s => s = S) (Prog.fail e) (fun (r : Except Errno Unit) S' => OnlyGone (c :: d) S S' ∧ (r = .ok () → ∀ m, c :: d <:+ m → S'.view m = none)) :=
    fun e => Holds.fail fun s h => by rw [h]; exact ⟨OnlyGone.refl _ _, fun e => by cases e⟩
  refine Holds.bind (fun _ s => s = S) (Holds.get fun s hs => hs) (fun X => ?_) (fun e s h => by rw [h]; exact ⟨OnlyGone.refl _ _, fun e => by cases e⟩)
  rw [if_neg (by simp)]
  split
  · exact hf _
  · refine Holds.bind (fun _ s => s = S) ?_ (fun _ => hu) (fun e s h => by rw [h]; exact ⟨OnlyGone.refl _ _, fun e => by cases e⟩)
    refine Holds.bind (fun _ s => s = S) (Holds.get fun s hs => hs) (fun X => ?_) (fun e s h => h)
    split
    · exact Holds.fail fun s h => h
    · exact Holds.pure fun s h => h
    · exact Holds.fail fun s h => h
  · exact hu

theorem holds_removeAllOp {S : Sys} (hS : S.Trees) {c : Str} {d : Name} (hd : S.ViewDir d) (steps : List (Name → Bool)) :
    Holds (OnlyGone (c :: d) S) (fun s => s = S) (removeAllOp (c :: d) steps) (fun r S' => OnlyGone (c :: d) S S' ∧ (r = .ok () → ∀ m, c :: d <:+ m → S'.view m = none)) := by
  have hT := hS 0 (Nat.zero_le _)
  have hu : Holds (OnlyGone (c :: d) S) (fun s => s = S) (unlink (c :: d) (fsRemoveAll 0 (c :: d) steps)) (fun r S' => OnlyGone (c :: d) S S' ∧ (r = .ok () → ∀ m, c :: d <:+ m → S'.view m = none)) :=
    (holds_unlink hS (by simp) ((holds_fsRemoveAll hS hd steps).weaken (fun s h => h) (fun s h => h) (fun r s h => h.2))).weaken
      (fun s h => h) (fun s h => h.only hT (by simp)) (fun r s h => ⟨h.1.only hT (by simp), h.2⟩)
  refine Holds.bind (fun r s => r = .ok s ∧ s = S) (Holds.get fun s hs => ⟨rfl, hs⟩) (fun X => ?_) (fun e s h => by cases h.1)
  rw [if_neg (by simp)]
  cases hl : X.lookup (c :: d) with
  | ok x => exact hu.weaken (fun s h => h.2) (fun s h => h) (fun r s h => h)
  | error e =>
    by_cases he : e = .notExist
    · subst he
      refine Holds.pure fun s h => ?_
      have e1 : X = S := by have h1 := h.1; injection h1 with h1; rw [h1]; exact h.2
      rw [h.2]
      refine ⟨OnlyGone.refl _ _, fun _ m hm => ?_⟩
      have h0 : S.view (c :: d) = none := by rw [S.view_cons hd, ← e1, hl]
      obtain ⟨r, rfl⟩ := hm
      induction r with
      | nil => exact h0
      | cons c' r ih => exact S.view_none_of_parent (fun hv => by obtain ⟨m, hm⟩ := hv; exact absurd (ih.symm.trans hm) (by simp))
    · cases e <;> first | exact absurd rfl he | exact Holds.fail fun s h => by rw [h.2]; exact ⟨OnlyGone.refl _ _, fun e => by cases e⟩

/-- **C55**, `Remove`: after a success the name and everything beneath it is absent and every other name shows what it showed before; at every
crash point, and after a failure, nothing outside has changed and nothing at or under the name has appeared or changed. The name is one whose
directory is shown as a directory, as every resolved name is. -/
theorem C55_remove {S : Sys} (hS : S.Trees) (hL : (S.layer 0).Lists) {c : Str} {d : Name} (hd : S.ViewDir d) :
    (result (removeOp (c :: d)) S = .ok () → (∀ m, c :: d <:+ m → (final (removeOp (c :: d)) S).view m = none) ∧
      ∀ m, ¬ c :: d <:+ m → (final (removeOp (c :: d)) S).view m = S.view m) ∧
    (∀ S' ∈ crashes (removeOp (c :: d)) S, OnlyGone (c :: d) S S') ∧ OnlyGone (c :: d) S (final (removeOp (c :: d)) S) := by
  have h := holds_removeOp hS hL (c := c) hd S rfl
  exact ⟨fun hr => ⟨h.2.2 hr, h.2.1.1⟩, h.1, h.2.1⟩

/-- **C55**, `RemoveAll`, whatever the order in which the top's own removal proceeds. -/
theorem C55_removeAll {S : Sys} (hS : S.Trees) {c : Str} {d : Name} (hd : S.ViewDir d) (steps : List (Name → Bool)) :
    (result (removeAllOp (c :: d) steps) S = .ok () → (∀ m, c :: d <:+ m → (final (removeAllOp (c :: d) steps) S).view m = none) ∧
      ∀ m, ¬ c :: d <:+ m → (final (removeAllOp (c :: d) steps) S).view m = S.view m) ∧
    (∀ S' ∈ crashes (removeAllOp (c :: d) steps) S, OnlyGone (c :: d) S S') ∧ OnlyGone (c :: d) S (final (removeAllOp (c :: d) steps) S) := by
  have h := holds_removeAllOp hS (c := c) hd steps S rfl
  exact ⟨fun hr => ⟨h.2.2 hr, h.2.1.1⟩, h.1, h.2.1⟩

/-- A directory that shows something is not removed by `Remove`: nothing changes and an error is returned. (Under the proviso of C53: what a lower
layer shows through a symlink of its own is not seen by the check.) -/
theorem C55_nonempty_refused_partial {S : Sys} (hS : S.Trees) (hl : S.ListsAll) {n : Name} (hn0 : S.NoLinkAbove n) (hn : S.NoLinkAt n) {c : Str}
    (hc : S.view (c :: n) ≠ none) : (∃ e, result (removeOp n) S = .error e) ∧ final (removeOp n) S = S ∧ crashes (removeOp n) S = [] := by
  have hd := S.view_parent hc
  obtain ⟨m, hm⟩ := hd
  have hlk : ∃ i, S.lookup n = .ok (i, .dir m) := by
    cases n with
    | nil =>
      unfold Sys.view at hm
      split at hm
      · rename_i i nd h; cases hm; exact ⟨i, h⟩
      · cases hm
    | cons c' d =>
      rw [S.view_cons (S.view_parent (by rw [hm]; simp))] at hm
      split at hm
      · rename_i i nd h; cases hm; exact ⟨i, h⟩
      · cases hm
  obtain ⟨i, hi⟩ := hlk
  obtain ⟨es, hes, hmem, _⟩ := C53_listing_partial hS hl hn0 hn hi
  rw [S.view_cons ⟨m, hm⟩] at hc
  cases hlc : S.lookup (c :: n) with
  | error e => rw [hlc] at hc; exact absurd rfl hc
  | ok x =>
    have hx := (hmem c x.1 x.2).2 hlc
    obtain ⟨y, ys, hy⟩ : ∃ y ys, es = y :: ys := by
      cases es with
      | nil => cases hx
      | cons y ys => exact ⟨y, ys, rfl⟩
    rw [hy] at hes
    have key : removeOp n S = ([], S, .error (if n = [] then .inval else .notEmpty)) := by
      by_cases e : n = []
      · simp only [removeOp, Bind.bind, Prog.bind, Prog.get, if_pos e, Prog.fail, List.append_nil]
      · simp only [removeOp, emptyCheck, Bind.bind, Prog.bind, Prog.get, if_neg e, hi, hes, Prog.fail, List.append_nil]
    unfold result final crashes
    rw [key]
    exact ⟨⟨_, rfl⟩, rfl, rfl⟩

open Example in
/-- Removing a file that a lower layer shows, a whole directory whose top part holds a mark, and the refusal of a directory that is not empty. -/
example : s1.Trees ∧ (s1.layer 0).Lists ∧ s1.ViewDir [a] ∧ s1.ViewDir [] ∧ s1.view [b, a] = some (.file 0o644 ['2']) ∧
    result (removeOp [b, a]) s1 = .ok () ∧ (final (removeOp [b, a]) s1).lookup [b, a] = .error .notExist ∧
    result (removeAllOp [a] [fun m => decide (m = [b, a])]) s1 = .ok () ∧ (crashes (removeAllOp [a] [fun m => decide (m = [b, a])]) s1).length = 3 ∧
    result (removeOp [a]) s1 = .error .notEmpty :=
  ⟨Example.s1_ok.1, Example.s1_ok.2.1 0 (Nat.zero_le _), ⟨_, rfl⟩, ⟨_, rfl⟩, rfl, rfl, rfl, rfl, rfl, rfl⟩

end Verif.Overlay.Stack
