import Verif.Overlay.LookupProps
import Verif.Overlay.Lower
/-
The merged view as one object, and how it depends on the top's tree, the top's marks and the lower layers.
-/
namespace Verif.Overlay.Stack
open Verif.Path Verif.Prog

/-- What the overlay shows at a name: the node found by looking up the name, provided every directory on the way is shown as a directory.
(Names with a symlink on the way are resolved before they are looked up.) -/
def Sys.view (S : Sys) : Name → Option Node
  | [] =>
    match S.lookup [] with
    | .ok (_, nd) => some nd
    | .error _ => none
  | c :: d =>
    match S.view d with
    | some (.dir _) =>
      match S.lookup (c :: d) with
      | .ok (_, nd) => some nd
      | .error _ => none
    | _ => none

/-- What the lower layers show at a name, the top and its marks left aside. -/
def Sys.low (S : Sys) (n : Name) : Option Node :=
  match S.lookupFrom n 1 with
  | .ok (_, nd) => some nd
  | .error _ => none

/-- The top's content. -/
def Sys.top (S : Sys) : Tree := (S.layer 0).tree

/-- A directory of the merged view. -/
def Sys.ViewDir (S : Sys) (d : Name) : Prop := ∃ m, S.view d = some (.dir m)

/-! ### shape -/

theorem Sys.view_parent {S : Sys} {c : Str} {d : Name} (h : S.view (c :: d) ≠ none) : S.ViewDir d := by
  unfold view at h
  split at h
  · rename_i m hm; exact ⟨m, hm⟩
  · exact absurd rfl h

theorem Sys.view_none_of_parent {S : Sys} {c : Str} {d : Name} (h : ¬ S.ViewDir d) : S.view (c :: d) = none := by
  cases hv : S.view (c :: d) with
  | none => rfl
  | some nd => exact absurd (S.view_parent (by rw [hv]; simp)) h

theorem Sys.ViewDir.parent {S : Sys} {c : Str} {d : Name} (h : S.ViewDir (c :: d)) : S.ViewDir d := by
  obtain ⟨m, hm⟩ := h
  exact S.view_parent (by rw [hm]; simp)

theorem Sys.ViewDir.suffix {S : Sys} {a d : Name} (h : S.ViewDir d) (ha : a <:+ d) : S.ViewDir a := by
  obtain ⟨r, rfl⟩ := ha
  induction r with
  | nil => exact h
  | cons c r ih => exact ih h.parent

theorem Sys.lookup_zero {S : Sys} {n : Name} {nd : Node} (h : (S.layer 0).lstat n = .ok nd) : S.lookup n = .ok (0, nd) := by
  rw [S.lookup_eq]
  unfold search
  rw [h]

theorem Sys.cut_masked {S : Sys} {n : Name} (h : S.Masks 0 n) : S.cutFrom n 0 = 0 := by
  apply Nat.le_antisymm
  · apply Decidable.byContradiction
    intro hlt
    have := (S.le_cutFrom n 0 1).1 (by omega)
    exact this.2 0 (Nat.le_refl 0) (by omega) h
  · exact Nat.zero_le _

theorem Sys.cut_unmasked {S : Sys} {n : Name} (h : ¬ S.Masks 0 n) : S.cutFrom n 0 = S.cutFrom n 1 := by
  have key : ∀ x, x ≤ S.cutFrom n 0 ↔ x ≤ S.cutFrom n 1 := by
    intro x
    rw [S.le_cutFrom, S.le_cutFrom]
    constructor
    · rintro ⟨h1, h2⟩; exact ⟨h1, fun j hj hx => h2 j (Nat.zero_le _) hx⟩
    · rintro ⟨h1, h2⟩
      refine ⟨h1, fun j _ hx => ?_⟩
      by_cases hj : j = 0
      · rw [hj]; exact h
      · exact h2 j (by omega) hx
  exact Nat.le_antisymm ((key _).1 (Nat.le_refl _)) ((key _).2 (Nat.le_refl _))

/-- The top has nothing but directories at and above a directory of the view. -/
theorem Sys.ViewDir.top_dirs {S : Sys} (hT : (S.layer 0).IsTree) : ∀ {d : Name}, S.ViewDir d → ∀ a nd, a <:+ d → S.top a = some nd → nd.isDir = true := by
  intro d
  induction d with
  | nil =>
    intro _ a nd ha h
    obtain ⟨m, hm⟩ := hT.root
    rw [List.suffix_nil.1 ha] at h
    unfold Sys.top at h
    rw [hm] at h; cases h; rfl
  | cons c d ih =>
    intro hd a nd ha h
    rcases List.suffix_cons_iff.1 ha with rfl | ha
    · have hpar := hd.parent
      have hl : (S.layer 0).lstat (c :: d) = .ok nd := by
        rw [Layer.lstat_eq hT]
        · unfold Sys.top at h; rw [h]
        · intro a t ha hne hh
          have := ih hpar a _ (suffix_cons_ne ha hne) hh
          cases this
      obtain ⟨m, hm⟩ := hd
      unfold view at hm
      obtain ⟨m', hm'⟩ := hpar
      rw [hm', S.lookup_zero hl] at hm
      cases hm; rfl
    · exact ih hd.parent a nd ha h

theorem Sys.ViewDir.noLink {S : Sys} (hT : (S.layer 0).IsTree) {d : Name} (h : S.ViewDir d) : (S.layer 0).NoLink d := by
  intro a t ha hh
  have := h.top_dirs hT a _ ha hh
  cases this

/-- In a directory of the view the top answers from its own tree. -/
theorem Sys.top_lstat {S : Sys} (hT : (S.layer 0).IsTree) {c : Str} {d : Name} (h : S.ViewDir d) : (S.layer 0).lstat (c :: d) =
    match S.top (c :: d) with
    | some nd => .ok nd
    | none => .error .notExist := by
  rw [Layer.lstat_eq hT (fun a t ha hne => h.noLink hT a t (suffix_cons_ne ha hne))]
  unfold Sys.top
  cases ht : (S.layer 0).tree (c :: d) with
  | some nd => rfl
  | none =>
    have hb : (S.layer 0).blk (c :: d) = false := by
      rw [Layer.blk_iff hT]
      intro a nd ha hnd
      rcases List.suffix_cons_iff.1 ha with rfl | ha
      · rw [ht] at hnd; cases hnd
      · exact h.top_dirs hT a nd ha hnd
    simp only [hb, Bool.false_eq_true, if_false]

theorem Sys.top_entry {S : Sys} (hT : (S.layer 0).IsTree) {c : Str} {d : Name} (h : S.ViewDir d) :
    (∃ m, S.top d = some (.dir m)) ∧ (S.layer 0).entry (c :: d) = .ok (c :: d) ∨
    S.top d = none ∧ (S.layer 0).entry (c :: d) = .error .notExist := by
  have he := Layer.realDir_eq hT (h.noLink hT)
  cases ht : S.top d with
  | none =>
    right
    refine ⟨rfl, ?_⟩
    have hb : (S.layer 0).blk d = false := (Layer.blk_iff hT).2 (h.top_dirs hT)
    unfold Sys.top at ht
    rw [ht, hb] at he
    simp only [Layer.entry]
    rw [he]; rfl
  | some nd =>
    left
    have hd := h.top_dirs hT d nd (List.suffix_refl d) ht
    cases nd with
    | dir m =>
      unfold Sys.top at ht
      rw [ht] at he
      refine ⟨⟨m, rfl⟩, ?_⟩
      simp only [Layer.entry]
      rw [he]
    | _ => cases hd

/-! ### the view in terms of the top and the lower layers -/

theorem Sys.view_root {S : Sys} (hT : (S.layer 0).IsTree) : S.view [] = S.top [] := by
  obtain ⟨m, hm⟩ := hT.root
  unfold view
  have : (S.layer 0).lstat [] = .ok (.dir m) := by simp only [Layer.lstat, Layer.entry, hm]
  rw [S.lookup_zero this]
  exact hm.symm

theorem Sys.viewDir_root {S : Sys} (hT : (S.layer 0).IsTree) : S.ViewDir [] := by
  obtain ⟨m, hm⟩ := hT.root
  exact ⟨m, by rw [S.view_root hT]; exact hm⟩

theorem Sys.view_cons {S : Sys} {c : Str} {d : Name} (h : S.ViewDir d) : S.view (c :: d) =
    match S.lookup (c :: d) with
    | .ok (_, nd) => some nd
    | .error _ => none := by
  obtain ⟨m, hm⟩ := h
  simp only [view, hm]

theorem Sys.lookup_top {S : Sys} (hT : (S.layer 0).IsTree) {c : Str} {d : Name} (h : S.ViewDir d) {nd : Node} (ht : S.top (c :: d) = some nd) :
    S.lookup (c :: d) = .ok (0, nd) := by
  have := S.top_lstat hT (c := c) h
  rw [ht] at this
  exact S.lookup_zero this

theorem Sys.lookup_masked {S : Sys} (hT : (S.layer 0).IsTree) {c : Str} {d : Name} (h : S.ViewDir d) (ht : S.top (c :: d) = none)
    (hm : S.Masks 0 (c :: d)) : S.lookup (c :: d) = .error .notExist := by
  have := S.top_lstat hT (c := c) h
  rw [ht] at this
  rw [S.lookup_eq, S.cut_masked hm]
  unfold search
  rw [this]
  rfl

theorem Sys.lookup_low {S : Sys} (hT : (S.layer 0).IsTree) {c : Str} {d : Name} (h : S.ViewDir d) (ht : S.top (c :: d) = none)
    (hm : ¬ S.Masks 0 (c :: d)) : S.lookup (c :: d) = S.lookupFrom (c :: d) 1 := by
  have := S.top_lstat hT (c := c) h
  rw [ht] at this
  rw [S.lookup_eq, S.cut_unmasked hm]
  unfold search
  rw [this]
  rfl

theorem Sys.view_top {S : Sys} (hT : (S.layer 0).IsTree) {c : Str} {d : Name} (h : S.ViewDir d) {nd : Node} (ht : S.top (c :: d) = some nd) :
    S.view (c :: d) = some nd := by
  rw [S.view_cons h, S.lookup_top hT h ht]

theorem Sys.view_masked {S : Sys} (hT : (S.layer 0).IsTree) {c : Str} {d : Name} (h : S.ViewDir d) (ht : S.top (c :: d) = none)
    (hm : S.Masks 0 (c :: d)) : S.view (c :: d) = none := by
  rw [S.view_cons h, S.lookup_masked hT h ht hm]

theorem Sys.view_low {S : Sys} (hT : (S.layer 0).IsTree) {c : Str} {d : Name} (h : S.ViewDir d) (ht : S.top (c :: d) = none)
    (hm : ¬ S.Masks 0 (c :: d)) : S.view (c :: d) = S.low (c :: d) := by
  rw [S.view_cons h, S.lookup_low hT h ht hm]
  rfl

/-! ### the lower layers -/

theorem Sys.search_congr {S S' : Sys} {n : Name} (p p' : Errno) : ∀ (k i : Nat), (∀ j, i ≤ j → S'.layer j = S.layer j) →
    ∀ x, S.search n p k i = .ok x → S'.search n p' k i = .ok x := by
  intro k
  induction k with
  | zero => intro i _ x h; cases h
  | succ k ih =>
    intro i hl x h
    unfold search at h ⊢
    rw [hl i (Nat.le_refl i)]
    have hl' : ∀ j, i + 1 ≤ j → S'.layer j = S.layer j := fun j hj => hl j (by omega)
    cases hnd : (S.layer i).lstat n with
    | ok nd => rw [hnd] at h; exact h
    | error e =>
      rw [hnd] at h
      cases e with
      | notExist => exact ih (i + 1) hl' x h
      | notDir =>
        simp only at h ⊢
        cases hb : (S.layer i).blockedIn n.tail with
        | error e => rw [hb] at h; cases h
        | ok b =>
          rw [hb] at h
          cases b with
          | true => cases h
          | false => exact ih (i + 1) hl' x h
      | _ => cases h

theorem LowerSame.cut {S S' : Sys} (h : LowerSame S S') (n : Name) : S'.cutFrom n 1 = S.cutFrom n 1 := by
  have hm : ∀ j, 1 ≤ j → (S'.Masks j n ↔ S.Masks j n) := by
    intro j hj
    unfold Sys.Masks
    rw [(h.2 j hj).2]
  have key : ∀ x, x ≤ S'.cutFrom n 1 ↔ x ≤ S.cutFrom n 1 := by
    intro x
    rw [Sys.le_cutFrom, Sys.le_cutFrom, h.1]
    constructor
    · rintro ⟨h1, h2⟩; exact ⟨h1, fun j hj hx => (not_congr (hm j hj)).1 (h2 j hj hx)⟩
    · rintro ⟨h1, h2⟩; exact ⟨h1, fun j hj hx => (not_congr (hm j hj)).2 (h2 j hj hx)⟩
  exact Nat.le_antisymm ((key _).1 (Nat.le_refl _)) ((key _).2 (Nat.le_refl _))

theorem LowerSame.symm {S S' : Sys} (h : LowerSame S S') : LowerSame S' S :=
  ⟨h.1.symm, fun i hi => ⟨(h.2 i hi).1.symm, (h.2 i hi).2.symm⟩⟩

/-- What the lower layers show depends on nothing else. -/
theorem LowerSame.lookup {S S' : Sys} (h : LowerSame S S') (n : Name) (x : Nat × Node) : S'.lookupFrom n 1 = .ok x ↔ S.lookupFrom n 1 = .ok x := by
  unfold Sys.lookupFrom
  rw [h.cut n]
  constructor
  · exact Sys.search_congr _ _ _ _ (fun j hj => (h.2 j hj).1.symm) x
  · exact Sys.search_congr _ _ _ _ (fun j hj => (h.2 j hj).1) x

theorem LowerSame.low {S S' : Sys} (h : LowerSame S S') (n : Name) : S'.low n = S.low n := by
  unfold Sys.low
  cases h1 : S.lookupFrom n 1 with
  | ok x => rw [(h.lookup n x).2 h1]
  | error e =>
    cases h2 : S'.lookupFrom n 1 with
    | ok x => rw [(h.lookup n x).1 h2] at h1; cases h1
    | error e' => rfl

theorem Layer.lstat_error {L : Layer} (hL : L.IsTree) {c : Str} {d : Name} {e : Errno} (h : L.lstat d = .error e) : L.lstat (c :: d) = .error e := by
  cases d with
  | nil =>
    obtain ⟨m, hm⟩ := hL.root
    simp only [lstat, entry, hm] at h
    cases h
  | cons c' d' =>
    simp only [lstat, entry] at h ⊢
    simp only [realDir]
    cases hr : L.realDir d' with
    | error e' => rw [hr] at h; exact h
    | ok r =>
      rw [hr] at h
      simp only at h ⊢
      cases ht : L.tree (c' :: r) with
      | none => rw [ht] at h; exact h
      | some nd => rw [ht] at h; cases h

theorem Sys.masks_mono {S : Sys} {j : Nat} {c : Str} {d : Name} (h : S.Masks j d) : S.Masks j (c :: d) :=
  (S.masks_cons j c d).2 (Or.inr ((S.masksBelow_iff j d).2 (Or.inl h)))

theorem Sys.cut_mono {S : Sys} {from_ : Nat} {c : Str} {d : Name} : S.cutFrom (c :: d) from_ ≤ S.cutFrom d from_ := by
  rw [S.le_cutFrom]
  have := (S.le_cutFrom (c :: d) from_ _).1 (Nat.le_refl _)
  exact ⟨this.1, fun j hj hx hm => this.2 j hj hx (S.masks_mono hm)⟩

theorem Sys.search_parent {S : Sys} (hS : S.Trees) {c : Str} {d : Name} (p p' : Errno) : ∀ (k k' i : Nat), k ≤ k' → i + k ≤ S.last + 1 →
    ∀ x, S.search (c :: d) p k i = .ok x → ∃ y, S.search d p' k' i = .ok y := by
  intro k
  induction k with
  | zero => intro k' i _ _ x h; cases h
  | succ k ih =>
    intro k' i hk hle x h
    obtain ⟨k', rfl⟩ : ∃ k'', k' = k'' + 1 := ⟨k' - 1, by omega⟩
    have hL := hS i (by omega)
    unfold search at h ⊢
    cases hd : (S.layer i).lstat d with
    | ok nd => exact ⟨_, rfl⟩
    | error e =>
      rw [Layer.lstat_error hL hd] at h
      have hne : d ≠ [] := by
        rintro rfl
        obtain ⟨m, hm⟩ := hL.root
        simp only [Layer.lstat, Layer.entry, hm] at hd
        cases hd
      obtain ⟨c', d', rfl⟩ := List.exists_cons_of_ne_nil hne
      cases e with
      | notExist => exact ih k' (i + 1) (by omega) (by omega) x h
      | notDir =>
        simp only [List.tail_cons] at h ⊢
        have hb : (S.layer i).blockedIn (c' :: d') = (S.layer i).blockedIn d' := by
          simp only [Layer.blockedIn, hd]
        rw [hb] at h
        cases hbi : (S.layer i).blockedIn d' with
        | error e => rw [hbi] at h; cases h
        | ok b =>
          rw [hbi] at h
          cases b with
          | true => cases h
          | false => exact ih k' (i + 1) (by omega) (by omega) x h
      | _ => cases h

/-- The lower layers show nothing beneath a name they do not show. -/
theorem Sys.low_parent {S : Sys} (hS : S.Trees) {c : Str} {d : Name} (h : S.low d = none) : S.low (c :: d) = none := by
  cases hl : S.low (c :: d) with
  | none => rfl
  | some nd =>
    exfalso
    unfold low at h hl
    cases h1 : S.lookupFrom (c :: d) 1 with
    | error e => rw [h1] at hl; cases hl
    | ok x =>
      have hc := S.cutFrom_le_last (c :: d) 1
      unfold lookupFrom at h1
      obtain ⟨y, hy⟩ := S.search_parent hS _ (S.perr d) _ (S.cutFrom d 1 + 1 - 1) 1
        (by have := S.cut_mono (from_ := 1) (c := c) (d := d); omega) (by omega) x h1
      have : S.lookupFrom d 1 = .ok y := hy
      rw [this] at h
      cases h

theorem Sys.low_below {S : Sys} (hS : S.Trees) {d n : Name} (h : S.low d = none) (hn : d <:+ n) : S.low n = none := by
  obtain ⟨r, rfl⟩ := hn
  induction r with
  | nil => exact h
  | cons c r ih => exact S.low_parent hS ih

/-! ### equal views -/

/-- Two states of an overlay that agree about a name and everything above it show the same there. -/
theorem view_congr {S S' : Sys} (hT : (S.layer 0).IsTree) (hT' : (S'.layer 0).IsTree) (hl : LowerSame S S') : ∀ {n : Name},
    (∀ a, a <:+ n → S'.top a = S.top a ∧ (S'.Masks 0 a ↔ S.Masks 0 a)) → S'.view n = S.view n := by
  intro n
  induction n with
  | nil =>
    intro h
    rw [S.view_root hT, S'.view_root hT', (h [] (List.suffix_refl _)).1]
  | cons c d ih =>
    intro h
    have hd := ih (fun a ha => h a (ha.trans (List.suffix_cons c d)))
    obtain ⟨ht, hm⟩ := h (c :: d) (List.suffix_refl _)
    by_cases hv : S.ViewDir d
    · have hv' : S'.ViewDir d := by
        obtain ⟨m, hm⟩ := hv
        exact ⟨m, by rw [hd]; exact hm⟩
      cases htop : S.top (c :: d) with
      | some nd => rw [S.view_top hT hv htop, S'.view_top hT' hv' (ht.trans htop)]
      | none =>
        by_cases hmask : S.Masks 0 (c :: d)
        · rw [S.view_masked hT hv htop hmask, S'.view_masked hT' hv' (ht.trans htop) (hm.2 hmask)]
        · rw [S.view_low hT hv htop hmask, S'.view_low hT' hv' (ht.trans htop) (fun h => hmask (hm.1 h)), hl.low]
    · have hv' : ¬ S'.ViewDir d := by
        rintro ⟨m, hm⟩
        exact hv ⟨m, by rw [← hd]; exact hm⟩
      rw [S.view_none_of_parent hv, S'.view_none_of_parent hv']

/-- Marks on the name and above it decide what hides it. -/
theorem masks_congr {S S' : Sys} {n : Name} (h : ∀ a, a <:+ n → (a ∈ (S'.mask 0).wh ↔ a ∈ (S.mask 0).wh) ∧ (a ≠ n → (a ∈ (S'.mask 0).op ↔ a ∈ (S.mask 0).op))) :
    S'.Masks 0 n ↔ S.Masks 0 n := by
  unfold Sys.Masks
  constructor
  · rintro (h1 | ⟨a, h1, h2, h3⟩)
    · exact Or.inl ((h n (List.suffix_refl _)).1.1 h1)
    · exact Or.inr ⟨a, h1, h2, h3.imp (h a h1).1.1 ((h a h1).2 h2).1⟩
  · rintro (h1 | ⟨a, h1, h2, h3⟩)
    · exact Or.inl ((h n (List.suffix_refl _)).1.2 h1)
    · exact Or.inr ⟨a, h1, h2, h3.imp (h a h1).1.2 ((h a h1).2 h2).2⟩

theorem masks_of_wh {S : Sys} {a n : Name} (ha : a <:+ n) (h : a ∈ (S.mask 0).wh) : S.Masks 0 n := by
  by_cases e : a = n
  · exact Or.inl (e ▸ h)
  · exact Or.inr ⟨a, ha, e, Or.inl h⟩

theorem masks_of_op {S : Sys} {a n : Name} (ha : a <:+ n) (hne : a ≠ n) (h : a ∈ (S.mask 0).op) : S.Masks 0 n := Or.inr ⟨a, ha, hne, Or.inr h⟩

end Verif.Overlay.Stack
