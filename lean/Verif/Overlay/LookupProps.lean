import Verif.Overlay.Layers
/-
Lookup and listing of the merged view agree with each other and with the usual definition of an overlay (C53).
-/
namespace Verif.Overlay.Stack
open Verif.Path

/-! ### specification -/

/-- What a layer must be: a tree (the root is a directory, every entry is in a directory). -/
structure Layer.IsTree (L : Layer) : Prop where
  root : ∃ m, L.tree [] = some (.dir m)
  closed : ∀ c d, L.tree (c :: d) ≠ none → ∃ m, L.tree d = some (.dir m)

/-- The layer lists a directory completely and without repetition, in some order. -/
def Layer.Lists (L : Layer) : Prop :=
  ∀ d m, L.tree d = some (.dir m) → (L.enum L.tree d).Nodup ∧ ∀ c, c ∈ L.enum L.tree d ↔ L.tree (c :: d) ≠ none

/-- Layer `j` hides the name from the layers below it: it holds the name itself, a whiteout on it or on a directory above it, an opaque mark
on a directory above it, or something that is not a directory in the place of a directory above it. -/
def Sys.Hides (S : Sys) (j : Nat) (n : Name) : Prop :=
  (S.layer j).tree n ≠ none ∨ (∃ a, a <:+ n ∧ a ∈ (S.mask j).wh) ∨ (∃ a, a <:+ n ∧ a ≠ n ∧ a ∈ (S.mask j).op) ∨
    ∃ a nd, a <:+ n ∧ a ≠ n ∧ (S.layer j).tree a = some nd ∧ nd.isDir = false

/-- The merged view shows layer `i`'s node at the name: the layer holds it and no layer above hides it. -/
def Sys.Shows (S : Sys) (i : Nat) (n : Name) (nd : Node) : Prop :=
  i ≤ S.last ∧ (S.layer i).tree n = some nd ∧ ∀ j, j < i → ¬ S.Hides j n

/-- A mark of layer `j` that hides the name from the layers below. -/
def Sys.Masks (S : Sys) (j : Nat) (n : Name) : Prop :=
  n ∈ (S.mask j).wh ∨ ∃ a, a <:+ n ∧ a ≠ n ∧ (a ∈ (S.mask j).wh ∨ a ∈ (S.mask j).op)

/-- A mark of layer `j` that hides everything beneath `d`. -/
def Sys.MasksBelow (S : Sys) (j : Nat) (d : Name) : Prop := ∃ a, a <:+ d ∧ (a ∈ (S.mask j).wh ∨ a ∈ (S.mask j).op)

/-- No layer keeps a symlink at a directory above the name, layers that marks of higher layers hide there excepted. -/
def Sys.NoLinkAbove (S : Sys) (n : Name) : Prop :=
  ∀ j a t, j ≤ S.last → (∀ k, k < j → ¬ S.Masks k n) → a <:+ n → a ≠ n → (S.layer j).tree a ≠ some (.link t)

/-- No layer keeps a symlink at the directory or above it, layers that marks of higher layers hide beneath it excepted. -/
def Sys.NoLinkAt (S : Sys) (d : Name) : Prop :=
  ∀ j a t, j ≤ S.last → (∀ k, k < j → ¬ S.MasksBelow k d) → a <:+ d → (S.layer j).tree a ≠ some (.link t)

/-! ### cut -/

theorem cons_ne_suffix {c : Str} {d a : Name} (h : a <:+ d) : a ≠ c :: d := by
  intro e
  have := h.length_le
  rw [e] at this
  simp at this
  omega

theorem suffix_cons_ne {c : Str} {d a : Name} (h : a <:+ c :: d) (hne : a ≠ c :: d) : a <:+ d := by
  rcases List.suffix_cons_iff.1 h with h | h
  · exact absurd h hne
  · exact h

theorem Sys.masks_cons (S : Sys) (j : Nat) (c : Str) (d : Name) : S.Masks j (c :: d) ↔ (c :: d) ∈ (S.mask j).wh ∨ S.MasksBelow j d := by
  unfold Masks MasksBelow
  constructor
  · rintro (h | ⟨a, h1, h2, h3⟩)
    · exact Or.inl h
    · exact Or.inr ⟨a, suffix_cons_ne h1 h2, h3⟩
  · rintro (h | ⟨a, h1, h2⟩)
    · exact Or.inl h
    · exact Or.inr ⟨a, h1.trans (List.suffix_cons c d), cons_ne_suffix h1, h2⟩

theorem Sys.masksBelow_iff (S : Sys) (j : Nat) (d : Name) : S.MasksBelow j d ↔ S.Masks j d ∨ d ∈ (S.mask j).op := by
  unfold Masks MasksBelow
  constructor
  · rintro ⟨a, h1, h2⟩
    by_cases h : a = d
    · subst h
      rcases h2 with h2 | h2
      · exact Or.inl (Or.inl h2)
      · exact Or.inr h2
    · exact Or.inl (Or.inr ⟨a, h1, h, h2⟩)
  · rintro ((h | ⟨a, h1, _, h3⟩) | h)
    · exact ⟨d, List.suffix_refl d, Or.inl h⟩
    · exact ⟨a, h1, h3⟩
    · exact ⟨d, List.suffix_refl d, Or.inr h⟩

theorem scan_le (p : Nat → Bool) (x : Nat) : ∀ (k i cut : Nat), i + k = cut + 1 ∨ (k = 0 ∧ cut + 1 ≤ i) →
    (x ≤ scan p cut k i ↔ x ≤ cut ∧ ∀ j, i ≤ j → j < x → p j = false) := by
  intro k
  induction k with
  | zero =>
    intro i cut h
    simp only [scan]
    constructor
    · intro hx
      exact ⟨hx, by intro j h1 h2; omega⟩
    · exact fun hx => hx.1
  | succ k ih =>
    intro i cut h
    have h : i + (k + 1) = cut + 1 := by omega
    simp only [scan]
    cases hp : p i with
    | true =>
      simp only [if_true]
      constructor
      · intro hx
        exact ⟨by omega, by intro j h1 h2; omega⟩
      · rintro ⟨h1, h2⟩
        apply Decidable.byContradiction
        intro hlt
        have := h2 i (Nat.le_refl i) (by omega)
        rw [hp] at this; cases this
    | false =>
      simp only [Bool.false_eq_true, if_false]
      rw [ih (i + 1) cut (by omega)]
      constructor
      · rintro ⟨h1, h2⟩
        refine ⟨h1, ?_⟩
        intro j hj1 hj2
        by_cases hji : j = i
        · rw [hji]; exact hp
        · exact h2 j (by omega) hj2
      · rintro ⟨h1, h2⟩
        exact ⟨h1, fun j hj1 hj2 => h2 j (by omega) hj2⟩

theorem scan_le' (p : Nat → Bool) (x from_ cut : Nat) :
    (x ≤ scan p cut (cut + 1 - from_) from_ ↔ x ≤ cut ∧ ∀ j, from_ ≤ j → j < x → p j = false) := by
  apply scan_le
  omega

theorem Sys.le_cutGo (S : Sys) (from_ x : Nat) : ∀ (n : Name) (self : Bool) (cut : Nat),
    (x ≤ S.cutGo from_ n self cut ↔ x ≤ cut ∧ ∀ j, from_ ≤ j → j < x → ¬ (if self then S.Masks j n else S.MasksBelow j n)) := by
  intro n
  induction n with
  | nil =>
    intro self cut
    unfold cutGo
    rw [scan_le']
    have hb : ∀ j, (S.marked [] self j = false ↔ ¬ (if self then S.Masks j [] else S.MasksBelow j [])) := by
      intro j
      unfold marked Masks MasksBelow
      cases self <;> simp
    constructor
    · rintro ⟨h1, h2⟩; exact ⟨h1, fun j a b => (hb j).1 (h2 j a b)⟩
    · rintro ⟨h1, h2⟩; exact ⟨h1, fun j a b => (hb j).2 (h2 j a b)⟩
  | cons c d ih =>
    intro self cut
    unfold cutGo
    rw [ih, scan_le', and_assoc]
    have hb : ∀ j, (S.marked (c :: d) self j = false ∧ ¬ S.MasksBelow j d) ↔
        ¬ (if self then S.Masks j (c :: d) else S.MasksBelow j (c :: d)) := by
      intro j
      cases self with
      | true =>
        simp only [if_true, masks_cons, not_or, marked]
        simp
      | false =>
        simp only [Bool.false_eq_true, if_false, masksBelow_iff S j (c :: d), masks_cons, not_or, marked]
        simp only [Bool.or_eq_false_iff, decide_eq_false_iff_not, Bool.not_false, Bool.and_true]
        constructor
        · rintro ⟨⟨h1, h2⟩, h3⟩; exact ⟨⟨h1, h3⟩, h2⟩
        · rintro ⟨⟨h1, h3⟩, h2⟩; exact ⟨⟨h1, h2⟩, h3⟩
    simp only [Bool.false_eq_true, if_false]
    constructor
    · rintro ⟨h1, h2, h3⟩; exact ⟨h1, fun j a b => (hb j).1 ⟨h2 j a b, h3 j a b⟩⟩
    · rintro ⟨h1, h2⟩; exact ⟨h1, fun j a b => ((hb j).2 (h2 j a b)).1, fun j a b => ((hb j).2 (h2 j a b)).2⟩

theorem Sys.le_cutFrom (S : Sys) (n : Name) (from_ x : Nat) :
    x ≤ S.cutFrom n from_ ↔ x ≤ S.last ∧ ∀ j, from_ ≤ j → j < x → ¬ S.Masks j n := by
  unfold cutFrom
  rw [le_cutGo]
  simp

theorem Sys.le_childCut (S : Sys) (d : Name) (x : Nat) : x ≤ S.childCut d ↔ x ≤ S.last ∧ ∀ j, j < x → ¬ S.MasksBelow j d := by
  unfold childCut cut
  rw [scan_le _ _ _ _ _ (by omega), le_cutFrom]
  simp only [masksBelow_iff, not_or, decide_eq_false_iff_not]
  constructor
  · rintro ⟨⟨h1, h2⟩, h3⟩; exact ⟨h1, fun j hj => ⟨h2 j (Nat.zero_le _) hj, h3 j (Nat.zero_le _) hj⟩⟩
  · rintro ⟨h1, h2⟩; exact ⟨⟨h1, fun j _ hj => (h2 j hj).1⟩, fun j _ hj => (h2 j hj).2⟩

theorem Sys.whiteoutAbove_iff (S : Sys) (i : Nat) (n : Name) : S.whiteoutAbove i n = true ↔ ∃ j, j < i ∧ n ∈ (S.mask j).wh := by
  unfold whiteoutAbove
  simp

/-! ### a layer without symlinks on the way -/

/-- The nearest thing the layer holds at the name or above it is not a directory. -/
def Layer.blk (L : Layer) : Name → Bool
  | [] => match L.tree [] with
    | some nd => !nd.isDir
    | none => false
  | c :: d => match L.tree (c :: d) with
    | some nd => !nd.isDir
    | none => L.blk d

/-- Nowhere at or above the name does the layer hold a symlink. -/
def Layer.NoLink (L : Layer) (n : Name) : Prop := ∀ a t, a <:+ n → L.tree a ≠ some (.link t)

theorem Layer.NoLink.tail {L : Layer} {c : Str} {d : Name} (h : L.NoLink (c :: d)) : L.NoLink d :=
  fun a t ha => h a t (ha.trans (List.suffix_cons c d))

theorem Layer.blk_dir {L : Layer} {n : Name} {m : Nat} (h : L.tree n = some (.dir m)) : L.blk n = false := by
  cases n with
  | nil => unfold blk; rw [h]; rfl
  | cons c d => unfold blk; rw [h]; rfl

theorem Layer.realDir_eq {L : Layer} (hL : L.IsTree) : ∀ {n : Name}, L.NoLink n → L.realDir n =
    match L.tree n with
    | some (.dir _) => .ok n
    | _ => .error (if L.blk n then .notDir else .notExist) := by
  intro n
  induction n with
  | nil =>
    intro _
    obtain ⟨m, hm⟩ := hL.root
    rw [hm]; rfl
  | cons c d ih =>
    intro hn
    unfold realDir
    rw [ih hn.tail]
    cases hd : L.tree d with
    | none =>
      have hc : L.tree (c :: d) = none := by
        cases h : L.tree (c :: d) with
        | none => rfl
        | some nd =>
          obtain ⟨m, hm⟩ := hL.closed c d (by rw [h]; simp)
          rw [hd] at hm; cases hm
      simp only [hc, blk]
    | some nd =>
      cases nd with
      | dir m =>
        simp only
        cases hc : L.tree (c :: d) with
        | none => simp only [blk, hc, blk_dir hd]; rfl
        | some x =>
          cases x with
          | dir m' => rfl
          | link t => exact absurd hc (hn (c :: d) t (List.suffix_refl _))
          | file m' dt => simp only [blk, hc]; rfl
          | special => simp only [blk, hc]; rfl
      | _ =>
        have hc : L.tree (c :: d) = none := by
          cases h : L.tree (c :: d) with
          | none => rfl
          | some nd =>
            obtain ⟨m, hm⟩ := hL.closed c d (by rw [h]; simp)
            rw [hd] at hm; cases hm
        simp only [hc, blk]

theorem Layer.lstat_eq {L : Layer} (hL : L.IsTree) {n : Name} (hn : ∀ a t, a <:+ n → a ≠ n → L.tree a ≠ some (.link t)) : L.lstat n =
    match L.tree n with
    | some nd => .ok nd
    | none => .error (if L.blk n then .notDir else .notExist) := by
  cases n with
  | nil =>
    obtain ⟨m, hm⟩ := hL.root
    simp only [lstat, entry, hm]
  | cons c d =>
    have hd : L.NoLink d := fun a t ha => hn a t (ha.trans (List.suffix_cons c d)) (cons_ne_suffix ha)
    simp only [lstat, entry]
    rw [realDir_eq hL hd]
    cases hc : L.tree (c :: d) with
    | some nd =>
      obtain ⟨m, hm⟩ := hL.closed c d (by rw [hc]; simp)
      rw [hm]; simp only [hc]
    | none =>
      cases ht : L.tree d with
      | none => simp only [blk, hc]
      | some x =>
        cases x with
        | dir m => simp only [hc, blk, blk_dir ht]; rfl
        | _ => simp only [blk, hc]

theorem Layer.blockedIn_eq {L : Layer} (hL : L.IsTree) : ∀ {n : Name}, L.NoLink n → L.blockedIn n = .ok (L.blk n) := by
  intro n
  induction n with
  | nil =>
    intro _
    obtain ⟨m, hm⟩ := hL.root
    simp only [blockedIn, lstat, entry, hm, blk]
  | cons c d ih =>
    intro hn
    unfold blockedIn
    rw [lstat_eq hL (fun a t ha _ => hn a t ha)]
    cases hc : L.tree (c :: d) with
    | some nd => simp only [blk, hc]
    | none =>
      simp only [blk, hc]
      cases hb : L.blk d with
      | true => simp only [if_true]; rw [ih hn.tail, hb]
      | false => simp only [Bool.false_eq_true, if_false]

theorem Layer.entry_dir {L : Layer} (hL : L.IsTree) {n : Name} (hn : L.NoLink n) {m : Nat} (h : L.tree n = some (.dir m)) : L.entry n = .ok n := by
  cases n with
  | nil => rfl
  | cons c d =>
    obtain ⟨m', hm'⟩ := hL.closed c d (by rw [h]; simp)
    simp only [entry]
    rw [realDir_eq hL hn.tail, hm']

/-- Everything above a name the layer is not blocked at is a directory. -/
theorem Layer.blk_iff {L : Layer} (hL : L.IsTree) : ∀ {n : Name}, L.blk n = false ↔ ∀ a nd, a <:+ n → L.tree a = some nd → nd.isDir = true := by
  intro n
  induction n with
  | nil =>
    obtain ⟨m, hm⟩ := hL.root
    constructor
    · intro _ a nd ha h
      rw [List.suffix_nil.1 ha, hm] at h
      cases h; rfl
    · intro _; unfold blk; rw [hm]; rfl
  | cons c d ih =>
    cases hc : L.tree (c :: d) with
    | none =>
      simp only [blk, hc]
      rw [ih]
      constructor
      · intro h a nd ha hnd
        rcases List.suffix_cons_iff.1 ha with rfl | ha
        · rw [hc] at hnd; cases hnd
        · exact h a nd ha hnd
      · exact fun h a nd ha => h a nd (ha.trans (List.suffix_cons c d))
    | some x =>
      simp only [blk, hc, Bool.not_eq_false']
      obtain ⟨m, hm⟩ := hL.closed c d (by rw [hc]; simp)
      have hd := ih.1 (blk_dir hm)
      constructor
      · intro hx a nd ha hnd
        rcases List.suffix_cons_iff.1 ha with rfl | ha
        · rw [hc] at hnd; cases hnd; exact hx
        · exact hd a nd ha hnd
      · intro h
        exact h (c :: d) x (List.suffix_refl _) hc

/-! ### lookup -/

/-- All layers are trees. -/
def Sys.Trees (S : Sys) : Prop := ∀ j, j ≤ S.last → (S.layer j).IsTree

/-- Layer `j` neither holds the name nor blocks the way to it. -/
def Sys.Clear (S : Sys) (n : Name) (j : Nat) : Prop :=
  (S.layer j).tree n = none ∧ ∀ a nd, a <:+ n → a ≠ n → (S.layer j).tree a = some nd → nd.isDir = true

theorem Sys.clear_iff {S : Sys} {n : Name} {j : Nat} (hL : (S.layer j).IsTree) : S.Clear n j ↔ (S.layer j).tree n = none ∧ (S.layer j).blk n = false := by
  unfold Clear
  rw [Layer.blk_iff hL]
  constructor
  · rintro ⟨h1, h2⟩
    refine ⟨h1, ?_⟩
    intro a nd ha hnd
    by_cases e : a = n
    · rw [e, h1] at hnd; cases hnd
    · exact h2 a nd ha e hnd
  · rintro ⟨h1, h2⟩
    exact ⟨h1, fun a nd ha _ => h2 a nd ha⟩

theorem Sys.search_ok {S : Sys} (hS : S.Trees) {n : Name} (perr : Errno) (x : Nat) (nd : Node) : ∀ (k i : Nat),
    i + k ≤ S.last + 1 → (∀ j a t, j < i + k → a <:+ n → a ≠ n → (S.layer j).tree a ≠ some (.link t)) →
    (S.search n perr k i = .ok (x, nd) ↔ i ≤ x ∧ x < i + k ∧ (S.layer x).tree n = some nd ∧ ∀ j, i ≤ j → j < x → S.Clear n j) := by
  intro k
  induction k with
  | zero =>
    intro i _ _
    constructor
    · intro h; cases h
    · rintro ⟨h1, h2, _⟩; omega
  | succ k ih =>
    intro i hk hn
    have hL := hS i (by omega)
    unfold search
    rw [Layer.lstat_eq hL (fun a t ha hne => hn i a t (by omega) ha hne)]
    cases ht : (S.layer i).tree n with
    | some nd' =>
      simp only
      constructor
      · intro h
        cases h
        exact ⟨Nat.le_refl _, by omega, ht, by intro j h1 h2; omega⟩
      · rintro ⟨h1, h2, h3, h4⟩
        by_cases hx : x = i
        · rw [hx, ht] at h3; cases h3; rw [hx]
        · have := (h4 i (Nat.le_refl i) (by omega)).1
          rw [ht] at this; cases this
    | none =>
      simp only
      cases hb : (S.layer i).blk n with
      | true =>
        simp only [if_true]
        have hne : n ≠ [] := by
          rintro rfl
          obtain ⟨m, hm⟩ := hL.root
          rw [ht] at hm; cases hm
        obtain ⟨c, d, rfl⟩ := List.exists_cons_of_ne_nil hne
        have hbt : (S.layer i).blk d = true := by simpa only [Layer.blk, ht] using hb
        rw [List.tail_cons, Layer.blockedIn_eq hL (fun a t ha => hn i a t (by omega) (ha.trans (List.suffix_cons c d)) (cons_ne_suffix ha)), hbt]
        simp only
        constructor
        · intro h; cases h
        · rintro ⟨h1, h2, h3, h4⟩
          by_cases hx : x = i
          · rw [hx, ht] at h3; cases h3
          · have := (clear_iff hL).1 (h4 i (Nat.le_refl i) (by omega))
            rw [hb] at this
            exact absurd this.2 (by decide)
      | false =>
        simp only [Bool.false_eq_true, if_false]
        rw [ih (i + 1) (by omega) (fun j a t hj => hn j a t (by omega))]
        have hcl : S.Clear n i := (clear_iff hL).2 ⟨ht, hb⟩
        constructor
        · rintro ⟨h1, h2, h3, h4⟩
          refine ⟨by omega, by omega, h3, ?_⟩
          intro j hj1 hj2
          by_cases e : j = i
          · rw [e]; exact hcl
          · exact h4 j (by omega) hj2
        · rintro ⟨h1, h2, h3, h4⟩
          have hx : x ≠ i := by
            intro hxi
            rw [hxi, ht] at h3; cases h3
          exact ⟨by omega, by omega, h3, fun j hj1 hj2 => h4 j (by omega) hj2⟩

theorem Sys.lookup_eq (S : Sys) (n : Name) : S.lookup n = S.search n (S.perr n) (S.cutFrom n 0 + 1) 0 := by
  cases n <;> rfl

theorem Sys.cutFrom_le_last (S : Sys) (n : Name) (i : Nat) : S.cutFrom n i ≤ S.last := ((S.le_cutFrom n i _).1 (Nat.le_refl _)).1

theorem Sys.not_hides_iff {S : Sys} {j : Nat} {n : Name} : ¬ S.Hides j n ↔ S.Clear n j ∧ ¬ S.Masks j n := by
  unfold Hides Clear Masks
  constructor
  · intro h
    refine ⟨⟨?_, ?_⟩, ?_⟩
    · cases ht : (S.layer j).tree n with
      | none => rfl
      | some nd => exact absurd (Or.inl (by rw [ht]; simp)) h
    · intro a nd ha hne hnd
      cases hd : nd.isDir with
      | true => rfl
      | false => exact absurd (Or.inr (Or.inr (Or.inr ⟨a, nd, ha, hne, hnd, hd⟩))) h
    · rintro (h1 | ⟨a, h1, h2, h3 | h3⟩)
      · exact h (Or.inr (Or.inl ⟨n, List.suffix_refl n, h1⟩))
      · exact h (Or.inr (Or.inl ⟨a, h1, h3⟩))
      · exact h (Or.inr (Or.inr (Or.inl ⟨a, h1, h2, h3⟩)))
  · rintro ⟨⟨h1, h2⟩, h3⟩ (h | ⟨a, ha, h⟩ | ⟨a, ha, hne, h⟩ | ⟨a, nd, ha, hne, h, hd⟩)
    · exact h h1
    · by_cases e : a = n
      · exact h3 (Or.inl (e ▸ h))
      · exact h3 (Or.inr ⟨a, ha, e, Or.inl h⟩)
    · exact h3 (Or.inr ⟨a, ha, hne, Or.inr h⟩)
    · rw [h2 a nd ha hne h] at hd; cases hd

/-- **C53** (lookup). Looking a name up in the merged view finds layer `i`'s node exactly when layer `i` holds it and no layer above hides it: by
holding the name, by a whiteout on it or above it, by an opaque mark above it, or by a non-directory above it. -/
theorem C53_lookup_partial {S : Sys} (hS : S.Trees) {n : Name} (hn : S.NoLinkAbove n) (i : Nat) (nd : Node) :
    S.lookup n = .ok (i, nd) ↔ S.Shows i n nd := by
  have hl := S.cutFrom_le_last n 0
  rw [S.lookup_eq, Sys.search_ok hS _ _ _ _ _ (by omega) (by
    intro j a t hj
    have := (S.le_cutFrom n 0 j).1 (by omega)
    exact hn j a t this.1 (fun k hk => this.2 k (Nat.zero_le _) hk))]
  unfold Sys.Shows
  have hc : i < 0 + (S.cutFrom n 0 + 1) ↔ i ≤ S.cutFrom n 0 := by omega
  rw [hc, S.le_cutFrom]
  simp only [Sys.not_hides_iff]
  constructor
  · rintro ⟨_, ⟨h1, h2⟩, h3, h4⟩
    exact ⟨h1, h3, fun j hj => ⟨h4 j (Nat.zero_le _) hj, h2 j (Nat.zero_le _) hj⟩⟩
  · rintro ⟨h1, h2, h3⟩
    exact ⟨Nat.zero_le _, ⟨h1, fun j _ hj => (h3 j hj).2⟩, h2, fun j _ hj => (h3 j hj).1⟩

/-! ### listing -/

theorem Sys.mem_collect (S : Sys) (d : Name) (i : Nat) (r : Name) (e : Entry) : ∀ (cs : List Str) (acc : List Entry),
    e ∈ S.collect d i r cs acc ↔ e ∈ acc ∨ (e.name ∉ acc.map Entry.name ∧ e.layer = i ∧ e.name ∈ cs ∧ S.whiteoutAbove i (e.name :: d) = false ∧
      (S.layer i).tree (e.name :: r) = some e.node) := by
  intro cs
  induction cs with
  | nil => intro acc; simp [collect]
  | cons c cs ih =>
    intro acc
    unfold collect
    split
    · rename_i hskip
      rw [ih]
      constructor
      · rintro (h | ⟨h1, h2, h3, h4, h5⟩)
        · exact Or.inl h
        · exact Or.inr ⟨h1, h2, List.mem_cons_of_mem _ h3, h4, h5⟩
      · rintro (h | ⟨h1, h2, h3, h4, h5⟩)
        · exact Or.inl h
        · rcases List.mem_cons.1 h3 with h3 | h3
          · rcases hskip with hs | hs
            · rw [← h3] at hs; exact absurd hs h1
            · rw [← h3, h4] at hs; cases hs
          · exact Or.inr ⟨h1, h2, h3, h4, h5⟩
    · rename_i hskip
      rw [not_or] at hskip
      split
      · rename_i ht
        rw [ih]
        constructor
        · rintro (h | ⟨h1, h2, h3, h4, h5⟩)
          · exact Or.inl h
          · exact Or.inr ⟨h1, h2, List.mem_cons_of_mem _ h3, h4, h5⟩
        · rintro (h | ⟨h1, h2, h3, h4, h5⟩)
          · exact Or.inl h
          · rcases List.mem_cons.1 h3 with h3 | h3
            · rw [h3, ht] at h5; cases h5
            · exact Or.inr ⟨h1, h2, h3, h4, h5⟩
      · rename_i nd ht
        rw [ih]
        constructor
        · rintro (h | ⟨h1, h2, h3, h4, h5⟩)
          · rcases List.mem_append.1 h with h | h
            · exact Or.inl h
            · simp only [List.mem_cons, List.not_mem_nil, or_false] at h
              subst h
              exact Or.inr ⟨hskip.1, rfl, List.mem_cons_self, by simpa using hskip.2, ht⟩
          · refine Or.inr ⟨?_, h2, List.mem_cons_of_mem _ h3, h4, h5⟩
            intro hm
            exact h1 (by rw [List.map_append]; exact List.mem_append_left _ hm)
        · rintro (h | ⟨h1, h2, h3, h4, h5⟩)
          · exact Or.inl (List.mem_append_left _ h)
          · by_cases hc : e.name = c
            · left
              apply List.mem_append_right
              rw [hc, ht] at h5
              cases e with
              | mk en el ed =>
                simp only at hc h2 h5
                subst hc; subst h2; cases h5
                exact List.mem_cons_self
            · rcases List.mem_cons.1 h3 with h3 | h3
              · exact absurd h3 hc
              · refine Or.inr ⟨?_, h2, h3, h4, h5⟩
                rw [List.map_append, List.mem_append]
                rintro (hm | hm)
                · exact h1 hm
                · simp at hm; exact hc hm

theorem Sys.nodup_collect (S : Sys) (d : Name) (i : Nat) (r : Name) : ∀ (cs : List Str) (acc : List Entry),
    (acc.map Entry.name).Nodup → ((S.collect d i r cs acc).map Entry.name).Nodup := by
  intro cs
  induction cs with
  | nil => intro acc h; exact h
  | cons c cs ih =>
    intro acc h
    unfold collect
    split
    · exact ih acc h
    · rename_i hskip
      rw [not_or] at hskip
      split
      · exact ih acc h
      · apply ih
        rw [List.map_append, List.nodup_append]
        refine ⟨h, by simp, ?_⟩
        intro a ha b hb
        simp at hb
        rw [hb]
        rintro rfl
        exact hskip.1 ha

/-- The names collected: those held before and those collected now. -/
theorem Sys.names_collect (S : Sys) (d : Name) (i : Nat) (r : Name) (cs : List Str) (acc : List Entry) (c : Str) :
    c ∈ (S.collect d i r cs acc).map Entry.name ↔ c ∈ acc.map Entry.name ∨ (c ∈ cs ∧ S.whiteoutAbove i (c :: d) = false ∧ (S.layer i).tree (c :: r) ≠ none) := by
  rw [List.mem_map]
  constructor
  · rintro ⟨e, he, rfl⟩
    rcases (S.mem_collect d i r e cs acc).1 he with h | ⟨_, h2, h3, h4, h5⟩
    · exact Or.inl (List.mem_map_of_mem h)
    · exact Or.inr ⟨h3, h4, by rw [h5]; simp⟩
  · rintro (h | ⟨h1, h2, h3⟩)
    · obtain ⟨e, he, rfl⟩ := List.mem_map.1 h
      exact ⟨e, (S.mem_collect d i r e cs acc).2 (Or.inl he), rfl⟩
    · by_cases hm : c ∈ acc.map Entry.name
      · obtain ⟨e, he, rfl⟩ := List.mem_map.1 hm
        exact ⟨e, (S.mem_collect d i r e cs acc).2 (Or.inl he), rfl⟩
      · cases ht : (S.layer i).tree (c :: r) with
        | none => exact absurd ht h3
        | some nd => exact ⟨⟨c, i, nd⟩, (S.mem_collect d i r _ cs acc).2 (Or.inr ⟨hm, rfl, h1, h2, ht⟩), rfl⟩

/-- All layers list their directories. -/
def Sys.ListsAll (S : Sys) : Prop := ∀ j, j ≤ S.last → (S.layer j).Lists

/-- Layer `j` does not stand in the way of merging the directory `d`. -/
def Sys.Passes (S : Sys) (d : Name) (j : Nat) : Prop := ∀ a nd, a <:+ d → (S.layer j).tree a = some nd → nd.isDir = true

theorem Sys.readLoop_spec {S : Sys} (hS : S.Trees) (hl : S.ListsAll) {d : Name} : ∀ (k i : Nat) (acc : List Entry),
    i + k ≤ S.last + 1 → (∀ j a t, i ≤ j → j < i + k → a <:+ d → (S.layer j).tree a ≠ some (.link t)) → (acc.map Entry.name).Nodup → ∃ res, S.readLoop d k i acc = .ok res ∧ (res.map Entry.name).Nodup ∧
      ∀ e, e ∈ res ↔ e ∈ acc ∨ (e.name ∉ acc.map Entry.name ∧ i ≤ e.layer ∧ e.layer < i + k ∧ (∀ j, i ≤ j → j < e.layer → S.Clear (e.name :: d) j) ∧
        S.whiteoutAbove e.layer (e.name :: d) = false ∧ (S.layer e.layer).tree (e.name :: d) = some e.node) := by
  intro k
  induction k with
  | zero =>
    intro i acc _ _ hnd
    refine ⟨acc, rfl, hnd, ?_⟩
    intro e
    constructor
    · exact Or.inl
    · rintro (h | ⟨_, h1, h2, _⟩)
      · exact h
      · omega
  | succ k ih =>
    intro i acc hk hn hnd
    have hn' : ∀ j a t, i + 1 ≤ j → j < i + 1 + k → a <:+ d → (S.layer j).tree a ≠ some (.link t) := fun j a t hj hj' => hn j a t (by omega) (by omega)
    have hL := hS i (by omega)
    have hnl : (S.layer i).NoLink d := fun a t ha => hn i a t (Nat.le_refl i) (by omega) ha
    -- no entry below a directory the layer does not hold
    have hnone : (∀ m, (S.layer i).tree d ≠ some (.dir m)) → ∀ c, (S.layer i).tree (c :: d) = none := by
      intro h c
      cases ht : (S.layer i).tree (c :: d) with
      | none => rfl
      | some nd =>
        obtain ⟨m, hm⟩ := hL.closed c d (by rw [ht]; simp)
        exact absurd hm (h m)
    have hcons : ∀ (c : Str) (j : Nat), (S.layer j).IsTree → (S.layer j).tree (c :: d) = none → (S.Clear (c :: d) j ↔ (S.layer j).blk d = false) := by
      intro c j hj ht
      rw [clear_iff hj]
      simp only [Layer.blk, ht, true_and]
    -- the two shapes of an iteration
    have hstop : (∀ m, (S.layer i).tree d ≠ some (.dir m)) → (S.layer i).blk d = true → ∃ res, (Except.ok acc : Except Errno (List Entry)) = .ok res ∧ (res.map Entry.name).Nodup ∧
      ∀ e, e ∈ res ↔ e ∈ acc ∨ (e.name ∉ acc.map Entry.name ∧ i ≤ e.layer ∧ e.layer < i + (k + 1) ∧ (∀ j, i ≤ j → j < e.layer → S.Clear (e.name :: d) j) ∧
        S.whiteoutAbove e.layer (e.name :: d) = false ∧ (S.layer e.layer).tree (e.name :: d) = some e.node) := by
      intro h1 h2
      refine ⟨acc, rfl, hnd, ?_⟩
      intro e
      constructor
      · exact Or.inl
      · rintro (h | ⟨_, h3, h4, h5, _, h7⟩)
        · exact h
        · by_cases hei : e.layer = i
          · rw [hei, hnone h1] at h7; cases h7
          · have := (hcons e.name i hL (hnone h1 _)).1 (h5 i (Nat.le_refl i) (by omega))
            rw [h2] at this; cases this
    have hskip : (∀ m, (S.layer i).tree d ≠ some (.dir m)) → (S.layer i).blk d = false → ∃ res, S.readLoop d k (i + 1) acc = .ok res ∧ (res.map Entry.name).Nodup ∧
      ∀ e, e ∈ res ↔ e ∈ acc ∨ (e.name ∉ acc.map Entry.name ∧ i ≤ e.layer ∧ e.layer < i + (k + 1) ∧ (∀ j, i ≤ j → j < e.layer → S.Clear (e.name :: d) j) ∧
        S.whiteoutAbove e.layer (e.name :: d) = false ∧ (S.layer e.layer).tree (e.name :: d) = some e.node) := by
      intro h1 h2
      obtain ⟨res, hr, hrn, hre⟩ := ih (i + 1) acc (by omega) hn' hnd
      refine ⟨res, hr, hrn, ?_⟩
      intro e
      rw [hre]
      constructor
      · rintro (h | ⟨h3, h4, h5, h6, h7, h8⟩)
        · exact Or.inl h
        · refine Or.inr ⟨h3, by omega, by omega, ?_, h7, h8⟩
          intro j hj1 hj2
          by_cases hji : j = i
          · rw [hji]; exact (hcons e.name i hL (hnone h1 _)).2 h2
          · exact h6 j (by omega) hj2
      · rintro (h | ⟨h3, h4, h5, h6, h7, h8⟩)
        · exact Or.inl h
        · have hei : e.layer ≠ i := by
            intro hei
            rw [hei, hnone h1] at h8; cases h8
          exact Or.inr ⟨h3, by omega, by omega, fun j hj1 hj2 => h6 j (by omega) hj2, h7, h8⟩
    unfold readLoop
    rw [Layer.lstat_eq hL (fun a t ha _ => hnl a t ha)]
    cases ht : (S.layer i).tree d with
    | none =>
      have h1 : ∀ m, (S.layer i).tree d ≠ some (.dir m) := by intro m; rw [ht]; simp
      simp only
      cases hb : (S.layer i).blk d with
      | false =>
        simp only [Bool.false_eq_true, if_false]
        exact hskip h1 hb
      | true =>
        simp only [if_true]
        have hne : d ≠ [] := by
          rintro rfl
          obtain ⟨m, hm⟩ := hL.root
          rw [ht] at hm; cases hm
        obtain ⟨c, d', rfl⟩ := List.exists_cons_of_ne_nil hne
        have hbt : (S.layer i).blk d' = true := by simpa only [Layer.blk, ht] using hb
        rw [List.tail_cons, Layer.blockedIn_eq hL hnl.tail, hbt]
        exact hstop h1 hb
    | some nd =>
      have hother : nd.isDir = false → ∃ res, (Except.ok acc : Except Errno (List Entry)) = .ok res ∧ (res.map Entry.name).Nodup ∧
      ∀ e, e ∈ res ↔ e ∈ acc ∨ (e.name ∉ acc.map Entry.name ∧ i ≤ e.layer ∧ e.layer < i + (k + 1) ∧ (∀ j, i ≤ j → j < e.layer → S.Clear (e.name :: d) j) ∧
        S.whiteoutAbove e.layer (e.name :: d) = false ∧ (S.layer e.layer).tree (e.name :: d) = some e.node) := by
        intro hnd'
        apply hstop
        · intro m; rw [ht]; intro he; cases he; cases hnd'
        · have : (S.layer i).blk d = !nd.isDir := by cases d <;> simp only [Layer.blk, ht]
          rw [this, hnd']; rfl
      cases nd with
      | dir m =>
        simp only
        rw [Layer.entry_dir hL hnl ht]
        simp only
        obtain ⟨hen, hem⟩ := hl i (by omega) d m ht
        obtain ⟨res, hr, hrn, hre⟩ := ih (i + 1) (S.collect d i d ((S.layer i).enum (S.layer i).tree d) acc) (by omega) hn' (S.nodup_collect d i d _ _ hnd)
        refine ⟨res, hr, hrn, ?_⟩
        intro e
        rw [hre, S.mem_collect, S.names_collect]
        constructor
        · rintro ((h | ⟨h3, h4, h5, h6, h7⟩) | ⟨h3, h4, h5, h6, h7, h8⟩)
          · exact Or.inl h
          · exact Or.inr ⟨h3, by omega, by omega, (by intro j hj1 hj2; omega), by rw [h4]; exact h6, by rw [h4]; exact h7⟩
          · rw [not_or] at h3
            refine Or.inr ⟨h3.1, by omega, by omega, ?_, h7, h8⟩
            intro j hj1 hj2
            by_cases hji : j = i
            · subst hji
              have hwj : S.whiteoutAbove j (e.name :: d) = false := by
                cases hw : S.whiteoutAbove j (e.name :: d) with
                | false => rfl
                | true =>
                  obtain ⟨x, hx1, hx2⟩ := (S.whiteoutAbove_iff _ _).1 hw
                  have := (S.whiteoutAbove_iff e.layer (e.name :: d)).2 ⟨x, by omega, hx2⟩
                  rw [h7] at this; cases this
              have htj : (S.layer j).tree (e.name :: d) = none := by
                cases hx : (S.layer j).tree (e.name :: d) with
                | none => rfl
                | some y => exact absurd ⟨(hem e.name).2 (by rw [hx]; simp), hwj, by rw [hx]; simp⟩ h3.2
              exact (hcons e.name j hL htj).2 (Layer.blk_dir ht)
            · exact h6 j (by omega) hj2
        · rintro (h | ⟨h3, h4, h5, h6, h7, h8⟩)
          · exact Or.inl (Or.inl h)
          · by_cases hei : e.layer = i
            · left; right
              rw [hei] at h7 h8
              exact ⟨h3, hei, (hem e.name).2 (by rw [h8]; simp), h7, h8⟩
            · refine Or.inr ⟨?_, by omega, by omega, fun j hj1 hj2 => h6 j (by omega) hj2, h7, h8⟩
              rw [not_or]
              refine ⟨h3, ?_⟩
              rintro ⟨_, _, hx⟩
              exact hx (h6 i (Nat.le_refl i) (by omega)).1
      | file m' dt => exact hother rfl
      | link t => exact hother rfl
      | special => exact hother rfl

theorem nameLe_total : ∀ a b : Str, (nameLe a b || nameLe b a) = true := by
  intro a
  induction a with
  | nil => intro b; simp [nameLe]
  | cons x xs ih =>
    intro b
    cases b with
    | nil => simp [nameLe]
    | cons y ys =>
      unfold nameLe
      by_cases h1 : x.val < y.val
      · simp [h1]
      · by_cases h2 : y.val < x.val
        · simp [h2]
        · simp [h1, h2]
          have := ih ys
          simpa using this

theorem nameLe_trans : ∀ a b c : Str, nameLe a b = true → nameLe b c = true → nameLe a c = true := by
  intro a
  induction a with
  | nil => intro b c _ _; simp [nameLe]
  | cons x xs ih =>
    intro b c h1 h2
    cases b with
    | nil => simp [nameLe] at h1
    | cons y ys =>
      cases c with
      | nil => simp [nameLe] at h2
      | cons z zs =>
        unfold nameLe at h1 h2 ⊢
        have hlt : ∀ p q : UInt32, p < q ↔ p.toNat < q.toNat := fun p q => UInt32.lt_iff_toNat_lt
        simp only [hlt] at h1 h2 ⊢
        split at h1
        · rename_i hxy
          split at h2
          · rw [if_pos (by omega)]
          · split at h2
            · cases h2
            · rw [if_pos (by omega)]
        · split at h1
          · cases h1
          · split at h2
            · rw [if_pos (by omega)]
            · split at h2
              · cases h2
              · rw [if_neg (by omega), if_neg (by omega)]
                exact ih ys zs h1 h2

theorem insertEntry_perm (e : Entry) : ∀ l : List Entry, (insertEntry e l).Perm (e :: l) := by
  intro l
  induction l with
  | nil => exact List.Perm.refl _
  | cons x xs ih =>
    unfold insertEntry
    split
    · exact List.Perm.refl _
    · exact (ih.cons x).trans (List.Perm.swap e x xs)

theorem sortEntries_perm : ∀ l : List Entry, (sortEntries l).Perm l := by
  intro l
  induction l with
  | nil => exact List.Perm.refl _
  | cons e es ih => exact (insertEntry_perm e _).trans (ih.cons e)

theorem insertEntry_sorted (e : Entry) : ∀ l : List Entry, l.Pairwise (fun a b => nameLe a.name b.name = true) →
    (insertEntry e l).Pairwise (fun a b => nameLe a.name b.name = true) := by
  intro l
  induction l with
  | nil => intro _; simp [insertEntry]
  | cons x xs ih =>
    intro h
    unfold insertEntry
    rw [List.pairwise_cons] at h
    split
    · rename_i he
      rw [List.pairwise_cons, List.pairwise_cons]
      refine ⟨?_, h⟩
      intro y hy
      rcases List.mem_cons.1 hy with rfl | hy
      · exact he
      · exact nameLe_trans _ _ _ he (h.1 y hy)
    · rename_i he
      rw [List.pairwise_cons]
      refine ⟨?_, ih h.2⟩
      intro y hy
      rcases List.mem_cons.1 ((insertEntry_perm e xs).mem_iff.1 hy) with rfl | hy
      · have := nameLe_total y.name x.name
        simp only [Bool.or_eq_true] at this
        exact this.resolve_left he
      · exact h.1 y hy

theorem sortEntries_sorted : ∀ l : List Entry, (sortEntries l).Pairwise (fun a b => nameLe a.name b.name = true) := by
  intro l
  induction l with
  | nil => exact List.Pairwise.nil
  | cons e es ih => exact insertEntry_sorted e _ ih

theorem Sys.NoLinkAt.child {S : Sys} {d : Name} (h : S.NoLinkAt d) (c : Str) : S.NoLinkAbove (c :: d) :=
  fun j a t hj hm ha hne => h j a t hj (fun k hk hb => hm k hk ((S.masks_cons k c d).2 (Or.inr hb))) (suffix_cons_ne ha hne)

/-- **C53** (listing). A directory of the merged view lists exactly the names that can be looked up in it, each once, with the layer and node
the lookup finds, sorted by name — provided no layer keeps a symlink at the directory or above it. -/
theorem C53_listing_partial {S : Sys} (hS : S.Trees) (hl : S.ListsAll) {d : Name} (hn0 : S.NoLinkAbove d) (hn : S.NoLinkAt d) {i m : Nat}
    (hd : S.lookup d = .ok (i, .dir m)) :
    ∃ es, S.readDir d = .ok es ∧ (∀ c k nd, (⟨c, k, nd⟩ : Entry) ∈ es ↔ S.lookup (c :: d) = .ok (k, nd)) ∧ (es.map Entry.name).Nodup ∧
      es.Pairwise (fun a b => nameLe a.name b.name = true) := by
  obtain ⟨hi, htd, hab⟩ := (C53_lookup_partial hS hn0 i _).1 hd
  have hcc : S.childCut d ≤ S.last := ((S.le_childCut d _).1 (Nat.le_refl _)).1
  obtain ⟨res, hr, hrn, hre⟩ := Sys.readLoop_spec hS hl (d := d) (S.childCut d + 1 - i) i [] (by omega) (by
    intro j a t hij hj
    have := (S.le_childCut d j).1 (by omega)
    exact hn j a t this.1 this.2) (by simp)
  have hperm : (sortEntries res).Perm res := sortEntries_perm _
  refine ⟨sortEntries res, by unfold Sys.readDir; rw [hd]; simp only [hr]; rfl, ?_, (hperm.map _).nodup_iff.2 hrn, sortEntries_sorted _⟩
  intro c k nd
  rw [hperm.mem_iff, hre, C53_lookup_partial hS (hn.child c) k nd]
  simp only [List.not_mem_nil, false_or, List.map_nil, not_false_eq_true, true_and]
  unfold Sys.Shows
  simp only [Sys.not_hides_iff, Sys.masks_cons]
  constructor
  · rintro ⟨h1, h2, h3, h4, h5⟩
    have hk : k ≤ S.childCut d := by omega
    obtain ⟨hk1, hk2⟩ := (S.le_childCut d k).1 hk
    refine ⟨hk1, h5, ?_⟩
    intro j hj
    refine ⟨?_, ?_⟩
    · by_cases hji : j < i
      · have hcl := (Sys.not_hides_iff.1 (hab j hji)).1
        refine ⟨?_, ?_⟩
        · cases ht : (S.layer j).tree (c :: d) with
          | none => rfl
          | some x =>
            obtain ⟨m', hm'⟩ := (hS j (by omega)).closed c d (by rw [ht]; simp)
            rw [hcl.1] at hm'; cases hm'
        · intro a nd' ha hne hnd'
          by_cases e : a = d
          · rw [e, hcl.1] at hnd'; cases hnd'
          · exact hcl.2 a nd' (suffix_cons_ne ha hne) e hnd'
      · exact h3 j (by omega) hj
    · rw [not_or]
      refine ⟨?_, hk2 j hj⟩
      intro hw
      have := (S.whiteoutAbove_iff k (c :: d)).2 ⟨j, hj, hw⟩
      rw [h4] at this; cases this
  · rintro ⟨h1, h2, h3⟩
    have hik : i ≤ k := by
      apply Decidable.byContradiction
      intro hlt
      have hcl := (Sys.not_hides_iff.1 (hab k (by omega))).1
      obtain ⟨m', hm'⟩ := (hS k h1).closed c d (by rw [h2]; simp)
      rw [hcl.1] at hm'; cases hm'
    have hk : k ≤ S.childCut d := (S.le_childCut d k).2 ⟨h1, fun j hj hm => (h3 j hj).2 (Or.inr hm)⟩
    refine ⟨hik, by omega, fun j _ hj => (h3 j hj).1, ?_, h2⟩
    cases hw : S.whiteoutAbove k (c :: d) with
    | false => rfl
    | true =>
      obtain ⟨j, hj, hm⟩ := (S.whiteoutAbove_iff _ _).1 hw
      exact absurd (Or.inl hm) (h3 j hj).2

/-- Only what looks like a directory can be listed. -/
theorem C53_lists_directories {S : Sys} {d : Name} {es : List Entry} (h : S.readDir d = .ok es) : ∃ i m, S.lookup d = .ok (i, .dir m) := by
  unfold Sys.readDir at h
  split at h
  · cases h
  · rename_i i m hd
    exact ⟨i, m, hd⟩
  · cases h

/-! ### a concrete stack -/

namespace Example
/-- A tree given by a list. -/
def treeOf (l : List (Name × Node)) : Tree := fun n => (l.find? (fun p => p.1 = n)).map (·.2)
def enumOf (l : List (Name × Node)) : Name → List Str := fun d => (l.filter (fun p => p.1.tail = d ∧ p.1 ≠ [])).map (fun p => p.1.headD [])
/-- A layer whose symlinks all lead to the name given. -/
def layerOf (l : List (Name × Node)) (f : Except Errno Name) : Layer := ⟨treeOf l, fun _ _ => f, fun _ => enumOf l⟩

/-- A check that a list describes a tree. -/
def okList (l : List (Name × Node)) : Bool :=
  ((treeOf l []).any Node.isDir) && l.all (fun p => decide (p.1 = []) || ((treeOf l p.1.tail).any Node.isDir)) && decide ((l.map Prod.fst).Nodup)

theorem treeOf_some {l : List (Name × Node)} {n : Name} {nd : Node} (h : treeOf l n = some nd) : (n, nd) ∈ l := by
  unfold treeOf at h
  obtain ⟨p, hp, rfl⟩ := Option.map_eq_some_iff.1 h
  have h1 := List.mem_of_find?_eq_some hp
  have h2 := List.find?_some hp
  simp only [decide_eq_true_eq] at h2
  rw [← h2]; exact h1

theorem any_isDir {o : Option Node} (h : o.any Node.isDir = true) : ∃ m, o = some (.dir m) := by
  cases o with
  | none => cases h
  | some nd =>
    cases nd with
    | dir m => exact ⟨m, rfl⟩
    | _ => cases h

theorem okList_isTree {l : List (Name × Node)} {f : Except Errno Name} (h : okList l = true) : (layerOf l f).IsTree := by
  simp only [okList, Bool.and_eq_true, List.all_eq_true] at h
  obtain ⟨⟨h1, h2⟩, _⟩ := h
  refine ⟨any_isDir h1, ?_⟩
  intro c d hcd
  cases ht : treeOf l (c :: d) with
  | none => exact absurd ht hcd
  | some nd =>
    have := h2 _ (treeOf_some ht)
    simp only [reduceCtorEq, decide_false, Bool.false_or, List.tail_cons] at this
    exact any_isDir this

theorem okList_lists {l : List (Name × Node)} {f : Except Errno Name} (h : okList l = true) : (layerOf l f).Lists := by
  simp only [okList, Bool.and_eq_true, decide_eq_true_eq] at h
  have hnd := h.2
  intro d m _
  show (enumOf l d).Nodup ∧ ∀ c, c ∈ enumOf l d ↔ treeOf l (c :: d) ≠ none
  constructor
  · unfold enumOf
    rw [List.nodup_iff_pairwise_ne, List.pairwise_map]
    rw [List.nodup_iff_pairwise_ne, List.pairwise_map] at hnd
    have := (hnd.sublist List.filter_sublist : (l.filter (fun p => p.1.tail = d ∧ p.1 ≠ [])).Pairwise _)
    refine this.imp_of_mem ?_
    intro p q hp hq hne he
    rw [List.mem_filter] at hp hq
    simp only [ne_eq, decide_eq_true_eq] at hp hq
    apply hne
    obtain ⟨c1, e1, h1⟩ := List.exists_cons_of_ne_nil hp.2.2
    obtain ⟨c2, e2, h2⟩ := List.exists_cons_of_ne_nil hq.2.2
    rw [h1] at hp he ⊢
    rw [h2] at hq he ⊢
    simp only [List.headD_cons, List.tail_cons] at hp hq he
    rw [he, hp.2.1, hq.2.1]
  · intro c
    constructor
    · intro hc
      obtain ⟨p, hp, hpc⟩ := List.mem_map.1 hc
      rw [List.mem_filter] at hp
      simp only [ne_eq, decide_eq_true_eq] at hp
      obtain ⟨c1, e1, h1⟩ := List.exists_cons_of_ne_nil hp.2.2
      rw [h1] at hp hpc
      simp only [List.headD_cons, List.tail_cons] at hp hpc
      rw [hpc, hp.2.1] at h1
      unfold treeOf
      rw [ne_eq, Option.map_eq_none_iff, List.find?_eq_none]
      intro hall
      exact hall p hp.1 (by simp [h1])
    · intro hc
      cases ht : treeOf l (c :: d) with
      | none => exact absurd ht hc
      | some nd =>
        refine List.mem_map.2 ⟨(c :: d, nd), List.mem_filter.2 ⟨treeOf_some ht, by simp⟩, rfl⟩

/-- A list without symlinks. -/
theorem noLink_treeOf {l : List (Name × Node)} (h : l.all (fun p => match p.2 with | .link _ => false | _ => true) = true) (n : Name) (t : Str) :
    treeOf l n ≠ some (.link t) := by
  intro ht
  have := List.all_eq_true.1 h _ (treeOf_some ht)
  cases this

def a : Str := ['a']
def b : Str := ['b']
def x : Str := ['x']

/-- Top: a directory `a`. Lower: `a/x`, `a/b`, with a whiteout of the top on `a/x`; `a/b` shows through. -/
def s1 : Sys where
  last := 1
  layer := fun i => if i = 0 then layerOf [([], .dir 0o755), ([a], .dir 0o700)] (.error .notExist)
    else layerOf [([], .dir 0o755), ([a], .dir 0o755), ([x, a], .file 0o644 ['1']), ([b, a], .file 0o644 ['2'])] (.error .notExist)
  mask := fun i => if i = 0 then ⟨[[x, a]], []⟩ else ⟨[], []⟩
  stage := fun _ => none
  temp := 0
  umask := id

/-- Top: a directory `a`. Lower: a symlink `a` to its directory `b`, which holds `b/x`. -/
def s2 : Sys where
  last := 1
  layer := fun i => if i = 0 then layerOf [([], .dir 0o755), ([a], .dir 0o755)] (.error .notExist)
    else layerOf [([], .dir 0o755), ([a], .link b), ([b], .dir 0o755), ([x, b], .file 0o644 ['1'])] (.ok [b])
  mask := fun _ => ⟨[], []⟩
  stage := fun _ => none
  temp := 0
  umask := id
end Example

open Example in
/-- With a symlink kept by a lower layer where the merged view has a directory, lookup and listing disagree: the lower layer follows its own
symlink when it is asked for `a/x`, so `a/x` can be opened, but listing `a` does not show it. -/
theorem C53_counterexample_lower_link :
    s2.lookup [a] = .ok (0, .dir 0o755) ∧ s2.lookup [x, a] = .ok (1, .file 0o644 ['1']) ∧ s2.readDir [a] = .ok [] := ⟨rfl, rfl, rfl⟩

open Example in
theorem Example.s1_ok : s1.Trees ∧ s1.ListsAll ∧ (∀ d, s1.NoLinkAbove d) ∧ ∀ d, s1.NoLinkAt d := by
  have h : ∀ j, (s1.layer j).IsTree ∧ (s1.layer j).Lists ∧ ∀ n t, (s1.layer j).tree n ≠ some (.link t) := by
    intro j
    by_cases hj : j = 0
    · subst hj
      exact ⟨okList_isTree (by decide), okList_lists (by decide), noLink_treeOf (by decide)⟩
    · have : s1.layer j = layerOf [([], .dir 0o755), ([a], .dir 0o755), ([x, a], .file 0o644 ['1']), ([b, a], .file 0o644 ['2'])] (.error .notExist) := by
        simp [s1, hj]
      rw [this]
      exact ⟨okList_isTree (by decide), okList_lists (by decide), noLink_treeOf (by decide)⟩
  exact ⟨fun j _ => (h j).1, fun j _ => (h j).2.1, fun d j a t _ _ _ _ => (h j).2.2 a t, fun d j a t _ _ _ => (h j).2.2 a t⟩

open Example in
example : s1.lookup [a] = .ok (0, .dir 0o700) ∧ s1.readDir [a] = .ok [⟨b, 1, .file 0o644 ['2']⟩] ∧ s1.lookup [x, a] = .error .notExist := ⟨rfl, rfl, rfl⟩

end Verif.Overlay.Stack
