import Verif.Overlay.Paths
import Verif.Overlay.Marks
import Verif.Overlay.LookupProps
/-
The masking state by strings (Store.lean) and by names (Layers.lean, Ops.lean) are the same thing: C82. What the two changes of a whole subtree do (C61)
and what a failing store leaves of a moved subtree's marks (C81).

/repo/vroot-adapter/overlayfs/state.go 96-332.
-/
namespace Verif.Overlay.Stack
open Verif.Path Verif.Prog Verif.Overlay

/-! ### order of names -/

theorem lexLt_nameLe : ∀ a b : Str, lexLt b a = !nameLe a b := by
  intro a
  induction a with
  | nil => intro b; cases b <;> rfl
  | cons x xs ih =>
    intro b
    cases b with
    | nil => rfl
    | cons y ys =>
      unfold lexLt nameLe
      have hlt : ∀ p q : UInt32, p < q ↔ p.toNat < q.toNat := fun p q => UInt32.lt_iff_toNat_lt
      simp only [hlt, ← Char.toNat_val]
      by_cases h1 : y.val.toNat < x.val.toNat
      · rw [if_pos h1, if_neg (by omega), if_pos h1]; rfl
      · rw [if_neg h1]
        by_cases h2 : x.val.toNat < y.val.toNat
        · have : ¬ y = x := by rintro rfl; omega
          rw [if_neg this, if_pos h2]; rfl
        · have : y = x := Char.ext (UInt32.toNat_inj.1 (by omega))
          rw [if_pos this, if_neg h2, if_neg h1]
          exact ih ys

theorem nameLe_append_neg : ∀ (a : Str) (c : Char) (t : Str), nameLe (a ++ c :: t) a = false := by
  intro a
  induction a with
  | nil => intro c t; rfl
  | cons x xs ih =>
    intro c t
    show nameLe (x :: (xs ++ c :: t)) (x :: xs) = false
    unfold nameLe
    have : ¬ x.val < x.val := fun h => by rw [UInt32.lt_iff_toNat_lt] at h; omega
    rw [if_neg this, if_neg this]
    exact ih c t

theorem mem_insertStr {n m : Str} : ∀ {l : List Str}, m ∈ insertStr n l ↔ m = n ∨ m ∈ l := by
  intro l
  induction l with
  | nil => simp [insertStr]
  | cons x xs ih =>
    unfold insertStr
    split
    · simp only [List.mem_cons, ih]
      constructor
      · rintro (h | h | h)
        · exact Or.inr (Or.inl h)
        · exact Or.inl h
        · exact Or.inr (Or.inr h)
      · rintro (h | h | h)
        · exact Or.inr (Or.inl h)
        · exact Or.inl h
        · exact Or.inr (Or.inr h)
    · simp

theorem mem_sortStrs {m : Str} : ∀ {l : List Str}, m ∈ sortStrs l ↔ m ∈ l := by
  intro l
  induction l with
  | nil => simp [sortStrs]
  | cons x xs ih => simp only [sortStrs, mem_insertStr, ih, List.mem_cons]

theorem sorted_insertStr {n : Str} : ∀ {l : List Str}, l.Pairwise (fun a b => nameLe a b = true) → (insertStr n l).Pairwise (fun a b => nameLe a b = true) := by
  intro l
  induction l with
  | nil => intro _; simp [insertStr]
  | cons x xs ih =>
    intro h
    rw [List.pairwise_cons] at h
    unfold insertStr
    have ht := nameLe_total x n
    split
    · rename_i hx
      rw [lexLt_nameLe, Bool.not_eq_true'] at hx
      rw [hx, Bool.or_false] at ht
      refine List.pairwise_cons.2 ⟨fun y hy => ?_, ih h.2⟩
      rcases mem_insertStr.1 hy with rfl | hy
      · exact ht
      · exact h.1 y hy
    · rename_i hx
      rw [lexLt_nameLe, Bool.not_eq_true', Bool.not_eq_false] at hx
      refine List.pairwise_cons.2 ⟨fun y hy => ?_, List.pairwise_cons.2 h⟩
      rcases List.mem_cons.1 hy with rfl | hy
      · exact hx
      · exact nameLe_trans _ _ _ hx (h.1 y hy)

theorem sorted_sortStrs : ∀ l : List Str, (sortStrs l).Pairwise (fun a b => nameLe a b = true) := by
  intro l
  induction l with
  | nil => exact List.Pairwise.nil
  | cons n ns ih => exact sorted_insertStr ih

theorem sorted_insertName {n : Name} : ∀ {l : List Name}, l.Pairwise (fun a b => nameLe (pathOf a) (pathOf b) = true) →
    (insertName n l).Pairwise (fun a b => nameLe (pathOf a) (pathOf b) = true) := by
  intro l
  induction l with
  | nil => intro _; simp [insertName]
  | cons x xs ih =>
    intro h
    rw [List.pairwise_cons] at h
    unfold insertName
    have ht := nameLe_total (pathOf n) (pathOf x)
    split
    · rename_i hx
      refine List.pairwise_cons.2 ⟨fun y hy => ?_, List.pairwise_cons.2 h⟩
      rcases List.mem_cons.1 hy with rfl | hy
      · exact hx
      · exact nameLe_trans _ _ _ hx (h.1 y hy)
    · rename_i hx
      rw [Bool.not_eq_true] at hx
      rw [hx, Bool.false_or] at ht
      refine List.pairwise_cons.2 ⟨fun y hy => ?_, ih h.2⟩
      rcases mem_insertName.1 hy with rfl | hy
      · exact ht
      · exact h.1 y hy

theorem sorted_sortNames : ∀ l : List Name, (sortNames l).Pairwise (fun a b => nameLe (pathOf a) (pathOf b) = true) := by
  intro l
  induction l with
  | nil => exact List.Pairwise.nil
  | cons n ns ih => exact sorted_insertName ih

/-! ### names and strings -/

/-- A name of the merged view: every component is a proper one. -/
abbrev Ok (n : Name) : Prop := CleanComps n.reverse

theorem ok_iff {n : Name} : Ok n ↔ ∀ c ∈ n, IsName c := by
  unfold Ok CleanComps
  simp

theorem ok_append {a b : Name} (ha : Ok a) (hb : Ok b) : Ok (a ++ b) := by
  rw [ok_iff] at *
  intro c hc
  rcases List.mem_append.1 hc with h | h
  · exact ha c h
  · exact hb c h

theorem Ok.suffix {a b : Name} (h : Ok b) (hs : a <:+ b) : Ok a := by
  rw [ok_iff] at *
  exact fun c hc => h c (hs.mem hc)

theorem pathOf_inj {a b : Name} (ha : Ok a) (hb : Ok b) (h : pathOf a = pathOf b) : a = b := by
  rw [← nameOf_pathOf ha, h, nameOf_pathOf hb]

theorem pathOf_clean {n : Name} (h : Ok n) : IsClean (pathOf n) := ⟨_, h, rfl⟩

theorem clean_pathOf {n : Name} (h : Ok n) : cleanName (pathOf n) = pathOf n := cleanName_of_clean (pathOf_clean h)

theorem isClean_name {p : Str} (h : IsClean p) : Ok (nameOf p) ∧ pathOf (nameOf p) = p := by
  obtain ⟨cs, hcs, rfl⟩ := h
  rw [nameOf_join hcs]
  refine ⟨?_, ?_⟩
  · show CleanComps cs.reverse.reverse
    rw [List.reverse_reverse]; exact hcs
  · show join cs.reverse.reverse = join cs
    rw [List.reverse_reverse]

theorem suffix_iff_above {d x : Name} : (d <:+ x ∧ x ≠ d) ↔ ∃ r, r ≠ [] ∧ x = r ++ d := by
  constructor
  · rintro ⟨⟨r, hr⟩, hne⟩
    refine ⟨r, ?_, hr.symm⟩
    rintro rfl
    exact hne hr.symm
  · rintro ⟨r, hr, rfl⟩
    refine ⟨⟨r, rfl⟩, fun e => hr ?_⟩
    have := congrArg List.length e
    simp only [List.length_append] at this
    exact List.eq_nil_of_length_eq_zero (by omega)

theorem strictlyUnder_pathOf {d x : Name} (hd : Ok d) (hx : Ok x) : strictlyUnder (pathOf d) (pathOf x) = true ↔ d <:+ x ∧ x ≠ d := by
  rw [← deletes_iff_under]
  unfold pathOf
  rw [C61_range_delete_exact hd hx, suffix_iff_above]
  constructor
  · rintro ⟨r, hr, he⟩
    refine ⟨r.reverse, by simpa using hr, ?_⟩
    have := congrArg List.reverse he
    simpa using this
  · rintro ⟨r, hr, rfl⟩
    exact ⟨r.reverse, by simpa using hr, by simp⟩

/-- A name above another sorts strictly before it. -/
theorem above_sorts {a b : Name} (ha : Ok a) (hb : Ok b) (h : b <:+ a ∧ a ≠ b) : nameLe (pathOf a) (pathOf b) = false := by
  have hu := (strictlyUnder_pathOf hb ha).2 h
  rw [← deletes_iff_under] at hu
  by_cases he : pathOf b = []
  · rw [he]
    cases hp : pathOf a with
    | nil => exact absurd (pathOf_inj ha hb (hp.trans he.symm)) h.2
    | cons c t => rfl
  · obtain ⟨t, ht⟩ := (C61_range_delete_bytes he).1 hu
    rw [ht]
    exact nameLe_append_neg _ _ _

theorem trimPrefix_append (p t : Str) : trimPrefix (p ++ t) p = t := by
  unfold trimPrefix
  simp

/-- Rebasing strings is rebasing names. -/
theorem rebase_pathOf {old new r : Name} (ho : Ok old) (hn : Ok new) (hr : Ok r) (hne : r ≠ []) :
    Overlay.rebase (pathOf old) (pathOf new) (pathOf (r ++ old)) = pathOf (r ++ new) := by
  unfold Overlay.rebase
  have hrev : r.reverse ≠ [] := by simpa using hne
  have hjr : isAbs (join r.reverse) = false := isAbs_join (fun c hc => (hr c hc).1)
  have key : trimPrefix (trimPrefix (pathOf (r ++ old)) (pathOf old)) [slash] = join r.reverse := by
    unfold pathOf
    rw [List.reverse_append]
    by_cases he : old = []
    · subst he
      show trimPrefix (trimPrefix (join r.reverse) []) [slash] = _
      have h1 : trimPrefix (join r.reverse) [] = join r.reverse := by
        have := trimPrefix_append [] (join r.reverse)
        simpa using this
      rw [h1]
      unfold trimPrefix
      cases hj : join r.reverse with
      | nil => rfl
      | cons c t =>
        rw [hj] at hjr
        have : c ≠ slash := by
          rintro rfl
          exact absurd hjr (by simp [isAbs])
        rw [if_neg]
        simp only [List.isPrefixOf, Bool.and_true]
        intro e
        exact this (beq_iff_eq.1 e).symm
    · rw [join_append_ne (by simpa using he) hrev, trimPrefix_append]
      exact trimPrefix_append [slash] _
  rw [key]
  unfold pathOf
  rw [Names.childName_join hn hr, List.reverse_append]

/-! ### mark changes on names -/

def Mask.setWh (n : Name) (m : Mask) : Mask := ⟨n :: m.wh.filter (fun x => ¬ n <:+ x), m.op.filter (fun x => ¬ n <:+ x)⟩
def Mask.clearWh (n : Name) (m : Mask) : Mask := ⟨m.wh.filter (fun x => x ≠ n), m.op⟩
def Mask.setOp (n : Name) (m : Mask) : Mask := ⟨m.wh, n :: m.op⟩
def Mask.clearOp (n : Name) (m : Mask) : Mask := ⟨m.wh, m.op.filter (fun x => x ≠ n)⟩

/-- The same marks. -/
structure SameMarks (m m' : Mask) : Prop where
  wh : ∀ x, x ∈ m.wh ↔ x ∈ m'.wh
  op : ∀ x, x ∈ m.op ↔ x ∈ m'.op

/-- No name of the list is above an earlier one. -/
def Downwards (l : List Name) : Prop := l.Pairwise (fun a b => ¬ (b <:+ a ∧ a ≠ b))

theorem fold_setWh : ∀ (L : List Name), Downwards L → ∀ (m : Mask) (x : Name),
    (x ∈ (L.foldl (fun m n => m.setWh n) m).wh ↔ x ∈ L ∨ (x ∈ m.wh ∧ ∀ n ∈ L, ¬ n <:+ x)) ∧
    (x ∈ (L.foldl (fun m n => m.setWh n) m).op ↔ x ∈ m.op ∧ ∀ n ∈ L, ¬ n <:+ x) := by
  intro L
  induction L with
  | nil => intro _ m x; simp
  | cons n L ih =>
    intro hd m x
    unfold Downwards at hd
    rw [List.pairwise_cons] at hd
    have h := ih hd.2 (m.setWh n) x
    simp only [List.foldl_cons]
    rw [h.1, h.2]
    simp only [Mask.setWh, List.mem_cons, List.mem_filter, decide_eq_true_eq]
    refine ⟨⟨?_, ?_⟩, ⟨?_, ?_⟩⟩
    · rintro (hx | ⟨rfl | ⟨hx, hn⟩, hL⟩)
      · exact Or.inl (Or.inr hx)
      · exact Or.inl (Or.inl rfl)
      · refine Or.inr ⟨hx, fun k hk => ?_⟩
        rcases hk with rfl | hk
        · exact hn
        · exact hL k hk
    · rintro ((rfl | hx) | ⟨hx, hL⟩)
      · by_cases hin : x ∈ L
        · exact Or.inl hin
        · refine Or.inr ⟨Or.inl rfl, fun k hk hs => ?_⟩
          by_cases e : x = k
          · exact hin (e ▸ hk)
          · exact hd.1 k hk ⟨hs, e⟩
      · exact Or.inl hx
      · exact Or.inr ⟨Or.inr ⟨hx, hL n (Or.inl rfl)⟩, fun k hk => hL k (Or.inr hk)⟩
    · rintro ⟨⟨hx, hn⟩, hL⟩
      refine ⟨hx, fun k hk => ?_⟩
      rcases hk with rfl | hk
      · exact hn
      · exact hL k hk
    · rintro ⟨hx, hL⟩
      exact ⟨⟨hx, hL n (Or.inl rfl)⟩, fun k hk => hL k (Or.inr hk)⟩

theorem fold_setOp (L : List Name) : ∀ (m : Mask) (x : Name),
    (x ∈ (L.foldl (fun m n => m.setOp n) m).wh ↔ x ∈ m.wh) ∧ (x ∈ (L.foldl (fun m n => m.setOp n) m).op ↔ x ∈ L ∨ x ∈ m.op) := by
  induction L with
  | nil => intro m x; simp
  | cons n L ih =>
    intro m x
    have h := ih (m.setOp n) x
    simp only [List.foldl_cons]
    rw [h.1, h.2]
    simp only [Mask.setOp, List.mem_cons]
    refine ⟨trivial, ?_⟩
    constructor
    · rintro (h | h | h)
      · exact Or.inl (Or.inr h)
      · exact Or.inl (Or.inl h)
      · exact Or.inr h
    · rintro ((h | h) | h)
      · exact Or.inr (Or.inl h)
      · exact Or.inl h
      · exact Or.inr (Or.inr h)

theorem fold_clearWh (L : List Name) : ∀ (m : Mask) (x : Name),
    (x ∈ (L.foldl (fun m n => m.clearWh n) m).wh ↔ x ∈ m.wh ∧ x ∉ L) ∧ (x ∈ (L.foldl (fun m n => m.clearWh n) m).op ↔ x ∈ m.op) := by
  induction L with
  | nil => intro m x; simp
  | cons n L ih =>
    intro m x
    have h := ih (m.clearWh n) x
    simp only [List.foldl_cons]
    rw [h.1, h.2]
    simp only [Mask.clearWh, List.mem_cons, List.mem_filter, decide_eq_true_eq, not_or, and_assoc, and_self, iff_self]

theorem fold_clearOp (L : List Name) : ∀ (m : Mask) (x : Name),
    (x ∈ (L.foldl (fun m n => m.clearOp n) m).wh ↔ x ∈ m.wh) ∧ (x ∈ (L.foldl (fun m n => m.clearOp n) m).op ↔ x ∈ m.op ∧ x ∉ L) := by
  induction L with
  | nil => intro m x; simp
  | cons n L ih =>
    intro m x
    have h := ih (m.clearOp n) x
    simp only [List.foldl_cons]
    rw [h.1, h.2]
    simp only [Mask.clearOp, List.mem_cons, List.mem_filter, decide_eq_true_eq, not_or, and_assoc, and_self, iff_self]

/-! ### the two representations -/

/-- The masking state by strings and the masks by names hold the same marks. -/
structure Rel (s : MState) (m : Mask) : Prop where
  agree : Agree s
  wh : ∀ x, Ok x → (pathOf x ∈ s.mem.whiteout ↔ x ∈ m.wh)
  op : ∀ x, Ok x → (pathOf x ∈ s.mem.opq ↔ x ∈ m.op)
  whOk : ∀ x ∈ m.wh, Ok x
  opOk : ∀ x ∈ m.op, Ok x

theorem Rel.same {s : MState} {m m' : Mask} (h : Rel s m) (he : SameMarks m m') : Rel s m' :=
  ⟨h.agree, fun x hx => (h.wh x hx).trans (he.wh x), fun x hx => (h.op x hx).trans (he.op x), fun x hx => h.whOk x ((he.wh x).2 hx),
    fun x hx => h.opOk x ((he.op x).2 hx)⟩

theorem _root_.Verif.Overlay.Agree.clean_wh {s : MState} (h : Agree s) {p : Str} (hp : p ∈ s.mem.whiteout) : IsClean p := by
  obtain ⟨r, hr, rfl, _⟩ := (h.whiteout p).1 hp
  exact h.clean r hr

theorem _root_.Verif.Overlay.Agree.clean_op {s : MState} (h : Agree s) {p : Str} (hp : p ∈ s.mem.opq) : IsClean p := by
  obtain ⟨r, hr, rfl, _⟩ := (h.opq p).1 hp
  exact h.clean r hr

/-- The marks of a masking state, by name. -/
def MState.mask (s : MState) : Mask := ⟨s.mem.whiteout.map nameOf, s.mem.opq.map nameOf⟩

theorem rel_mask {s : MState} (h : Agree s) : Rel s (MState.mask s) := by
  refine ⟨h, fun x hx => ?_, fun x hx => ?_, fun x hx => ?_, fun x hx => ?_⟩
  · simp only [MState.mask, List.mem_map]
    constructor
    · intro hp
      exact ⟨_, hp, nameOf_pathOf hx⟩
    · rintro ⟨p, hp, rfl⟩
      rw [(isClean_name (h.clean_wh hp)).2]; exact hp
  · simp only [MState.mask, List.mem_map]
    constructor
    · intro hp
      exact ⟨_, hp, nameOf_pathOf hx⟩
    · rintro ⟨p, hp, rfl⟩
      rw [(isClean_name (h.clean_op hp)).2]; exact hp
  · obtain ⟨p, hp, rfl⟩ := List.mem_map.1 hx
    exact (isClean_name (h.clean_wh hp)).1
  · obtain ⟨p, hp, rfl⟩ := List.mem_map.1 hx
    exact (isClean_name (h.clean_op hp)).1

/-- What one string-level change does, whatever fails: it is refused and the marks are as they were, or it does what the change on names does. -/
def Steps (r : MRes) (m m' : Mask) : Prop := (r.2 = false ∧ Rel r.1 m) ∨ (r.2 = true ∧ Rel r.1 m')

theorem Rel.calls {s : MState} {m : Mask} (h : Rel s m) (k : Nat) : Rel { s with calls := k } m :=
  ⟨h.agree.congr rfl rfl, h.wh, h.op, h.whOk, h.opOk⟩

theorem step_setWhiteout (f : Faults) {n : Name} (hn : Ok n) {p : Str} (hp : cleanName p = pathOf n) {s : MState} {m : Mask} (h : Rel s m) :
    Steps (Overlay.setWhiteout f p s) m (m.setWh n) := by
  have ha := agree_setWhiteout f p h.agree
  unfold Overlay.setWhiteout at ha ⊢
  split at ha
  · rename_i hf
    rw [if_pos hf]
    exact Or.inl ⟨rfl, h.calls _⟩
  · rename_i hf
    rw [if_neg hf]
    refine Or.inr ⟨rfl, ha, fun x hx => ?_, fun x hx => ?_, fun x hx => ?_, fun x hx => ?_⟩
    · simp only [hp, mem_dropUnder, mem_setInsert, Mask.setWh, List.mem_cons, List.mem_filter, decide_eq_true_eq]
      have hu := strictlyUnder_pathOf hn hx
      constructor
      · rintro ⟨h1, h2⟩
        rcases h2 with h2 | h2
        · exact Or.inl (pathOf_inj hx hn h2)
        · by_cases e : x = n
          · exact Or.inl e
          · refine Or.inr ⟨(h.wh x hx).1 h2, fun hs => ?_⟩
            rw [hu.2 ⟨hs, e⟩] at h1; cases h1
      · rintro (rfl | ⟨h1, h2⟩)
        · exact ⟨under_self _, Or.inl rfl⟩
        · refine ⟨?_, Or.inr ((h.wh x hx).2 h1)⟩
          cases hb : strictlyUnder (pathOf n) (pathOf x) with
          | false => rfl
          | true => exact absurd (hu.1 hb).1 h2
    · simp only [hp, mem_dropUnder, mem_setErase, Mask.setWh, List.mem_filter, decide_eq_true_eq]
      have hu := strictlyUnder_pathOf hn hx
      constructor
      · rintro ⟨h1, h2, h3⟩
        refine ⟨(h.op x hx).1 h3, fun hs => ?_⟩
        by_cases e : x = n
        · exact h2 (by rw [e])
        · rw [hu.2 ⟨hs, e⟩] at h1; cases h1
      · rintro ⟨h1, h2⟩
        refine ⟨?_, fun e => h2 (by rw [pathOf_inj hx hn e]; exact List.suffix_refl _), (h.op x hx).2 h1⟩
        cases hb : strictlyUnder (pathOf n) (pathOf x) with
        | false => rfl
        | true => exact absurd (hu.1 hb).1 h2
    · rcases List.mem_cons.1 hx with rfl | hx
      · exact hn
      · exact h.whOk x (List.mem_filter.1 hx).1
    · exact h.opOk x (List.mem_filter.1 hx).1

theorem step_clearWhiteout (f : Faults) {n : Name} (hn : Ok n) {p : Str} (hp : cleanName p = pathOf n) {s : MState} {m : Mask} (h : Rel s m) :
    Steps (Overlay.clearWhiteout f p s) m (m.clearWh n) := by
  have ha := agree_clearWhiteout f p h.agree
  unfold Overlay.clearWhiteout at ha ⊢
  split at ha
  · rename_i hf
    rw [if_pos hf]
    exact Or.inl ⟨rfl, h.calls _⟩
  · rename_i hf
    rw [if_neg hf]
    refine Or.inr ⟨rfl, ha, fun x hx => ?_, fun x hx => h.op x hx, fun x hx => ?_, fun x hx => h.opOk x hx⟩
    · simp only [hp, mem_setErase, Mask.clearWh, List.mem_filter, decide_eq_true_eq, h.wh x hx]
      rw [and_comm]
      exact and_congr Iff.rfl ⟨fun h e => h (by rw [e]), fun h e => h (pathOf_inj hx hn e)⟩
    · exact h.whOk x (List.mem_filter.1 hx).1

theorem step_setOpaque (f : Faults) {n : Name} (hn : Ok n) {p : Str} (hp : cleanName p = pathOf n) {s : MState} {m : Mask} (h : Rel s m) :
    Steps (Overlay.setOpaque f p s) m (m.setOp n) := by
  have ha := agree_setOpaque f p h.agree
  unfold Overlay.setOpaque at ha ⊢
  split at ha
  · rename_i hf
    rw [if_pos hf]
    exact Or.inl ⟨rfl, h.calls _⟩
  · rename_i hf
    rw [if_neg hf]
    refine Or.inr ⟨rfl, ha, fun x hx => h.wh x hx, fun x hx => ?_, fun x hx => h.whOk x hx, fun x hx => ?_⟩
    · simp only [hp, mem_setInsert, Mask.setOp, List.mem_cons, h.op x hx]
      exact or_congr ⟨fun e => pathOf_inj hx hn e, fun e => by rw [e]⟩ Iff.rfl
    · rcases List.mem_cons.1 hx with rfl | hx
      · exact hn
      · exact h.opOk x hx

theorem step_clearOpaque (f : Faults) {n : Name} (hn : Ok n) {p : Str} (hp : cleanName p = pathOf n) {s : MState} {m : Mask} (h : Rel s m) :
    Steps (Overlay.clearOpaque f p s) m (m.clearOp n) := by
  have ha := agree_clearOpaque f p h.agree
  unfold Overlay.clearOpaque at ha ⊢
  split at ha
  · rename_i hf
    rw [if_pos hf]
    exact Or.inl ⟨rfl, h.calls _⟩
  · rename_i hf
    rw [if_neg hf]
    refine Or.inr ⟨rfl, ha, fun x hx => h.wh x hx, fun x hx => ?_, fun x hx => h.whOk x hx, fun x hx => ?_⟩
    · simp only [hp, mem_setErase, Mask.clearOp, List.mem_filter, decide_eq_true_eq, h.op x hx]
      rw [and_comm]
      exact and_congr Iff.rfl ⟨fun h e => h (by rw [e]), fun h e => h (pathOf_inj hx hn e)⟩
    · exact h.opOk x (List.mem_filter.1 hx).1

/-- A loop of changes does a prefix of them, all of them when it reports no error. -/
theorem steps_forNames {op : Str → MState → MRes} {h : Name → Mask → Mask} {g : Name → Str} : ∀ (N : List Name),
    (∀ n ∈ N, ∀ s m, Rel s m → Steps (op (g n) s) m (h n m)) → ∀ s m, Rel s m →
    ∃ N', N' <+: N ∧ Rel (Overlay.forNames op (N.map g) s).1 (N'.foldl (fun m n => h n m) m) ∧
      ((Overlay.forNames op (N.map g) s).2 = true → N' = N) := by
  intro N
  induction N with
  | nil => intro _ s m hr; exact ⟨[], List.prefix_refl _, hr, fun _ => rfl⟩
  | cons n N ih =>
    intro hs s m hr
    simp only [List.map_cons]
    unfold Overlay.forNames
    have hst := hs n List.mem_cons_self s m hr
    unfold Steps at hst
    rcases ho : op (g n) s with ⟨s', b⟩
    rw [ho] at hst
    rcases hst with ⟨hb, hR⟩ | ⟨hb, hR⟩
    · simp only at hb; subst hb
      exact ⟨[], List.nil_prefix, hR, fun e => by cases e⟩
    · simp only at hb; subst hb
      obtain ⟨N', hp, hR', hfull⟩ := ih (fun k hk => hs k (List.mem_cons_of_mem _ hk)) s' _ hR
      exact ⟨n :: N', by rw [List.cons_prefix_cons]; exact ⟨rfl, hp⟩, hR', fun e => by rw [hfull e]⟩

/-- With no store call failing, everything is done. -/
theorem forNames_ok {op : Str → MState → MRes} : ∀ (L : List Str), (∀ n ∈ L, ∀ s, (op n s).2 = true) → ∀ s, (Overlay.forNames op L s).2 = true := by
  intro L
  induction L with
  | nil => intro _ s; rfl
  | cons n L ih =>
    intro h s
    unfold Overlay.forNames
    have := h n List.mem_cons_self s
    rcases ho : op n s with ⟨s', b⟩
    rw [ho] at this
    simp only at this; subst this
    exact ih (fun k hk => h k (List.mem_cons_of_mem _ hk)) s'

/-! ### the marks under a name -/

/-- What `maskedUnder` lists of one kind of mark, by name. -/
structure MasksUnder (d : Name) (k : List Name) (L : List Str) (N : List Name) : Prop where
  eq : L = N.map pathOf
  ok : ∀ x ∈ N, Ok x
  mem : ∀ x, x ∈ N ↔ x ∈ k ∧ d <:+ x ∧ x ≠ d
  down : Downwards N

theorem map_pathOf_nameOf {L : List Str} (h : ∀ p ∈ L, IsClean p) : L = (L.map nameOf).map pathOf := by
  rw [List.map_map]
  conv => lhs; rw [← List.map_id L]
  exact List.map_congr_left (fun p hp => (isClean_name (h p hp)).2.symm)

theorem downwards_of_sorted {N : List Name} (hok : ∀ x ∈ N, Ok x) (h : N.Pairwise (fun a b => nameLe (pathOf a) (pathOf b) = true)) : Downwards N := by
  refine List.Pairwise.imp_of_mem (fun {a b} ha hb hab hsuf => ?_) h
  rw [above_sorts (hok a ha) (hok b hb) hsuf] at hab
  cases hab

theorem masked_of {d : Name} (hd : Ok d) {l : List Str} {k : List Name} (hcl : ∀ p ∈ l, IsClean p) (hk : ∀ x ∈ k, Ok x)
    (h : ∀ x, Ok x → (pathOf x ∈ l ↔ x ∈ k)) : ∃ N, MasksUnder d k (sortStrs (l.filter (strictlyUnder (pathOf d)))) N := by
  have hL : ∀ p ∈ sortStrs (l.filter (strictlyUnder (pathOf d))), p ∈ l ∧ strictlyUnder (pathOf d) p = true := fun p hp =>
    List.mem_filter.1 (mem_sortStrs.1 hp)
  have heq := map_pathOf_nameOf (fun p hp => hcl p (hL p hp).1)
  have hok : ∀ x ∈ (sortStrs (l.filter (strictlyUnder (pathOf d)))).map nameOf, Ok x := by
    intro x hx
    obtain ⟨p, hp, rfl⟩ := List.mem_map.1 hx
    exact (isClean_name (hcl p (hL p hp).1)).1
  refine ⟨_, heq, hok, fun x => ?_, downwards_of_sorted hok ?_⟩
  · constructor
    · intro hx
      have hxo := hok x hx
      obtain ⟨p, hp, rfl⟩ := List.mem_map.1 hx
      obtain ⟨h1, h2⟩ := hL p hp
      have hpn := (isClean_name (hcl p h1)).2
      rw [← hpn] at h1 h2
      exact ⟨(h _ hxo).1 h1, (strictlyUnder_pathOf hd hxo).1 h2⟩
    · rintro ⟨hx, hu⟩
      have hxo := hk x hx
      refine List.mem_map.2 ⟨pathOf x, mem_sortStrs.2 (List.mem_filter.2 ⟨(h x hxo).2 hx, (strictlyUnder_pathOf hd hxo).2 hu⟩), nameOf_pathOf hxo⟩
  · have := sorted_sortStrs (l.filter (strictlyUnder (pathOf d)))
    rw [heq, List.pairwise_map] at this
    exact this

theorem Rel.masked {s : MState} {m : Mask} (h : Rel s m) {d : Name} (hd : Ok d) :
    ∃ N1 N2, MasksUnder d m.wh (maskedUnder (pathOf d) s.mem).1 N1 ∧ MasksUnder d m.op (maskedUnder (pathOf d) s.mem).2 N2 := by
  obtain ⟨N1, h1⟩ := masked_of hd (l := s.mem.whiteout) (k := m.wh) (fun p hp => h.agree.clean_wh hp) h.whOk h.wh
  obtain ⟨N2, h2⟩ := masked_of hd (l := s.mem.opq) (k := m.op) (fun p hp => h.agree.clean_op hp) h.opOk h.op
  exact ⟨N1, N2, h1, h2⟩

theorem rebase_under {old new r : Name} : rebase old new (r ++ old) = r ++ new := by
  unfold rebase
  have : (r ++ old).length - old.length = r.length := by rw [List.length_append]; omega
  rw [this, List.take_left]

theorem suffix_append_cancel {a b t : Name} : a ++ t <:+ b ++ t ↔ a <:+ b := by
  constructor
  · rintro ⟨u, hu⟩
    rw [← List.append_assoc] at hu
    exact ⟨u, List.append_cancel_right hu⟩
  · rintro ⟨u, rfl⟩
    exact ⟨u, by simp⟩

theorem MasksUnder.under {d : Name} {k : List Name} {L : List Str} {N : List Name} (h : MasksUnder d k L N) {x : Name} (hx : x ∈ N) : ∃ r, r ≠ [] ∧ x = r ++ d :=
  suffix_iff_above.1 ((h.mem x).1 hx).2

theorem downwards_rebase {old new : Name} {N : List Name} (hd : Downwards N) (hu : ∀ x ∈ N, ∃ r, r ≠ [] ∧ x = r ++ old) :
    Downwards (N.map (rebase old new)) := by
  unfold Downwards at *
  rw [List.pairwise_map]
  refine List.Pairwise.imp_of_mem (fun {a b} ha hb hab hsuf => ?_) hd
  obtain ⟨ra, _, rfl⟩ := hu a ha
  obtain ⟨rb, _, rfl⟩ := hu b hb
  rw [rebase_under, rebase_under] at hsuf
  exact hab ⟨suffix_append_cancel.2 (suffix_append_cancel.1 hsuf.1), fun e => hsuf.2 (by rw [List.append_cancel_right e])⟩

theorem Downwards.prefix {N N' : List Name} (h : Downwards N) (hp : N' <+: N) : Downwards N' := h.sublist hp.sublist

/-! ### the two subtree changes on strings, whatever fails -/

/-- The marks of a subtree as they are being moved: new whiteouts, then new opaque marks, then the old ones go. -/
def moveMarks (old new : Name) (P1 P2 P3 P4 : List Name) (m : Mask) : Mask :=
  P4.foldl (fun m n => m.clearOp n) (P3.foldl (fun m n => m.clearWh n)
    (P2.foldl (fun m n => m.setOp (rebase old new n)) (P1.foldl (fun m n => m.setWh (rebase old new n)) m)))

/-- How far a move came: each part begins only when the part before it is done. -/
structure Stage (N1 N2 P1 P2 P3 P4 : List Name) : Prop where
  p1 : P1 <+: N1
  p2 : P2 <+: N2
  p3 : P3 <+: N1
  p4 : P4 <+: N2
  h2 : P2 ≠ [] → P1 = N1
  h3 : P3 ≠ [] → P1 = N1 ∧ P2 = N2
  h4 : P4 ≠ [] → P1 = N1 ∧ P2 = N2 ∧ P3 = N1

theorem renameSubtree_steps (f : Faults) {old new : Name} (ho : Ok old) (hn : Ok new) {s : MState} {m : Mask} (h : Rel s m) {N1 N2 : List Name}
    (h1 : MasksUnder old m.wh (maskedUnder (pathOf old) s.mem).1 N1) (h2 : MasksUnder old m.op (maskedUnder (pathOf old) s.mem).2 N2) :
    ∃ P1 P2 P3 P4, Stage N1 N2 P1 P2 P3 P4 ∧ Rel (Overlay.renameSubtree f (pathOf old) (pathOf new) s).1 (moveMarks old new P1 P2 P3 P4 m) ∧
      ((Overlay.renameSubtree f (pathOf old) (pathOf new) s).2 = true → P1 = N1 ∧ P2 = N2 ∧ P3 = N1 ∧ P4 = N2) := by
  have hreb : ∀ x, Ok x → (∃ r, r ≠ [] ∧ x = r ++ old) → Ok (rebase old new x) ∧ cleanName (Overlay.rebase (pathOf old) (pathOf new) (pathOf x)) = pathOf (rebase old new x) := by
    rintro x hx ⟨r, hr, rfl⟩
    have hro : Ok r := by
      rw [ok_iff] at hx ⊢
      exact fun c hc => hx c (List.mem_append_left _ hc)
    have hok : Ok (r ++ new) := ok_append hro hn
    rw [rebase_under, rebase_pathOf ho hn hro hr]
    exact ⟨hok, clean_pathOf hok⟩
  unfold Overlay.renameSubtree
  rw [clean_pathOf ho, clean_pathOf hn, h1.eq, h2.eq]
  obtain ⟨P1, hp1, hR1, hf1⟩ := steps_forNames (op := fun n => Overlay.setWhiteout f (Overlay.rebase (pathOf old) (pathOf new) n)) (g := pathOf)
    (h := fun n m => m.setWh (rebase old new n)) N1
    (fun x hx s m hr => step_setWhiteout f (hreb x (h1.ok x hx) (h1.under hx)).1 (hreb x (h1.ok x hx) (h1.under hx)).2 hr) s m h
  unfold andThen
  rcases e1 : Overlay.forNames (fun n => Overlay.setWhiteout f (Overlay.rebase (pathOf old) (pathOf new) n)) (N1.map pathOf) s with ⟨s1, b1⟩
  rw [e1] at hR1 hf1
  cases b1 with
  | false =>
    exact ⟨P1, [], [], [], ⟨hp1, List.nil_prefix, List.nil_prefix, List.nil_prefix, fun e => absurd rfl e, fun e => absurd rfl e, fun e => absurd rfl e⟩, hR1,
      fun e => by cases e⟩
  | true =>
    have hP1 := hf1 rfl
    subst hP1
    simp only
    obtain ⟨P2, hp2, hR2, hf2⟩ := steps_forNames (op := fun n => Overlay.setOpaque f (Overlay.rebase (pathOf old) (pathOf new) n)) (g := pathOf)
      (h := fun n m => m.setOp (rebase old new n)) N2
      (fun x hx s m hr => step_setOpaque f (hreb x (h2.ok x hx) (h2.under hx)).1 (hreb x (h2.ok x hx) (h2.under hx)).2 hr) s1 _ hR1
    rcases e2 : Overlay.forNames (fun n => Overlay.setOpaque f (Overlay.rebase (pathOf old) (pathOf new) n)) (N2.map pathOf) s1 with ⟨s2, b2⟩
    rw [e2] at hR2 hf2
    cases b2 with
    | false =>
      exact ⟨P1, P2, [], [], ⟨hp1, hp2, List.nil_prefix, List.nil_prefix, fun _ => rfl, fun e => absurd rfl e, fun e => absurd rfl e⟩, hR2,
        fun e => by cases e⟩
    | true =>
      have hP2 := hf2 rfl
      subst hP2
      simp only
      obtain ⟨P3, hp3, hR3, hf3⟩ := steps_forNames (op := Overlay.clearWhiteout f) (g := pathOf) (h := fun n m => m.clearWh n) P1
        (fun x hx s m hr => step_clearWhiteout f (h1.ok x hx) (clean_pathOf (h1.ok x hx)) hr) s2 _ hR2
      rcases e3 : Overlay.forNames (Overlay.clearWhiteout f) (P1.map pathOf) s2 with ⟨s3, b3⟩
      rw [e3] at hR3 hf3
      cases b3 with
      | false =>
        exact ⟨P1, P2, P3, [], ⟨hp1, hp2, hp3, List.nil_prefix, fun _ => rfl, fun _ => ⟨rfl, rfl⟩, fun e => absurd rfl e⟩, hR3, fun e => by cases e⟩
      | true =>
        have hP3 := hf3 rfl
        subst hP3
        simp only
        obtain ⟨P4, hp4, hR4, hf4⟩ := steps_forNames (op := Overlay.clearOpaque f) (g := pathOf) (h := fun n m => m.clearOp n) P2
          (fun x hx s m hr => step_clearOpaque f (h2.ok x hx) (clean_pathOf (h2.ok x hx)) hr) s3 _ hR3
        exact ⟨P3, P2, P3, P4, ⟨hp1, hp2, hp3, hp4, fun _ => rfl, fun _ => ⟨rfl, rfl⟩, fun _ => ⟨rfl, rfl, rfl⟩⟩, hR4, fun e => ⟨rfl, rfl, rfl, hf4 e⟩⟩

theorem mem_moveMarks {old new : Name} {N1 N2 P1 P2 P3 P4 : List Name} {k1 : List Name} {L1 : List Str} {m : Mask} (h1 : MasksUnder old k1 L1 N1)
    (hs : Stage N1 N2 P1 P2 P3 P4) (x : Name) :
    (x ∈ (moveMarks old new P1 P2 P3 P4 m).wh ↔ (x ∈ P1.map (rebase old new) ∨ (x ∈ m.wh ∧ ∀ n ∈ P1.map (rebase old new), ¬ n <:+ x)) ∧ x ∉ P3) ∧
    (x ∈ (moveMarks old new P1 P2 P3 P4 m).op ↔ (x ∈ P2.map (rebase old new) ∨ (x ∈ m.op ∧ ∀ n ∈ P1.map (rebase old new), ¬ n <:+ x)) ∧ x ∉ P4) := by
  have hd := downwards_rebase (new := new) (h1.down.prefix hs.p1) (fun x hx => h1.under (hs.p1.mem hx))
  unfold moveMarks
  have f1 := fold_setWh _ hd m x
  have f2 := fold_setOp (P2.map (rebase old new)) ((P1.map (rebase old new)).foldl (fun m n => m.setWh n) m) x
  rw [List.foldl_map, List.foldl_map] at f2
  rw [List.foldl_map] at f1
  have f3 := fold_clearWh P3 (P2.foldl (fun m n => m.setOp (rebase old new n)) (P1.foldl (fun m n => m.setWh (rebase old new n)) m)) x
  have f4 := fold_clearOp P4 (P3.foldl (fun m n => m.clearWh n) (P2.foldl (fun m n => m.setOp (rebase old new n)) (P1.foldl (fun m n => m.setWh (rebase old new n)) m))) x
  rw [f4.1, f3.1, f2.1, f1.1, f4.2, f3.2, f2.2, f1.2]
  exact ⟨Iff.rfl, Iff.rfl⟩

theorem clearSubtree_steps (f : Faults) {d : Name} (hd : Ok d) {s : MState} {m : Mask} (h : Rel s m) {N1 N2 : List Name}
    (h1 : MasksUnder d m.wh (maskedUnder (pathOf d) s.mem).1 N1) (h2 : MasksUnder d m.op (maskedUnder (pathOf d) s.mem).2 N2) :
    ∃ P1 P2, P1 <+: N1 ++ [d] ∧ P2 <+: N2 ++ [d] ∧ (P2 ≠ [] → P1 = N1 ++ [d]) ∧
      Rel (Overlay.clearSubtree f (pathOf d) s).1 (P2.foldl (fun m n => m.clearOp n) (P1.foldl (fun m n => m.clearWh n) m)) ∧
      ((Overlay.clearSubtree f (pathOf d) s).2 = true → P1 = N1 ++ [d] ∧ P2 = N2 ++ [d]) := by
  have hok1 : ∀ x ∈ N1 ++ [d], Ok x := by
    intro x hx
    rcases List.mem_append.1 hx with hx | hx
    · exact h1.ok x hx
    · rw [List.mem_singleton.1 hx]; exact hd
  have hok2 : ∀ x ∈ N2 ++ [d], Ok x := by
    intro x hx
    rcases List.mem_append.1 hx with hx | hx
    · exact h2.ok x hx
    · rw [List.mem_singleton.1 hx]; exact hd
  have st1 : ∀ n ∈ N1 ++ [d], ∀ s m, Rel s m → Steps (clearWhiteoutIf f (pathOf n) s) m (m.clearWh n) := by
    intro n hn s m hr
    unfold clearWhiteoutIf
    split
    · exact step_clearWhiteout f (hok1 n hn) (clean_pathOf (hok1 n hn)) hr
    · rename_i hnot
      refine Or.inr ⟨rfl, hr.same ⟨fun x => ?_, fun x => Iff.rfl⟩⟩
      rw [Mask.clearWh, mem_filter_ne]
      refine ⟨fun hx => ⟨hx, ?_⟩, fun hx => hx.1⟩
      rintro rfl
      exact hnot ((hr.wh x (hok1 x hn)).2 hx)
  have st2 : ∀ n ∈ N2 ++ [d], ∀ s m, Rel s m → Steps (clearOpaqueIf f (pathOf n) s) m (m.clearOp n) := by
    intro n hn s m hr
    unfold clearOpaqueIf
    split
    · exact step_clearOpaque f (hok2 n hn) (clean_pathOf (hok2 n hn)) hr
    · rename_i hnot
      refine Or.inr ⟨rfl, hr.same ⟨fun x => Iff.rfl, fun x => ?_⟩⟩
      rw [Mask.clearOp, mem_filter_ne]
      refine ⟨fun hx => ⟨hx, ?_⟩, fun hx => hx.1⟩
      rintro rfl
      exact hnot ((hr.op x (hok2 x hn)).2 hx)
  unfold Overlay.clearSubtree
  have e1 : (maskedUnder (pathOf d) s.mem).1 ++ [pathOf d] = (N1 ++ [d]).map pathOf := by rw [h1.eq]; simp
  have e2 : (maskedUnder (pathOf d) s.mem).2 ++ [pathOf d] = (N2 ++ [d]).map pathOf := by rw [h2.eq]; simp
  rw [clean_pathOf hd, e1, e2]
  obtain ⟨P1, hp1, hR1, hf1⟩ := steps_forNames (op := clearWhiteoutIf f) (g := pathOf) (h := fun n m => m.clearWh n) (N1 ++ [d]) st1 s m h
  unfold andThen
  rcases e1 : Overlay.forNames (clearWhiteoutIf f) ((N1 ++ [d]).map pathOf) s with ⟨s1, b1⟩
  rw [e1] at hR1 hf1
  cases b1 with
  | false => exact ⟨P1, [], hp1, List.nil_prefix, fun e => absurd rfl e, hR1, fun e => by cases e⟩
  | true =>
    have hP1 := hf1 rfl
    subst hP1
    simp only
    obtain ⟨P2, hp2, hR2, hf2⟩ := steps_forNames (op := clearOpaqueIf f) (g := pathOf) (h := fun n m => m.clearOp n) (N2 ++ [d]) st2 s1 _ hR1
    exact ⟨_, P2, hp1, hp2, fun _ => rfl, hR2, fun e => ⟨rfl, hf2 e⟩⟩

theorem andThen_ok {a b : MState → MRes} (ha : ∀ s, (a s).2 = true) (hb : ∀ s, (b s).2 = true) (s : MState) : (andThen a b s).2 = true := by
  unfold andThen
  have := ha s
  rcases e : a s with ⟨s', r⟩
  rw [e] at this
  simp only at this; subst this
  exact hb s'

theorem setWhiteout_ok {f : Faults} (hf : ∀ k, f k = false) (p : Str) (s : MState) : (Overlay.setWhiteout f p s).2 = true := by
  unfold Overlay.setWhiteout; simp [hf]
theorem clearWhiteout_ok {f : Faults} (hf : ∀ k, f k = false) (p : Str) (s : MState) : (Overlay.clearWhiteout f p s).2 = true := by
  unfold Overlay.clearWhiteout; simp [hf]
theorem setOpaque_ok {f : Faults} (hf : ∀ k, f k = false) (p : Str) (s : MState) : (Overlay.setOpaque f p s).2 = true := by
  unfold Overlay.setOpaque; simp [hf]
theorem clearOpaque_ok {f : Faults} (hf : ∀ k, f k = false) (p : Str) (s : MState) : (Overlay.clearOpaque f p s).2 = true := by
  unfold Overlay.clearOpaque; simp [hf]

theorem clearSubtree_ok {f : Faults} (hf : ∀ k, f k = false) (p : Str) (s : MState) : (Overlay.clearSubtree f p s).2 = true := by
  unfold Overlay.clearSubtree
  refine andThen_ok (forNames_ok _ fun n _ s => ?_) (forNames_ok _ fun n _ s => ?_) s
  · unfold clearWhiteoutIf; split
    · exact clearWhiteout_ok hf _ _
    · rfl
  · unfold clearOpaqueIf; split
    · exact clearOpaque_ok hf _ _
    · rfl

theorem renameSubtree_ok {f : Faults} (hf : ∀ k, f k = false) (p q : Str) (s : MState) : (Overlay.renameSubtree f p q s).2 = true := by
  unfold Overlay.renameSubtree
  exact andThen_ok (forNames_ok _ fun n _ s => setWhiteout_ok hf _ _) (andThen_ok (forNames_ok _ fun n _ s => setOpaque_ok hf _ _)
    (andThen_ok (forNames_ok _ fun n _ s => clearWhiteout_ok hf _ _) (forNames_ok _ fun n _ s => clearOpaque_ok hf _ _))) s

/-! ### C61 and C81 -/

theorem pathOf_rev (cs : List Str) : pathOf cs.reverse = join cs := by unfold pathOf; rw [List.reverse_reverse]

theorem ok_rev {cs : List Str} (h : CleanComps cs) : Ok cs.reverse := by unfold Ok; rw [List.reverse_reverse]; exact h

theorem not_both {old new x : List Str} (h1 : ¬ old <+: new) (h2 : ¬ new <+: old) (ho : old <+: x) (hn : new <+: x) : False := by
  rcases List.prefix_or_prefix_of_prefix ho hn with h | h
  · exact h1 h
  · exact h2 h

/-- **C61** (a subtree's marks cleared): when the store works, clearing the marks at and under a name removes exactly those: a mark recorded before is recorded after,
unless its name is the given one or beneath it. -/
theorem C61_clear_subtree {f : Faults} (hf : ∀ k, f k = false) {s : MState} (hs : Agree s) {d cs : List Str} (hd : CleanComps d) (hc : CleanComps cs) :
    (Overlay.clearSubtree f (join d) s).2 = true ∧
    (join cs ∈ (Overlay.clearSubtree f (join d) s).1.mem.whiteout ↔ join cs ∈ s.mem.whiteout ∧ ¬ d <+: cs) ∧
    (join cs ∈ (Overlay.clearSubtree f (join d) s).1.mem.opq ↔ join cs ∈ s.mem.opq ∧ ¬ d <+: cs) := by
  have hR := rel_mask hs
  obtain ⟨N1, N2, h1, h2⟩ := hR.masked (ok_rev hd)
  obtain ⟨P1, P2, -, -, -, hrel, hfull⟩ := clearSubtree_steps f (ok_rev hd) hR h1 h2
  rw [pathOf_rev] at hrel hfull
  have hok := clearSubtree_ok hf (join d) s
  obtain ⟨rfl, rfl⟩ := hfull hok
  refine ⟨hok, ?_, ?_⟩
  · have := hrel.wh _ (ok_rev hc)
    rw [pathOf_rev] at this
    rw [this, (fold_clearOp _ _ _).1, (fold_clearWh _ _ _).1, ← hR.wh _ (ok_rev hc), pathOf_rev]
    refine and_congr_right fun hin => not_congr ?_
    rw [← pathOf_rev, hR.wh _ (ok_rev hc)] at hin
    rw [List.mem_append, h1.mem, List.mem_singleton, ← List.reverse_suffix]
    constructor
    · rintro (⟨_, h, _⟩ | h)
      · exact h
      · rw [h]; exact List.suffix_refl _
    · intro h
      by_cases e : cs.reverse = d.reverse
      · exact Or.inr e
      · exact Or.inl ⟨hin, h, e⟩
  · have := hrel.op _ (ok_rev hc)
    rw [pathOf_rev] at this
    rw [this, (fold_clearOp _ _ _).2, (fold_clearWh _ _ _).2, ← hR.op _ (ok_rev hc), pathOf_rev]
    refine and_congr_right fun hin => not_congr ?_
    rw [← pathOf_rev, hR.op _ (ok_rev hc)] at hin
    rw [List.mem_append, h2.mem, List.mem_singleton, ← List.reverse_suffix]
    constructor
    · rintro (⟨_, h, _⟩ | h)
      · exact h
      · rw [h]; exact List.suffix_refl _
    · intro h
      by_cases e : cs.reverse = d.reverse
      · exact Or.inr e
      · exact Or.inl ⟨hin, h, e⟩

/-- The rebased names, root first. -/
theorem mem_rebased {old new : Name} {N : List Name} (hu : ∀ x ∈ N, ∃ r, r ≠ [] ∧ x = r ++ old) {x : Name} :
    x ∈ N.map (rebase old new) ↔ ∃ r, r ≠ [] ∧ x = r ++ new ∧ r ++ old ∈ N := by
  rw [List.mem_map]
  constructor
  · rintro ⟨y, hy, rfl⟩
    obtain ⟨r, hr, rfl⟩ := hu y hy
    exact ⟨r, hr, rebase_under, hy⟩
  · rintro ⟨r, hr, rfl, hin⟩
    exact ⟨_, hin, rebase_under⟩

/-- What a move of marks does, in terms of sets, at whatever stage it is. -/
theorem moved_sets {old new : Name} (hd1 : ¬ old <:+ new) (hd2 : ¬ new <:+ old) {N1 N2 P1 P2 P3 P4 : List Name} {m : Mask} {L1 L2 : List Str}
    (h1 : MasksUnder old m.wh L1 N1) (h2 : MasksUnder old m.op L2 N2) (hs : Stage N1 N2 P1 P2 P3 P4) :
    (∀ r, r ≠ [] → ((r ++ new ∈ (moveMarks old new P1 P2 P3 P4 m).wh ↔ r ++ old ∈ P1 ∨ (r ++ new ∈ m.wh ∧ ∀ q, q ≠ [] → q ++ old ∈ P1 → ¬ q <:+ r)) ∧
      (r ++ new ∈ (moveMarks old new P1 P2 P3 P4 m).op ↔ r ++ old ∈ P2 ∨ (r ++ new ∈ m.op ∧ ∀ q, q ≠ [] → q ++ old ∈ P1 → ¬ q <:+ r)))) ∧
    (∀ r, r ≠ [] → ((r ++ old ∈ (moveMarks old new P1 P2 P3 P4 m).wh ↔ r ++ old ∈ m.wh ∧ r ++ old ∉ P3) ∧
      (r ++ old ∈ (moveMarks old new P1 P2 P3 P4 m).op ↔ r ++ old ∈ m.op ∧ r ++ old ∉ P4))) ∧
    (∀ x, ¬ (old <:+ x ∧ x ≠ old) → ¬ (new <:+ x ∧ x ≠ new) → ((x ∈ (moveMarks old new P1 P2 P3 P4 m).wh ↔ x ∈ m.wh) ∧
      (x ∈ (moveMarks old new P1 P2 P3 P4 m).op ↔ x ∈ m.op))) := by
  have hu1 : ∀ x ∈ P1, ∃ r, r ≠ [] ∧ x = r ++ old := fun x hx => h1.under (hs.p1.mem hx)
  have hu2 : ∀ x ∈ P2, ∃ r, r ≠ [] ∧ x = r ++ old := fun x hx => h2.under (hs.p2.mem hx)
  have hu3 : ∀ x ∈ P3, ∃ r, r ≠ [] ∧ x = r ++ old := fun x hx => h1.under (hs.p3.mem hx)
  have hu4 : ∀ x ∈ P4, ∃ r, r ≠ [] ∧ x = r ++ old := fun x hx => h2.under (hs.p4.mem hx)
  have hdis : ∀ x, old <:+ x → new <:+ x → False := by
    intro x ho hn
    rcases List.suffix_or_suffix_of_suffix ho hn with h | h
    · exact hd1 h
    · exact hd2 h
  have hno : ∀ {P : List Name}, (∀ x ∈ P, ∃ r, r ≠ [] ∧ x = r ++ old) → ∀ {x}, new <:+ x → x ∉ P := by
    intro P hP x hx hin
    obtain ⟨r, _, rfl⟩ := hP x hin
    exact hdis _ ⟨r, rfl⟩ hx
  have hoff : ∀ {x}, ¬ (new <:+ x ∧ x ≠ new) → ∀ n ∈ P1.map (rebase old new), ¬ n <:+ x := by
    intro x hx n hn hsuf
    obtain ⟨r, hr, rfl, _⟩ := (mem_rebased hu1).1 hn
    obtain ⟨u, rfl⟩ := hsuf
    refine hx (suffix_iff_above.2 ⟨u ++ r, by simp [hr], by simp⟩)
  have hnot : ∀ {P : List Name}, (∀ x ∈ P, ∃ r, r ≠ [] ∧ x = r ++ old) → ∀ {x}, ¬ (new <:+ x ∧ x ≠ new) → x ∉ P.map (rebase old new) := by
    intro P hP x hx hin
    obtain ⟨r, hr, rfl, _⟩ := (mem_rebased hP).1 hin
    exact hx (suffix_iff_above.2 ⟨r, hr, rfl⟩)
  have hreb : ∀ {P : List Name}, (∀ x ∈ P, ∃ r, r ≠ [] ∧ x = r ++ old) → ∀ {r : Name}, r ≠ [] → (r ++ new ∈ P.map (rebase old new) ↔ r ++ old ∈ P) := by
    intro P hP r hr
    rw [mem_rebased hP]
    constructor
    · rintro ⟨q, _, he, hin⟩
      rw [List.append_cancel_right he]; exact hin
    · intro hin
      exact ⟨r, hr, rfl, hin⟩
  have hall : ∀ {r : Name}, (∀ n ∈ P1.map (rebase old new), ¬ n <:+ r ++ new) ↔ ∀ q, q ≠ [] → q ++ old ∈ P1 → ¬ q <:+ r := by
    intro r
    constructor
    · intro h q hq hin hsuf
      exact h _ ((mem_rebased hu1).2 ⟨q, hq, rfl, hin⟩) (suffix_append_cancel.2 hsuf)
    · intro h n hn hsuf
      obtain ⟨q, hq, rfl, hin⟩ := (mem_rebased hu1).1 hn
      exact h q hq hin (suffix_append_cancel.1 hsuf)
  refine ⟨fun r hr => ?_, fun r hr => ?_, fun x hxo hxn => ?_⟩
  · have hm := mem_moveMarks (m := m) (new := new) h1 hs (r ++ new)
    rw [hm.1, hm.2, hreb hu1 hr, hreb hu2 hr, hall]
    have n3 := hno hu3 (x := r ++ new) ⟨r, rfl⟩
    have n4 := hno hu4 (x := r ++ new) ⟨r, rfl⟩
    exact ⟨⟨fun h => h.1, fun h => ⟨h, n3⟩⟩, ⟨fun h => h.1, fun h => ⟨h, n4⟩⟩⟩
  · have hm := mem_moveMarks (m := m) (new := new) h1 hs (r ++ old)
    have hx : ¬ (new <:+ r ++ old ∧ r ++ old ≠ new) := fun h => hdis _ ⟨r, rfl⟩ h.1
    rw [hm.1, hm.2]
    refine ⟨and_congr_left fun _ => ?_, and_congr_left fun _ => ?_⟩
    · exact ⟨fun h => h.elim (fun h => absurd h (hnot hu1 hx)) (fun h => h.1), fun h => Or.inr ⟨h, hoff hx⟩⟩
    · exact ⟨fun h => h.elim (fun h => absurd h (hnot hu2 hx)) (fun h => h.1), fun h => Or.inr ⟨h, hoff hx⟩⟩
  · have hm := mem_moveMarks (m := m) (new := new) h1 hs x
    rw [hm.1, hm.2]
    have n3 : x ∉ P3 := fun h => hxo (suffix_iff_above.2 (hu3 x h))
    have n4 : x ∉ P4 := fun h => hxo (suffix_iff_above.2 (hu4 x h))
    refine ⟨?_, ?_⟩
    · exact ⟨fun h => h.1.elim (fun h => absurd h (hnot hu1 hxn)) (fun h => h.1), fun h => ⟨Or.inr ⟨h, hoff hxn⟩, n3⟩⟩
    · exact ⟨fun h => h.1.elim (fun h => absurd h (hnot hu2 hxn)) (fun h => h.1), fun h => ⟨Or.inr ⟨h, hoff hxn⟩, n4⟩⟩

theorem rev_append (a r : List Str) : (a ++ r).reverse = r.reverse ++ a.reverse := List.reverse_append

/-- **C61** (a subtree's marks moved): when the store works and nothing is recorded under the new name, moving the marks under one name to another records
under the new name exactly what was recorded under the old one, leaves nothing under the old one, and changes no other mark (those on the two
names themselves included). -/
theorem C61_rename_subtree {f : Faults} (hf : ∀ k, f k = false) {s : MState} (hs : Agree s) {old new : List Str} (ho : CleanComps old) (hn : CleanComps new)
    (hd1 : ¬ old <+: new) (hd2 : ¬ new <+: old)
    (hfree : ∀ r, r ≠ [] → join (new ++ r) ∉ s.mem.whiteout ∧ join (new ++ r) ∉ s.mem.opq) :
    let s' := (Overlay.renameSubtree f (join old) (join new) s).1
    (Overlay.renameSubtree f (join old) (join new) s).2 = true ∧
    (∀ r, r ≠ [] → CleanComps r →
      ((join (new ++ r) ∈ s'.mem.whiteout ↔ join (old ++ r) ∈ s.mem.whiteout) ∧ (join (new ++ r) ∈ s'.mem.opq ↔ join (old ++ r) ∈ s.mem.opq)) ∧
      join (old ++ r) ∉ s'.mem.whiteout ∧ join (old ++ r) ∉ s'.mem.opq) ∧
    (∀ x, CleanComps x → (∀ r, r ≠ [] → x ≠ old ++ r ∧ x ≠ new ++ r) →
      (join x ∈ s'.mem.whiteout ↔ join x ∈ s.mem.whiteout) ∧ (join x ∈ s'.mem.opq ↔ join x ∈ s.mem.opq)) := by
  have hR := rel_mask hs
  obtain ⟨N1, N2, h1, h2⟩ := hR.masked (ok_rev ho)
  obtain ⟨P1, P2, P3, P4, hst, hrel, hfull⟩ := renameSubtree_steps f (ok_rev ho) (ok_rev hn) hR h1 h2
  rw [pathOf_rev, pathOf_rev] at hrel hfull
  have hok := renameSubtree_ok hf (join old) (join new) s
  obtain ⟨rfl, rfl, hP3, hP4⟩ := hfull hok
  subst hP3; subst hP4
  obtain ⟨m1, m2, m3⟩ := moved_sets (by rwa [List.reverse_suffix]) (by rwa [List.reverse_suffix]) h1 h2 hst
  refine ⟨hok, fun r hr hrc => ?_, fun x hx hout => ?_⟩
  · have hr' : r.reverse ≠ [] := by simpa using hr
    have hcn : Ok (r.reverse ++ new.reverse) := by rw [← rev_append]; exact ok_rev (Names.cc_append hn hrc)
    have hco : Ok (r.reverse ++ old.reverse) := by rw [← rev_append]; exact ok_rev (Names.cc_append ho hrc)
    obtain ⟨f1, f2⟩ := hfree r hr
    rw [← pathOf_rev, rev_append, hR.wh _ hcn] at f1
    rw [← pathOf_rev, rev_append, hR.op _ hcn] at f2
    rw [← pathOf_rev (new ++ r), ← pathOf_rev (old ++ r), rev_append, rev_append, hrel.wh _ hcn, hrel.op _ hcn, hrel.wh _ hco, hrel.op _ hco, hR.wh _ hco, hR.op _ hco,
      (m1 _ hr').1, (m1 _ hr').2, (m2 _ hr').1, (m2 _ hr').2, h1.mem, h2.mem]
    have hu : old.reverse <:+ r.reverse ++ old.reverse ∧ r.reverse ++ old.reverse ≠ old.reverse := suffix_iff_above.2 ⟨_, hr', rfl⟩
    refine ⟨⟨⟨?_, fun h => Or.inl ⟨h, hu⟩⟩, ⟨?_, fun h => Or.inl ⟨h, hu⟩⟩⟩, fun h => h.2 ⟨h.1, hu⟩, fun h => h.2 ⟨h.1, hu⟩⟩
    · rintro (h | h)
      · exact h.1
      · exact absurd h.1 f1
    · rintro (h | h)
      · exact h.1
      · exact absurd h.1 f2
  · have := m3 x.reverse (fun h => ?_) (fun h => ?_)
    · rw [← pathOf_rev x, hrel.wh _ (ok_rev hx), hrel.op _ (ok_rev hx), hR.wh _ (ok_rev hx), hR.op _ (ok_rev hx)]
      exact this
    · obtain ⟨r, hr, he⟩ := suffix_iff_above.1 h
      refine (hout r.reverse (by simpa using hr)).1 ?_
      have := congrArg List.reverse he
      simpa using this
    · obtain ⟨r, hr, he⟩ := suffix_iff_above.1 h
      refine (hout r.reverse (by simpa using hr)).2 ?_
      have := congrArg List.reverse he
      simpa using this

/-- **C81.** Whatever store calls fail while the marks of a subtree are moved, at whatever point it stops: every mark that was recorded under the old
name is still recorded there, or already recorded at the matching place under the new name; and no mark outside the two subtrees changes. -/
theorem C81_no_mark_lost (f : Faults) {s : MState} (hs : Agree s) {old new : List Str} (ho : CleanComps old) (hn : CleanComps new)
    (hd1 : ¬ old <+: new) (hd2 : ¬ new <+: old) :
    let s' := (Overlay.renameSubtree f (join old) (join new) s).1
    (∀ r, r ≠ [] → CleanComps r →
      (join (old ++ r) ∈ s.mem.whiteout → join (old ++ r) ∈ s'.mem.whiteout ∨ join (new ++ r) ∈ s'.mem.whiteout) ∧
      (join (old ++ r) ∈ s.mem.opq → join (old ++ r) ∈ s'.mem.opq ∨ join (new ++ r) ∈ s'.mem.opq)) ∧
    (∀ x, CleanComps x → (∀ r, r ≠ [] → x ≠ old ++ r ∧ x ≠ new ++ r) →
      (join x ∈ s'.mem.whiteout ↔ join x ∈ s.mem.whiteout) ∧ (join x ∈ s'.mem.opq ↔ join x ∈ s.mem.opq)) := by
  have hR := rel_mask hs
  obtain ⟨N1, N2, h1, h2⟩ := hR.masked (ok_rev ho)
  obtain ⟨P1, P2, P3, P4, hst, hrel, -⟩ := renameSubtree_steps f (ok_rev ho) (ok_rev hn) hR h1 h2
  rw [pathOf_rev, pathOf_rev] at hrel
  obtain ⟨m1, m2, m3⟩ := moved_sets (by rwa [List.reverse_suffix]) (by rwa [List.reverse_suffix]) h1 h2 hst
  refine ⟨fun r hr hrc => ?_, fun x hx hout => ?_⟩
  · have hr' : r.reverse ≠ [] := by simpa using hr
    have hcn : Ok (r.reverse ++ new.reverse) := by rw [← rev_append]; exact ok_rev (Names.cc_append hn hrc)
    have hco : Ok (r.reverse ++ old.reverse) := by rw [← rev_append]; exact ok_rev (Names.cc_append ho hrc)
    rw [← pathOf_rev (new ++ r), ← pathOf_rev (old ++ r), rev_append, rev_append, hrel.wh _ hcn, hrel.op _ hcn, hrel.wh _ hco, hrel.op _ hco, hR.wh _ hco, hR.op _ hco,
      (m1 _ hr').1, (m1 _ hr').2, (m2 _ hr').1, (m2 _ hr').2]
    have hu : old.reverse <:+ r.reverse ++ old.reverse ∧ r.reverse ++ old.reverse ≠ old.reverse := suffix_iff_above.2 ⟨_, hr', rfl⟩
    refine ⟨fun h => ?_, fun h => ?_⟩
    · by_cases e : r.reverse ++ old.reverse ∈ P3
      · refine Or.inr (Or.inl ?_)
        rw [(hst.h3 (List.ne_nil_of_mem e)).1]
        exact hst.p3.mem e
      · exact Or.inl ⟨h, e⟩
    · by_cases e : r.reverse ++ old.reverse ∈ P4
      · refine Or.inr (Or.inl ?_)
        rw [(hst.h4 (List.ne_nil_of_mem e)).2.1]
        exact hst.p4.mem e
      · exact Or.inl ⟨h, e⟩
  · have := m3 x.reverse (fun h => ?_) (fun h => ?_)
    · rw [← pathOf_rev x, hrel.wh _ (ok_rev hx), hrel.op _ (ok_rev hx), hR.wh _ (ok_rev hx), hR.op _ (ok_rev hx)]
      exact this
    · obtain ⟨r, hr, he⟩ := suffix_iff_above.1 h
      refine (hout r.reverse (by simpa using hr)).1 ?_
      have := congrArg List.reverse he
      simpa using this
    · obtain ⟨r, hr, he⟩ := suffix_iff_above.1 h
      refine (hout r.reverse (by simpa using hr)).2 ?_
      have := congrArg List.reverse he
      simpa using this

/-! ### C82: the changes -/

/-- The changes of the marks, on names of the merged view. -/
inductive MarkCall where
  | setWhiteout (n : Name) | clearWhiteout (n : Name) | setOpaque (n : Name) | clearOpaque (n : Name)
  | clearSubtree (n : Name) | renameSubtree (a b : Name)

/-- The change as the overlay's calls are modelled (Ops.lean). -/
def MarkCall.names : MarkCall → Op Unit
  | .setWhiteout n => Stack.setWhiteout n
  | .clearWhiteout n => Stack.clearWhiteout n
  | .setOpaque n => Stack.setOpaque n
  | .clearOpaque n => Stack.clearOpaque n
  | .clearSubtree n => Stack.clearSubtree n
  | .renameSubtree a b => Stack.renameSubtree a b

/-- The change on strings and rows of the store (Store.lean). -/
def MarkCall.strings : MarkCall → MarkOp
  | .setWhiteout n => .setWhiteout (pathOf n)
  | .clearWhiteout n => .clearWhiteout (pathOf n)
  | .setOpaque n => .setOpaque (pathOf n)
  | .clearOpaque n => .clearOpaque (pathOf n)
  | .clearSubtree n => .clearSubtree (pathOf n)
  | .renameSubtree a b => .renameSubtree (pathOf a) (pathOf b)

def MarkCall.Ok : MarkCall → Prop
  | .setWhiteout n | .clearWhiteout n | .setOpaque n | .clearOpaque n | .clearSubtree n => Stack.Ok n
  | .renameSubtree a b => Stack.Ok a ∧ Stack.Ok b

/-- A program that does one thing to the marks of the top. -/
def Does (o : Op Unit) (h : Mask → Mask) : Prop := ∀ S, final o S = onMask 0 h S ∧ result o S = .ok ()

theorem onMask_onMask (g h : Mask → Mask) (S : Sys) : onMask 0 g (onMask 0 h S) = onMask 0 (fun m => g (h m)) S := by
  unfold onMask
  simp only [Sys.mk.injEq, true_and, and_true]
  funext k
  split <;> rfl

theorem onMask_self {h : Mask → Mask} {S : Sys} (e : h (S.mask 0) = S.mask 0) : onMask 0 h S = S := by
  unfold onMask
  have : (fun k => if k = 0 then h (S.mask k) else S.mask k) = S.mask := by
    funext k
    by_cases hk : k = 0
    · subst hk; rw [if_pos rfl, e]
    · rw [if_neg hk]
  rw [this]

theorem Does.bind {a : Op Unit} {b : Unit → Op Unit} {g h : Mask → Mask} (ha : Does a g) (hb : Does (b ()) h) : Does (a >>= b) (fun m => h (g m)) := by
  intro S
  obtain ⟨h1, h2⟩ := ha S
  obtain ⟨h3, h4⟩ := hb (onMask 0 g S)
  unfold final result at *
  show (Prog.bind a b S).2.1 = _ ∧ (Prog.bind a b S).2.2 = _
  unfold Prog.bind
  rcases e : a S with ⟨cs, S1, r⟩
  rw [e] at h1 h2
  simp only at h1 h2
  subst h1; subst h2
  exact ⟨h3.trans (onMask_onMask h g S), h4⟩

theorem does_forNames {o : Name → Op Unit} {h : Name → Mask → Mask} (ho : ∀ n, Does (o n) (h n)) : ∀ L, Does (forNames o L) (fun m => L.foldl (fun m n => h n m) m) := by
  intro L
  induction L with
  | nil => intro S; exact ⟨(onMask_self rfl).symm, rfl⟩
  | cons n L ih => exact (ho n).bind (b := fun _ => forNames o L) ih

theorem does_modify (h : Mask → Mask) : Does (Prog.modify (onMask 0 h)) h := fun _ => ⟨rfl, rfl⟩

theorem filter_ne_self {n : Name} {l : List Name} (h : n ∉ l) : l.filter (fun x => x ≠ n) = l := by
  rw [List.filter_eq_self]
  intro x hx
  have : x ≠ n := by rintro rfl; exact h hx
  simpa using this

theorem does_unmask (n : Name) : Does (unmask n) (fun m => m.clearWh n) := by
  intro S
  unfold unmask final result
  show (Prog.bind Prog.get _ S).2.1 = _ ∧ (Prog.bind Prog.get _ S).2.2 = _
  unfold Prog.bind Prog.get
  simp only
  by_cases h : n ∈ (S.mask 0).wh
  · rw [if_pos h]; exact ⟨rfl, rfl⟩
  · rw [if_neg h]
    exact ⟨(onMask_self (S := S) (by unfold Mask.clearWh; rw [filter_ne_self h])).symm, rfl⟩

theorem does_unopaque (n : Name) : Does (unopaque n) (fun m => m.clearOp n) := by
  intro S
  unfold unopaque final result
  show (Prog.bind Prog.get _ S).2.1 = _ ∧ (Prog.bind Prog.get _ S).2.2 = _
  unfold Prog.bind Prog.get
  simp only
  by_cases h : n ∈ (S.mask 0).op
  · rw [if_pos h]; exact ⟨rfl, rfl⟩
  · rw [if_neg h]
    exact ⟨(onMask_self (S := S) (by unfold Mask.clearOp; rw [filter_ne_self h])).symm, rfl⟩

def Mask.clearSub (n : Name) (m : Mask) : Mask :=
  (under n m.op ++ [n]).foldl (fun m n => m.clearOp n) ((under n m.wh ++ [n]).foldl (fun m n => m.clearWh n) m)

theorem does_clearSubtree (n : Name) : Does (clearSubtree n) (fun m => m.clearSub n) := by
  intro S
  have hd := (does_forNames does_unmask (under n (S.mask 0).wh ++ [n])).bind (b := fun _ => forNames unopaque (under n (S.mask 0).op ++ [n]))
    (does_forNames does_unopaque (under n (S.mask 0).op ++ [n])) S
  have e : clearSubtree n S = (forNames unmask (under n (S.mask 0).wh ++ [n]) >>= fun _ => forNames unopaque (under n (S.mask 0).op ++ [n])) S := by
    unfold clearSubtree
    show Prog.bind Prog.get _ S = _
    unfold Prog.bind Prog.get
    simp only [List.nil_append]
  unfold final result at *
  rw [e, hd.1, hd.2]
  refine ⟨?_, rfl⟩
  unfold onMask
  congr 1
  funext k
  by_cases hk : k = 0
  · subst hk; rfl
  · rw [if_neg hk, if_neg hk]

theorem does_renameSubtree (old new : Name) : Does (renameSubtree old new) (fun m =>
    moveMarks old new (under old m.wh) (under old m.op) (under old m.wh) (under old m.op) m) := by
  intro S
  have hd := (does_forNames (o := fun n => setWhiteout (rebase old new n)) (fun n => does_modify (Mask.setWh (rebase old new n))) (under old (S.mask 0).wh)).bind
    (b := fun _ => forNames (fun n => setOpaque (rebase old new n)) (under old (S.mask 0).op) >>= fun _ =>
      forNames clearWhiteout (under old (S.mask 0).wh) >>= fun _ => forNames clearOpaque (under old (S.mask 0).op))
    ((does_forNames (o := fun n => setOpaque (rebase old new n)) (fun n => does_modify (Mask.setOp (rebase old new n))) (under old (S.mask 0).op)).bind
      ((does_forNames (o := clearWhiteout) (fun n => does_modify (Mask.clearWh n)) (under old (S.mask 0).wh)).bind
        (does_forNames (o := clearOpaque) (fun n => does_modify (Mask.clearOp n)) (under old (S.mask 0).op)))) S
  have e : renameSubtree old new S = (forNames (fun n => setWhiteout (rebase old new n)) (under old (S.mask 0).wh) >>= fun _ =>
      forNames (fun n => setOpaque (rebase old new n)) (under old (S.mask 0).op) >>= fun _ =>
      forNames clearWhiteout (under old (S.mask 0).wh) >>= fun _ => forNames clearOpaque (under old (S.mask 0).op)) S := by
    unfold renameSubtree
    show Prog.bind Prog.get _ S = _
    unfold Prog.bind Prog.get
    simp only [List.nil_append]
  unfold final result at *
  rw [e, hd.1, hd.2]
  refine ⟨?_, rfl⟩
  unfold onMask
  congr 1
  funext k
  by_cases hk : k = 0
  · subst hk; rfl
  · rw [if_neg hk, if_neg hk]

/-- What the change does to the marks. -/
def MarkCall.does : MarkCall → Mask → Mask
  | .setWhiteout n => Mask.setWh n
  | .clearWhiteout n => Mask.clearWh n
  | .setOpaque n => Mask.setOp n
  | .clearOpaque n => Mask.clearOp n
  | .clearSubtree n => Mask.clearSub n
  | .renameSubtree old new => fun m => moveMarks old new (under old m.wh) (under old m.op) (under old m.wh) (under old m.op) m

theorem does_call (c : MarkCall) : Does c.names c.does := by
  cases c with
  | setWhiteout n => exact does_modify _
  | clearWhiteout n => exact does_modify _
  | setOpaque n => exact does_modify _
  | clearOpaque n => exact does_modify _
  | clearSubtree n => exact does_clearSubtree n
  | renameSubtree a b => exact does_renameSubtree a b

theorem under_masks {d : Name} {k : List Name} (hk : ∀ x ∈ k, Ok x) : MasksUnder d k ((under d k).map pathOf) (under d k) := by
  have hok : ∀ x ∈ under d k, Ok x := fun x hx => hk x (mem_under.1 hx).1
  exact ⟨rfl, hok, fun x => mem_under, downwards_of_sorted hok (sorted_sortNames _)⟩

theorem sameMarks_moves {old new : Name} {m : Mask} {N1 N2 N1' N2' k1 k1' : List Name} {L1 L1' : List Str} (h1 : MasksUnder old k1 L1 N1)
    (h1' : MasksUnder old k1' L1' N1') (e1 : ∀ x, x ∈ N1 ↔ x ∈ N1') (e2 : ∀ x, x ∈ N2 ↔ x ∈ N2') :
    SameMarks (moveMarks old new N1 N2 N1 N2 m) (moveMarks old new N1' N2' N1' N2' m) := by
  have hst : ∀ A B : List Name, Stage A B A B A B := fun A B =>
    ⟨List.prefix_refl _, List.prefix_refl _, List.prefix_refl _, List.prefix_refl _, fun _ => rfl, fun _ => ⟨rfl, rfl⟩, fun _ => ⟨rfl, rfl, rfl⟩⟩
  have em : ∀ {A B : List Name}, (∀ x, x ∈ A ↔ x ∈ B) → ∀ x, x ∈ A.map (rebase old new) ↔ x ∈ B.map (rebase old new) := by
    intro A B h x
    simp only [List.mem_map, h]
  refine ⟨fun x => ?_, fun x => ?_⟩
  · rw [(mem_moveMarks h1 (hst N1 N2) x).1, (mem_moveMarks h1' (hst N1' N2') x).1, em e1, e1]
    simp only [em e1]
  · rw [(mem_moveMarks h1 (hst N1 N2) x).2, (mem_moveMarks h1' (hst N1' N2') x).2, em e2, e2]
    simp only [em e1]

/-- **C82** (changes): with a working store, each change of the marks as the overlay's calls are modelled (on names) succeeds, touches nothing but the
marks of the top, and does the same as the change on strings and rows. -/
theorem C82_changes {f : Faults} (hf : ∀ k, f k = false) {s : MState} {S : Sys} (h : Rel s (S.mask 0)) (c : MarkCall) (hc : c.Ok) :
    (c.strings.run f s).2 = true ∧ result c.names S = .ok () ∧ Rel (c.strings.run f s).1 ((final c.names S).mask 0) ∧
    (final c.names S).layer = S.layer ∧ (∀ i, i ≠ 0 → (final c.names S).mask i = S.mask i) ∧ (final c.names S).stage = S.stage := by
  obtain ⟨hfin, hres⟩ := does_call c S
  rw [hfin, hres]
  have hm : (onMask 0 c.does S).mask 0 = c.does (S.mask 0) := rfl
  refine ⟨?_, rfl, ?_, rfl, fun i hi => by unfold onMask; simp only [if_neg hi], rfl⟩
  · cases c with
    | setWhiteout n => exact setWhiteout_ok hf _ _
    | clearWhiteout n => exact clearWhiteout_ok hf _ _
    | setOpaque n => exact setOpaque_ok hf _ _
    | clearOpaque n => exact clearOpaque_ok hf _ _
    | clearSubtree n => exact clearSubtree_ok hf _ _
    | renameSubtree a b => exact renameSubtree_ok hf _ _ _
  · rw [hm]
    have one : ∀ {r : MRes} {m m' : Mask}, r.2 = true → Steps r m m' → Rel r.1 m' := by
      rintro r m m' hr (⟨h1, _⟩ | ⟨_, h2⟩)
      · rw [h1] at hr; cases hr
      · exact h2
    cases c with
    | setWhiteout n => exact one (setWhiteout_ok hf _ _) (step_setWhiteout f hc (clean_pathOf hc) h)
    | clearWhiteout n => exact one (clearWhiteout_ok hf _ _) (step_clearWhiteout f hc (clean_pathOf hc) h)
    | setOpaque n => exact one (setOpaque_ok hf _ _) (step_setOpaque f hc (clean_pathOf hc) h)
    | clearOpaque n => exact one (clearOpaque_ok hf _ _) (step_clearOpaque f hc (clean_pathOf hc) h)
    | clearSubtree n =>
      obtain ⟨N1, N2, h1, h2⟩ := h.masked hc
      obtain ⟨P1, P2, -, -, -, hrel, hfull⟩ := clearSubtree_steps f hc h h1 h2
      obtain ⟨rfl, rfl⟩ := hfull (clearSubtree_ok hf _ _)
      refine hrel.same ⟨fun x => ?_, fun x => ?_⟩
      · show _ ↔ x ∈ (Mask.clearSub n (S.mask 0)).wh
        unfold Mask.clearSub
        rw [(fold_clearOp _ _ _).1, (fold_clearWh _ _ _).1, (fold_clearOp _ _ _).1, (fold_clearWh _ _ _).1, List.mem_append, List.mem_append, h1.mem, mem_under]
      · show _ ↔ x ∈ (Mask.clearSub n (S.mask 0)).op
        unfold Mask.clearSub
        rw [(fold_clearOp _ _ _).2, (fold_clearWh _ _ _).2, (fold_clearOp _ _ _).2, (fold_clearWh _ _ _).2, List.mem_append, List.mem_append, h2.mem, mem_under]
    | renameSubtree a b =>
      obtain ⟨N1, N2, h1, h2⟩ := h.masked hc.1
      obtain ⟨P1, P2, P3, P4, hst, hrel, hfull⟩ := renameSubtree_steps f hc.1 hc.2 h h1 h2
      obtain ⟨rfl, rfl, hP3, hP4⟩ := hfull (renameSubtree_ok hf _ _ _)
      subst hP3; subst hP4
      exact hrel.same (sameMarks_moves h1 (under_masks h.whOk) (fun x => by rw [h1.mem, mem_under]) (fun x => by rw [h2.mem, mem_under]))

/-- A run of changes on names. -/
def runNames : List MarkCall → Sys → Sys
  | [], S => S
  | c :: cs, S => runNames cs (final c.names S)

/-- **C82** (histories): an overlay opened over any well-kept store, with the marks read from it, and any changes after that: at every point the marks by
name are the marks by string. -/
theorem C82_history {f : Faults} (hf : ∀ k, f k = false) : ∀ (cs : List MarkCall), (∀ c ∈ cs, c.Ok) → ∀ {s : MState} {S : Sys}, Rel s (S.mask 0) →
    Rel (history f (cs.map MarkCall.strings) s) ((runNames cs S).mask 0) := by
  intro cs
  induction cs with
  | nil => intro _ s S h; exact h
  | cons c cs ih =>
    intro hok s S h
    exact ih (fun c hc => hok c (List.mem_cons_of_mem _ hc)) (C82_changes hf h c (hok c List.mem_cons_self)).2.2.1

theorem C82_opened {t : Table} (ht : WellKept t) : Rel (Overlay.opened t) (MState.mask (Overlay.opened t)) := rel_mask (agree_opened ht)

/-! ### C82: the questions -/

/-- state.go 295-297, by string. -/
def strMarked (masks : Nat → Overlay.Marks) (n : Str) (self : Bool) (i : Nat) : Bool :=
  decide (n ∈ (masks i).whiteout) || (decide (n ∈ (masks i).opq) && !self)

/-- state.go 292-305, by string; `fuel` bounds the number of components. -/
def strCutGo (masks : Nat → Overlay.Marks) (from_ : Nat) : (fuel : Nat) → Str → Bool → Nat → Option Nat
  | 0, _, _, _ => none
  | k + 1, n, self, cut =>
    let cut' := scan (strMarked masks n self) cut (cut + 1 - from_) from_
    if n = [] then some cut' else strCutGo masks from_ k (parentName n) false cut'

/-- state.go 290-306 `cutFrom`, by string. -/
def strCutFrom (masks : Nat → Overlay.Marks) (last : Nat) (n : Str) (from_ : Nat) : Option Nat := strCutGo masks from_ (n.length + 1) n true last

/-- state.go 311-319 `childCut`, by string. -/
def strChildCut (masks : Nat → Overlay.Marks) (last : Nat) (n : Str) : Option Nat :=
  (strCutFrom masks last n 0).map (fun cut => scan (fun i => decide (n ∈ (masks i).opq)) cut (cut + 1) 0)

/-- state.go 325-332 `whiteoutAbove`, by string. -/
def strWhiteoutAbove (masks : Nat → Overlay.Marks) (i : Nat) (n : Str) : Bool := (List.range i).any (fun j => decide (n ∈ (masks j).whiteout))

theorem scan_congr {p q : Nat → Bool} (h : ∀ i, p i = q i) (cut : Nat) : ∀ k i, scan p cut k i = scan q cut k i := by
  intro k
  induction k with
  | zero => intro i; rfl
  | succ k ih => intro i; unfold scan; rw [h i, ih]

theorem length_pathOf {n : Name} (h : Ok n) : n.length ≤ (pathOf n).length := by
  have key : ∀ cs : List Str, (∀ c ∈ cs, c ≠ []) → cs.length ≤ (join cs).length := by
    intro cs
    induction cs with
    | nil => intro _; simp
    | cons c cs ih =>
      intro hne
      have hc : 0 < c.length := List.length_pos_iff.2 (hne c List.mem_cons_self)
      have := ih (fun x hx => hne x (List.mem_cons_of_mem _ hx))
      cases cs with
      | nil => show 1 ≤ c.length; omega
      | cons c' cs =>
        show _ ≤ (c ++ slash :: join (c' :: cs)).length
        simp only [List.length_append, List.length_cons] at this ⊢
        omega
  have := key n.reverse (fun c hc => (h c hc).1.1)
  simpa [pathOf] using this

theorem parentName_pathOf {c : Str} {d : Name} (h : Ok (c :: d)) : parentName (pathOf (c :: d)) = pathOf d := by
  unfold pathOf
  rw [List.reverse_cons]
  exact Names.parentName_join (ok_iff.1 h c List.mem_cons_self)

theorem pathOf_eq_nil {n : Name} (h : Ok n) : pathOf n = [] ↔ n = [] := by
  unfold pathOf
  rw [join_eq_nil h, List.reverse_eq_nil_iff]

/-- The marks of every layer, by string and by name, are the same. -/
def SameMasks (masks : Nat → Overlay.Marks) (S : Sys) : Prop :=
  ∀ i x, Ok x → (pathOf x ∈ (masks i).whiteout ↔ x ∈ (S.mask i).wh) ∧ (pathOf x ∈ (masks i).opq ↔ x ∈ (S.mask i).op)

theorem strCutGo_eq {masks : Nat → Overlay.Marks} {S : Sys} (h : SameMasks masks S) (from_ : Nat) : ∀ (n : Name), Ok n → ∀ k, n.length < k → ∀ self cut,
    strCutGo masks from_ k (pathOf n) self cut = some (S.cutGo from_ n self cut) := by
  have hm : ∀ n, Ok n → ∀ self i, strMarked masks (pathOf n) self i = S.marked n self i := by
    intro n hn self i
    unfold strMarked Sys.marked
    rw [decide_eq_decide.2 (h i n hn).1, decide_eq_decide.2 (h i n hn).2]
  intro n
  induction n with
  | nil =>
    intro hn k hk self cut
    cases k with
    | zero => simp at hk
    | succ k =>
      unfold strCutGo
      simp only
      rw [if_pos ((pathOf_eq_nil hn).2 rfl), scan_congr (hm [] hn self)]
      rfl
  | cons c d ih =>
    intro hn k hk self cut
    cases k with
    | zero => simp at hk
    | succ k =>
      unfold strCutGo
      simp only
      rw [if_neg (fun e => by cases (pathOf_eq_nil hn).1 e), parentName_pathOf hn, scan_congr (hm (c :: d) hn self)]
      have hd : Ok d := hn.suffix (List.suffix_cons c d)
      rw [ih hd k (by simp only [List.length_cons] at hk; omega)]
      rfl

/-- **C82** (questions): how deep a name may be looked for, how deep a directory's children, and whether a name is masked above a layer: asked by string or
by name the answer is the same. -/
theorem C82_questions {masks : Nat → Overlay.Marks} {S : Sys} (h : SameMasks masks S) {n : Name} (hn : Ok n) :
    (∀ from_, strCutFrom masks S.last (pathOf n) from_ = some (S.cutFrom n from_)) ∧ strChildCut masks S.last (pathOf n) = some (S.childCut n) ∧
    ∀ i, strWhiteoutAbove masks i (pathOf n) = S.whiteoutAbove i n := by
  have hc : ∀ from_, strCutFrom masks S.last (pathOf n) from_ = some (S.cutFrom n from_) := fun from_ =>
    strCutGo_eq h from_ n hn _ (by have := length_pathOf hn; omega) true S.last
  refine ⟨hc, ?_, fun i => ?_⟩
  · unfold strChildCut
    rw [hc 0]
    show some (scan _ (S.cutFrom n 0) (S.cutFrom n 0 + 1) 0) = _
    rw [scan_congr (fun i => decide_eq_decide.2 (h i n hn).2)]
    rfl
  · unfold strWhiteoutAbove Sys.whiteoutAbove
    congr 1
    funext j
    exact decide_eq_decide.2 (h j n hn).1

namespace Example
/-- A store with a whiteout at `a/x`, one at `a/y/z` and an opaque mark on `a/y`. -/
def t1 : Table := [⟨"a/x".toList, true, false⟩, ⟨"a/y".toList, false, true⟩, ⟨"a/y/z".toList, true, false⟩]

theorem names_clean {cs : List Str} (h : cs.all (fun c => decide (c ≠ []) && decide (slash ∉ c) && decide (c ≠ dot) && decide (c ≠ dotdot)) = true) : CleanComps cs := by
  intro c hc
  have := List.all_eq_true.1 h c hc
  simp only [Bool.and_eq_true, decide_eq_true_eq] at this
  exact ⟨⟨this.1.1.1, this.1.1.2⟩, this.1.2, this.2⟩

theorem t1_kept : WellKept t1 := by
  intro r hr
  simp only [t1, List.mem_cons, List.not_mem_nil, or_false] at hr
  rcases hr with rfl | rfl | rfl
  · exact ⟨⟨[['a'], ['x']], names_clean (by decide), by decide⟩, Or.inl rfl⟩
  · exact ⟨⟨[['a'], ['y']], names_clean (by decide), by decide⟩, Or.inr rfl⟩
  · exact ⟨⟨[['a'], ['y'], ['z']], names_clean (by decide), by decide⟩, Or.inl rfl⟩
end Example

open Example in
/-- The hypotheses of C61 (moved and cleared), C81 and C82 are met by the overlay opened over this store. -/
example : Agree (Overlay.opened t1) ∧ CleanComps [['a']] ∧ CleanComps [['b']] ∧ ¬ [['a']] <+: [['b']] ∧ ¬ [['b']] <+: [['a']] ∧
    (MarkCall.renameSubtree [['a']] [['b']]).Ok ∧ Rel (Overlay.opened t1) (MState.mask (Overlay.opened t1)) :=
  ⟨agree_opened t1_kept, names_clean (by decide), names_clean (by decide), by decide, by decide, ⟨names_clean (by decide), names_clean (by decide)⟩,
    C82_opened t1_kept⟩

open Example in
/-- Moving `a` to `b`: with a working store the marks move; when the fourth store call fails they are at both places; when the first fails nothing changed. -/
example : (Overlay.renameSubtree (fun _ => false) ['a'] ['b'] (Overlay.opened t1)).1.mem = ⟨["b/y/z".toList, "b/x".toList], ["b/y".toList]⟩ ∧
    (Overlay.renameSubtree (fun k => k = 4) ['a'] ['b'] (Overlay.opened t1)).1.mem =
      ⟨["b/y/z".toList, "b/x".toList, "a/y/z".toList], ["b/y".toList, "a/y".toList]⟩ ∧
    (Overlay.renameSubtree (fun k => k = 0) ['a'] ['b'] (Overlay.opened t1)).1.mem = (Overlay.opened t1).mem ∧
    (Overlay.clearSubtree (fun _ => false) "a/y".toList (Overlay.opened t1)).1.mem = ⟨["a/x".toList], []⟩ := by decide

end Verif.Overlay.Stack
