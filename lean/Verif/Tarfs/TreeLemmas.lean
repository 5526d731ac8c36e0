import Verif.Tarfs.TreeModel
/-
Helper lemmas for C36 and C37: the map of headers, the order of the keys, the tree after any number of insertions.
-/
namespace Verif.Tarfs
open Verif.Path

/-! ### The map -/

theorem mapGet_put (m : List (Str × Hdr)) (k : Str) (h : Hdr) (k' : Str) :
    mapGet (mapPut m k h) k' = if k' = k then some h else mapGet m k' := by
  induction m with
  | nil => simp [mapPut, mapGet]; split <;> simp_all [eq_comm]
  | cons x rest ih =>
    obtain ⟨a, b⟩ := x
    simp only [mapPut]
    by_cases ha : a = k
    · subst ha
      simp only [if_true, mapGet]
      by_cases hk : a = k'
      · subst hk; simp
      · simp [hk, Ne.symm hk]
    · simp only [ha, if_false, mapGet, ih]
      by_cases hk : a = k'
      · subst hk; simp [ha]
      · simp [hk]

theorem mapPut_keys (m : List (Str × Hdr)) (k : Str) (h : Hdr) :
    (mapPut m k h).map (·.1) = if k ∈ m.map (·.1) then m.map (·.1) else m.map (·.1) ++ [k] := by
  induction m with
  | nil => simp [mapPut]
  | cons x rest ih =>
    obtain ⟨a, b⟩ := x
    simp only [mapPut]
    by_cases ha : a = k
    · subst ha; simp
    · simp only [ha, if_false, List.map_cons, ih, List.mem_cons, Ne.symm ha, false_or]
      split <;> simp

theorem mapGet_isSome (m : List (Str × Hdr)) (k : Str) : (mapGet m k).isSome ↔ k ∈ m.map (·.1) := by
  induction m with
  | nil => simp [mapGet]
  | cons x rest ih =>
    obtain ⟨a, b⟩ := x
    simp only [mapGet, List.map_cons, List.mem_cons]
    by_cases ha : a = k
    · simp [ha]
    · simp only [ha, if_false, ih]
      constructor
      · exact Or.inr
      · rintro (h | h)
        · exact absurd h.symm ha
        · exact h

theorem collect_spec (hs : List Hdr) :
    (∀ k, mapGet (collect hs) k = (hs.filter (fun h => clean h.name = k)).getLast?) ∧ ((collect hs).map (·.1)).Nodup := by
  have key : ∀ (hs : List Hdr) (m : List (Str × Hdr)), (m.map (·.1)).Nodup →
      (∀ k, mapGet (hs.foldl (fun m h => mapPut m (clean h.name) h) m) k =
        ((hs.filter (fun h => clean h.name = k)).getLast?).or (mapGet m k)) ∧
      ((hs.foldl (fun m h => mapPut m (clean h.name) h) m).map (·.1)).Nodup := by
    intro hs
    induction hs with
    | nil => intro m hm; simp [hm]
    | cons h rest ih =>
      intro m hm
      simp only [List.foldl_cons]
      have hm' : ((mapPut m (clean h.name) h).map (·.1)).Nodup := by
        rw [mapPut_keys]
        split
        · exact hm
        · rename_i hn
          rw [List.nodup_append]
          exact ⟨hm, by simp, by intro a ha b hb; simp at hb; subst hb; rintro rfl; exact hn ha⟩
      obtain ⟨i1, i2⟩ := ih _ hm'
      refine ⟨?_, i2⟩
      intro k
      rw [i1 k, mapGet_put]
      by_cases hk : k = clean h.name
      · subst hk
        simp only [if_true, List.filter_cons, decide_true]
        cases hr : (rest.filter (fun h' => clean h'.name = clean h.name)) with
        | nil => simp
        | cons a r =>
          cases hg : (a :: r).getLast? with
          | none => simp at hg
          | some x => simp [hg]
      · simp [hk, Ne.symm hk]
  obtain ⟨h1, h2⟩ := key hs [] (by simp)
  refine ⟨?_, h2⟩
  intro k
  have := h1 k
  simpa [collect, mapGet] using this

/-! ### Sorting -/

theorem strLe_trans : ∀ (a b c : Str), strLe a b = true → strLe b c = true → strLe a c = true := by
  intro a
  induction a with
  | nil => intros; simp [strLe]
  | cons x s ih =>
    intro b c h1 h2
    cases b with
    | nil => simp [strLe] at h1
    | cons y t =>
      cases c with
      | nil => simp [strLe] at h2
      | cons z u =>
        simp [strLe] at h1 h2 ⊢
        rcases h1 with h1 | ⟨h1, h1'⟩
        · left; rcases h2 with h2 | ⟨h2, _⟩ <;> omega
        · rcases h2 with h2 | ⟨h2, h2'⟩
          · left; omega
          · right; exact ⟨by omega, ih t u h1' h2'⟩

theorem strLe_total : ∀ (a b : Str), strLe a b = true ∨ strLe b a = true := by
  intro a
  induction a with
  | nil => intros; simp [strLe]
  | cons x s ih =>
    intro b
    cases b with
    | nil => simp [strLe]
    | cons y t =>
      simp [strLe]
      rcases Nat.lt_trichotomy x.toNat y.toNat with h | h | h
      · left; left; exact h
      · rcases ih t with h' | h'
        · left; right; exact ⟨h, h'⟩
        · right; right; exact ⟨h.symm, h'⟩
      · right; left; exact h

theorem mem_insertKey (k a : Str) (l : List Str) : a ∈ insertKey k l ↔ a = k ∨ a ∈ l := by
  induction l with
  | nil => simp [insertKey]
  | cons b rest ih =>
    simp only [insertKey]
    split
    · simp
    · simp only [List.mem_cons, ih]
      constructor
      · rintro (h | h | h) <;> simp [h]
      · rintro (h | h | h) <;> simp [h]

theorem mem_sortKeys (a : Str) (l : List Str) : a ∈ sortKeys l ↔ a ∈ l := by
  induction l with
  | nil => simp [sortKeys]
  | cons b rest ih => simp only [sortKeys, mem_insertKey, ih, List.mem_cons]

theorem insertKey_sorted (k : Str) (l : List Str) (h : l.Pairwise (fun a b => strLe a b = true)) :
    (insertKey k l).Pairwise (fun a b => strLe a b = true) := by
  induction l with
  | nil => simp [insertKey]
  | cons b rest ih =>
    rw [List.pairwise_cons] at h
    simp only [insertKey]
    split
    · rename_i hk
      rw [List.pairwise_cons, List.pairwise_cons]
      refine ⟨?_, h⟩
      intro a ha
      rw [List.mem_cons] at ha
      rcases ha with rfl | ha
      · exact hk
      · exact strLe_trans _ _ _ hk (h.1 a ha)
    · rename_i hk
      rw [List.pairwise_cons]
      refine ⟨?_, ih h.2⟩
      intro a ha
      rw [mem_insertKey] at ha
      rcases ha with rfl | ha
      · rcases strLe_total a b with h' | h'
        · exact absurd h' hk
        · exact h'
      · exact h.1 a ha

theorem sortKeys_sorted (l : List Str) : (sortKeys l).Pairwise (fun a b => strLe a b = true) := by
  induction l with
  | nil => exact List.Pairwise.nil
  | cons a rest ih => exact insertKey_sorted _ _ ih

theorem insertKey_nodup (k : Str) (l : List Str) (h : l.Nodup) (hk : k ∉ l) : (insertKey k l).Nodup := by
  induction l with
  | nil => simp [insertKey]
  | cons b rest ih =>
    rw [List.nodup_cons] at h
    simp only [insertKey]
    split
    · rw [List.nodup_cons, List.nodup_cons]; exact ⟨hk, h⟩
    · rw [List.nodup_cons]
      refine ⟨?_, ih h.2 (fun h' => hk (List.mem_cons_of_mem _ h'))⟩
      rw [mem_insertKey]
      rintro (rfl | h')
      · exact hk (by simp)
      · exact h.1 h'

theorem sortKeys_nodup (l : List Str) (h : l.Nodup) : (sortKeys l).Nodup := by
  induction l with
  | nil => simp [sortKeys]
  | cons a rest ih =>
    rw [List.nodup_cons] at h
    exact insertKey_nodup _ _ (ih h.2) (by rw [mem_sortKeys]; exact h.1)

/-- A string never comes before (or equal to) a proper prefix of itself. -/
theorem strLe_prefix (a z : Str) (hz : z ≠ []) : strLe (a ++ z) a = false := by
  induction a with
  | nil => cases z with
    | nil => exact absurd rfl hz
    | cons => rfl
  | cons x s ih => simp [strLe, ih]

/-- Prefixes of component lists are prefixes of strings. -/
theorem join_append {p q : List Str} (hp : p ≠ []) (hq : q ≠ []) : join (p ++ q) = join p ++ slash :: join q := by
  induction p with
  | nil => exact absurd rfl hp
  | cons a rest ih =>
    cases rest with
    | nil =>
      cases q with
      | nil => exact absurd rfl hq
      | cons b r => rfl
    | cons b r =>
      have := ih (by simp)
      simp only [List.cons_append] at this ⊢
      simp only [join]
      rw [this]; simp

/-! ### The tree after a number of insertions -/

/-- An entry beneath `p` was inserted. -/
def below (ps : List (List Str × Hdr)) (p : List Str) : Bool := ps.any (fun x => p.isPrefixOf x.1 && decide (x.1 ≠ p))

/-- The header inserted at `p`. -/
def look (ps : List (List Str × Hdr)) (p : List Str) : Option Hdr := (ps.find? (fun x => decide (x.1 = p))).map (·.2)

def isDirHdr (h : Hdr) : Bool := decide (h.typ = .dir)

/-- The entry at `p` when `ps` were inserted and the directories down to `v` were made sure of. -/
def specEnt (ps : List (List Str × Hdr)) (v p : List Str) : Option Ent :=
  if below ps p || p.isPrefixOf v then some (.dir ((look ps p).filter isDirHdr)) else (look ps p).map entOf

/-- `c` is a name in the directory `p`. -/
def hasChild (ps : List (List Str × Hdr)) (v p : List Str) (c : Str) : Bool :=
  ps.any (fun x => (p ++ [c]).isPrefixOf x.1) || (p ++ [c]).isPrefixOf v

/-- No non-directory among the names of `p` has entries beneath it. -/
def NoShadow (ps : List (List Str × Hdr)) (v p : List Str) : Prop :=
  ∀ c h, look ps (p ++ [c]) = some h → h.typ ≠ .dir → below ps (p ++ [c]) = false ∧ (p ++ [c]).isPrefixOf v = false

/-- The element of `ordered` for the name `c`. -/
def slotOf (ps : List (List Str × Hdr)) (v p : List Str) (c : Str) : Slot :=
  match look ps (p ++ [c]) with
  | some h => if h.typ = .dir ∨ below ps (p ++ [c]) = true ∨ (p ++ [c]).isPrefixOf v = true then .at c else .leaf h
  | none => .at c

structure Inv (root : Hdr) (ps : List (List Str × Hdr)) (v : List Str) (t : Tree) : Prop where
  root : t.ent [] = some (.dir (some root))
  ent : ∀ p, p ≠ [] → t.ent p = specEnt ps v p
  nodup : ∀ p, (t.names p).Nodup
  names : ∀ p c, c ∈ t.names p ↔ hasChild ps v p c = true
  ord : ∀ p, NoShadow ps v p → t.ord p = (t.names p).map (slotOf ps v p)

theorem Inv.empty (root : Hdr) : Inv root [] [] (emptyTree root) := by
  refine ⟨by simp [emptyTree], ?_, by intro; simp [emptyTree], ?_, by intros; simp [emptyTree]⟩
  · intro p hp
    simp [emptyTree, hp, specEnt, below, look]
  · intro p c; simp [emptyTree, hasChild]

theorem below_iff (ps : List (List Str × Hdr)) (p : List Str) :
    below ps p = true ↔ ∃ x ∈ ps, ∃ q, q ≠ [] ∧ x.1 = p ++ q := by
  simp only [below, List.any_eq_true, Bool.and_eq_true, List.isPrefixOf_iff_prefix, decide_eq_true_eq]
  constructor
  · rintro ⟨x, hx, ⟨q, hq⟩, hne⟩
    refine ⟨x, hx, q, ?_, hq.symm⟩
    rintro rfl; simp at hq; exact hne hq.symm
  · rintro ⟨x, hx, q, hq, he⟩
    refine ⟨x, hx, ⟨q, he.symm⟩, ?_⟩
    rw [he]; intro h
    exact hq (by simpa using h)

theorem look_some (ps : List (List Str × Hdr)) (p : List Str) (h : Hdr) (hh : look ps p = some h) : (p, h) ∈ ps := by
  simp only [look, Option.map_eq_some_iff] at hh
  obtain ⟨x, hx, rfl⟩ := hh
  have h1 := List.mem_of_find?_eq_some hx
  have h2 := List.find?_some hx
  simp at h2
  rw [← h2]; exact h1

theorem look_none (ps : List (List Str × Hdr)) (p : List Str) : look ps p = none ↔ ∀ x ∈ ps, x.1 ≠ p := by
  simp [look]

theorem look_append (ps : List (List Str × Hdr)) (q : List Str) (h : Hdr) (p : List Str) :
    look (ps ++ [(q, h)]) p = (look ps p).or (if q = p then some h else none) := by
  simp only [look, List.find?_append]
  cases ps.find? (fun x => decide (x.1 = p)) with
  | some a => simp
  | none =>
    by_cases hq : q = p
    · simp [hq]
    · simp [hq]

/-- Nothing is recorded beneath a path that has nothing below it. -/
theorem spec_under {ps : List (List Str × Hdr)} {v p : List Str} (hb : below ps p = false) (hv : p.isPrefixOf v = false)
    {q : List Str} (hq : q ≠ []) : specEnt ps v (p ++ q) = none ∧ (∀ c, hasChild ps v (p ++ q) c = false) ∧ (∀ c, hasChild ps v p c = false) := by
  have hb' : ∀ x ∈ ps, ∀ q', q' ≠ [] → x.1 ≠ p ++ q' := by
    intro x hx q' hq' he
    have : below ps p = true := (below_iff ps p).2 ⟨x, hx, q', hq', he⟩
    rw [hb] at this; cases this
  have hv' : ∀ q', (p ++ q').isPrefixOf v = false := by
    intro q'
    cases h : (p ++ q').isPrefixOf v with
    | false => rfl
    | true =>
      rw [List.isPrefixOf_iff_prefix] at h
      have : p.isPrefixOf v = true := List.isPrefixOf_iff_prefix.2 ((List.prefix_append p q').trans h)
      rw [hv] at this; cases this
  refine ⟨?_, ?_, ?_⟩
  · unfold specEnt
    have h1 : below ps (p ++ q) = false := by
      cases h : below ps (p ++ q) with
      | false => rfl
      | true =>
        obtain ⟨x, hx, r, hr, he⟩ := (below_iff ps _).1 h
        exact absurd (he.trans (List.append_assoc p q r)) (hb' x hx (q ++ r) (by simp [hq]))
    have h2 : look ps (p ++ q) = none := (look_none ps _).2 (fun x hx => hb' x hx q hq)
    simp [h1, hv', h2]
  · intro c
    simp only [hasChild, Bool.or_eq_false_iff]
    refine ⟨?_, by rw [List.append_assoc]; exact hv' _⟩
    rw [List.any_eq_false]
    intro x hx h
    rw [List.isPrefixOf_iff_prefix] at h
    obtain ⟨r, hr⟩ := h
    exact hb' x hx (q ++ [c] ++ r) (by simp) (by rw [← hr]; simp)
  · intro c
    simp only [hasChild, Bool.or_eq_false_iff]
    refine ⟨?_, hv' _⟩
    rw [List.any_eq_false]
    intro x hx h
    rw [List.isPrefixOf_iff_prefix] at h
    obtain ⟨r, hr⟩ := h
    exact hb' x hx ([c] ++ r) (by simp) (by rw [← hr]; simp)

theorem prefix_snoc (p v : List Str) (c : Str) : p.isPrefixOf (v ++ [c]) = true ↔ p.isPrefixOf v = true ∨ p = v ++ [c] := by
  rw [List.isPrefixOf_iff_prefix, List.isPrefixOf_iff_prefix, List.prefix_concat_iff]
  constructor <;> (rintro (h | h) <;> simp [h])

theorem snoc_not_prefix (v : List Str) (c : Str) : (v ++ [c]).isPrefixOf v = false := by
  cases h : (v ++ [c]).isPrefixOf v with
  | false => rfl
  | true =>
    rw [List.isPrefixOf_iff_prefix] at h
    have := h.length_le
    rw [List.length_append] at this
    simp at this
    omega

theorem snoc_inj {p v : List Str} {a c : Str} : p ++ [a] = v ++ [c] ↔ p = v ∧ a = c := by
  constructor
  · intro h
    have h1 := congrArg List.dropLast h
    have h2 := congrArg List.getLast? h
    simp at h1 h2
    exact ⟨h1, h2⟩
  · rintro ⟨rfl, rfl⟩; rfl

theorem hasChild_snoc (ps : List (List Str × Hdr)) (v p : List Str) (c a : Str) :
    hasChild ps (v ++ [c]) p a = true ↔ hasChild ps v p a = true ∨ (p = v ∧ a = c) := by
  simp only [hasChild, Bool.or_eq_true, prefix_snoc, snoc_inj]
  constructor
  · rintro (h | h | h)
    · exact Or.inl (Or.inl h)
    · exact Or.inl (Or.inr h)
    · exact Or.inr h
  · rintro ((h | h) | h)
    · exact Or.inl h
    · exact Or.inr (Or.inl h)
    · exact Or.inr (Or.inr h)

theorem noShadow_snoc {ps : List (List Str × Hdr)} {v p : List Str} {c : Str} (h : NoShadow ps (v ++ [c]) p) : NoShadow ps v p := by
  intro a hd hl ht
  obtain ⟨h1, h2⟩ := h a hd hl ht
  refine ⟨h1, ?_⟩
  cases hx : (p ++ [a]).isPrefixOf v with
  | false => rfl
  | true =>
    have := (prefix_snoc (p ++ [a]) v c).2 (Or.inl hx)
    rw [h2] at this; cases this

/-- Under `NoShadow` the slot does not change while the path grows. -/
theorem slotOf_snoc {ps : List (List Str × Hdr)} {v p : List Str} {c : Str} (h : NoShadow ps (v ++ [c]) p) (a : Str) :
    slotOf ps (v ++ [c]) p a = slotOf ps v p a := by
  unfold slotOf
  cases hl : look ps (p ++ [a]) with
  | none => rfl
  | some hd =>
    by_cases ht : hd.typ = .dir
    · simp [ht]
    · obtain ⟨h1, h2⟩ := h a hd hl ht
      obtain ⟨h3, h4⟩ := noShadow_snoc h a hd hl ht
      simp [ht, h1, h2, h4]

theorem mem_put_names (t : Tree) (d : List Str) (c : Str) (e : Ent) (s : List Slot) (q : List Str) (a : Str) :
    a ∈ (t.put d c e s).names q ↔ (q = d ∧ (a = c ∨ a ∈ t.names d)) ∨ (q ≠ d ∧ (d ++ [c]).isPrefixOf q = false ∧ a ∈ t.names q) := by
  simp only [Tree.put]
  by_cases hq : q = d
  · subst hq
    simp only [if_true, true_and, ne_eq, not_true_eq_false, false_and, or_false]
    split
    · rename_i h
      constructor
      · exact Or.inr
      · rintro (rfl | h')
        · exact h
        · exact h'
    · simp [or_comm]
  · simp only [hq, if_false, false_and, false_or, ne_eq, not_false_eq_true, true_and]
    split
    · rename_i h; simp [h]
    · rename_i h; simp [h]

theorem put_names_nodup (t : Tree) (d : List Str) (c : Str) (e : Ent) (s : List Slot) (q : List Str) (h : ∀ p, (t.names p).Nodup) :
    ((t.put d c e s).names q).Nodup := by
  simp only [Tree.put]
  split
  · split
    · exact h d
    · rename_i hn
      rw [List.nodup_append]
      exact ⟨h d, by simp, by intro a ha b hb; simp at hb; subst hb; rintro rfl; exact hn ha⟩
  · split
    · simp
    · exact h q

/-- The intermediate component. -/
theorem Inv.ensure {root : Hdr} {ps : List (List Str × Hdr)} {v : List Str} {t : Tree} (inv : Inv root ps v t) (c : Str) :
    Inv root ps (v ++ [c]) (ensureDir t v c) := by
  have hspec := inv.ent (v ++ [c]) (by simp)
  have hnv := snoc_not_prefix v c
  have hself : (v ++ [c]).isPrefixOf (v ++ [c]) = true := List.isPrefixOf_iff_prefix.2 (List.prefix_refl _)
  -- the specification away from `v ++ [c]` does not change
  have hother : ∀ p, p ≠ v ++ [c] → specEnt ps (v ++ [c]) p = specEnt ps v p := by
    intro p hp
    unfold specEnt
    have : p.isPrefixOf (v ++ [c]) = p.isPrefixOf v := by
      rw [Bool.eq_iff_iff, prefix_snoc]
      constructor
      · rintro (h | h)
        · exact h
        · exact absurd h hp
      · exact Or.inl
    rw [this]
  have hat : specEnt ps (v ++ [c]) (v ++ [c]) = some (.dir ((look ps (v ++ [c])).filter isDirHdr)) := by
    unfold specEnt; simp [hself]
  by_cases hdir : ∃ h, t.ent (v ++ [c]) = some (.dir h)
  · -- nothing to do
    obtain ⟨hd, hdir⟩ := hdir
    have ht : ensureDir t v c = t := by unfold ensureDir; rw [hdir]
    rw [ht]
    have hex : hasChild ps v v c = true := by
      rw [hspec] at hdir
      unfold specEnt at hdir
      unfold hasChild
      rw [Bool.or_eq_true]; left
      rw [List.any_eq_true]
      split at hdir
      · rename_i h
        rw [hnv, Bool.or_false] at h
        obtain ⟨x, hx, q, hq, he⟩ := (below_iff ps _).1 h
        exact ⟨x, hx, List.isPrefixOf_iff_prefix.2 ⟨q, he.symm⟩⟩
      · rw [Option.map_eq_some_iff] at hdir
        obtain ⟨h, hl, _⟩ := hdir
        exact ⟨_, look_some ps _ _ hl, hself⟩
    refine ⟨inv.root, ?_, inv.nodup, ?_, ?_⟩
    · intro p hp
      by_cases hpc : p = v ++ [c]
      · subst hpc
        rw [hat, hdir]
        rw [hspec] at hdir
        unfold specEnt at hdir
        split at hdir
        · exact hdir.symm
        · rw [Option.map_eq_some_iff] at hdir
          obtain ⟨h, hl, he⟩ := hdir
          rw [hl]
          unfold entOf at he
          split at he
          · rename_i hty
            cases he
            simp [Option.filter, isDirHdr, hty]
          all_goals cases he
      · rw [hother p hpc]; exact inv.ent p hp
    · intro p a
      rw [inv.names, hasChild_snoc]
      constructor
      · exact Or.inl
      · rintro (h | ⟨rfl, rfl⟩)
        · exact h
        · exact hex
    · intro p hns
      rw [inv.ord p (noShadow_snoc hns)]
      apply List.map_congr_left
      intro a _
      exact (slotOf_snoc hns a).symm
  · -- a new directory
    have ht : ensureDir t v c = t.put v c (.dir none) [.at c] := by
      unfold ensureDir
      split
      · rename_i h he; exact absurd ⟨h, he⟩ hdir
      · rfl
    rw [ht]
    have hb : below ps (v ++ [c]) = false := by
      cases h : below ps (v ++ [c]) with
      | false => rfl
      | true =>
        exfalso; apply hdir
        rw [hspec]; unfold specEnt; simp [h]
    have hlk : (look ps (v ++ [c])).filter isDirHdr = none := by
      cases h : look ps (v ++ [c]) with
      | none => rfl
      | some hd =>
        by_cases hty : hd.typ = .dir
        · exfalso; apply hdir
          rw [hspec]; unfold specEnt; simp [hb, hnv, h, entOf, hty]
        · simp [isDirHdr, hty]
    refine ⟨?_, ?_, ?_, ?_, ?_⟩
    · simp [Tree.put, inv.root]
    · intro p hp
      simp only [Tree.put]
      by_cases hpc : p = v ++ [c]
      · subst hpc; rw [hat, hlk]; simp
      · simp only [hpc, if_false]
        split
        · rename_i h
          rw [List.isPrefixOf_iff_prefix] at h
          obtain ⟨q, rfl⟩ := h
          have hq : q ≠ [] := by rintro rfl; simp at hpc
          rw [hother _ hpc, (spec_under hb hnv hq).1]
        · rw [hother p hpc]; exact inv.ent p hp
    · exact fun p => put_names_nodup _ _ _ _ _ _ inv.nodup
    · intro p a
      rw [mem_put_names, hasChild_snoc, inv.names, inv.names]
      constructor
      · rintro (⟨rfl, rfl | h⟩ | ⟨_, _, h⟩)
        · exact Or.inr ⟨rfl, rfl⟩
        · exact Or.inl h
        · exact Or.inl h
      · rintro (h | ⟨rfl, rfl⟩)
        · by_cases hpv : p = v
          · subst hpv; exact Or.inl ⟨rfl, Or.inr h⟩
          · right
            refine ⟨hpv, ?_, h⟩
            cases hpre : (v ++ [c]).isPrefixOf p with
            | false => rfl
            | true =>
              rw [List.isPrefixOf_iff_prefix] at hpre
              obtain ⟨q, rfl⟩ := hpre
              by_cases hq : q = []
              · subst hq
                rw [List.append_nil] at h
                rw [(spec_under hb hnv (q := [a]) (by simp)).2.2 a] at h; cases h
              · rw [(spec_under hb hnv hq).2.1 a] at h; cases h
        · exact Or.inl ⟨rfl, Or.inl rfl⟩
    · intro p hns
      have hns' := noShadow_snoc hns
      have hmap : (t.names p).map (slotOf ps (v ++ [c]) p) = (t.names p).map (slotOf ps v p) :=
        List.map_congr_left (fun a _ => slotOf_snoc hns a)
      simp only [Tree.put]
      by_cases hpv : p = v
      · subst hpv
        simp only [if_true]
        -- `c` is new here: otherwise a leaf would be shadowed
        have hlook : look ps (p ++ [c]) = none := by
          cases h : look ps (p ++ [c]) with
          | none => rfl
          | some hd =>
            have hty : hd.typ ≠ .dir := by
              intro hty; rw [h] at hlk; simp [isDirHdr, hty] at hlk
            have := (hns c hd h hty).2
            rw [hself] at this; cases this
        have hcn : c ∉ t.names p := by
          rw [inv.names]
          simp only [hasChild, Bool.or_eq_true, not_or]
          refine ⟨?_, by rw [hnv]; simp⟩
          intro h
          rw [List.any_eq_true] at h
          obtain ⟨x, hx, h⟩ := h
          rw [List.isPrefixOf_iff_prefix] at h
          obtain ⟨q, hq⟩ := h
          by_cases hq0 : q = []
          · subst hq0
            rw [List.append_nil] at hq
            exact (look_none ps _).1 hlook x hx hq.symm
          · have : below ps (p ++ [c]) = true := (below_iff ps _).2 ⟨x, hx, q, hq0, hq.symm⟩
            rw [hb] at this; cases this
        rw [if_neg hcn, List.map_append, hmap, inv.ord p hns']
        simp [slotOf, hlook]
      · simp only [hpv, if_false]
        split
        · rfl
        · rw [hmap]; exact inv.ord p hns'

/-- The final component: the entry is new. -/
theorem Inv.final {root : Hdr} {ps : List (List Str × Hdr)} {v : List Str} {t : Tree} (inv : Inv root ps v t) (c : Str) (h : Hdr)
    (hl : look ps (v ++ [c]) = none) (hb : below ps (v ++ [c]) = false) :
    Inv root (ps ++ [(v ++ [c], h)]) [] (addFinal t v c h) := by
  have hnv := snoc_not_prefix v c
  have hnone : t.ent (v ++ [c]) = none := by
    rw [inv.ent _ (by simp)]
    unfold specEnt; simp [hl, hb, hnv]
  have hadd : addFinal t v c h = t.put v c (entOf h) [if h.typ = .dir then .at c else .leaf h] := by
    unfold addFinal
    by_cases hty : h.typ = .dir
    · simp only [hty, hnone, if_true]; simp [entOf, hty]
    · rw [if_neg hty]
      split
      · rename_i h'; exact absurd h' hty
      · rfl
  rw [hadd]
  have hbelow : ∀ p, below (ps ++ [(v ++ [c], h)]) p = (below ps p || p.isPrefixOf v) := by
    intro p
    rw [Bool.eq_iff_iff]
    simp only [below, List.any_append, Bool.or_eq_true, List.any_cons, List.any_nil, Bool.or_false, Bool.and_eq_true, decide_eq_true_eq, prefix_snoc]
    constructor
    · rintro (h' | ⟨h' | h', hn⟩)
      · exact Or.inl h'
      · exact Or.inr h'
      · exact absurd h'.symm hn
    · rintro (h' | h')
      · exact Or.inl h'
      · refine Or.inr ⟨Or.inl h', ?_⟩
        rintro rfl
        rw [hnv] at h'; cases h'
  have hnil : ∀ p : List Str, p ≠ [] → p.isPrefixOf ([] : List Str) = false := by
    intro p hp; cases p with
    | nil => exact absurd rfl hp
    | cons => rfl
  have hother : ∀ p, p ≠ [] → p ≠ v ++ [c] → specEnt (ps ++ [(v ++ [c], h)]) [] p = specEnt ps v p := by
    intro p hp hpc
    unfold specEnt
    rw [hbelow, hnil p hp, look_append, if_neg (Ne.symm hpc)]
    simp
  have hat : specEnt (ps ++ [(v ++ [c], h)]) [] (v ++ [c]) = some (entOf h) := by
    unfold specEnt
    rw [hbelow, hb, hnv, hnil _ (by simp), look_append, hl]
    simp
  have hchild : ∀ p a, hasChild (ps ++ [(v ++ [c], h)]) [] p a = true ↔ hasChild ps v p a = true ∨ (p = v ∧ a = c) := by
    intro p a
    have hn := hnil (p ++ [a]) (by simp)
    simp only [hasChild, List.any_append, List.any_cons, List.any_nil, Bool.or_false, Bool.or_eq_true, prefix_snoc, snoc_inj, hn]
    constructor
    · rintro (h' | h' | h')
      · exact Or.inl (Or.inl h')
      · exact Or.inl (Or.inr h')
      · exact Or.inr h'
    · rintro ((h' | h') | h')
      · exact Or.inl h'
      · exact Or.inr (Or.inl h')
      · exact Or.inr (Or.inr h')
  refine ⟨?_, ?_, ?_, ?_, ?_⟩
  · simp [Tree.put, inv.root]
  · intro p hp
    simp only [Tree.put]
    by_cases hpc : p = v ++ [c]
    · subst hpc; rw [hat]; simp
    · simp only [hpc, if_false]
      rw [hother p hp hpc]
      split
      · rename_i hpre
        rw [List.isPrefixOf_iff_prefix] at hpre
        obtain ⟨q, rfl⟩ := hpre
        have hq : q ≠ [] := by rintro rfl; simp at hpc
        rw [(spec_under hb hnv hq).1]
      · exact inv.ent p hp
  · exact fun p => put_names_nodup _ _ _ _ _ _ inv.nodup
  · intro p a
    rw [mem_put_names, hchild, inv.names, inv.names]
    constructor
    · rintro (⟨rfl, rfl | h'⟩ | ⟨_, _, h'⟩)
      · exact Or.inr ⟨rfl, rfl⟩
      · exact Or.inl h'
      · exact Or.inl h'
    · rintro (h' | ⟨rfl, rfl⟩)
      · by_cases hpv : p = v
        · subst hpv; exact Or.inl ⟨rfl, Or.inr h'⟩
        · right
          refine ⟨hpv, ?_, h'⟩
          cases hpre : (v ++ [c]).isPrefixOf p with
          | false => rfl
          | true =>
            rw [List.isPrefixOf_iff_prefix] at hpre
            obtain ⟨q, rfl⟩ := hpre
            by_cases hq : q = []
            · subst hq
              rw [List.append_nil] at h'
              rw [(spec_under hb hnv (q := [a]) (by simp)).2.2 a] at h'; cases h'
            · rw [(spec_under hb hnv hq).2.1 a] at h'; cases h'
      · exact Or.inl ⟨rfl, Or.inl rfl⟩
  · intro p hns
    have hns' : NoShadow ps v p := by
      intro a hd hla hty
      have := hns a hd (by rw [look_append, hla]; rfl) hty
      rw [hbelow, Bool.or_eq_false_iff] at this
      exact this.1
    have hslot : ∀ a, (p ++ [a]) ≠ v ++ [c] → slotOf (ps ++ [(v ++ [c], h)]) [] p a = slotOf ps v p a := by
      intro a ha
      unfold slotOf
      rw [look_append, if_neg (Ne.symm ha), Option.or_none, hbelow, hnil _ (by simp)]
      cases hla : look ps (p ++ [a]) with
      | none => rfl
      | some hd =>
        simp only [Bool.or_eq_true, Bool.false_eq_true, or_false]
    simp only [Tree.put]
    by_cases hpv : p = v
    · subst hpv
      simp only [if_true]
      have hcn : c ∉ t.names p := by
        rw [inv.names]
        simp only [hasChild, Bool.or_eq_true, not_or]
        refine ⟨?_, by rw [hnv]; simp⟩
        intro h'
        rw [List.any_eq_true] at h'
        obtain ⟨x, hx, h'⟩ := h'
        rw [List.isPrefixOf_iff_prefix] at h'
        obtain ⟨q, hq⟩ := h'
        by_cases hq0 : q = []
        · subst hq0
          rw [List.append_nil] at hq
          exact (look_none ps _).1 hl x hx hq.symm
        · have : below ps (p ++ [c]) = true := (below_iff ps _).2 ⟨x, hx, q, hq0, hq.symm⟩
          rw [hb] at this; cases this
      rw [if_neg hcn, List.map_append, inv.ord p hns']
      congr 1
      · apply List.map_congr_left
        intro a ha
        refine (hslot a ?_).symm
        intro he
        rw [snoc_inj] at he
        rw [he.2] at ha; exact hcn ha
      · simp only [List.map_cons, List.map_nil]
        congr 1
        unfold slotOf
        rw [look_append, hl, hbelow, hb, hnv, hnil _ (by simp)]
        simp
    · simp only [hpv, if_false]
      split
      · rfl
      · rw [inv.ord p hns']
        apply List.map_congr_left
        intro a ha
        refine (hslot a ?_).symm
        intro he
        rw [snoc_inj] at he
        exact hpv he.1

theorem Inv.addLoop {root : Hdr} {ps : List (List Str × Hdr)} (h : Hdr) : ∀ (q v : List Str) (t : Tree), Inv root ps v t → q ≠ [] →
    look ps (v ++ q) = none → below ps (v ++ q) = false → Inv root (ps ++ [(v ++ q, h)]) [] (addLoop t h v q) := by
  intro q
  induction q with
  | nil => intro v t _ hq; exact absurd rfl hq
  | cons c rest ih =>
    intro v t inv _ hl hb
    cases rest with
    | nil => exact inv.final c h hl hb
    | cons d rest =>
      simp only [Tarfs.addLoop]
      have := ih (v ++ [c]) (ensureDir t v c) (inv.ensure c) (by simp) (by simpa using hl) (by simpa using hb)
      simpa using this

/-- The pairs that `New` inserts, in order. -/
def inserted (opt : Opt) (m : List (Str × Hdr)) (ks : List Str) : List (List Str × Hdr) :=
  ks.filterMap (fun k => if hasPrefix k dotdot then none else
    match mapGet m k with
    | none => none
    | some h => if kept opt h then some (split k, h) else none)

theorem split_inj {a b : Str} (h : split a = split b) : a = b := by rw [← join_split a, ← join_split b, h]

theorem newTree_inv (opt : Opt) (hs : List Hdr) :
    Inv (rootOf (collect hs)) (inserted opt (collect hs) (sortKeys (((collect hs).map (·.1)).filter (· ≠ dot)))) [] (newTree opt hs) := by
  show Inv _ _ _ ((sortKeys (((collect hs).map (·.1)).filter (· ≠ dot))).foldl (addKey opt (collect hs)) (emptyTree (rootOf (collect hs))))
  have hnd := (collect_spec hs).2
  generalize collect hs = m at *
  have hsort := sortKeys_sorted ((m.map (·.1)).filter (· ≠ dot))
  have hnodup := sortKeys_nodup ((m.map (·.1)).filter (· ≠ dot)) (hnd.sublist List.filter_sublist)
  generalize sortKeys ((m.map (·.1)).filter (· ≠ dot)) = ks at *
  -- generalise over what was inserted before
  have key : ∀ (ks : List Str) (ps : List (List Str × Hdr)) (t : Tree), Inv (rootOf m) ps [] t →
      ks.Pairwise (fun a b => strLe a b = true) → ks.Nodup →
      (∀ x ∈ ps, ∃ k, x.1 = split k ∧ (∀ b ∈ ks, strLe k b = true ∧ k ≠ b)) →
      Inv (rootOf m) (ps ++ inserted opt m ks) [] (ks.foldl (addKey opt m) t) := by
    intro ks
    induction ks with
    | nil => intro ps t inv _ _ _; simpa [inserted] using inv
    | cons k rest ih =>
      intro ps t inv hs hn hps
      rw [List.pairwise_cons] at hs
      rw [List.nodup_cons] at hn
      have hps' : ∀ x ∈ ps, ∃ k', x.1 = split k' ∧ (∀ b ∈ rest, strLe k' b = true ∧ k' ≠ b) := by
        intro x hx
        obtain ⟨k', h1, h2⟩ := hps x hx
        exact ⟨k', h1, fun b hb => h2 b (List.mem_cons_of_mem _ hb)⟩
      simp only [List.foldl_cons]
      unfold addKey
      by_cases hdd : hasPrefix k dotdot = true
      · have : inserted opt m (k :: rest) = inserted opt m rest := by simp [inserted, hdd]
        rw [this]; simp only [hdd, if_true]
        exact ih ps t inv hs.2 hn.2 hps'
      · simp only [hdd, Bool.false_eq_true, if_false]
        cases hg : mapGet m k with
        | none =>
          have : inserted opt m (k :: rest) = inserted opt m rest := by simp [inserted, hdd, hg]
          rw [this]
          exact ih ps t inv hs.2 hn.2 hps'
        | some h =>
          simp only
          by_cases hk : kept opt h = true
          · have : inserted opt m (k :: rest) = (split k, h) :: inserted opt m rest := by simp [inserted, hdd, hg, hk]
            rw [this, if_pos hk]
            have hlook : look ps (split k) = none := by
              rw [look_none]
              intro x hx he
              obtain ⟨k', h1, h2⟩ := hps x hx
              exact (h2 k (by simp)).2 (split_inj (h1.symm.trans he))
            have hbelow : below ps (split k) = false := by
              cases hb : below ps (split k) with
              | false => rfl
              | true =>
                exfalso
                obtain ⟨x, hx, q, hq, he⟩ := (below_iff ps _).1 hb
                obtain ⟨k', h1, h2⟩ := hps x hx
                rw [h1] at he
                have hj : k' = k ++ slash :: join q := by
                  rw [← join_split k', he, join_append (split_ne_nil k) hq, join_split]
                have := (h2 k (by simp)).1
                rw [hj, strLe_prefix k _ (by simp)] at this
                cases this
            have hinv := Inv.addLoop h (split k) [] t inv (split_ne_nil k) hlook hbelow
            rw [List.nil_append] at hinv
            have := ih (ps ++ [(split k, h)]) (addChild t k h) hinv hs.2 hn.2 (by
              intro x hx
              rw [List.mem_append] at hx
              rcases hx with hx | hx
              · exact hps' x hx
              · simp at hx; subst hx
                refine ⟨k, rfl, fun b hb => ⟨hs.1 b hb, ?_⟩⟩
                rintro rfl; exact hn.1 hb)
            rw [List.append_assoc] at this
            exact this
          · have : inserted opt m (k :: rest) = inserted opt m rest := by simp [inserted, hdd, hg, hk]
            rw [this, if_neg hk]
            exact ih ps t inv hs.2 hn.2 hps'
  have := key ks [] (emptyTree (rootOf m)) (Inv.empty _) hsort hnodup (by simp)
  simpa using this

end Verif.Tarfs
