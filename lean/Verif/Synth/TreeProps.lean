import Verif.Synth.TreeGood
/-
C48: the synthetic tree stays a tree.
-/
namespace Verif.Synth.Tree
open Verif.Path

/-! ### Facts about paths -/

theorem snocInd {α : Type _} {motive : List α → Prop} (l : List α) (nil : motive []) (snoc : ∀ l a, motive l → motive (l ++ [a])) : motive l := by
  rw [← List.reverse_reverse l]
  induction l.reverse with
  | nil => exact nil
  | cons x xs ih => rw [List.reverse_cons]; exact snoc _ _ ih


theorem At.exists {s : St} (hg : Good s) {p : List Str} {n : Id} (h : At s p n) : ∃ m, s.look n = some m := by
  cases h with
  | root => obtain ⟨r, hr⟩ := hg.root; exact ⟨_, look_dir hr⟩
  | step _ hc => obtain ⟨m, hm, _⟩ := hg.child _ _ _ hc; exact ⟨m, hm⟩

theorem at_unique {s : St} (hg : Good s) {p : List Str} {n : Id} (h : At s p n) : ∀ {q : List Str}, At s q n → p = q := by
  induction h with
  | root =>
    intro q hq
    generalize hz : (0 : Id) = z at hq
    cases hq with
    | root => rfl
    | step _ hc => subst hz; exact absurd hc (hg.rootFree _ _)
  | @step p d k c hp hc ih =>
    intro q hq
    cases hq with
    | root => exact absurd hc (hg.rootFree _ _)
    | step hq' hc' =>
      obtain ⟨rfl, rfl⟩ := hg.single _ _ _ _ _ hc hc'
      rw [ih hq']

theorem at_below {s : St} {p : List Str} {d c : Id} (h : At s p d) (hb : Below s d c) : ∃ q, q ≠ [] ∧ At s (p ++ q) c := by
  induction hb with
  | child hc => exact ⟨[_], by simp, h.step hc⟩
  | @step e k c _ hc ih =>
    obtain ⟨q, _, hq⟩ := ih
    refine ⟨q ++ [k], by simp, ?_⟩
    rw [← List.append_assoc]
    exact hq.step hc

/-! ### Listings -/

theorem entries_of_dir {s : St} {d : Id} {r : DirRec} (h : s.dir? d = some r) : s.entries d = r.ordered.map (·.2) := by
  unfold St.entries; rw [h]

theorem mem_entries {s : St} (hg : Good s) {d c : Id} : c ∈ s.entries d ↔ ∃ k, s.lookup d k = some c := by
  cases hd : s.dir? d with
  | none => unfold St.entries St.lookup; rw [hd]; simp
  | some r =>
    have ok := hg.dirs d r hd
    rw [entries_of_dir hd]
    constructor
    · intro h
      obtain ⟨e, he, rfl⟩ := List.mem_map.1 h
      obtain ⟨⟨k, e'⟩, hp, rfl⟩ := List.mem_map.1 (ok.perm.mem_iff.2 he)
      refine ⟨k, ?_⟩
      rw [lookup_of_dir hd, assoc_of_mem ok.keys hp]; rfl
    · intro ⟨k, hk⟩
      rw [lookup_of_dir hd] at hk
      cases ha : assoc k r.index with
      | none => rw [ha] at hk; cases hk
      | some e =>
        rw [ha] at hk
        cases hk
        exact List.mem_map.2 ⟨e, ok.perm.mem_iff.1 (List.mem_map.2 ⟨(k, e), assoc_mem ha, rfl⟩), rfl⟩

theorem nodup_map_inj {α β : Type _} {f : α → β} {l : List α} (hn : l.Nodup) (hf : ∀ a ∈ l, ∀ b ∈ l, f a = f b → a = b) : (l.map f).Nodup := by
  induction l with
  | nil => simp
  | cons x l ih =>
    simp only [List.map_cons, List.nodup_cons] at hn ⊢
    refine ⟨?_, ih hn.2 (fun a ha b hb => hf a (List.mem_cons_of_mem _ ha) b (List.mem_cons_of_mem _ hb))⟩
    intro hm
    obtain ⟨y, hy, hxy⟩ := List.mem_map.1 hm
    have := hf y (List.mem_cons_of_mem _ hy) x List.mem_cons_self hxy
    exact hn.1 (this ▸ hy)

theorem nodup_of_map {α β : Type _} {f : α → β} {l : List α} (h : (l.map f).Nodup) : l.Nodup := by
  induction l with
  | nil => simp
  | cons x l ih =>
    simp only [List.map_cons, List.nodup_cons] at h ⊢
    exact ⟨fun hm => h.1 (List.mem_map.2 ⟨x, hm, rfl⟩), ih h.2⟩

theorem nodup_entries {s : St} (hg : Good s) (d : Id) : (s.entries d).Nodup := by
  cases hd : s.dir? d with
  | none => unfold St.entries; rw [hd]; simp
  | some r =>
    have ok := hg.dirs d r hd
    have h1 : ∀ p ∈ r.index, s.lookup d p.1 = some p.2.2 := by
      intro p hp; rw [lookup_of_dir hd, assoc_of_mem ok.keys (v := p.2) hp]; rfl
    have h2 : (r.index.map (fun p => p.2.2)).Nodup := by
      have hind : r.index.Nodup := by
        have := ok.keys
        exact nodup_of_map this
      apply nodup_map_inj hind
      intro a ha b hb hab
      have ha1 := h1 a ha
      have hb1 := h1 b hb
      rw [← hab] at hb1
      have hk := (hg.single _ _ _ _ _ ha1 hb1).2
      obtain ⟨ak, av⟩ := a
      obtain ⟨bk, bv⟩ := b
      simp only at hk
      subst hk
      have e1 := assoc_of_mem ok.keys ha
      have e2 := assoc_of_mem ok.keys hb
      rw [e1] at e2
      cases e2
      rfl
    rw [entries_of_dir hd]
    have hp := ok.perm.map (fun e : Nat × Id => e.2)
    rw [List.map_map] at hp
    exact hp.nodup_iff.1 h2

/-! ### Property C48 -/

/-- The world after a history of calls on any number of roots, from an empty tree. -/
def after (hist : List (Nat × Call)) : World := World.init.run hist

/-- **C48** (listing and lookup). After any history, a directory lists each child once, under one name; it lists exactly the
nodes that looking up a name finds, under their own names. -/
theorem C48_listing (hist : List (Nat × Call)) (d : Id) :
    ((after hist).st.entries d).Nodup ∧
    (∀ c, c ∈ (after hist).st.entries d ↔ ∃ k, (after hist).st.lookup d k = some c) ∧
    (∀ k c, (after hist).st.lookup d k = some c → ∃ n, (after hist).st.nodes[c]? = some n ∧ n.name = k) := by
  have hg : Good (after hist).st := (wgood_run hist _ wgood_init).good
  refine ⟨nodup_entries hg d, fun c => mem_entries hg, ?_⟩
  intro k c hc
  obtain ⟨n, hn, hname, _⟩ := hg.child d k c hc
  have hn2 : ((after hist).st.nodes[c]?).map skel = some n := hn
  cases hx : (after hist).st.nodes[c]? with
  | none => rw [hx] at hn2; cases hn2
  | some m =>
    rw [hx] at hn2
    refine ⟨m, rfl, ?_⟩
    simp only [Option.map_some, Option.some.injEq] at hn2
    rw [← hname, ← hn2]
    cases m <;> rfl

/-- **C48** (one path). After any history, a file or directory is at most one path away from the root, a directory that can be
reached does not contain itself, and its ".." is the directory that lists it. -/
theorem C48_one_path (hist : List (Nat × Call)) (p : List Str) (n : Id) (h : At (after hist).st p n) :
    (∀ q, At (after hist).st q n → q = p) ∧ ¬ Below (after hist).st n n ∧
    (∀ r, (after hist).st.dir? n = some r → ∀ d, r.parent = some d ↔ ∃ k, (after hist).st.lookup d k = some n) := by
  have hg : Good (after hist).st := (wgood_run hist _ wgood_init).good
  refine ⟨fun q hq => (at_unique hg h hq).symm, ?_, ?_⟩
  · intro hb
    obtain ⟨q, hq, hat⟩ := at_below h hb
    have := at_unique hg h hat
    have hl := congrArg List.length this
    simp at hl
    exact hq hl
  · intro r hr d
    cases h with
    | root =>
      constructor
      · intro hp
        have := hg.top _ (look_dir hr)
        simp only at this
        rw [this] at hp
        cases hp
      · intro ⟨k, hk⟩; exact absurd hk (hg.rootFree d k)
    | @step p' d' k c _ hc =>
      obtain ⟨m, hm, _, hpar⟩ := hg.child _ _ _ hc
      have h2 := look_dir hr
      rw [hm] at h2
      have h3 := hpar _ (Option.some.inj h2)
      simp only at h3
      constructor
      · intro hp; rw [h3] at hp; cases hp; exact ⟨k, hc⟩
      · intro ⟨k', hk'⟩; rw [(hg.single _ _ _ _ _ hk' hc).1]; exact h3

/-! ### Renaming -/

theorem at_prefix {s : St} : ∀ {x : List Str} {n : Id}, At s x n → ∀ {p y : List Str}, x = p ++ y → ∃ m, At s p m ∧ Under s m n := by
  intro x n h
  induction h with
  | root =>
    intro p y e
    have : p = [] := by cases p with
      | nil => rfl
      | cons a p => cases e
    subst this
    exact ⟨0, .root, .inl rfl⟩
  | @step x' d k c hx hc ih =>
    intro p y e
    rcases List.eq_nil_or_concat y with rfl | ⟨y', b, rfl⟩
    · rw [List.append_nil] at e
      subst e
      exact ⟨c, hx.step hc, .inl rfl⟩
    · rw [List.concat_eq_append, ← List.append_assoc] at e
      obtain ⟨e1, e2⟩ := List.append_inj' e rfl
      obtain ⟨m, hm, hu⟩ := ih e1
      exact ⟨m, hm, .inr (hu.step hc)⟩

theorem at_fun {s : St} {x : List Str} {n m : Id} (h : At s x n) (h' : At s x m) : n = m := by
  induction h generalizing m with
  | root =>
    generalize hx : ([] : List Str) = x at h'
    cases h' with
    | root => rfl
    | step _ _ => cases (List.append_eq_nil_iff.1 hx.symm).2
  | @step x' d k c hx hc ih =>
    generalize hz : x' ++ [k] = z at h'
    cases h' with
    | root => cases (List.append_eq_nil_iff.1 hz).2
    | step hx2 hc2 =>
      obtain ⟨e1, e2⟩ := List.append_inj' hz rfl
      cases e2
      subst e1
      have := ih hx2
      subst this
      rw [hc] at hc2
      exact Option.some.inj hc2

theorem at_snoc {s : St} {x : List Str} {k : Str} {n : Id} (h : At s (x ++ [k]) n) : ∃ d, At s x d ∧ s.lookup d k = some n := by
  generalize hz : x ++ [k] = z at h
  cases h with
  | root => cases (List.append_eq_nil_iff.1 hz).2
  | step hx hc =>
    obtain ⟨e1, e2⟩ := List.append_inj' hz rfl
    cases e2
    subst e1
    exact ⟨_, hx, hc⟩

/-- What a move does to every path. -/
theorem at_move {s s' : St} (hg : Good s) (hg' : Good s') {op np t : Id} {ob nb : Str} {pp q : List Str} (hop : At s pp op) (ht : s.lookup op ob = some t) (hnp : At s q np)
    (hn : ¬ Under s t np) (hk : ∀ d k, s'.lookup d k = if d = np ∧ k = nb then some t else if d = op ∧ k = ob then none else s.lookup d k) (x : List Str) (n : Id) :
    At s' x n ↔ (∃ y, x = q ++ [nb] ++ y ∧ At s (pp ++ [ob] ++ y) n) ∨ (At s x n ∧ ¬ (pp ++ [ob]) <+: x ∧ ¬ (q ++ [nb]) <+: x) := by
  have hpt : At s (pp ++ [ob]) t := hop.step ht
  have hpq : ¬ (pp ++ [ob]) <+: q := by
    intro ⟨y, hy⟩
    obtain ⟨m, hm, hu⟩ := at_prefix hnp hy.symm
    exact hn (at_fun hm hpt ▸ hu)
  have stay : ∀ {x : List Str} {n : Id}, At s x n → ¬ (pp ++ [ob]) <+: x → ¬ (q ++ [nb]) <+: x → At s' x n := by
    intro x n h
    induction h with
    | root => intro _ _; exact .root
    | @step x' d k c hx hc ih =>
      intro h1 h2
      have h1' : ¬ (pp ++ [ob]) <+: x' := fun h => h1 (h.trans (List.prefix_append _ _))
      have h2' : ¬ (q ++ [nb]) <+: x' := fun h => h2 (h.trans (List.prefix_append _ _))
      refine (ih h1' h2').step (k := k) ?_
      rw [hk, if_neg, if_neg, hc]
      · intro ⟨e1, e2⟩
        subst e1; subst e2
        exact h1 (at_unique hg hop hx ▸ List.prefix_refl _)
      · intro ⟨e1, e2⟩
        subst e1; subst e2
        exact h2 (at_unique hg hnp hx ▸ List.prefix_refl _)
  have hq' : At s' q np := stay hnp hpq (fun h => by have := h.length_le; simp at this; omega)
  constructor
  · intro h
    induction h with
    | root =>
      right
      refine ⟨.root, ?_, ?_⟩
      · intro h; have := h.length_le; simp at this
      · intro h; have := h.length_le; simp at this
    | @step x' d k c hx hc ih =>
      rw [hk] at hc
      split at hc
      · rename_i e
        obtain ⟨rfl, rfl⟩ := e
        cases hc
        left
        exact ⟨[], by rw [at_unique hg' hx hq']; simp, by simpa using hpt⟩
      · rename_i hne
        split at hc
        · cases hc
        · rename_i hne2
          rcases ih with ⟨y, hy, hy2⟩ | ⟨h1, h2, h3⟩
          · left
            refine ⟨y ++ [k], by rw [hy]; simp, ?_⟩
            rw [← List.append_assoc]
            exact hy2.step hc
          · right
            refine ⟨h1.step hc, ?_, ?_⟩
            · intro hpre
              rcases List.prefix_concat_iff.1 hpre with e | e
              · have : At s (x' ++ [k]) t := e ▸ hpt
                have hct : c = t := at_fun (h1.step hc) this
                subst hct
                exact hne2 (hg.single _ _ _ _ _ hc ht)
              · exact h2 e
            · intro hpre
              rcases List.prefix_concat_iff.1 hpre with e | e
              · obtain ⟨e1, e2⟩ := List.append_inj' e rfl
                cases e2
                subst e1
                exact hne ⟨at_fun h1 hnp, rfl⟩
              · exact h3 e
  · rintro (⟨y, rfl, hy⟩ | ⟨h1, h2, h3⟩)
    · induction y using snocInd generalizing n with
      | nil =>
        rw [List.append_nil] at hy ⊢
        have := at_fun hy hpt
        subst this
        exact hq'.step (by rw [hk, if_pos ⟨rfl, rfl⟩])
      | snoc y k ih =>
        rw [← List.append_assoc] at hy ⊢
        obtain ⟨d, hd, hc⟩ := at_snoc hy
        refine (ih d hd).step ?_
        rw [hk, if_neg, if_neg, hc]
        · intro ⟨e1, e2⟩
          subst e1; subst e2
          have := at_unique hg hd hop
          have := congrArg List.length this
          simp at this
        · intro ⟨e1, e2⟩
          subst e1; subst e2
          exact hpq (at_unique hg hd hnp ▸ ⟨y, rfl⟩)
    · exact stay h1 h2 h3

/-- **C48** (rename, partial: only when the renamed thing does not contain the new place). A rename that succeeds moves exactly
the renamed thing, with everything inside it: afterwards the path `x` leads to `n` if it lies under the new name and the same
path under the old name led to `n` before, or if it lies under neither name and led to `n` before. -/
theorem C48_rename_partial (hist : List (Nat × Call)) (b : Id) (old new : Str) {op np t : Id} {ob nb : Str} {pp q : List Str}
    (hold : resolveParent (after hist).st b b old = .ok (op, ob)) (ht : (after hist).st.lookup op ob = some t)
    (hnew : resolveParent (after hist).st b b new = .ok (np, nb)) (hop : At (after hist).st pp op) (hnp : At (after hist).st q np)
    (hok : (rename (after hist).st b old new).2 = none) (hn : ¬ Under (after hist).st t np) (x : List Str) (n : Id) :
    At (rename (after hist).st b old new).1 x n ↔
      (∃ y, x = q ++ [nb] ++ y ∧ At (after hist).st (pp ++ [ob] ++ y) n) ∨
      (At (after hist).st x n ∧ ¬ (pp ++ [ob]) <+: x ∧ ¬ (q ++ [nb]) <+: x) := by
  have hg : Good (after hist).st := (wgood_run hist _ wgood_init).good
  have hg' := good_rename (after hist).st b old new hg
  rcases rename_cases (after hist).st b old new with ⟨_, he⟩ | ⟨op', ob', t', np', nb', s2, hop', ht', hnp', _, hs, hs2, he⟩
  · exact absurd hok he
  · rw [hold] at hop'
    cases hop'
    rw [hnew] at hnp'
    cases hnp'
    rw [ht] at ht'
    cases ht'
    apply at_move hg hg' hop ht hnp hn
    intro d k
    rw [he]
    simp only
    rw [lookup_move (hs.pres.keeps _ (resolveParent_dir hnew)), hs2]
    by_cases h1 : d = np ∧ k = nb
    · rw [if_pos h1, if_pos h1]
    · simp only [if_neg h1]

end Verif.Synth.Tree
