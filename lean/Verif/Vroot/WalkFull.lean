import Verif.Vroot.WalkLoop
/-
Which visits there are when links are followed and directories repeat, in which order, and that WalkDir makes exactly them (C42).
-/
namespace Verif.Vroot.Walk
open Verif.Path

/-! ## Specification -/

/-- The link at `p` cannot be followed: it leads nowhere, or its real path cannot be resolved with the budget left. -/
def Stuck (w : World) (following : Bool) (p r : Str) (k : Kind) (b : Nat) : Prop :=
  following = true ∧ k = .link ∧ (w.stat p = none ∨ (r ≠ [] ∧ w.resolve r b = none))

/-- None of the directories on the way down is this one. -/
def Fresh (w : World) (way : List (Str × Str)) (p r : Str) : Prop := ∀ x ∈ way, ¬ SameDir w x (p, r)

/-- What can be come to from the place `p` with real path `r`, kind `k` and link budget `b`: through listed names of directories (or of what links lead to), never through a directory
that is already on the way. -/
inductive Leads (w : World) (following : Bool) : (p r : Str) → Kind → Nat → (way : List (Str × Str)) → Addr → (p' r' : Str) → Kind → Nat → List (Str × Str) → Prop
  | here (p r : Str) (k : Kind) (b : Nat) (way : List (Str × Str)) : Leads w following p r k b way [] p r k b way
  | down {p r r' d : Str} {k k' : Kind} {b b' : Nat} {way : List (Str × Str)} {a : Addr} {p'' r'' : Str} {k'' : Kind} {b'' : Nat} {way'' : List (Str × Str)}
      (hf : Follows w following p r k b .dir r' b') (hnew : Fresh w way p r') (hd : d ∈ (w.listing p).1) (hl : w.lstat (join2 p d) = some k')
      (h : Leads w following (join2 p d) (if r' = [] then [] else join2 r' d) k' b' ((p, r') :: way) a p'' r'' k'' b'' way'') :
      Leads w following p r k b way (d :: a) p'' r'' k'' b'' way''

/-- The visits there are: every place that can be come to, with what it leads to; a link that cannot be followed, as a failure; and a failure for each directory entered that
cannot be listed. -/
inductive Seen (w : World) (following : Bool) (p r : Str) (k : Kind) (b : Nat) (way : List (Str × Str)) : Addr → Visit → Prop
  | place {a : Addr} {p' r' r'' : Str} {k' k'' : Kind} {b' b'' : Nat} {way' : List (Str × Str)} (h : Leads w following p r k b way a p' r' k' b' way')
      (hf : Follows w following p' r' k' b' k'' r'' b'') : Seen w following p r k b way a ⟨p', r'', some k'', false⟩
  | stuck {a : Addr} {p' r' : Str} {k' : Kind} {b' : Nat} {way' : List (Str × Str)} (h : Leads w following p r k b way a p' r' k' b' way')
      (hs : Stuck w following p' r' k' b') : Seen w following p r k b way a ⟨p', r', w.stat p', true⟩
  | unlisted {a : Addr} {p' r' r'' : Str} {k' : Kind} {b' b'' : Nat} {way' : List (Str × Str)} (h : Leads w following p r k b way a p' r' k' b' way')
      (hf : Follows w following p' r' k' b' .dir r'' b'') (hnew : Fresh w way' p' r'') (hlist : (w.listing p').2 = false) :
      Seen w following p r k b way (a ++ [[]]) ⟨p', r'', none, true⟩

/-! ## Proofs -/

theorem follow_none_iff (w : World) (following : Bool) (p r : Str) (k : Kind) (b : Nat) : follow w following p r k b = none ↔ Stuck w following p r k b := by
  unfold follow Stuck
  constructor
  · intro h
    split at h
    · rename_i hl
      refine ⟨hl.1, hl.2, ?_⟩
      split at h
      · rename_i hs; exact .inl hs
      · split at h
        · cases h
        · rename_i hr
          split at h
          · rename_i hres; exact .inr ⟨hr, hres⟩
          · cases h
    · cases h
  · rintro ⟨h1, h2, h3⟩
    rw [if_pos ⟨h1, h2⟩]
    rcases h3 with h3 | ⟨h3, h4⟩
    · rw [h3]
    · cases w.stat p with
      | none => rfl
      | some k => simp only [if_neg h3, h4]

theorem Follows.unique {w : World} {following : Bool} {p r : Str} {k : Kind} {b : Nat} {k1 k2 : Kind} {r1 r2 : Str} {b1 b2 : Nat}
    (h1 : Follows w following p r k b k1 r1 b1) (h2 : Follows w following p r k b k2 r2 b2) : k1 = k2 ∧ r1 = r2 ∧ b1 = b2 := by
  rw [← follow_iff] at h1 h2
  rw [h1] at h2
  simpa using h2

theorem Follows.not_stuck {w : World} {following : Bool} {p r : Str} {k : Kind} {b : Nat} {k1 : Kind} {r1 : Str} {b1 : Nat}
    (h1 : Follows w following p r k b k1 r1 b1) : ¬ Stuck w following p r k b := by
  rw [← follow_iff] at h1
  rw [← follow_none_iff, h1]
  simp

/-- The keys recorded for the directories on the way. -/
def keysOf (w : World) (way : List (Str × Str)) : List Key := way.filterMap (fun x => keyOf w x.1 x.2)

theorem fresh_iff (w : World) (way : List (Str × Str)) (p r : Str) : Fresh w way p r ↔ ∀ key, keyOf w p r = some key → key ∉ keysOf w way := by
  constructor
  · intro h key hk hm
    obtain ⟨x, hx, hxk⟩ := List.mem_filterMap.1 hm
    exact h x hx ((sameDir_iff ..).2 ⟨key, hxk, hk⟩)
  · intro h x hx hs
    obtain ⟨key, h1, h2⟩ := (sameDir_iff ..).1 hs
    exact h key h2 (List.mem_filterMap.2 ⟨x, hx, h1⟩)

theorem unroll_seen {w : World} (hw : Regular w) (following : Bool) : ∀ (fuel : Nat) (path real : Str) (kind : Kind) (budget : Nat) (way : List (Str × Str)) (n : Node),
    clean path = path → unroll w following fuel path real kind budget (keysOf w way) = some n → ∀ a v, (a, v) ∈ preorder [] n ↔ Seen w following path real kind budget way a v := by
  intro fuel
  induction fuel with
  | zero => intro path real kind budget way n _ h; cases h
  | succ f ih =>
    intro path real kind budget way n hcl h a v
    rw [unroll_succ, hcl] at h
    cases hfol : follow w following path real kind budget with
    | none =>
      rw [hfol] at h
      have hst := (follow_none_iff ..).1 hfol
      rw [if_pos ⟨hst.1, hst.2.1⟩] at h
      cases h
      simp only [preorder, List.mem_cons, List.not_mem_nil, or_false, Prod.mk.injEq]
      constructor
      · rintro ⟨rfl, rfl⟩; exact .stuck (.here ..) hst
      · intro hs
        cases hs with
        | place h hf => cases h with
          | here => exact absurd hst hf.not_stuck
          | down hf' => exact absurd hst hf'.not_stuck
        | stuck h hs => cases h with
          | here => exact ⟨rfl, rfl⟩
          | down hf' => exact absurd hst hf'.not_stuck
        | unlisted h hf => cases h with
          | here => exact absurd hst hf.not_stuck
          | down hf' => exact absurd hst hf'.not_stuck
    | some x =>
      rcases x with ⟨k', r', b'⟩
      have hF := (follow_iff ..).1 hfol
      rw [hfol] at h
      simp only at h
      -- a place that is not entered: one visit
      have single : (k' = .dir → ¬ Fresh w way path r') → ((a, v) ∈ preorder [] (.leaf ⟨path, r', some k', false⟩) ↔ Seen w following path real kind budget way a v) := by
        intro hno
        have hno' : ∀ {r2 b2}, Follows w following path real kind budget .dir r2 b2 → ¬ Fresh w way path r2 := by
          intro r2 b2 h2
          obtain ⟨e1, e2, e3⟩ := hF.unique h2
          subst e1; subst e2
          exact hno rfl
        simp only [preorder, List.mem_cons, List.not_mem_nil, or_false, Prod.mk.injEq]
        constructor
        · rintro ⟨rfl, rfl⟩; exact .place (.here ..) hF
        · intro hs
          cases hs with
          | place h hf => cases h with
            | here =>
              obtain ⟨e1, e2, e3⟩ := hF.unique hf
              subst e1; subst e2
              exact ⟨rfl, rfl⟩
            | down hf' hn' => exact absurd hn' (hno' hf')
          | stuck h hs => cases h with
            | here => exact absurd hs hF.not_stuck
            | down hf' hn' => exact absurd hn' (hno' hf')
          | unlisted h hf hn => cases h with
            | here => exact absurd hn (hno' hf)
            | down hf' hn' => exact absurd hn' (hno' hf')
      by_cases hk : k' = .dir
      · subst hk
        rw [if_neg (by simp)] at h
        have dirc : Fresh w way path r' →
            dirNode w (fun p r k => unroll w following f p r k b' (keysOf w ((path, r') :: way))) path r' = some n →
            ((a, v) ∈ preorder [] n ↔ Seen w following path real kind budget way a v) := by
          intro hnew hd
          unfold dirNode at hd
          cases hcs : (w.listing path).1.mapM (childNode w (fun p r k => unroll w following f p r k b' (keysOf w ((path, r') :: way))) path r') with
          | none => rw [hcs] at hd; cases hd
          | some cs =>
            rw [hcs] at hd
            simp only [Option.map_some, Option.some.injEq] at hd
            subst hd
            simp only [preorder, List.mem_cons, List.mem_append, Prod.mk.injEq, List.nil_append, mem_preorderAll]
            have child : ∀ d m k2, unroll w following f (join2 path d) (if r' = [] then [] else join2 r' d) k2 b' (keysOf w ((path, r') :: way)) = some m →
                ∀ b v, (b, v) ∈ preorder [] m ↔ Seen w following (join2 path d) (if r' = [] then [] else join2 r' d) k2 b' ((path, r') :: way) b v := by
              intro d m k2 hm b v
              exact ih _ _ _ _ _ _ (clean_join2_any (by rw [← hcl]; exact clean_ne_nil _) d) hm b v
            -- what is seen below an entry is in its tree
            have inside : ∀ d k2 b v, d ∈ (w.listing path).1 → w.lstat (join2 path d) = some k2 →
                Seen w following (join2 path d) (if r' = [] then [] else join2 r' d) k2 b' ((path, r') :: way) b v →
                ∃ c ∈ cs, ∃ b', d :: b = c.1 :: b' ∧ (b', v) ∈ preorder [] c.2 := by
              intro d k2 b v hd hl hs
              obtain ⟨m, hmem, hm⟩ := mapM_child_mem _ _ hcs d hd
              refine ⟨(d, m), hmem, b, rfl, ?_⟩
              unfold childNode at hm
              rw [hl] at hm
              simp only at hm
              cases hn : unroll w following f (join2 path d) (if r' = [] then [] else join2 r' d) k2 b' (keysOf w ((path, r') :: way)) with
              | none => rw [hn] at hm; cases hm
              | some m' =>
                rw [hn] at hm
                simp at hm
                subst hm
                exact (child d _ k2 hn b v).2 hs
            constructor
            · rintro (⟨rfl, rfl⟩ | h | ⟨c, hc, b, rfl, hb⟩)
              · exact .place (.here ..) hF
              · split at h
                · simp at h
                · rename_i hlist
                  simp at h
                  obtain ⟨rfl, rfl⟩ := h
                  exact .unlisted (a := []) (.here ..) hF hnew (by simpa using hlist)
              · obtain ⟨h1, h2⟩ := mapM_child _ _ hcs c hc
                unfold childNode at h1
                cases hl : w.lstat (join2 path c.1) with
                | none => exact absurd hl (hw.inspect path c.1 h2)
                | some k2 =>
                  rw [hl] at h1
                  simp only at h1
                  cases hn : unroll w following f (join2 path c.1) (if r' = [] then [] else join2 r' c.1) k2 b' (keysOf w ((path, r') :: way)) with
                  | none => rw [hn] at h1; cases h1
                  | some m =>
                    rw [hn] at h1
                    have hm : m = c.2 := by
                      have := congrArg (Option.map Prod.snd) h1
                      simpa using this
                    subst hm
                    cases (child c.1 _ k2 hn b v).1 hb with
                    | place h hf => exact .place (.down hF hnew h2 hl h) hf
                    | stuck h hs => exact .stuck (.down hF hnew h2 hl h) hs
                    | unlisted h hf hn hlist => exact .unlisted (.down hF hnew h2 hl h) hf hn hlist
            · intro hs
              cases hs with
              | place h hf => cases h with
                | here =>
                  obtain ⟨e1, e2, e3⟩ := hF.unique hf
                  subst e1; subst e2
                  left; exact ⟨rfl, rfl⟩
                | down hf' hn' hd hl h' =>
                  obtain ⟨_, e2, e3⟩ := hF.unique hf'
                  subst e2; subst e3
                  right; right; exact inside _ _ _ _ hd hl (.place h' hf)
              | stuck h hs => cases h with
                | here => exact absurd hs hF.not_stuck
                | down hf' hn' hd hl h' =>
                  obtain ⟨_, e2, e3⟩ := hF.unique hf'
                  subst e2; subst e3
                  right; right; exact inside _ _ _ _ hd hl (.stuck h' hs)
              | unlisted h hf hn hlist => cases h with
                | here =>
                  obtain ⟨_, e2, e3⟩ := hF.unique hf
                  subst e2
                  right; left
                  rw [if_neg (by simp [hlist])]
                  simp
                | down hf' hn' hd hl h' =>
                  obtain ⟨_, e2, e3⟩ := hF.unique hf'
                  subst e2; subst e3
                  right; right; exact inside _ _ _ _ hd hl (.unlisted h' hf hn hlist)
        cases hkey : keyOf w path r' with
        | none =>
          rw [hkey] at h
          have hks : keysOf w ((path, r') :: way) = keysOf w way := by simp [keysOf, hkey]
          exact dirc ((fresh_iff ..).2 (fun key hk => by rw [hkey] at hk; cases hk)) (by rw [hks]; exact h)
        | some key =>
          rw [hkey] at h
          simp only at h
          split at h
          · rename_i hm
            cases h
            exact single (fun _ hfr => (fresh_iff ..).1 hfr key hkey hm)
          · rename_i hm
            have hks : keysOf w ((path, r') :: way) = key :: keysOf w way := by simp [keysOf, hkey]
            exact dirc ((fresh_iff ..).2 (fun key' hk => by rw [hkey] at hk; cases hk; exact hm)) (by rw [hks]; exact h)
      · rw [if_pos hk] at h
        cases h
        exact single (fun h => absurd h hk)

theorem mapM_ends {α β : Type} {f : α → Option β} : ∀ {l : List α}, (∀ a ∈ l, f a ≠ none) → ∃ bs, l.mapM f = some bs
  | [], _ => ⟨[], by simp⟩
  | a :: l, h => by
    obtain ⟨bs, hbs⟩ := mapM_ends (l := l) (fun b hb => h b (List.mem_cons_of_mem _ hb))
    cases hb : f a with
    | none => exact absurd hb (h a List.mem_cons_self)
    | some b => exact ⟨b :: bs, by rw [List.mapM_cons, hb, hbs]; rfl⟩

theorem unroll_ends {w : World} {following : Bool} {root : Str} {K : List Key} (hfin : FiniteKeys w following root K) : ∀ (fuel : Nat) (path real : Str) (kind : Kind)
    (budget : Nat) (keys : List Key), Reach w following root path real kind budget → keys.Nodup → (∀ x ∈ keys, x ∈ K) → K.length + 2 ≤ keys.length + fuel →
    unroll w following fuel path real kind budget keys ≠ none := by
  intro fuel
  induction fuel with
  | zero =>
    intro path real kind budget keys _ hn hs hle
    have := nodup_subset_length hn hs
    omega
  | succ f ih =>
    intro path real kind budget keys hreach hn hs hle
    rw [unroll_succ]
    cases hf : follow w following (clean path) real kind budget with
    | none => simp
    | some x =>
      rcases x with ⟨k', r', b'⟩
      simp only
      by_cases hk : k' = .dir
      · subst hk
        rw [if_neg (by simp)]
        obtain ⟨key, hkK, hkey⟩ := hfin _ _ _ _ _ _ hreach ((follow_iff ..).1 hf)
        rw [hkey]
        simp only
        split
        · simp
        · rename_i hm
          unfold dirNode
          obtain ⟨bs, hbs⟩ := mapM_ends (l := (w.listing (clean path)).1) (f := childNode w (fun p r k => unroll w following f p r k b' (key :: keys)) (clean path) r') (by
            intro d hd
            unfold childNode
            cases hl : w.lstat (join2 (clean path) d) with
            | none => simp
            | some k2 =>
              simp only [ne_eq, Option.map_eq_none_iff]
              refine ih _ _ _ _ _ (.child hreach ((follow_iff ..).1 hf) hd hl) (List.nodup_cons.2 ⟨hm, hn⟩) ?_ (by simp only [List.length_cons]; omega)
              intro x hx
              rcases List.mem_cons.1 hx with rfl | hx
              · exact hkK
              · exact hs x hx)
          rw [hbs]
          simp
      · rw [if_pos hk]; simp

/-! ## Order -/

/-- Every listing is in order of the names, and none occurs twice. -/
def InOrder (w : World) : Prop := ∀ p, (w.listing p).1.Pairwise (· < ·)

theorem lt_of_prefix_lt {a : Addr} {d e : Str} {x y : Addr} (h1 : (a ++ [d]) <+: x) (h2 : (a ++ [e]) <+: y) (h : d < e) : x < y := by
  obtain ⟨t1, rfl⟩ := h1
  obtain ⟨t2, rfl⟩ := h2
  induction a with
  | nil => exact List.Lex.rel h
  | cons c a ih => exact List.Lex.cons ih

theorem nil_lt_of_ne {d : Str} (h : d ≠ []) : ([] : Str) < d := by
  cases d with
  | nil => exact absurd rfl h
  | cons c t => exact List.Lex.nil

theorem lt_snoc (a : Addr) {d : Str} {x : Addr} (h : (a ++ [d]) <+: x) : a < x := by
  obtain ⟨t, rfl⟩ := h
  induction a with
  | nil => exact List.Lex.nil
  | cons c a ih => exact List.Lex.cons ih

/-- Names in the trees are in order. -/
inductive Ordered : Node → Prop
  | leaf (v : Visit) : Ordered (.leaf v)
  | dir (v : Visit) (report : Option Visit) (cs : List (Str × Node)) (hs : (cs.map Prod.fst).Pairwise (· < ·)) (hne : ∀ c ∈ cs, c.1 ≠ []) (h : ∀ c ∈ cs, Ordered c.2) :
      Ordered (.dir v report cs)

mutual
theorem preorder_ordered (a : Addr) : ∀ (n : Node), Ordered n → ((preorder a n).map Prod.fst).Pairwise (· < ·)
  | .leaf v, _ => by simp [preorder]
  | .dir v report cs, hs => by
    cases hs with
    | dir _ _ _ hd hne hcs =>
      simp only [preorder, List.map_cons, List.map_append, List.map_map]
      have hcs' := preorderAll_ordered a cs hcs hd
      have hself : ∀ x ∈ (preorderAll a cs).map Prod.fst, ∃ d, d ≠ [] ∧ (a ++ [d]) <+: x := by
        intro x hx
        obtain ⟨y, hy, rfl⟩ := List.mem_map.1 hx
        obtain ⟨d, h1, h2⟩ := preorderAll_prefix a cs y hy
        obtain ⟨c, hc, rfl⟩ := List.mem_map.1 h1
        exact ⟨c.1, hne c hc, h2⟩
      rw [List.pairwise_cons]
      constructor
      · intro x h
        rcases List.mem_append.1 h with h | h
        · obtain ⟨r, hr, rfl⟩ := List.mem_map.1 h
          exact lt_snoc a List.prefix_rfl
        · obtain ⟨d, _, h⟩ := hself _ h
          exact lt_snoc a h
      · rw [List.pairwise_append]
        refine ⟨by cases report <;> simp, hcs', ?_⟩
        intro x hx y hy
        obtain ⟨d, hd1, hd2⟩ := hself _ hy
        obtain ⟨r, hr, rfl⟩ := List.mem_map.1 hx
        exact lt_of_prefix_lt List.prefix_rfl hd2 (nil_lt_of_ne hd1)
theorem preorderAll_ordered (a : Addr) : ∀ (cs : List (Str × Node)), (∀ c ∈ cs, Ordered c.2) → (cs.map Prod.fst).Pairwise (· < ·) →
    ((preorderAll a cs).map Prod.fst).Pairwise (· < ·)
  | [], _, _ => by simp [preorderAll]
  | (d, n) :: rest, hcs, hd => by
    rw [List.map_cons, List.pairwise_cons] at hd
    simp only [preorderAll, List.map_append]
    rw [List.pairwise_append]
    refine ⟨preorder_ordered (a ++ [d]) n (hcs (d, n) List.mem_cons_self), preorderAll_ordered a rest (fun c hc => hcs c (List.mem_cons_of_mem _ hc)) hd.2, ?_⟩
    intro x hx y hy
    obtain ⟨x1, hx1, rfl⟩ := List.mem_map.1 hx
    obtain ⟨y1, hy1, rfl⟩ := List.mem_map.1 hy
    obtain ⟨e, he, h2⟩ := preorderAll_prefix a rest y1 hy1
    exact lt_of_prefix_lt (preorder_prefix (a ++ [d]) n x1 hx1) h2 (hd.1 e he)
end

theorem unroll_ordered {w : World} (hw : Regular w) (ho : InOrder w) (following : Bool) : ∀ (fuel : Nat) (path real : Str) (kind : Kind) (budget : Nat) (keys : List Key) (n : Node),
    unroll w following fuel path real kind budget keys = some n → Ordered n := by
  intro fuel
  induction fuel with
  | zero => intro path real kind budget keys n h; cases h
  | succ f ih =>
    intro path real kind budget keys n h
    rw [unroll_succ] at h
    cases hfol : follow w following (clean path) real kind budget with
    | none => rw [hfol] at h; cases h; exact .leaf _
    | some x =>
      rcases x with ⟨k', r', b'⟩
      rw [hfol] at h
      simp only at h
      have dirc : ∀ keys', dirNode w (fun p r k => unroll w following f p r k b' keys') (clean path) r' = some n → Ordered n := by
        intro keys' hd
        unfold dirNode at hd
        cases hcs : (w.listing (clean path)).1.mapM (childNode w (fun p r k => unroll w following f p r k b' keys') (clean path) r') with
        | none => rw [hcs] at hd; cases hd
        | some cs =>
          rw [hcs] at hd
          cases hd
          have hfst := mapM_fst _ _ hcs
          refine .dir _ _ _ (by rw [hfst]; exact ho _) ?_ ?_
          · intro c hc h
            have : c.1 ∈ (w.listing (clean path)).1 := hfst ▸ List.mem_map_of_mem hc
            exact hw.named _ (h ▸ this)
          · intro c hc
            obtain ⟨h1, h2⟩ := mapM_child _ _ hcs c hc
            unfold childNode at h1
            cases hl : w.lstat (join2 (clean path) c.1) with
            | none => exact absurd hl (hw.inspect _ c.1 h2)
            | some k2 =>
              rw [hl] at h1
              simp only [Option.map_eq_some_iff] at h1
              obtain ⟨m, hm, e⟩ := h1
              rw [← e]
              exact ih _ _ _ _ _ _ hm
      split at h
      · cases h; exact .leaf _
      · split at h
        · exact dirc _ h
        · split at h
          · cases h; exact .leaf _
          · exact dirc _ h

/-- **C42, exactly these calls (partial).** For every filesystem in which what is listed can be inspected and whose listings are in order, every callback, with and without
following links, if the directories that can be come to are finitely many: there is exactly one list of all visits in lexical order (a directory before what is in it), and the
calls WalkDir makes are that list, leaving out what an earlier answer cancelled; it returns the error answered, if any.  What is missing: entries whose inspection fails. -/
theorem C42_exactly_partial (w : World) (hw : Regular w) (ho : InOrder w) (following : Bool) (fn : Fn) (root : Str) (k : Kind) (hroot : w.lstat root = some k)
    (K : List (Str × Str)) (hfin : FiniteDirs w following root K) (fuel : Nat) (hfuel : K.length + 2 ≤ fuel) :
    ∃ l evs, (∀ a v, (a, v) ∈ l ↔ Seen w following (clean root) root k 40 [] a v) ∧ (l.map Prod.fst).Pairwise (· < ·) ∧
      walkDir w following fn fuel root = some (evs, (spec fn l).result) ∧ visits evs = (spec fn l).made := by
  have hlen := List.length_filterMap_le (fun x : Str × Str => keyOf w x.1 x.2) K
  cases ht : unroll w following fuel root root k 40 [] with
  | none =>
    exact absurd ht (unroll_ends (finiteKeys_of_dirs hfin) fuel root root k 40 [] (.root hroot) List.nodup_nil (by simp) (by simp only [List.length_nil]; omega))
  | some tree =>
    obtain ⟨evs, h1, h2⟩ := C42_visits_partial w hw following fn fuel root k hroot tree ht
    refine ⟨preorder [] tree, evs, ?_, preorder_ordered [] tree (unroll_ordered hw ho following _ _ _ _ _ _ _ ht), h1, h2⟩
    have ht' : unroll w following fuel (clean root) root k 40 (keysOf w []) = some tree := by
      cases fuel with
      | zero => cases ht
      | succ f => rw [unroll_succ] at ht ⊢; rw [clean_clean]; exact ht
    exact unroll_seen hw following fuel (clean root) root k 40 [] tree (clean_clean _) ht'

/-- **C42, no root.** If the root cannot be inspected the callback is told so, once, and that is all. -/
theorem C42_no_root (w : World) (following : Bool) (fn : Fn) (fuel : Nat) (root : Str) (hroot : w.lstat root = none) :
    ∃ evs, walkDir w following fn fuel root = some (evs, errOr .ok (fn [] ⟨root, root, none, true⟩)) ∧ visits evs = [⟨root, root, none, true⟩] := by
  refine ⟨[.visit ⟨root, root, none, true⟩], ?_, rfl⟩
  unfold walkDir
  rw [hroot]
  simp only [call, Option.map_some, List.nil_append]
  congr 1
  have : visits [] = [] := rfl
  rw [this]
  cases fn [] ⟨root, root, none, true⟩ <;> rfl

/-! ## Listings -/

/-- funcs.go 16-35: `ReadDir` sorts what the directory gives, in whatever order that comes (`slices.SortFunc` is modelled by a merge sort; the names of a directory are
distinct, so all sorts agree). -/
def readDir (raw : List Str × Bool) : List Str × Bool := (if raw.1.length ≥ 2 then raw.1.mergeSort (fun a b => decide (a ≤ b)) else raw.1, raw.2)

/-- **C42, listings.** For every order in which a directory gives its (distinct) names, ReadDir returns all of them in lexical order, and the error as it was. -/
theorem C42_listing (raw : List Str × Bool) (hd : raw.1.Nodup) : (readDir raw).1.Perm raw.1 ∧ (readDir raw).1.Pairwise (· < ·) ∧ (readDir raw).2 = raw.2 := by
  have hp : (raw.1.mergeSort (fun a b => decide (a ≤ b))).Perm raw.1 := List.mergeSort_perm _ _
  unfold readDir
  simp only
  split
  · refine ⟨hp, ?_, trivial⟩
    have hs := List.pairwise_mergeSort (le := fun a b : Str => decide (a ≤ b)) (by
      intro a b c h1 h2
      simp only [decide_eq_true_eq] at *
      exact List.le_trans h1 h2) (by
      intro a b
      simp only [Bool.or_eq_true, decide_eq_true_eq]
      exact List.le_total a b) raw.1
    have hn := hp.nodup_iff.2 hd
    refine (hs.and hn).imp ?_
    rintro a b ⟨h1, h2⟩
    simp only [decide_eq_true_eq] at h1
    rcases List.le_iff_lt_or_eq.1 h1 with h | h
    · exact h
    · exact absurd h h2
  · rename_i hl
    refine ⟨.refl _, ?_, trivial⟩
    match h : raw.1, hl with
    | [], _ => exact .nil
    | [x], _ => simp
    | _ :: _ :: _, hl => simp at hl

/-- funcs.go 16-19: a filesystem with a `ReadDir` of its own answers for itself, and what it gives is not sorted (`native`); the others go through `readDir`.
vroot-adapter/sftpfs/sftpfs.go 351-366 gives the order of the server. -/
def readDirOf (native : Option (List Str × Bool)) (raw : List Str × Bool) : List Str × Bool := match native with
  | some own => own
  | none => readDir raw

/-- **C42 fails** for the order of listings, when the filesystem lists for itself: the server of sftpfs gives "b" before "a", so does ReadDir. Without a listing of its own
the same filesystem is listed in order. -/
theorem C42_counterexample_native :
    let served : List Str × Bool := ([['b'], ['a']], true)
    (readDirOf (some served) served).1 = [['b'], ['a']] ∧ ¬(readDirOf (some served) served).1.Pairwise (· < ·) ∧ (readDirOf none served).1.Pairwise (· < ·) := by
  refine ⟨rfl, by decide, (C42_listing _ (by decide)).2.1⟩

/-! ## A filesystem that meets the hypotheses -/

/-- "r" holds the file "a" and the link "l" leading back to "r". -/
def linked : World where
  lstat := fun p => if p = ['r'] then some .dir else if p = ['r', '/', 'a'] then some .file else if p = ['r', '/', 'l'] then some .link else none
  stat := fun p => if p = ['r'] ∨ p = ['r', '/', 'l'] then some .dir else if p = ['r', '/', 'a'] then some .file else none
  resolve := fun r b => if r = ['r', '/', 'l'] ∧ 0 < b then some (['r'], 1) else none
  listing := fun p => (if p = ['r'] then [['a'], ['l']] else [], true)
  ident := fun _ _ => none

theorem linked_regular : Regular linked ∧ InOrder linked := by
  refine ⟨⟨?_, ?_, ?_⟩, ?_⟩
  · intro p d hd
    simp only [linked] at hd
    split at hd
    · rename_i hp; subst hp
      simp at hd
      rcases hd with rfl | rfl <;> decide
    · simp at hd
  · intro p
    show (if p = ['r'] then [['a'], ['l']] else []).Nodup
    split <;> decide
  · intro p
    show [] ∉ (if p = ['r'] then [['a'], ['l']] else [])
    split <;> decide
  · intro p
    show (if p = ['r'] then [['a'], ['l']] else []).Pairwise (· < ·)
    split <;> decide

theorem linked_reach {p r : Str} {k : Kind} {b : Nat} (h : Reach linked true ['r'] p r k b) :
    (p = ['r'] ∧ r = ['r'] ∧ k = .dir ∧ b = 40) ∨ (p = ['r', '/', 'a'] ∧ r = ['r', '/', 'a'] ∧ k = .file ∧ b = 40) ∨
      (p = ['r', '/', 'l'] ∧ r = ['r', '/', 'l'] ∧ k = .link ∧ b = 40) := by
  induction h with
  | root hk => left; refine ⟨rfl, rfl, ?_, rfl⟩; simp [linked] at hk; exact hk.symm
  | @child p r k b r' b' d k' hreach hf hd hl ih =>
    have hp : clean p = ['r'] := by
      simp only [linked] at hd
      split at hd
      · assumption
      · simp at hd
    rcases ih with ⟨rfl, rfl, rfl, rfl⟩ | ⟨rfl, _⟩ | ⟨rfl, _⟩
    · cases hf with
      | stays =>
        rw [hp] at hd hl ⊢
        simp [linked] at hd
        rcases hd with rfl | rfl
        · right; left
          refine ⟨by decide, by decide, ?_, rfl⟩
          have : linked.lstat (join2 ['r'] ['a']) = some .file := by decide
          rw [this] at hl; exact (Option.some.inj hl).symm
        · right; right
          refine ⟨by decide, by decide, ?_, rfl⟩
          have : linked.lstat (join2 ['r'] ['l']) = some .link := by decide
          rw [this] at hl; exact (Option.some.inj hl).symm
    · exact absurd hp (by decide)
    · exact absurd hp (by decide)

/-- The hypotheses of `C42_exactly_partial` hold with links followed; the link back is reported as a directory and not entered. -/
example : Regular linked ∧ InOrder linked ∧ FiniteDirs linked true ['r'] [(['r'], ['r'])] ∧
    Seen linked true ['r'] ['r'] .dir 40 [] [['l']] ⟨['r', '/', 'l'], ['r'], some .dir, false⟩ := by
  refine ⟨linked_regular.1, linked_regular.2, ?_, ?_⟩
  · intro p r k b r' b' hr hf
    refine ⟨_, List.mem_cons_self, .inr ⟨rfl, rfl, by simp, ?_⟩⟩
    rcases linked_reach hr with ⟨rfl, rfl, rfl, rfl⟩ | ⟨rfl, rfl, rfl, rfl⟩ | ⟨rfl, rfl, rfl, rfl⟩
    · cases hf; rfl
    · cases hf
    · cases hf with
      | led _ _ _ hres =>
        simp [linked] at hres
        exact hres.1
  · refine .place (r' := ['r', '/', 'l']) (k' := .link) (b' := 40) (b'' := 39) (way' := [(['r'], ['r'])]) ?_ ?_
    · exact .down (d := ['l']) (k' := .link) (.stays (by decide)) (by intro x hx; cases hx) (by decide) (by decide) (.here ..)
    · exact .led (n := 1) rfl (by decide) (by decide) (by decide)

/-- Its calls. -/
example : paths (walkDir linked true (fun _ _ => .ok) 3 ['r']) = some ([['r'], ['r', '/', 'a'], ['r', '/', 'l']], .ok) := by decide +kernel

end Verif.Vroot.Walk
