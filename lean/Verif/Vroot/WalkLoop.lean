import Verif.Vroot.WalkProps
/-
Property C43: WalkDir does not loop.
-/
namespace Verif.Vroot.Walk
open Verif.Path

/-! ## Specification -/

/-- The directories being listed after some events (innermost first). -/
def openDirs (evs : List Event) : List (Str × Str) :=
  evs.foldl (fun st e => match e with | .enter p r => (p, r) :: st | .leave => st.tail | .visit _ => st) []

/-- No directory was entered while it was already open, at any moment of the history. -/
def NoReentry (w : World) (evs : List Event) : Prop := ∀ t, t <+: evs → (openDirs t).Pairwise (fun x y => ¬ SameDir w x y)

/-- What becomes of a symbolic link when links are followed: its kind is that of what it leads to, its real path is resolved at the cost of some of the budget. -/
inductive Follows (w : World) (following : Bool) : Str → Str → Kind → Nat → Kind → Str → Nat → Prop
  | stays {p r : Str} {k : Kind} {b : Nat} (h : ¬ (following = true ∧ k = .link)) : Follows w following p r k b k r b
  | unnamed {p : Str} {k : Kind} {b : Nat} (h : following = true) (hs : w.stat p = some k) : Follows w following p [] .link b k [] b
  | led {p r r' : Str} {k : Kind} {b n : Nat} (h : following = true) (hs : w.stat p = some k) (hr : r ≠ []) (hres : w.resolve r b = some (r', n)) :
      Follows w following p r .link b k r' (b - n)

theorem follow_iff (w : World) (following : Bool) (p r : Str) (k : Kind) (b : Nat) (k' : Kind) (r' : Str) (b' : Nat) :
    follow w following p r k b = some (k', r', b') ↔ Follows w following p r k b k' r' b' := by
  unfold follow
  constructor
  · intro h
    split at h
    · rename_i hl
      obtain ⟨hl, rfl⟩ := hl
      split at h
      · cases h
      · rename_i k2 hs
        split at h
        · rename_i hr
          cases h; cases hr; exact .unnamed hl hs
        · rename_i hr
          split at h
          · cases h
          · rename_i r2 n hres
            cases h; exact .led hl hs hr hres
    · rename_i hl
      cases h; exact .stays hl
  · intro h
    cases h with
    | stays h => rw [if_neg h]
    | unnamed h hs => rw [if_pos ⟨h, rfl⟩, hs]; rfl
    | led h hs hr hres => rw [if_pos ⟨h, rfl⟩, hs]; simp only [if_neg hr, hres]

/-- Places a walk can come to, with the remaining budget of links. -/
inductive Reach (w : World) (following : Bool) (root : Str) : Str → Str → Kind → Nat → Prop
  | root {k : Kind} (h : w.lstat root = some k) : Reach w following root root root k 40
  | child {p r : Str} {k : Kind} {b : Nat} {r' : Str} {b' : Nat} {d : Str} {k' : Kind} (h : Reach w following root p r k b)
      (hf : Follows w following (clean p) r k b .dir r' b') (hd : d ∈ (w.listing (clean p)).1) (hl : w.lstat (join2 (clean p) d) = some k') :
      Reach w following root (join2 (clean p) d) (if r' = [] then [] else join2 r' d) k' b'

/-- There are finitely many directories: every directory a walk can come to is one of `K`, as inodes or real paths tell. -/
def FiniteDirs (w : World) (following : Bool) (root : Str) (K : List (Str × Str)) : Prop :=
  ∀ p r k b r' b', Reach w following root p r k b → Follows w following (clean p) r k b .dir r' b' → ∃ x ∈ K, SameDir w x (clean p, r')

/-! ## No re-entry -/

/-- The same in terms of the keys the walk records. -/
def NoReentryK (w : World) (evs : List Event) : Prop := ∀ t, t <+: evs → ((openDirs t).filterMap (fun x => keyOf w x.1 x.2)).Nodup

theorem noReentry_of_keys {w : World} {evs : List Event} (h : NoReentryK w evs) : NoReentry w evs := by
  intro t ht
  have := h t ht
  generalize openDirs t = l at this
  induction l with
  | nil => exact .nil
  | cons x l ih =>
    rw [List.filterMap_cons] at this
    refine List.pairwise_cons.2 ⟨fun y hy hs => ?_, ih (by
      split at this
      · exact this
      · exact (List.nodup_cons.1 this).2)⟩
    obtain ⟨key, h1, h2⟩ := (sameDir_iff ..).1 hs
    rw [h1] at this
    exact (List.nodup_cons.1 this).1 (List.mem_filterMap.2 ⟨y, hy, h2⟩)

theorem openDirs_snoc (evs : List Event) (e : Event) :
    openDirs (evs ++ [e]) = (match e with | .enter p r => (p, r) :: openDirs evs | .leave => (openDirs evs).tail | .visit _ => openDirs evs) := by
  unfold openDirs
  rw [List.foldl_append]
  cases e <;> rfl

theorem noReentry_snoc {w : World} {evs : List Event} {e : Event} (h : NoReentryK w evs) (he : ((openDirs (evs ++ [e])).filterMap (fun x => keyOf w x.1 x.2)).Nodup) : NoReentryK w (evs ++ [e]) := by
  intro t ht
  rcases List.prefix_concat_iff.1 ht with rfl | ht
  · exact he
  · exact h t ht

theorem noReentry_visit {w : World} {evs : List Event} (h : NoReentryK w evs) (v : Visit) : NoReentryK w (evs ++ [.visit v]) :=
  noReentry_snoc h (by rw [openDirs_snoc]; exact h evs List.prefix_rfl)

/-- What a step of the walk keeps: the history is fine and the same directories are open. -/
def Keeps (w : World) (evs : List Event) (res : Option (List Event × Answer)) : Prop :=
  ∀ r, res = some r → NoReentryK w evs → NoReentryK w r.1 ∧ openDirs r.1 = openDirs evs

theorem call_keeps (w : World) (fn : Fn) (evs : List Event) (v : Visit) : Keeps w evs (some (call fn evs v)) := by
  intro r hr h
  cases hr
  exact ⟨noReentry_visit h v, openDirs_snoc _ _⟩

theorem entries_keeps {w : World} {fn : Fn} {rec : Str → Str → Kind → List Event → Option (List Event × Answer)} {st : List (Str × Str)}
    (hrec : ∀ p r k evs, openDirs evs = st → Keeps w evs (rec p r k evs)) (path real : Str) : ∀ (ds : List Str) (evs : List Event), openDirs evs = st →
    Keeps w evs (entries w fn rec path real ds evs) := by
  intro ds
  induction ds with
  | nil => intro evs _ r hr h; cases hr; exact ⟨h, rfl⟩
  | cons d rest ih =>
    intro evs hst
    unfold entries
    simp only
    cases hl : w.lstat (join2 path d) with
    | none => exact call_keeps w fn evs _
    | some k =>
      simp only
      have hk := hrec (join2 path d) (if real = [] then [] else join2 real d) k evs hst
      generalize rec (join2 path d) (if real = [] then [] else join2 real d) k evs = res at hk
      cases res with
      | none => intro r hr; cases hr
      | some x =>
        rcases x with ⟨evs', ans⟩
        have hk' := hk _ rfl
        cases ans with
        | ok =>
          intro r hr h
          obtain ⟨h1, h2⟩ := hk' h
          obtain ⟨h3, h4⟩ := ih evs' (by rw [h2, hst]) r hr h1
          exact ⟨h3, by rw [h4, h2]⟩
        | skipDir => intro r hr h; cases hr; exact hk' h
        | skipAll => intro r hr h; cases hr; exact hk' h
        | err n => intro r hr h; cases hr; exact hk' h

theorem descend_keeps {w : World} {fn : Fn} {rec : Str → Str → Kind → List Event → Option (List Event × Answer)} (path real : Str) (evs : List Event)
    (hrec : ∀ p r k evs', openDirs evs' = (path, real) :: openDirs evs → Keeps w evs' (rec p r k evs'))
    (hnew : ∀ key, keyOf w path real = some key → key ∉ (openDirs evs).filterMap (fun x => keyOf w x.1 x.2)) : Keeps w evs (descend w fn rec path real evs) := by
  intro r hr h
  have hopen : openDirs (evs ++ [.enter path real]) = (path, real) :: openDirs evs := openDirs_snoc _ _
  have hn : NoReentryK w (evs ++ [.enter path real]) := by
    apply noReentry_snoc h
    rw [hopen]
    rw [List.filterMap_cons]
    cases hk : keyOf w path real with
    | none => exact h evs List.prefix_rfl
    | some key =>
      simp only
      rw [List.nodup_cons]
      exact ⟨hnew key hk, h evs List.prefix_rfl⟩
  have hleave : ∀ evs', NoReentryK w evs' → openDirs evs' = (path, real) :: openDirs evs → NoReentryK w (evs' ++ [.leave]) ∧ openDirs (evs' ++ [.leave]) = openDirs evs := by
    intro evs' h1 h2
    have : openDirs (evs' ++ [.leave]) = openDirs evs := by rw [openDirs_snoc, h2]; rfl
    exact ⟨noReentry_snoc h1 (by rw [this]; exact h evs List.prefix_rfl), this⟩
  have go : ∀ evs', NoReentryK w evs' → openDirs evs' = (path, real) :: openDirs evs → ∀ r,
      (entries w fn rec path real (w.listing path).1 evs').map (fun r => (r.1 ++ [.leave], r.2)) = some r → NoReentryK w r.1 ∧ openDirs r.1 = openDirs evs := by
    intro evs' h1 h2 r hr
    cases he : entries w fn rec path real (w.listing path).1 evs' with
    | none => rw [he] at hr; cases hr
    | some x =>
      rw [he] at hr
      simp only [Option.map_some, Option.some.injEq] at hr
      subst hr
      obtain ⟨h3, h4⟩ := entries_keeps hrec path real _ evs' h2 x he h1
      exact hleave _ h3 (by rw [h4, h2])
  unfold descend at hr
  simp only at hr
  split at hr
  · exact go _ hn hopen r hr
  · have hc : openDirs (evs ++ [.enter path real] ++ [.visit ⟨path, real, none, true⟩]) = (path, real) :: openDirs evs := by
      rw [openDirs_snoc]; exact hopen
    have hcn := noReentry_visit hn ⟨path, real, none, true⟩
    simp only [call] at hr
    cases ha : fn (visits (evs ++ [.enter path real])) ⟨path, real, none, true⟩ with
    | ok => rw [ha] at hr; exact go _ hcn hc r hr
    | skipDir => rw [ha] at hr; cases hr; exact hleave _ hcn hc
    | skipAll => rw [ha] at hr; cases hr; exact hleave _ hcn hc
    | err n => rw [ha] at hr; cases hr; exact hleave _ hcn hc

theorem walk_keeps (w : World) (following : Bool) (fn : Fn) : ∀ (fuel : Nat) (path real : Str) (kind : Kind) (budget : Nat) (keys : List Key) (evs : List Event),
    (openDirs evs).filterMap (fun x => keyOf w x.1 x.2) = keys → Keeps w evs (walk w following fn fuel path real kind budget keys evs) := by
  intro fuel
  induction fuel with
  | zero => intro path real kind budget keys evs _ r hr; cases hr
  | succ f ih =>
    intro path real kind budget keys evs hk
    unfold walk
    simp only
    cases hf : follow w following (clean path) real kind budget with
    | none => exact call_keeps w fn evs _
    | some x =>
      rcases x with ⟨k', r', b'⟩
      simp only [call]
      intro r hr h
      have hv := noReentry_visit h ⟨clean path, r', some k', false⟩
      have ho : openDirs (evs ++ [.visit ⟨clean path, r', some k', false⟩]) = openDirs evs := openDirs_snoc _ _
      cases ha : fn (visits evs) ⟨clean path, r', some k', false⟩ with
      | skipDir => rw [ha] at hr; cases hr; exact ⟨hv, ho⟩
      | skipAll => rw [ha] at hr; cases hr; exact ⟨hv, ho⟩
      | err n => rw [ha] at hr; cases hr; exact ⟨hv, ho⟩
      | ok =>
        rw [ha] at hr
        simp only at hr
        split at hr
        · cases hr; exact ⟨hv, ho⟩
        · split at hr
          · rename_i hkey
            obtain ⟨h1, h2⟩ := descend_keeps (clean path) r' _ (fun p r k evs' he => ih p r k b' keys evs' (by
              rw [he, List.filterMap_cons, hkey, ho, hk])) (by intro key hk2; rw [hkey] at hk2; cases hk2) r hr hv
            exact ⟨h1, by rw [h2, ho]⟩
          · rename_i key hkey
            split at hr
            · cases hr; exact ⟨hv, ho⟩
            · rename_i hm
              obtain ⟨h1, h2⟩ := descend_keeps (clean path) r' _ (fun p r k evs' he => ih p r k b' (key :: keys) evs' (by
                rw [he, List.filterMap_cons, hkey, ho, hk])) (by
                  intro key2 hk2
                  rw [hkey] at hk2
                  cases hk2
                  rw [ho, hk]; exact hm) r hr hv
              exact ⟨h1, by rw [h2, ho]⟩

/-- **C43, no re-entry.** For every filesystem and every callback, with and without following links: at no moment of the walk are two directories open that have
the same inode (or, where there are no inodes, the same real path). -/
theorem C43_no_reentry (w : World) (following : Bool) (fn : Fn) (fuel : Nat) (root : Str) (evs : List Event) (res : Answer)
    (h : walkDir w following fn fuel root = some (evs, res)) : NoReentry w evs := by
  apply noReentry_of_keys
  have nil : NoReentryK w [] := by
    intro t ht
    rw [List.prefix_nil] at ht
    subst ht
    simp [openDirs]
  unfold walkDir at h
  simp only at h
  split at h
  · simp only [Option.map_some, Option.some.injEq, Prod.mk.injEq] at h
    obtain ⟨h1, _⟩ := h
    subst h1
    exact noReentry_visit nil _
  · rename_i k hk
    cases hw : walk w following fn fuel root root k 40 [] [] with
    | none => rw [hw] at h; cases h
    | some x =>
      rw [hw] at h
      simp only [Option.map_some, Option.some.injEq, Prod.mk.injEq] at h
      obtain ⟨h1, _⟩ := h
      subst h1
      exact (walk_keeps w following fn fuel root root k 40 [] [] (by simp [openDirs]) x hw nil).1

/-! ## Termination -/

theorem nodup_subset_length {α : Type} [DecidableEq α] {l K : List α} (hn : l.Nodup) (hs : ∀ x ∈ l, x ∈ K) : l.length ≤ K.length := by
  induction l generalizing K with
  | nil => simp
  | cons a t ih =>
    rw [List.nodup_cons] at hn
    have ha := hs a List.mem_cons_self
    have := ih (K := K.erase a) hn.2 (by
      intro x hx
      have hne : x ≠ a := by rintro rfl; exact hn.1 hx
      exact (List.mem_erase_of_ne hne).2 (hs x (List.mem_cons_of_mem _ hx)))
    rw [List.length_erase_of_mem ha] at this
    have hpos : 0 < K.length := List.length_pos_of_mem ha
    simp only [List.length_cons]
    omega

theorem entries_ends {w : World} {fn : Fn} {rec : Str → Str → Kind → List Event → Option (List Event × Answer)} (path real : Str) : ∀ (ds : List Str),
    (∀ d ∈ ds, ∀ k evs, w.lstat (join2 path d) = some k → rec (join2 path d) (if real = [] then [] else join2 real d) k evs ≠ none) → ∀ evs,
    entries w fn rec path real ds evs ≠ none := by
  intro ds
  induction ds with
  | nil => intro _ evs h; cases h
  | cons d rest ih =>
    intro hrec evs
    unfold entries
    simp only
    cases hl : w.lstat (join2 path d) with
    | none => simp
    | some k =>
      simp only
      have h1 := hrec d List.mem_cons_self k evs hl
      generalize rec (join2 path d) (if real = [] then [] else join2 real d) k evs = res at h1
      cases res with
      | none => exact absurd rfl h1
      | some x =>
        rcases x with ⟨evs', ans⟩
        cases ans with
        | ok => exact ih (fun d hd => hrec d (List.mem_cons_of_mem _ hd)) evs'
        | _ => simp

theorem descend_ends {w : World} {fn : Fn} {rec : Str → Str → Kind → List Event → Option (List Event × Answer)} (path real : Str)
    (hrec : ∀ d ∈ (w.listing path).1, ∀ k evs, w.lstat (join2 path d) = some k → rec (join2 path d) (if real = [] then [] else join2 real d) k evs ≠ none) (evs : List Event) :
    descend w fn rec path real evs ≠ none := by
  have he := entries_ends (fn := fn) path real (w.listing path).1 hrec
  unfold descend
  simp only
  split
  · intro h; rw [Option.map_eq_none_iff] at h; exact he _ h
  · split
    · intro h; rw [Option.map_eq_none_iff] at h; exact he _ h
    · simp
    · simp

/-- The same in terms of keys. -/
def FiniteKeys (w : World) (following : Bool) (root : Str) (K : List Key) : Prop :=
  ∀ p r k b r' b', Reach w following root p r k b → Follows w following (clean p) r k b .dir r' b' → ∃ key ∈ K, keyOf w (clean p) r' = some key

theorem finiteKeys_of_dirs {w : World} {following : Bool} {root : Str} {K : List (Str × Str)} (h : FiniteDirs w following root K) :
    FiniteKeys w following root (K.filterMap (fun x => keyOf w x.1 x.2)) := by
  intro p r k b r' b' hr hf
  obtain ⟨x, hx, hs⟩ := h p r k b r' b' hr hf
  obtain ⟨key, h1, h2⟩ := (sameDir_iff ..).1 hs
  exact ⟨key, List.mem_filterMap.2 ⟨x, hx, h1⟩, h2⟩

theorem walk_ends {w : World} {following : Bool} {root : Str} {K : List Key} (hfin : FiniteKeys w following root K) (fn : Fn) : ∀ (fuel : Nat) (path real : Str) (kind : Kind)
    (budget : Nat) (keys : List Key) (evs : List Event), Reach w following root path real kind budget → keys.Nodup → (∀ x ∈ keys, x ∈ K) → K.length + 2 ≤ keys.length + fuel →
    walk w following fn fuel path real kind budget keys evs ≠ none := by
  intro fuel
  induction fuel with
  | zero =>
    intro path real kind budget keys evs _ hn hs hle
    have := nodup_subset_length hn hs
    omega
  | succ f ih =>
    intro path real kind budget keys evs hreach hn hs hle
    unfold walk
    simp only
    cases hf : follow w following (clean path) real kind budget with
    | none => simp
    | some x =>
      rcases x with ⟨k', r', b'⟩
      simp only [call]
      cases ha : fn (visits evs) ⟨clean path, r', some k', false⟩ with
      | skipDir => simp
      | skipAll => simp
      | err n => simp
      | ok =>
        simp only
        by_cases hk : k' = .dir
        · subst hk
          rw [if_neg (by simp)]
          obtain ⟨key, hkK, hkey⟩ := hfin _ _ _ _ _ _ hreach ((follow_iff ..).1 hf)
          rw [hkey]
          simp only
          split
          · simp
          · rename_i hm
            apply descend_ends
            intro d hd k'' evs' hl
            apply ih
            · exact .child hreach ((follow_iff ..).1 hf) hd hl
            · rw [List.nodup_cons]; exact ⟨hm, hn⟩
            · intro x hx
              rcases List.mem_cons.1 hx with rfl | hx
              · exact hkK
              · exact hs x hx
            · simp only [List.length_cons]; omega
        · rw [if_pos hk]; simp

/-- **C43, termination.** If the directories that can be reached are finitely many (`K` lists their inodes or real paths), the walk ends for every callback, whatever
the links: it is never deeper than their number plus two. -/
theorem C43_terminates (w : World) (following : Bool) (fn : Fn) (root : Str) (K : List (Str × Str)) (hfin : FiniteDirs w following root K) :
    walkDir w following fn (K.length + 2) root ≠ none := by
  unfold walkDir
  simp only
  split
  · simp
  · rename_i k hk
    rw [Ne, Option.map_eq_none_iff]
    have hlen := List.length_filterMap_le (fun x : Str × Str => keyOf w x.1 x.2) K
    exact walk_ends (finiteKeys_of_dirs hfin) fn _ root root k 40 [] [] (.root hk) List.nodup_nil (by simp) (by simp only [List.length_nil]; omega)

/-- A filesystem without inodes whose directories have finitely many real paths: the real path of the root is one of `dirs`, sub-directories of `dirs` are in `dirs`, and
so are the directories links lead to. -/
structure FiniteReal (w : World) (root : Str) (dirs : List Str) : Prop where
  noIdent : ∀ p r, w.ident p r = none
  named : [] ∉ dirs
  rootDir : w.lstat root = some .dir → root ∈ dirs
  rootNamed : root ≠ []
  child : ∀ p r d, r ∈ dirs → d ∈ (w.listing p).1 → w.lstat (join2 p d) = some .dir → join2 r d ∈ dirs
  link : ∀ p r b r' n, w.stat p = some .dir → w.resolve r b = some (r', n) → r' ∈ dirs

/-- **C43 for such filesystems.** -/
theorem C43_terminates_real (w : World) (following : Bool) (fn : Fn) (root : Str) (dirs : List Str) (h : FiniteReal w root dirs) :
    walkDir w following fn (dirs.length + 2) root ≠ none := by
  have key : ∀ p r k b, Reach w following root p r k b → r ≠ [] ∧ (k = .dir → r ∈ dirs) ∧
      ∀ r' b', Follows w following (clean p) r k b .dir r' b' → r' ∈ dirs := by
    have fol : ∀ p r k b, r ≠ [] → (k = .dir → r ∈ dirs) → ∀ r' b', Follows w following (clean p) r k b .dir r' b' → r' ∈ dirs := by
      intro p r k b hne hd r' b' hf
      cases hf with
      | stays _ => exact hd rfl
      | unnamed _ _ => exact absurd rfl hne
      | led _ hs _ hr => exact h.link _ _ _ _ _ hs hr
    intro p r k b hr
    induction hr with
    | root hk =>
      have hd : ∀ {k'}, w.lstat root = some k' → k' = .dir → root ∈ dirs := by rintro k' hk' rfl; exact h.rootDir hk'
      exact ⟨h.rootNamed, hd hk, fol _ _ _ _ h.rootNamed (hd hk)⟩
    | @child p r k b r' b' d k' hreach hf hd hl ih =>
      have hr' := ih.2.2 _ _ hf
      have hne : r' ≠ [] := by rintro rfl; exact h.named hr'
      rw [if_neg hne]
      have hne2 : join2 r' d ≠ [] := by
        unfold join2
        rw [if_neg (fun h => hne h.1), if_neg hne]
        split <;> exact clean_ne_nil _
      have hdir : k' = .dir → join2 r' d ∈ dirs := by rintro rfl; exact h.child _ _ _ hr' hd hl
      exact ⟨hne2, hdir, fol _ _ _ _ hne2 hdir⟩
  have := C43_terminates w following fn root (dirs.map (fun r => ([], r))) (by
    intro p r k b r' b' hr hf
    have hr' := (key p r k b hr).2.2 r' b' hf
    have hne : r' ≠ [] := by rintro rfl; exact h.named hr'
    refine ⟨([], r'), List.mem_map_of_mem hr', .inr ⟨h.noIdent .., h.noIdent .., hne, rfl⟩⟩)
  rwa [List.length_map] at this

/-- A directory "r" holding a link "l" back to "r". -/
def loop : World where
  lstat := fun p => if p = ['r'] then some .dir else some .link
  stat := fun _ => some .dir
  resolve := fun _ b => if b = 0 then none else some (['r'], 1)
  listing := fun _ => ([['l']], true)
  ident := fun _ _ => none

example : FiniteReal loop ['r'] [['r']] := by
  refine ⟨fun _ _ => rfl, by decide, fun _ => by decide, by decide, ?_, ?_⟩
  · intro p r d hr hd hl
    simp [loop] at hd
    subst hd
    exfalso
    simp only [loop] at hl
    split at hl
    · rename_i h
      -- a path ending in "l" is not "r"
      have : comps (join2 p ['l']) = [['r']] := by rw [h]; decide
      have hn : IsName ['l'] := by decide
      by_cases hp : p = []
      · subst hp; simp [join2] at h; revert h; decide
      · rw [join2_name hp hn] at h
        have h2 := congrArg base h
        rw [base_render hn.1] at h2
        revert h2; decide
    · cases hl
  · intro p r b r' n hs hr
    simp [loop] at hr
    simp [hr.2.1]

/-- The link is followed once: "r/l" is reported as the directory "r" and not entered again. -/
example : walkDir loop true (fun _ _ => .ok) 3 ['r'] = some ([.visit ⟨['r'], ['r'], some .dir, false⟩, .enter ['r'] ['r'],
    .visit ⟨['r', '/', 'l'], ['r'], some .dir, false⟩, .leave], .ok) := by decide +kernel

end Verif.Vroot.Walk
