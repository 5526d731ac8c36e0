import Verif.Afero.RemoveProps
/-
C89: what Rename of the afero filesystem does.
-/
namespace Verif.Afero
open Verif.Path

/-! ### a name below another -/

theorem join_grow : ∀ (r xs : List Str), xs ≠ [] → ∃ t, join (xs ++ r) ++ [slash] = join xs ++ [slash] ++ t
  | [], xs, _ => ⟨[], by simp⟩
  | y :: r, xs, h => by
    obtain ⟨t, ht⟩ := join_grow r (xs ++ [y]) (by simp)
    refine ⟨y ++ [slash] ++ t, ?_⟩
    have he : xs ++ y :: r = xs ++ [y] ++ r := by simp
    rw [he, ht, join_concat h]
    simp

theorem split_slash : ∀ (cs : List Str) (s : Str), cs ≠ [] → (∀ c ∈ cs, slash ∉ c) → split (join cs ++ slash :: s) = cs ++ split s
  | [], s, h, _ => absurd rfl h
  | [x], s, _, hc => by
    show split (x ++ slash :: s) = _
    rw [split_append_slash (hc x (by simp))]; rfl
  | x :: y :: cs, s, _, hc => by
    show split ((x ++ slash :: join (y :: cs)) ++ slash :: s) = _
    rw [List.append_assoc, List.cons_append, split_append_slash (hc x (by simp)), split_slash (y :: cs) s (by simp) (fun c h => hc c (by simp [h]))]
    rfl

/-- The test of Rename: the new name is the old one or below it. -/
theorem below_iff {a b : Str} (ha : a ≠ dot) (hb : b ≠ dot) : hasPrefix (b ++ [slash]) (a ++ [slash]) = true ↔ place a <+: place b := by
  have hpa : place a = split a := if_neg ha
  have hpb : place b = split b := if_neg hb
  rw [hpa, hpb]
  unfold hasPrefix
  rw [List.isPrefixOf_iff_prefix]
  constructor
  · rintro ⟨t, ht⟩
    have h1 : split (b ++ [slash]) = split b ++ [[]] := by
      have := split_slash (split b) [] (split_ne_nil b) (split_no_slash b)
      rw [join_split] at this
      exact this
    have h2 : split (a ++ [slash] ++ t) = split a ++ split t := by
      have := split_slash (split a) t (split_ne_nil a) (split_no_slash a)
      rw [join_split] at this
      rw [List.append_assoc]; exact this
    rw [← ht, h2] at h1
    have hl := congrArg List.length h1
    have ht' : (split t).length ≠ 0 := by
      intro h; exact split_ne_nil t (List.length_eq_zero_iff.1 h)
    simp only [List.length_append, List.length_singleton] at hl
    have hle : (split a).length ≤ (split b).length := by omega
    have := congrArg (List.take (split a).length) h1
    rw [List.take_left' rfl, List.take_append_of_le_length hle] at this
    rw [this]
    exact List.take_prefix _ _
  · rintro ⟨r, hr⟩
    obtain ⟨t, ht⟩ := join_grow r (split a) (split_ne_nil a)
    rw [hr, join_split, join_split] at ht
    exact ⟨t, ht.symm⟩

/-! ### C89 -/

/-- What may be at the new name. -/
def Fits (old : Node) : Option Node → Prop
  | none => True
  | some (.file _ _) => old.isDir = false
  | some (.dir _ es) => old.isDir = true ∧ es.names = []

theorem mayReplace_none {old : Node} {o : Option Node} : mayReplace old o = none ↔ Fits old o := by
  rcases o with _ | ⟨m, v⟩ | ⟨m, _ | ⟨a, n, rest⟩⟩ <;> cases old <;> simp [mayReplace, Fits, Node.isDir, Node.empty, Ents.names]

/-- The question that moving an entry asks. -/
def moving (newname : Str) : Info → List Ask
  | .file _ v => [.rename v newname]
  | .dir _ => []

/-- What Rename has done when the tree before and after are these: everything that was at the old name is now in the directory of the new name, under
the last element of the OLD name; whatever was there before is gone, and nothing is at the old name unless it is there. -/
def Lands (before after : Node) (oldname newname : Str) : Prop :=
  let t := place (dir newname) ++ [base oldname]
  (∀ r, after.shows (t ++ r) = before.shows (place oldname ++ r)) ∧
  (∀ q, ¬ t <+: q → place oldname <+: q → after.shows q = none) ∧
  (∀ q, ¬ t <+: q → ¬ place oldname <+: q → after.shows q = before.shows q)

theorem findDirent_eq {e : Env} {root : Node} {name : Str} (hv : validate e name = none) (hd : name ≠ dot) {m : Nat} {es : Ents}
    (hw : walk root (place (dir name)) = .ok (.dir m es)) (hm : mayWrite m = true) (hs : maySearch m = true) :
    findDirent e root name = .ok (place (dir name), es.find (base name)) := by
  unfold findDirent
  rw [findParent_eq hv hd, hw]
  have hb : base name ≠ dot := fun hb => hd ((base_dot hv).1 hb)
  simp [hs, Node.mode, hasPerm_write, hm, if_neg hb, Node.lookup]

/-- The moving itself. -/
theorem move_lands {root : Node} {oldname newname : Str} {m mn : Nat} {es en : Ents} {old : Node}
    (ho : root.at (place (dir oldname)) = some (.dir m es)) (hf : es.find (base oldname) = some old)
    (hpo : place oldname = place (dir oldname) ++ [base oldname]) (hpn : place newname = place (dir newname) ++ [base newname])
    (hn : root.at (place (dir newname)) = some (.dir mn en)) (hnb : ¬ place oldname <+: place newname) :
    Lands root ((root.modify (place (dir oldname)) (Node.removeName (base oldname))).modify (place (dir newname)) (Node.add (base oldname) old)) oldname newname := by
  have hnd : ¬ place oldname <+: place (dir newname) := fun h => hnb (h.trans ⟨[base newname], hpn.symm⟩)
  obtain ⟨h1, h2⟩ := remove_shows ho (base oldname)
  rw [← hpo] at h1 h2
  -- the directory of the new name is still there
  have hn1 : ∃ mn' en', (root.modify (place (dir oldname)) (Node.removeName (base oldname))).at (place (dir newname)) = some (.dir mn' en') := by
    have := h2 _ hnd
    rw [shows_eq, shows_eq, hn] at this
    cases hx : (root.modify (place (dir oldname)) (Node.removeName (base oldname))).at (place (dir newname)) with
    | none => rw [hx] at this; cases this
    | some k =>
      rw [hx] at this
      cases k with
      | file _ _ => cases this
      | dir a b => exact ⟨a, b, rfl⟩
  obtain ⟨mn', en', hn1⟩ := hn1
  obtain ⟨h3, h4⟩ := add_shows hn1 (base oldname) old
  have hold : root.at (place oldname) = some old := by
    rw [hpo, Node.at_snoc, ho]; exact hf
  refine ⟨fun r => ?_, fun q hq hp => ?_, fun q hq hp => ?_⟩
  · rw [h3, Node.shows_append hold]
  · rw [h4 q hq]
    obtain ⟨r, rfl⟩ := hp
    exact h1 r
  · rw [h4 q hq, h2 q hp]

/-- **C89**: when Rename succeeds, and what it does then. -/
theorem C89_succeeds_partial (e : Env) (S : St) (oldname newname : Str) (hg : GoodName e.utf8 oldname) (hg' : GoodName e.utf8 newname)
    (hd : oldname ≠ dot) (hd' : newname ≠ dot) (hnb : ¬ place oldname <+: place newname)
    {m mn : Nat} {es en : Ents} {old : Node}
    (hw : walk S.root (place (dir oldname)) = .ok (.dir m es)) (hm : mayWrite m = true) (hs : maySearch m = true)
    (hw' : walk S.root (place (dir newname)) = .ok (.dir mn en)) (hm' : mayWrite mn = true) (hs' : maySearch mn = true)
    (hf : es.find (base oldname) = some old) (hold : old.isDir = true → mayWrite old.mode = true) (hfit : Fits old (en.find (base newname))) :
    ∃ S', rename e S oldname newname = (S', .ok ()) ∧ S'.asked = S.asked ++ moving newname old.info ∧ S'.next = S.next ∧
      Lands S.root S'.root oldname newname := by
  have hv := (C86_valid e _).2 hg
  have hv' := (C86_valid e _).2 hg'
  have hne : oldname ≠ newname := by rintro rfl; exact hnb (List.prefix_refl _)
  have hpre : ¬ hasPrefix (newname ++ [slash]) (oldname ++ [slash]) = true := fun h => hnb ((below_iff hd hd').1 h)
  have hl := move_lands (walk_at _ _ _ hw) hf (place_dir hv hd) (place_dir hv' hd') (walk_at _ _ _ hw') hnb
  have hdo : ¬ (oldname = dot ∨ newname = dot) := fun h => h.elim hd hd'
  unfold rename
  rw [hv, hv']
  simp only [if_neg hne, if_neg hdo, if_neg hpre]
  rw [findDirent_eq hv hd hw hm hs, hf]
  simp only
  rw [findDirent_eq hv' hd' hw' hm' hs']
  simp only
  have hp : (old.isDir && !hasPerm old.mode 2) = false := by
    rw [hasPerm_write]
    cases h : old.isDir with
    | false => rfl
    | true => simp [hold h]
  rw [hp]
  simp only [Bool.false_eq_true, if_false]
  rw [mayReplace_none.2 hfit]
  cases old with
  | file mo v => exact ⟨_, rfl, rfl, rfl, hl⟩
  | dir mo eo => exact ⟨_, rfl, (List.append_nil _).symm, rfl, hl⟩

/-- **C89**: a Rename that fails changes nothing. -/
theorem C89_fails (e : Env) (S S' : St) (oldname newname : Str) (er : Err) (h : rename e S oldname newname = (S', .error er)) : S' = S := by
  unfold rename at h
  repeat' split at h
  all_goals first
    | (cases h; rfl)
    | (simp only [Prod.mk.injEq, reduceCtorEq, and_false] at h)

/-- **C89**: a name cannot be moved below itself; the root is not moved or replaced; to move a name to itself does nothing. -/
theorem C89_into_itself (e : Env) (S : St) (oldname newname : Str) (hg : GoodName e.utf8 oldname) (hg' : GoodName e.utf8 newname) :
    (oldname = newname → rename e S oldname newname = (S, .ok ())) ∧
    (oldname ≠ newname → (oldname = dot ∨ newname = dot) → rename e S oldname newname = (S, .error .busy)) ∧
    (oldname ≠ newname → oldname ≠ dot → newname ≠ dot → place oldname <+: place newname → rename e S oldname newname = (S, .error .inval)) := by
  have hv := (C86_valid e _).2 hg
  have hv' := (C86_valid e _).2 hg'
  unfold rename
  rw [hv, hv']
  refine ⟨fun h => by simp [h], fun h hd => by simp [h, hd], fun h h1 h2 hp => ?_⟩
  have := (below_iff h1 h2).2 hp
  simp [h, h1, h2, this]

/-- **C89**: whenever Rename succeeds on two different names, this is what it has done. -/
theorem C89_lands (e : Env) (S S' : St) (oldname newname : Str) (hne : oldname ≠ newname) (h : rename e S oldname newname = (S', .ok ())) :
    ∃ old, S.root.at (place oldname) = some old ∧ S'.asked = S.asked ++ moving newname old.info ∧ S'.next = S.next ∧ Lands S.root S'.root oldname newname := by
  unfold rename at h
  cases hv : validate e oldname with
  | some er => rw [hv] at h; cases h
  | none =>
    cases hv' : validate e newname with
    | some er => rw [hv, hv'] at h; cases h
    | none =>
      rw [hv, hv'] at h
      simp only [if_neg hne] at h
      split at h
      · cases h
      · rename_i hdo
        have hd : oldname ≠ dot := fun h => hdo (Or.inl h)
        have hd' : newname ≠ dot := fun h => hdo (Or.inr h)
        split at h
        · cases h
        · rename_i hpre
          have hnb : ¬ place oldname <+: place newname := fun hp => hpre ((below_iff hd hd').2 hp)
          cases ho : findDirent e S.root oldname with
          | error er => rw [ho] at h; cases h
          | ok r =>
            obtain ⟨oloc, _ | old⟩ := r
            · rw [ho] at h; cases h
            · rw [ho] at h
              simp only at h
              cases hn : findDirent e S.root newname with
              | error er => rw [hn] at h; cases h
              | ok r =>
                obtain ⟨nloc, new⟩ := r
                rw [hn] at h
                simp only at h
                split at h
                · cases h
                · split at h
                  · cases h
                  · obtain ⟨_, _, hpo, _, m, es, hao, _, _, hfo⟩ := findDirent_ok ho
                    obtain ⟨_, _, hpn, _, mn, en, han, _, _, _⟩ := findDirent_ok hn
                    have e1 : oloc = place (dir oldname) := by
                      have := place_dir hv hd
                      rw [hpo] at this
                      exact (List.append_inj' this rfl).1
                    have e2 : nloc = place (dir newname) := by
                      have := place_dir hv' hd'
                      rw [hpn] at this
                      exact (List.append_inj' this rfl).1
                    subst e1 e2
                    have hl := move_lands hao hfo hpo hpn han hnb
                    refine ⟨old, by rw [hpo, Node.at_snoc, hao]; exact hfo, ?_⟩
                    cases old with
                    | file mo v => cases h; exact ⟨rfl, rfl, hl⟩
                    | dir mo eo => cases h; exact ⟨(List.append_nil _).symm, rfl, hl⟩

/-- **C89**: if the last elements of the two names are the same, Rename moves: everything of the old name is at the new one, nothing is at the old name,
and all else is as it was. -/
theorem C89_same_base_partial (e : Env) (S S' : St) (oldname newname : Str) (hne : oldname ≠ newname) (hb : base oldname = base newname)
    (h : rename e S oldname newname = (S', .ok ())) :
    (∀ r, S'.root.shows (place newname ++ r) = S.root.shows (place oldname ++ r)) ∧
    (∀ q, ¬ place newname <+: q → place oldname <+: q → S'.root.shows q = none) ∧
    (∀ q, ¬ place newname <+: q → ¬ place oldname <+: q → S'.root.shows q = S.root.shows q) := by
  obtain ⟨old, _, _, _, hl⟩ := C89_lands e S S' oldname newname hne h
  have hpn : place newname = place (dir newname) ++ [base oldname] := by
    have hv' : validate e newname = none := by
      unfold rename at h
      cases hv : validate e oldname with
      | some er => rw [hv] at h; cases h
      | none =>
        cases hv' : validate e newname with
        | some er => rw [hv, hv'] at h; cases h
        | none => rfl
    have hd' : newname ≠ dot := by
      rintro rfl
      unfold rename at h
      cases hv : validate e oldname with
      | some er => rw [hv] at h; cases h
      | none =>
        rw [hv, hv'] at h
        simp only [if_neg hne, or_true, if_true] at h
        cases h
    rw [hb]
    exact place_dir hv' hd'
  rw [hpn]
  exact hl

/-! ### examples -/

/-- Two directories a and b, a/x (view 1) and b/x (view 2). -/
def exTwo : St := ⟨.dir 511 (.cons "a".toList (.dir 0o755 (.cons "x".toList (.file 0o644 1) .nil))
  (.cons "b".toList (.dir 0o755 (.cons "x".toList (.file 0o600 2) .nil)) (.cons "c".toList (.dir 0o755 .nil) .nil))), [], 3⟩

/- C89_succeeds_partial and C89_same_base_partial: a/x can be moved to c/x. -/
example : ∃ S', rename ex exTwo "a/x".toList "c/x".toList = (S', .ok ()) ∧ S'.root.shows ["c".toList, "x".toList] = some (.file 0o644 1) ∧
    S'.root.shows ["a".toList, "x".toList] = none ∧ base "a/x".toList = base "c/x".toList := ⟨_, rfl, by decide, by decide, by decide⟩
example : ∃ m es mn en old, walk exTwo.root (place (dir "a/x".toList)) = .ok (.dir m es) ∧ mayWrite m = true ∧ maySearch m = true ∧
    walk exTwo.root (place (dir "c/x".toList)) = .ok (.dir mn en) ∧ mayWrite mn = true ∧ maySearch mn = true ∧ es.find (base "a/x".toList) = some old ∧
    (old.isDir = true → mayWrite old.mode = true) ∧ Fits old (en.find (base "c/x".toList)) ∧ ¬ place "a/x".toList <+: place "c/x".toList :=
  ⟨_, _, _, _, _, rfl, by decide, by decide, rfl, by decide, by decide, rfl, by decide, trivial, by decide⟩

/-- Rename(a/x, a/y) succeeds, a/y is not there and a/x still is. -/
theorem C89_counterexample_name : ∃ S', rename ex exTwo "a/x".toList "a/y".toList = (S', .ok ()) ∧ S'.root.shows ["a".toList, "y".toList] = none ∧
    S'.root.shows ["a".toList, "x".toList] = some (.file 0o644 1) := ⟨_, rfl, by decide, by decide⟩

/-- Rename(a/x, b/y) succeeds, and b/x, which neither name is, has been replaced; its view has not been told. -/
theorem C89_counterexample_other : ∃ S', rename ex exTwo "a/x".toList "b/y".toList = (S', .ok ()) ∧ S'.root.shows ["b".toList, "y".toList] = none ∧
    S'.root.shows ["b".toList, "x".toList] = some (.file 0o644 1) ∧ Ask.close 2 ∉ S'.asked := ⟨_, rfl, by decide, by decide, by decide⟩

/-- A directory x with the files x/x and x/keep: Rename(x/x, y) succeeds, and the directory is gone with all that was in it. -/
theorem C89_counterexample_dir :
    let S : St := ⟨.dir 511 (.cons "x".toList (.dir 0o755 (.cons "x".toList (.file 0o644 1) (.cons "keep".toList (.file 0o644 2) .nil))) .nil), [], 3⟩
    ∃ S', rename ex S "x/x".toList "y".toList = (S', .ok ()) ∧ S'.root.shows ["x".toList] = some (.file 0o644 1) ∧
      S'.root.shows ["x".toList, "keep".toList] = none ∧ S'.root.shows ["y".toList] = none := ⟨_, rfl, by decide, by decide, by decide⟩

end Verif.Afero
