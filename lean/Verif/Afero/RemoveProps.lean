import Verif.Afero.Inv
/-
C88: what Remove and RemoveAll take away. C89: what Rename does.
-/
namespace Verif.Afero
open Verif.Path

/-! ### the directory of a name -/

theorem descend_eq : ∀ (D : List Str) (x : Str) (m : Nat) (es : Ents), maySearch m = true →
    descend (.dir m es) (D ++ [x]) = match walk (.dir m es) D with
      | .error er => .error er
      | .ok n => searchable (some n)
  | [], x, m, es, hm => by simp only [List.nil_append, descend, walk, searchable_some, hm, if_true]
  | c :: D, x, m, es, hm => by
    have hdesc : descend (.dir m es) (c :: D ++ [x]) = match searchable (es.find c) with
        | .error er => .error er
        | .ok k => descend k (D ++ [x]) := by
      cases D <;> rfl
    rw [hdesc]
    simp only [walk, hm, Bool.not_true, Bool.false_eq_true, if_false]
    rcases hf : es.find c with _ | ⟨m', v⟩ | ⟨m', es'⟩
    · rfl
    · cases D <;> rfl
    · rw [searchable_some]
      simp only
      by_cases hm' : maySearch m' = true
      · rw [if_pos hm']
        exact descend_eq D x m' es' hm'
      · rw [if_neg hm']
        have hm' : maySearch m' = false := by simpa using hm'
        cases D with
        | nil => simp [walk, searchable_some, hm']
        | cons d D => simp [walk, hm']

/-- `findParent` walks to the parent and wants to search it. -/
theorem findParent_eq {e : Env} {root : Node} {name : Str} (hv : validate e name = none) (hd : name ≠ dot) :
    findParent e root name = match walk root (place (dir name)) with
      | .error er => .error er
      | .ok (.file _ _) => .error .notDir
      | .ok (.dir m es) => if maySearch m then .ok (place (dir name), .dir m es) else .error .acces := by
  have hp := place_dir hv hd
  have hps : place name = split name := if_neg hd
  have hs : split name = place (dir name) ++ [base name] := by rw [← hps, hp]
  unfold findParent
  rw [hv, hs]
  simp only [if_neg hd, List.dropLast_concat]
  rw [searchable_some]
  cases root with
  | file m v => cases place (dir name) <;> rfl
  | dir m es =>
    simp only
    by_cases hm : maySearch m = true
    · rw [if_pos hm]
      simp only
      rw [descend_eq _ _ m es hm]
      cases walk (.dir m es) (place (dir name)) with
      | error er => rfl
      | ok n =>
        simp only
        rw [searchable_some]
        cases n with
        | file _ _ => rfl
        | dir m' es' =>
          simp only
          by_cases hm' : maySearch m' = true
          · simp [hm']
          · simp [hm']
    · rw [if_neg hm]
      have hm : maySearch m = false := by simpa using hm
      cases place (dir name) <;> simp [walk, hm]

/-! ### C88: Remove -/

/-- The question that removing an entry asks. -/
def closing : Info → List Ask
  | .file _ v => [.close v]
  | .dir _ => []

/-- **C88**: Remove takes away exactly the file or empty directory of that name, if its directory can be walked to and may be written and searched. The
view of a file is told once; its error is returned, and the file is gone all the same. -/
theorem C88_remove (e : Env) (S : St) (name : Str) (h : GoodName e.utf8 name) (hd : name ≠ dot) {m : Nat} {es : Ents} {k : Node}
    (hw : walk S.root (place (dir name)) = .ok (.dir m es)) (hm : mayWrite m = true) (hs : maySearch m = true)
    (hk : es.find (base name) = some k) (hemp : ∀ x, k.shows [x] = none) :
    ∃ S', remove e S name = (S', match k with
        | .dir _ _ => .ok ()
        | .file _ _ => match e.answer S.asked.length with | none => .ok () | some er => .error (.closedWith er)) ∧
      S'.asked = S.asked ++ closing k.info ∧ S'.next = S.next ∧
      (∀ q, S'.root.shows (place name ++ q) = none) ∧ (∀ q, ¬ place name <+: q → S'.root.shows q = S.root.shows q) := by
  have hv := (C86_valid e name).2 h
  have hb : base name ≠ dot := fun hb => hd ((base_dot hv).1 hb)
  have ha := walk_at _ _ _ hw
  have hr := remove_shows ha (base name)
  rw [← place_dir hv hd] at hr
  unfold remove
  rw [findParent_eq hv hd, hw]
  simp only [hs, if_true]
  unfold removeFromParent
  simp only [if_neg hb, Node.mode, hasPerm_change, hm, hs, Bool.and_self, Bool.not_true, Bool.false_eq_true, if_false, Node.lookup, hk]
  rcases k with ⟨mk, v⟩ | ⟨mk, _ | ⟨a, n, rest⟩⟩
  · simp only [Node.empty, Bool.not_true, Bool.false_eq_true, if_false, ask]
    cases e.answer S.asked.length with
    | none => exact ⟨_, rfl, rfl, rfl, hr.1, hr.2⟩
    | some er => exact ⟨_, rfl, rfl, rfl, hr.1, hr.2⟩
  · simp only [Node.empty, Bool.not_true, Bool.false_eq_true, if_false]
    exact ⟨_, rfl, (List.append_nil _).symm, rfl, hr.1, hr.2⟩
  · have := hemp a
    simp [Node.shows, Node.at, Ents.find] at this

/-- **C88**: any other Remove changes nothing and says why. -/
theorem C88_remove_fails (e : Env) (S : St) (name : Str) (h : GoodName e.utf8 name) :
    (name = dot → remove e S name = (S, .error .perm)) ∧
    (name ≠ dot → 
      (∀ er, walk S.root (place (dir name)) = .error er → remove e S name = (S, .error er)) ∧
      (∀ m v, walk S.root (place (dir name)) = .ok (.file m v) → remove e S name = (S, .error .notDir)) ∧
      (∀ m es, walk S.root (place (dir name)) = .ok (.dir m es) → (mayWrite m && maySearch m) = false → remove e S name = (S, .error .acces)) ∧
      (∀ m es, walk S.root (place (dir name)) = .ok (.dir m es) → mayWrite m = true → maySearch m = true →
        (base name ∉ es.names → remove e S name = (S, .error .noent)) ∧
        (∀ mk ek, es.find (base name) = some (.dir mk ek) → ek.names ≠ [] → remove e S name = (S, .error .notEmpty)))) := by
  have hv := (C86_valid e name).2 h
  refine ⟨?_, fun hd => ?_⟩
  · rintro rfl
    unfold remove findParent removeFromParent
    rw [hv]
    simp only [if_true]
    rw [if_pos (show base dot = dot by decide)]
  · have hb : base name ≠ dot := fun hb => hd ((base_dot hv).1 hb)
    unfold remove
    rw [findParent_eq hv hd]
    refine ⟨fun er hw => by rw [hw], fun m v hw => by rw [hw], fun m es hw hp => ?_, fun m es hw hm hs => ⟨fun hx => ?_, fun mk ek hk hek => ?_⟩⟩
    · rw [hw]
      simp only
      by_cases hs : maySearch m = true
      · rw [if_pos hs]
        unfold removeFromParent
        simp [if_neg hb, Node.mode, hasPerm_change, hp]
      · rw [if_neg hs]
    · rw [hw]
      have hf : es.find (base name) = none := by
        rw [Ents.mem_names] at hx
        exact Classical.byContradiction hx
      unfold removeFromParent
      simp [hs, if_neg hb, Node.mode, hasPerm_change, hm, Node.lookup, hf]
    · rw [hw]
      unfold removeFromParent
      cases ek with
      | nil => exact absurd rfl hek
      | cons a n rest => simp [hs, if_neg hb, Node.mode, hasPerm_change, hm, Node.lookup, hk, Node.empty]

/-! ### C88: RemoveAll -/

/-- A directory in which there is something. -/
def Full (n : Node) (mode : Nat) : Prop := ∃ es, n = .dir mode es ∧ es.names ≠ []

mutual
/-- Nothing appears. -/
theorem Node.prune_less (w : Bool) : ∀ (n k : Node), n.WF → (n.prune w).1 = some k → k.info = n.info ∧ ∀ q i, k.shows q = some i → n.shows q = some i
  | .file m v, k, hw, h => by
    simp only [Node.prune] at h
    split at h <;> cases h
    exact ⟨rfl, fun _ _ h => h⟩
  | .dir m .nil, k, hw, h => by
    simp only [Node.prune] at h
    split at h <;> cases h
    exact ⟨rfl, fun _ _ h => h⟩
  | .dir m (.cons a n rest), k, hw, h => by
    simp only [Node.prune] at h
    split at h
    · cases h; exact ⟨rfl, fun _ _ h => h⟩
    · cases h
      refine ⟨rfl, fun q i hq => ?_⟩
      cases q with
      | nil => exact hq
      | cons c q =>
        simp only [Node.WF] at hw
        simp only [Node.shows, Node.at] at hq ⊢
        cases hf : ((Ents.cons a n rest).prune (hasPerm m 3)).1.find c with
        | none => rw [hf] at hq; cases hq
        | some x =>
          rw [hf] at hq
          obtain ⟨y, hy, hxy⟩ := Ents.prune_less _ (.cons a n rest) hw c x hf
          rw [hy]
          exact hxy q i hq
theorem Ents.prune_less (w : Bool) : ∀ (es : Ents), es.WF → ∀ c x, (es.prune w).1.find c = some x → ∃ y, es.find c = some y ∧ ∀ q i, x.shows q = some i → y.shows q = some i
  | .nil, _, c, x, h => by simp [Ents.prune, Ents.find] at h
  | .cons a n rest, hw, c, x, h => by
    simp only [Ents.WF] at hw
    have h1 := Node.prune_less w n
    have h2 := Ents.prune_less w rest hw.2.2 c
    have h3 := Ents.prune_none w rest a hw.1
    simp only [Ents.prune] at h
    simp only [Ents.find]
    rcases hp : n.prune w with ⟨left, vs, _ | er⟩
    · rw [hp] at h
      simp only at h
      cases left with
      | none =>
        simp only at h
        by_cases hac : a = c
        · subst hac; rw [h3] at h; cases h
        · rw [if_neg hac]; exact h2 x h
      | some k =>
        simp only [Ents.find] at h
        by_cases hac : a = c
        · rw [if_pos hac] at h ⊢
          cases h
          exact ⟨n, rfl, (h1 _ hw.2.1 (by rw [hp])).2⟩
        · rw [if_neg hac] at h ⊢
          exact h2 x h
    · rw [hp] at h
      simp only at h
      cases left with
      | none =>
        simp only at h
        by_cases hac : a = c
        · subst hac; rw [hw.1] at h; cases h
        · rw [if_neg hac]; exact ⟨x, h, fun _ _ h => h⟩
      | some k =>
        simp only [Ents.find] at h
        by_cases hac : a = c
        · rw [if_pos hac] at h ⊢
          cases h
          exact ⟨n, rfl, (h1 _ hw.2.1 (by rw [hp])).2⟩
        · rw [if_neg hac] at h ⊢
          exact ⟨x, h, fun _ _ h => h⟩
end

mutual
/-- Without an error exactly the directories in which there was something are left. -/
theorem Node.prune_exact (w : Bool) : ∀ (n : Node), n.WF → (n.prune w).2.2 = none →
    match (n.prune w).1 with
    | none => ∀ q md k, n.at q = some k → ¬ Full k md
    | some x => ∀ q i, x.shows q = some i ↔ ∃ md k, i = .dir md ∧ n.at q = some k ∧ Full k md
  | .file m v, hw, h => by
    cases w with
    | false => simp [Node.prune] at h
    | true =>
      simp only [Node.prune, Bool.not_true, Bool.false_eq_true, if_false]
      intro q md k hq hfull
      cases q with
      | nil => cases hq; obtain ⟨es, h, _⟩ := hfull; cases h
      | cons _ _ => cases hq
  | .dir m .nil, hw, h => by
    cases w with
    | false => simp [Node.prune] at h
    | true =>
      simp only [Node.prune, Bool.not_true, Bool.false_eq_true, if_false]
      intro q md k hq hfull
      cases q with
      | nil => cases hq; obtain ⟨es, h, hne⟩ := hfull; cases h; exact hne rfl
      | cons _ _ => simp [Node.at, Ents.find] at hq
  | .dir m (.cons a n rest), hw, h => by
    cases w with
    | false => simp [Node.prune] at h
    | true =>
      simp only [Node.prune, Bool.not_true, Bool.false_eq_true, if_false] at h ⊢
      simp only [Node.WF] at hw
      have := Ents.prune_exact (hasPerm m 3) (.cons a n rest) hw h
      intro q i
      cases q with
      | nil =>
        simp only [Node.shows, Node.at, Option.map_some, Node.info]
        constructor
        · intro hi
          cases hi
          exact ⟨m, _, rfl, rfl, _, rfl, by simp [Ents.names]⟩
        · rintro ⟨md, k, rfl, hk, es, rfl, _⟩
          cases hk; rfl
      | cons c q =>
        have hc := this c
        simp only [Node.shows, Node.at]
        cases hf : ((Ents.cons a n rest).prune (hasPerm m 3)).1.find c with
        | none =>
          rw [hf] at hc
          simp only [Option.map_none, reduceCtorEq, false_iff]
          rintro ⟨md, k, rfl, hk, hfull⟩
          cases hfn : (Ents.cons a n rest).find c with
          | none => rw [hfn] at hk; cases hk
          | some y =>
            rw [hfn] at hk
            exact hc y hfn q md k hk hfull
        | some x =>
          rw [hf] at hc
          obtain ⟨y, hy, hxy⟩ := hc
          rw [hy]
          exact hxy q i
theorem Ents.prune_exact (w : Bool) : ∀ (es : Ents), es.WF → (es.prune w).2.2 = none → ∀ c,
    match (es.prune w).1.find c with
    | none => ∀ y, es.find c = some y → ∀ q md k, y.at q = some k → ¬ Full k md
    | some x => ∃ y, es.find c = some y ∧ ∀ q i, x.shows q = some i ↔ ∃ md k, i = .dir md ∧ y.at q = some k ∧ Full k md
  | .nil, _, _, c => by simp [Ents.prune, Ents.find]
  | .cons a n rest, hw, h, c => by
    simp only [Ents.WF] at hw
    have h1 := Node.prune_exact w n hw.2.1
    have h3 := Ents.prune_none w rest a hw.1
    simp only [Ents.prune] at h ⊢
    rcases hp : n.prune w with ⟨left, vs, _ | er⟩
    · rw [hp] at h h1
      simp only at h h1 ⊢
      have h1 := h1 trivial
      have h2 := Ents.prune_exact w rest hw.2.2 h c
      cases left with
      | none =>
        simp only at h1 ⊢
        by_cases hac : a = c
        · subst hac
          rw [h3]
          simp only [Ents.find, if_true]
          intro y hy
          cases hy
          exact h1
        · simp only [Ents.find, if_neg hac]
          exact h2
      | some k =>
        simp only at h1 ⊢
        simp only [Ents.find]
        by_cases hac : a = c
        · rw [if_pos hac, if_pos hac]
          exact ⟨n, rfl, h1⟩
        · rw [if_neg hac, if_neg hac]
          exact h2
    · rw [hp] at h
      cases h
end

theorem walk_noent : ∀ (p : List Str) (n : Node), walk n p = .error .noent → n.at p = none
  | [], n, h => by cases h
  | c :: p, .file _ _, h => rfl
  | c :: p, .dir m es, h => by
    simp only [walk] at h
    split at h
    · cases h
    · simp only [Node.at]
      cases hf : es.find c with
      | none => rfl
      | some k => rw [hf] at h; exact walk_noent p k h

theorem walk_not_view : ∀ (p : List Str) (n : Node) (er : Err), walk n p = .error er → er = .noent ∨ er = .notDir ∨ er = .acces
  | [], n, er, h => by cases h
  | c :: p, .file _ _, er, h => by cases h; simp
  | c :: p, .dir m es, er, h => by
    simp only [walk] at h
    split at h
    · cases h; simp
    · cases hf : es.find c with
      | none => rw [hf] at h; cases h; simp
      | some k => rw [hf] at h; exact walk_not_view p k er h

/-- Replacing an entry. -/
theorem replace_shows {root : Node} {D : List Str} {m : Nat} {es : Ents} (h : root.at D = some (.dir m es)) {b : Str} {o : Node} (ho : es.find b = some o) (k : Node) :
    (∀ q, (root.modify D (Node.modify [b] (fun _ => k))).shows (D ++ [b] ++ q) = k.shows q) ∧
    (∀ q, ¬ D ++ [b] <+: q → (root.modify D (Node.modify [b] (fun _ => k))).shows q = root.shows q) := by
  constructor
  · intro q
    rw [List.append_assoc]
    refine (Node.modify_shows h _).trans ?_
    simp [Node.modify, Node.shows, Node.at, Ents.find_update, ho]
  · intro q hq
    by_cases hp : D <+: q
    · obtain ⟨r, rfl⟩ := hp
      refine (Node.modify_shows h r).trans ?_
      rw [Node.shows_append h]
      cases r with
      | nil => rfl
      | cons c r =>
        have hc : c ≠ b := by
          rintro rfl
          exact hq ⟨r, by simp⟩
        simp only [Node.modify, Node.shows, Node.at, Ents.find_update, if_neg hc]
    · exact Node.modify_other _ _ _ _ hp

/-- All that RemoveAll does. -/
theorem removeAll_spec (e : Env) (S S' : St) (name : Str) (res : Except Err Unit) (hS : S.OK) (h : GoodName e.utf8 name) (hd : name ≠ dot)
    (hr : removeAll e S name = (S', res)) :
    (∀ q, ¬ place name <+: q → S'.root.shows q = S.root.shows q) ∧
    (∀ q i, S'.root.shows q = some i → S.root.shows q = some i) ∧
    (res = .ok () → ∀ r i, S'.root.shows (place name ++ r) = some i ↔ ∃ md k, i = .dir md ∧ S.root.at (place name ++ r) = some k ∧ Full k md) := by
  have hv := (C86_valid e name).2 h
  have hb : base name ≠ dot := fun hb => hd ((base_dot hv).1 hb)
  have hpl := place_dir hv hd
  have same : S.root.at (place name) = none → (∀ r i, S.root.shows (place name ++ r) = some i ↔ ∃ md k, i = .dir md ∧ S.root.at (place name ++ r) = some k ∧ Full k md) := by
    intro hn r i
    simp [Node.shows, Node.at_append, hn]
  unfold removeAll at hr
  rw [hv] at hr
  simp only [if_neg hd] at hr
  have hfail := (C88_remove_fails e S name h).2 hd
  cases hw : walk S.root (place (dir name)) with
  | error er =>
    rw [hfail.1 er hw] at hr
    simp only at hr
    split at hr
    · rename_i hne
      cases hr
      refine ⟨fun _ _ => rfl, fun _ _ h => h, fun _ => same ?_⟩
      have : er = .noent := by
        rcases walk_not_view _ _ _ hw with h | h | h
        · exact h
        · subst h; cases hne
        · subst h; cases hne
      subst this
      rw [hpl, Node.at_append, walk_noent _ _ hw]; rfl
    · rw [findParent_eq hv hd, hw] at hr
      cases hr
      exact ⟨fun _ _ => rfl, fun _ _ h => h, fun h => by cases h⟩
  | ok n =>
    have ha := walk_at _ _ _ hw
    cases n with
    | file m v =>
      rw [hfail.2.1 m v hw] at hr
      simp only [Err.isNotExist, Bool.false_eq_true, if_false] at hr
      rw [findParent_eq hv hd, hw] at hr
      cases hr
      exact ⟨fun _ _ => rfl, fun _ _ h => h, fun h => by cases h⟩
    | dir m es =>
      by_cases hp : (mayWrite m && maySearch m) = false
      · rw [hfail.2.2.1 m es hw hp] at hr
        simp only [Err.isNotExist, Bool.false_eq_true, if_false] at hr
        rw [findParent_eq hv hd, hw] at hr
        simp only at hr
        by_cases hs : maySearch m = true
        · rw [if_pos hs] at hr
          simp only at hr
          unfold removeAllFrom at hr
          simp only [if_neg hb, Node.mode, hasPerm_change, hp, Bool.not_false, if_true] at hr
          cases hr
          exact ⟨fun _ _ => rfl, fun _ _ h => h, fun h => by cases h⟩
        · rw [if_neg hs] at hr
          cases hr
          exact ⟨fun _ _ => rfl, fun _ _ h => h, fun h => by cases h⟩
      · have hp : mayWrite m = true ∧ maySearch m = true := by simpa using hp
        cases hk : es.find (base name) with
        | none =>
          rw [(hfail.2.2.2 m es hw hp.1 hp.2).1 (by rw [Ents.mem_names, hk]; simp)] at hr
          simp only [Err.isNotExist, if_true] at hr
          cases hr
          refine ⟨fun _ _ => rfl, fun _ _ h => h, fun _ => same ?_⟩
          rw [hpl, Node.at_snoc, ha]
          exact hk
        | some k =>
          have hat : S.root.at (place name) = some k := by rw [hpl, Node.at_snoc, ha]; exact hk
          by_cases hemp : ∀ x, k.shows [x] = none
          · -- a file or an empty directory
            obtain ⟨S1, hrm, _, _, hgone, hother⟩ := C88_remove e S name h hd hw hp.1 hp.2 hk hemp
            have hnotfull : ∀ r md x, S.root.at (place name ++ r) = some x → ¬ Full x md := by
              intro r md x hx hfull
              rw [Node.at_append, hat] at hx
              obtain ⟨es', rfl, hne⟩ := hfull
              rcases k with ⟨mk, v⟩ | ⟨mk, _ | ⟨a, n, rest⟩⟩
              · cases r with
                | nil => cases hx
                | cons _ _ => cases hx
              · cases r with
                | nil => cases hx; exact hne rfl
                | cons _ _ => simp [Node.at, Ents.find] at hx
              · have := hemp a
                simp [Node.shows, Node.at, Ents.find] at this
            have goal1 : (∀ q, ¬ place name <+: q → S1.root.shows q = S.root.shows q) ∧
                (∀ q i, S1.root.shows q = some i → S.root.shows q = some i) ∧
                (res = .ok () → ∀ r i, S1.root.shows (place name ++ r) = some i ↔ ∃ md k, i = .dir md ∧ S.root.at (place name ++ r) = some k ∧ Full k md) := by
              refine ⟨hother, fun q i hq => ?_, fun _ r i => ?_⟩
              · by_cases hpq : place name <+: q
                · obtain ⟨r, rfl⟩ := hpq
                  rw [hgone] at hq; cases hq
                · rw [← hother q hpq]; exact hq
              · rw [hgone]
                simp only [reduceCtorEq, false_iff]
                rintro ⟨md, x, _, hx, hfull⟩
                exact hnotfull r md x hx hfull
            rw [hrm] at hr
            rcases k with ⟨mk, v⟩ | ⟨mk, ek⟩
            · simp only at hr
              cases han : e.answer S.asked.length with
              | none =>
                rw [han] at hr
                cases hr
                exact goal1
              | some er =>
                rw [han] at hr
                simp only at hr
                have hend : S' = S1 := by
                  split at hr
                  · cases hr; rfl
                  · -- the directory is looked at again
                    cases hfp : findParent e S1.root name with
                    | error er' => rw [hfp] at hr; cases hr; rfl
                    | ok r =>
                      obtain ⟨loc, n⟩ := r
                      rw [hfp] at hr
                      simp only at hr
                      have hno : n.lookup (base name) = none := by
                        rcases (findParent_ok hfp).2 with ⟨h', _⟩ | ⟨_, h2, _, h4, _⟩
                        · exact absurd h' hd
                        · have := hgone []
                          rw [List.append_nil, h2, shows_eq, Node.at_snoc, h4] at this
                          simpa using this
                      unfold removeAllFrom at hr
                      rw [if_neg hb, hno] at hr
                      split at hr <;> cases hr <;> rfl
                subst hend
                exact goal1
            · cases hr
              exact goal1
          · -- a directory with something in it
            have hfull : ∃ mk ek, k = .dir mk ek ∧ ek.names ≠ [] := by
              rcases k with ⟨mk, v⟩ | ⟨mk, _ | ⟨a, n, rest⟩⟩
              · exact absurd (fun x => rfl) hemp
              · exact absurd (fun x => by simp [Node.shows, Node.at, Ents.find]) hemp
              · exact ⟨mk, _, rfl, by simp [Ents.names]⟩
            obtain ⟨mk, ek, rfl, hne⟩ := hfull
            rw [(hfail.2.2.2 m es hw hp.1 hp.2).2 mk ek hk hne] at hr
            simp only [Err.isNotExist, Bool.false_eq_true, if_false] at hr
            rw [findParent_eq hv hd, hw] at hr
            simp only [hp.2, if_true] at hr
            unfold removeAllFrom at hr
            simp only [if_neg hb, Node.mode, hasPerm_change, hp.1, hp.2, Bool.and_self, Bool.not_true, Bool.false_eq_true, if_false, Node.lookup, hk] at hr
            have hwf : (Node.dir mk ek).WF := hS.wf.at hat
            have hless := Node.prune_less true (.dir mk ek)
            have hex := Node.prune_exact true (.dir mk ek) hwf
            cases hpr : ((Node.dir mk ek).prune true).1 with
            | none =>
              cases ek with
              | nil => exact absurd rfl hne
              | cons a n rest => simp [Node.prune] at hpr
            | some x =>
              rw [hpr] at hr hex
              simp only at hr hex
              obtain ⟨_, hlx⟩ := hless x hwf hpr
              obtain ⟨hs1, hs2⟩ := replace_shows ha hk x
              rw [← hpl] at hs1 hs2
              have hroot : S'.root = S.root.modify (place (dir name)) (Node.modify [base name] fun _ => x) := by
                cases hr; rfl
              refine ⟨fun q hq => ?_, fun q i hq => ?_, fun hok r i => ?_⟩
              · rw [hroot]; exact hs2 q hq
              · rw [hroot] at hq
                by_cases hpq : place name <+: q
                · obtain ⟨r, rfl⟩ := hpq
                  rw [hs1] at hq
                  rw [Node.shows_append hat]
                  exact hlx r i hq
                · rw [hs2 q hpq] at hq; exact hq
              · rw [hroot, hs1, Node.at_append, hat]
                have herr : ((Node.dir mk ek).prune true).2.2 = none := by
                  cases h2 : ((Node.dir mk ek).prune true).2.2 with
                  | none => rfl
                  | some er =>
                    rw [h2] at hr
                    cases hr
                    cases hok
                exact hex herr r i

/-- **C88**: RemoveAll never touches what is not the name or below it, and adds nothing. If it succeeds, of what was there exactly the directories that
had something in them are left: no file, no empty directory. -/
theorem C88_removeAll_partial (e : Env) (cs : List Call) (name : Str) (h : GoodName e.utf8 name) (hd : name ≠ dot) :
    let S := after e cs
    let S' := (removeAll e S name).1
    (∀ q, ¬ place name <+: q → S'.root.shows q = S.root.shows q) ∧
    (∀ q i, S'.root.shows q = some i → S.root.shows q = some i) ∧
    ((removeAll e S name).2 = .ok () → ∀ r i, S'.root.shows (place name ++ r) = some i ↔
      ∃ md k, i = .dir md ∧ S.root.at (place name ++ r) = some k ∧ Full k md) :=
  removeAll_spec e _ _ name _ (after_ok e cs) h hd rfl

/-- **C88**: the root cannot be removed. -/
theorem C88_removeAll_root (e : Env) (S : St) (h : GoodName e.utf8 dot) : removeAll e S dot = (S, .error .acces) := by
  unfold removeAll
  rw [(C86_valid e dot).2 h]
  simp

/-- RemoveAll succeeds and the directory is still there. -/
theorem C88_counterexample_removeAll : ∃ S', removeAll ex exTree "a".toList = (S', .ok ()) ∧
    S'.root.shows ["a".toList] = some (.dir 0o755) ∧ S'.root.shows ["a".toList, "f".toList] = none := ⟨_, rfl, by decide, by decide⟩

/- C88_remove: a/f can be removed. -/
example : ∃ m es k, walk exTree.root (place (dir "a/f".toList)) = .ok (.dir m es) ∧ mayWrite m = true ∧ maySearch m = true ∧
    es.find (base "a/f".toList) = some k ∧ ∀ x, k.shows [x] = none := ⟨_, _, _, rfl, by decide, by decide, rfl, fun _ => rfl⟩
/- C88_removeAll_partial: three levels; after the call the two upper ones are left. -/
def exDeep : List Call := [.mkdirAll "a/b/c".toList 0o777, .addFile "a/b/f".toList ⟨3, 0o644, false⟩]
example : (removeAll ex (after ex exDeep) "a".toList).2 = .ok () := rfl
example : (removeAll ex (after ex exDeep) "a".toList).1.root.shows ["a".toList, "b".toList] = some (.dir 0o755) ∧
    (removeAll ex (after ex exDeep) "a".toList).1.root.shows ["a".toList, "b".toList, "c".toList] = none := by decide

end Verif.Afero
