import Verif.Synth.TreeAcyclic
/-
C49: path resolution in the synthetic tree.
-/
namespace Verif.Synth.Tree
open Verif.Path

/-! ### Specification -/

/-- The elements of a link target: what is between the slashes, except nothing after a last slash. -/
def elems (p : Str) : List Str := if (split p).getLast? = some [] then (split p).dropLast else split p

/-- The elements to walk after a link: those of its target, then those that followed the link. -/
def splice (target : Str) (es : List Str) : List Str := if es = [] then elems target else split target ++ es

/-- An element that names an entry. -/
def Plain (e : Str) : Prop := e ≠ [] ∧ e ≠ dot ∧ e ≠ dotdot

def St.isLink (s : St) (i : Id) : Prop := ∃ n t, s.nodes[i]? = some (.link n t)

/-- Walking the elements from the directory `cur` leads to the last argument, following the given number of links, without ever
stepping above the directory `b` and without absolute links. "Up" is the directory that lists the current one. -/
inductive Finds (s : St) (b : Id) (follow : Bool) : Id → List Str → Nat → Id → Prop where
  | done {cur} : Finds s b follow cur [] 0 cur
  | stay {cur e es n m} : (e = [] ∨ e = dot) → Finds s b follow cur es n m → Finds s b follow cur (e :: es) n m
  | up {cur p k es n m} : cur ≠ b → s.lookup p k = some cur → Finds s b follow p es n m → Finds s b follow cur (dotdot :: es) n m
  | last {cur e c} : Plain e → s.lookup cur e = some c → (follow = true → ¬ s.isLink c) → Finds s b follow cur [e] 0 c
  | down {cur e c es n m} : Plain e → s.lookup cur e = some c → s.isDir c → es ≠ [] → Finds s b follow c es n m → Finds s b follow cur (e :: es) n m
  | link {cur e c es n m nm t} : Plain e → s.lookup cur e = some c → s.nodes[c]? = some (.link nm t) → isAbs t = false → (es ≠ [] ∨ follow = true) →
      Finds s b follow cur (splice t es) n m → Finds s b follow cur (e :: es) (n + 1) m

/-! ### Elements -/

theorem split_append (t r : Str) : split (t ++ slash :: r) = split t ++ split r := by
  by_cases h : slash ∈ t
  · cases hc : cutFirst slash t with
    | none => exact absurd h (cutFirst_eq_none.1 hc)
    | some p =>
      obtain ⟨a, c⟩ := p
      obtain ⟨e, ha⟩ := cutFirst_eq_some.1 hc
      have hlt : c.length < t.length := by rw [e]; simp; omega
      have ih := split_append c r
      rw [e, List.append_assoc, List.cons_append, split_append_slash ha, split_append_slash ha, ih]; rfl
  · rw [split_append_slash h, split_of_no_slash h]; rfl
termination_by t.length

theorem elems_nil : elems [] = [] := by rfl

theorem elems_cut {rest : Str} (h : rest ≠ []) : elems rest = (cut rest).1 :: elems (cut rest).2 := by
  unfold cut
  cases hc : cutFirst slash rest with
  | none =>
    have hn := cutFirst_eq_none.1 hc
    simp only [elems_nil]
    unfold elems
    rw [split_of_no_slash hn]
    simp [h]
  | some p =>
    obtain ⟨a, c⟩ := p
    obtain ⟨e, ha⟩ := cutFirst_eq_some.1 hc
    simp only
    unfold elems
    rw [e, split_append_slash ha]
    have hne := split_ne_nil c
    cases hs : split c with
    | nil => exact absurd hs hne
    | cons x xs =>
      rw [List.getLast?_cons_cons, List.dropLast_cons_of_ne_nil (by simp)]
      split <;> rfl

theorem elems_eq_nil {rest : Str} : elems rest = [] ↔ rest = [] := by
  constructor
  · intro h
    apply Classical.byContradiction
    intro hn
    rw [elems_cut hn] at h
    cases h
  · rintro rfl; rfl

theorem elems_afterLink (t r : Str) : elems (afterLink t r) = splice t (elems r) := by
  unfold afterLink splice
  by_cases h : r = []
  · rw [if_pos h, if_pos (elems_eq_nil.2 h)]
  · rw [if_neg h, if_neg (fun e => h (elems_eq_nil.1 e))]
    unfold elems
    rw [split_append]
    have hne := split_ne_nil r
    have hl : (split t ++ split r).getLast? = (split r).getLast? := by
      rw [List.getLast?_append]
      cases hx : (split r).getLast? with
      | none => exact absurd (List.getLast?_eq_none_iff.1 hx) hne
      | some x => rfl
    rw [hl, List.dropLast_append_of_ne_nil hne]
    split <;> rfl

/-! ### The loop as the code has it -/

theorem seg_fuel (s : St) (b : Id) (fl : Bool) (jump : Id → Str → Str → Except Err Res) : ∀ (fuel fuel' : Nat) (cur : Id) (rest : Str), rest.length ≤ fuel → rest.length ≤ fuel' →
    seg s b fl jump fuel cur rest = seg s b fl jump fuel' cur rest := by
  intro fuel
  induction fuel with
  | zero =>
    intro fuel' cur rest h h'
    have : rest = [] := List.length_eq_zero_iff.1 (by omega)
    subst this
    cases fuel' <;> simp [seg]
  | succ fuel ih =>
    intro fuel' cur rest h h'
    by_cases hr : rest = []
    · subst hr; cases fuel' <;> simp [seg]
    · have hlt := cut_lt hr
      cases fuel' with
      | zero => have := List.length_pos_iff.2 hr; omega
      | succ fuel' =>
        have key : ∀ c, seg s b fl jump fuel c (cut rest).2 = seg s b fl jump fuel' c (cut rest).2 := fun c => ih fuel' c _ (by omega) (by omega)
        simp only [seg, key]

theorem seg_unfold (s : St) (b : Id) (fl : Bool) (jump : Id → Str → Str → Except Err Res) (cur : Id) (rest : Str) :
    seg s b fl jump rest.length cur rest =
      if rest = [] then .ok ⟨cur, none, []⟩
      else if (cut rest).1 = [] ∨ (cut rest).1 = dot then seg s b fl jump (cut rest).2.length cur (cut rest).2
      else if (cut rest).1 = dotdot then
        if cur = b then .error .escapes
        else match (s.dir? cur).bind (·.parent) with
          | none => .error .escapes
          | some p => seg s b fl jump (cut rest).2.length p (cut rest).2
      else match s.lookup cur (cut rest).1 with
        | none => .error .notExist
        | some child => match s.nodes[child]? with
          | some (.link _ target) =>
            if (cut rest).2 = [] ∧ fl = false then .ok ⟨child, some cur, (cut rest).1⟩
            else jump cur target (cut rest).2
          | some (.dir _) =>
            if (cut rest).2 = [] then .ok ⟨child, some cur, (cut rest).1⟩ else seg s b fl jump (cut rest).2.length child (cut rest).2
          | some (.file ..) =>
            if (cut rest).2 = [] then .ok ⟨child, some cur, (cut rest).1⟩ else .error .notDir
          | none => .error .notExist := by
  by_cases hr : rest = []
  · subst hr; rfl
  · have hlt := cut_lt hr
    have hpos := List.length_pos_iff.2 hr
    obtain ⟨m, hm⟩ : ∃ m, rest.length = m + 1 := ⟨rest.length - 1, by omega⟩
    have key : ∀ c, seg s b fl jump m c (cut rest).2 = seg s b fl jump (cut rest).2.length c (cut rest).2 := fun c => seg_fuel s b fl jump _ _ c _ (by omega) (Nat.le_refl _)
    rw [hm]
    simp only [seg, key]
    rfl

/-- tree.go 102-113: what happens at a link. -/
def jumpAt (s : St) (b : Id) (fl : Bool) : (left : Nat) → Id → Str → Str → Except Err Res
  | 0, _, _, _ => .error .loop
  | left + 1, cur, target, rest => if isAbs target then .error .escapes else walk s b fl left cur (afterLink target rest)

/-- The loop, as written: tree.go 78-130. -/
theorem walk_unfold (s : St) (b : Id) (fl : Bool) (left : Nat) (cur : Id) (rest : Str) :
    walk s b fl left cur rest =
      if rest = [] then .ok ⟨cur, none, []⟩
      else if (cut rest).1 = [] ∨ (cut rest).1 = dot then walk s b fl left cur (cut rest).2
      else if (cut rest).1 = dotdot then
        if cur = b then .error .escapes
        else match (s.dir? cur).bind (·.parent) with
          | none => .error .escapes
          | some p => walk s b fl left p (cut rest).2
      else match s.lookup cur (cut rest).1 with
        | none => .error .notExist
        | some child => match s.nodes[child]? with
          | some (.link _ target) =>
            if (cut rest).2 = [] ∧ fl = false then .ok ⟨child, some cur, (cut rest).1⟩
            else jumpAt s b fl left cur target (cut rest).2
          | some (.dir _) =>
            if (cut rest).2 = [] then .ok ⟨child, some cur, (cut rest).1⟩ else walk s b fl left child (cut rest).2
          | some (.file ..) =>
            if (cut rest).2 = [] then .ok ⟨child, some cur, (cut rest).1⟩ else .error .notDir
          | none => .error .notExist := by
  cases left with
  | zero => simp only [walk]; rw [seg_unfold]; rfl
  | succ left => simp only [walk]; rw [seg_unfold]; rfl

/-! ### Soundness and completeness -/

/-- What a result says: the node is the one found, it is under the boundary, and `parent`/`base` say where it is listed. -/
structure ResOK (s : St) (b : Id) (r : Res) : Prop where
  under : Under s b r.node
  listed : ∀ p, r.parent = some p → Under s b p ∧ s.lookup p r.base = some r.node
  here : r.parent = none → s.isDir r.node

theorem under_parent {s : St} (hg : Good s) {b cur : Id} (hu : Under s b cur) (hne : cur ≠ b) {r : DirRec} (hr : s.dir? cur = some r) :
    ∃ p k, s.lookup p k = some cur ∧ Under s b p ∧ r.parent = some p := by
  rcases hu with rfl | hu
  · exact absurd rfl hne
  · have : ∃ p k, s.lookup p k = some cur ∧ Under s b p := by
      cases hu with
      | child hc => exact ⟨_, _, hc, .inl rfl⟩
      | step h hc => exact ⟨_, _, hc, .inr h⟩
    obtain ⟨p, k, hc, hp⟩ := this
    obtain ⟨m, hm, _, hpar⟩ := hg.child _ _ _ hc
    have h2 := look_dir hr
    rw [hm] at h2
    have h3 := hpar _ (Option.some.inj h2)
    exact ⟨p, k, hc, hp, h3⟩

theorem lookup_plain {e : Str} (h1 : ¬ (e = [] ∨ e = dot)) (h2 : e ≠ dotdot) : Plain e :=
  ⟨fun h => h1 (.inl h), fun h => h1 (.inr h), h2⟩

theorem seg_sound {s : St} (hg : Good s) {b : Id} {fl : Bool} {jump : Id → Str → Str → Except Err Res} {N : Nat}
    (hj : ∀ cur t rest r, s.isDir cur → Under s b cur → jump cur t rest = .ok r → ∃ n, n + 1 ≤ N ∧ isAbs t = false ∧ Finds s b fl cur (splice t (elems rest)) n r.node ∧ ResOK s b r) :
    ∀ (fuel : Nat) (cur : Id) (rest : Str) (r : Res), rest.length ≤ fuel → s.isDir cur → Under s b cur → seg s b fl jump fuel cur rest = .ok r →
    ∃ n, n ≤ N ∧ Finds s b fl cur (elems rest) n r.node ∧ ResOK s b r := by
  intro fuel
  induction fuel with
  | zero =>
    intro cur rest r hl hd hu h
    have : rest = [] := List.length_eq_zero_iff.1 (by omega)
    subst this
    simp only [seg] at h
    cases h
    exact ⟨0, Nat.zero_le _, .done, hu, by simp, fun _ => hd⟩
  | succ fuel ih =>
    intro cur rest r hl hd hu h
    simp only [seg] at h
    by_cases hr : rest = []
    · subst hr
      simp only [if_true] at h
      cases h
      exact ⟨0, Nat.zero_le _, .done, hu, by simp, fun _ => hd⟩
    · rw [if_neg hr] at h
      have hlt := cut_lt hr
      rw [elems_cut hr]
      split at h
      · rename_i hst
        obtain ⟨n, hn, hf, hres⟩ := ih cur _ r (by omega) hd hu h
        exact ⟨n, hn, .stay hst hf, hres⟩
      · rename_i hst
        split at h
        · rename_i hdd
          split at h
          · cases h
          · rename_i hne
            obtain ⟨dr, hdr⟩ := hd
            obtain ⟨p, k, hk, hup, hpar⟩ := under_parent hg hu hne hdr
            rw [hdr] at h
            simp only [Option.bind_some, hpar] at h
            obtain ⟨n, hn, hf, hres⟩ := ih p _ r (by omega) (lookup_isDir hk) hup h
            refine ⟨n, hn, ?_, hres⟩
            rw [hdd]
            exact .up hne hk hf
        · rename_i hdd
          have hpl : Plain (cut rest).1 := lookup_plain hst hdd
          cases hk : s.lookup cur (cut rest).1 with
          | none => rw [hk] at h; cases h
          | some c =>
            rw [hk] at h
            simp only at h
            have hc : ResOK s b ⟨c, some cur, (cut rest).1⟩ := by
              refine ⟨.inr (hu.step hk), ?_, by simp⟩
              intro p hp; cases hp; exact ⟨hu, hk⟩
            cases hn : s.nodes[c]? with
            | none => rw [hn] at h; cases h
            | some node =>
              rw [hn] at h
              cases node with
              | link nm t =>
                simp only at h
                split at h
                · rename_i hlast
                  cases h
                  refine ⟨0, Nat.zero_le _, ?_, hc⟩
                  rw [hlast.1, elems_nil]
                  exact .last hpl hk (by rw [hlast.2]; simp)
                · rename_i hlast
                  obtain ⟨n, hn', habs, hf, hres⟩ := hj cur t _ r hd hu h
                  refine ⟨n + 1, hn', .link hpl hk hn habs ?_ hf, hres⟩
                  by_cases he : (cut rest).2 = []
                  · right
                    cases fl with
                    | true => rfl
                    | false => exact absurd ⟨he, rfl⟩ hlast
                  · left; intro e; exact he (elems_eq_nil.1 e)
              | dir dr =>
                simp only at h
                split at h
                · rename_i hlast
                  cases h
                  refine ⟨0, Nat.zero_le _, ?_, hc⟩
                  rw [hlast, elems_nil]
                  exact .last hpl hk (by rintro _ ⟨a, t, e⟩; rw [hn] at e; cases e)
                · rename_i hlast
                  obtain ⟨n, hn', hf, hres⟩ := ih c _ r (by omega) ⟨dr, dir?_iff.2 hn⟩ (.inr (hu.step hk)) h
                  exact ⟨n, hn', .down hpl hk ⟨dr, dir?_iff.2 hn⟩ (fun e => hlast (elems_eq_nil.1 e)) hf, hres⟩
              | file a m v =>
                simp only at h
                split at h
                · rename_i hlast
                  cases h
                  refine ⟨0, Nat.zero_le _, ?_, hc⟩
                  rw [hlast, elems_nil]
                  exact .last hpl hk (by rintro _ ⟨a, t, e⟩; rw [hn] at e; cases e)
                · cases h

theorem walk_sound {s : St} (hg : Good s) {b : Id} {fl : Bool} : ∀ (left : Nat) (cur : Id) (rest : Str) (r : Res), s.isDir cur → Under s b cur → walk s b fl left cur rest = .ok r →
    ∃ n, n ≤ left ∧ Finds s b fl cur (elems rest) n r.node ∧ ResOK s b r := by
  intro left
  induction left with
  | zero =>
    intro cur rest r hd hu h
    exact seg_sound hg (by intro cur t rest r _ _ h; cases h) _ cur rest r (Nat.le_refl _) hd hu h
  | succ left ih =>
    intro cur rest r hd hu h
    refine seg_sound hg ?_ _ cur rest r (Nat.le_refl _) hd hu h
    intro cur t rest r hd hu h
    split at h
    · cases h
    · rename_i habs
      obtain ⟨n, hn, hf, hres⟩ := ih cur _ r hd hu h
      rw [elems_afterLink] at hf
      exact ⟨n, by omega, by simpa using habs, hf, hres⟩

theorem walk_complete {s : St} (hg : Good s) {b : Id} {fl : Bool} {cur : Id} {es : List Str} {n : Nat} {m : Id} (h : Finds s b fl cur es n m) :
    ∀ (left : Nat) (rest : Str), n ≤ left → s.isDir cur → Under s b cur → elems rest = es → ∃ r, walk s b fl left cur rest = .ok r ∧ r.node = m := by
  have ne : ∀ {rest e es}, elems rest = e :: es → rest ≠ [] ∧ (cut rest).1 = e ∧ elems (cut rest).2 = es := by
    intro rest e es he
    have hr : rest ≠ [] := by rintro rfl; cases he
    rw [elems_cut hr] at he
    exact ⟨hr, (List.cons.inj he).1, (List.cons.inj he).2⟩
  induction h with
  | done =>
    intro left rest _ _ _ he
    rw [elems_eq_nil.1 he, walk_unfold, if_pos rfl]
    exact ⟨_, rfl, rfl⟩
  | stay hs _ ih =>
    intro left rest hl hd hu he
    obtain ⟨hr, h1, h2⟩ := ne he
    rw [walk_unfold, if_neg hr, if_pos (h1 ▸ hs)]
    exact ih left _ hl hd hu h2
  | up hne hk _ ih =>
    intro left rest hl hd hu he
    obtain ⟨hr, h1, h2⟩ := ne he
    obtain ⟨dr, hdr⟩ := hd
    obtain ⟨p', k', hk', hup, hpar⟩ := under_parent hg hu hne hdr
    obtain ⟨rfl, rfl⟩ := hg.single _ _ _ _ _ hk hk'
    rw [walk_unfold, if_neg hr, if_neg (by rw [h1]; decide), if_pos h1, if_neg hne, hdr]
    simp only [Option.bind_some, hpar]
    exact ih left _ hl (lookup_isDir hk) hup h2
  | @last cur e c hp hk hf =>
    intro left rest hl hd hu he
    obtain ⟨hr, h1, h2⟩ := ne he
    have h2' := elems_eq_nil.1 h2
    obtain ⟨nd, hnd, _⟩ := hg.child _ _ _ hk
    rw [walk_unfold, if_neg hr, if_neg (by rw [h1]; intro h; exact h.elim hp.1 hp.2.1), if_neg (by rw [h1]; exact hp.2.2), h1, hk]
    simp only
    cases hn : s.nodes[c]? with
    | none => rw [St.look, hn] at hnd; cases hnd
    | some node =>
      cases node with
      | link nm t =>
        have hfl : fl = false := by
          cases fl with
          | false => rfl
          | true => exact absurd ⟨nm, t, hn⟩ (hf rfl)
        simp only
        rw [if_pos ⟨h2', hfl⟩]
        exact ⟨_, rfl, rfl⟩
      | dir d => simp only; rw [if_pos h2']; exact ⟨_, rfl, rfl⟩
      | file a mo v => simp only; rw [if_pos h2']; exact ⟨_, rfl, rfl⟩
  | @down cur e c es n m hp hk hc hne _ ih =>
    intro left rest hl hd hu he
    obtain ⟨hr, h1, h2⟩ := ne he
    obtain ⟨dr, hdr⟩ := hc
    have h2' : (cut rest).2 ≠ [] := by intro h; rw [h] at h2; exact hne h2.symm
    rw [walk_unfold, if_neg hr, if_neg (by rw [h1]; intro h; exact h.elim hp.1 hp.2.1), if_neg (by rw [h1]; exact hp.2.2), h1, hk]
    simp only [dir?_iff.1 hdr]
    rw [if_neg h2']
    exact ih left _ hl ⟨dr, hdr⟩ (.inr (hu.step hk)) h2
  | @link cur e c es n m nm t hp hk hn habs hcond _ ih =>
    intro left rest hl hd hu he
    obtain ⟨hr, h1, h2⟩ := ne he
    rw [walk_unfold, if_neg hr, if_neg (by rw [h1]; intro h; exact h.elim hp.1 hp.2.1), if_neg (by rw [h1]; exact hp.2.2), h1, hk]
    simp only [hn]
    rw [if_neg]
    · cases left with
      | zero => omega
      | succ left =>
        simp only [jumpAt, habs, Bool.false_eq_true, if_false]
        exact ih left _ (by omega) hd hu (by rw [elems_afterLink, h2])
    · intro ⟨ha, hb⟩
      rcases hcond with hc | hc
      · rw [ha] at h2; exact hc h2.symm
      · rw [hc] at hb; cases hb

theorem elems_join {ns : List Str} (h : ∀ c ∈ ns, IsName c) : elems (join ns) = ns := by
  cases hns : ns with
  | nil => rfl
  | cons a l =>
    rw [← hns]
    have hne : ns ≠ [] := by rw [hns]; simp
    unfold elems
    rw [split_join hne (fun c hc => (h c hc).1.2)]
    split
    · rename_i hl
      exact absurd rfl (h [] (List.mem_of_getLast? hl)).1.1
    · rfl

theorem normalize_spec (name : Str) : (∃ e, normalize name = .error e ∧ placeOf name = none) ∨ ∃ ns, placeOf name = some ns ∧ normalize name = .ok (clean name) ∧
    (clean name = dot ↔ ns = []) ∧ (ns ≠ [] → elems (clean name) = ns) := by
  unfold normalize
  cases hp : placeOf name with
  | none =>
    left
    refine ⟨.escapes, ?_, rfl⟩
    rw [if_neg (by intro h; rw [clean_eq_dot_iff, hp] at h; cases h), if_pos]
    cases hl : isLocal (clean name) with
    | false => rfl
    | true => exact absurd hp ((isLocal_clean_iff name).1 hl)
  | some ns =>
    right
    have hdot : clean name = dot ↔ ns = [] := by rw [clean_eq_dot_iff, hp, Option.some.injEq]
    have hl := (isLocal_clean_iff name).2 (by rw [hp]; simp)
    refine ⟨ns, rfl, ?_, hdot, ?_⟩
    · split
      · rename_i h; rw [h]
      · rw [if_neg (by rw [hl]; simp)]
    · intro hne
      obtain ⟨habs, hc, hn⟩ := placeOf_some hp
      unfold clean
      rw [habs, hc]
      have : render false ns = join ns := by
        unfold render; simp [hne]
      rw [this, elems_join hn]

theorem resolve_spec {s : St} (hg : Good s) {b : Id} (hb : s.isDir b) (name : Str) (fl : Bool) (m : Id) :
    (∃ r, resolve s b b name fl = .ok r ∧ r.node = m) ↔ ∃ ns, placeOf name = some ns ∧ ∃ n, n ≤ maxHops ∧ Finds s b fl b ns n m := by
  unfold resolve
  rcases normalize_spec name with ⟨e, he, hp⟩ | ⟨ns, hp, hok, hdot, hel⟩
  · rw [he, hp]; simp
  · rw [hok, hp]
    simp only
    constructor
    · rintro ⟨r, hr, rfl⟩
      refine ⟨ns, rfl, ?_⟩
      split at hr
      · rename_i h
        cases hr
        rw [hdot.1 h]
        exact ⟨0, Nat.zero_le _, .done⟩
      · rename_i h
        obtain ⟨n, hn, hf, _⟩ := walk_sound hg _ _ _ _ hb (.inl rfl) hr
        rw [hel (fun e => h (hdot.2 e))] at hf
        exact ⟨n, hn, hf⟩
    · rintro ⟨ns', e, n, hn, hf⟩
      cases e
      split
      · rename_i h
        rw [hdot.1 h] at hf
        cases hf
        exact ⟨_, rfl, rfl⟩
      · rename_i h
        exact walk_complete hg hf _ _ hn hb (.inl rfl) (hel (fun e => h (hdot.2 e)))

theorem resolve_ok {s : St} (hg : Good s) {b : Id} (hb : s.isDir b) {name : Str} {fl : Bool} {r : Res} (h : resolve s b b name fl = .ok r) : ResOK s b r := by
  unfold resolve at h
  split at h
  · cases h
  · split at h
    · cases h; exact ⟨.inl rfl, by simp, fun _ => hb⟩
    · obtain ⟨_, _, _, hres⟩ := walk_sound hg _ _ _ _ hb (.inl rfl) h
      exact hres

/-! ### Property C49 -/

/-- **C49** (exact). After any history, on any root or sub-root: resolving a name finds `m` exactly when the name stays inside and
walking its elements leads to `m` with at most 40 links, none of them absolute, never stepping above the root. In particular
everything else is refused, and every call returns (the model function is total). -/
theorem C49_resolve_exact (hist : List (Nat × Call)) (b : Id) (hb : b ∈ (after hist).roots) (name : Str) (followLast : Bool) (m : Id) :
    (∃ r, resolve (after hist).st b b name followLast = .ok r ∧ r.node = m) ↔
      ∃ ns, placeOf name = some ns ∧ ∃ n, n ≤ 40 ∧ Finds (after hist).st b followLast b ns n m := by
  have hw := wgood_run hist _ wgood_init
  exact resolve_spec hw.good (hw.roots b hb) name followLast m

/-- **C49** (confined). What is found is the directory of the root or inside it; so is the directory that it is said to be in, and
that directory lists it under the name returned. -/
theorem C49_confined (hist : List (Nat × Call)) (b : Id) (hb : b ∈ (after hist).roots) (name : Str) (followLast : Bool) (r : Res)
    (h : resolve (after hist).st b b name followLast = .ok r) :
    Under (after hist).st b r.node ∧ ∀ p, r.parent = some p → Under (after hist).st b p ∧ (after hist).st.lookup p r.base = some r.node := by
  have hw := wgood_run hist _ wgood_init
  have := resolve_ok hw.good (hw.roots b hb) h
  exact ⟨this.under, this.listed⟩

/-- **C49** (sub-roots). A new root is a directory inside the root it was opened from. -/
theorem C49_openRoot (hist : List (Nat × Call)) (b : Id) (hb : b ∈ (after hist).roots) (name : Str) (d : Id)
    (h : openRoot (after hist).st b name = .ok d) : Under (after hist).st b d ∧ (after hist).st.isDir d := by
  have hw := wgood_run hist _ wgood_init
  unfold openRoot at h
  split at h
  · cases h
  · rename_i r hr
    split at h
    · cases h
    · rename_i x hx
      cases h
      exact ⟨(resolve_ok hw.good (hw.roots b hb) hr).under, ⟨x, hx⟩⟩

/-- A tree with a link out of a sub-root, an absolute link, and a link inside: the hypotheses are met, each way. -/
def linked : List (Nat × Call) := [(0, .mkdir ['d'] 0), (0, .create ['f'] 0), (0, .create ['d', '/', 'g'] 0), (0, .symlink ['.', '.', '/', 'f'] ['d', '/', 'o']),
  (0, .symlink ['/', 'f'] ['d', '/', 'a']), (0, .symlink ['.', '/', 'g', '/'] ['d', '/', 'i']), (0, .openRoot ['d'])]

example : (after linked).roots = [0, 1] ∧
    (resolve (after linked).st 0 0 ['d', '/', 'o'] true = .ok ⟨2, some 0, ['f']⟩) ∧
    (resolve (after linked).st 1 1 ['o'] true = .error .escapes) ∧
    (resolve (after linked).st 1 1 ['a'] true = .error .escapes) ∧
    (resolve (after linked).st 1 1 ['i'] true = .ok ⟨3, some 1, ['g']⟩) := by
  refine ⟨by decide +kernel, by rfl, by rfl, by rfl, by rfl⟩

end Verif.Synth.Tree
