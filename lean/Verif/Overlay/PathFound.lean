import Verif.Overlay.SubRoot
import Verif.Overlay.Answers
import Verif.Fsutil.ResolveComplete
/-
C79 and C84: what walking the merged view reaches is found, and so calls by path answer what the merged view says of the place their path leads to.
-/
namespace Verif.Overlay.Stack
open Verif.Path Verif.Prog
open Fsutil.Resolve (Walk WalkN Direct NoLink AnswersOn)

/-! ### specification -/

/-- Walking `p` from `base`, through fewer than 40 symlinks, ends at `n`. -/
def Sys.Finds (S : Sys) (base : Name) (p : Str) (n : Name) : Prop :=
  ∃ rel k, k < 40 ∧ WalkN (S.seen base) [] (split p) rel k ∧ n = rel.reverse ++ base

/-- Walking all of `p` but its last component `c`, through fewer than 40 symlinks, leads to the directory `d` ("." and empty components aside). -/
def Sys.FindsIn (S : Sys) (base : Name) (p : Str) (c : Str) (d : Name) : Prop :=
  ∃ init rel k, k < 40 ∧ (split p).filter (fun c => decide (c ≠ [] ∧ c ≠ dot)) = init ++ [c] ∧ WalkN (S.seen base) [] init rel k ∧ d = rel.reverse ++ base ∧ S.ViewDir d

/-! ### the resolution is answered -/

theorem clear_walk {S : Sys} {base : Name} {cs d : List Str} (h : Clear S base cs) (hw : Walk (S.seen base) [] cs d) : d = Fsutil.Resolve.names cs := by
  have h2 := Fsutil.Resolve.names_walk (T := S.seen base) (d := []) cs (rest := []) (r := d) (by simpa using hw)
  rw [List.append_nil] at h2
  exact walk_straight h2 (Fsutil.Resolve.names_isName (Fsutil.Resolve.step_noUp h.1)) (fun q t hq => by rw [List.nil_append]; exact h.2 q t hq)

theorem answers_answer {S : Sys} {base : Name} (hb : CleanComps base.reverse) (hd : S.ViewDir base) : AnswersOn (Clear S base) (S.answers base) (S.seen base) where
  lstat i n cs c d e k hc hs hn hw _ _ he := by
    have hst : ∀ x ∈ cs ++ [c], Fsutil.Resolve.Step x := steps_snoc hc.1 ⟨hn.1, hn.2.2⟩
    have hdd := clear_walk hc hw.walk
    subst hdd
    obtain ⟨nd, hv, rfl⟩ := Option.map_eq_some_iff.1 he
    rw [List.reverse_append] at hv
    have hv : S.view (c :: ((Fsutil.Resolve.names cs).reverse ++ base)) = some nd := hv
    obtain ⟨j, hj⟩ := view_of_lookup hv
    rw [join_of_split hs, answers_lstat hb (by simp) hst, names_snoc hn, List.reverse_append]
    show (match S.lookup (c :: ((Fsutil.Resolve.names cs).reverse ++ base)) with | .ok (_, nd) => some nd.isLink | .error _ => none) = _
    rw [hj, Node.ent_isLink]
  lstat_root i _ := by
    obtain ⟨m, hm⟩ := hd
    obtain ⟨j, hj⟩ := view_of_lookup hm
    have := answers_lstat (S := S) hb (cs := [dot]) (by simp) (by intro c hc; simp at hc; rw [hc]; exact ⟨⟨by decide, by decide⟩, by decide⟩) i
    have hnm : Fsutil.Resolve.names [dot] = [] := by decide
    rw [hnm] at this
    rw [show dot = join [dot] from rfl, this]
    show (match S.lookup ([] ++ base) with | .ok (_, nd) => some nd.isLink | .error _ => none) = _
    rw [List.nil_append, hj]
    rfl
  readlink i n cs c d t k hc hs hn hw _ _ he := by
    have hst : ∀ x ∈ cs ++ [c], Fsutil.Resolve.Step x := steps_snoc hc.1 ⟨hn.1, hn.2.2⟩
    have hcc := cc_rel hb (Fsutil.Resolve.names_isName (Fsutil.Resolve.step_noUp hst))
    have hdd := clear_walk hc hw.walk
    subst hdd
    have hv := Sys.seen_link.1 he
    rw [List.reverse_append] at hv
    have hv : S.view (c :: ((Fsutil.Resolve.names cs).reverse ++ base)) = some (.link t) := hv
    obtain ⟨j, hj⟩ := view_of_lookup hv
    rw [join_of_split hs]
    unfold Sys.answers
    simp only [name_eq hb, placeOf_steps (cs := cs ++ [c]) (by simp) hst, Option.map_some, nameOf_pathOf hcc]
    rw [names_snoc hn, List.reverse_append]
    show (match S.lookup (c :: ((Fsutil.Resolve.names cs).reverse ++ base)) with | .ok (_, .link t) => some t | _ => none) = _
    rw [hj]

/-- A resolution that succeeds gives a name. -/
theorem resolve_of_path {S : Sys} {base : Name} (hb : CleanComps base.reverse) {p : Str} {skip : Bool} {log : Fsutil.Resolve.Log} {r : Str}
    (h : Fsutil.Resolve.resolvePath (S.answers base) p skip = some (log, .ok r)) : ∃ n, S.resolve base p skip = some n := by
  have hst := resolved_steps h
  have hp := placeOf_steps (cs := split r) (split_ne_nil _) hst
  rw [join_split] at hp
  unfold Sys.resolve Names.resolve
  rw [h]
  simp only [name_eq hb, hp, Option.map_some]
  exact ⟨_, rfl⟩

section
variable {S : Sys} {base : Name} {p : Str}

theorem finds_resolve (hS : S.Trees) (hb : CleanComps base.reverse) (hd : S.ViewDir base) (hs : S.Straight base) (hrel : isAbs p = false) (hup : dotdot ∉ split p) {n : Name}
    (h : S.Finds base p n) : S.resolve base p false = some n := by
  obtain ⟨rel, k, hk, hw, rfl⟩ := h
  obtain ⟨log, r, hr⟩ := Fsutil.Resolve.resolves_on (answers_agree hS hb hd) (answers_answer hb hd) (straight_cover hs) p hrel hup rel k hk hw
  obtain ⟨n', hn'⟩ := resolve_of_path hb hr
  obtain ⟨rel', hw', rfl⟩ := leads hS hb hd hs hup hn'
  rw [hn', hw.walk.det hw']

theorem clean_ne_dot_of_last {init : List Str} {c : Str} (hrel : isAbs p = false) (hup : dotdot ∉ split p) (hi : (split p).filter (fun c => decide (c ≠ [] ∧ c ≠ dot)) = init ++ [c]) :
    clean p ≠ dot := by
  intro hd
  have h1 : comps p = (split p).filter (fun c => decide (c ≠ [] ∧ c ≠ dot)) := Fsutil.Resolve.comps_of_noUp hup hrel
  rw [hi] at h1
  have h2 : comps p = [] := by rw [← comps_clean, hd]; rfl
  rw [h2] at h1
  simp at h1

theorem findsIn_resolve (hS : S.Trees) (hb : CleanComps base.reverse) (hd : S.ViewDir base) (hs : S.Straight base) (hrel : isAbs p = false) (hup : dotdot ∉ split p) {c : Str} {d : Name}
    (h : S.FindsIn base p c d) : S.resolve base p true = some (c :: d) := by
  obtain ⟨init, rel, k, hk, hi, hw, rfl, _⟩ := h
  obtain ⟨log, r, hr⟩ := Fsutil.Resolve.resolves_parent_on (answers_agree hS hb hd) (answers_answer hb hd) (straight_cover hs) p hrel hup init c hi rel k hk hw
  obtain ⟨n', hn'⟩ := resolve_of_path hb hr
  obtain ⟨init', c', d', h1, h2, rfl⟩ := denotes hS hb hd hs (clean_ne_dot_of_last hrel hup hi) hup hn'
  rw [hi] at h1
  obtain ⟨rfl, hc⟩ := List.append_inj' h1 rfl
  simp only [List.cons.injEq, and_true] at hc
  subst hc
  rw [hn', hw.walk.det h2]

/-- Where a walk ends, something shows. -/
theorem walk_ends {T : Fsutil.Resolve.Tree} (hc : ∀ d c, T (d ++ [c]) ≠ none → T d = some .dir) : ∀ {d cs r : List Str}, Walk T d cs r → T d ≠ none → T r ≠ none := by
  intro d cs r h
  induction h with
  | nil d => exact id
  | dot _ _ ih => exact ih
  | @up d rest r hd hne _ ih =>
    intro h0
    refine ih ?_
    rcases List.eq_nil_or_concat d with rfl | ⟨ini, lst, rfl⟩
    · exact absurd rfl hne
    · rw [List.concat_eq_append] at h0 ⊢
      rw [List.dropLast_concat, hc _ _ h0]
      simp
  | plain _ _ he _ _ ih => exact fun _ => ih (by rw [he]; simp)
  | link _ hd _ _ _ ih => exact fun _ => ih (by rw [hd]; simp)

theorem finds_shows (hd : S.ViewDir base) {n : Name} (h : S.Finds base p n) : ∃ nd, S.view n = some nd := by
  obtain ⟨rel, k, _, hw, rfl⟩ := h
  have := walk_ends (T := S.seen base) (fun d c h => by
    rw [Sys.seen_dir]
    unfold Sys.seen at h
    rw [List.reverse_append] at h
    exact S.view_parent (c := c) (fun h' => h (by rw [show [c].reverse ++ d.reverse ++ base = c :: (d.reverse ++ base) from rfl, h']; rfl))) hw.walk (by rw [Sys.seen_dir.2 hd]; simp)
  unfold Sys.seen at this
  exact Option.ne_none_iff_exists'.1 (fun h => this (by rw [h]; rfl))

/-- No walk goes on through a name under which nothing shows. -/
theorem no_walk {init rest : List Str} {c : Str} {rel r : List Str} (hc : IsName c) (h1 : Walk (S.seen base) [] init rel) (hv : S.view (c :: (rel.reverse ++ base)) = none)
    (h : Walk (S.seen base) [] (init ++ c :: rest) r) : False := by
  obtain ⟨m, h2, h3⟩ := Fsutil.Resolve.walk_append h rfl
  rw [← h1.det h2] at h3
  have hn : S.seen base (rel ++ [c]) = none := by
    unfold Sys.seen
    rw [List.reverse_append, show [c].reverse ++ rel.reverse ++ base = c :: (rel.reverse ++ base) from rfl, hv]
    rfl
  cases h3 with
  | dot h _ => exact hc.notDot h
  | up => exact hc.2.2 rfl
  | plain _ _ he => rw [hn] at he; cases he
  | link _ _ he => rw [hn] at he; cases he

theorem resolve_missing (hS : S.Trees) (hb : CleanComps base.reverse) (hd : S.ViewDir base) (hs : S.Straight base) (hup : dotdot ∉ split p) {c : Str} {d : Name}
    (h : S.FindsIn base p c d) (hc : IsName c) (hv : S.view (c :: d) = none) : S.resolve base p false = none := by
  cases hr : S.resolve base p false with
  | none => rfl
  | some n =>
    obtain ⟨init, rel, k, hk, hi, hw, rfl, _⟩ := h
    obtain ⟨rel', hw', rfl⟩ := leads hS hb hd hs hup hr
    have h2 := Fsutil.Resolve.names_walk (T := S.seen base) (d := []) (split p) (rest := []) (r := rel') (by simpa using hw')
    rw [List.append_nil] at h2
    have hi : Fsutil.Resolve.names (split p) = init ++ [c] := hi
    rw [hi] at h2
    exact (no_walk hc hw.walk hv h2).elim

theorem last_isName {init : List Str} {c : Str} (hup : dotdot ∉ split p) (hi : (split p).filter (fun c => decide (c ≠ [] ∧ c ≠ dot)) = init ++ [c]) : IsName c := by
  have h := Fsutil.Resolve.names_isName (cs := split p) (fun c hc => ⟨split_no_slash p c hc, fun h' => hup (h' ▸ hc)⟩)
  have hi : Fsutil.Resolve.names (split p) = init ++ [c] := hi
  rw [hi] at h
  exact h c (by simp)

end

/-! ### `MkdirAll` -/

theorem length_join : ∀ {cs : List Str}, CleanComps cs → cs.length ≤ (join cs).length := by
  intro cs
  induction cs with
  | nil => intro _; exact Nat.zero_le _
  | cons c cs ih =>
    intro h
    have hc : 0 < c.length := List.length_pos_iff.2 (h c (by simp)).1.1
    have := ih (fun x hx => h x (by simp [hx]))
    cases cs with
    | nil => simp only [join, List.length_cons, List.length_nil]; omega
    | cons c' cs => simp only [join, List.length_append, List.length_cons] at *; omega

theorem names_clean {cs : List Str} (h : CleanComps cs) : (split (join cs)).filter (fun c => decide (c ≠ [] ∧ c ≠ dot)) = cs := by
  by_cases he : cs = []
  · subst he; decide
  · rw [split_join he (fun c hc => (h c hc).1.2)]
    exact List.filter_eq_self.2 (fun c hc => decide_eq_true ⟨(h c hc).1.1, (h c hc).2.1⟩)

theorem noUp_clean {cs : List Str} (h : CleanComps cs) : dotdot ∉ split (join cs) := by
  by_cases he : cs = []
  · subst he; decide
  · rw [split_join he (fun c hc => (h c hc).1.2)]
    exact fun hm => (h _ hm).2.2 rfl

section
variable {S : Sys} {base : Name}

theorem mkdirAllLoop_found (hS : S.Trees) (hb : CleanComps base.reverse) (hd : S.ViewDir base) (hs : S.Straight base) (gone : Str → Bool) {init : List Str} {c : Str} {d : Name}
    (hcc : CleanComps (init ++ [c])) (h : S.FindsIn base (join (init ++ [c])) c d) :
    ∀ (f : Nat) (r rest : List Str), (r ≠ [] → S.view (c :: d) = none) → r.length < f → CleanComps r → CleanComps rest → (∀ a, a ≠ [] → a <+: r → gone (join (init ++ [c] ++ a)) = true) →
    (Names.mkdirAllLoop (fun h => match Names.resolve (S.answers base) (pathOf base) h true with
      | some r => .ok r
      | none => .error (gone h)) f (join (init ++ [c] ++ r)) (join rest)).map nameOf = some ((r ++ rest).reverse ++ c :: d) := by
  intro f
  induction f with
  | zero => intro r rest _ hl; exact absurd hl (Nat.not_lt_zero _)
  | succ f ih =>
    intro r rest hv hl hr hrest hg
    unfold Names.mkdirAllLoop
    rcases List.eq_nil_or_concat r with rfl | ⟨r', x, rfl⟩
    · rw [List.append_nil]
      have hres := findsIn_resolve hS hb hd hs (isAbs_join (fun c hc => (hcc c hc).1)) (noUp_clean hcc) h
      unfold Sys.resolve at hres
      obtain ⟨full, hfull, hn⟩ := Option.map_eq_some_iff.1 hres
      simp only [hfull, Option.map_some]
      obtain ⟨rl, hrl, rfl⟩ := Names.C63_resolve hb _ _ _ _ hfull
      rw [Names.childName_join hrl hrest, nameOf_join (Names.cc_append hrl hrest), List.reverse_append, ← nameOf_join hrl, hn, List.nil_append]
    · rw [List.concat_eq_append] at hl hr hg ⊢
      have hx : IsName x := hr x (by simp)
      have hv : S.view (c :: d) = none := hv (by simp)
      have hall : CleanComps (init ++ [c] ++ (r' ++ [x])) := Names.cc_append hcc hr
      have hnone : Names.resolve (S.answers base) (pathOf base) (join (init ++ [c] ++ (r' ++ [x]))) true = none := by
        cases hres : S.resolve base (join (init ++ [c] ++ (r' ++ [x]))) true with
        | none => unfold Sys.resolve at hres; exact Option.map_eq_none_iff.1 hres
        | some n =>
          have hdot := clean_ne_dot_of_last (isAbs_join (fun c hc => (hall c hc).1)) (noUp_clean hall) (init := init ++ [c] ++ r') (c := x) (by rw [names_clean hall]; simp)
          obtain ⟨init', c', d', h1, h2, _⟩ := denotes hS hb hd hs hdot (noUp_clean hall) hres
          rw [names_clean hall, ← List.append_assoc] at h1
          obtain ⟨h1, _⟩ := List.append_inj' h1 rfl
          rw [← h1, List.append_assoc] at h2
          obtain ⟨init2, rel, k, _, hi, hw, rfl, _⟩ := h
          rw [names_clean hcc] at hi
          obtain ⟨rfl, _⟩ := List.append_inj' hi rfl
          exact (no_walk (hcc c (by simp)) hw.walk hv h2).elim
      simp only [hnone, hg (r' ++ [x]) (by simp) (List.prefix_refl _)]
      have hslash : slash ∈ join (init ++ [c] ++ (r' ++ [x])) := by
        rw [← List.append_assoc, join_concat (by simp)]
        simp
      rw [if_pos hslash, ← List.append_assoc, Names.parentName_join hx, Names.filePart_join hx,
        show childName x (join rest) = join (x :: rest) from Names.childName_join (as := [x]) (bs := rest) (by intro c hc; simp at hc; rw [hc]; exact hx) hrest]
      rw [ih r' (x :: rest) (fun _ => hv) (by simp at hl; omega) (fun y hy => hr y (by simp [hy])) (by
        intro y hy
        rcases List.mem_cons.1 hy with rfl | hy
        · exact hx
        · exact hrest y hy) (fun a ha hp => hg a ha (hp.trans (List.prefix_append _ _)))]
      simp

end

/-! ### C79: what is reached is found -/

section
variable {S0 S : Sys} {hs : List Handle} {base : Name}

/-- **C79** (partial) What walking reaches is found. Where symlinks lead straight to their targets and `p` has no "..": if walking `p` through fewer than 40 symlinks ends at `n`, then the
calls that follow the last component report, change or open `n`; if walking all but the last component leads to a directory `d` that shows, the other calls work on the entry of
that name in `d`, whether it exists or not, and creating by `OpenFile` does if it does not. -/
theorem C79_found_partial (h0 : Sound S0) (hm : Held S0) (h : PathRuns S0 S hs) (hb : CleanComps base.reverse) (hd : S.ViewDir base) (hst : S.Straight base) (gone : Str → Bool)
    {p : Str} (hrel : isAbs p = false) (hup : dotdot ∉ split p) :
    (∀ n, S.Finds base p n →
      (∃ nd, S.view n = some nd ∧ S.locate base p false = some (n, nd)) ∧
      (∀ m, callOp base gone hs (.chmod p m) S = chmodOp n m S) ∧
      callOp base gone hs (.attr p false) S = attrOp n S ∧
      ∀ a b d e, callOp base gone hs (.openWrite p a b d e) S = program hs (.openWrite n a b d e) S) ∧
    (∀ c d, S.FindsIn base p c d →
      (S.locate base p true).map Prod.snd = S.view (c :: d) ∧
      callOp base gone hs (.remove p) S = removeOp (c :: d) S ∧
      (∀ o, callOp base gone hs (.removeAll p o) S = removeAllOp (c :: d) o S) ∧
      (∀ k, callOp base gone hs (.mkdir p k) S = mkdirOp (c :: d) k S) ∧
      (∀ t, callOp base gone hs (.symlink t p) S = symlinkOp t (c :: d) S) ∧
      callOp base gone hs (.attr p true) S = attrOp (c :: d) S ∧
      (∀ q c' d', isAbs q = false → dotdot ∉ split q → S.FindsIn base q c' d' →
        callOp base gone hs (.rename p q) S = renameOp (c :: d) (c' :: d') S ∧ callOp base gone hs (.link p q) S = linkOp (c :: d) (c' :: d') S) ∧
      (S.view (c :: d) = none → gone p = true → ∀ b k e, callOp base gone hs (.openWrite p true b k e) S = program hs (.openWrite (c :: d) true b k e) S)) := by
  have hS := (h.good h0 hm).sound.trees
  refine ⟨fun n hn => ?_, fun c d hf => ?_⟩
  · have hr := finds_resolve hS hb hd hst hrel hup hn
    obtain ⟨nd, hnd⟩ := finds_shows hd hn
    refine ⟨⟨nd, hnd, ?_⟩, fun m => callOp_some (call := .chmod n m) (by simp [PathCall.find, hr]), callOp_some (call := .attr n) (by simp [PathCall.find, hr]),
      fun a b d e => callOp_some (by simp [PathCall.find, hr])⟩
    unfold Sys.locate
    rw [hr]
    obtain ⟨i, hi⟩ := view_of_lookup hnd
    simp only [hi]
  · have hr := findsIn_resolve hS hb hd hst hrel hup hf
    have hself : ∀ {q c d}, isAbs q = false → dotdot ∉ split q → S.FindsIn base q c d → namesSelf q = false := by
      rintro q c d h1 h2 ⟨init, _, _, _, hi, _⟩
      exact decide_eq_false (clean_ne_dot_of_last h1 h2 hi)
    have hvd : S.ViewDir d := by obtain ⟨_, _, _, _, _, _, _, h⟩ := hf; exact h
    have hns := hself hrel hup hf
    refine ⟨?_, callOp_some (call := .remove (c :: d)) (by simp [PathCall.find, hns, hr]), fun o => callOp_some (call := .removeAll (c :: d) o) (by simp [PathCall.find, hns, hr]),
      fun k => callOp_some (call := .mkdir (c :: d) k) (by simp [PathCall.find, hr]), fun t => callOp_some (call := .symlink t (c :: d)) (by simp [PathCall.find, hr]),
      callOp_some (call := .attr (c :: d)) (by simp [PathCall.find, hr]), fun q c' d' h1 h2 hq => ?_, fun hv hg b k e => callOp_some ?_⟩
    · unfold Sys.locate
      rw [hr, S.view_cons hvd]
      simp only
      cases S.lookup (c :: d) <;> rfl
    · have hr' := findsIn_resolve hS hb hd hst h1 h2 hq
      have hns' := hself h1 h2 hq
      exact ⟨callOp_some (call := .rename (c :: d) (c' :: d')) (by simp [PathCall.find, hns, hns', hr, hr', both]), callOp_some (call := .link (c :: d) (c' :: d')) (by simp [PathCall.find, hr, hr', both])⟩
    · have hc : IsName c := by obtain ⟨_, _, _, _, hi, _⟩ := hf; exact last_isName hup hi
      simp [PathCall.find, resolve_missing hS hb hd hst hup hf hc hv, hg, hr]

/-- **C79** (partial) `MkdirAll`: if walking the first components of `p` leads to a directory that shows, and the next one is the last or nothing shows under it, the call works on that
place followed by the rest of `p` — given that the resolution failing for the longer parts of `p` is reported as "does not exist". -/
theorem C79_found_mkdirAll_partial (h0 : Sound S0) (hm : Held S0) (h : PathRuns S0 S hs) (hb : CleanComps base.reverse) (hd : S.ViewDir base) (hst : S.Straight base) (gone : Str → Bool)
    {p : Str} {init rest : List Str} {c : Str} {d : Name} (hp : placeOf p = some (init ++ c :: rest)) (hf : S.FindsIn base (join (init ++ [c])) c d) (hv : rest ≠ [] → S.view (c :: d) = none)
    (hg : ∀ a, a ≠ [] → a <+: rest → gone (join (init ++ c :: a)) = true) (perm : Nat) :
    callOp base gone hs (.mkdirAll p perm) S = mkdirAllOp perm (rest.reverse ++ c :: d) S := by
  have hS := (h.good h0 hm).sound.trees
  have hcc := (placeOf_some hp).2.2
  refine callOp_some (call := .mkdirAll (rest.reverse ++ c :: d) perm) ?_
  have hloc : isLocal (clean p) = true := (isLocal_clean_iff p).2 (by rw [hp]; simp)
  have hdot : clean p ≠ dot := by rw [Ne, clean_eq_dot_iff, hp]; simp
  have hcl := Names.clean_eq_join hp (by simp)
  simp only [PathCall.find, Names.mkdirAllName, if_neg hdot, hloc, Bool.true_eq_false, if_false]
  have hre : CleanComps rest := fun x hx => hcc x (by simp [hx])
  have := mkdirAllLoop_found hS hb hd hst gone (fun x hx => hcc x (by rcases List.mem_append.1 hx with hx | hx <;> simp_all)) hf ((clean p).length + 1) rest [] hv
    (by rw [hcl]; have := length_join hcc; simp at this ⊢; omega) hre (fun x hx => by cases hx) (fun a ha hpre => by rw [List.append_assoc]; exact hg a ha hpre)
  rw [List.append_nil, List.append_assoc] at this
  rw [hcl]
  rw [show (join ([] : List Str)) = [] from rfl] at this
  obtain ⟨full, h1, h2⟩ := Option.map_eq_some_iff.1 this
  rw [show init ++ ([c] ++ rest) = init ++ c :: rest from rfl, hcl] at h1
  exact (congrArg (Option.map (fun full => Call.mkdirAll (nameOf full) perm)) h1).trans (by rw [Option.map_some, h2])

/-! ### C84 for calls by path -/

theorem result_program_open (hs : List Handle) {n : Name} {create excl trunc : Bool} {perm : Nat} {S : Sys} {r : Except Errno Name} (h : result (openWriteOp n create excl trunc perm) S = r) :
    result (program hs (.openWrite n create excl trunc perm)) S = r.map fun _ => () := by
  show (program hs (.openWrite n create excl trunc perm) S).2.2 = _
  rw [program_open, ← h]
  rfl

/-- **C84** by path: `Mkdir`, `Symlink`, `RemoveAll`, and `OpenFile` with `O_CREATE` for a name that is free. -/
theorem C84_by_path_new_partial (h0 : Sound S0) (hm : Held S0) (hP : S0.Plain) (h : PathRuns S0 S hs) (hb : CleanComps base.reverse) (hd : S.ViewDir base) (hst : S.Straight base)
    (gone : Str → Bool) {p : Str} (hrel : isAbs p = false) (hup : dotdot ∉ split p) {c : Str} {d : Name} (hf : S.FindsIn base p c d) :
    (∀ perm, result (callOp base gone hs (.mkdir p perm)) S = freshAnswer (S.view (c :: d))) ∧
    (∀ t, result (callOp base gone hs (.symlink t p)) S = freshAnswer (S.view (c :: d))) ∧
    (∀ o, result (callOp base gone hs (.removeAll p o)) S = .ok ()) ∧
    (S.view (c :: d) = none → gone p = true → ∀ excl trunc perm, result (callOp base gone hs (.openWrite p true excl trunc perm)) S = .ok ()) := by
  obtain ⟨_, _, h3, h4, h5, _, _, h8⟩ := (C79_found_partial h0 hm h hb hd hst gone hrel hup).2 c d hf
  have hvd : S.ViewDir d := by obtain ⟨_, _, _, _, _, _, _, h⟩ := hf; exact h
  have hc := h.clean h0 hm
  have h1 := C84_new_partial h0 hm hP hc (c := c) hvd
  refine ⟨fun perm => ?_, fun t => ?_, fun o => ?_, fun hv hg excl trunc perm => ?_⟩
  · rw [result_eq (h4 perm)]; exact (h1 perm []).1
  · rw [result_eq (h5 t)]; exact (h1 0 t).2
  · rw [result_eq (h3 o)]; exact C84_removeAll_partial h0 hm hP hc hvd o
  · rw [result_eq (h8 hv hg excl trunc perm)]
    have := C84_open_partial h0 hm hP hc (c := c) hvd (fun nd hnd => by rw [hv] at hnd; cases hnd) true excl trunc perm
    rw [hv] at this
    exact result_program_open hs this

/-- **C84** by path: `Chmod` and opening for writing, of what is reached. (Devices apart.) -/
theorem C84_by_path_open_partial (h0 : Sound S0) (hm : Held S0) (hP : S0.Plain) (h : PathRuns S0 S hs) (hb : CleanComps base.reverse) (hd : S.ViewDir base) (hst : S.Straight base)
    (gone : Str → Bool) {p : Str} (hrel : isAbs p = false) (hup : dotdot ∉ split p) {c : Str} {d : Name} (hf : S.Finds base p (c :: d)) (hsp : S.view (c :: d) ≠ some .special) :
    (∀ m, result (callOp base gone hs (.chmod p m)) S = .ok ()) ∧
    (∀ create excl trunc perm, result (callOp base gone hs (.openWrite p create excl trunc perm)) S = (openAnswer (c :: d) create excl (S.view (c :: d))).map fun _ => ()) := by
  obtain ⟨⟨nd, hv, _⟩, h2, _, h4⟩ := (C79_found_partial h0 hm h hb hd hst gone hrel hup).1 _ hf
  have hS := (h.good h0 hm).sound.trees
  have hr := finds_resolve hS hb hd hst hrel hup hf
  have hu := (resolve_spec hb (ViewDir.unlinked hd) hr).2.2.2.1 rfl
  have hvd : S.ViewDir d := S.view_parent (by rw [hv]; simp)
  have hl : ∀ nd, S.view (c :: d) = some nd → nd.isLink = false ∧ nd ≠ .special := by
    intro nd hnd
    refine ⟨?_, fun he => hsp (by rw [hnd, he])⟩
    cases nd with
    | link t => exact absurd hnd (hu _ t (List.suffix_refl _))
    | _ => rfl
  have hc := h.clean h0 hm
  refine ⟨fun m => ?_, fun create excl trunc perm => ?_⟩
  · rw [result_eq (h2 m), C84_chmod_partial h0 hm hP hc hvd hl m, hv]; rfl
  · rw [result_eq (h4 create excl trunc perm)]
    exact result_program_open hs (C84_open_partial h0 hm hP hc hvd hl create excl trunc perm)

open Classical in
/-- **C84** by path: `Remove`. (No layer that counts has a symlink on the way to a directory removed.) -/
theorem C84_by_path_remove_partial (h0 : Sound S0) (hm : Held S0) (hP : S0.Plain) (hl : ∀ j, 0 < j → j ≤ S0.last → (S0.layer j).Lists) (h : PathRuns S0 S hs)
    (hb : CleanComps base.reverse) (hd : S.ViewDir base) (hst : S.Straight base) (gone : Str → Bool) {p : Str} (hrel : isAbs p = false) (hup : dotdot ∉ split p) {c : Str} {d : Name}
    (hf : S.FindsIn base p c d) (hn : S.ViewDir (c :: d) → S.NoLinkAbove (c :: d) ∧ S.NoLinkAt (c :: d)) :
    result (callOp base gone hs (.remove p)) S = removeAnswer (S.Bare (c :: d)) (S.view (c :: d)) := by
  obtain ⟨_, h2, _⟩ := (C79_found_partial h0 hm h hb hd hst gone hrel hup).2 c d hf
  have hvd : S.ViewDir d := by obtain ⟨_, _, _, _, _, _, _, h⟩ := hf; exact h
  rw [result_eq h2]
  exact C84_remove_partial h0 hm hP hl (h.clean h0 hm) hvd hn

/-- **C84** by path: `Link` and `Rename`. (Devices apart; for `Rename`, no layer that counts has a symlink on the way to a directory that is the target.) -/
theorem C84_by_path_move_partial (h0 : Sound S0) (hm : Held S0) (hP : S0.Plain) (hl : ∀ j, 0 < j → j ≤ S0.last → (S0.layer j).Lists) (h : PathRuns S0 S hs)
    (hb : CleanComps base.reverse) (hd : S.ViewDir base) (hst : S.Straight base) (gone : Str → Bool) {p q : Str} (hp : isAbs p = false ∧ dotdot ∉ split p) (hq : isAbs q = false ∧ dotdot ∉ split q)
    {co cn : Str} {dO dn : Name} (hfp : S.FindsIn base p co dO) (hfq : S.FindsIn base q cn dn) (hsp : S.view (co :: dO) ≠ some .special) :
    result (callOp base gone hs (.link p q)) S = linkAnswer (S.view (co :: dO)) (S.view (cn :: dn)) ∧
    ((S.ViewDir (cn :: dn) → S.NoLinkAbove (cn :: dn) ∧ S.NoLinkAt (cn :: dn)) → result (callOp base gone hs (.rename p q)) S =
      renameAnswer (co :: dO) (cn :: dn) (S.Shared (co :: dO)) (S.Bare (cn :: dn)) (S.view (co :: dO)) (S.view (cn :: dn))) := by
  obtain ⟨_, _, _, _, _, _, h7, _⟩ := (C79_found_partial h0 hm h hb hd hst gone hp.1 hp.2).2 co dO hfp
  obtain ⟨h7, h8⟩ := h7 q cn dn hq.1 hq.2 hfq
  have hd1 : S.ViewDir dO := by obtain ⟨_, _, _, _, _, _, _, h⟩ := hfp; exact h
  have hd2 : S.ViewDir dn := by obtain ⟨_, _, _, _, _, _, _, h⟩ := hfq; exact h
  refine ⟨?_, fun hn => ?_⟩
  · rw [result_eq h8]; exact C84_link_partial h0 hm hP (h.clean h0 hm) hd1 hd2 hsp
  · rw [result_eq h7]; exact C84_rename_partial h0 hm hP hl (h.clean h0 hm) hd1 hd2 hsp hn

end

open Example in
/-- The hypotheses are met: in `linked`, where `l` is a symlink to `d`, walking "l/x" reaches `d/x`, and "l/n" is a free name in `d`. -/
example : Sound linked ∧ Held linked ∧ PathRuns linked linked [] ∧ linked.ViewDir [] ∧ linked.Straight [] ∧ isAbs "l/x".toList = false ∧ dotdot ∉ split "l/x".toList ∧
    linked.Finds [] "l/x".toList [x, d] ∧ linked.FindsIn [] "l/n".toList ['n'] [d] ∧ linked.view [['n'], d] = none := by
  have hw : WalkN (linked.seen []) [] [l] [d] 1 := .link (by decide) rfl (t := ['d']) rfl rfl (.plain (e := .dir) (by decide) rfl rfl rfl (.nil _))
  refine ⟨linked_sound.1, linked_sound.2, .start, ⟨_, rfl⟩, linked_straight, rfl, by decide, ⟨[d, x], 1, by decide, ?_, rfl⟩,
    ⟨[l], [d], 1, by decide, by decide, hw, rfl, ⟨_, rfl⟩⟩, rfl⟩
  exact .link (by decide) rfl (t := ['d']) rfl rfl (.plain (e := .dir) (by decide) rfl rfl rfl (.plain (e := .file) (by decide) rfl rfl rfl (.nil _)))

namespace Example

theorem linked_plain : linked.Plain := by
  intro j t n e hj he
  rw [show linked.layer j = layerOf _ (.error .notExist) from if_neg (by omega)] at he
  cases he
  exact Or.inl rfl

end Example

open Example in
/-- So `Mkdir("l/n")` and `MkdirAll("l/n/o")` succeed, `Mkdir("l/x")` fails with "exists", `Chmod("l/x")` succeeds. -/
example : result (callOp [] (fun _ => true) [] (.mkdir "l/n".toList 0o700)) linked = .ok () ∧ result (callOp [] (fun _ => true) [] (.mkdir "l/x".toList 0o700)) linked = .error .exist ∧
    result (callOp [] (fun _ => true) [] (.chmod "l/x".toList 0o600)) linked = .ok () ∧
    result (callOp [] (fun _ => true) [] (.mkdirAll "l/n/o".toList 0o700)) linked = .ok () := by
  have hw : WalkN (linked.seen []) [] [l] [d] 1 := .link (by decide) rfl (t := ['d']) rfl rfl (.plain (e := .dir) (by decide) rfl rfl rfl (.nil _))
  have hb : CleanComps ([] : Name).reverse := fun c hc => by cases hc
  have hn : linked.FindsIn [] "l/n".toList ['n'] [d] := ⟨[l], [d], 1, by decide, by decide, hw, rfl, ⟨_, rfl⟩⟩
  have hx : linked.FindsIn [] "l/x".toList x [d] := ⟨[l], [d], 1, by decide, by decide, hw, rfl, ⟨_, rfl⟩⟩
  have hf : linked.Finds [] "l/x".toList [x, d] := ⟨[d, x], 1, by decide,
    .link (by decide) rfl (t := ['d']) rfl rfl (.plain (e := .dir) (by decide) rfl rfl rfl (.plain (e := .file) (by decide) rfl rfl rfl (.nil _))), rfl⟩
  refine ⟨?_, ?_, ?_, ?_⟩
  · exact (C84_by_path_new_partial linked_sound.1 linked_sound.2 linked_plain .start hb ⟨_, rfl⟩ linked_straight (fun _ => true) rfl (by decide) hn).1 _
  · exact (C84_by_path_new_partial linked_sound.1 linked_sound.2 linked_plain .start hb ⟨_, rfl⟩ linked_straight (fun _ => true) rfl (by decide) hx).1 _
  · exact (C84_by_path_open_partial linked_sound.1 linked_sound.2 linked_plain .start hb ⟨_, rfl⟩ linked_straight (fun _ => true) rfl (by decide) hf (by
      rw [show linked.view [x, d] = some (.file 0o644 ['1']) from rfl]; simp)).1 _
  · rw [result_eq (C79_found_mkdirAll_partial linked_sound.1 linked_sound.2 .start hb ⟨_, rfl⟩ linked_straight (fun _ => true) (p := "l/n/o".toList) (init := [l]) (c := ['n']) (rest := [['o']])
      (d := [d]) (by decide) ⟨[l], [d], 1, by decide, by decide, hw, rfl, ⟨_, rfl⟩⟩ (fun _ => rfl) (fun _ _ _ => rfl) 0o700)]
    rfl

end Verif.Overlay.Stack
