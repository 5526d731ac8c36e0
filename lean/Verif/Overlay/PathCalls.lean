import Verif.Overlay.PathProps
/-
C79: what the overlay's calls do, in terms of the strings they are given. C80: a sub-root stays inside its directory. Lemmas in PathProps.lean.
-/
namespace Verif.Overlay.Stack
open Verif.Path Verif.Prog
open Verif.Fsutil.Resolve (Walk RealDir Direct NoLink Cover AgreesOn)

/-! ### paths without symlinks -/

theorem scan_plain (fs : Fsutil.Resolve.Fs) : ∀ (rest done : List Str) (log : Fsutil.Resolve.Log),
    (∀ p, p <+: done ++ rest → p.length > done.length → ∀ k, fs.lstat k (join p) = some false) → ∃ log', Fsutil.Resolve.scan fs done rest log = (log', .all (done ++ rest)) := by
  intro rest
  induction rest with
  | nil => intro done log _; exact ⟨log, by simp [Fsutil.Resolve.scan]⟩
  | cons c rest ih =>
    intro done log h
    have hc := h (done ++ [c]) ⟨rest, by simp⟩ (by simp) log.length
    obtain ⟨log', h'⟩ := ih (done ++ [c]) (log ++ [.lstat (join (done ++ [c])) (some false)]) (fun p hp hl k => h p (by simpa using hp) (by simp at hl; omega) k)
    refine ⟨log', ?_⟩
    unfold Fsutil.Resolve.scan
    rw [hc]
    simpa using h'

theorem loop_plain (fs : Fsutil.Resolve.Fs) (cs : List Str) (h : ∀ p, p <+: cs → p ≠ [] → ∀ k, fs.lstat k (join p) = some false) (f : Nat) (log : Fsutil.Resolve.Log) :
    ∃ log', Fsutil.Resolve.loop fs (f + 1) 0 cs log = some (log', .ok cs) := by
  obtain ⟨log', h'⟩ := scan_plain fs cs [] log (fun p hp hl => h p (by simpa using hp) (by rintro rfl; simp at hl))
  refine ⟨log', ?_⟩
  unfold Fsutil.Resolve.loop
  rw [h']
  rfl

/-- The names on the way answer "not a symlink". -/
theorem plain_answers {S : Sys} {base : Name} (hb : CleanComps base.reverse) {cs : List Str} (hn : ∀ c ∈ cs, IsName c)
    (h : ∀ p, p <+: cs → p ≠ [] → ∃ nd, S.view (p.reverse ++ base) = some nd ∧ nd.isLink = false) (p : List Str) (hp : p <+: cs) (hne : p ≠ []) (k : Nat) :
    (S.answers base).lstat k (join p) = some false := by
  have hnp : ∀ c ∈ p, IsName c := fun c hc => hn c (hp.subset hc)
  rw [answers_lstat hb hne (fun c hc => ⟨(hnp c hc).1, (hnp c hc).2.2⟩), Fsutil.Resolve.names_self hnp]
  obtain ⟨nd, hv, hl⟩ := h p hp hne
  obtain ⟨i, hi⟩ := view_of_lookup hv
  rw [hi]
  exact congrArg some hl

theorem dirs_above {S : Sys} {base : Name} {cs : List Str} (h : S.ViewDir (cs.reverse ++ base)) : ∀ p, p <+: cs → ∃ nd, S.view (p.reverse ++ base) = some nd ∧ nd.isLink = false := by
  intro p hp
  have : p.reverse ++ base <:+ cs.reverse ++ base := by
    obtain ⟨q, rfl⟩ := hp
    rw [List.reverse_append, List.append_assoc]
    exact List.suffix_append _ _
  obtain ⟨m, hm⟩ := ViewDir.above h this
  exact ⟨_, hm, rfl⟩

theorem resolve_dot {S : Sys} {base : Name} (hb : CleanComps base.reverse) {p : Str} (h : clean p = dot) (skip : Bool) : S.resolve base p skip = some base := by
  unfold Sys.resolve Names.resolve Fsutil.Resolve.resolvePath
  rw [if_pos h]
  simp only
  rw [name_eq hb, show placeOf dot = some [] from by decide]
  simp [nameOf_pathOf hb]

/-- A path whose directories all show resolves to itself, the last component not followed. -/
theorem resolve_plain {S : Sys} {base : Name} (hb : CleanComps base.reverse) {p : Str} {rel : List Str} {c : Str} (hp : placeOf p = some (rel ++ [c]))
    (hd : S.ViewDir (rel.reverse ++ base)) : S.resolve base p true = some (c :: (rel.reverse ++ base)) := by
  have hdot : clean p ≠ dot := fun h => by rw [clean_eq_dot_iff, hp] at h; simp at h
  have hloc : isLocal (clean p) = true := (isLocal_clean_iff p).2 (by rw [hp]; simp)
  obtain ⟨hsp, hnm, _⟩ := Fsutil.Resolve.split_clean_eq hloc hdot
  rw [(placeOf_some hp).2.1] at hsp hnm
  have key : ∃ log, Fsutil.Resolve.resolvePath (S.answers base) p true = some (log, .ok (join (rel ++ [c]))) := by
    unfold Fsutil.Resolve.resolvePath
    rw [if_neg hdot, if_neg (by rw [hloc]; simp)]
    simp only [if_true]
    rw [hsp]
    split
    · refine ⟨[], ?_⟩
      rw [← hsp, join_split]
    · have hlast : (rel ++ [c]).getLastD [] = c := by simp [List.getLastD_eq_getLast?]
      rw [List.dropLast_concat, hlast]
      obtain ⟨log', h'⟩ := loop_plain (S.answers base) rel (plain_answers hb (fun x hx => hnm x (by simp [hx])) (fun p hp _ => dirs_above hd p hp)) Fsutil.Resolve.maxLinks []
      rw [h']
      exact ⟨_, rfl⟩
  obtain ⟨log, hk⟩ := key
  unfold Sys.resolve Names.resolve
  rw [hk]
  simp only
  rw [name_eq hb, placeOf_steps (by simp) (fun x hx => ⟨(hnm x hx).1, (hnm x hx).2.2⟩), Fsutil.Resolve.names_self hnm]
  simp only [Option.map_some]
  rw [nameOf_pathOf (cc_rel hb hnm)]
  simp

/-- The same with the last component followed, if it is there and no symlink. -/
theorem resolve_plain_follow {S : Sys} {base : Name} (hb : CleanComps base.reverse) {p : Str} {rel : List Str} (hp : placeOf p = some rel) {nd : Node}
    (hv : S.view (rel.reverse ++ base) = some nd) (hl : nd.isLink = false) : S.resolve base p false = some (rel.reverse ++ base) := by
  by_cases hdot : clean p = dot
  · rw [clean_eq_dot_iff, hp] at hdot
    cases hdot
    exact resolve_dot hb ((clean_eq_dot_iff p).2 hp) false
  · have hloc : isLocal (clean p) = true := (isLocal_clean_iff p).2 (by rw [hp]; simp)
    obtain ⟨hsp, hnm, hne⟩ := Fsutil.Resolve.split_clean_eq hloc hdot
    rw [(placeOf_some hp).2.1] at hsp hnm hne
    have hall : ∀ q, q <+: rel → q ≠ [] → ∃ nd, S.view (q.reverse ++ base) = some nd ∧ nd.isLink = false := by
      intro q hq _
      rcases List.eq_nil_or_concat rel with rfl | ⟨ini, lst, rfl⟩
      · exact absurd rfl hne
      · rw [List.concat_eq_append] at hq hv
        rcases List.prefix_concat_iff.1 (by simpa using hq) with rfl | hq
        · exact ⟨nd, by simpa using hv, hl⟩
        · refine dirs_above (cs := ini) ?_ q hq
          have : S.view (lst :: (ini.reverse ++ base)) = some nd := by simpa using hv
          exact S.view_parent (by rw [this]; simp)
    obtain ⟨log', h'⟩ := loop_plain (S.answers base) rel (plain_answers hb hnm hall) Fsutil.Resolve.maxLinks []
    unfold Sys.resolve Names.resolve Fsutil.Resolve.resolvePath
    rw [if_neg hdot, if_neg (by rw [hloc]; simp)]
    simp only [Bool.false_eq_true, if_false]
    rw [hsp, h']
    simp only
    rw [name_eq hb, placeOf_steps hne (fun x hx => ⟨(hnm x hx).1, (hnm x hx).2.2⟩), Fsutil.Resolve.names_self hnm]
    simp only [Option.map_some]
    rw [nameOf_pathOf (cc_rel hb hnm)]

theorem scan_missing (fs : Fsutil.Resolve.Fs) (c : Str) : ∀ (rest done : List Str) (log : Fsutil.Resolve.Log),
    (∀ p, p <+: done ++ rest → p.length > done.length → ∀ k, fs.lstat k (join p) = some false) → (∀ k, fs.lstat k (join (done ++ rest ++ [c])) = none) →
    ∃ log' q, Fsutil.Resolve.scan fs done (rest ++ [c]) log = (log', .missing q) := by
  intro rest
  induction rest with
  | nil =>
    intro done log _ hc
    rw [List.append_nil] at hc
    rw [List.nil_append]
    unfold Fsutil.Resolve.scan
    rw [hc]
    exact ⟨_, _, rfl⟩
  | cons x rest ih =>
    intro done log h hc
    have hx := h (done ++ [x]) ⟨rest, by simp⟩ (by simp) log.length
    rw [List.cons_append]
    unfold Fsutil.Resolve.scan
    rw [hx]
    exact ih (done ++ [x]) _ (fun p hp hl k => h p (by simpa using hp) (by simp at hl; omega) k) (by simpa using hc)

/-- What does not show cannot be followed to. -/
theorem resolve_plain_missing {S : Sys} {base : Name} (hb : CleanComps base.reverse) {p : Str} {rel : List Str} {c : Str} (hp : placeOf p = some (rel ++ [c]))
    (hd : S.ViewDir (rel.reverse ++ base)) (hv : S.view (c :: (rel.reverse ++ base)) = none) : S.resolve base p false = none := by
  have hdot : clean p ≠ dot := fun h => by rw [clean_eq_dot_iff, hp] at h; simp at h
  have hloc : isLocal (clean p) = true := (isLocal_clean_iff p).2 (by rw [hp]; simp)
  obtain ⟨hsp, hnm, _⟩ := Fsutil.Resolve.split_clean_eq hloc hdot
  rw [(placeOf_some hp).2.1] at hsp hnm
  have hmiss : ∀ k, (S.answers base).lstat k (join (rel ++ [c])) = none := by
    intro k
    rw [answers_lstat hb (by simp) (fun x hx => ⟨(hnm x hx).1, (hnm x hx).2.2⟩), Fsutil.Resolve.names_self hnm, List.reverse_append]
    cases hl : S.lookup ([c].reverse ++ rel.reverse ++ base) with
    | error e => rfl
    | ok x =>
      have hl : S.lookup (c :: (rel.reverse ++ base)) = .ok x := by simpa using hl
      rw [S.view_cons hd, hl] at hv
      cases hv
  obtain ⟨log', q, h'⟩ := scan_missing (S.answers base) c rel [] [] (fun p hp hl => plain_answers hb (fun x hx => hnm x (by simp [hx])) (fun p hp _ => dirs_above hd p hp) p (by simpa using hp)
    (by rintro rfl; simp at hl)) (by simpa using hmiss)
  unfold Sys.resolve Names.resolve Fsutil.Resolve.resolvePath
  rw [if_neg hdot, if_neg (by rw [hloc]; simp)]
  simp only [Bool.false_eq_true, if_false]
  rw [hsp]
  unfold Fsutil.Resolve.loop
  rw [h']
  rfl

/-- The answers do not depend on when they are asked for. -/
structure Steady (fs : Fsutil.Resolve.Fs) : Prop where
  lstat : ∀ k k' s, fs.lstat k s = fs.lstat k' s
  readlink : ∀ k k' s, fs.readlink k s = fs.readlink k' s

theorem answers_steady (S : Sys) (base : Name) : Steady (S.answers base) := ⟨fun _ _ _ => rfl, fun _ _ _ => rfl⟩

open Fsutil.Resolve in
theorem resolveSymlink_steady {fs : Fs} (hf : Steady fs) : ∀ (m : Nat) (p : Str) (i : Nat) (log log2 : Log), (resolveSymlink fs m p i log).2 = (resolveSymlink fs m p i log2).2 := by
  intro m
  induction m with
  | zero => intro p i log log2; rfl
  | succ m ih =>
    intro p i log log2
    unfold resolveSymlink
    rw [hf.readlink log.length log2.length]
    cases fs.readlink log2.length p with
    | none => rfl
    | some t =>
      simp only
      split
      · rfl
      · split
        · rfl
        · rw [hf.lstat (log.length + 1) (log2.length + 1)]
          split
          · rfl
          · rfl
          · exact ih _ _ _ _

open Fsutil.Resolve in
/-- One more component at the end that is there and is no symlink. -/
theorem scan_more {fs : Fs} (hf : Steady fs) (c : Str) : ∀ (rest done : List Str) (log log2 : Log),
    (∀ d, (Fsutil.Resolve.scan fs done rest log).2 = .all d → (∀ k, fs.lstat k (join (d ++ [c])) = some false) → (Fsutil.Resolve.scan fs done (rest ++ [c]) log2).2 = .all (d ++ [c])) ∧
    (∀ d r, (Fsutil.Resolve.scan fs done rest log).2 = .link d r → (Fsutil.Resolve.scan fs done (rest ++ [c]) log2).2 = .link d (r ++ [c])) := by
  intro rest
  induction rest with
  | nil =>
    intro done log log2
    refine ⟨fun d h hl => ?_, fun d r h => by simp [Fsutil.Resolve.scan] at h⟩
    simp only [Fsutil.Resolve.scan, Scan.all.injEq] at h
    subst h
    rw [List.nil_append]
    unfold Fsutil.Resolve.scan
    rw [hl]
    simp [Fsutil.Resolve.scan]
  | cons x rest ih =>
    intro done log log2
    rw [List.cons_append]
    unfold Fsutil.Resolve.scan
    rw [hf.lstat log.length log2.length]
    cases fs.lstat log2.length (join (done ++ [x])) with
    | none => exact ⟨fun d h _ => (by simp at h), fun d r h => by simp at h⟩
    | some b =>
      cases b with
      | false => exact ih _ _ _
      | true =>
        refine ⟨fun d h _ => (by simp at h), fun d r h => ?_⟩
        simp only [Scan.link.injEq] at h ⊢
        exact ⟨h.1, by rw [h.2]⟩

open Fsutil.Resolve in
theorem loop_more {fs : Fs} (hf : Steady fs) (c : Str) : ∀ (fuel cur : Nat) (name : List Str) (log log' log2 : Log) (d : List Str), loop fs fuel cur name log = some (log', .ok d) →
    (∀ k, fs.lstat k (join (d ++ [c])) = some false) → ∃ l, loop fs fuel cur (name ++ [c]) log2 = some (l, .ok (d ++ [c])) := by
  intro fuel
  induction fuel with
  | zero => intro cur name log log' log2 d h; simp [loop] at h
  | succ f ih =>
    intro cur name log log' log2 d h hl
    obtain ⟨hm1, hm2⟩ := scan_more hf c name [] log log2
    unfold loop at h ⊢
    rcases hs : Fsutil.Resolve.scan fs [] name log with ⟨l1, r1⟩
    rcases hs2 : Fsutil.Resolve.scan fs [] (name ++ [c]) log2 with ⟨l2, r2⟩
    rw [hs] at h hm1 hm2
    rw [hs2] at hm1 hm2
    cases r1 with
    | all d' =>
      simp only [Option.some.injEq, Prod.mk.injEq, Except.ok.injEq] at h
      obtain ⟨rfl, rfl⟩ := h
      have := hm1 d' rfl hl
      simp only at this
      subst this
      exact ⟨_, rfl⟩
    | missing p => simp at h
    | link dn rest =>
      have := hm2 dn rest rfl
      simp only at this
      subst this
      simp only at h ⊢
      have hrs := resolveSymlink_steady hf (maxLinks - cur) (clean (join dn)) 0 l1 l2
      rcases hr1 : resolveSymlink fs (maxLinks - cur) (clean (join dn)) 0 l1 with ⟨k1, e1⟩
      rcases hr2 : resolveSymlink fs (maxLinks - cur) (clean (join dn)) 0 l2 with ⟨k2, e2⟩
      rw [hr1, hr2] at hrs
      simp only at hrs
      subst hrs
      rw [hr1] at h
      cases e1 with
      | error e => simp at h
      | ok x =>
        obtain ⟨r, n⟩ := x
        simp only at h ⊢
        split at h
        · simp at h
        · rename_i hc
          rw [if_neg hc]
          cases r with
          | none => simp at h
          | some r =>
            simp only at h ⊢
            split at h
            · simp at h
            · rename_i hloc
              rw [if_neg hloc, ← List.append_assoc]
              exact ih _ _ _ _ _ _ h hl

/-- What shows and is no symlink is found with its last component followed too. -/
theorem resolve_follow {S : Sys} {base : Name} (hb : CleanComps base.reverse) {p : Str} {n : Name} (h : S.resolve base p true = some n) {i : Nat} {nd : Node} (hv : S.lookup n = .ok (i, nd))
    (hl : nd.isLink = false) : S.resolve base p false = some n := by
  by_cases hdot : clean p = dot
  · rw [resolve_dot hb hdot] at h ⊢
    exact h
  · obtain ⟨log, r, hr, hst, rfl⟩ := resolve_parts hb h
    unfold Fsutil.Resolve.resolvePath at hr
    rw [if_neg hdot] at hr
    by_cases h2 : isLocal (clean p) = false
    · rw [if_pos h2] at hr; simp at hr
    · rw [if_neg h2] at hr
      have hloc : isLocal (clean p) = true := by simpa using h2
      obtain ⟨hsp, hnm, hne⟩ := Fsutil.Resolve.split_clean_eq hloc hdot
      have hstc : ∀ c ∈ split (clean p), Fsutil.Resolve.Step c := by
        rw [hsp]; exact fun c hc => ⟨(hnm c hc).1, (hnm c hc).2.2⟩
      simp only [if_true] at hr
      have hsr : (S.answers base).lstat 0 (join (split r)) = some false := by
        rw [answers_lstat hb (split_ne_nil _) hst, hv]
        exact congrArg some hl
      have hsr' : ∀ k, (S.answers base).lstat k (join (split r)) = some false := fun k => hsr
      have key : ∃ l d, Fsutil.Resolve.loop (S.answers base) (Fsutil.Resolve.maxLinks + 1) 0 (split (clean p)) [] = some (l, .ok d) ∧ join d = r := by
        by_cases hlen : (split (clean p)).length ≤ 1
        · rw [if_pos hlen] at hr
          simp only [Option.some.injEq, Prod.mk.injEq, Except.ok.injEq] at hr
          obtain ⟨_, rfl⟩ := hr
          obtain ⟨l, hl'⟩ := loop_plain (S.answers base) (split (clean p)) (fun q hq hqne k => by
            have : q = split (clean p) := by
              have hq1 : 0 < q.length := List.length_pos_iff.2 hqne
              exact hq.eq_of_length (by have := hq.length_le; omega)
            rw [this]; exact hsr' k) Fsutil.Resolve.maxLinks []
          exact ⟨l, _, hl', join_split _⟩
        · rw [if_neg hlen] at hr
          split at hr
          · simp at hr
          · simp at hr
          · rename_i done hlp
            simp only [Option.some.injEq, Prod.mk.injEq, Except.ok.injEq] at hr
            obtain ⟨rfl, rfl⟩ := hr
            obtain ⟨hd, hl⟩ := Fsutil.Resolve.mem_dropLast_or_last (cs := split (clean p)) (by omega)
            obtain ⟨new, res, k1, _, _, k4, _⟩ := Fsutil.Resolve.loop_spec (S.answers base) (Fsutil.Resolve.maxLinks + 1) 0 (split (clean p)).dropLast []
              (fun c hc => hstc c (List.dropLast_subset _ hc)) hd (by simp [Fsutil.Resolve.maxLinks]) (by simp)
            rw [hlp] at k1
            simp only [Option.some.injEq, Prod.mk.injEq] at k1
            obtain ⟨_, k7, _⟩ := k4 done k1.2.symm
            have hsj : split (join (done ++ [(split (clean p)).getLastD []])) = done ++ [(split (clean p)).getLastD []] :=
              split_join (by simp) (fun c hc => (steps_snoc k7 (hstc _ hl) c hc).1.2)
            obtain ⟨l, hl'⟩ := loop_more (answers_steady S base) ((split (clean p)).getLastD []) _ _ _ _ _ [] _ hlp (fun k => by
              have := hsr' k
              rwa [hsj] at this)
            have hcs : (split (clean p)).dropLast ++ [(split (clean p)).getLastD []] = split (clean p) := by
              rcases List.eq_nil_or_concat (split (clean p)) with he | ⟨i, l, he⟩
              · exact absurd he (split_ne_nil _)
              · rw [he]; simp [List.getLastD_eq_getLast?]
            rw [hcs] at hl'
            exact ⟨l, _, hl', rfl⟩
      obtain ⟨l, d, hlp, rfl⟩ := key
      unfold Sys.resolve Names.resolve Fsutil.Resolve.resolvePath
      rw [if_neg hdot, if_neg h2]
      simp only [Bool.false_eq_true, if_false]
      rw [hlp]
      simp only
      rw [name_eq hb, show placeOf (join d) = some (Fsutil.Resolve.names (split (join d))) from by
        have := placeOf_steps (split_ne_nil _) hst
        rwa [join_split] at this]
      simp only [Option.map_some]
      rw [nameOf_pathOf (cc_rel hb (Fsutil.Resolve.names_isName (Fsutil.Resolve.step_noUp hst)))]

/-! ### the name `MkdirAll` works on -/

/-- `p`, cleaned, is `hd` followed by `rest`, and `n` is what `hd` names followed by `rest`. -/
structure Spelled (S : Sys) (base : Name) (p : Str) (n : Name) : Prop where
  under : base <:+ n
  parts : clean p = dot ∧ n = base ∨ ∃ hd rest n0, hd ≠ [] ∧ placeOf p = some (hd ++ rest) ∧ Named S base (join hd) n0 ∧ n = rest.reverse ++ n0

theorem mkdirAllLoop_named {S : Sys} (hS : S.Trees) {base : Name} (hr : Rooted S base) (gone : Str → Bool) : ∀ (fuel : Nat) (hd rest : List Str) (full : Str),
    CleanComps hd → hd ≠ [] → CleanComps rest → Names.mkdirAllLoop (fun h => match Names.resolve (S.answers base) (pathOf base) h true with
      | some r => .ok r
      | none => .error (gone h)) fuel (join hd) (join rest) = some full →
    ∃ hd' rest' n0, hd' ≠ [] ∧ hd' ++ rest' = hd ++ rest ∧ Named S base (join hd') n0 ∧ nameOf full = rest'.reverse ++ n0 := by
  intro fuel
  induction fuel with
  | zero => intro hd rest full _ _ _ h; cases h
  | succ f ih =>
    intro hd rest full hhd hne hrest h
    unfold Names.mkdirAllLoop at h
    cases hr' : Names.resolve (S.answers base) (pathOf base) (join hd) true with
    | some r =>
      simp only [hr', Option.some.injEq] at h
      have hres : S.resolve base (join hd) true = some (nameOf r) := by unfold Sys.resolve; rw [hr']; rfl
      obtain ⟨rel, hrel, rfl⟩ := Names.C63_resolve hr.clean _ _ _ _ hr'
      refine ⟨hd, rest, nameOf (join (base.reverse ++ rel)), hne, rfl, named hS hr hres, ?_⟩
      rw [← h, Names.childName_join hrel hrest, nameOf_join (Names.cc_append hrel hrest), nameOf_join hrel, List.reverse_append]
    | none =>
      simp only [hr'] at h
      cases hg : gone (join hd) with
      | false => rw [hg] at h; cases h
      | true =>
        rw [hg] at h
        simp only at h
        split at h
        · rename_i hs
          rcases List.eq_nil_or_concat hd with rfl | ⟨ini, lst, rfl⟩
          · cases hs
          · rw [List.concat_eq_append] at h hhd hs
            have hl : IsName lst := hhd lst (by simp)
            rw [Names.parentName_join hl, Names.filePart_join hl] at h
            have hc : childName lst (join rest) = join (lst :: rest) :=
              Names.childName_join (as := [lst]) (bs := rest) (by intro c hc; simp at hc; rw [hc]; exact hl) hrest
            rw [hc] at h
            have hini : ini ≠ [] := by
              rintro rfl
              rw [List.nil_append] at hs
              exact hl.1.2 hs
            obtain ⟨hd', rest', n0, h0, h1, h2, h3⟩ := ih ini (lst :: rest) full (fun c hc => hhd c (by simp [hc])) hini (by
              intro c hc
              rcases List.mem_cons.1 hc with rfl | hc
              · exact hl
              · exact hrest c hc) h
            exact ⟨hd', rest', n0, h0, by rw [h1]; simp, h2, h3⟩
        · cases h

theorem spelled {S : Sys} (hS : S.Trees) {base : Name} (hr : Rooted S base) (gone : Str → Bool) {p : Str} {full : Str}
    (h : Names.mkdirAllName (fun h => match Names.resolve (S.answers base) (pathOf base) h true with
      | some r => .ok r
      | none => .error (gone h)) (pathOf base) p = some full) : Spelled S base p (nameOf full) := by
  unfold Names.mkdirAllName at h
  split at h
  · rename_i hdot
    cases h
    exact ⟨by rw [nameOf_pathOf hr.clean]; exact List.suffix_refl _, Or.inl ⟨hdot, nameOf_pathOf hr.clean⟩⟩
  · split at h
    · cases h
    · rename_i hd hl
      have hl : isLocal (clean p) = true := by cases hx : isLocal (clean p) <;> simp_all
      cases hp : placeOf p with
      | none => exact absurd hp ((isLocal_clean_iff p).1 hl)
      | some ns =>
        have hne : ns ≠ [] := by rintro rfl; exact hd ((clean_eq_dot_iff p).2 hp)
        rw [Names.clean_eq_join hp hne] at h
        obtain ⟨hd', rest', n0, h0, h1, h2, h3⟩ := mkdirAllLoop_named hS hr gone _ ns [] full (placeOf_some hp).2.2 hne (by intro c hc; cases hc) h
        rw [List.append_nil] at h1
        exact ⟨by rw [h3]; exact h2.under.trans (List.suffix_append _ _), Or.inr ⟨hd', rest', n0, h0, by rw [h1]; exact hp, h2, h3⟩⟩

/-! ### C79: what each call does -/

section
variable {S0 S : Sys} {hs : List Handle} {base : Name}

/-- **C79** `Remove(p)`: if it succeeds, what `p` names was there, is gone with everything beneath, and nothing else changed. Whatever happens, and wherever the process dies, nothing
but that can have gone. -/
theorem C79_remove_partial (h0 : Sound S0) (hm : Held S0) (h : PathRuns S0 S hs) (hr : Rooted S base) (gone : Str → Bool) (p : Str) :
    (result (callOp base gone hs (.remove p)) S = .ok () → ∃ n, Named S base p n ∧ n ≠ base ∧ S.view n ≠ none ∧
      (∀ m, n <:+ m → (final (callOp base gone hs (.remove p)) S).view m = none) ∧
      ∀ m, ¬ n <:+ m → (final (callOp base gone hs (.remove p)) S).view m = S.view m) ∧
    ∀ S', During (callOp base gone hs (.remove p)) S S' → S' = S ∨ ∃ n, Named S base p n ∧ n ≠ base ∧ OnlyGone n S S' := by
  have hG := h.good h0 hm
  cases hf : (PathCall.remove p).find S base gone with
  | none =>
    obtain ⟨r, he, hok⟩ := callOp_none (hs := hs) hf
    refine ⟨fun h => ?_, fun S' h => Or.inl (during_idle he h)⟩
    rw [result_idle he] at h
    obtain ⟨_, _, hc, _⟩ := hok h
    cases hc
  | some call =>
    have he := callOp_some (hs := hs) hf
    simp only [PathCall.find] at hf
    split at hf
    · cases hf
    · rename_i hns
      obtain ⟨n, hn, rfl⟩ := Option.map_eq_some_iff.1 hf
      have hnm := named hG.sound.trees hr hn
      have hnb := hnm.proper (by simpa [namesSelf] using hns)
      have := remove_at hG hnm.real
      rw [result_eq he, final_eq he]
      exact ⟨fun h => ⟨n, hnm, hnb, this.1 h⟩, fun S' h => Or.inr ⟨n, hnm, hnb, this.2 S' ((during_eq he S').1 h)⟩⟩

/-- **C79** `RemoveAll(p)`, for any outcome of the removals in the top layer. It also succeeds when `p` does not exist: then nothing changed. -/
theorem C79_removeAll_partial (h0 : Sound S0) (hm : Held S0) (h : PathRuns S0 S hs) (hr : Rooted S base) (gone : Str → Bool) (p : Str) (steps : List (Name → Bool)) :
    (result (callOp base gone hs (.removeAll p steps)) S = .ok () → clean p ≠ dot ∧ ((S.resolve base p true = none ∧ final (callOp base gone hs (.removeAll p steps)) S = S) ∨
      ∃ n, Named S base p n ∧ n ≠ base ∧ (∀ m, n <:+ m → (final (callOp base gone hs (.removeAll p steps)) S).view m = none) ∧
      ∀ m, ¬ n <:+ m → (final (callOp base gone hs (.removeAll p steps)) S).view m = S.view m)) ∧
    ∀ S', During (callOp base gone hs (.removeAll p steps)) S S' → S' = S ∨ ∃ n, Named S base p n ∧ n ≠ base ∧ OnlyGone n S S' := by
  have hG := h.good h0 hm
  cases hf : (PathCall.removeAll p steps).find S base gone with
  | none =>
    obtain ⟨r, he, hok⟩ := callOp_none (hs := hs) hf
    refine ⟨fun h => ?_, fun S' h => Or.inl (during_idle he h)⟩
    rw [result_idle he] at h
    obtain ⟨p', o', hc, hns⟩ := hok h
    cases hc
    refine ⟨by simpa [namesSelf] using hns, Or.inl ⟨?_, final_idle he⟩⟩
    simp only [PathCall.find, hns, Bool.false_eq_true, if_false, Option.map_eq_none_iff] at hf
    exact hf
  | some call =>
    have he := callOp_some (hs := hs) hf
    simp only [PathCall.find] at hf
    split at hf
    · cases hf
    · rename_i hns
      obtain ⟨n, hn, rfl⟩ := Option.map_eq_some_iff.1 hf
      have hnm := named hG.sound.trees hr hn
      have hdot : clean p ≠ dot := by simpa [namesSelf] using hns
      have hnb := hnm.proper hdot
      have := removeAll_at hG hnm.real steps
      rw [result_eq he, final_eq he]
      exact ⟨fun h => ⟨hdot, Or.inr ⟨n, hnm, hnb, (this.1 h).2⟩⟩, fun S' h => Or.inr ⟨n, hnm, hnb, this.2 S' ((during_eq he S').1 h)⟩⟩

/-- **C79** `Mkdir(p)`: if it succeeds, nothing showed where `p` names and its parent was a directory; now there is an empty directory, and all else is as it was (up to permissions of
directories that had to be made in the top layer). Wherever it stops, only that directory may have appeared. -/
theorem C79_mkdir_partial (h0 : Sound S0) (hm : Held S0) (h : PathRuns S0 S hs) (hr : Rooted S base) (gone : Str → Bool) (p : Str) (perm : Nat) :
    (result (callOp base gone hs (.mkdir p perm)) S = .ok () → ∃ n, Named S base p n ∧ S.view n = none ∧ S.ViewDir n.tail ∧
      (∃ k, (final (callOp base gone hs (.mkdir p perm)) S).view n = some (.dir k)) ∧
      (∀ m, n <:+ m → m ≠ n → (final (callOp base gone hs (.mkdir p perm)) S).view m = none) ∧
      ∀ m, m ≠ n → SameButDirMode ((final (callOp base gone hs (.mkdir p perm)) S).view m) (S.view m)) ∧
    ∀ S', During (callOp base gone hs (.mkdir p perm)) S S' → S' = S ∨ ∃ n, Named S base p n ∧ OnlyNewDirs (fun m => m = n) S S' := by
  have hG := h.good h0 hm
  cases hf : (PathCall.mkdir p perm).find S base gone with
  | none =>
    obtain ⟨r, he, hok⟩ := callOp_none (hs := hs) hf
    refine ⟨fun h => ?_, fun S' h => Or.inl (during_idle he h)⟩
    rw [result_idle he] at h
    obtain ⟨_, _, hc, _⟩ := hok h
    cases hc
  | some call =>
    have he := callOp_some (hs := hs) hf
    obtain ⟨n, hn, rfl⟩ := Option.map_eq_some_iff.1 hf
    have hnm := named hG.sound.trees hr hn
    have := mkdir_at hG hnm.real perm
    rw [result_eq he, final_eq he]
    exact ⟨fun h => ⟨n, hnm, this.1 h⟩, fun S' h => Or.inr ⟨n, hnm, this.2 S' ((during_eq he S').1 h)⟩⟩

/-- **C79** `MkdirAll(p)`: if it succeeds, what `p` spells is a directory. Wherever it stops, nothing has changed except that directories on the way to it may have appeared where nothing
showed. -/
theorem C79_mkdirAll_partial (h0 : Sound S0) (hm : Held S0) (h : PathRuns S0 S hs) (hr : Rooted S base) (gone : Str → Bool) (p : Str) (perm : Nat) :
    (result (callOp base gone hs (.mkdirAll p perm)) S = .ok () → ∃ n, Spelled S base p n ∧ (final (callOp base gone hs (.mkdirAll p perm)) S).ViewDir n) ∧
    ∀ S', During (callOp base gone hs (.mkdirAll p perm)) S S' → S' = S ∨ ∃ n, Spelled S base p n ∧ OnlyNewDirs (fun m => m <:+ n) S S' := by
  have hG := h.good h0 hm
  cases hf : (PathCall.mkdirAll p perm).find S base gone with
  | none =>
    obtain ⟨r, he, hok⟩ := callOp_none (hs := hs) hf
    refine ⟨fun h => ?_, fun S' h => Or.inl (during_idle he h)⟩
    rw [result_idle he] at h
    obtain ⟨_, _, hc, _⟩ := hok h
    cases hc
  | some call =>
    have he := callOp_some (hs := hs) hf
    obtain ⟨full, hn, rfl⟩ := Option.map_eq_some_iff.1 hf
    have hsp := spelled hG.sound.trees hr gone hn
    have := C56_mkdirAll_partial hG.sound.trees (n := nameOf full) (fun a _ ho => hG.held.ne_none ho) perm
    rw [result_eq he, final_eq he]
    exact ⟨fun h => ⟨_, hsp, this.1 h⟩, fun S' h => Or.inr ⟨_, hsp, this.2 S' ((during_eq he S').1 h)⟩⟩

/-- **C79** `Symlink(t, p)`. -/
theorem C79_symlink_partial (h0 : Sound S0) (hm : Held S0) (h : PathRuns S0 S hs) (hr : Rooted S base) (gone : Str → Bool) (t p : Str) :
    (result (callOp base gone hs (.symlink t p)) S = .ok () → ∃ n, Named S base p n ∧ S.view n = none ∧ S.ViewDir n.tail ∧
      (final (callOp base gone hs (.symlink t p)) S).view n = some (.link t)) ∧
    (result (callOp base gone hs (.symlink t p)) S ≠ .ok () → ∀ m, SameButDirMode ((final (callOp base gone hs (.symlink t p)) S).view m) (S.view m)) ∧
    ∀ S', During (callOp base gone hs (.symlink t p)) S S' → S' = S ∨ ∃ n, Named S base p n ∧ OnlyAt n (some (.link t)) S S' := by
  have hG := h.good h0 hm
  cases hf : (PathCall.symlink t p).find S base gone with
  | none =>
    obtain ⟨r, he, hok⟩ := callOp_none (hs := hs) hf
    refine ⟨fun h => ?_, fun _ m => by rw [final_idle he]; exact .refl _, fun S' h => Or.inl (during_idle he h)⟩
    rw [result_idle he] at h
    obtain ⟨_, _, hc, _⟩ := hok h
    cases hc
  | some call =>
    have he := callOp_some (hs := hs) hf
    obtain ⟨n, hn, rfl⟩ := Option.map_eq_some_iff.1 hf
    have hnm := named hG.sound.trees hr hn
    have := symlink_at hG hnm.real t
    rw [result_eq he, final_eq he]
    exact ⟨fun h => ⟨n, hnm, this.1 h⟩, this.2.1, fun S' h => Or.inr ⟨n, hnm, this.2.2 S' ((during_eq he S').1 h)⟩⟩

/-- **C79** `Link(a, b)`: afterwards what `b` names shows what `a` names (no directory), where nothing showed before. -/
theorem C79_link_partial (h0 : Sound S0) (hm : Held S0) (h : PathRuns S0 S hs) (hr : Rooted S base) (gone : Str → Bool) (a b : Str) :
    (result (callOp base gone hs (.link a b)) S = .ok () → ∃ x n, Named S base a x ∧ Named S base b n ∧ S.view n = none ∧ S.ViewDir n.tail ∧
      (final (callOp base gone hs (.link a b)) S).view n = S.view x ∧ ∃ nd, S.view x = some nd ∧ nd.isDir = false) ∧
    (result (callOp base gone hs (.link a b)) S ≠ .ok () → ∀ m, SameButDirMode ((final (callOp base gone hs (.link a b)) S).view m) (S.view m)) ∧
    ∀ S', During (callOp base gone hs (.link a b)) S S' → S' = S ∨ ∃ x n, Named S base a x ∧ Named S base b n ∧ OnlyAt n (S.view x) S S' := by
  have hG := h.good h0 hm
  cases hf : (PathCall.link a b).find S base gone with
  | none =>
    obtain ⟨r, he, hok⟩ := callOp_none (hs := hs) hf
    refine ⟨fun h => ?_, fun _ m => by rw [final_idle he]; exact .refl _, fun S' h => Or.inl (during_idle he h)⟩
    rw [result_idle he] at h
    obtain ⟨_, _, hc, _⟩ := hok h
    cases hc
  | some call =>
    have he := callOp_some (hs := hs) hf
    obtain ⟨x, n, hx, hn, rfl⟩ := both_some hf
    have hxm := named hG.sound.trees hr hx
    have hnm := named hG.sound.trees hr hn
    have := link_at hG hxm.real hnm.real
    rw [result_eq he, final_eq he]
    exact ⟨fun h => ⟨x, n, hxm, hnm, this.1 h⟩, this.2.1, fun S' h => Or.inr ⟨x, n, hxm, hnm, this.2.2 S' ((during_eq he S').1 h)⟩⟩

/-- **C79** `Rename(a, b)`: if it succeeds, what `a` names has moved to what `b` names, or both name the same. A failure changes nothing but permissions of directories. When the process
dies in between, nothing else has changed, and either nothing at all has or everything is found at the new place. -/
theorem C79_rename_partial (h0 : Sound S0) (hm : Held S0) (h : PathRuns S0 S hs) (hr : Rooted S base) (gone : Str → Bool) (a b : Str) :
    (result (callOp base gone hs (.rename a b)) S = .ok () → ∃ x n, Named S base a x ∧ Named S base b n ∧ x ≠ base ∧ n ≠ base ∧ S.view x ≠ none ∧
      (x = n ∧ final (callOp base gone hs (.rename a b)) S = S ∨ x ≠ n ∧ MovedTo x n S (final (callOp base gone hs (.rename a b)) S))) ∧
    (result (callOp base gone hs (.rename a b)) S ≠ .ok () → ∀ m, SameButDirMode ((final (callOp base gone hs (.rename a b)) S).view m) (S.view m)) ∧
    ∀ S' ∈ crashes (callOp base gone hs (.rename a b)) S, ∃ x n, Named S base a x ∧ Named S base b n ∧ x ≠ base ∧ n ≠ base ∧
      (∀ m, ¬ x <:+ m → ¬ n <:+ m → SameButDirMode (S'.view m) (S.view m)) ∧
      ((∀ m, SameButDirMode (S'.view m) (S.view m)) ∨ ∀ r nd, S.view (r ++ x) = some nd → S'.view (r ++ n) = some nd) := by
  have hG := h.good h0 hm
  cases hf : (PathCall.rename a b).find S base gone with
  | none =>
    obtain ⟨r, he, hok⟩ := callOp_none (hs := hs) hf
    refine ⟨fun h => ?_, fun _ m => by rw [final_idle he]; exact .refl _, fun S' h => ?_⟩
    · rw [result_idle he] at h
      obtain ⟨_, _, hc, _⟩ := hok h
      cases hc
    · have h : S' ∈ (callOp base gone hs (.rename a b) S).1 := h
      rw [he] at h
      cases h
  | some call =>
    have he := callOp_some (hs := hs) hf
    simp only [PathCall.find] at hf
    split at hf
    · cases hf
    · rename_i hns
      obtain ⟨x, n, hx, hn, rfl⟩ := both_some hf
      have hxm := named hG.sound.trees hr hx
      have hnm := named hG.sound.trees hr hn
      simp only [namesSelf, Bool.or_eq_true, decide_eq_true_eq, not_or] at hns
      have := rename_at hG hxm.real hnm.real
      have hcr : crashes (callOp base gone hs (.rename a b)) S = crashes (renameOp x n) S := by unfold crashes; rw [he]; rfl
      rw [result_eq he, final_eq he, hcr]
      refine ⟨fun h => ?_, this.2.1, fun S' h => ⟨x, n, hxm, hnm, hxm.proper hns.1, hnm.proper hns.2, this.2.2 S' h⟩⟩
      obtain ⟨_, _, h3, h4⟩ := this.1 h
      exact ⟨x, n, hxm, hnm, hxm.proper hns.1, hnm.proper hns.2, h3, h4⟩

/-- **C79** `Chmod(p)`: the mode of what `p` leads to changes, nothing else. -/
theorem C79_chmod_partial (h0 : Sound S0) (hm : Held S0) (h : PathRuns S0 S hs) (hr : Rooted S base) (gone : Str → Bool) (p : Str) (mode : Nat) :
    (result (callOp base gone hs (.chmod p mode)) S = .ok () → ∃ n nd, Reached S base p n ∧ S.view n = some nd ∧
      (final (callOp base gone hs (.chmod p mode)) S).view n = some (nd.withMode mode)) ∧
    (result (callOp base gone hs (.chmod p mode)) S ≠ .ok () → ∀ m, SameButDirMode ((final (callOp base gone hs (.chmod p mode)) S).view m) (S.view m)) ∧
    ∀ S', During (callOp base gone hs (.chmod p mode)) S S' → S' = S ∨ ∃ n, Reached S base p n ∧ OnlyAt n ((S.view n).map (·.withMode mode)) S S' := by
  have hG := h.good h0 hm
  cases hf : (PathCall.chmod p mode).find S base gone with
  | none =>
    obtain ⟨r, he, hok⟩ := callOp_none (hs := hs) hf
    refine ⟨fun h => ?_, fun _ m => by rw [final_idle he]; exact .refl _, fun S' h => Or.inl (during_idle he h)⟩
    rw [result_idle he] at h
    obtain ⟨_, _, hc, _⟩ := hok h
    cases hc
  | some call =>
    have he := callOp_some (hs := hs) hf
    obtain ⟨n, hn, rfl⟩ := Option.map_eq_some_iff.1 hf
    have hnm := reached hG.sound.trees hr hn
    have := chmod_at hG hnm.real mode
    rw [result_eq he, final_eq he]
    exact ⟨fun h => (by obtain ⟨nd, h1, h2⟩ := this.1 h; exact ⟨n, nd, hnm, h1, h2⟩), this.2.1, fun S' h => Or.inr ⟨n, hnm, this.2.2 S' ((during_eq he S').1 h)⟩⟩

/-- **C79** The other changes of attributes (`Chown`, `Lchown`, `Chtimes`; what they set is not modelled) move content into the top layer, which no one sees. -/
theorem C79_attr_partial (h0 : Sound S0) (hm : Held S0) (h : PathRuns S0 S hs) (hr : Rooted S base) (gone : Str → Bool) (p : Str) (nofollow : Bool) :
    ∀ S', During (callOp base gone hs (.attr p nofollow)) S S' → ∀ m, SameButDirMode (S'.view m) (S.view m) := by
  have hG := h.good h0 hm
  cases hf : (PathCall.attr p nofollow).find S base gone with
  | none =>
    obtain ⟨r, he, _⟩ := callOp_none (hs := hs) hf
    intro S' h m
    rw [during_idle he h]
    exact .refl _
  | some call =>
    have he := callOp_some (hs := hs) hf
    obtain ⟨n, hn, rfl⟩ := Option.map_eq_some_iff.1 hf
    intro S' h
    exact attr_at hG (resolve_spec hr.clean hr.unlinked hn).2.2.1 S' ((during_eq he S').1 h)

theorem program_open (hs : List Handle) (n : Name) (create excl trunc : Bool) (perm : Nat) (S : Sys) : program hs (.openWrite n create excl trunc perm) S =
    ((openWriteOp n create excl trunc perm S).1, (openWriteOp n create excl trunc perm S).2.1, (openWriteOp n create excl trunc perm S).2.2.map (fun _ => ())) := by
  show Prog.bind (openWriteOp n create excl trunc perm) _ S = _
  unfold Prog.bind
  rcases openWriteOp n create excl trunc perm S with ⟨t, S', r⟩
  cases r
  · rfl
  · simp [Except.map, Pure.pure, Prog.pure]

/-- The file `OpenFile(p)` works on: what `p` leads to, or, with `O_CREATE`, what `p` names where nothing shows. -/
def Opens (S : Sys) (base : Name) (p : Str) (create : Bool) (n : Name) : Prop := Reached S base p n ∨ create = true ∧ Named S base p n ∧ S.view n = none

/-- `p` does not name a symlink that cannot be followed: where `Lstat(p)` reports a symlink, `Stat(p)` finds something. -/
def Followable (S : Sys) (base : Name) (p : Str) : Prop := ∀ n t, S.locate base p true = some (n, .link t) → S.locate base p false ≠ none

theorem Followable.resolve {S : Sys} {base : Name} {p : Str} (h : Followable S base p) {n : Name} {t : Str} (hn : S.resolve base p true = some n) (hv : S.view n = some (.link t)) :
    S.resolve base p false ≠ none := by
  obtain ⟨i, hi⟩ := view_of_lookup hv
  intro hno
  refine h n t ?_ ?_
  · unfold Sys.locate; rw [hn]; simp only [hi]
  · unfold Sys.locate; rw [hno]

/-- **C79** `OpenFile(p)` for writing, when `p` does not name a symlink that cannot be followed (`C80_counterexample_open_through_links` shows what happens then): if it succeeds, either a
file was there, and shows as before or truncated, or, with `O_CREATE`, nothing was there and an empty file has appeared. A failure changes nothing but permissions of directories; wherever
the call stops, at most that file has become empty. -/
theorem C79_open_partial (h0 : Sound S0) (hm : Held S0) (h : PathRuns S0 S hs) (hr : Rooted S base) (gone : Str → Bool) (p : Str) (create excl trunc : Bool) (perm : Nat)
    (hlink : Followable S base p) :
    (result (callOp base gone hs (.openWrite p create excl trunc perm)) S = .ok () → ∃ n, Opens S base p create n ∧
      ((∃ m data, S.view n = some (.file m data) ∧ (create && excl) = false ∧
        (final (callOp base gone hs (.openWrite p create excl trunc perm)) S).view n = some (.file m (if trunc then [] else data))) ∨
      create = true ∧ S.view n = none ∧ S.ViewDir n.tail ∧ ∃ k, (final (callOp base gone hs (.openWrite p create excl trunc perm)) S).view n = some (.file k []))) ∧
    (result (callOp base gone hs (.openWrite p create excl trunc perm)) S ≠ .ok () →
      ∀ m, SameButDirMode ((final (callOp base gone hs (.openWrite p create excl trunc perm)) S).view m) (S.view m)) ∧
    ∀ S', During (callOp base gone hs (.openWrite p create excl trunc perm)) S S' → S' = S ∨ ∃ n k, Opens S base p create n ∧ ¬ S.ViewDir n ∧
      OnlyAt n (some (.file k [])) S S' := by
  have hG := h.good h0 hm
  have hS := hG.sound.trees
  cases hf : (PathCall.openWrite p create excl trunc perm).find S base gone with
  | none =>
    obtain ⟨r, he, hok⟩ := callOp_none (hs := hs) hf
    refine ⟨fun h => ?_, fun _ m => by rw [final_idle he]; exact .refl _, fun S' h => Or.inl (during_idle he h)⟩
    rw [result_idle he] at h
    obtain ⟨_, _, hc, _⟩ := hok h
    cases hc
  | some call =>
    have he := callOp_some (hs := hs) hf
    have key : ∃ n, call = .openWrite n create excl trunc perm ∧ Opens S base p create n ∧ S.Unlinked n := by
      simp only [PathCall.find] at hf
      split at hf
      · rename_i n hn
        have := reached hS hr hn
        exact ⟨n, (Option.some.inj hf).symm, Or.inl this, this.real⟩
      · rename_i hno
        split at hf
        · rename_i hc
          obtain ⟨n, hn, rfl⟩ := Option.map_eq_some_iff.1 hf
          have hnm := named hS hr hn
          have hv : S.view n = none := by
            cases hv : S.view n with
            | none => rfl
            | some nd =>
              exfalso
              obtain ⟨i, hi⟩ := view_of_lookup hv
              cases hl : nd.isLink with
              | false => rw [resolve_follow hr.clean hn hi hl] at hno; cases hno
              | true =>
                cases nd with
                | link t => exact hlink.resolve hn hv hno
                | _ => cases hl
          refine ⟨n, rfl, Or.inr ⟨by simp_all, hnm, hv⟩, fun a t ha hva => ?_⟩
          cases n with
          | nil => rw [List.suffix_nil.1 ha, hv] at hva; cases hva
          | cons c d =>
            rcases List.suffix_cons_iff.1 ha with rfl | ha
            · rw [hv] at hva; cases hva
            · exact hnm.real a t ha hva
        · cases hf
    obtain ⟨n, rfl, hop, hu⟩ := key
    have hat := open_at hG hu create excl trunc perm
    have hp := he.trans (program_open hs n create excl trunc perm S)
    have e1 : final (callOp base gone hs (.openWrite p create excl trunc perm)) S = final (openWriteOp n create excl trunc perm) S := by unfold final; rw [hp]
    have e2 : crashes (callOp base gone hs (.openWrite p create excl trunc perm)) S = crashes (openWriteOp n create excl trunc perm) S := by unfold crashes; rw [hp]
    have e3 : result (callOp base gone hs (.openWrite p create excl trunc perm)) S = (result (openWriteOp n create excl trunc perm) S).map (fun _ => ()) := by unfold result; rw [hp]
    rw [e1, e3]
    refine ⟨fun h => ?_, fun h => hat.2.1 (fun q hq => h (by rw [hq]; rfl)), fun S' h => ?_⟩
    · cases hq : result (openWriteOp n create excl trunc perm) S with
      | error e => rw [hq] at h; cases h
      | ok q => exact ⟨n, hop, (hat.1 q hq).2⟩
    · unfold During at h
      rw [e1, e2] at h
      by_cases hdn : S.ViewDir n
      · left
        obtain ⟨k, hk⟩ := hdn
        obtain ⟨i, hi⟩ := view_of_lookup hk
        have hid : openWriteOp n create excl trunc perm S = ([], S, .error .isDir) := by
          unfold openWriteOp
          rw [get_bind, hi]
          rfl
        unfold crashes final at h
        rw [hid] at h
        simpa using h
      · obtain ⟨k, hk⟩ := hat.2.2 S' h
        exact Or.inr ⟨n, k, hop, hdn, hk⟩

/-- **C79** `Stat`, `ReadFile` (last component followed) and `Lstat`, `ReadLink` (not followed) report what shows where `p` leads. -/
theorem C79_stat_partial (h0 : Sound S0) (hm : Held S0) (h : PathRuns S0 S hs) (hr : Rooted S base) (p : Str) (n : Name) (nd : Node) :
    (S.locate base p false = some (n, nd) → Reached S base p n ∧ S.view n = some nd ∧ nd.isLink = false) ∧
    (S.locate base p true = some (n, nd) → Named S base p n ∧ S.view n = some nd) ∧
    (S.locate base p true = some (n, nd) → nd.isLink = false → S.locate base p false = some (n, nd)) := by
  have hG := h.good h0 hm
  have hS := hG.sound.trees
  have parts : ∀ {b}, S.locate base p b = some (n, nd) → S.resolve base p b = some n ∧ ∃ i, S.lookup n = .ok (i, nd) := by
    intro b h
    unfold Sys.locate at h
    split at h
    · cases h
    · rename_i m hm
      split at h
      · rename_i i nd' hl
        cases h
        exact ⟨hm, i, hl⟩
      · cases h
  refine ⟨fun h => ?_, fun h => ?_, fun h hl => ?_⟩
  · obtain ⟨h1, i, h2⟩ := parts h
    have hre := reached hS hr h1
    have hv := (S.lookup_view hS (hre.real.suffix (List.tail_suffix _)) nd).1 ⟨i, h2⟩
    refine ⟨hre, hv, ?_⟩
    cases nd with
    | link t => exact absurd hv (hre.real n t (List.suffix_refl _))
    | _ => rfl
  · obtain ⟨h1, i, h2⟩ := parts h
    have hnm := named hS hr h1
    exact ⟨hnm, (S.lookup_view hS hnm.real nd).1 ⟨i, h2⟩⟩
  · obtain ⟨h1, i, h2⟩ := parts h
    unfold Sys.locate
    rw [resolve_follow hr.clean h1 h2 hl]
    simp only [h2]

/-- **C79** A path with no symlink on the way means what it says: for a path that stays inside (".." allowed), whose directories all show, every call works on the entry of that name in
that directory. -/
theorem C79_plain (hb : CleanComps base.reverse) {p : Str} {rel : List Str} {c : Str} (hp : placeOf p = some (rel ++ [c])) (hd : S.ViewDir (rel.reverse ++ base)) (gone : Str → Bool) :
    callOp base gone hs (.remove p) S = removeOp (c :: (rel.reverse ++ base)) S ∧
    (∀ o, callOp base gone hs (.removeAll p o) S = removeAllOp (c :: (rel.reverse ++ base)) o S) ∧
    (∀ k, callOp base gone hs (.mkdir p k) S = mkdirOp (c :: (rel.reverse ++ base)) k S) ∧
    (∀ k, callOp base gone hs (.mkdirAll p k) S = mkdirAllOp k (c :: (rel.reverse ++ base)) S) ∧
    (∀ t, callOp base gone hs (.symlink t p) S = symlinkOp t (c :: (rel.reverse ++ base)) S) ∧
    (∀ q rel' c', placeOf q = some (rel' ++ [c']) → S.ViewDir (rel'.reverse ++ base) →
      callOp base gone hs (.rename p q) S = renameOp (c :: (rel.reverse ++ base)) (c' :: (rel'.reverse ++ base)) S ∧
      callOp base gone hs (.link p q) S = linkOp (c :: (rel.reverse ++ base)) (c' :: (rel'.reverse ++ base)) S) ∧
    (S.locate base p true).map Prod.snd = S.view (c :: (rel.reverse ++ base)) ∧
    (∀ nd, S.view (c :: (rel.reverse ++ base)) = some nd → nd.isLink = false → S.locate base p false = some (c :: (rel.reverse ++ base), nd) ∧
      (∀ m, callOp base gone hs (.chmod p m) S = chmodOp (c :: (rel.reverse ++ base)) m S) ∧
      ∀ a b d e, callOp base gone hs (.openWrite p a b d e) S = program hs (.openWrite (c :: (rel.reverse ++ base)) a b d e) S) ∧
    (S.view (c :: (rel.reverse ++ base)) = none → gone p = true →
      ∀ b d e, callOp base gone hs (.openWrite p true b d e) S = program hs (.openWrite (c :: (rel.reverse ++ base)) true b d e) S) := by
  have hres := resolve_plain hb hp hd
  have hns : namesSelf p = false := by
    unfold namesSelf
    rw [decide_eq_false_iff_not, clean_eq_dot_iff, hp]
    simp
  refine ⟨callOp_some (call := .remove (c :: (rel.reverse ++ base))) (by simp [PathCall.find, hns, hres]), fun o => callOp_some (call := .removeAll (c :: (rel.reverse ++ base)) o) (by simp [PathCall.find, hns, hres]), fun k => callOp_some (call := .mkdir (c :: (rel.reverse ++ base)) k) (by simp [PathCall.find, hres]), fun k => callOp_some (call := .mkdirAll (c :: (rel.reverse ++ base)) k) ?_,
    fun t => callOp_some (call := .symlink t (c :: (rel.reverse ++ base))) (by simp [PathCall.find, hres]), fun q rel' c' hq hd' => ?_, ?_, fun nd hv hl => ?_, fun hv hg b d e => callOp_some ?_⟩
  · have hloc : isLocal (clean p) = true := (isLocal_clean_iff p).2 (by rw [hp]; simp)
    have hdot : clean p ≠ dot := by simpa [namesSelf] using hns
    have hr2 := hres
    unfold Sys.resolve at hr2
    obtain ⟨full, hfull, hn⟩ := Option.map_eq_some_iff.1 hr2
    have hfull' : Names.resolve (S.answers base) (pathOf base) (clean p) true = some full := by
      rw [← hfull]
      unfold Names.resolve Fsutil.Resolve.resolvePath
      rw [clean_clean]
    obtain ⟨rl, hrl, rfl⟩ := Names.C63_resolve hb _ _ _ _ hfull
    simp only [PathCall.find, Names.mkdirAllName, Names.mkdirAllLoop, if_neg hdot, hloc, hfull', Bool.true_eq_false, if_false, Option.map_some]
    rw [show ([] : Str) = join [] from rfl, Names.childName_join hrl (by intro x hx; cases hx), List.append_nil, hn]
  · have hres' := resolve_plain hb hq hd'
    have hns' : namesSelf q = false := by
      unfold namesSelf
      rw [decide_eq_false_iff_not, clean_eq_dot_iff, hq]
      simp
    exact ⟨callOp_some (call := .rename (c :: (rel.reverse ++ base)) (c' :: (rel'.reverse ++ base))) (by simp [PathCall.find, hns, hns', hres, hres', both]), callOp_some (call := .link (c :: (rel.reverse ++ base)) (c' :: (rel'.reverse ++ base))) (by simp [PathCall.find, hres, hres', both])⟩
  · unfold Sys.locate
    rw [hres, S.view_cons hd]
    simp only
    cases S.lookup (c :: (rel.reverse ++ base)) <;> rfl
  · have hf := resolve_plain_follow hb hp (nd := nd) (by simpa using hv) hl
    have hf : S.resolve base p false = some (c :: (rel.reverse ++ base)) := by simpa using hf
    refine ⟨?_, fun m => callOp_some (call := .chmod (c :: (rel.reverse ++ base)) m) (by simp [PathCall.find, hf]), fun a b d e => callOp_some (by simp [PathCall.find, hf])⟩
    unfold Sys.locate
    rw [hf]
    obtain ⟨i, hi⟩ := view_of_lookup hv
    simp only [hi]
  · simp [PathCall.find, resolve_plain_missing hb hp hd hv, hg, hres]

end

end Verif.Overlay.Stack
