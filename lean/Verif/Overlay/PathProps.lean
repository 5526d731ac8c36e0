import Verif.Overlay.Paths
/-
C79: what the overlay's calls do, in terms of the strings they are given. C80: a sub-root stays inside its directory.
-/
namespace Verif.Overlay.Stack
open Verif.Path Verif.Prog
open Verif.Fsutil.Resolve (Walk RealDir Direct NoLink Cover AgreesOn)

/-! ### specification: walking the merged view -/

def Node.ent : Node → Fsutil.Resolve.Ent
  | .dir _ => .dir
  | .file _ _ => .file
  | .special => .file
  | .link t => .link t

/-- The tree shown below `base`, as a file tree in which paths can be walked (`Fsutil.Resolve.Walk`). -/
def Sys.seen (S : Sys) (base : Name) : Fsutil.Resolve.Tree := fun rel => (S.view (rel.reverse ++ base)).map Node.ent

/-- Walking `p` from `base`, following symlinks, ends at `n`. -/
def Sys.LeadsTo (S : Sys) (base : Name) (p : Str) (n : Name) : Prop := ∃ rel, Walk (S.seen base) [] (split p) rel ∧ n = rel.reverse ++ base

/-- Walking all of `p` but its last component leads to the parent of `n`, and the last component is the last name of `n` ("." and empty components aside). -/
def Sys.Denotes (S : Sys) (base : Name) (p : Str) (n : Name) : Prop :=
  ∃ init c d, (split p).filter (fun c => decide (c ≠ [] ∧ c ≠ dot)) = init ++ [c] ∧ Walk (S.seen base) [] init d ∧ n = c :: (d.reverse ++ base)

/-- Every symlink shown below `base` leads through real directories to the last component of its target. -/
def Sys.Straight (S : Sys) (base : Name) : Prop := ∀ d c t, S.seen base (d ++ [c]) = some (.link t) → Direct (S.seen base) d (split t)

/-! ### the answers given to the resolution -/

theorem Node.ent_isLink (nd : Node) : nd.ent.isLink = nd.isLink := by cases nd <;> rfl

theorem Node.ent_dir {nd : Node} : nd.ent = .dir ↔ ∃ k, nd = .dir k := by
  cases nd <;> simp [Node.ent]

theorem Node.ent_link {nd : Node} {t : Str} : nd.ent = .link t ↔ nd = .link t := by
  cases nd <;> simp [Node.ent]

theorem Sys.seen_dir {S : Sys} {base : Name} {rel : List Str} : S.seen base rel = some .dir ↔ S.ViewDir (rel.reverse ++ base) := by
  unfold Sys.seen Sys.ViewDir
  rw [Option.map_eq_some_iff]
  constructor
  · rintro ⟨nd, h, he⟩
    obtain ⟨k, rfl⟩ := Node.ent_dir.1 he
    exact ⟨k, h⟩
  · rintro ⟨k, h⟩
    exact ⟨_, h, rfl⟩

theorem Sys.seen_link {S : Sys} {base : Name} {rel : List Str} {t : Str} : S.seen base rel = some (.link t) ↔ S.view (rel.reverse ++ base) = some (.link t) := by
  unfold Sys.seen
  rw [Option.map_eq_some_iff]
  constructor
  · rintro ⟨nd, h, he⟩
    rw [Node.ent_link.1 he] at h
    exact h
  · intro h
    exact ⟨_, h, rfl⟩

theorem ViewDir.above {S : Sys} {d : Name} (h : S.ViewDir d) : ∀ {a : Name}, a <:+ d → S.ViewDir a := by
  intro a ha
  obtain ⟨r, rfl⟩ := ha
  induction r with
  | nil => exact h
  | cons c r ih =>
    obtain ⟨k, hk⟩ := h
    exact ih (S.view_parent (c := c) (by rw [List.cons_append] at hk; rw [hk]; simp))

theorem ViewDir.unlinked {S : Sys} {d : Name} (h : S.ViewDir d) : S.Unlinked d := by
  intro a t ha hv
  obtain ⟨k, hk⟩ := ViewDir.above h ha
  rw [hk] at hv
  cases hv

theorem ViewDir.real {S : Sys} {base : Name} {rel : List Str} (h : S.ViewDir (rel.reverse ++ base)) : RealDir (S.seen base) rel := by
  intro p hp
  rw [Sys.seen_dir]
  refine ViewDir.above h ?_
  obtain ⟨q, rfl⟩ := hp
  rw [List.reverse_append, List.append_assoc]
  exact List.suffix_append _ _

/-- Names below the base with no symlink shown above them. -/
theorem unlinked_of_noLink {S : Sys} {base : Name} (hb : S.Unlinked base) {rel : List Str} (h : NoLink (S.seen base) rel) : S.Unlinked (rel.reverse ++ base) := by
  intro a t ha hv
  rcases suffix_append_cases ha with ha | ⟨y, hy, rfl⟩
  · exact hb a t ha hv
  · refine h y.reverse t ?_ (Sys.seen_link.2 (by rw [List.reverse_reverse]; exact hv))
    rw [← List.reverse_suffix, List.reverse_reverse]
    exact hy

theorem noLink_of_unlinked {S : Sys} {base : Name} {rel : List Str} (h : S.Unlinked (rel.reverse ++ base)) : NoLink (S.seen base) rel := by
  intro p t hp hv
  refine h (p.reverse ++ base) t ?_ (Sys.seen_link.1 hv)
  obtain ⟨q, rfl⟩ := hp
  rw [List.reverse_append, List.append_assoc]
  exact List.suffix_append _ _

/-- What the resolution is told about names without symlinks above them is what the merged view shows. -/
def Clear (S : Sys) (base : Name) (cs : List Str) : Prop := (∀ c ∈ cs, Fsutil.Resolve.Step c) ∧ NoLink (S.seen base) (Fsutil.Resolve.names cs)

theorem clear_name {S : Sys} (hS : S.Trees) {base : Name} (hd : S.ViewDir base) {cs : List Str} (h : Clear S base cs) {c : Str} {i : Nat} {nd : Node}
    (hl : S.lookup (c :: ((Fsutil.Resolve.names cs).reverse ++ base)) = .ok (i, nd)) :
    Walk (S.seen base) [] cs (Fsutil.Resolve.names cs) ∧ S.seen base (Fsutil.Resolve.names cs) = some .dir ∧ S.seen base (Fsutil.Resolve.names cs ++ [c]) = some nd.ent := by
  have hu : S.Unlinked ((Fsutil.Resolve.names cs).reverse ++ base) := unlinked_of_noLink (ViewDir.unlinked hd) h.2
  have hv := (S.lookup_view hS (n := c :: ((Fsutil.Resolve.names cs).reverse ++ base)) hu nd).1 ⟨i, hl⟩
  have hvd : S.ViewDir ((Fsutil.Resolve.names cs).reverse ++ base) := S.view_parent (by rw [hv]; simp)
  refine ⟨?_, Sys.seen_dir.2 hvd, ?_⟩
  · have hw := (ViewDir.real hvd).walk (Fsutil.Resolve.names_isName (Fsutil.Resolve.step_noUp h.1))
    have := Fsutil.Resolve.walk_names (T := S.seen base) (d := []) cs (rest := []) (r := Fsutil.Resolve.names cs) (by simpa using hw)
    simpa using this
  · show (S.view _).map _ = _
    rw [List.reverse_append]
    show (S.view (c :: ((Fsutil.Resolve.names cs).reverse ++ base))).map _ = _
    rw [hv]
    rfl

theorem names_snoc {cs : List Str} {c : Str} (h : IsName c) : Fsutil.Resolve.names (cs ++ [c]) = Fsutil.Resolve.names cs ++ [c] := by
  rw [Fsutil.Resolve.names_append, Fsutil.Resolve.names_self (cs := [c]) (by simpa using h)]

theorem steps_snoc {cs : List Str} {c : Str} (h : ∀ c ∈ cs, Fsutil.Resolve.Step c) (hc : Fsutil.Resolve.Step c) : ∀ x ∈ cs ++ [c], Fsutil.Resolve.Step x := by
  intro x hx
  rcases List.mem_append.1 hx with hx | hx
  · exact h x hx
  · rw [List.mem_singleton.1 hx]; exact hc

theorem join_of_split {n : Str} {cs : List Str} (h : split n = cs) : n = join cs := by rw [← h, join_split]

theorem answers_agree {S : Sys} (hS : S.Trees) {base : Name} (hb : CleanComps base.reverse) (hd : S.ViewDir base) : AgreesOn (Clear S base) (S.answers base) (S.seen base) where
  root := Sys.seen_dir.2 hd
  lstat_name k n cs c b hc hs hn h := by
    have hst : ∀ x ∈ cs ++ [c], Fsutil.Resolve.Step x := steps_snoc hc.1 ⟨hn.1, hn.2.2⟩
    rw [join_of_split hs, answers_lstat hb (by simp) hst, names_snoc hn, List.reverse_append] at h
    have h : (match S.lookup (c :: ((Fsutil.Resolve.names cs).reverse ++ base)) with | .ok (_, nd) => some nd.isLink | .error _ => none) = some b := h
    cases hl : S.lookup (c :: ((Fsutil.Resolve.names cs).reverse ++ base)) with
    | error e => rw [hl] at h; cases h
    | ok x =>
      rw [hl] at h
      obtain ⟨h1, h2, h3⟩ := clear_name hS hd hc hl
      exact ⟨_, _, h1, h2, h3, by rw [Node.ent_isLink]; exact (Option.some.inj h).symm⟩
  lstat_dot k n cs b hc hs h := by
    rw [join_of_split hs, answers_lstat hb (by simp) (steps_snoc hc.1 ⟨⟨by decide, by decide⟩, by decide⟩)] at h
    have hnm : Fsutil.Resolve.names (cs ++ [dot]) = Fsutil.Resolve.names cs := by rw [Fsutil.Resolve.names_append]; simp [Fsutil.Resolve.names]
    rw [hnm] at h
    have hu : S.Unlinked ((Fsutil.Resolve.names cs).reverse ++ base) := unlinked_of_noLink (ViewDir.unlinked hd) hc.2
    split at h
    · rename_i i nd hl
      have hv := (S.lookup_view hS (hu.suffix (List.tail_suffix _)) nd).1 ⟨i, hl⟩
      cases nd with
      | link t => exact absurd hv (hu _ t (List.suffix_refl _))
      | _ => exact (Option.some.inj h).symm
    · cases h
  readlink k n cs c t hc hs hn h := by
    have hst : ∀ x ∈ cs ++ [c], Fsutil.Resolve.Step x := steps_snoc hc.1 ⟨hn.1, hn.2.2⟩
    have hcc := cc_rel hb (Fsutil.Resolve.names_isName (Fsutil.Resolve.step_noUp hst))
    rw [join_of_split hs] at h
    unfold Sys.answers at h
    simp only [name_eq hb, placeOf_steps (cs := cs ++ [c]) (by simp) hst, Option.map_some, nameOf_pathOf hcc] at h
    rw [names_snoc hn, List.reverse_append] at h
    have h : (match S.lookup (c :: ((Fsutil.Resolve.names cs).reverse ++ base)) with | .ok (_, .link t) => some t | _ => none) = some t := h
    split at h
    · rename_i i t' hl
      cases h
      obtain ⟨h1, h2, h3⟩ := clear_name hS hd hc hl
      exact ⟨_, h1, h2, h3⟩
    · cases h

theorem straight_cover {S : Sys} {base : Name} (h : S.Straight base) : Cover (S.seen base) (Clear S base) :=
  Or.inr ⟨fun d c t ht _ => h d c t ht, fun _ h1 h2 => ⟨h1, h2⟩⟩

/-- A walk over names none of which shows as a symlink goes straight. -/
theorem walk_straight {T : Fsutil.Resolve.Tree} : ∀ {cs d r : List Str}, Walk T d cs r → (∀ c ∈ cs, IsName c) → (∀ p t, p <+: cs → T (d ++ p) ≠ some (.link t)) → r = d ++ cs := by
  intro cs
  induction cs with
  | nil => intro d r h _ _; cases h; simp
  | cons c cs ih =>
    intro d r h hn hl
    have hc := hn c (by simp)
    cases h with
    | dot h => exact absurd h hc.notDot
    | up => exact absurd rfl hc.2.2
    | plain _ _ _ _ hw =>
      have := ih hw (fun x hx => hn x (by simp [hx])) (fun p t hp => by
        have := hl (c :: p) t (List.cons_prefix_cons.2 ⟨rfl, hp⟩)
        simpa using this)
      rw [this]; simp
    | link _ _ ht => exact absurd ht (hl [c] _ ⟨cs, rfl⟩)

theorem resolved_steps {fs : Fsutil.Resolve.Fs} {p : Str} {skip : Bool} {log : Fsutil.Resolve.Log} {r : Str} (h : Fsutil.Resolve.resolvePath fs p skip = some (log, .ok r)) :
    ∀ c ∈ split r, Fsutil.Resolve.Step c := by
  unfold Fsutil.Resolve.resolvePath at h
  by_cases hdot : clean p = dot
  · rw [if_pos hdot] at h
    simp only [Option.some.injEq, Prod.mk.injEq, Except.ok.injEq] at h
    obtain ⟨_, rfl⟩ := h
    intro c hc
    have : c = dot := by simpa [dot, split, slash] using hc
    rw [this]
    exact ⟨⟨by decide, by decide⟩, by decide⟩
  · rw [if_neg hdot] at h
    by_cases h2 : isLocal (clean p) = false
    · rw [if_pos h2] at h; simp at h
    · rw [if_neg h2] at h
      have hloc : isLocal (clean p) = true := by simpa using h2
      have hst : ∀ c ∈ split (clean p), Fsutil.Resolve.Step c := by
        have := Fsutil.Resolve.split_clean hloc
        rw [clean_clean] at this
        exact this
      cases skip with
      | true =>
        simp only [if_true] at h
        by_cases hlen : (split (clean p)).length ≤ 1
        · rw [if_pos hlen] at h
          simp only [Option.some.injEq, Prod.mk.injEq, Except.ok.injEq] at h
          obtain ⟨_, rfl⟩ := h
          exact hst
        · rw [if_neg hlen] at h
          obtain ⟨hd, hl⟩ := Fsutil.Resolve.mem_dropLast_or_last (cs := split (clean p)) (by omega)
          split at h
          · simp at h
          · simp at h
          · rename_i done hlp
            simp only [Option.some.injEq, Prod.mk.injEq, Except.ok.injEq] at h
            obtain ⟨rfl, rfl⟩ := h
            obtain ⟨new, res, k1, _, _, k4, _⟩ := Fsutil.Resolve.loop_spec fs (Fsutil.Resolve.maxLinks + 1) 0 (split (clean p)).dropLast []
              (fun c hc => hst c (List.dropLast_subset _ hc)) hd (by simp [Fsutil.Resolve.maxLinks]) (by simp)
            rw [hlp] at k1
            simp only [Option.some.injEq, Prod.mk.injEq] at k1
            obtain ⟨_, k7, _⟩ := k4 done k1.2.symm
            have := steps_snoc k7 (hst _ hl)
            rw [split_join (by simp) (fun c hc => (this c hc).1.2)]
            exact this
      | false =>
        simp only [Bool.false_eq_true, if_false] at h
        split at h
        · simp at h
        · simp at h
        · rename_i done hlp
          simp only [Option.some.injEq, Prod.mk.injEq, Except.ok.injEq] at h
          obtain ⟨rfl, rfl⟩ := h
          obtain ⟨new, res, k1, _, _, k4, _⟩ := Fsutil.Resolve.loop_spec fs (Fsutil.Resolve.maxLinks + 1) 0 (split (clean p)) [] hst (split_ne_nil _)
            (by simp [Fsutil.Resolve.maxLinks]) (by simp)
          rw [hlp] at k1
          simp only [Option.some.injEq, Prod.mk.injEq] at k1
          obtain ⟨k6, k7, _⟩ := k4 done k1.2.symm
          rw [split_join k6 (fun c hc => (k7 c hc).1.2)]
          exact k7

theorem resolve_parts {S : Sys} {base : Name} (hb : CleanComps base.reverse) {p : Str} {skip : Bool} {n : Name} (h : S.resolve base p skip = some n) :
    ∃ log r, Fsutil.Resolve.resolvePath (S.answers base) p skip = some (log, .ok r) ∧ (∀ c ∈ split r, Fsutil.Resolve.Step c) ∧
      n = (Fsutil.Resolve.names (split r)).reverse ++ base := by
  unfold Sys.resolve at h
  obtain ⟨full, hf, rfl⟩ := Option.map_eq_some_iff.1 h
  unfold Names.resolve at hf
  split at hf
  · rename_i log r hr
    rw [name_eq hb] at hf
    obtain ⟨rel, hrel, rfl⟩ := Option.map_eq_some_iff.1 hf
    have hst := resolved_steps hr
    have hp := placeOf_steps (cs := split r) (split_ne_nil _) hst
    rw [join_split, hrel] at hp
    have hp := Option.some.inj hp
    refine ⟨log, r, hr, hst, ?_⟩
    rw [nameOf_pathOf (cc_rel hb (placeOf_some hrel).2.2), hp]
  · cases hf

/-- Where a followed path is found is where walking it leads. -/
theorem leads {S : Sys} (hS : S.Trees) {base : Name} (hb : CleanComps base.reverse) (hd : S.ViewDir base) (hs : S.Straight base) {p : Str} (hup : dotdot ∉ split p) {n : Name}
    (h : S.resolve base p false = some n) : S.LeadsTo base p n := by
  have hun := (resolve_spec hb (ViewDir.unlinked hd) h).2.2.2.1 rfl
  obtain ⟨log, r, hr, hst, rfl⟩ := resolve_parts hb h
  obtain ⟨x, h1, h2⟩ := Fsutil.Resolve.same_file_on (answers_agree hS hb hd) (straight_cover hs) p hup log r hr
  refine ⟨x, h1, ?_⟩
  have h2 := Fsutil.Resolve.names_walk (T := S.seen base) (d := []) (split r) (rest := []) (r := x) (by simpa using h2)
  rw [List.append_nil] at h2
  have := walk_straight h2 (Fsutil.Resolve.names_isName (Fsutil.Resolve.step_noUp hst)) (fun q t hq => by
    rw [List.nil_append]; exact noLink_of_unlinked hun q t hq)
  rw [this]
  rfl

/-- The same with the last component kept. -/
theorem denotes {S : Sys} (hS : S.Trees) {base : Name} (hb : CleanComps base.reverse) (hd : S.ViewDir base) (hs : S.Straight base) {p : Str} (hdot : clean p ≠ dot)
    (hup : dotdot ∉ split p) {n : Name} (h : S.resolve base p true = some n) : S.Denotes base p n := by
  have hun := (resolve_spec hb (ViewDir.unlinked hd) h).2.2.1
  obtain ⟨log, r, hr, hst, rfl⟩ := resolve_parts hb h
  obtain ⟨init, c, d, init', h1, h2, h3, h4⟩ := Fsutil.Resolve.same_parent_on (answers_agree hS hb hd) (straight_cover hs) p hdot hup log r hr
  have hnm := Fsutil.Resolve.names_isName (Fsutil.Resolve.step_noUp hst)
  rw [h2] at hun hnm ⊢
  rw [List.reverse_append] at hun ⊢
  have := walk_straight h4 (fun c hc => hnm c (by simp [hc])) (fun q t hq => by
    rw [List.nil_append]; exact noLink_of_unlinked (rel := init') hun q t hq)
  rw [List.nil_append] at this
  subst this
  exact ⟨init, c, d, h1, h3, rfl⟩

/-! ### what is said of the name a call works on -/

/-- `n` is what `p` names through a view on `base`, the last component of `p` not followed: it is at or below the base, below it unless `p` is the base itself; no directory on
the way to it is a symlink; and where symlinks lead straight to their targets and `p` has no "..", it is what walking `p` leads to. -/
structure Named (S : Sys) (base : Name) (p : Str) (n : Name) : Prop where
  under : base <:+ n
  proper : clean p ≠ dot → n ≠ base
  real : S.Unlinked n.tail
  exact : S.ViewDir base → S.Straight base → dotdot ∉ split p → clean p ≠ dot → S.Denotes base p n

/-- The same with the last component followed. -/
structure Reached (S : Sys) (base : Name) (p : Str) (n : Name) : Prop where
  under : base <:+ n
  real : S.Unlinked n
  exact : S.ViewDir base → S.Straight base → dotdot ∉ split p → S.LeadsTo base p n

theorem named {S : Sys} (hS : S.Trees) {base : Name} (hr : Rooted S base) {p : Str} {n : Name} (h : S.resolve base p true = some n) : Named S base p n := by
  obtain ⟨_, h2, h3, _, h5⟩ := resolve_spec hr.clean hr.unlinked h
  exact ⟨h2, h5 rfl, h3, fun hd hs hup hdot => denotes hS hr.clean hd hs hdot hup h⟩

theorem reached {S : Sys} (hS : S.Trees) {base : Name} (hr : Rooted S base) {p : Str} {n : Name} (h : S.resolve base p false = some n) : Reached S base p n := by
  obtain ⟨_, h2, _, h4, _⟩ := resolve_spec hr.clean hr.unlinked h
  exact ⟨h2, h4 rfl, fun hd hs hup => leads hS hr.clean hd hs hup h⟩

/-- **C73** for histories of calls by path: what `C73_marks_held_partial` assumes of the names (no symlink above them) holds for the names the paths are resolved to. -/
theorem C73_by_path_partial {S0 S : Sys} {hs : List Handle} (h0 : Sound S0) (hm : Held S0) (h : PathRuns S0 S hs) :
    ∀ a ∈ (S.mask 0).op, ∃ m, S.top a = some (.dir m) := C73_marks_held_partial h0 hm (h.clean h0 hm)

theorem PathRuns.good {S0 S : Sys} {hs : List Handle} (h0 : Sound S0) (hm : Held S0) (h : PathRuns S0 S hs) : Good S := good_runs ⟨h0, hm⟩ (h.clean h0 hm)

/-! ### operations on names without symlinks above them -/

/-- All states a call can leave behind: those in which a crash finds it and the last one. -/
def During (op : Op Unit) (S S' : Sys) : Prop := S' ∈ crashes op S ++ [final op S]

theorem during_idle {op : Op Unit} {S S' : Sys} {r : Except Errno Unit} (h : op S = ([], S, r)) (hd : During op S S') : S' = S := by
  have h1 : crashes op S = [] := by show (op S).1 = []; rw [h]
  have h2 : final op S = S := by show (op S).2.1 = S; rw [h]
  rw [During, h1, h2] at hd
  simpa using hd

theorem result_idle {op : Op Unit} {S : Sys} {r : Except Errno Unit} (h : op S = ([], S, r)) : result op S = r := by show (op S).2.2 = r; rw [h]

theorem final_idle {op : Op Unit} {S : Sys} {r : Except Errno Unit} (h : op S = ([], S, r)) : final op S = S := by show (op S).2.1 = S; rw [h]

theorem during_eq {op op' : Op Unit} {S : Sys} (h : op S = op' S) (S' : Sys) : During op S S' ↔ During op' S S' := by
  unfold During crashes final
  rw [h]

theorem result_eq {op op' : Op Unit} {S : Sys} (h : op S = op' S) : result op S = result op' S := by unfold result; rw [h]

theorem final_eq {op op' : Op Unit} {S : Sys} (h : op S = op' S) : final op S = final op' S := by unfold final; rw [h]

theorem lookup_none {S : Sys} (hS : S.Trees) {n : Name} (hu : S.Unlinked n.tail) (hv : S.view n = none) : ∃ e, S.lookup n = .error e := by
  cases hl : S.lookup n with
  | error e => exact ⟨e, rfl⟩
  | ok x =>
    have := (S.lookup_view hS hu x.2).1 ⟨x.1, hl⟩
    rw [hv] at this
    cases this

theorem shows_mkdir {S : Sys} {n : Name} {x : Nat × Node} (h : S.lookup n = .ok x) (perm : Nat) : mkdirOp n perm S = ([], S, .error .exist) := by
  unfold mkdirOp
  rw [get_bind, h]
  rfl

theorem shows_symlink {S : Sys} {n : Name} {x : Nat × Node} (h : S.lookup n = .ok x) (t : Str) : symlinkOp t n S = ([], S, .error .exist) := by
  unfold symlinkOp
  rw [get_bind, h]
  rfl

theorem shows_link {S : Sys} {a n : Name} {x : Nat × Node} (h : S.lookup n = .ok x) : ∃ e, linkOp a n S = ([], S, .error e) := by
  unfold linkOp
  rw [get_bind]
  cases S.lookup a with
  | error e => exact ⟨_, rfl⟩
  | ok y => rw [h]; exact ⟨_, rfl⟩

/-- `Remove` of a name without symlinks above it. -/
theorem remove_at {S : Sys} (hG : Good S) {n : Name} (hu : S.Unlinked n.tail) :
    (result (removeOp n) S = .ok () → S.view n ≠ none ∧ (∀ m, n <:+ m → (final (removeOp n) S).view m = none) ∧ ∀ m, ¬ n <:+ m → (final (removeOp n) S).view m = S.view m) ∧
    ∀ S', During (removeOp n) S S' → OnlyGone n S S' := by
  have hS := hG.sound.trees
  cases n with
  | nil =>
    have : removeOp [] S = ([], S, .error .inval) := rfl
    refine ⟨fun h => ?_, fun S' h => ?_⟩
    · rw [result_idle this] at h; cases h
    · rw [during_idle this h]; exact OnlyGone.refl _ _
  | cons c d =>
    by_cases hd : S.ViewDir d
    · have h := C55_remove hS hG.sound.lists (c := c) hd
      refine ⟨fun hr => ⟨fun hv => ?_, h.1 hr⟩, fun S' h' => ?_⟩
      · obtain ⟨e, he⟩ := lookup_none hS (n := c :: d) hu hv
        have : removeOp (c :: d) S = ([], S, .error e) := by
          unfold removeOp
          rw [get_bind, if_neg (by simp), he]
          rfl
        rw [result_idle this] at hr
        cases hr
      · rcases List.mem_append.1 h' with h' | h'
        · exact h.2.1 S' h'
        · rw [List.mem_singleton.1 h']; exact h.2.2
    · obtain ⟨e, he⟩ := nowhere_remove (nowhere hS (n := c :: d) hu hd)
      refine ⟨fun h => ?_, fun S' h => ?_⟩
      · rw [result_idle he] at h; cases h
      · rw [during_idle he h]; exact OnlyGone.refl _ _

theorem removeAll_at {S : Sys} (hG : Good S) {n : Name} (hu : S.Unlinked n.tail) (o : List (Name → Bool)) :
    (result (removeAllOp n o) S = .ok () → n ≠ [] ∧ (∀ m, n <:+ m → (final (removeAllOp n o) S).view m = none) ∧ ∀ m, ¬ n <:+ m → (final (removeAllOp n o) S).view m = S.view m) ∧
    ∀ S', During (removeAllOp n o) S S' → OnlyGone n S S' := by
  have hS := hG.sound.trees
  cases n with
  | nil =>
    have : removeAllOp [] o S = ([], S, .error .inval) := rfl
    refine ⟨fun h => ?_, fun S' h => ?_⟩
    · rw [result_idle this] at h; cases h
    · rw [during_idle this h]; exact OnlyGone.refl _ _
  | cons c d =>
    by_cases hd : S.ViewDir d
    · have h := C55_removeAll hS (c := c) hd o
      refine ⟨fun hr => ⟨by simp, h.1 hr⟩, fun S' h' => ?_⟩
      rcases List.mem_append.1 h' with h' | h'
      · exact h.2.1 S' h'
      · rw [List.mem_singleton.1 h']; exact h.2.2
    · obtain ⟨r, he⟩ := nowhere_removeAll (nowhere hS (n := c :: d) hu hd) o
      refine ⟨fun _ => ⟨by simp, fun m hm => ?_, fun m _ => by rw [final_idle he]⟩, fun S' h => ?_⟩
      · rw [final_idle he]
        obtain ⟨q, rfl⟩ := hm
        exact view_none_below (S.view_none_of_parent hd) (List.suffix_append _ _)
      · rw [during_idle he h]; exact OnlyGone.refl _ _

theorem sbdm_all {S : Sys} {p : Name → Prop} : OnlyNewDirs p S S := fun _ => Or.inl (SameButDirMode.refl _)

theorem mkdir_at {S : Sys} (hG : Good S) {n : Name} (hu : S.Unlinked n.tail) (perm : Nat) :
    (result (mkdirOp n perm) S = .ok () → S.view n = none ∧ S.ViewDir n.tail ∧ (∃ k, (final (mkdirOp n perm) S).view n = some (.dir k)) ∧
      (∀ m, n <:+ m → m ≠ n → (final (mkdirOp n perm) S).view m = none) ∧ ∀ m, m ≠ n → SameButDirMode ((final (mkdirOp n perm) S).view m) (S.view m)) ∧
    ∀ S', During (mkdirOp n perm) S S' → OnlyNewDirs (fun m => m = n) S S' := by
  have hS := hG.sound.trees
  cases hv : S.view n with
  | some nd =>
    obtain ⟨i, hi⟩ := S.lookup_of_view hv
    refine ⟨fun h => ?_, fun S' h => ?_⟩
    · rw [result_idle (shows_mkdir hi perm)] at h; cases h
    · rw [during_idle (shows_mkdir hi perm) h]; exact sbdm_all
  | none =>
    cases n with
    | nil => obtain ⟨k, hk⟩ := S.viewDir_root (hS 0 (Nat.zero_le _)); rw [hv] at hk; cases hk
    | cons c d =>
      by_cases hd : S.ViewDir d
      · have h := C56_mkdir_partial hS hd hv (fun ho => hG.held.ne_none ho) perm
        exact ⟨fun hr => ⟨rfl, hd, h.1 hr⟩, fun S' h' => h.2 S' h'⟩
      · obtain ⟨e, he⟩ := nowhere_mkdir (nowhere hS (n := c :: d) hu hd) perm
        refine ⟨fun h => ?_, fun S' h => ?_⟩
        · rw [result_idle he] at h; cases h
        · rw [during_idle he h]; exact sbdm_all

theorem symlink_at {S : Sys} (hG : Good S) {n : Name} (hu : S.Unlinked n.tail) (t : Str) :
    (result (symlinkOp t n) S = .ok () → S.view n = none ∧ S.ViewDir n.tail ∧ (final (symlinkOp t n) S).view n = some (.link t)) ∧
    (result (symlinkOp t n) S ≠ .ok () → ∀ m, SameButDirMode ((final (symlinkOp t n) S).view m) (S.view m)) ∧
    ∀ S', During (symlinkOp t n) S S' → OnlyAt n (some (.link t)) S S' := by
  have hS := hG.sound.trees
  have hT := hS 0 (Nat.zero_le _)
  have idle : ∀ {e}, symlinkOp t n S = ([], S, .error e) → (result (symlinkOp t n) S = .ok () → S.view n = none ∧ S.ViewDir n.tail ∧ (final (symlinkOp t n) S).view n = some (.link t)) ∧
      (result (symlinkOp t n) S ≠ .ok () → ∀ m, SameButDirMode ((final (symlinkOp t n) S).view m) (S.view m)) ∧
      ∀ S', During (symlinkOp t n) S S' → OnlyAt n (some (.link t)) S S' := fun he =>
    ⟨fun h => (by rw [result_idle he] at h; cases h), fun _ m => by rw [final_idle he]; exact .refl _, fun S' h => by rw [during_idle he h]; exact (Grown.refl hT).onlyAt hT _ _⟩
  cases hv : S.view n with
  | some nd =>
    obtain ⟨i, hi⟩ := S.lookup_of_view hv
    have := idle (shows_symlink hi t)
    rw [hv] at this
    exact this
  | none =>
    cases n with
    | nil => obtain ⟨k, hk⟩ := S.viewDir_root hT; rw [hv] at hk; cases hk
    | cons c d =>
      by_cases hd : S.ViewDir d
      · have h := C68_symlink_partial hS hd hv (fun ho => hG.held.ne_none ho) t
        exact ⟨fun hr => ⟨rfl, hd, h.1 hr⟩, h.2.1, fun S' h' => h.2.2 S' h'⟩
      · obtain ⟨e, he⟩ := nowhere_symlink (nowhere hS (n := c :: d) hu hd) t
        have := idle he
        rw [hv] at this
        exact this

theorem copyUp_at {S : Sys} (hG : Good S) {n : Name} (hd : S.ViewDir n.tail) : Holds (Grown S) (fun s => s = S) (copyUp n) (fun _ => Grown S) := by
  have hT := hG.sound.isTree
  cases n with
  | nil => exact Holds.pure fun s h => by rw [h]; exact Grown.refl hT
  | cons c d => exact (holds_copyUp hT hd (fun ho => hG.held.ne_none ho)).weaken (fun s h => h) (fun s h => h) (fun r s h => h.1)

theorem copyUp_states {S : Sys} (hG : Good S) {n : Name} (hd : S.ViewDir n.tail) : (∀ S' ∈ (copyUp n S).1, Grown S S') ∧ Grown S (copyUp n S).2.1 := by
  have := copyUp_at hG hd S rfl
  exact ⟨this.1, this.2⟩

/-- A call of which only a copy-up was carried out. -/
theorem during_copyUp {S : Sys} (hG : Good S) {n : Name} (hd : S.ViewDir n.tail) {op : Op Unit} {r : Except Errno Unit} (h : op S = ((copyUp n S).1, (copyUp n S).2.1, r)) :
    result op S = r ∧ Grown S (final op S) ∧ ∀ S', During op S S' → Grown S S' := by
  obtain ⟨h1, h2⟩ := copyUp_states hG hd
  have e1 : crashes op S = (copyUp n S).1 := by show (op S).1 = _; rw [h]
  have e2 : final op S = (copyUp n S).2.1 := by show (op S).2.1 = _; rw [h]
  refine ⟨by show (op S).2.2 = _; rw [h], by rw [e2]; exact h2, fun S' hS' => ?_⟩
  rw [During, e1, e2] at hS'
  rcases List.mem_append.1 hS' with h' | h'
  · exact h1 S' h'
  · rw [List.mem_singleton.1 h']; exact h2

/-- The root cannot be linked: it is a directory. -/
theorem link_root {S : Sys} (hG : Good S) {c : Str} {d : Name} (hd : S.ViewDir d) (hv : S.view (c :: d) = none) :
    Holds (Grown S) (fun s => s = S) (linkOp [] (c :: d)) (fun r s => r ≠ .ok () ∧ Grown S s) := by
  have hS := hG.sound.trees
  have hT := hG.sound.isTree
  have stop : ∀ e : Errno, Holds (Grown S) (fun s => s = S) (Prog.fail e : Op Unit) (fun r s => r ≠ .ok () ∧ Grown S s) :=
    fun e => Holds.fail fun s h => ⟨by simp, by rw [h]; exact Grown.refl hT⟩
  refine holds_get_fix ?_
  cases hl : S.lookup [] with
  | error e => exact stop e
  | ok x =>
    simp only
    cases hl2 : S.lookup (c :: d) with
    | ok x => rw [S.view_cons hd, hl2] at hv; cases hv
    | error e =>
      by_cases he : e = .notExist
      · subst he
        simp only
        refine Holds.bind (fun r s => Grown S s) ?_ (fun _ => ?_) (fun e s h => ⟨by simp, h⟩)
        · exact copyUp_at hG (n := []) (S.viewDir_root hT)
        refine Holds.fix fun S1 hG1 => ?_
        refine Holds.bind (fun r s => Grown S1 s ∧ (r = .ok () → ∃ k, s.top d = some (.dir k))) ?_ (fun _ => ?_) (fun e s h => ⟨by simp, hG1.trans hT h.1⟩)
        · refine (holds_ensureParent (c := c) hG1.tree ((hG1.viewDir hT d).2 hd) (fun hop => ?_)).weaken (fun s h => h)
            (fun s h => hG1.trans hT h) (fun r s h => ⟨h.1, h.2.2⟩)
          rw [hG1.mask] at hop
          rcases hG1.top d with e | ⟨e, _⟩
          · rw [e]; exact hG.held.ne_none hop
          · exact absurd e (hG.held.ne_none hop)
        refine Holds.fix fun S2 h2 => ?_
        obtain ⟨hG2, h2⟩ := h2
        obtain ⟨k, hk⟩ := h2 rfl
        have hG' := hG1.trans hT hG2
        have hentN := top_entry_held (c := c) hG'.tree ((hG'.viewDir hT d).2 hd) hk
        have hn := new_absent hT hG' hd hv
        obtain ⟨k0, hk0⟩ := hG'.tree.root
        refine Holds.bind (fun r s => r ≠ .ok () ∧ s = S2) ?_ (fun _ => Holds.fix fun S3 h3 => absurd rfl h3.1) (fun e s h => ⟨by simp, by rw [h.2]; exact hG'⟩)
        refine holds_get_fix ?_
        rw [show (S2.layer 0).entry [] = .ok [] from rfl, hentN]
        simp only
        rw [hk0, show (S2.layer 0).tree (c :: d) = none from hn]
        exact Holds.fail fun s h => ⟨by simp, h⟩
      · cases e <;> first | exact absurd rfl he | exact stop _

theorem link_at {S : Sys} (hG : Good S) {a n : Name} (hua : S.Unlinked a.tail) (hu : S.Unlinked n.tail) :
    (result (linkOp a n) S = .ok () → S.view n = none ∧ S.ViewDir n.tail ∧ (final (linkOp a n) S).view n = S.view a ∧ ∃ nd, S.view a = some nd ∧ nd.isDir = false) ∧
    (result (linkOp a n) S ≠ .ok () → ∀ m, SameButDirMode ((final (linkOp a n) S).view m) (S.view m)) ∧
    ∀ S', During (linkOp a n) S S' → OnlyAt n (S.view a) S S' := by
  have hS := hG.sound.trees
  have hT := hG.sound.isTree
  have grown : result (linkOp a n) S ≠ .ok () → Grown S (final (linkOp a n) S) → (∀ S', During (linkOp a n) S S' → Grown S S') →
      (result (linkOp a n) S = .ok () → S.view n = none ∧ S.ViewDir n.tail ∧ (final (linkOp a n) S).view n = S.view a ∧ ∃ nd, S.view a = some nd ∧ nd.isDir = false) ∧
      (result (linkOp a n) S ≠ .ok () → ∀ m, SameButDirMode ((final (linkOp a n) S).view m) (S.view m)) ∧
      ∀ S', During (linkOp a n) S S' → OnlyAt n (S.view a) S S' := fun h1 h2 h3 =>
    ⟨fun h => absurd h h1, fun _ m => (h2.view hT m).1, fun S' h => (h3 S' h).onlyAt hT _ _⟩
  have idle : ∀ {e}, linkOp a n S = ([], S, .error e) → _ := fun {e} he => grown (by rw [result_idle he]; simp) (by rw [final_idle he]; exact Grown.refl hT)
    (fun S' h => by rw [during_idle he h]; exact Grown.refl hT)
  cases hv : S.view n with
  | some nd =>
    obtain ⟨i, hi⟩ := S.lookup_of_view hv
    obtain ⟨e, he⟩ := shows_link (a := a) hi
    have := idle he
    rw [hv] at this
    exact this
  | none =>
    rw [hv] at idle grown
    cases n with
    | nil => obtain ⟨k, hk⟩ := S.viewDir_root hT; rw [hv] at hk; cases hk
    | cons c d =>
      by_cases hda : S.ViewDir a.tail
      · by_cases hd : S.ViewDir d
        · cases a with
          | nil =>
            have h := link_root hG hd hv S rfl
            refine grown h.2.1 h.2.2 (fun S' h' => ?_)
            rcases List.mem_append.1 h' with h' | h'
            · exact h.1 S' h'
            · rw [List.mem_singleton.1 h']; exact h.2.2
          | cons ca da =>
            have h := C68_link_partial hS (co := ca) hda hd hv (fun ho => hG.held.ne_none ho) (fun ho => hG.held.ne_none ho)
            exact ⟨fun hr => ⟨rfl, hd, h.1 hr⟩, h.2.1, fun S' h' => h.2.2 S' h'⟩
        · rcases link_new_nowhere hS (old := a) (new := c :: d) hda (fun x hx => hG.held.ne_none hx) hu hd with ⟨e, he⟩ | ⟨e, he⟩
          · exact idle he
          · obtain ⟨h1, h2, h3⟩ := during_copyUp hG hda he
            exact grown (by rw [h1]; simp) h2 h3
      · obtain ⟨e, he⟩ := nowhere_link_old (nowhere hS hua hda) (c :: d)
        exact idle he

/-- The name and what is beneath moved, the rest as it was. -/
structure MovedTo (old new : Name) (S S' : Sys) : Prop where
  moved : ∀ r, S'.view (r ++ new) = S.view (r ++ old)
  gone : ∀ m, old <:+ m → S'.view m = none
  rest : ∀ m, ¬ old <:+ m → ¬ new <:+ m → SameButDirMode (S'.view m) (S.view m)

theorem rename_at {S : Sys} (hG : Good S) {a n : Name} (hua : S.Unlinked a.tail) (hu : S.Unlinked n.tail) :
    (result (renameOp a n) S = .ok () → a ≠ [] ∧ n ≠ [] ∧ S.view a ≠ none ∧ (a = n ∧ final (renameOp a n) S = S ∨ a ≠ n ∧ MovedTo a n S (final (renameOp a n) S))) ∧
    (result (renameOp a n) S ≠ .ok () → ∀ m, SameButDirMode ((final (renameOp a n) S).view m) (S.view m)) ∧
    ∀ S' ∈ crashes (renameOp a n) S, (∀ m, ¬ a <:+ m → ¬ n <:+ m → SameButDirMode (S'.view m) (S.view m)) ∧
      ((∀ m, SameButDirMode (S'.view m) (S.view m)) ∨ ∀ r x, S.view (r ++ a) = some x → S'.view (r ++ n) = some x) := by
  have hS := hG.sound.trees
  have hT := hG.sound.isTree
  have ho : ∀ {x}, x ∈ (S.mask 0).op → S.top x ≠ none := fun ho => hG.held.ne_none ho
  have grown : result (renameOp a n) S ≠ .ok () → Grown S (final (renameOp a n) S) → (∀ S', During (renameOp a n) S S' → Grown S S') →
      (result (renameOp a n) S = .ok () → a ≠ [] ∧ n ≠ [] ∧ S.view a ≠ none ∧ (a = n ∧ final (renameOp a n) S = S ∨ a ≠ n ∧ MovedTo a n S (final (renameOp a n) S))) ∧
      (result (renameOp a n) S ≠ .ok () → ∀ m, SameButDirMode ((final (renameOp a n) S).view m) (S.view m)) ∧
      ∀ S' ∈ crashes (renameOp a n) S, (∀ m, ¬ a <:+ m → ¬ n <:+ m → SameButDirMode (S'.view m) (S.view m)) ∧
        ((∀ m, SameButDirMode (S'.view m) (S.view m)) ∨ ∀ r x, S.view (r ++ a) = some x → S'.view (r ++ n) = some x) := fun h1 h2 h3 =>
    ⟨fun h => absurd h h1, fun _ m => (h2.view hT m).1, fun S' h => ⟨fun m _ _ => ((h3 S' (List.mem_append_left _ h)).view hT m).1,
      Or.inl fun m => ((h3 S' (List.mem_append_left _ h)).view hT m).1⟩⟩
  have idle : ∀ {e}, renameOp a n S = ([], S, .error e) → _ := fun {e} he => grown (by rw [result_idle he]; simp) (by rw [final_idle he]; exact Grown.refl hT)
    (fun S' h => by rw [during_idle he h]; exact Grown.refl hT)
  cases a with
  | nil => exact idle (e := .inval) (by unfold renameOp; rw [get_bind, if_pos (Or.inl rfl)]; rfl)
  | cons ca da =>
    cases n with
    | nil => exact idle (e := .inval) (by unfold renameOp; rw [get_bind, if_pos (Or.inr rfl)]; rfl)
    | cons c d =>
      by_cases hda : S.ViewDir da
      · by_cases hd : S.ViewDir d
        · by_cases hv : S.view (ca :: da) = none
          · obtain ⟨e, he⟩ := lookup_none hS (n := ca :: da) hua hv
            exact idle (e := e) (by unfold renameOp; rw [get_bind, if_neg (by simp), he]; rfl)
          · refine ⟨fun hr => ⟨by simp, by simp, hv, ?_⟩, fun hr => C58_failed_partial hS hda hd ho ho hr, fun S' h' => ?_⟩
            · by_cases hne : ca :: da = c :: d
              · left
                refine ⟨hne, ?_⟩
                obtain ⟨nd, hnd⟩ := Option.ne_none_iff_exists'.1 hv
                obtain ⟨i, hi⟩ := S.lookup_of_view hnd
                have : renameOp (ca :: da) (c :: d) S = ([], S, .ok ()) := by
                  unfold renameOp
                  rw [get_bind, if_neg (by simp), hi]
                  simp only
                  rw [if_pos hne]
                  rfl
                exact final_idle this
              · right
                obtain ⟨h1, h2, h3⟩ := C58_rename_partial hS hda hd ho ho hne hr
                exact ⟨hne, h1, h2, h3⟩
            · by_cases hne : ca :: da = c :: d
              · exfalso
                obtain ⟨nd, hnd⟩ := Option.ne_none_iff_exists'.1 hv
                obtain ⟨i, hi⟩ := S.lookup_of_view hnd
                have : renameOp (ca :: da) (c :: d) S = ([], S, .ok ()) := by
                  unfold renameOp
                  rw [get_bind, if_neg (by simp), hi]
                  simp only
                  rw [if_pos hne]
                  rfl
                have h' : S' ∈ (renameOp (ca :: da) (c :: d) S).1 := h'
                rw [this] at h'
                cases h'
              · exact ⟨C59_others_partial hS hda hd ho ho hne S' h', C59_no_loss_partial hS hda hd ho ho hne S' h'⟩
        · rcases rename_new_nowhere hS (old := ca :: da) (new := c :: d) hda (fun x hx => hG.held.ne_none hx) hu hd with ⟨e, he⟩ | ⟨e, he⟩
          · exact idle he
          · obtain ⟨h1, h2, h3⟩ := during_copyUp hG (n := ca :: da) hda he
            exact grown (by rw [h1]; simp) h2 h3
      · obtain ⟨e, he⟩ := nowhere_rename_old (nowhere hS (n := ca :: da) hua hda) (c :: d)
        exact idle he

theorem lstat_of_lookup_error {S : Sys} {n : Name} {e : Errno} (h : S.lookup n = .error e) : ∃ e', (S.layer 0).lstat n = .error e' := by
  rw [S.lookup_eq] at h
  unfold Sys.search at h
  split at h
  · cases h
  · rename_i hl; exact ⟨_, hl⟩
  · rename_i hl; exact ⟨_, hl⟩
  · rename_i hl; exact ⟨_, hl⟩

theorem chmod_at {S : Sys} (hG : Good S) {n : Name} (hu : S.Unlinked n) (mode : Nat) :
    (result (chmodOp n mode) S = .ok () → ∃ nd, S.view n = some nd ∧ (final (chmodOp n mode) S).view n = some (nd.withMode mode)) ∧
    (result (chmodOp n mode) S ≠ .ok () → ∀ m, SameButDirMode ((final (chmodOp n mode) S).view m) (S.view m)) ∧
    ∀ S', During (chmodOp n mode) S S' → OnlyAt n ((S.view n).map (·.withMode mode)) S S' := by
  have hS := hG.sound.trees
  have hT := hG.sound.isTree
  cases hv : S.view n with
  | none =>
    obtain ⟨e, he⟩ := lookup_none hS (hu.suffix (List.tail_suffix _)) hv
    have key : ∃ e, chmodOp n mode S = ([], S, .error e) := by
      cases n with
      | nil => obtain ⟨k, hk⟩ := S.viewDir_root hT; rw [hv] at hk; cases hk
      | cons c d =>
        have hc : (∃ e, copyUp (c :: d) S = ([], S, .error e)) ∨ copyUp (c :: d) S = ([], S, .ok ()) := by
          simp only [copyUp]
          rw [get_bind, he]
          cases e <;> first | exact Or.inr rfl | exact Or.inl ⟨_, rfl⟩
        rcases hc with ⟨e', hc⟩ | hc
        · exact ⟨e', bind_error hc _⟩
        · unfold chmodOp
          rw [bind_ok hc]
          obtain ⟨e', hl⟩ := lstat_of_lookup_error he
          unfold fsChmod
          rw [get_bind]
          unfold Layer.lstat at hl
          unfold Layer.target
          cases hen : (S.layer 0).entry (c :: d) with
          | error e2 => exact ⟨e2, rfl⟩
          | ok r =>
            rw [hen] at hl
            simp only at hl ⊢
            cases ht : (S.layer 0).tree r with
            | some nd => rw [ht] at hl; cases hl
            | none => simp only [ht]; exact ⟨.notExist, rfl⟩
    obtain ⟨e, he⟩ := key
    refine ⟨fun h => ?_, fun _ m => by rw [final_idle he]; exact .refl _, fun S' h => by rw [during_idle he h]; exact (Grown.refl hT).onlyAt hT _ _⟩
    rw [result_idle he] at h
    cases h
  | some nd =>
    have hl : nd.isLink = false := by
      cases nd with
      | link t => exact absurd hv (hu n t (List.suffix_refl _))
      | _ => rfl
    cases n with
    | nil =>
      obtain ⟨k, hk⟩ := hT.root
      have hk' : S.top [] = some (.dir k) := hk
      have hnd : nd = .dir k := by rw [S.view_root hT, hk'] at hv; exact (Option.some.inj hv).symm
      subst hnd
      have hR : Replaced [] (.dir mode) S (onTree 0 (fun t => setTree t [] (some (.dir mode))) S) := replaced_onTree hk' rfl
      have hop : chmodOp [] mode S = ([onTree 0 (fun t => setTree t [] (some (.dir mode))) S], onTree 0 (fun t => setTree t [] (some (.dir mode))) S, .ok ()) := by
        have hc : copyUp [] S = ([], S, .ok ()) := rfl
        unfold chmodOp
        rw [bind_ok hc]
        unfold fsChmod
        rw [get_bind]
        have ht : (S.layer 0).target [] = .ok [] := by
          unfold Layer.target
          rw [show (S.layer 0).entry [] = .ok [] from rfl]
          simp only [hk]
        rw [ht]
        simp only [hk]
        rfl
      have hva : (onTree 0 (fun t => setTree t [] (some (.dir mode))) S).view [] = some (.dir mode) := by
        rw [Sys.view_root (hR.tree hT), hR.top, setTree_self]
      have hoa : OnlyAt [] (some (.dir mode)) S (onTree 0 (fun t => setTree t [] (some (.dir mode))) S) := by
        intro m
        by_cases e : m = []
        · rw [e]; exact Or.inr ⟨rfl, hva⟩
        · exact Or.inl (Or.inl ((hR.views hT m).1 e))
      have e2 : final (chmodOp [] mode) S = onTree 0 (fun t => setTree t [] (some (.dir mode))) S := by show (chmodOp [] mode S).2.1 = _; rw [hop]
      have e1 : crashes (chmodOp [] mode) S = [onTree 0 (fun t => setTree t [] (some (.dir mode))) S] := by show (chmodOp [] mode S).1 = _; rw [hop]
      refine ⟨fun _ => ⟨_, rfl, by rw [e2]; exact hva⟩, fun h => absurd (by show (chmodOp [] mode S).2.2 = _; rw [hop]) h, fun S' h => ?_⟩
      rw [During, e1, e2] at h
      have : S' = onTree 0 (fun t => setTree t [] (some (.dir mode))) S := by simpa using h
      rw [this]
      exact hoa
    | cons c d =>
      have hd : S.ViewDir d := S.view_parent (by rw [hv]; simp)
      have h := C68_chmod_partial hS hd hv hl (fun ho => hG.held.ne_none ho) mode
      exact ⟨fun hr => ⟨nd, rfl, h.1 hr⟩, h.2.1, fun S' h' => h.2.2 S' h'⟩

theorem attr_at {S : Sys} (hG : Good S) {n : Name} (hu : S.Unlinked n.tail) : ∀ S', During (attrOp n) S S' → ∀ m, SameButDirMode (S'.view m) (S.view m) := by
  have hS := hG.sound.trees
  have hT := hG.sound.isTree
  intro S' h m
  by_cases hd : S.ViewDir n.tail
  · exact (((during_copyUp hG hd (op := attrOp n) (r := (copyUp n S).2.2) rfl).2.2 S' h).view hT m).1
  · obtain ⟨⟨e, he⟩, _, hne⟩ := nowhere hS hu hd
    have hc : ∃ r, attrOp n S = ([], S, r) := by
      obtain ⟨c, d, rfl⟩ := List.exists_cons_of_ne_nil hne
      unfold attrOp
      simp only [copyUp]
      rw [get_bind, he]
      cases e <;> exact ⟨_, rfl⟩
    obtain ⟨r, hc⟩ := hc
    rw [during_idle hc h]
    exact .refl _

/-- `OpenFile` for writing, of a name that does not show as a symlink. -/
theorem open_at {S : Sys} (hG : Good S) {n : Name} (hu : S.Unlinked n) (create excl trunc : Bool) (perm : Nat) :
    (∀ q, result (openWriteOp n create excl trunc perm) S = .ok q → q = n ∧
      ((∃ m data, S.view n = some (.file m data) ∧ (create && excl) = false ∧
        (final (openWriteOp n create excl trunc perm) S).view n = some (.file m (if trunc then [] else data))) ∨
      create = true ∧ S.view n = none ∧ S.ViewDir n.tail ∧ ∃ k, (final (openWriteOp n create excl trunc perm) S).view n = some (.file k []))) ∧
    ((∀ q, result (openWriteOp n create excl trunc perm) S ≠ .ok q) → ∀ m, SameButDirMode ((final (openWriteOp n create excl trunc perm) S).view m) (S.view m)) ∧
    ∀ S' ∈ crashes (openWriteOp n create excl trunc perm) S ++ [final (openWriteOp n create excl trunc perm) S], ∃ k, OnlyAt n (some (.file k [])) S S' := by
  have hS := hG.sound.trees
  have hT := hG.sound.isTree
  have idle : ∀ {e}, openWriteOp n create excl trunc perm S = ([], S, .error e) →
      (∀ q, result (openWriteOp n create excl trunc perm) S = .ok q → q = n ∧
        ((∃ m data, S.view n = some (.file m data) ∧ (create && excl) = false ∧
          (final (openWriteOp n create excl trunc perm) S).view n = some (.file m (if trunc then [] else data))) ∨
        create = true ∧ S.view n = none ∧ S.ViewDir n.tail ∧ ∃ k, (final (openWriteOp n create excl trunc perm) S).view n = some (.file k []))) ∧
      ((∀ q, result (openWriteOp n create excl trunc perm) S ≠ .ok q) → ∀ m, SameButDirMode ((final (openWriteOp n create excl trunc perm) S).view m) (S.view m)) ∧
      ∀ S' ∈ crashes (openWriteOp n create excl trunc perm) S ++ [final (openWriteOp n create excl trunc perm) S], ∃ k, OnlyAt n (some (.file k [])) S S' := by
    intro e he
    have h1 : result (openWriteOp n create excl trunc perm) S = .error e := by unfold result; rw [he]
    have h2 : final (openWriteOp n create excl trunc perm) S = S := by unfold final; rw [he]
    have h3 : crashes (openWriteOp n create excl trunc perm) S = [] := by unfold crashes; rw [he]
    refine ⟨fun q h => (by rw [h1] at h; cases h), fun _ m => by rw [h2]; exact .refl _, fun S' h => ⟨0, ?_⟩⟩
    rw [h2, h3] at h
    have : S' = S := by simpa using h
    rw [this]
    exact (Grown.refl hT).onlyAt hT _ _
  cases hv : S.view n with
  | some nd =>
    have hl : nd.isLink = false := by
      cases nd with
      | link t => exact absurd hv (hu n t (List.suffix_refl _))
      | _ => rfl
    cases n with
    | nil =>
      obtain ⟨k, hk⟩ := S.viewDir_root hT
      obtain ⟨i, hi⟩ := S.lookup_of_view hk
      have := idle (e := .isDir) (by unfold openWriteOp; rw [get_bind, hi]; rfl)
      rw [hv] at this
      exact this
    | cons c d =>
      have hd : S.ViewDir d := S.view_parent (by rw [hv]; simp)
      have h := C68_open_partial hS hd hv hl (fun ho => hG.held.ne_none ho) create excl trunc perm
      refine ⟨fun q hq => ?_, h.2.1, fun S' h' => ?_⟩
      · obtain ⟨h1, h2, m, data, rfl, h4, _⟩ := h.1 q hq
        exact ⟨h1, Or.inl ⟨m, data, rfl, h2, h4⟩⟩
      · have hon := h.2.2 S' h'
        have same : openedNode nd trunc = nd → ∃ k, OnlyAt (c :: d) (some (.file k [])) S S' := fun he => ⟨0, fun m => by
          rcases hon m with h | ⟨rfl, h⟩
          · exact Or.inl h
          · left; left; rw [h, he, hv]⟩
        cases nd with
        | file m data =>
          cases trunc with
          | false => exact same rfl
          | true => exact ⟨m, hon⟩
        | _ => exact same rfl
  | none =>
    cases n with
    | nil => obtain ⟨k, hk⟩ := S.viewDir_root hT; rw [hv] at hk; cases hk
    | cons c d =>
      by_cases hd : S.ViewDir d
      · cases create with
        | false =>
          have hl := lookup_none hS (n := c :: d) (hu.suffix (List.suffix_cons _ _)) hv
          obtain ⟨e, he⟩ := hl
          have key : ∃ e, openWriteOp (c :: d) false excl trunc perm S = ([], S, .error e) := by
            unfold openWriteOp
            rw [get_bind, he]
            cases e <;> exact ⟨_, rfl⟩
          obtain ⟨e', he'⟩ := key
          have := idle he'
          rw [hv] at this
          exact this
        | true =>
          have h := C68_create_partial hS hd hv (fun ho => hG.held.ne_none ho) excl trunc perm
          refine ⟨fun q hq => ?_, h.2.1, h.2.2⟩
          obtain ⟨h1, k, h2, _⟩ := h.1 q hq
          exact ⟨h1, Or.inr ⟨rfl, rfl, hd, k, h2⟩⟩
      · obtain ⟨e, he⟩ := nowhere_openWrite (nowhere hS (n := c :: d) (hu.suffix (List.suffix_cons _ _)) hd) create excl trunc perm
        have := idle he
        rw [hv] at this
        exact this

end Verif.Overlay.Stack
