import Verif.Overlay.Reach
import Verif.Overlay.Names
import Verif.Fsutil.ResolveSame
/-
From the strings given to the overlay to the names its operations work on: /repo/vroot-adapter/overlayfs/resolve.go 17-93 over the merged view itself, and
the first lines of the methods in remove.go, mkdir.go, rename.go, link.go, open.go, chmod.go, write.go and fs.go, for an overlay and for the sub-roots made by `OpenRoot`.

The whole call runs under the state lock, so all questions are answered in one state.
-/
namespace Verif.Overlay.Stack
open Verif.Path Verif.Prog

/-! ### model -/

/-- The name written as a clean slash path. -/
def nameOf (s : Str) : Name := if s = [] then [] else (split s).reverse

/-- resolve.go 40-62 `resolver`, of a view with base `base` (a sub-root of the overlay, or the whole overlay for `[]`). -/
def Sys.answers (S : Sys) (base : Name) : Fsutil.Resolve.Fs where
  lstat _ s :=
    match Names.name (pathOf base) s with
    | none => none
    | some full =>
      match S.lookup (nameOf full) with
      | .ok (_, nd) => some nd.isLink
      | .error _ => none
  readlink _ s :=
    match Names.name (pathOf base) s with
    | none => none
    | some full =>
      match S.lookup (nameOf full) with
      | .ok (_, .link t) => some t
      | _ => none

/-- resolve.go 71-77 `Fs.resolve`. -/
def Sys.resolve (S : Sys) (base : Name) (p : Str) (skipLast : Bool) : Option Name :=
  (Names.resolve (S.answers base) (pathOf base) p skipLast).map nameOf

/-- resolve.go 83-93 `locate`: `Stat` and `ReadFile` with `skipLast = false`, `Lstat` and `ReadLink` with `true`. -/
def Sys.locate (S : Sys) (base : Name) (p : Str) (skipLast : Bool) : Option (Name × Node) :=
  match S.resolve base p skipLast with
  | none => none
  | some n =>
    match S.lookup n with
    | .ok (_, nd) => some (n, nd)
    | .error _ => none

/-- A call as the user makes it. -/
inductive PathCall
  | chmod (p : Str) (m : Nat) | attr (p : Str) (nofollow : Bool) | openWrite (p : Str) (create excl trunc : Bool) (perm : Nat) | openRead (p : Str)
  | remove (p : Str) | removeAll (p : Str) (steps : List (Name → Bool)) | mkdir (p : Str) (perm : Nat) | mkdirAll (p : Str) (perm : Nat)
  | symlink (t p : Str) | link (a b : Str) | rename (a b : Str)
  | change (h : Nat) (f : Node → Node)

/-- write.go 152-154 `namesSelf`. -/
def namesSelf (p : Str) : Bool := decide (clean p = dot)

def both (f : Name → Name → Call) : Option Name → Option Name → Option Call
  | some a, some b => some (f a b)
  | _, _ => none

/-- The operation a call turns into; `none` if the call returns before that. `gone p` stands for "the error met while resolving `p` is `fs.ErrNotExist`".
remove.go 23-34, 65-79; mkdir.go 28-31, 72-77, 104-127; rename.go 30-43; link.go 24-35, 65-70; open.go 25-37; write.go 105-116; fs.go 201-210. -/
def PathCall.find (S : Sys) (base : Name) (gone : Str → Bool) : PathCall → Option Call
  | .chmod p m => (S.resolve base p false).map (.chmod · m)
  | .attr p nofollow => (S.resolve base p nofollow).map .attr
  | .openWrite p create excl trunc perm =>
    match S.resolve base p false with
    | some n => some (.openWrite n create excl trunc perm)
    | none => if create && gone p then (S.resolve base p true).map (.openWrite · create excl trunc perm) else none
  | .openRead p => (S.resolve base p false).map .openRead
  | .remove p => if namesSelf p then none else (S.resolve base p true).map .remove
  | .removeAll p steps => if namesSelf p then none else (S.resolve base p true).map (.removeAll · steps)
  | .mkdir p perm => (S.resolve base p true).map (.mkdir · perm)
  | .mkdirAll p perm =>
    (Names.mkdirAllName (fun hd => match Names.resolve (S.answers base) (pathOf base) hd true with
      | some r => .ok r
      | none => .error (gone hd)) (pathOf base) p).map (fun full => .mkdirAll (nameOf full) perm)
  | .symlink t p => (S.resolve base p true).map (.symlink t)
  | .link a b => both .link (S.resolve base a true) (S.resolve base b true)
  | .rename a b => if namesSelf a || namesSelf b then none else both .rename (S.resolve base a true) (S.resolve base b true)
  | .change h f => some (.change h f)

/-- A call as a whole. A call that returns early changes nothing; it reports an error, except that `RemoveAll` takes "does not exist" for success
(remove.go 70-74). Error values are not modelled here. -/
def callOp (base : Name) (gone : Str → Bool) (hs : List Handle) (c : PathCall) : Op Unit := do
  let S ← Prog.get
  match c.find S base gone with
  | some call => program hs call
  | none =>
    match c with
    | .removeAll p _ => if !namesSelf p && gone p then Pure.pure () else Prog.fail (.other 1)
    | _ => Prog.fail (.other 1)

/-- The handle a call hands out, if any. -/
def opens (S : Sys) (base : Name) (gone : Str → Bool) (hs : List Handle) (c : PathCall) : List Handle :=
  match c.find S base gone with
  | some call => opened S hs call
  | none => hs

/-! ### names and paths -/

theorem nameOf_join {cs : List Str} (h : CleanComps cs) : nameOf (join cs) = cs.reverse := by
  unfold nameOf
  by_cases he : cs = []
  · subst he; rfl
  · rw [if_neg (by rw [join_eq_nil h]; exact he), split_join he (fun c hc => (h c hc).1.2)]

theorem placeOf_steps {cs : List Str} (hne : cs ≠ []) (h : ∀ c ∈ cs, Fsutil.Resolve.Step c) : placeOf (join cs) = some (Fsutil.Resolve.names cs) := by
  have hc : ∀ x ∈ cs, IsComp x := fun x hx => (h x hx).1
  rw [placeOf_iff]
  refine ⟨isAbs_join hc, ?_, Fsutil.Resolve.names_isName (Fsutil.Resolve.step_noUp h)⟩
  unfold comps
  rw [isAbs_join hc, split_join hne (fun x hx => (hc x hx).2), Fsutil.Resolve.foldl_noUp (Fsutil.Resolve.step_noUp h)]
  simp

/-- The name a string leads to, without symlinks. -/
theorem name_eq {base : Name} (hb : CleanComps base.reverse) (s : Str) : Names.name (pathOf base) s = (placeOf s).map (fun rel => pathOf (rel.reverse ++ base)) := by
  have := Names.C63_name hb s
  unfold pathOf
  rw [this]
  cases placeOf s with
  | none => rfl
  | some rel => simp

theorem nameOf_pathOf {n : Name} (h : CleanComps n.reverse) : nameOf (pathOf n) = n := by
  unfold pathOf
  rw [nameOf_join h, List.reverse_reverse]

theorem cc_rel {base : Name} {rel : List Str} (hb : CleanComps base.reverse) (hr : CleanComps rel) : CleanComps (rel.reverse ++ base).reverse := by
  rw [List.reverse_append, List.reverse_reverse]
  exact Names.cc_append hb hr

/-! ### what was examined -/

open Fsutil.Resolve in
theorem scan_answers (fs : Fs) : ∀ (rest done : List Str) (log log' : Log) (d : List Str), Fsutil.Resolve.scan fs done rest log = (log', .all d) →
    d = done ++ rest ∧ ∀ p, p <+: d → p.length > done.length → ∃ k, fs.lstat k (join p) = some false := by
  intro rest
  induction rest with
  | nil =>
    intro done log log' d h
    simp only [Fsutil.Resolve.scan, Prod.mk.injEq, Scan.all.injEq] at h
    obtain ⟨rfl, rfl⟩ := h
    exact ⟨by simp, fun p hp hl => by have := hp.length_le; omega⟩
  | cons c rest ih =>
    intro done log log' d h
    unfold Fsutil.Resolve.scan at h
    split at h
    · simp at h
    · rename_i hls
      obtain ⟨h1, h2⟩ := ih _ _ _ _ h
      refine ⟨by rw [h1]; simp, fun p hp hl => ?_⟩
      by_cases hlen : p.length > (done ++ [c]).length
      · exact h2 p hp hlen
      · have hd : done ++ [c] <+: d := ⟨rest, h1.symm⟩
        have hpe : p = done ++ [c] := by
          have h1 : p.length = (done ++ [c]).length := by
            rw [List.length_append, List.length_singleton] at *; omega
          exact (List.prefix_of_prefix_length_le hp hd (by omega)).eq_of_length h1
        exact ⟨_, by rw [hpe]; exact hls⟩
    · simp at h

open Fsutil.Resolve in
theorem loop_answers (fs : Fs) : ∀ (fuel cur : Nat) (name : List Str) (log log' : Log) (d : List Str), loop fs fuel cur name log = some (log', .ok d) →
    ∀ p, p <+: d → p ≠ [] → ∃ k, fs.lstat k (join p) = some false := by
  intro fuel
  induction fuel with
  | zero => intro cur name log log' d h; simp [loop] at h
  | succ f ih =>
    intro cur name log log' d h p hp hne
    unfold loop at h
    split at h
    · rename_i hsc
      simp only [Option.some.injEq, Prod.mk.injEq, Except.ok.injEq] at h
      obtain ⟨rfl, rfl⟩ := h
      exact (scan_answers fs _ _ _ _ _ hsc).2 p hp (List.length_pos_iff.2 hne)
    · simp at h
    · split at h
      · simp at h
      · split at h
        · simp at h
        · split at h
          · simp at h
          · split at h
            · simp at h
            · exact ih _ _ _ _ _ h p hp hne

/-! ### the place found -/

/-- No name at or above `d` shows as a symlink. -/
def Sys.Unlinked (S : Sys) (d : Name) : Prop := ∀ a t, a <:+ d → S.view a ≠ some (.link t)

theorem Sys.Unlinked.suffix {S : Sys} {a d : Name} (h : S.Unlinked d) (ha : a <:+ d) : S.Unlinked a := fun b t hb => h b t (hb.trans ha)

theorem view_of_lookup {S : Sys} {n : Name} {nd : Node} (h : S.view n = some nd) : ∃ i, S.lookup n = .ok (i, nd) := by
  cases n with
  | nil =>
    unfold Sys.view at h
    split at h
    · rename_i i nd' hl; cases h; exact ⟨_, hl⟩
    · cases h
  | cons c d =>
    unfold Sys.view at h
    split at h
    · split at h
      · rename_i i nd' hl; cases h; exact ⟨_, hl⟩
      · cases h
    · cases h

theorem Sys.not_link {S : Sys} {n : Name} {i : Nat} {nd : Node} (h : S.lookup n = .ok (i, nd)) (hl : nd.isLink = false) (t : Str) : S.view n ≠ some (.link t) := by
  intro hv
  obtain ⟨j, hj⟩ := view_of_lookup hv
  rw [h] at hj
  cases hj
  cases hl

theorem answers_lstat {S : Sys} {base : Name} (hb : CleanComps base.reverse) {cs : List Str} (hne : cs ≠ []) (h : ∀ c ∈ cs, Fsutil.Resolve.Step c) (k : Nat) :
    (S.answers base).lstat k (join cs) = match S.lookup ((Fsutil.Resolve.names cs).reverse ++ base) with
      | .ok (_, nd) => some nd.isLink
      | .error _ => none := by
  have hn := Fsutil.Resolve.names_isName (Fsutil.Resolve.step_noUp h)
  unfold Sys.answers
  simp only [name_eq hb, placeOf_steps hne h, Option.map_some, nameOf_pathOf (cc_rel hb hn)]

theorem prefix_names {done : List Str} : ∀ {q : List Str}, q <+: Fsutil.Resolve.names done → ∃ p, p <+: done ∧ Fsutil.Resolve.names p = q := by
  induction done with
  | nil => intro q hq; exact ⟨[], List.prefix_refl _, (List.prefix_nil.1 hq).symm⟩
  | cons c done ih =>
    intro q hq
    by_cases hc : c = [] ∨ c = dot
    · rw [Fsutil.Resolve.names_skip hc] at hq
      obtain ⟨p, hp, he⟩ := ih hq
      exact ⟨c :: p, List.cons_prefix_cons.2 ⟨rfl, hp⟩, by rw [Fsutil.Resolve.names_skip hc, he]⟩
    · rw [Fsutil.Resolve.names_keep hc] at hq
      cases q with
      | nil => exact ⟨[], List.nil_prefix, rfl⟩
      | cons x q =>
        obtain ⟨hx, hq'⟩ := List.cons_prefix_cons.1 hq
        subst hx
        obtain ⟨p, hp, he⟩ := ih hq'
        exact ⟨x :: p, List.cons_prefix_cons.2 ⟨rfl, hp⟩, by rw [Fsutil.Resolve.names_keep hc, he]⟩

theorem suffix_append_cases {a x b : Name} (h : a <:+ x ++ b) : a <:+ b ∨ ∃ y, y <:+ x ∧ a = y ++ b := by
  induction x with
  | nil => exact Or.inl h
  | cons c x ih =>
    rcases List.suffix_cons_iff.1 h with h | h
    · exact Or.inr ⟨c :: x, List.suffix_refl _, h⟩
    · rcases ih h with h | ⟨y, hy, he⟩
      · exact Or.inl h
      · exact Or.inr ⟨y, hy.trans (List.suffix_cons _ _), he⟩

theorem unlinked_done {S : Sys} {base : Name} (hb : CleanComps base.reverse) (hu : S.Unlinked base) {done : List Str}
    (hst : ∀ c ∈ done, Fsutil.Resolve.Step c) (h : ∀ p, p <+: done → p ≠ [] → ∃ k, (S.answers base).lstat k (join p) = some false) :
    S.Unlinked ((Fsutil.Resolve.names done).reverse ++ base) := by
  intro a t ha
  rcases suffix_append_cases ha with ha | ⟨y, hy, rfl⟩
  · exact hu a t ha
  · by_cases hy0 : y = []
    · subst hy0; exact hu _ t (List.suffix_refl _)
    · have hq : y.reverse <+: Fsutil.Resolve.names done := by
        rw [← List.reverse_suffix, List.reverse_reverse]; exact hy
      obtain ⟨p, hp, he⟩ := prefix_names hq
      have hpne : p ≠ [] := by
        rintro rfl
        apply hy0
        have : y.reverse = [] := he.symm
        simpa using this
      obtain ⟨k, hk⟩ := h p hp hpne
      rw [answers_lstat hb hpne (fun c hc => hst c (hp.subset hc)), he, List.reverse_reverse] at hk
      split at hk
      · rename_i i nd hl
        exact S.not_link hl (Option.some.inj hk) t
      · cases hk

/-- The names `Fs.resolve` finds: at or below the base, with no symlink above them (nor at them, when the last component is followed too). -/
theorem resolve_spec {S : Sys} {base : Name} (hb : CleanComps base.reverse) (hu : S.Unlinked base) {p : Str} {skip : Bool} {n : Name}
    (h : S.resolve base p skip = some n) :
    CleanComps n.reverse ∧ base <:+ n ∧ S.Unlinked n.tail ∧ (skip = false → S.Unlinked n) ∧ (skip = true → clean p ≠ dot → n ≠ base) := by
  unfold Sys.resolve at h
  obtain ⟨full, hf, rfl⟩ := Option.map_eq_some_iff.1 h
  unfold Names.resolve at hf
  split at hf
  · rename_i log r hr
    rw [name_eq hb] at hf
    obtain ⟨rel, hrel, rfl⟩ := Option.map_eq_some_iff.1 hf
    have hcc := (placeOf_some hrel).2.2
    rw [nameOf_pathOf (cc_rel hb hcc)]
    refine ⟨cc_rel hb hcc, List.suffix_append _ _, ?_⟩
    unfold Fsutil.Resolve.resolvePath at hr
    by_cases hdot : clean p = dot
    · rw [if_pos hdot] at hr
      simp only [Option.some.injEq, Prod.mk.injEq, Except.ok.injEq] at hr
      obtain ⟨_, rfl⟩ := hr
      have : rel = [] := by
        have : placeOf dot = some [] := by decide
        rw [this] at hrel
        exact (Option.some.inj hrel).symm
      subst this
      refine ⟨hu.suffix (List.tail_suffix _), fun _ => hu, fun _ hd => absurd hdot hd⟩
    · rw [if_neg hdot] at hr
      by_cases h2 : isLocal (clean p) = false
      · rw [if_pos h2] at hr; simp at hr
      · rw [if_neg h2] at hr
        have hloc : isLocal (clean p) = true := by simpa using h2
        obtain ⟨hsp, hnm, hne⟩ := Fsutil.Resolve.split_clean_eq hloc hdot
        have hst : ∀ c ∈ split (clean p), Fsutil.Resolve.Step c := by
          rw [hsp]; exact fun c hc => ⟨(hnm c hc).1, (hnm c hc).2.2⟩
        cases skip with
        | true =>
          simp only [if_true] at hr
          have key : ∃ done c, IsName c ∧ (∀ x ∈ done, Fsutil.Resolve.Step x) ∧ r = join (done ++ [c]) ∧ S.Unlinked ((Fsutil.Resolve.names done).reverse ++ base) := by
            by_cases hlen : (split (clean p)).length ≤ 1
            · rw [if_pos hlen] at hr
              simp only [Option.some.injEq, Prod.mk.injEq, Except.ok.injEq] at hr
              obtain ⟨_, rfl⟩ := hr
              rw [hsp] at hlen
              obtain ⟨c, hc⟩ : ∃ c, comps p = [c] := by
                cases hcp : comps p with
                | nil => exact absurd hcp hne
                | cons c cs =>
                  cases cs with
                  | nil => exact ⟨c, rfl⟩
                  | cons _ _ => rw [hcp] at hlen; simp at hlen
              refine ⟨[], c, hnm c (by rw [hc]; simp), by simp, ?_, by simpa [Fsutil.Resolve.names] using hu⟩
              rw [List.nil_append, ← hc, ← hsp, join_split]
            · rw [if_neg hlen] at hr
              obtain ⟨hd, hl⟩ := Fsutil.Resolve.mem_dropLast_or_last (cs := split (clean p)) (by omega)
              split at hr
              · simp at hr
              · simp at hr
              · rename_i done hlp
                simp only [Option.some.injEq, Prod.mk.injEq, Except.ok.injEq] at hr
                obtain ⟨rfl, rfl⟩ := hr
                obtain ⟨new, res, k1, _, _, k4, _⟩ := Fsutil.Resolve.loop_spec (S.answers base) (Fsutil.Resolve.maxLinks + 1) 0 (split (clean p)).dropLast []
                  (fun c hc => hst c (List.dropLast_subset _ hc)) hd (by simp [Fsutil.Resolve.maxLinks]) (by simp)
                rw [hlp] at k1
                simp only [Option.some.injEq, Prod.mk.injEq] at k1
                obtain ⟨_, k7, _⟩ := k4 done k1.2.symm
                exact ⟨done, _, hnm _ (by rw [← hsp]; exact hl), k7, rfl, unlinked_done hb hu k7 (loop_answers _ _ _ _ _ _ _ hlp)⟩
          obtain ⟨done, c, hc, hds, rfl, hun⟩ := key
          have : rel = Fsutil.Resolve.names done ++ [c] := by
            have hp := placeOf_steps (cs := done ++ [c]) (by simp) (by
              intro x hx
              rcases List.mem_append.1 hx with hx | hx
              · exact hds x hx
              · simp only [List.mem_cons, List.not_mem_nil, or_false] at hx
                subst hx; exact ⟨hc.1, hc.2.2⟩)
            rw [Fsutil.Resolve.names_append, Fsutil.Resolve.names_self (cs := [c]) (by simpa using hc)] at hp
            rw [hp] at hrel
            exact (Option.some.inj hrel).symm
          subst this
          rw [List.reverse_append, List.reverse_singleton, List.singleton_append, List.cons_append]
          refine ⟨hun, ⟨fun h => (by cases h), fun _ _ he => ?_⟩⟩
          have := congrArg List.length he
          simp at this
          omega
        | false =>
          simp only [Bool.false_eq_true, if_false] at hr
          split at hr
          · simp at hr
          · simp at hr
          · rename_i done hlp
            simp only [Option.some.injEq, Prod.mk.injEq, Except.ok.injEq] at hr
            obtain ⟨rfl, rfl⟩ := hr
            obtain ⟨new, res, k1, _, _, k4, _⟩ := Fsutil.Resolve.loop_spec (S.answers base) (Fsutil.Resolve.maxLinks + 1) 0 (split (clean p)) [] hst (split_ne_nil _)
              (by simp [Fsutil.Resolve.maxLinks]) (by simp)
            rw [hlp] at k1
            simp only [Option.some.injEq, Prod.mk.injEq] at k1
            obtain ⟨k6, k7, _⟩ := k4 done k1.2.symm
            have : rel = Fsutil.Resolve.names done := by
              rw [placeOf_steps k6 k7] at hrel
              exact (Option.some.inj hrel).symm
            subst this
            have hun := unlinked_done hb hu k7 (loop_answers _ _ _ _ _ _ _ hlp)
            exact ⟨hun.suffix (List.tail_suffix _), fun _ => hun, fun h => (by cases h)⟩
  · cases hf

/-! ### names below what is not a directory -/

theorem search_under {S : Sys} (hS : S.Trees) {c : Str} {d : Name} (p p' : Errno) : ∀ (k k' i : Nat), k ≤ k' → i + k ≤ S.last + 1 →
    ∀ j nd, S.search d p' k' i = .ok (j, nd) → nd.isDir = false → nd.isLink = false → ∃ e, S.search (c :: d) p k i = .error e := by
  intro k
  induction k with
  | zero => intro k' i _ _ j nd _ _ _; exact ⟨_, rfl⟩
  | succ k ih =>
    intro k' i hk hle j nd h hnd hnl
    obtain ⟨k', rfl⟩ : ∃ k'', k' = k'' + 1 := ⟨k' - 1, by omega⟩
    have hL := hS i (by omega)
    have hroot : d ≠ [] := by
      rintro rfl
      obtain ⟨m, hm⟩ := hL.root
      simp only [Sys.search, Layer.lstat, Layer.entry, hm] at h
      cases h
      cases hnd
    obtain ⟨a, d', rfl⟩ := List.exists_cons_of_ne_nil hroot
    unfold Sys.search at h ⊢
    cases hd : (S.layer i).lstat (a :: d') with
    | ok nd' =>
      rw [hd] at h
      cases h
      have hc : (S.layer i).lstat (c :: a :: d') = .error .notDir := by
        simp only [Layer.lstat, Layer.entry] at hd ⊢
        simp only [Layer.realDir]
        cases hr : (S.layer i).realDir d' with
        | error e => rw [hr] at hd; cases hd
        | ok r =>
          rw [hr] at hd
          simp only at hd ⊢
          cases ht : (S.layer i).tree (a :: r) with
          | none => rw [ht] at hd; cases hd
          | some x =>
            rw [ht] at hd
            cases hd
            cases nd <;> first | rfl | (cases hnd; done) | (cases hnl; done)
      rw [hc]
      have hb : (S.layer i).blockedIn (a :: d') = .ok true := by
        simp only [Layer.blockedIn, hd, hnd]; rfl
      simp only [List.tail_cons, hb]
      exact ⟨_, rfl⟩
    | error e =>
      rw [hd] at h
      rw [Layer.lstat_error hL hd]
      cases e with
      | notExist => exact ih k' (i + 1) (by omega) (by omega) j nd h hnd hnl
      | notDir =>
        simp only [List.tail_cons] at h ⊢
        have hb : (S.layer i).blockedIn (a :: d') = (S.layer i).blockedIn d' := by
          simp only [Layer.blockedIn, hd]
        rw [hb]
        cases hbi : (S.layer i).blockedIn d' with
        | error e => exact ⟨_, rfl⟩
        | ok b =>
          rw [hbi] at h
          cases b with
          | true => exact ⟨_, rfl⟩
          | false => exact ih k' (i + 1) (by omega) (by omega) j nd h hnd hnl
      | _ => exact ⟨_, rfl⟩

/-- Nothing is found below a name that shows as neither a directory nor a symlink, or not at all. -/
theorem Sys.lookup_under {S : Sys} (hS : S.Trees) {d : Name} (hu : ∀ i nd, S.lookup d = .ok (i, nd) → nd.isDir = false ∧ nd.isLink = false) (c : Str) :
    ∃ e, S.lookup (c :: d) = .error e := by
  have hcut : S.cutFrom (c :: d) 0 ≤ S.cutFrom d 0 := S.cut_mono
  have hlast := S.cutFrom_le_last (c :: d) 0
  cases hl : S.lookup d with
  | ok x =>
    obtain ⟨j, nd⟩ := x
    obtain ⟨h1, h2⟩ := hu j nd hl
    rw [S.lookup_eq] at hl
    obtain ⟨e, he⟩ := search_under hS (c := c) (S.perr (c :: d)) _ (S.cutFrom (c :: d) 0 + 1) _ 0 (by omega) (by omega) j nd hl h1 h2
    exact ⟨e, by rw [S.lookup_eq]; exact he⟩
  | error e =>
    cases hc : S.lookup (c :: d) with
    | error e' => exact ⟨_, rfl⟩
    | ok x =>
      exfalso
      rw [S.lookup_eq] at hc hl
      obtain ⟨y, hy⟩ := S.search_parent hS _ (S.perr d) (S.cutFrom (c :: d) 0 + 1) (S.cutFrom d 0 + 1) 0 (by omega) (by omega) x hc
      rw [hl] at hy
      cases hy

theorem Sys.not_viewDir {S : Sys} (hS : S.Trees) : ∀ {d : Name}, S.Unlinked d → ¬ S.ViewDir d → ∀ i nd, S.lookup d = .ok (i, nd) → nd.isDir = false ∧ nd.isLink = false := by
  intro d
  induction d with
  | nil => intro _ hd; exact absurd (S.viewDir_root (hS 0 (Nat.zero_le _))) hd
  | cons a d ih =>
    intro hu hd i nd hl
    by_cases hp : S.ViewDir d
    · have hv : S.view (a :: d) = some nd := by
        rw [S.view_cons hp, hl]
      refine ⟨?_, ?_⟩
      · cases nd with
        | dir m => exact absurd ⟨m, hv⟩ hd
        | _ => rfl
      · cases nd with
        | link t => exact absurd hv (hu _ t (List.suffix_refl _))
        | _ => rfl
    · obtain ⟨e, he⟩ := S.lookup_under hS (ih (hu.suffix (List.suffix_cons _ _)) hp) a
      rw [he] at hl
      cases hl

/-- Names with no symlink above them are found exactly where they show. -/
theorem Sys.lookup_view {S : Sys} (hS : S.Trees) {n : Name} (hu : S.Unlinked n.tail) (nd : Node) : (∃ i, S.lookup n = .ok (i, nd)) ↔ S.view n = some nd := by
  refine ⟨?_, view_of_lookup⟩
  rintro ⟨i, hi⟩
  cases n with
  | nil => simp only [Sys.view, hi]
  | cons c d =>
    by_cases hp : S.ViewDir d
    · rw [S.view_cons hp, hi]
    · obtain ⟨e, he⟩ := S.lookup_under hS (S.not_viewDir hS (d := d) hu hp) c
      rw [he] at hi
      cases hi

theorem get_bind {α : Type} (f : Sys → Op α) (S : Sys) : (Prog.get >>= f : Op α) S = f S S := rfl

theorem bind_error {α β : Type} {m : Op α} {S S' : Sys} {t : List Sys} {e : Errno} (h : m S = (t, S', .error e)) (f : α → Op β) : (m >>= f : Op β) S = (t, S', .error e) := by
  show Prog.bind m f S = _
  simp only [Prog.bind, h]

theorem ensureParent_idle {S : Sys} {n : Name} (h : ∀ i nd, S.lookup n.tail = .ok (i, nd) → nd.isDir = false) : ∃ e, ensureParent n S = ([], S, .error e) := by
  unfold ensureParent
  rw [get_bind]
  cases hl : S.lookup n.tail with
  | error e => exact ⟨e, rfl⟩
  | ok x =>
    obtain ⟨i, nd⟩ := x
    have := h i nd hl
    cases nd <;> first | exact ⟨_, rfl⟩ | cases this

/-- Nowhere: the name is not found, and neither is a directory above it. -/
structure Nowhere (S : Sys) (n : Name) : Prop where
  name : ∃ e, S.lookup n = .error e
  parent : ∀ i nd, S.lookup n.tail = .ok (i, nd) → nd.isDir = false
  ne : n ≠ []

theorem nowhere {S : Sys} (hS : S.Trees) {n : Name} (hu : S.Unlinked n.tail) (hd : ¬ S.ViewDir n.tail) : Nowhere S n := by
  cases n with
  | nil => exact absurd (S.viewDir_root (hS 0 (Nat.zero_le _))) hd
  | cons c d =>
    have h := S.not_viewDir hS (d := d) hu hd
    exact ⟨S.lookup_under hS h c, fun i nd hl => (h i nd hl).1, by simp⟩

theorem nowhere_remove {S : Sys} {n : Name} (h : Nowhere S n) : ∃ e, removeOp n S = ([], S, .error e) := by
  obtain ⟨e, he⟩ := h.name
  unfold removeOp
  rw [get_bind, if_neg h.ne, he]
  exact ⟨e, rfl⟩

theorem nowhere_removeAll {S : Sys} {n : Name} (h : Nowhere S n) (o : List (Name → Bool)) : ∃ r, removeAllOp n o S = ([], S, r) := by
  obtain ⟨e, he⟩ := h.name
  unfold removeAllOp
  rw [get_bind, if_neg h.ne, he]
  cases e <;> exact ⟨_, rfl⟩

theorem nowhere_mkdir {S : Sys} {n : Name} (h : Nowhere S n) (perm : Nat) : ∃ e, mkdirOp n perm S = ([], S, .error e) := by
  obtain ⟨e, he⟩ := h.name
  obtain ⟨e', he'⟩ := ensureParent_idle h.parent
  unfold mkdirOp
  rw [get_bind, he]
  cases e <;> first
    | exact ⟨_, bind_error he' _⟩
    | exact ⟨_, rfl⟩

theorem nowhere_symlink {S : Sys} {n : Name} (h : Nowhere S n) (t : Str) : ∃ e, symlinkOp t n S = ([], S, .error e) := by
  obtain ⟨e, he⟩ := h.name
  obtain ⟨e', he'⟩ := ensureParent_idle h.parent
  unfold symlinkOp
  rw [get_bind, he]
  cases e <;> first
    | exact ⟨_, bind_error he' _⟩
    | exact ⟨_, rfl⟩

theorem nowhere_openWrite {S : Sys} {n : Name} (h : Nowhere S n) (c x t : Bool) (perm : Nat) : ∃ e, openWriteOp n c x t perm S = ([], S, .error e) := by
  obtain ⟨e, he⟩ := h.name
  obtain ⟨e', he'⟩ := ensureParent_idle h.parent
  unfold openWriteOp
  rw [get_bind, he]
  cases c <;> cases e <;> first
    | exact ⟨_, bind_error he' _⟩
    | exact ⟨_, rfl⟩

theorem nowhere_rename_old {S : Sys} {n : Name} (h : Nowhere S n) (b : Name) : ∃ e, renameOp n b S = ([], S, .error e) := by
  obtain ⟨e, he⟩ := h.name
  unfold renameOp
  rw [get_bind]
  split
  · exact ⟨_, rfl⟩
  · rw [he]; exact ⟨_, rfl⟩

theorem nowhere_link_old {S : Sys} {n : Name} (h : Nowhere S n) (b : Name) : ∃ e, linkOp n b S = ([], S, .error e) := by
  obtain ⟨e, he⟩ := h.name
  unfold linkOp
  rw [get_bind, he]
  exact ⟨_, rfl⟩

/-- What was seen at `n` and above it is still seen after a copy-up. -/
theorem Grown.nowhere {S S' : Sys} (hS : S.Trees) (h : Grown S S') {n : Name} (hu : S.Unlinked n.tail) (hd : ¬ S.ViewDir n.tail) : Nowhere S' n := by
  have hT := hS 0 (Nat.zero_le _)
  refine Stack.nowhere (h.trees hS) (fun a t ha hv => ?_) (fun h' => hd ((h.viewDir hT _).1 h'))
  rcases (h.view hT a).1 with e | ⟨m, m', e, _⟩
  · rw [e] at hv; exact hu a t ha hv
  · rw [e] at hv; cases hv

theorem bind_ok {α β : Type} {m : Op α} {S S' : Sys} {t : List Sys} {a : α} (h : m S = (t, S', .ok a)) (f : α → Op β) : (m >>= f : Op β) S = (t ++ (f a S').1, (f a S').2.1, (f a S').2.2) := by
  show Prog.bind m f S = _
  simp only [Prog.bind, h]

/-- What follows a copy-up fails at once when the new name is nowhere. -/
theorem copyUp_then {S : Sys} (hS : S.Trees) {old new : Name} (hd : S.ViewDir old.tail) (ho : ∀ a, a ∈ (S.mask 0).op → S.top a ≠ none)
    (hu : S.Unlinked new.tail) (hn : ¬ S.ViewDir new.tail) {α : Type} (f : Op α) : ∃ e, (copyUp old >>= fun _ => ensureParent new >>= fun _ => f : Op α) S =
      ((copyUp old S).1, (copyUp old S).2.1, .error e) := by
  have hT := hS 0 (Nat.zero_le _)
  rcases hc : copyUp old S with ⟨t, S', r⟩
  cases r with
  | error e => exact ⟨e, bind_error hc _⟩
  | ok a =>
    have hG : Grown S S' := by
      cases old with
      | nil => cases hc; exact Grown.refl hT
      | cons c d =>
        have := (holds_copyUp hT (c := c) (d := d) hd (ho _) S rfl).2.1
        rw [hc] at this
        exact this
    obtain ⟨e, he⟩ := ensureParent_idle (hG.nowhere hS hu hn).parent
    refine ⟨e, ?_⟩
    rw [bind_ok hc, bind_error he]
    simp

theorem rename_new_nowhere {S : Sys} (hS : S.Trees) {old new : Name} (hd : S.ViewDir old.tail) (ho : ∀ a, a ∈ (S.mask 0).op → S.top a ≠ none)
    (hu : S.Unlinked new.tail) (hn : ¬ S.ViewDir new.tail) : (∃ e, renameOp old new S = ([], S, .error e)) ∨
      ∃ e, renameOp old new S = ((copyUp old S).1, (copyUp old S).2.1, .error e) := by
  have hw := nowhere hS hu hn
  obtain ⟨e0, he0⟩ := hw.name
  unfold renameOp
  rw [get_bind]
  split
  · exact Or.inl ⟨_, rfl⟩
  · cases hl : S.lookup old with
    | error e => exact Or.inl ⟨_, rfl⟩
    | ok x =>
      obtain ⟨i, nd⟩ := x
      simp only
      split
      · rename_i h; rw [h, he0] at hl; cases hl
      · split
        · exact Or.inl ⟨_, rfl⟩
        · cases (if nd.isDir then renameDirCheck S old else none) with
          | some e => exact Or.inl ⟨_, rfl⟩
          | none =>
            simp only
            cases renameTargetCheck S new nd.isDir with
            | some e => exact Or.inl ⟨_, rfl⟩
            | none => exact Or.inr (copyUp_then hS hd ho hu hn _)

theorem link_new_nowhere {S : Sys} (hS : S.Trees) {old new : Name} (hd : S.ViewDir old.tail) (ho : ∀ a, a ∈ (S.mask 0).op → S.top a ≠ none)
    (hu : S.Unlinked new.tail) (hn : ¬ S.ViewDir new.tail) : (∃ e, linkOp old new S = ([], S, .error e)) ∨
      ∃ e, linkOp old new S = ((copyUp old S).1, (copyUp old S).2.1, .error e) := by
  have hw := nowhere hS hu hn
  obtain ⟨e0, he0⟩ := hw.name
  unfold linkOp
  rw [get_bind]
  cases hl : S.lookup old with
  | error e => exact Or.inl ⟨_, rfl⟩
  | ok x =>
    simp only [he0]
    cases e0 <;> first
      | exact Or.inr (copyUp_then hS hd ho hu hn _)
      | exact Or.inl ⟨_, rfl⟩

/-- A view that can be used: its base is a clean name with no symlink at or above it. So it is for the overlay itself; for a sub-root as long as no directory
on the way to it is replaced by a symlink. -/
structure Rooted (S : Sys) (base : Name) : Prop where
  clean : CleanComps base.reverse
  unlinked : S.Unlinked base

theorem rooted_root {S : Sys} (hT : (S.layer 0).IsTree) : Rooted S [] := by
  refine ⟨fun c hc => (by cases hc), fun a t ha hv => ?_⟩
  have : a = [] := List.suffix_nil.1 ha
  subst this
  obtain ⟨m, hm⟩ := S.viewDir_root hT
  rw [hm] at hv
  cases hv

theorem both_some {f : Name → Name → Call} {a b : Option Name} {c : Call} (h : both f a b = some c) : ∃ x y, a = some x ∧ b = some y ∧ c = f x y := by
  cases a <;> cases b <;> simp only [both, Option.some.injEq, reduceCtorEq] at h
  exact ⟨_, _, rfl, rfl, h.symm⟩

/-- A change through a handle leaves a directory a directory and anything else something else. -/
def PathCall.KeepsKind : PathCall → Prop
  | .change _ f => ∀ nd, (f nd).isDir = nd.isDir
  | _ => True

/-- Two operations that do the same. -/
structure Same (hs : List Handle) (S : Sys) (c c' : Call) : Prop where
  crashes : crashes (program hs c) S = crashes (program hs c') S
  final : final (program hs c) S = final (program hs c') S
  opened : opened S hs c = opened S hs c'
  dies : NotInRename c → NotInRename c'

theorem Same.idle {hs : List Handle} {S : Sys} {c : Call} {r : Except Errno Unit} (h : program hs c S = ([], S, r)) (ho : Stack.opened S hs c = hs) : Same hs S c (.attr []) :=
  ⟨by show (program hs c S).1 = _; rw [h]; rfl, by show (program hs c S).2.1 = _; rw [h]; rfl, ho, fun _ h => h⟩

theorem Same.copyUp {hs : List Handle} {S : Sys} {c : Call} {n : Name} {r : Except Errno Unit} (h : program hs c S = ((copyUp n S).1, (copyUp n S).2.1, r))
    (ho : Stack.opened S hs c = hs) : Same hs S c (.attr n) :=
  ⟨by show (program hs c S).1 = _; rw [h]; rfl, by show (program hs c S).2.1 = _; rw [h]; rfl, ho, fun _ h => h⟩

/-- A call by path does what an operation on names does that is made on names in directories that show. -/
theorem call_placed {S : Sys} (hG : Good S) {base : Name} (hr : Rooted S base) {gone : Str → Bool} {hs : List Handle} {c : PathCall} (hk : c.KeepsKind) {call : Call}
    (h : c.find S base gone = some call) : ∃ call', PlacedCalls S call' ∧ Same hs S call call' := by
  have hS := hG.sound.trees
  have ho : ∀ a, a ∈ (S.mask 0).op → S.top a ≠ none := fun a ha => hG.held.ne_none ha
  have self : PlacedCalls S call → ∃ call', PlacedCalls S call' ∧ Same hs S call call' := fun h => ⟨call, h, rfl, rfl, rfl, id⟩
  have idle : ∀ r, program hs call S = ([], S, r) → opened S hs call = hs → ∃ call', PlacedCalls S call' ∧ Same hs S call call' := fun r h1 h2 => ⟨.attr [], ⟨trivial, trivial⟩, .idle h1 h2⟩
  have place : ∀ {p : Str} {n : Name}, S.resolve base p true = some n → S.Unlinked n.tail := fun h => (resolve_spec hr.clean hr.unlinked h).2.2.1
  cases c with
  | chmod p m => obtain ⟨n, hn, rfl⟩ := Option.map_eq_some_iff.1 h; exact self ⟨trivial, trivial⟩
  | attr p b => obtain ⟨n, hn, rfl⟩ := Option.map_eq_some_iff.1 h; exact self ⟨trivial, trivial⟩
  | openWrite p a b d e =>
    simp only [PathCall.find] at h
    split at h
    · cases h; exact self ⟨trivial, trivial⟩
    · split at h
      · obtain ⟨n, hn, rfl⟩ := Option.map_eq_some_iff.1 h; exact self ⟨trivial, trivial⟩
      · cases h
  | openRead p => obtain ⟨n, hn, rfl⟩ := Option.map_eq_some_iff.1 h; exact self ⟨trivial, trivial⟩
  | remove p =>
    simp only [PathCall.find] at h
    split at h
    · cases h
    · obtain ⟨n, hn, rfl⟩ := Option.map_eq_some_iff.1 h
      by_cases hd : S.ViewDir n.tail
      · exact self ⟨trivial, hd⟩
      · obtain ⟨e, he⟩ := nowhere_remove (nowhere hS (place hn) hd)
        exact idle _ he rfl
  | removeAll p o =>
    simp only [PathCall.find] at h
    split at h
    · cases h
    · obtain ⟨n, hn, rfl⟩ := Option.map_eq_some_iff.1 h
      by_cases hd : S.ViewDir n.tail
      · exact self ⟨trivial, hd⟩
      · obtain ⟨e, he⟩ := nowhere_removeAll (nowhere hS (place hn) hd) o
        exact idle _ he rfl
  | mkdir p perm =>
    obtain ⟨n, hn, rfl⟩ := Option.map_eq_some_iff.1 h
    by_cases hd : S.ViewDir n.tail
    · exact self ⟨trivial, hd⟩
    · obtain ⟨e, he⟩ := nowhere_mkdir (nowhere hS (place hn) hd) perm
      exact idle _ he rfl
  | mkdirAll p perm => obtain ⟨n, hn, rfl⟩ := Option.map_eq_some_iff.1 h; exact self ⟨trivial, trivial⟩
  | symlink t p => obtain ⟨n, hn, rfl⟩ := Option.map_eq_some_iff.1 h; exact self ⟨trivial, trivial⟩
  | link a b => obtain ⟨x, y, hx, hy, rfl⟩ := both_some h; exact self ⟨trivial, trivial⟩
  | rename a b =>
    simp only [PathCall.find] at h
    split at h
    · cases h
    · obtain ⟨x, y, hx, hy, rfl⟩ := both_some h
      by_cases hd : S.ViewDir x.tail
      · by_cases hd2 : S.ViewDir y.tail
        · exact self ⟨trivial, hd, hd2⟩
        · rcases rename_new_nowhere hS hd ho (place hy) hd2 with ⟨e, he⟩ | ⟨e, he⟩
          · exact idle _ he rfl
          · exact ⟨.attr x, ⟨trivial, trivial⟩, .copyUp he rfl⟩
      · obtain ⟨e, he⟩ := nowhere_rename_old (nowhere hS (place hx) hd) y
        exact idle _ he rfl
  | change i f => cases h; exact self ⟨hk, trivial⟩

theorem callOp_some {base : Name} {gone : Str → Bool} {hs : List Handle} {c : PathCall} {S : Sys} {call : Call} (h : c.find S base gone = some call) :
    callOp base gone hs c S = program hs call S := by
  unfold callOp
  rw [get_bind, h]

theorem callOp_none {base : Name} {gone : Str → Bool} {hs : List Handle} {c : PathCall} {S : Sys} (h : c.find S base gone = none) :
    ∃ r, callOp base gone hs c S = ([], S, r) ∧ (r = .ok () → ∃ p o, c = .removeAll p o ∧ namesSelf p = false) := by
  unfold callOp
  rw [get_bind, h]
  cases c with
  | removeAll p o =>
    simp only
    split
    · rename_i hb
      exact ⟨_, rfl, fun _ => ⟨p, o, rfl, by cases hn : namesSelf p <;> simp_all⟩⟩
    · exact ⟨_, rfl, fun h => nomatch h⟩
  | _ => exact ⟨_, rfl, fun h => nomatch h⟩

/-! ### histories of calls by path -/

/-- The histories a user sees: calls by path, through the overlay itself (`base = []`) or through any sub-roots, any of them cut short by the death of the process
(renames excepted). -/
inductive PathRuns (S0 : Sys) : Sys → List Handle → Prop
  | start : PathRuns S0 S0 []
  | call {S hs} (base : Name) (gone : Str → Bool) (c : PathCall) : PathRuns S0 S hs → Rooted S base → c.KeepsKind →
      PathRuns S0 (final (callOp base gone hs c) S) (opens S base gone hs c)
  | crash {S hs} (base : Name) (gone : Str → Bool) (c : PathCall) {T} : PathRuns S0 S hs → Rooted S base → c.KeepsKind → (∀ a b, c ≠ .rename a b) →
      T ∈ crashes (callOp base gone hs c) S → PathRuns S0 T []

theorem find_rename {S : Sys} {base : Name} {gone : Str → Bool} {c : PathCall} {call : Call} (h : c.find S base gone = some call) (hc : ∀ a b, c ≠ .rename a b) :
    NotInRename call := by
  intro hr
  cases c with
  | rename a b => exact hc a b rfl
  | openWrite p a b d e =>
    simp only [PathCall.find] at h
    split at h
    · cases h; exact hr
    · split at h
      · obtain ⟨n, hn, rfl⟩ := Option.map_eq_some_iff.1 h; exact hr
      · cases h
  | remove p =>
    simp only [PathCall.find] at h
    split at h
    · cases h
    · obtain ⟨n, hn, rfl⟩ := Option.map_eq_some_iff.1 h; exact hr
  | removeAll p o =>
    simp only [PathCall.find] at h
    split at h
    · cases h
    · obtain ⟨n, hn, rfl⟩ := Option.map_eq_some_iff.1 h; exact hr
  | link a b => obtain ⟨x, y, hx, hy, rfl⟩ := both_some h; exact hr
  | change i f => cases h; exact hr
  | _ => obtain ⟨n, hn, rfl⟩ := Option.map_eq_some_iff.1 h; exact hr

/-- Every history of calls by path is a history of operations on names in directories that show: what C55 to C59, C68 and C73 assume of the names holds. -/
theorem PathRuns.clean {S0 S : Sys} {hs : List Handle} (h0 : Sound S0) (hm : Held S0) (h : PathRuns S0 S hs) : CleanRuns S0 S hs := by
  induction h with
  | start => exact .start
  | @call S hs base gone c _ hr hk ih =>
    have hG := good_runs ⟨h0, hm⟩ ih
    cases hf : c.find S base gone with
    | none =>
      obtain ⟨r, he, _⟩ := callOp_none (hs := hs) hf
      have e1 : final (callOp base gone hs c) S = S := by show (callOp base gone hs c S).2.1 = S; rw [he]
      have e2 : opens S base gone hs c = hs := by unfold opens; rw [hf]
      rw [e1, e2]; exact ih
    | some call =>
      obtain ⟨call', hp, hsame⟩ := call_placed hG hr hk (hs := hs) hf
      have e1 : final (callOp base gone hs c) S = final (program hs call') S := by
        rw [← hsame.final]; show (callOp base gone hs c S).2.1 = _; rw [callOp_some hf]; rfl
      have e2 : opens S base gone hs c = opened S hs call' := by
        rw [← hsame.opened]; unfold opens; rw [hf]
      rw [e1, e2]
      exact .call call' ih hp
  | @crash S hs base gone c T _ hr hk hc ht ih =>
    have hG := good_runs ⟨h0, hm⟩ ih
    cases hf : c.find S base gone with
    | none =>
      obtain ⟨r, he, _⟩ := callOp_none (hs := hs) hf
      have ht : T ∈ (callOp base gone hs c S).1 := ht
      rw [he] at ht; cases ht
    | some call =>
      obtain ⟨call', hp, hsame⟩ := call_placed hG hr hk (hs := hs) hf
      refine .crash call' ih hp (hsame.dies (find_rename hf hc)) ?_
      rw [← hsame.crashes]
      have ht : T ∈ (callOp base gone hs c S).1 := ht
      rw [callOp_some hf] at ht
      exact ht

end Verif.Overlay.Stack
