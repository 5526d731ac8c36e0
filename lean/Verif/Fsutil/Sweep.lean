import Verif.Fsutil.TempProps
/-
C120: removing leftover temporaries, that is std `fs.WalkDir(fsys, ".", policy.WalkFunc)` with `WalkFunc` of /repo/fsutil/safe_write.go 301-328 (`TempFilePolicyRandom`) and 408-468
(`TempFilePolicyDir`).

The filesystem is a finite tree, which nobody else changes meanwhile. Every call may fail: the environment decides which, and what a failing `RemoveAll` leaves. Links are leaves: neither `WalkDir` nor
`RemoveAll` follows them.
-/
namespace Verif.Fsutil.Sweep
open Verif.Path

mutual
/-- A file (or link, ...), or a directory. -/
inductive Tree (α : Type) where
  | leaf (x : α)
  | dir (kids : Kids α)
/-- The entries of a directory, in the order `ReadDir` lists them. -/
inductive Kids (α : Type) where
  | nil
  | cons (name : Str) (t : Tree α) (rest : Kids α)
end

mutual
/-- What is at a path (its elements): nothing, a directory (`some none`), or a leaf. -/
def Tree.look {α : Type} : Tree α → List Str → Option (Option α)
  | .leaf x, [] => some (some x)
  | .leaf _, _ :: _ => none
  | .dir _, [] => some none
  | .dir kids, n :: r => kids.look n r
def Kids.look {α : Type} : Kids α → Str → List Str → Option (Option α)
  | .nil, _, _ => none
  | .cons m t rest, n, r => if m = n then t.look r else rest.look n r
end

/-- The same in a place that may be empty. -/
def look? {α : Type} (t : Option (Tree α)) (r : List Str) : Option (Option α) := t.bind (·.look r)

def Kids.names {α : Type} : Kids α → List Str
  | .nil => []
  | .cons m _ rest => m :: rest.names

mutual
/-- Names are names, and different in a directory. -/
def Tree.WF {α : Type} : Tree α → Prop
  | .leaf _ => True
  | .dir kids => kids.WF
def Kids.WF {α : Type} : Kids α → Prop
  | .nil => True
  | .cons m t rest => IsName m ∧ m ∉ rest.names ∧ t.WF ∧ rest.WF
end

/-- What the environment decides: whether `Stat` of the root fails, which `ReadDir` fails, which `RemoveAll` fails, and what it leaves then. -/
structure Env (α : Type) where
  statErr : Bool
  rdErr : Str → Bool
  rmErr : Str → Option (Option (Tree α))

/-- What a walk function returns: nil, `fs.SkipDir`, or another error. -/
inductive Ret where
  | nil | skip | err
  deriving DecidableEq, Repr

/-- A walk function called without an error: of a path, of whether it is a directory and of whether `RemoveAll` of it would succeed; whether it calls `RemoveAll`, and what it returns. -/
abbrev Fn := Str → Bool → Bool → Bool × Ret

/-- safe_write.go 301-328 `TempFilePolicyRandom.WalkFunc`; with an error it returns the error (307-309). -/
def fnRandom : Fn := fun path isDir rmOk =>
  if !matchRandom path then (false, .nil)
  else if isDir then (true, if rmOk then .skip else .err)
  else (true, if rmOk then .nil else .err)

/-- safe_write.go 408-468 `TempFilePolicyDir.WalkFunc`; with an error it returns the error (414-416). -/
def fnDir (tempDir : Str) : Fn := fun path isDir rmOk =>
  let cleanPath := clean path
  if cleanPath = tempDir then (false, .nil)
  else
    let isParent := if cleanPath = tempDir then false else if cleanPath = dot then true else (cleanPath ++ [slash]).isPrefixOf (tempDir ++ [slash])
    if isDir && isParent then (false, .nil)
    else if !matchDir tempDir path then (false, if isDir then .skip else .nil)
    else if isDir then (true, if rmOk then .skip else .err)
    else (true, if rmOk then .nil else .err)

/-- What is left of something after a `RemoveAll`, if it was called. -/
def after {α : Type} (e : Env α) (p : Str) (called : Bool) (t : Tree α) : Option (Tree α) :=
  if called then (match e.rmErr p with | none => none | some t' => t') else some t

mutual
/-- std io/fs `walkDir`: what is left in the place, and the error. When `ReadDir` fails, the function is called a second time, with the error, and returns it. -/
def walk {α : Type} (e : Env α) (fn : Fn) (p : Str) : Tree α → Option (Tree α) × Ret
  | .leaf x =>
    let r := fn p false (e.rmErr p).isNone
    (after e p r.1 (.leaf x), r.2)
  | .dir kids =>
    let r := fn p true (e.rmErr p).isNone
    match r.2 with
    | .skip => (after e p r.1 (.dir kids), .nil)
    | .err => (after e p r.1 (.dir kids), .err)
    | .nil =>
      -- a function that removes a directory and goes on: the listing fails (does not occur here)
      if r.1 then (after e p true (.dir kids), .err)
      else if e.rdErr p then (some (.dir kids), .err)
      else
        let k := walkKids e fn p kids
        (some (.dir k.1), k.2)
/-- std io/fs `walkDir`, the loop over the entries. -/
def walkKids {α : Type} (e : Env α) (fn : Fn) (p : Str) : Kids α → Kids α × Ret
  | .nil => (.nil, .nil)
  | .cons n t rest =>
    let r := walk e fn (join2 p n) t
    let put := fun k => match r.1 with | none => k | some t' => Kids.cons n t' k
    match r.2 with
    | .nil =>
      let k := walkKids e fn p rest
      (put k.1, k.2)
    | .skip => (put rest, .nil)
    | .err => (put rest, .err)
end

/-- std io/fs `WalkDir(fsys, ".", fn)`. -/
def sweep {α : Type} (e : Env α) (fn : Fn) (t : Tree α) : Option (Tree α) × Ret :=
  if e.statErr then (some t, .err)
  else
    let r := walk e fn dot t
    (r.1, if r.2 = .skip then .nil else r.2)

/-! ### a walk that removes certain things -/

/-- At or below one of the things of `T`. -/
def Within (T : List Str → Prop) (ns : List Str) : Prop := ∃ ms, ms <+: ns ∧ T ms

/-- What a walk function does at the paths `V` that it comes to: it removes the things of `T` and leaves the others; it skips a directory only if nothing of `T` is below. -/
structure Removes (fn : Fn) (T V : List Str → Prop) : Prop where
  root : V []
  isT : ∀ ns isDir ok, (∀ n ∈ ns, IsName n) → V ns → T ns → fn (render false ns) isDir ok = (true, if ok then (if isDir then .skip else .nil) else .err)
  notT : ∀ ns isDir ok, (∀ n ∈ ns, IsName n) → V ns → ¬ T ns →
    (fn (render false ns) isDir ok = (false, .nil) ∧ (isDir = true → ∀ n, V (ns ++ [n]))) ∨ (isDir = true ∧ fn (render false ns) isDir ok = (false, .skip) ∧ ∀ ms, ns <+: ms → ¬ T ms)

theorem child {ns : List Str} {n : Str} (h : ∀ n ∈ ns, IsName n) (hn : IsName n) : join2 (render false ns) n = render false (ns ++ [n]) := by
  have hN : Normal false ns := .names h
  have hne : render false ns ≠ [] := by
    intro hc
    have := clean_render hN
    exact clean_ne_nil _ (this.trans hc)
  rw [join2_name hne hn, isAbs_render hN, comps_render hN]

theorem names_snoc {ns : List Str} {n : Str} (h : ∀ n ∈ ns, IsName n) (hn : IsName n) : ∀ m ∈ ns ++ [n], IsName m := by
  intro m hm
  rcases List.mem_append.1 hm with hm | hm
  · exact h m hm
  · rw [List.mem_singleton.1 hm]; exact hn

theorem look_kids_none {α : Type} : ∀ (k : Kids α) (n : Str) (r : List Str), n ∉ k.names → k.look n r = none
  | .nil, _, _, _ => rfl
  | .cons m t rest, n, r, h => by
    simp only [Kids.names, List.mem_cons, not_or] at h
    simp only [Kids.look]
    rw [if_neg (fun e => h.1 e.symm)]
    exact look_kids_none rest n r h.2

theorem walkKids_names {α : Type} (e : Env α) (fn : Fn) (p : Str) : ∀ (k : Kids α) (n : Str), n ∉ k.names → n ∉ (walkKids e fn p k).1.names
  | .nil, _, _ => by simp [walkKids, Kids.names]
  | .cons m t rest, n, h => by
    simp only [Kids.names, List.mem_cons, not_or] at h
    simp only [walkKids]
    have ih := walkKids_names e fn p rest n h.2
    have hput : ∀ k : Kids α, n ∉ k.names → n ∉ (match (walk e fn (join2 p m) t).1 with | none => k | some t' => Kids.cons m t' k).names := by
      intro k hk
      split
      · exact hk
      · simp only [Kids.names, List.mem_cons, not_or]; exact ⟨h.1, hk⟩
    split
    · exact hput _ ih
    · exact hput _ h.2
    · exact hput _ h.2

theorem look_dir_nil {α : Type} (k : Kids α) : (Tree.dir k).look [] = some none := by rw [Tree.look]
theorem look_dir_cons {α : Type} (k : Kids α) (n : Str) (r : List Str) : (Tree.dir k).look (n :: r) = k.look n r := by rw [Tree.look]

/-- What a walk does to the place it begins at. -/
structure Swept {α : Type} (T : List Str → Prop) (ns : List Str) (t : Tree α) (res : Option (Tree α) × Ret) : Prop where
  /-- what is not within `T` stays -/
  stays : ∀ r, ¬ Within T (ns ++ r) → look? res.1 r = t.look r
  /-- if nil is returned, what is within `T` is gone -/
  gone : res.2 = .nil → ∀ ms r, ns <+: ms → ms <+: ns ++ r → T ms → look? res.1 r = none
  never : res.2 ≠ .skip

structure SweptKids {α : Type} (T : List Str → Prop) (ns : List Str) (k : Kids α) (res : Kids α × Ret) : Prop where
  stays : ∀ n r, ¬ Within T (ns ++ n :: r) → res.1.look n r = k.look n r
  gone : res.2 = .nil → ∀ n ms r, ns ++ [n] <+: ms → ms <+: ns ++ n :: r → T ms → res.1.look n r = none
  never : res.2 ≠ .skip

theorem prefix_antisymm {a b : List Str} (h1 : a <+: b) (h2 : b <+: a) : a = b := h1.eq_of_length (Nat.le_antisymm h1.length_le h2.length_le)

theorem within_self {T : List Str → Prop} {ns r : List Str} (h : T ns) : Within T (ns ++ r) := ⟨ns, List.prefix_append _ _, h⟩

theorem look_after_gone {α : Type} {e : Env α} {p : Str} {t : Tree α} (h : (e.rmErr p).isNone = true) (r : List Str) : look? (after e p true t) r = none := by
  unfold after
  rw [if_pos rfl]
  cases hq : e.rmErr p with
  | none => rfl
  | some x => rw [hq] at h; cases h

mutual
theorem walk_swept {α : Type} (e : Env α) {fn : Fn} {T V : List Str → Prop} (hfn : Removes fn T V) : ∀ (t : Tree α) (ns : List Str), (∀ n ∈ ns, IsName n) → V ns → t.WF →
    Swept T ns t (walk e fn (render false ns) t)
  | .leaf x, ns, hns, hv, _ => by
    simp only [walk]
    by_cases hT : T ns
    · rw [hfn.isT ns false _ hns hv hT]
      refine ⟨fun r hr => absurd (within_self hT) hr, ?_, ?_⟩
      · intro hn ms r _ _ _
        cases hok : (e.rmErr (render false ns)).isNone with
        | true => exact look_after_gone (t := .leaf x) hok r
        | false => rw [hok] at hn; cases hn
      · intro hn
        cases hok : (e.rmErr (render false ns)).isNone <;> rw [hok] at hn <;> cases hn
    · rcases hfn.notT ns false (e.rmErr (render false ns)).isNone hns hv hT with ⟨h1, _⟩ | ⟨h1, _⟩
      · rw [h1]
        refine ⟨fun r _ => rfl, ?_, (fun hn => by cases hn)⟩
        intro _ ms r h2 h3 hms
        cases r with
        | nil =>
          rw [List.append_nil] at h3
          have : ms = ns := prefix_antisymm h3 h2
          exact absurd (this ▸ hms) hT
        | cons n r => show (Tree.leaf x).look (n :: r) = none; rw [Tree.look]
      · cases h1
  | .dir kids, ns, hns, hv, hwf => by
    have hwf : kids.WF := by rw [Tree.WF] at hwf; exact hwf
    simp only [walk]
    by_cases hT : T ns
    · rw [hfn.isT ns true _ hns hv hT]
      cases hok : (e.rmErr (render false ns)).isNone with
      | true =>
        simp only [if_pos]
        exact ⟨fun r hr => absurd (within_self hT) hr, fun _ _ r _ _ _ => look_after_gone (t := .dir kids) hok r, fun hn => by cases hn⟩
      | false =>
        simp only [Bool.false_eq_true, if_false]
        exact ⟨fun r hr => absurd (within_self hT) hr, (fun hn => by cases hn), (fun hn => by cases hn)⟩
    · rcases hfn.notT ns true (e.rmErr (render false ns)).isNone hns hv hT with ⟨h1, h2⟩ | ⟨_, h1, h2⟩
      · rw [h1]
        simp only [Bool.false_eq_true, if_false]
        split
        · exact ⟨fun _ _ => rfl, (fun hn => by cases hn), fun hn => by cases hn⟩
        · have ih := walkKids_swept e hfn kids ns hns (h2 rfl) hwf
          refine ⟨?_, ?_, ih.never⟩
          · intro r hr
            cases r with
            | nil => rw [look_dir_nil]; exact look_dir_nil (walkKids e fn (render false ns) kids).1
            | cons n r => rw [look_dir_cons]; exact (look_dir_cons (walkKids e fn (render false ns) kids).1 n r).trans (ih.stays n r hr)
          · intro hn ms r h3 h4 hms
            cases r with
            | nil =>
              rw [List.append_nil] at h4
              have : ms = ns := prefix_antisymm h4 h3
              exact absurd (this ▸ hms) hT
            | cons n r =>
              refine (look_dir_cons (walkKids e fn (render false ns) kids).1 n r).trans ?_
              refine ih.gone hn n ms r ?_ h4 hms
              obtain ⟨x, rfl⟩ := h3
              cases x with
              | nil => rw [List.append_nil] at hms; exact absurd hms hT
              | cons y x =>
                obtain ⟨z, hz⟩ := h4
                rw [List.append_assoc] at hz
                have := List.append_cancel_left hz
                simp only [List.cons_append, List.cons.injEq] at this
                rw [this.1]
                exact ⟨x, by simp⟩
      · rw [h1]
        exact ⟨fun _ _ => rfl, fun _ ms _ h3 _ hms => absurd hms (h2 ms h3), fun hn => by cases hn⟩

theorem walkKids_swept {α : Type} (e : Env α) {fn : Fn} {T V : List Str → Prop} (hfn : Removes fn T V) : ∀ (k : Kids α) (ns : List Str), (∀ n ∈ ns, IsName n) → (∀ n, V (ns ++ [n])) → k.WF →
    SweptKids T ns k (walkKids e fn (render false ns) k)
  | .nil, _, _, _, _ => ⟨fun _ _ _ => rfl, fun _ _ _ _ _ _ _ => rfl, fun hn => by cases hn⟩
  | .cons m t rest, ns, hns, hv, hwf => by
    rw [Kids.WF] at hwf
    obtain ⟨hm, hmr, htw, hrw⟩ := hwf
    have iht := walk_swept e hfn t (ns ++ [m]) (names_snoc hns hm) (hv m) htw
    have ihr := walkKids_swept e hfn rest ns hns hv hrw
    rw [← child hns hm] at iht
    have hmk := walkKids_names e fn (render false ns) rest m hmr
    simp only [walkKids]
    generalize hw : walk e fn (join2 (render false ns) m) t = w at iht ⊢
    -- the entries after the first one are `k'`
    have hstay : ∀ k' : Kids α, m ∉ k'.names → (∀ n r, ¬ Within T (ns ++ n :: r) → k'.look n r = rest.look n r) →
        ∀ n r, ¬ Within T (ns ++ n :: r) → (match w.1 with | none => k' | some t' => Kids.cons m t' k').look n r = (Kids.cons m t rest).look n r := by
      intro k' hk' hl n r hnw
      have hst := fun (hnm : m = n) => iht.stays r (by rw [List.append_assoc]; subst hnm; exact hnw)
      cases hw1 : w.1 with
      | none =>
        simp only [Kids.look]
        by_cases hnm : m = n
        · have := hst hnm
          rw [hw1] at this
          rw [if_pos hnm, ← this]
          exact look_kids_none k' n r (hnm ▸ hk')
        · rw [if_neg hnm]; exact hl n r hnw
      | some t' =>
        simp only [Kids.look]
        by_cases hnm : m = n
        · have := hst hnm
          rw [hw1] at this
          rw [if_pos hnm, if_pos hnm]; exact this
        · rw [if_neg hnm, if_neg hnm]; exact hl n r hnw
    cases hr : w.2 with
    | nil =>
      simp only []
      refine ⟨hstay _ hmk ihr.stays, ?_, ihr.never⟩
      intro hn n ms r h1 h2 hms
      cases hw1 : w.1 with
      | none =>
        simp only []
        by_cases hnm : m = n
        · exact look_kids_none _ n r (hnm ▸ hmk)
        · exact ihr.gone hn n ms r h1 h2 hms
      | some t' =>
        simp only [Kids.look]
        by_cases hnm : m = n
        · rw [if_pos hnm]
          subst hnm
          have := iht.gone hr ms r h1 (by rw [List.append_assoc]; exact h2) hms
          rw [hw1] at this; exact this
        · rw [if_neg hnm]; exact ihr.gone hn n ms r h1 h2 hms
    | skip => exact absurd hr iht.never
    | err => exact ⟨hstay rest hmr (fun _ _ _ => rfl), (fun hn => by cases hn), fun hn => by cases hn⟩
end

mutual
theorem walk_ok {α : Type} (e : Env α) (hrd : ∀ p, e.rdErr p = false) (hrm : ∀ p, e.rmErr p = none) {fn : Fn} {T V : List Str → Prop} (hfn : Removes fn T V) :
    ∀ (t : Tree α) (ns : List Str), (∀ n ∈ ns, IsName n) → V ns → t.WF → (walk e fn (render false ns) t).2 = .nil
  | .leaf x, ns, hns, hv, _ => by
    simp only [walk, hrm]
    by_cases hT : T ns
    · rw [hfn.isT ns false _ hns hv hT]; rfl
    · rcases hfn.notT ns false (Option.isNone (none : Option (Option (Tree α)))) hns hv hT with ⟨h1, _⟩ | ⟨h1, _⟩
      · rw [h1]
      · cases h1
  | .dir kids, ns, hns, hv, hwf => by
    have hwf : kids.WF := by rw [Tree.WF] at hwf; exact hwf
    simp only [walk, hrm, hrd]
    by_cases hT : T ns
    · rw [hfn.isT ns true _ hns hv hT]; rfl
    · rcases hfn.notT ns true (Option.isNone (none : Option (Option (Tree α)))) hns hv hT with ⟨h1, h2⟩ | ⟨_, h1, h2⟩
      · rw [h1]
        exact walkKids_ok e hrd hrm hfn kids ns hns (h2 rfl) hwf
      · rw [h1]
theorem walkKids_ok {α : Type} (e : Env α) (hrd : ∀ p, e.rdErr p = false) (hrm : ∀ p, e.rmErr p = none) {fn : Fn} {T V : List Str → Prop} (hfn : Removes fn T V) :
    ∀ (k : Kids α) (ns : List Str), (∀ n ∈ ns, IsName n) → (∀ n, V (ns ++ [n])) → k.WF → (walkKids e fn (render false ns) k).2 = .nil
  | .nil, _, _, _, _ => rfl
  | .cons m t rest, ns, hns, hv, hwf => by
    rw [Kids.WF] at hwf
    obtain ⟨hm, hmr, htw, hrw⟩ := hwf
    have h1 := walk_ok e hrd hrm hfn t (ns ++ [m]) (names_snoc hns hm) (hv m) htw
    rw [← child hns hm] at h1
    simp only [walkKids, h1]
    exact walkKids_ok e hrd hrm hfn rest ns hns hv hrw
end

end Verif.Fsutil.Sweep
