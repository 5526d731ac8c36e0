import Verif.Fsutil.ResolveProps
/-
C29: a resolved path contains no symlinks and names the same file.
-/
namespace Verif.Fsutil.Resolve
open Verif.Path

/-! ### specification: how the kernel walks a path -/

inductive Ent where
  | dir | file | link (target : Str)
  deriving DecidableEq, Repr

/-- A file tree: what is found at every real path (a list of names). -/
abbrev Tree := List Str → Option Ent

def Ent.isLink : Ent → Bool
  | .link _ => true
  | _ => false

/-- `Walk T d cs r`: the walk of the components `cs` from the directory `d` ends at the real path `r` (path_resolution(7)). The components of a link's
target are walked from the directory of the link. There is no step above the root, and none for an absolute target. Simplification: empty and "."
components are skipped without looking (a trailing "/" or "/." after a file is not refused). -/
inductive Walk (T : Tree) : List Str → List Str → List Str → Prop
  | nil (d) : Walk T d [] d
  | dot {d c rest r} : c = [] ∨ c = dot → Walk T d rest r → Walk T d (c :: rest) r
  | up {d rest r} : T d = some .dir → d ≠ [] → Walk T d.dropLast rest r → Walk T d (dotdot :: rest) r
  | plain {d c rest r e} : IsName c → T d = some .dir → T (d ++ [c]) = some e → e.isLink = false → Walk T (d ++ [c]) rest r → Walk T d (c :: rest) r
  | link {d c rest r t} : IsName c → T d = some .dir → T (d ++ [c]) = some (.link t) → isAbs t = false → Walk T d (split t ++ rest) r →
      Walk T d (c :: rest) r

/-- The answers of the filesystem are those of the tree: `Lstat` and `ReadLink` walk all components but the last. -/
structure Agrees (fs : Fs) (T : Tree) : Prop where
  root : T [] = some .dir
  lstat_name : ∀ k n cs c b, split n = cs ++ [c] → IsName c → fs.lstat k n = some b →
    ∃ d e, Walk T [] cs d ∧ T d = some .dir ∧ T (d ++ [c]) = some e ∧ b = e.isLink
  lstat_dot : ∀ k n cs b, split n = cs ++ [dot] → fs.lstat k n = some b → b = false ∧ ∃ d, Walk T [] cs d
  readlink : ∀ k n cs c t, split n = cs ++ [c] → IsName c → fs.readlink k n = some t →
    ∃ d, Walk T [] cs d ∧ T d = some .dir ∧ T (d ++ [c]) = some (.link t)

/-- The answers are those of the tree at least where the directory asked about is `ok`. -/
structure AgreesOn (ok : List Str → Prop) (fs : Fs) (T : Tree) : Prop where
  root : T [] = some .dir
  lstat_name : ∀ k n cs c b, ok cs → split n = cs ++ [c] → IsName c → fs.lstat k n = some b →
    ∃ d e, Walk T [] cs d ∧ T d = some .dir ∧ T (d ++ [c]) = some e ∧ b = e.isLink
  lstat_dot : ∀ k n cs b, ok cs → split n = cs ++ [dot] → fs.lstat k n = some b → b = false
  readlink : ∀ k n cs c t, ok cs → split n = cs ++ [c] → IsName c → fs.readlink k n = some t →
    ∃ d, Walk T [] cs d ∧ T d = some .dir ∧ T (d ++ [c]) = some (.link t)

theorem Agrees.on {fs : Fs} {T : Tree} (h : Agrees fs T) : AgreesOn (fun _ => True) fs T where
  root := h.root
  lstat_name k n cs c b _ := h.lstat_name k n cs c b
  lstat_dot k n cs b _ h1 h2 := (h.lstat_dot k n cs b h1 h2).1
  readlink k n cs c t _ := h.readlink k n cs c t

/-- All directories down to `d` are real directories. -/
def RealDir (T : Tree) (d : List Str) : Prop := ∀ p, p <+: d → T p = some .dir

/-- A walk that goes through directories only, except for the last component, which may be anything. -/
def Direct (T : Tree) : List Str → List Str → Prop
  | _, [] => True
  | _, [_] => True
  | d, c :: c' :: rest =>
    if c = [] ∨ c = dot then Direct T d (c' :: rest)
    else if c = dotdot then Direct T d.dropLast (c' :: rest)
    else T (d ++ [c]) = some .dir ∧ Direct T (d ++ [c]) (c' :: rest)

/-- No target has a ".." component, or all targets lead through real directories to their last component. -/
def Tame (T : Tree) : Prop :=
  (∀ d c t, T (d ++ [c]) = some (.link t) → dotdot ∉ split t) ∨
  (∀ d c t, T (d ++ [c]) = some (.link t) → RealDir T d → Direct T d (split t))

/-! ### walks -/

theorem _root_.Verif.Path.IsName.notDot {c : Str} (h : IsName c) : ¬ (c = [] ∨ c = dot) := by
  rintro (h' | h')
  · exact h.1.1 h'
  · exact h.2.1 h'


theorem walk_append {T : Tree} : ∀ {d x r}, Walk T d x r → ∀ {a b}, x = a ++ b → ∃ m, Walk T d a m ∧ Walk T m b r := by
  intro d x r h
  induction h with
  | nil d =>
    intro a b hx
    obtain ⟨rfl, rfl⟩ := List.append_eq_nil_iff.1 hx.symm
    exact ⟨d, .nil d, .nil d⟩
  | dot hc hw ih =>
    intro a b hx
    cases a with
    | nil => simp only [List.nil_append] at hx; subst hx; exact ⟨_, .nil _, .dot hc hw⟩
    | cons a0 a =>
      simp only [List.cons_append, List.cons.injEq] at hx
      obtain ⟨rfl, hx⟩ := hx
      obtain ⟨m, h1, h2⟩ := ih hx
      exact ⟨m, .dot hc h1, h2⟩
  | up hd hne hw ih =>
    intro a b hx
    cases a with
    | nil => simp only [List.nil_append] at hx; subst hx; exact ⟨_, .nil _, .up hd hne hw⟩
    | cons a0 a =>
      simp only [List.cons_append, List.cons.injEq] at hx
      obtain ⟨rfl, hx⟩ := hx
      obtain ⟨m, h1, h2⟩ := ih hx
      exact ⟨m, .up hd hne h1, h2⟩
  | plain hn hd he hl hw ih =>
    intro a b hx
    cases a with
    | nil => simp only [List.nil_append] at hx; subst hx; exact ⟨_, .nil _, .plain hn hd he hl hw⟩
    | cons a0 a =>
      simp only [List.cons_append, List.cons.injEq] at hx
      obtain ⟨rfl, hx⟩ := hx
      obtain ⟨m, h1, h2⟩ := ih hx
      exact ⟨m, .plain hn hd he hl h1, h2⟩
  | link hn hd he ha hw ih =>
    intro a b hx
    cases a with
    | nil => simp only [List.nil_append] at hx; subst hx; exact ⟨_, .nil _, .link hn hd he ha hw⟩
    | cons a0 a =>
      simp only [List.cons_append, List.cons.injEq] at hx
      obtain ⟨rfl, hx⟩ := hx
      obtain ⟨m, h1, h2⟩ := ih (a := split _ ++ a) (b := b) (by rw [hx, List.append_assoc])
      exact ⟨m, .link hn hd he ha h1, h2⟩

theorem Walk.trans {T : Tree} {d a m b r} (h : Walk T d a m) (h2 : Walk T m b r) : Walk T d (a ++ b) r := by
  induction h with
  | nil d => exact h2
  | dot hc _ ih => exact .dot hc (ih h2)
  | up hd hne _ ih => exact .up hd hne (ih h2)
  | plain hn hd he hl _ ih => exact .plain hn hd he hl (ih h2)
  | link hn hd he ha _ ih => exact .link hn hd he ha (by have := ih h2; rw [List.append_assoc] at this; exact this)

/-- A walk ends in one place at most. -/
theorem Walk.det {T : Tree} {d a r} (h : Walk T d a r) : ∀ {r'}, Walk T d a r' → r = r' := by
  induction h with
  | nil d => intro r' h'; cases h'; rfl
  | dot hc _ ih =>
    intro r' h'
    cases h' with
    | dot _ h => exact ih h
    | up hd hne h => exact absurd hc (by decide)
    | plain hn => exact absurd hc hn.notDot
    | link hn => exact absurd hc hn.notDot
  | up hd hne _ ih =>
    intro r' h'
    cases h' with
    | dot hc h => exact absurd hc (by decide)
    | up hd hne h => exact ih h
    | plain hn => exact absurd rfl hn.2.2
    | link hn => exact absurd rfl hn.2.2
  | plain hn hd he hl _ ih =>
    intro r' h'
    cases h' with
    | dot hc h => exact absurd hc hn.notDot
    | up => exact absurd rfl hn.2.2
    | plain hn' hd' he' hl' h => exact ih h
    | link hn' hd' he' => rw [he] at he'; cases he'; cases hl
  | link hn hd he ha _ ih =>
    intro r' h'
    cases h' with
    | dot hc h => exact absurd hc hn.notDot
    | up => exact absurd rfl hn.2.2
    | plain hn' hd' he' hl' h => rw [he] at he'; cases he'; cases hl'
    | link hn' hd' he' ha' h => rw [he] at he'; cases he'; exact ih h

/-- The names among the components. -/
def names (cs : List Str) : List Str := cs.filter (fun c => decide (c ≠ [] ∧ c ≠ dot))

theorem names_skip {c : Str} (h : c = [] ∨ c = dot) (cs : List Str) : names (c :: cs) = names cs := by
  unfold names
  rw [List.filter_cons, if_neg]
  rw [decide_eq_true_eq]
  rintro ⟨h1, h2⟩
  rcases h with h | h
  · exact h1 h
  · exact h2 h

theorem names_keep {c : Str} (h : ¬ (c = [] ∨ c = dot)) (cs : List Str) : names (c :: cs) = c :: names cs := by
  unfold names
  rw [List.filter_cons, if_pos]
  rw [decide_eq_true_eq]
  exact ⟨fun h1 => h (Or.inl h1), fun h1 => h (Or.inr h1)⟩

theorem names_append (a b : List Str) : names (a ++ b) = names a ++ names b := by simp [names]

theorem names_self {cs : List Str} (h : ∀ c ∈ cs, IsName c) : names cs = cs := by
  unfold names
  rw [List.filter_eq_self]
  intro c hc
  exact decide_eq_true ⟨(h c hc).1.1, (h c hc).2.1⟩

theorem names_isName {cs : List Str} (h : ∀ c ∈ cs, slash ∉ c ∧ c ≠ dotdot) : ∀ c ∈ names cs, IsName c := by
  intro c hc
  obtain ⟨h1, h2⟩ := List.mem_filter.1 hc
  have h3 := of_decide_eq_true h2
  exact ⟨⟨h3.1, (h c h1).1⟩, h3.2, (h c h1).2⟩

theorem walk_names {T : Tree} (ts : List Str) : ∀ {d rest r}, Walk T d (names ts ++ rest) r → Walk T d (ts ++ rest) r := by
  induction ts with
  | nil => intro d rest r h; exact h
  | cons c ts ih =>
    intro d rest r h
    by_cases hc : c = [] ∨ c = dot
    · rw [names_skip hc] at h
      exact .dot hc (ih h)
    · rw [names_keep hc] at h
      simp only [List.cons_append] at h ⊢
      cases h with
      | dot hc' h => exact .dot hc' (ih h)
      | up hd hne h => exact .up hd hne (ih h)
      | plain hn hd he hl h => exact .plain hn hd he hl (ih h)
      | link hn hd he ha h =>
        refine .link hn hd he ha ?_
        obtain ⟨m, h1, h2⟩ := walk_append h rfl
        exact h1.trans (ih h2)

theorem names_walk {T : Tree} (ts : List Str) : ∀ {d rest r}, Walk T d (ts ++ rest) r → Walk T d (names ts ++ rest) r := by
  induction ts with
  | nil => intro d rest r h; exact h
  | cons c ts ih =>
    intro d rest r h
    simp only [List.cons_append] at h
    by_cases hc : c = [] ∨ c = dot
    · rw [names_skip hc]
      cases h with
      | dot _ h => exact ih h
      | up => exact absurd hc (by decide)
      | plain hn => exact absurd hc hn.notDot
      | link hn => exact absurd hc hn.notDot
    · rw [names_keep hc]
      cases h with
      | dot hc' h => exact absurd hc' hc
      | up hd hne h => exact .up hd hne (ih h)
      | plain hn hd he hl h => exact .plain hn hd he hl (ih h)
      | link hn hd he ha h =>
        refine .link hn hd he ha ?_
        obtain ⟨m, h1, h2⟩ := walk_append h rfl
        exact h1.trans (ih h2)

/-- Walking down real directories. -/
theorem walk_real {T : Tree} : ∀ (p d : List Str), (∀ c ∈ p, IsName c) → (∀ q, q <+: p → T (d ++ q) = some .dir) → Walk T d p (d ++ p) := by
  intro p
  induction p with
  | nil => intro d _ _; rw [List.append_nil]; exact .nil d
  | cons c p ih =>
    intro d hn h
    have h0 := h [] (List.nil_prefix)
    rw [List.append_nil] at h0
    have h1 := h [c] (by simp)
    refine .plain (hn c (by simp)) h0 h1 rfl ?_
    have := ih (d ++ [c]) (fun x hx => hn x (by simp [hx])) (by
      intro q hq
      rw [List.append_assoc]
      exact h (c :: q) (by simpa using hq))
    rw [List.append_assoc] at this
    exact this

theorem RealDir.walk {T : Tree} {d : List Str} (hn : ∀ c ∈ d, IsName c) (h : RealDir T d) : Walk T [] d d := by
  have := walk_real d [] hn (by intro q hq; simpa using h q hq)
  simpa using this

theorem RealDir.dropLast {T : Tree} {d : List Str} (h : RealDir T d) : RealDir T d.dropLast :=
  fun p hp => h p (hp.trans (List.dropLast_prefix d))

theorem RealDir.snoc {T : Tree} {d : List Str} {c : Str} (h : RealDir T d) (hc : T (d ++ [c]) = some .dir) : RealDir T (d ++ [c]) := by
  intro p hp
  rcases List.prefix_concat_iff.1 hp with rfl | hp
  · exact hc
  · exact h p hp

/-! ### lexical cleaning -/

theorem step_skip {c : Str} (h : c = [] ∨ c = dot) (st : List Str) : cleanStep false st c = st := by unfold cleanStep; rw [if_pos h]

theorem step_name {c : Str} (h : IsName c) (st : List Str) : cleanStep false st c = c :: st := by
  unfold cleanStep; rw [if_neg h.notDot, if_neg h.2.2]

theorem step_pop {c : Str} (h : c ≠ dotdot) (st : List Str) : cleanStep false (c :: st) dotdot = st := by
  unfold cleanStep; rw [if_neg (by decide), if_pos rfl]; simp only; rw [if_neg h]

theorem step_stack {st : List Str} (h : StackOK false st) : (∀ top rest, st = top :: rest → IsName top ∨ top = dotdot) := by
  rintro top rest rfl
  obtain ⟨ns, k, hs, hn, _⟩ := h
  cases ns with
  | nil =>
    cases k with
    | zero => simp at hs
    | succ k =>
      rw [List.replicate_succ] at hs
      simp only [List.nil_append, List.cons.injEq] at hs
      exact Or.inr hs.1
  | cons n ns =>
    simp only [List.cons_append, List.cons.injEq] at hs
    rw [hs.1]; exact Or.inl (hn n (by simp))

/-- `..` at the bottom of the stack stays. -/
theorem dotdot_stays (ts : List Str) : ∀ st, dotdot ∈ st → dotdot ∈ ts.foldl (cleanStep false) st := by
  induction ts with
  | nil => intro st h; exact h
  | cons c ts ih =>
    intro st h
    refine ih _ ?_
    unfold cleanStep
    split
    · exact h
    · split
      · cases st with
        | nil => cases h
        | cons top rest =>
          simp only
          split
          · simp
          · rename_i ht
            rcases List.mem_cons.1 h with h | h
            · exact absurd h.symm ht
            · exact h
      · simp [h]

/-- Cleaning first does not matter. -/
theorem foldl_comps (S : List Str) (ts : List Str) (hts : ∀ c ∈ ts, slash ∉ c) : ∀ st, StackOK false st →
    (ts.foldl (cleanStep false) st).reverse.foldl (cleanStep false) S = ts.foldl (cleanStep false) (st.reverse.foldl (cleanStep false) S) := by
  induction ts with
  | nil => intro st _; rfl
  | cons c ts ih =>
    intro st hst
    rw [List.foldl_cons, List.foldl_cons, ih (fun x hx => hts x (by simp [hx])) _ (stack_step hst (hts c (by simp)))]
    congr 1
    by_cases hc : c = [] ∨ c = dot
    · rw [step_skip hc, step_skip hc]
    · by_cases hu : c = dotdot
      · subst hu
        cases st with
        | nil => rfl
        | cons top rest =>
          rcases step_stack hst top rest rfl with htn | rfl
          · rw [step_pop htn.2.2, List.reverse_cons, List.foldl_append]
            simp only [List.foldl_cons, List.foldl_nil]
            rw [step_name htn, step_pop htn.2.2]
          · have : cleanStep false (dotdot :: rest) dotdot = dotdot :: dotdot :: rest := rfl
            rw [this, List.reverse_cons (a := dotdot) (as := dotdot :: rest), List.foldl_append]
            rfl
      · have hcn : IsName c := ⟨⟨fun h => hc (Or.inl h), hts c (by simp)⟩, fun h => hc (Or.inr h), hu⟩
        rw [step_name hcn, List.reverse_cons, List.foldl_append]
        rfl

theorem comps_target {p t : Str} {cs : List Str} {c : Str} (hp : p = join (cs ++ [c])) (hn : ∀ x ∈ cs ++ [c], IsName x) (ht : isAbs t = false) :
    comps (join2 (dir p) (clean t)) = ((split t).foldl (cleanStep false) cs.reverse).reverse := by
  have hnorm : Normal false (cs ++ [c]) := .names hn
  have hd : dir p = render false cs := by
    rw [← dir_render hnorm]
    unfold render
    simp [hp]
  rw [join2_clean (d := dir p) (clean_ne_nil _) (clean_ne_nil _), comps_clean]
  have hne : dir p ≠ [] := clean_ne_nil _
  have habs : isAbs (dir p ++ slash :: clean t) = false := by
    rw [isAbs_append hne, hd, isAbs_render hnorm.init]
  have hcd : (split (dir p)).foldl (cleanStep false) [] = cs.reverse := by
    have h1 : comps (dir p) = cs := by rw [hd, comps_render hnorm.init]
    unfold comps at h1
    rw [show isAbs (dir p) = false by rw [hd, isAbs_render hnorm.init]] at h1
    rw [← h1, List.reverse_reverse]
  unfold comps
  rw [habs, foldl_split_append, hcd]
  congr 1
  have h2 : ∀ X, (split (clean t)).foldl (cleanStep false) X = (comps t).foldl (cleanStep false) X := by
    intro X
    unfold clean render
    rw [ht]
    simp only [Bool.false_eq_true, if_false]
    split
    · rename_i h0
      rw [h0, show split dot = [dot] by decide]
      simp [cleanStep]
    · rename_i h0
      have hn2 := comps_normal t
      rw [split_join h0 (fun x hx => (hn2.isComp x hx).1.2)]
  rw [h2]
  have h3 := foldl_comps cs.reverse (split t) (split_no_slash t) [] ⟨[], 0, by simp, by simp, by simp⟩
  unfold comps
  rw [ht]
  exact h3

theorem split_of_names {r : Str} (hr : clean r = r) (habs : isAbs r = false) (hne : comps r ≠ []) : split r = comps r := by
  have h : r = join (comps r) := by
    conv => lhs; rw [← hr]
    unfold clean render
    rw [habs]
    simp [hne]
  have hn := comps_normal r
  conv => lhs; rw [h]
  exact split_join hne (fun x hx => (hn.isComp x hx).1.2)

theorem split_of_empty {r : Str} (hr : clean r = r) (habs : isAbs r = false) (he : comps r = []) : split r = [dot] := by
  have h : r = dot := by
    conv => lhs; rw [← hr]
    unfold clean render
    rw [habs, he]
    simp
  rw [h]; decide

/-! ### one link -/

theorem foldl_noUp {ts : List Str} (h : ∀ c ∈ ts, slash ∉ c ∧ c ≠ dotdot) : ∀ st, ts.foldl (cleanStep false) st = (names ts).reverse ++ st := by
  induction ts with
  | nil => intro st; rfl
  | cons c ts ih =>
    intro st
    rw [List.foldl_cons, ih (fun x hx => h x (by simp [hx]))]
    by_cases hc : c = [] ∨ c = dot
    · rw [step_skip hc, names_skip hc]
    · have hcn : IsName c := ⟨⟨fun h => hc (Or.inl h), (h c (by simp)).1⟩, fun h => hc (Or.inr h), (h c (by simp)).2⟩
      rw [step_name hcn, names_keep hc]
      simp

theorem direct_tail {T : Tree} {d : List Str} {c : Str} {ts : List Str} (h : Direct T d (c :: ts)) :
    (c = [] ∨ c = dot → Direct T d ts) ∧ (c = dotdot → Direct T d.dropLast ts) ∧
    (IsName c → ts ≠ [] → T (d ++ [c]) = some .dir ∧ Direct T (d ++ [c]) ts) := by
  cases ts with
  | nil => exact ⟨fun _ => trivial, fun _ => trivial, fun _ h => absurd rfl h⟩
  | cons c' rest =>
    unfold Direct at h
    refine ⟨?_, ?_, ?_⟩
    · intro hc; rw [if_pos hc] at h; exact h
    · intro hc
      subst hc
      rw [if_neg (by decide), if_pos rfl] at h
      exact h
    · intro hn _
      rw [if_neg hn.notDot, if_neg hn.2.2] at h
      exact h

/-- Through real directories the lexical result is the real one. -/
theorem direct_walk {T : Tree} (ts : List Str) (hts : ∀ c ∈ ts, slash ∉ c) : ∀ d, RealDir T d → (∀ c ∈ d, IsName c) → Direct T d ts →
    dotdot ∉ ts.foldl (cleanStep false) d.reverse →
    RealDir T (ts.foldl (cleanStep false) d.reverse).reverse.dropLast ∧
    ∀ rest r, Walk T [] ((ts.foldl (cleanStep false) d.reverse).reverse ++ rest) r → Walk T d (ts ++ rest) r := by
  induction ts with
  | nil =>
    intro d hr hn _ _
    simp only [List.foldl_nil, List.reverse_reverse, List.nil_append]
    refine ⟨hr.dropLast, ?_⟩
    intro rest r h
    obtain ⟨m, h1, h2⟩ := walk_append h rfl
    have := h1.det (hr.walk hn)
    subst this
    exact h2
  | cons c ts ih =>
    intro d hr hn hdir hdd
    have ih' := ih (fun x hx => hts x (by simp [hx]))
    rw [List.foldl_cons] at hdd ⊢
    obtain ⟨g1, g2, g3⟩ := direct_tail hdir
    by_cases hc : c = [] ∨ c = dot
    · have hs : cleanStep false d.reverse c = d.reverse := by unfold cleanStep; rw [if_pos hc]
      rw [hs] at hdd ⊢
      obtain ⟨h1, h2⟩ := ih' d hr hn (g1 hc) hdd
      exact ⟨h1, fun rest r h => .dot hc (h2 rest r h)⟩
    · by_cases hu : c = dotdot
      · subst hu
        rcases List.eq_nil_or_concat d with rfl | ⟨d', x, rfl⟩
        · exfalso
          refine hdd (dotdot_stays ts _ ?_)
          decide
        · have hx := hn x (by simp)
          have hs : cleanStep false (d' ++ [x]).reverse dotdot = d'.reverse := by
            rw [List.reverse_append]
            simp only [List.reverse_cons, List.reverse_nil, List.nil_append, List.cons_append]
            unfold cleanStep
            rw [if_neg (by decide), if_pos rfl]
            simp only
            rw [if_neg hx.2.2]
          simp only [List.concat_eq_append] at *
          rw [hs] at hdd ⊢
          have hd' : (d' ++ [x]).dropLast = d' := by simp
          have hr' := hr.dropLast
          have g2' := g2 trivial
          rw [hd'] at hr' g2'
          obtain ⟨h1, h2⟩ := ih' d' hr' (fun y hy => hn y (by simp [hy])) g2' hdd
          refine ⟨h1, fun rest r h => .up (hr _ (List.prefix_refl _)) (by simp) ?_⟩
          rw [hd']
          exact h2 rest r h
      · have hcn : IsName c := ⟨⟨fun h => hc (Or.inl h), hts c (by simp)⟩, fun h => hc (Or.inr h), hu⟩
        have hs : cleanStep false d.reverse c = (d ++ [c]).reverse := by
          unfold cleanStep; rw [if_neg hc, if_neg hu]; simp
        rw [hs] at hdd ⊢
        cases ts with
        | nil =>
          simp only [List.foldl_nil, List.reverse_reverse]
          refine ⟨by simpa using hr, ?_⟩
          intro rest r h
          rw [List.append_assoc] at h
          obtain ⟨m, h1, h2⟩ := walk_append h rfl
          have := h1.det (hr.walk hn)
          subst this
          exact h2
        | cons c' ts =>
          obtain ⟨k1, k2⟩ := g3 hcn (by simp)
          obtain ⟨h1, h2⟩ := ih' (d ++ [c]) (hr.snoc k1) (by
            intro y hy
            rcases List.mem_append.1 hy with h | h
            · exact hn y h
            · simp only [List.mem_cons, List.not_mem_nil, or_false] at h; subst h; exact hcn) k2 hdd
          exact ⟨h1, fun rest r h => .plain hcn (hr _ (List.prefix_refl _)) k1 rfl (h2 rest r h)⟩

/-! ### chains of links -/

/-- No symlink at `d` or above. -/
def NoLink (T : Tree) (d : List Str) : Prop := ∀ p t, p <+: d → T p ≠ some (.link t)

/-- Where all targets lead through real directories, only the answers for names in directories without symlinks above matter. -/
def Cover (T : Tree) (ok : List Str → Prop) : Prop :=
  ((∀ d c t, T (d ++ [c]) = some (.link t) → dotdot ∉ split t) ∧ ∀ cs, ok cs) ∨
  ((∀ d c t, T (d ++ [c]) = some (.link t) → RealDir T d → Direct T d (split t)) ∧ ∀ cs, (∀ c ∈ cs, Step c) → NoLink T (names cs) → ok cs)

theorem Cover.of_tame {T : Tree} (h : Tame T) : Cover T (fun _ => True) := by
  rcases h with h | h
  · exact Or.inl ⟨h, fun _ => trivial⟩
  · exact Or.inr ⟨h, fun _ _ _ => trivial⟩

theorem Cover.ok {T : Tree} {ok : List Str → Prop} (h : Cover T ok) {cs : List Str} (hs : ∀ c ∈ cs, Step c) (hn : NoLink T (names cs)) : ok cs := by
  rcases h with h | h
  · exact h.2 cs
  · exact h.2 cs hs hn

theorem RealDir.noLink {T : Tree} {d : List Str} (h : RealDir T d) : NoLink T d := fun p t hp hv => by
  rw [h p hp] at hv
  cases hv

/-- What is known of a link at `join (cs ++ [c])` that is about to be read: it is reached by walking `cs`, and `cs` is itself real unless no target
has a ".." component. -/
def AtLink (T : Tree) (ok : List Str → Prop) (cs : List Str) : Prop :=
  ((∀ d c t, T (d ++ [c]) = some (.link t) → dotdot ∉ split t) ∧ ∀ cs, ok cs) ∨
  (((∀ d c t, T (d ++ [c]) = some (.link t) → RealDir T d → Direct T d (split t)) ∧ ∀ cs, (∀ c ∈ cs, Step c) → NoLink T (names cs) → ok cs) ∧ RealDir T cs)

theorem AtLink.ok {T : Tree} {ok : List Str → Prop} {cs : List Str} (h : AtLink T ok cs) (hn : ∀ c ∈ cs, IsName c) : ok cs := by
  rcases h with h | ⟨h, hr⟩
  · exact h.2 cs
  · exact h.2 cs (fun c hc => ⟨(hn c hc).1, (hn c hc).2.2⟩) (by rw [names_self hn]; exact hr.noLink)

theorem resolveSymlink_same {fs : Fs} {T : Tree} {ok : List Str → Prop} (ha : AgreesOn ok fs T) : ∀ (m : Nat) (cs : List Str) (c : Str) (i : Nat) (log log' : Log) (q : Str) (n : Nat),
    (∀ x ∈ cs ++ [c], IsName x) → AtLink T ok cs → resolveSymlink fs m (join (cs ++ [c])) i log = (log', .ok (some q, n)) →
    ∀ d, Walk T [] cs d → T d = some .dir → ∀ rest r, Walk T [] (split q ++ rest) r → Walk T d (c :: rest) r := by
  intro m
  induction m with
  | zero => intro cs c i log log' q n _ _ h; simp [resolveSymlink] at h
  | succ m ih =>
    intro cs c i log log' q n hn hat h d hd hdir rest r hw
    have hcn : IsName c := hn c (by simp)
    have hsp : split (join (cs ++ [c])) = cs ++ [c] := split_join (by simp) (fun x hx => (hn x hx).1.2)
    unfold resolveSymlink at h
    split at h
    · simp at h
    · rename_i t ht
      obtain ⟨d2, k1, _, k3⟩ := ha.readlink _ _ _ _ _ (hat.ok fun x hx => hn x (by simp [hx])) hsp hcn ht
      have := hd.det k1
      subst this
      by_cases h1 : isAbs (clean t) = true
      · rw [if_pos h1] at h; simp at h
      · rw [if_neg h1] at h
        have habs : isAbs t = false := by rw [← isAbs_clean]; simpa using h1
        by_cases h2 : isLocal (join2 (dir (join (cs ++ [c]))) (clean t)) = false
        · rw [if_pos h2] at h; simp at h
        · rw [if_neg h2] at h
          have hcomp := comps_target (p := join (cs ++ [c])) rfl hn habs
          have hcl := clean_step (join (cs ++ [c])) t
          generalize hR : join2 (dir (join (cs ++ [c]))) (clean t) = R at *
          have hloc : isLocal R = true := by simpa using h2
          rw [isLocal_iff] at hloc
          obtain ⟨_, hRabs, hRn⟩ := hloc
          have hnodd : dotdot ∉ (split t).foldl (cleanStep false) cs.reverse := by
            intro hm
            exact (hRn dotdot (by rw [hcomp]; exact List.mem_reverse.2 hm)).2.2 rfl
          -- the lexical result walks to where the target walks to
          have hF : ∀ rest r, Walk T [] (comps R ++ rest) r → Walk T d (split t ++ rest) r := by
            intro rest r hw
            rcases hat with ⟨hno, _⟩ | ⟨⟨hdt, _⟩, hrd⟩
            · have hts : ∀ x ∈ split t, slash ∉ x ∧ x ≠ dotdot :=
                fun x hx => ⟨split_no_slash t x hx, fun h => hno d c t k3 (h ▸ hx)⟩
              rw [hcomp, foldl_noUp hts, List.reverse_append, List.reverse_reverse, List.reverse_reverse, List.append_assoc] at hw
              obtain ⟨m, w1, w2⟩ := walk_append hw rfl
              have := w1.det hd
              subst this
              exact walk_names _ w2
            · have hcsd : d = cs := hd.det (hrd.walk (fun x hx => hn x (by simp [hx])))
              subst hcsd
              obtain ⟨_, w⟩ := direct_walk (split t) (split_no_slash t) d hrd (fun x hx => hn x (by simp [hx])) (hdt d c t k3 hrd) hnodd
              rw [hcomp] at hw
              exact w rest r hw
          split at h
          · simp at h
          · -- not a link: done
            simp only [Prod.mk.injEq, Except.ok.injEq, Option.some.injEq] at h
            obtain ⟨_, hq, _⟩ := h
            subst hq
            refine .link hcn hdir k3 habs (hF rest r ?_)
            by_cases he : comps R = []
            · rw [split_of_empty hcl hRabs he] at hw
              rw [he]
              cases hw with
              | dot _ h => exact h
              | plain hn => exact absurd rfl hn.2.1
              | link hn => exact absurd rfl hn.2.1
            · rw [split_of_names hcl hRabs he] at hw
              exact hw
          · -- another link
            rename_i hls
            by_cases he : comps R = []
            · exfalso
              have hok : ok [] := by
                rcases hat with ⟨_, h⟩ | ⟨⟨_, h⟩, _⟩
                · exact h []
                · refine h [] (by simp) (fun p t hp hv => ?_)
                  rw [List.prefix_nil.1 hp, ha.root] at hv
                  cases hv
              have := ha.lstat_dot _ R [] _ hok (split_of_empty hcl hRabs he) hls
              cases this
            · have hspR := split_of_names hcl hRabs he
              rcases List.eq_nil_or_concat (comps R) with h0 | ⟨cs', c', hcc⟩
              · exact absurd h0 he
              · rw [List.concat_eq_append] at hcc
                have hn' : ∀ x ∈ cs' ++ [c'], IsName x := by rw [← hcc]; exact hRn
                have hRj : R = join (cs' ++ [c']) := by rw [← hcc, ← hspR, join_split]
                have hat' : AtLink T ok cs' := by
                  rcases hat with hno | ⟨⟨hdt, hdo⟩, hrd⟩
                  · exact Or.inl hno
                  · refine Or.inr ⟨⟨hdt, hdo⟩, ?_⟩
                    have hcsd : d = cs := hd.det (hrd.walk (fun x hx => hn x (by simp [hx])))
                    subst hcsd
                    obtain ⟨w, _⟩ := direct_walk (split t) (split_no_slash t) d hrd (fun x hx => hn x (by simp [hx])) (hdt d c t k3 hrd) hnodd
                    rw [← hcomp, hcc] at w
                    simpa using w
                obtain ⟨d', e, l1, l2, l3, l4⟩ := ha.lstat_name _ R cs' c' _ (hat'.ok fun x hx => hn' x (by simp [hx])) (by rw [hspR, hcc]) (hn' c' (by simp)) hls
                rw [hRj] at h
                have := ih cs' c' _ _ _ _ _ hn' hat' h d' l1 l2 rest r hw
                refine .link hcn hdir k3 habs (hF rest r ?_)
                rw [hcc, List.append_assoc]
                exact l1.trans this

/-! ### the passes -/

theorem step_noUp {cs : List Str} (h : ∀ c ∈ cs, Step c) : ∀ c ∈ cs, slash ∉ c ∧ c ≠ dotdot := fun c hc => ⟨(h c hc).1.2, (h c hc).2⟩

/-- What a pass knows of the components it passed: they are real. -/
def Passed (T : Tree) (done : List Str) : Prop := Walk T [] done (names done) ∧ RealDir T (names done).dropLast ∧ NoLink T (names done)

theorem scan_same {fs : Fs} {T : Tree} {ok : List Str → Prop} (ha : AgreesOn ok fs T) (hcov : Cover T ok) : ∀ (rest done : List Str) (log : Log), (∀ c ∈ done ++ rest, Step c) → Passed T done →
    (∀ log' d, scan fs done rest log = (log', .all d) → Passed T d) ∧
    (∀ log' d r, scan fs done rest log = (log', .link d r) → ∃ init c, d = init ++ [c] ∧ IsName c ∧ Walk T [] init (names init) ∧ RealDir T (names init)) := by
  intro rest
  induction rest with
  | nil =>
    intro done log _ hp
    refine ⟨?_, ?_⟩
    · intro log' d h; simp only [scan, Prod.mk.injEq, Scan.all.injEq] at h; rw [← h.2]; exact hp
    · intro log' d r h; simp [scan] at h
  | cons c rest ih =>
    intro done log hst hp
    obtain ⟨hp1, hp2, hp3⟩ := hp
    have hok : ok done := hcov.ok (fun x hx => hst x (by simp [hx])) hp3
    have hsp : split (join (done ++ [c])) = done ++ [c] := split_join (by simp) (fun x hx => (hst x (by
      rcases List.mem_append.1 hx with h | h
      · simp [h]
      · simp only [List.mem_cons, List.not_mem_nil, or_false] at h; simp [h])).1.2)
    have hc := hst c (by simp)
    have hreal : T (names done) = some .dir → RealDir T (names done) := by
      intro h p hpp
      rcases List.eq_nil_or_concat (names done) with h0 | ⟨i, x, hix⟩
      · rw [h0] at hpp h
        rw [List.prefix_nil.1 hpp]; exact h
      · rw [List.concat_eq_append] at hix
        rw [hix] at hpp hp2 h
        rcases List.prefix_concat_iff.1 hpp with rfl | hpp
        · exact h
        · exact hp2 p (by simpa using hpp)
    unfold scan
    split
    · refine ⟨?_, ?_⟩
      · intro log' d h; simp at h
      · intro log' d r h; simp at h
    · rename_i hls
      refine ih (done ++ [c]) _ (by simpa using hst) ?_
      by_cases hd : c = dot
      · subst hd
        have hnm : names (done ++ [dot]) = names done := by rw [names_append]; simp [names]
        unfold Passed
        rw [hnm]
        exact ⟨hp1.trans (.dot (Or.inr rfl) (.nil _)), hp2, hp3⟩
      · have hcn : IsName c := ⟨hc.1, hd, hc.2⟩
        obtain ⟨d, e, k1, k2, k3, k4⟩ := ha.lstat_name _ _ _ _ _ hok hsp hcn hls
        have := hp1.det k1
        subst this
        have hnm : names (done ++ [c]) = names done ++ [c] := by rw [names_append, names_self (cs := [c]) (by simpa using hcn)]
        unfold Passed
        rw [hnm]
        refine ⟨hp1.trans (.plain hcn k2 k3 k4.symm (.nil _)), by simpa using hreal k2, fun p t hp hv => ?_⟩
        rcases List.prefix_concat_iff.1 hp with rfl | hp
        · rw [k3] at hv
          cases hv
          cases k4
        · exact hp3 p t hp hv
    · rename_i hls
      refine ⟨by intro log' d h; simp at h, ?_⟩
      intro log' d r h
      simp only [Prod.mk.injEq, Scan.link.injEq] at h
      obtain ⟨_, rfl, rfl⟩ := h
      have hd : c ≠ dot := by
        rintro rfl
        have := ha.lstat_dot _ _ _ _ hok hsp hls
        cases this
      have hcn : IsName c := ⟨hc.1, hd, hc.2⟩
      obtain ⟨d, e, k1, k2, k3, k4⟩ := ha.lstat_name _ _ _ _ _ hok hsp hcn hls
      have := hp1.det k1
      subst this
      exact ⟨done, c, rfl, hcn, hp1, hreal k2⟩

theorem clean_join_steps {cs : List Str} {c : Str} (h : ∀ x ∈ cs, Step x) (hc : IsName c) : clean (join (cs ++ [c])) = join (names cs ++ [c]) := by
  have hst : ∀ x ∈ cs ++ [c], Step x := by
    intro x hx
    rcases List.mem_append.1 hx with h' | h'
    · exact h x h'
    · simp only [List.mem_cons, List.not_mem_nil, or_false] at h'; subst h'; exact ⟨hc.1, hc.2.2⟩
  have hc1 : ∀ x ∈ cs ++ [c], IsComp x := fun x hx => (hst x hx).1
  have habs := isAbs_join hc1
  unfold clean comps
  rw [habs, split_join (by simp) (fun x hx => (hc1 x hx).2), foldl_noUp (step_noUp hst), names_append, names_self (cs := [c]) (by simpa using hc)]
  unfold render
  simp

theorem loop_same {fs : Fs} {T : Tree} {ok : List Str → Prop} (ha : AgreesOn ok fs T) (ht : Cover T ok) : ∀ (fuel cur : Nat) (name : List Str) (log log' : Log) (d : List Str),
    (∀ c ∈ name, Step c) → name ≠ [] → cur < maxLinks → loop fs fuel cur name log = some (log', .ok d) → Walk T [] name (names d) ∧ Passed T d := by
  intro fuel
  induction fuel with
  | zero => intro cur name log log' d _ _ _ h; simp [loop] at h
  | succ f ih =>
    intro cur name log log' d hst hne hcur h
    obtain ⟨hs1, hs2⟩ := scan_same ha ht name [] log (by simpa using hst) ⟨.nil _, by
      intro p hp
      simp only [names, List.filter_nil, List.dropLast_nil] at hp
      rw [List.prefix_nil.1 hp]
      exact ha.root, fun p t hp hv => by
      simp only [names, List.filter_nil] at hp
      rw [List.prefix_nil.1 hp, ha.root] at hv
      cases hv⟩
    obtain ⟨new1, h1, _, _, _, h5, h6⟩ := scan_spec fs name [] log (by simpa using hst)
    unfold loop at h
    rcases hsc : scan fs [] name log with ⟨log1, sc⟩
    rw [hsc] at h h5 h6 hs1 hs2
    cases sc with
    | all d' =>
      have hd := h5 d' rfl
      simp only [List.nil_append] at hd
      simp only [Option.some.injEq, Prod.mk.injEq, Except.ok.injEq] at h
      obtain ⟨_, rfl⟩ := h
      have := hs1 _ _ rfl
      rw [← hd]
      exact ⟨this.1, this⟩
    | missing p => simp at h
    | link done rest =>
      obtain ⟨hdr, hdne⟩ := h6 done rest rfl
      simp only [List.nil_append] at hdr
      obtain ⟨init, c, hdc, hcn, hw, hreal⟩ := hs2 _ _ _ rfl
      have hist : ∀ x ∈ init, Step x := fun x hx => hst x (by rw [← hdr, hdc]; simp [hx])
      have hrst : ∀ x ∈ rest, Step x := fun x hx => hst x (by rw [← hdr]; simp [hx])
      have hpn : ∀ x ∈ names init ++ [c], IsName x := by
        intro x hx
        rcases List.mem_append.1 hx with h' | h'
        · exact names_isName (step_noUp hist) x h'
        · simp only [List.mem_cons, List.not_mem_nil, or_false] at h'; subst h'; exact hcn
      have hp : clean (join done) = join (names init ++ [c]) := by rw [hdc]; exact clean_join_steps hist hcn
      have hloc : isLocal (join (names init ++ [c])) = true := by
        rw [← hp]
        exact isLocal_clean (isLocal_join hdne (fun x hx => hst x (by rw [← hdr]; simp [hx])))
      simp only [hp] at h
      obtain ⟨_, _, _, _, _, g5⟩ := resolveSymlink_spec fs (maxLinks - cur) (join (names init ++ [c])) 0 log1 hloc
      rcases hrs : resolveSymlink fs (maxLinks - cur) (join (names init ++ [c])) 0 log1 with ⟨log2, res⟩
      rw [hrs] at h g5
      cases res with
      | error e => simp at h
      | ok rn =>
        obtain ⟨r, n⟩ := rn
        obtain ⟨_, _, _, g9⟩ := g5 r n rfl
        simp only at h
        by_cases hmax : cur + n ≥ maxLinks
        · rw [if_pos hmax] at h; simp at h
        · rw [if_neg hmax] at h
          cases r with
          | none => simp at h
          | some q =>
            obtain ⟨g10, g11, _⟩ := g9 q rfl
            simp only [g10, Bool.true_eq_false, if_false] at h
            have hq : ∀ x ∈ split q, Step x := by rw [← g11]; exact split_clean g10
            obtain ⟨w1, w2⟩ := ih _ _ _ _ _ (by
              intro x hx
              rcases List.mem_append.1 hx with h | h
              · exact hq x h
              · exact hrst x h) (by simp [split_ne_nil]) (by omega) h
            refine ⟨?_, w2⟩
            have hat : AtLink T ok (names init) := by
              rcases ht with h | h
              · exact Or.inl h
              · exact Or.inr ⟨h, hreal⟩
            have hwn : Walk T [] (names init) (names init) := hreal.walk (names_isName (step_noUp hist))
            have := resolveSymlink_same ha _ _ _ _ _ _ _ _ hpn hat hrs _ hwn (hreal _ (List.prefix_refl _)) rest _ w1
            rw [← hdr, hdc, List.append_assoc]
            exact hw.trans this

/-! ### C29 -/

theorem scan_examined (fs : Fs) : ∀ (rest done : List Str) (log log' : Log) (d : List Str), scan fs done rest log = (log', .all d) →
    (∃ new, log' = log ++ new) ∧ ∀ p, p <+: d → p.length > done.length → Call.lstat (join p) (some false) ∈ log' := by
  intro rest
  induction rest with
  | nil =>
    intro done log log' d h
    simp only [scan, Prod.mk.injEq, Scan.all.injEq] at h
    obtain ⟨rfl, rfl⟩ := h
    refine ⟨⟨[], by simp⟩, ?_⟩
    intro p hp hl
    have := hp.length_le
    omega
  | cons c rest ih =>
    intro done log log' d h
    unfold scan at h
    split at h
    · simp at h
    · obtain ⟨⟨new, hnew⟩, h2⟩ := ih _ _ _ _ h
      refine ⟨⟨_, by rw [hnew, List.append_assoc]⟩, ?_⟩
      intro p hp hl
      by_cases hlen : p.length > (done ++ [c]).length
      · exact h2 p hp hlen
      · have hd : done ++ [c] <+: d := by
          have key : ∀ (rest done : List Str) (log log' : Log) (d : List Str), scan fs done rest log = (log', .all d) → done <+: d := by
            intro rest
            induction rest with
            | nil => intro done log log' d h; simp only [scan, Prod.mk.injEq, Scan.all.injEq] at h; rw [h.2]; exact List.prefix_refl _
            | cons c rest ih =>
              intro done log log' d h
              unfold scan at h
              split at h
              · simp at h
              · exact (List.prefix_append _ _).trans (ih _ _ _ _ h)
              · simp at h
          exact key _ _ _ _ _ h
        have hpe : p = done ++ [c] := by
          have h1 : p.length = (done ++ [c]).length := by
            rw [List.length_append, List.length_singleton] at *; omega
          exact (List.prefix_of_prefix_length_le hp hd (by omega)).eq_of_length h1
        rw [hpe, hnew]
        simp
    · simp at h

theorem loop_examined (fs : Fs) : ∀ (fuel cur : Nat) (name : List Str) (log log' : Log) (d : List Str), loop fs fuel cur name log = some (log', .ok d) →
    ∀ p, p <+: d → p ≠ [] → Call.lstat (join p) (some false) ∈ log' := by
  intro fuel
  induction fuel with
  | zero => intro cur name log log' d h; simp [loop] at h
  | succ f ih =>
    intro cur name log log' d h p hp hne
    unfold loop at h
    split at h
    · rename_i hsc
      simp only [Option.some.injEq, Prod.mk.injEq, Except.ok.injEq] at h
      obtain ⟨rfl, rfl⟩ := h
      exact (scan_examined fs _ _ _ _ _ hsc).2 p hp (List.length_pos_iff.2 hne)
    · simp at h
    · split at h
      · simp at h
      · split at h
        · simp at h
        · split at h
          · simp at h
          · split at h
            · simp at h
            · exact ih _ _ _ _ _ h p hp hne

theorem split_clean_eq {name : Str} (hloc : isLocal (clean name) = true) (hdot : clean name ≠ dot) :
    split (clean name) = comps name ∧ (∀ c ∈ comps name, IsName c) ∧ comps name ≠ [] := by
  rw [isLocal_iff, comps_clean] at hloc
  have hne : comps name ≠ [] := by
    intro h
    apply hdot
    unfold clean render
    rw [← isAbs_clean, hloc.2.1, h]
    rfl
  refine ⟨?_, hloc.2.2, hne⟩
  rw [split_of_names (clean_clean name) hloc.2.1 (by rw [comps_clean]; exact hne), comps_clean]

/-- **C29** The result contains no symlinks: each of its prefixes (the whole excluded when the last element is not to be resolved) was examined and is not
a link. The filesystem may change meanwhile: then it was not a link when examined. -/
theorem C29_no_symlinks (fs : Fs) (name : Str) (skipLast : Bool) (log : Log) (r : Str) (hdot : clean name ≠ dot)
    (h : resolvePath fs name skipLast = some (log, .ok r)) :
    ∀ p, p <+: split r → p ≠ [] → (skipLast = true → p ≠ split r) → Call.lstat (join p) (some false) ∈ log := by
  intro p hp hne hsk
  unfold resolvePath at h
  rw [if_neg hdot] at h
  by_cases h2 : isLocal (clean name) = false
  · rw [if_pos h2] at h; simp at h
  · rw [if_neg h2] at h
    have hloc : isLocal (clean name) = true := by simpa using h2
    have hst : ∀ c ∈ split (clean name), Step c := by
      have := split_clean hloc
      rw [clean_clean] at this
      exact this
    cases skipLast with
    | true =>
      simp only [if_true] at h
      by_cases hlen : (split (clean name)).length ≤ 1
      · rw [if_pos hlen] at h
        simp only [Option.some.injEq, Prod.mk.injEq, Except.ok.injEq] at h
        obtain ⟨rfl, rfl⟩ := h
        exfalso
        have h1 := hp.length_le
        have h2 := List.length_pos_iff.2 hne
        exact hsk rfl (hp.eq_of_length (by omega))
      · rw [if_neg hlen] at h
        obtain ⟨hd, hl⟩ := mem_dropLast_or_last (cs := split (clean name)) (by omega)
        split at h
        · simp at h
        · simp at h
        · rename_i done hlp
          simp only [Option.some.injEq, Prod.mk.injEq, Except.ok.injEq] at h
          obtain ⟨rfl, rfl⟩ := h
          obtain ⟨new, res, k1, _, _, k4, _⟩ := loop_spec fs (maxLinks + 1) 0 (split (clean name)).dropLast []
            (fun c hc => hst c (List.dropLast_subset _ hc)) hd (by simp [maxLinks]) (by simp)
          rw [hlp] at k1
          simp only [Option.some.injEq, Prod.mk.injEq] at k1
          obtain ⟨_, k7, _⟩ := k4 done k1.2.symm
          have hsp : split (join (done ++ [(split (clean name)).getLastD []])) = done ++ [(split (clean name)).getLastD []] := by
            refine split_join (by simp) ?_
            intro c hc
            rcases List.mem_append.1 hc with h | h
            · exact (k7 c h).1.2
            · simp only [List.mem_cons, List.not_mem_nil, or_false] at h
              subst h; exact (hst _ hl).1.2
          rw [hsp] at hp hsk
          rcases List.prefix_concat_iff.1 hp with rfl | hp
          · exact absurd rfl (hsk rfl)
          · exact loop_examined fs _ _ _ _ _ _ hlp p hp hne
    | false =>
      simp only [Bool.false_eq_true, if_false] at h
      split at h
      · simp at h
      · simp at h
      · rename_i done hlp
        simp only [Option.some.injEq, Prod.mk.injEq, Except.ok.injEq] at h
        obtain ⟨rfl, rfl⟩ := h
        obtain ⟨new, res, k1, _, _, k4, _⟩ := loop_spec fs (maxLinks + 1) 0 (split (clean name)) [] hst (split_ne_nil _) (by simp [maxLinks]) (by simp)
        rw [hlp] at k1
        simp only [Option.some.injEq, Prod.mk.injEq] at k1
        obtain ⟨k6, k7, _⟩ := k4 done k1.2.symm
        rw [split_join k6 (fun c hc => (k7 c hc).1.2)] at hp
        exact loop_examined fs _ _ _ _ _ _ hlp p hp hne

theorem comps_of_noUp {s : Str} (h : dotdot ∉ split s) : isAbs s = false → comps s = names (split s) := by
  intro ha
  unfold comps
  rw [ha, foldl_noUp (fun c hc => ⟨split_no_slash s c hc, fun h' => h (h' ▸ hc)⟩)]
  simp

theorem same_file_on {fs : Fs} {T : Tree} {ok : List Str → Prop} (ha : AgreesOn ok fs T) (ht : Cover T ok) (name : Str) (hup : dotdot ∉ split name) (log : Log) (r : Str)
    (h : resolvePath fs name false = some (log, .ok r)) : ∃ x, Walk T [] (split name) x ∧ Walk T [] (split r) x := by
  unfold resolvePath at h
  by_cases hdot : clean name = dot
  · rw [if_pos hdot] at h
    simp only [Option.some.injEq, Prod.mk.injEq, Except.ok.injEq] at h
    obtain ⟨_, rfl⟩ := h
    have habs : isAbs name = false := by rw [← isAbs_clean, hdot]; rfl
    have hc : comps name = [] := by rw [← comps_clean, hdot]; rfl
    rw [comps_of_noUp hup habs] at hc
    refine ⟨[], ?_, .dot (Or.inr rfl) (.nil _)⟩
    have := walk_names (T := T) (d := []) (split name) (rest := []) (r := []) (by rw [hc]; exact .nil _)
    simpa using this
  · rw [if_neg hdot] at h
    by_cases h2 : isLocal (clean name) = false
    · rw [if_pos h2] at h; simp at h
    · rw [if_neg h2] at h
      have hloc : isLocal (clean name) = true := by simpa using h2
      obtain ⟨hs, hn, hne⟩ := split_clean_eq hloc hdot
      have habs : isAbs name = false := by
        rw [isLocal_iff, isAbs_clean] at hloc
        exact hloc.2.1
      simp only [Bool.false_eq_true, if_false] at h
      split at h
      · simp at h
      · simp at h
      · rename_i done hlp
        simp only [Option.some.injEq, Prod.mk.injEq, Except.ok.injEq] at h
        obtain ⟨rfl, rfl⟩ := h
        rw [hs] at hlp
        have hst : ∀ c ∈ comps name, Step c := fun c hc => ⟨(hn c hc).1, (hn c hc).2.2⟩
        obtain ⟨w1, w2, _⟩ := loop_same ha ht _ _ _ _ _ _ hst hne (by simp [maxLinks]) hlp
        obtain ⟨new, res, k1, _, _, k4, _⟩ := loop_spec fs (maxLinks + 1) 0 (comps name) [] hst hne (by simp [maxLinks]) (by simp)
        rw [hlp] at k1
        simp only [Option.some.injEq, Prod.mk.injEq] at k1
        obtain ⟨k6, k7, _⟩ := k4 done k1.2.symm
        refine ⟨names done, ?_, ?_⟩
        · rw [comps_of_noUp hup habs] at w1
          have := walk_names (T := T) (d := []) (split name) (rest := []) (r := names done) (by simpa using w1)
          simpa using this
        · rw [split_join k6 (fun c hc => (k7 c hc).1.2)]
          exact w2

theorem same_parent_on {fs : Fs} {T : Tree} {ok : List Str → Prop} (ha : AgreesOn ok fs T) (ht : Cover T ok) (name : Str) (hdot : clean name ≠ dot) (hup : dotdot ∉ split name)
    (log : Log) (r : Str) (h : resolvePath fs name true = some (log, .ok r)) :
    ∃ init c d init', names (split name) = init ++ [c] ∧ names (split r) = init' ++ [c] ∧ Walk T [] init d ∧ Walk T [] init' d := by
  unfold resolvePath at h
  rw [if_neg hdot] at h
  by_cases h2 : isLocal (clean name) = false
  · rw [if_pos h2] at h; simp at h
  · rw [if_neg h2] at h
    have hloc : isLocal (clean name) = true := by simpa using h2
    obtain ⟨hs, hn, hne⟩ := split_clean_eq hloc hdot
    have habs : isAbs name = false := by
      rw [isLocal_iff, isAbs_clean] at hloc
      exact hloc.2.1
    rw [← comps_of_noUp hup habs]
    simp only [if_true, hs] at h
    obtain ⟨init, c, hic⟩ : ∃ init c, comps name = init ++ [c] := by
      rcases List.eq_nil_or_concat (comps name) with h0 | ⟨i, c, h0⟩
      · exact absurd h0 hne
      · exact ⟨i, c, by rw [h0, List.concat_eq_append]⟩
    have hcn : IsName c := hn c (by rw [hic]; simp)
    by_cases hlen : (comps name).length ≤ 1
    · rw [if_pos hlen] at h
      simp only [Option.some.injEq, Prod.mk.injEq, Except.ok.injEq] at h
      obtain ⟨_, rfl⟩ := h
      have hi : init = [] := by
        rw [hic, List.length_append, List.length_singleton] at hlen
        exact List.eq_nil_of_length_eq_zero (by omega)
      subst hi
      refine ⟨[], c, [], [], hic, ?_, .nil _, .nil _⟩
      rw [hs, hic, names_self (by simpa using hcn)]
    · rw [if_neg hlen] at h
      split at h
      · simp at h
      · simp at h
      · rename_i done hlp
        simp only [Option.some.injEq, Prod.mk.injEq, Except.ok.injEq] at h
        obtain ⟨rfl, rfl⟩ := h
        have hdl : (comps name).dropLast = init := by rw [hic]; simp
        have hgl : (comps name).getLastD [] = c := by rw [hic]; simp
        rw [hdl] at hlp
        have hst : ∀ x ∈ init, Step x := fun x hx => by
          have := hn x (by rw [hic]; simp [hx])
          exact ⟨this.1, this.2.2⟩
        have hine : init ≠ [] := by
          rintro rfl
          rw [hic] at hlen
          simp at hlen
        obtain ⟨w1, w2, _⟩ := loop_same ha ht _ _ _ _ _ _ hst hine (by simp [maxLinks]) hlp
        obtain ⟨new, res, k1, _, _, k4, _⟩ := loop_spec fs (maxLinks + 1) 0 init [] hst hine (by simp [maxLinks]) (by simp)
        rw [hlp] at k1
        simp only [Option.some.injEq, Prod.mk.injEq] at k1
        obtain ⟨k6, k7, _⟩ := k4 done k1.2.symm
        refine ⟨init, c, names done, names done, hic, ?_, w1, ?_⟩
        · rw [hgl, split_join (by simp) (by
            intro x hx
            rcases List.mem_append.1 hx with h | h
            · exact (k7 x h).1.2
            · simp only [List.mem_cons, List.not_mem_nil, or_false] at h; subst h; exact hcn.1.2),
            names_append, names_self (cs := [c]) (by simpa using hcn)]
        · have := names_walk (T := T) (d := []) done (rest := []) (r := names done) (by simpa using w2)
          simpa using this

/-- **C29** (partial) The result names the same file. Missing: names that contain ".." (they are cleaned lexically first), and trees in which a link's
target has a ".." component and some target leads through another link; the code answers wrongly there, see the counterexamples below. -/
theorem C29_same_file_partial {fs : Fs} {T : Tree} (ha : Agrees fs T) (ht : Tame T) (name : Str) (hup : dotdot ∉ split name) (log : Log) (r : Str)
    (h : resolvePath fs name false = some (log, .ok r)) : ∃ x, Walk T [] (split name) x ∧ Walk T [] (split r) x :=
  same_file_on ha.on (.of_tame ht) name hup log r h

/-- **C29** (partial, see above) With the last element kept: the same name in the same directory. -/
theorem C29_same_parent_partial {fs : Fs} {T : Tree} (ha : Agrees fs T) (ht : Tame T) (name : Str) (hdot : clean name ≠ dot) (hup : dotdot ∉ split name)
    (log : Log) (r : Str) (h : resolvePath fs name true = some (log, .ok r)) :
    ∃ init c d init', names (split name) = init ++ [c] ∧ names (split r) = init' ++ [c] ∧ Walk T [] init d ∧ Walk T [] init' d :=
  same_parent_on ha.on (.of_tame ht) name hdot hup log r h

/-! ### trees as filesystems, for the examples -/

/-- The walk as a function, with a bound on the number of steps. -/
def namei (T : Tree) : Nat → List Str → List Str → Option (List Str)
  | 0, _, _ => none
  | _ + 1, d, [] => some d
  | f + 1, d, c :: rest =>
    if c = [] ∨ c = dot then namei T f d rest
    else if T d ≠ some .dir then none
    else if c = dotdot then (if d = [] then none else namei T f d.dropLast rest)
    else if slash ∈ c then none
    else match T (d ++ [c]) with
      | none => none
      | some (.link t) => if isAbs t then none else namei T f d (split t ++ rest)
      | some _ => namei T f (d ++ [c]) rest

theorem namei_sound {T : Tree} : ∀ (f : Nat) (d cs r : List Str), namei T f d cs = some r → Walk T d cs r := by
  intro f
  induction f with
  | zero => intro d cs r h; simp [namei] at h
  | succ f ih =>
    intro d cs r h
    cases cs with
    | nil => simp only [namei, Option.some.injEq] at h; subst h; exact .nil d
    | cons c rest =>
      unfold namei at h
      by_cases hc : c = [] ∨ c = dot
      · rw [if_pos hc] at h; exact .dot hc (ih _ _ _ h)
      · rw [if_neg hc] at h
        by_cases hd : T d ≠ some .dir
        · rw [if_pos hd] at h; cases h
        · rw [if_neg hd] at h
          have hd' : T d = some .dir := Classical.not_not.1 hd
          by_cases hu : c = dotdot
          · rw [if_pos hu] at h
            subst hu
            by_cases h0 : d = []
            · rw [if_pos h0] at h; cases h
            · rw [if_neg h0] at h; exact .up hd' h0 (ih _ _ _ h)
          · rw [if_neg hu] at h
            by_cases hs : slash ∈ c
            · rw [if_pos hs] at h; cases h
            · rw [if_neg hs] at h
              have hcn : IsName c := ⟨⟨fun h => hc (Or.inl h), hs⟩, fun h => hc (Or.inr h), hu⟩
              split at h
              · cases h
              · rename_i t he
                split at h
                · cases h
                · rename_i ha
                  exact .link hcn hd' he (by simpa using ha) (ih _ _ _ h)
              · rename_i e hnl he
                refine .plain hcn hd' he ?_ (ih _ _ _ h)
                cases e with
                | link t => exact absurd rfl (hnl t)
                | dir => rfl
                | file => rfl

/-- The directory and the last component of a name. -/
def lookup (T : Tree) (n : Str) : Option (List Str × Str) :=
  match (split n).getLast? with
  | none => none
  | some c => (namei T 100 [] (split n).dropLast).map (·, c)

/-- The filesystem of a tree. -/
def ofTree (T : Tree) : Fs where
  lstat := fun _ n => match lookup T n with
    | none => none
    | some (d, c) => if T d ≠ some .dir then none else if c = dot then some false else (T (d ++ [c])).map Ent.isLink
  readlink := fun _ n => match lookup T n with
    | none => none
    | some (d, c) => if T d ≠ some .dir then none else match T (d ++ [c]) with
      | some (.link t) => some t
      | _ => none

theorem lookup_sound {T : Tree} {n : Str} {cs d : List Str} {c c' : Str} (hs : split n = cs ++ [c]) (h : lookup T n = some (d, c')) :
    c' = c ∧ Walk T [] cs d := by
  unfold lookup at h
  rw [hs] at h
  simp only [List.getLast?_concat, List.dropLast_concat] at h
  rcases hn : namei T 100 [] cs with _ | d'
  · rw [hn] at h; cases h
  · rw [hn] at h
    simp only [Option.map_some, Option.some.injEq, Prod.mk.injEq] at h
    obtain ⟨rfl, rfl⟩ := h
    exact ⟨rfl, namei_sound _ _ _ _ hn⟩

theorem agrees_ofTree {T : Tree} (hroot : T [] = some .dir) : Agrees (ofTree T) T where
  root := hroot
  lstat_name := by
    intro k n cs c b hs hc h
    simp only [ofTree] at h
    split at h
    · cases h
    · rename_i d c' hl
      obtain ⟨rfl, hw⟩ := lookup_sound hs hl
      by_cases hd : T d ≠ some .dir
      · rw [if_pos hd] at h; cases h
      · rw [if_neg hd, if_neg hc.2.1] at h
        rcases he : T (d ++ [c']) with _ | e
        · rw [he] at h; cases h
        · rw [he] at h
          simp only [Option.map_some, Option.some.injEq] at h
          exact ⟨d, e, hw, Classical.not_not.1 hd, he, h.symm⟩
  lstat_dot := by
    intro k n cs b hs h
    simp only [ofTree] at h
    split at h
    · cases h
    · rename_i d c' hl
      obtain ⟨rfl, hw⟩ := lookup_sound hs hl
      by_cases hd : T d ≠ some .dir
      · rw [if_pos hd] at h; cases h
      · rw [if_neg hd, if_pos rfl] at h
        cases h
        exact ⟨rfl, d, hw⟩
  readlink := by
    intro k n cs c t hs hc h
    simp only [ofTree] at h
    split at h
    · cases h
    · rename_i d c' hl
      obtain ⟨rfl, hw⟩ := lookup_sound hs hl
      by_cases hd : T d ≠ some .dir
      · rw [if_pos hd] at h; cases h
      · rw [if_neg hd] at h
        split at h
        · rename_i t' he
          cases h
          exact ⟨d, hw, Classical.not_not.1 hd, he⟩
        · cases h

/-- A tree given by its entries. -/
def treeOf (es : List (List Str × Ent)) : Tree := fun p => if p = [] then some .dir else (es.find? (fun e => e.1 = p)).map (·.2)

theorem treeOf_link {es : List (List Str × Ent)} {p : List Str} {t : Str} (h : treeOf es p = some (.link t)) : (p, Ent.link t) ∈ es := by
  unfold treeOf at h
  split at h
  · cases h
  · rcases hf : es.find? (fun e => e.1 = p) with _ | ⟨q, e⟩
    · rw [hf] at h; cases h
    · rw [hf] at h
      simp only [Option.map_some, Option.some.injEq] at h
      subst h
      have h1 := List.find?_some hf
      have h2 := List.mem_of_find?_eq_some hf
      simp only [decide_eq_true_eq] at h1
      subst h1
      exact h2

/-- Directories "d" and "e", a file "f", links "d/l" → "../m", "m" → "e/../f" (through real directories, one to the other). -/
def demoTree : Tree := treeOf [
  ([['d']], .dir), ([['e']], .dir), ([['f']], .file),
  ([['d'], ['l']], .link ['.', '.', '/', 'm']), ([['m']], .link ['e', '/', '.', '.', '/', 'f'])]

theorem demoTree_tame : Tame demoTree := by
  right
  intro d c t h _
  have := treeOf_link h
  simp only [List.mem_cons, Prod.mk.injEq, reduceCtorEq, and_false, false_or, List.not_mem_nil, or_false, Ent.link.injEq] at this
  rcases this with ⟨h1, rfl⟩ | ⟨h1, rfl⟩
  · simp [split, slash, Direct, dotdot, dot]
  · have hd : d = [] := by
      have := congrArg List.length h1
      simp at this
      exact this
    subst hd
    simp [split, slash, Direct, dotdot, dot]
    rfl

example : outcome (ofTree demoTree) "d/l".toList false = some (.ok "f".toList) := by rfl
example : Walk demoTree [] (split "d/l".toList) (split "f".toList) := namei_sound 20 _ _ _ (by decide)
example : Agrees (ofTree demoTree) demoTree ∧ Tame demoTree := ⟨agrees_ofTree rfl, demoTree_tame⟩
example : outcome (ofTree demoTree) "d/l".toList true = some (.ok "d/l".toList) := by rfl

/-- **C29** fails when a target leads through a link to a link with a ".." target: "a" → "b/c" where "b" → "x/y" and "x/y/c" → "../e". The kernel
arrives at "x/e", `ResolvePath` answers "e", another file. -/
def chainTree : Tree := treeOf [
  ([['x']], .dir), ([['x'], ['y']], .dir), ([['x'], ['y'], ['c']], .link ['.', '.', '/', 'e']), ([['x'], ['e']], .file), ([['e']], .file),
  ([['b']], .link ['x', '/', 'y']), ([['a']], .link ['b', '/', 'c'])]

theorem C29_counterexample_chained_ascent :
    outcome (ofTree chainTree) ['a'] false = some (.ok ['e']) ∧ Walk chainTree [] (split ['a']) [['x'], ['e']] ∧ Walk chainTree [] (split ['e']) [['e']] :=
  ⟨rfl, namei_sound 20 _ _ _ (by decide), namei_sound 20 _ _ _ (by decide)⟩

/-- **C29** fails when a target steps up from a link: "a" → "b/../q" where "b" → "x/y". The kernel arrives at "x/q", `ResolvePath` at "q". -/
def ascentTree : Tree := treeOf [
  ([['x']], .dir), ([['x'], ['y']], .dir), ([['x'], ['q']], .file), ([['q']], .file),
  ([['b']], .link ['x', '/', 'y']), ([['a']], .link ['b', '/', '.', '.', '/', 'q'])]

theorem C29_counterexample_ascent_from_link :
    outcome (ofTree ascentTree) ['a'] false = some (.ok ['q']) ∧ Walk ascentTree [] (split ['a']) [['x'], ['q']] ∧
    Walk ascentTree [] (split ['q']) [['q']] :=
  ⟨rfl, namei_sound 20 _ _ _ (by decide), namei_sound 20 _ _ _ (by decide)⟩

/-- **C29** fails in the same way for a name that steps up from a link. -/
theorem C29_counterexample_name_ascends :
    outcome (ofTree ascentTree) ['b', '/', '.', '.', '/', 'q'] false = some (.ok ['q']) ∧
    Walk ascentTree [] (split ['b', '/', '.', '.', '/', 'q']) [['x'], ['q']] :=
  ⟨rfl, namei_sound 20 _ _ _ (by decide)⟩

end Verif.Fsutil.Resolve
