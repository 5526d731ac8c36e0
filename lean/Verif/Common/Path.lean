import Verif.Common.Str
/-
Models of the Go standard `path` / `path/filepath` (Unix) functions the code uses.
Go strings are byte strings: a byte is represented by the character with that code.
The standard functions are trusted to satisfy these definitions ("std").
-/
namespace Verif.Path

def slash : Char := '/'
def dot : Str := ['.']
def dotdot : Str := ['.', '.']

/-- std `strings.Split(s, "/")`. -/
def split : Str → List Str
  | [] => [[]]
  | c :: cs => if c = slash then [] :: split cs else match split cs with
    | [] => [[c]]
    | h :: t => (c :: h) :: t

/-- std `strings.Join(cs, "/")`. -/
def join : List Str → Str
  | [] => []
  | [a] => a
  | a :: b :: r => a ++ slash :: join (b :: r)

/-- std `IsAbs` (Unix). -/
def isAbs (s : Str) : Bool := s.head? = some slash

/-- One component of std `Clean`; the stack is reversed. -/
def cleanStep (rooted : Bool) (st : List Str) (c : Str) : List Str :=
  if c = [] ∨ c = dot then st
  else if c = dotdot then
    match st with
    | [] => if rooted then [] else [dotdot]
    | top :: rest => if top = dotdot then dotdot :: top :: rest else rest
  else c :: st

/-- The components of the cleaned path. -/
def comps (s : Str) : List Str := ((split s).foldl (cleanStep (isAbs s)) []).reverse

/-- A path from its components. -/
def render (rooted : Bool) (cs : List Str) : Str :=
  if rooted then slash :: join cs else if cs = [] then dot else join cs

/-- std `path.Clean` / `filepath.Clean` (Unix). -/
def clean (s : Str) : Str := render (isAbs s) (comps s)

/-- std `path.Join` / `filepath.Join` (Unix) of two elements. -/
def join2 (a b : Str) : Str :=
  if a = [] ∧ b = [] then [] else if a = [] then clean b else if b = [] then clean a else clean (a ++ slash :: b)

/-- std `path.Split`: the directory part, up to and including the last slash. -/
def dirPart (s : Str) : Str := (s.reverse.dropWhile (· ≠ slash)).reverse

/-- std `path.Split`: the file part, after the last slash. -/
def filePart (s : Str) : Str := (s.reverse.takeWhile (· ≠ slash)).reverse

/-- std `path.Dir` / `filepath.Dir` (Unix). -/
def dir (s : Str) : Str := clean (dirPart s)

/-- std `path.Base` / `filepath.Base` (Unix). -/
def base (s : Str) : Str :=
  if s = [] then dot
  else
    let t := (s.reverse.dropWhile (· = slash)).reverse
    if t = [] then [slash] else filePart t

/-- std `filepath.IsLocal` (Unix). -/
def isLocal (s : Str) : Bool :=
  if isAbs s || decide (s = []) then false
  else
    let p := if (split s).any (fun c => c = dot || c = dotdot) then clean s else s
    !(decide (p = dotdot) || hasPrefix p (dotdot ++ [slash]))

/-! ### facts -/

/-- A path component: not empty and without a slash. -/
def IsComp (c : Str) : Prop := c ≠ [] ∧ slash ∉ c

/-- A proper name: a component that is neither "." nor "..". -/
def IsName (c : Str) : Prop := IsComp c ∧ c ≠ dot ∧ c ≠ dotdot

instance (c : Str) : Decidable (IsComp c) := inferInstanceAs (Decidable (_ ∧ _))
instance (c : Str) : Decidable (IsName c) := inferInstanceAs (Decidable (_ ∧ _))

theorem split_ne_nil (s : Str) : split s ≠ [] := by
  cases s with
  | nil => simp [split]
  | cons c cs =>
    unfold split
    split
    · simp
    · split <;> simp

theorem split_no_slash (s : Str) : ∀ c ∈ split s, slash ∉ c := by
  induction s with
  | nil => simp [split]
  | cons c cs ih =>
    unfold split
    split
    · intro x hx
      rcases List.mem_cons.1 hx with rfl | hx
      · simp
      · exact ih x hx
    · rename_i hc
      cases h : split cs with
      | nil => exact absurd h (split_ne_nil cs)
      | cons a b =>
        rw [h] at ih
        intro x hx
        rcases List.mem_cons.1 hx with rfl | hx
        · intro hm
          rcases List.mem_cons.1 hm with hm | hm
          · exact hc hm.symm
          · exact ih a List.mem_cons_self hm
        · exact ih x (List.mem_cons_of_mem _ hx)

theorem join_split (s : Str) : join (split s) = s := by
  induction s with
  | nil => simp [split, join]
  | cons c cs ih =>
    unfold split
    split
    · rename_i hc
      cases h : split cs with
      | nil => exact absurd h (split_ne_nil cs)
      | cons a b => rw [h] at ih; simp [join, ih, hc]
    · cases h : split cs with
      | nil => exact absurd h (split_ne_nil cs)
      | cons a b =>
        rw [h] at ih
        cases b with
        | nil => simp [join] at ih ⊢; exact ih
        | cons x y => simp [join] at ih ⊢; exact ih

theorem split_of_no_slash {a : Str} (h : slash ∉ a) : split a = [a] := by
  induction a with
  | nil => simp [split]
  | cons c cs ih =>
    unfold split
    rw [if_neg (by intro hc; exact h (by simp [hc]))]
    rw [ih (fun hm => h (List.mem_cons_of_mem _ hm))]

theorem split_append_slash {a : Str} (h : slash ∉ a) (s : Str) : split (a ++ slash :: s) = a :: split s := by
  induction a with
  | nil => simp [split]
  | cons c cs ih =>
    show split (c :: (cs ++ slash :: s)) = _
    rw [split]
    rw [if_neg (by intro hc; exact h (by simp [hc])), ih (fun hm => h (List.mem_cons_of_mem _ hm))]

theorem split_join {cs : List Str} (hne : cs ≠ []) (h : ∀ c ∈ cs, slash ∉ c) : split (join cs) = cs := by
  induction cs with
  | nil => exact absurd rfl hne
  | cons a rest ih =>
    cases rest with
    | nil => simp [join]; exact split_of_no_slash (h a List.mem_cons_self)
    | cons b r =>
      show split (a ++ slash :: join (b :: r)) = _
      rw [split_append_slash (h a List.mem_cons_self), ih (by simp) (fun c hc => h c (List.mem_cons_of_mem _ hc))]

/-- The component lists of cleaned paths: names, after some ".." when the path is relative. -/
inductive Normal (rooted : Bool) : List Str → Prop
  | names {ns : List Str} (h : ∀ c ∈ ns, IsName c) : Normal rooted ns
  | up {ns : List Str} (hr : rooted = false) (h : Normal rooted ns) : Normal rooted (dotdot :: ns)

theorem isName_not_dotdot {c : Str} (h : IsName c) : c ≠ dotdot := h.2.2

theorem dotdot_isComp : IsComp dotdot := by decide

theorem Normal.isComp {r : Bool} {cs : List Str} (h : Normal r cs) : ∀ c ∈ cs, IsComp c ∧ c ≠ dot := by
  induction h with
  | names h => intro c hc; exact ⟨(h c hc).1, (h c hc).2.1⟩
  | up _ _ ih =>
    intro c hc
    rcases List.mem_cons.1 hc with rfl | hc
    · exact ⟨dotdot_isComp, by decide⟩
    · exact ih c hc

/-- Reversed stacks of `Clean`: names on top of "..". -/
def StackOK (rooted : Bool) (st : List Str) : Prop :=
  ∃ ns k, st = ns ++ List.replicate k dotdot ∧ (∀ c ∈ ns, IsName c) ∧ (rooted = true → k = 0)

theorem stack_step {r : Bool} {st : List Str} (h : StackOK r st) {c : Str} (hc : slash ∉ c) : StackOK r (cleanStep r st c) := by
  obtain ⟨ns, k, rfl, hn, hk⟩ := h
  unfold cleanStep
  split
  · exact ⟨ns, k, rfl, hn, hk⟩
  · rename_i hx
    split
    · rename_i hdd
      cases ns with
      | nil =>
        cases k with
        | zero =>
          simp only [List.replicate, List.append_nil]
          cases r with
          | true => exact ⟨[], 0, by simp, by simp, by simp⟩
          | false => exact ⟨[], 1, by simp, by simp, by simp⟩
        | succ k =>
          simp only [List.nil_append, List.replicate_succ, if_true]
          refine ⟨[], k + 2, by simp [List.replicate_succ], by simp, ?_⟩
          intro hr; have := hk hr; omega
      | cons a ns =>
        simp only [List.cons_append]
        rw [if_neg (hn a List.mem_cons_self).2.2]
        exact ⟨ns, k, rfl, fun c hc => hn c (List.mem_cons_of_mem _ hc), hk⟩
    · rename_i hdd
      refine ⟨c :: ns, k, rfl, ?_, hk⟩
      intro x hm
      rcases List.mem_cons.1 hm with rfl | hm
      · exact ⟨⟨fun h => hx (Or.inl h), hc⟩, fun h => hx (Or.inr h), hdd⟩
      · exact hn x hm

theorem stack_foldl {r : Bool} (cs : List Str) (hcs : ∀ c ∈ cs, slash ∉ c) : ∀ {st : List Str}, StackOK r st → StackOK r (cs.foldl (cleanStep r) st) := by
  induction cs with
  | nil => intro st h; exact h
  | cons c rest ih =>
    intro st h
    exact ih (fun x hx => hcs x (List.mem_cons_of_mem _ hx)) (stack_step h (hcs c List.mem_cons_self))

theorem StackOK.normal {r : Bool} {st : List Str} (h : StackOK r st) : Normal r st.reverse := by
  obtain ⟨ns, k, rfl, hn, hk⟩ := h
  rw [List.reverse_append, List.reverse_replicate]
  have base : Normal r ns.reverse := .names (fun c hc => hn c (List.mem_reverse.1 hc))
  cases r with
  | true => have := hk rfl; subst this; simpa using base
  | false =>
    clear hk
    induction k with
    | zero => simpa using base
    | succ k ih => rw [List.replicate_succ, List.cons_append]; exact .up rfl ih

theorem comps_normal (s : Str) : Normal (isAbs s) (comps s) := by
  unfold comps
  exact (stack_foldl _ (split_no_slash s) ⟨[], 0, by simp, by simp, by simp⟩).normal

/-- Folding names pushes them. -/
theorem foldl_names {r : Bool} (ns : List Str) (h : ∀ c ∈ ns, IsName c) : ∀ st, ns.foldl (cleanStep r) st = ns.reverse ++ st := by
  induction ns with
  | nil => intro st; rfl
  | cons a rest ih =>
    intro st
    have ha := h a List.mem_cons_self
    rw [List.foldl_cons]
    have : cleanStep r st a = a :: st := by
      unfold cleanStep
      rw [if_neg (by rintro (h | h); exact ha.1.1 h; exact ha.2.1 h), if_neg ha.2.2]
    rw [this, ih (fun c hc => h c (List.mem_cons_of_mem _ hc))]
    simp

/-- Cleaning a clean list of components does nothing. -/
theorem foldl_normal {r : Bool} {cs : List Str} (h : Normal r cs) (k : Nat) (hk : r = true → k = 0) :
    cs.foldl (cleanStep r) (List.replicate k dotdot) = cs.reverse ++ List.replicate k dotdot := by
  induction h generalizing k with
  | names h => exact foldl_names _ h _
  | @up ns hr h ih =>
    rw [List.foldl_cons]
    have : cleanStep r (List.replicate k dotdot) dotdot = List.replicate (k + 1) dotdot := by
      unfold cleanStep
      rw [if_neg (by decide), if_pos rfl]
      cases k with
      | zero => simp [hr]
      | succ k => simp [List.replicate_succ]
    rw [this, ih (k + 1) (by simp [hr])]
    rw [List.reverse_cons, List.append_assoc]
    rfl

theorem isAbs_join {cs : List Str} (h : ∀ c ∈ cs, IsComp c) : isAbs (join cs) = false := by
  cases cs with
  | nil => rfl
  | cons a rest =>
    have ha := h a List.mem_cons_self
    cases a with
    | nil => exact absurd rfl ha.1
    | cons x xs =>
      have hx : x ≠ slash := fun hc => ha.2 (by simp [hc])
      cases rest with
      | nil => simp [join, isAbs, hx]
      | cons b r => simp [join, isAbs, hx]

theorem isAbs_render {r : Bool} {cs : List Str} (h : Normal r cs) : isAbs (render r cs) = r := by
  unfold render
  cases r with
  | true => simp [isAbs]
  | false =>
    simp only [Bool.false_eq_true, if_false]
    split
    · rfl
    · exact isAbs_join (fun c hc => (h.isComp c hc).1)

theorem join_ne_nil {cs : List Str} (h : ∀ c ∈ cs, IsComp c) (hne : cs ≠ []) : join cs ≠ [] := by
  cases cs with
  | nil => exact absurd rfl hne
  | cons a rest =>
    have ha := h a List.mem_cons_self
    cases rest with
    | nil => simp [join]; exact ha.1
    | cons b r => simp [join]

theorem comps_render {r : Bool} {cs : List Str} (h : Normal r cs) : comps (render r cs) = cs := by
  have habs := isAbs_render h
  unfold comps
  rw [habs]
  have key : cs.foldl (cleanStep r) [] = cs.reverse := by
    have := foldl_normal h 0 (fun _ => rfl)
    simpa using this
  have hns : ∀ c ∈ cs, slash ∉ c := fun c hc => (h.isComp c hc).1.2
  have : (split (render r cs)).foldl (cleanStep r) [] = cs.reverse := by
    unfold render
    cases r with
    | true =>
      simp only [if_true]
      by_cases hne : cs = []
      · subst hne; simp [join, split, cleanStep]
      · show ((split (slash :: join cs)).foldl _ _) = _
        have : split (slash :: join cs) = [] :: cs := by
          rw [split, if_pos rfl, split_join hne hns]
        rw [this, List.foldl_cons]
        have h2 : cleanStep true [] [] = [] := by simp [cleanStep]
        rw [h2, key]
    | false =>
      simp only [Bool.false_eq_true, if_false]
      split
      · rename_i hne; subst hne; decide
      · rename_i hne
        rw [split_join hne hns, key]
  rw [this, List.reverse_reverse]

theorem comps_clean (s : Str) : comps (clean s) = comps s := comps_render (comps_normal s)
theorem isAbs_clean (s : Str) : isAbs (clean s) = isAbs s := isAbs_render (comps_normal s)

theorem clean_clean (s : Str) : clean (clean s) = clean s := by
  show render (isAbs (clean s)) (comps (clean s)) = _
  rw [isAbs_clean, comps_clean]; rfl

/-- Two clean paths of the same kind are equal exactly when their components are. -/
theorem render_inj {r : Bool} {a b : List Str} (ha : Normal r a) (hb : Normal r b) (h : render r a = render r b) : a = b := by
  rw [← comps_render ha, ← comps_render hb, h]

theorem clean_ne_nil (s : Str) : clean s ≠ [] := by
  unfold clean render
  split
  · simp
  · split
    · simp [dot]
    · rename_i h
      exact join_ne_nil (fun c hc => ((comps_normal s).isComp c hc).1) h

theorem foldl_split_append (r : Bool) (a b : Str) (st : List Str) :
    (split (a ++ slash :: b)).foldl (cleanStep r) st = (split b).foldl (cleanStep r) ((split a).foldl (cleanStep r) st) := by
  have : split (a ++ slash :: b) = split a ++ split b := by
    induction a with
    | nil => simp [split]
    | cons c cs ih =>
      show split (c :: (cs ++ slash :: b)) = _
      rw [split, split]
      split
      · rw [ih]; rfl
      · rw [ih]
        cases h : split cs with
        | nil => exact absurd h (split_ne_nil cs)
        | cons x y => rfl
  rw [this, List.foldl_append]

theorem isAbs_append {a : Str} (h : a ≠ []) (b : Str) : isAbs (a ++ b) = isAbs a := by
  cases a with
  | nil => exact absurd rfl h
  | cons c cs => simp [isAbs]

/-- Folding the cleaned components of a rooted or name-only path is folding the path. -/
theorem foldl_comps_names (s : Str) (h : ∀ c ∈ comps s, IsName c) (habs : isAbs s = false) (r : Bool) :
    ∀ (st : List Str), (split s).foldl (cleanStep r) st = (comps s).reverse ++ st := by
  -- generalise over the stack split
  have key : ∀ (cs : List Str) (hns : ∀ c ∈ cs, slash ∉ c) (below : List Str) (ns : List Str) (hn : ∀ c ∈ ns, IsName c) (res : List Str),
      cs.foldl (cleanStep false) ns = res → (∀ c ∈ res, IsName c) →
      (cs.foldl (cleanStep r) (ns ++ below)) = res ++ below := by
    intro cs
    induction cs with
    | nil => intro _ below ns _ res h1 h2; simp at h1; simp [h1]
    | cons c rest ih =>
      intro hns below ns hn res h1 h2
      rw [List.foldl_cons] at h1 ⊢
      have hc := hns c List.mem_cons_self
      by_cases hx : c = [] ∨ c = dot
      · have e1 : cleanStep false ns c = ns := by simp only [cleanStep, if_pos hx]
        have e2 : cleanStep r (ns ++ below) c = ns ++ below := by simp only [cleanStep, if_pos hx]
        rw [e1] at h1; rw [e2]
        exact ih (fun x hm => hns x (List.mem_cons_of_mem _ hm)) below ns hn res h1 h2
      · by_cases hd : c = dotdot
        · cases ns with
          | nil =>
            -- a ".." at the bottom never goes away
            exfalso
            have e1 : cleanStep false [] c = [dotdot] := by simp only [cleanStep, if_neg hx, if_pos hd]; rfl
            rw [e1] at h1
            have hkeep : ∀ (cs : List Str) (st : List Str), dotdot ∈ st → dotdot ∈ cs.foldl (cleanStep false) st := by
              intro cs
              induction cs with
              | nil => intro st h; exact h
              | cons c rest ih =>
                intro st h
                rw [List.foldl_cons]
                apply ih
                unfold cleanStep
                split
                · exact h
                · split
                  · cases st with
                    | nil => simp at h
                    | cons t u =>
                      simp only
                      split
                      · simp
                      · rename_i ht
                        rcases List.mem_cons.1 h with h | h
                        · exact absurd h.symm ht
                        · exact h
                  · exact List.mem_cons_of_mem _ h
            have := hkeep rest [dotdot] (by simp)
            rw [h1] at this
            exact (h2 _ this).2.2 rfl
          | cons a ns' =>
            have ha := (hn a List.mem_cons_self).2.2
            have e1 : cleanStep false (a :: ns') c = ns' := by simp only [cleanStep, if_neg hx, if_pos hd, if_neg ha]
            have e2 : cleanStep r (a :: ns' ++ below) c = ns' ++ below := by simp only [cleanStep, if_neg hx, if_pos hd, List.cons_append, if_neg ha]
            rw [e1] at h1; rw [e2]
            exact ih (fun x hm => hns x (List.mem_cons_of_mem _ hm)) below ns' (fun x hm => hn x (List.mem_cons_of_mem _ hm)) res h1 h2
        · have e1 : cleanStep false ns c = c :: ns := by simp only [cleanStep, if_neg hx, if_neg hd]
          have e2 : cleanStep r (ns ++ below) c = (c :: ns) ++ below := by simp only [cleanStep, if_neg hx, if_neg hd, List.cons_append]
          rw [e1] at h1; rw [e2]
          refine ih (fun x hm => hns x (List.mem_cons_of_mem _ hm)) below (c :: ns) ?_ res h1 h2
          intro x hm
          rcases List.mem_cons.1 hm with rfl | hm
          · exact ⟨⟨fun h => hx (Or.inl h), hc⟩, fun h => hx (Or.inr h), hd⟩
          · exact hn x hm
  intro st
  have hcomp : (split s).foldl (cleanStep false) [] = (comps s).reverse := by
    unfold comps; rw [habs, List.reverse_reverse]
  have := key (split s) (split_no_slash s) st [] (by simp) _ hcomp (fun c hc => h c (List.mem_reverse.1 hc))
  simpa using this

/-- Joining a local path beneath another path appends its components. -/
theorem comps_join (a b : Str) (ha : a ≠ []) (hb : ∀ c ∈ comps b, IsName c) (habs : isAbs b = false) :
    comps (a ++ slash :: b) = comps a ++ comps b := by
  unfold comps
  rw [isAbs_append ha, foldl_split_append, foldl_comps_names b hb habs, List.reverse_append, List.reverse_reverse]
  rfl

theorem hasPrefix_iff (s p : Str) : hasPrefix s p = true ↔ ∃ t, s = p ++ t := by
  unfold hasPrefix
  rw [List.isPrefixOf_iff_prefix]
  constructor
  · rintro ⟨t, h⟩; exact ⟨t, h.symm⟩
  · rintro ⟨t, h⟩; exact ⟨t, h.symm⟩

/-- When no component is special, cleaning only drops empty components. -/
theorem comps_no_dots (s : Str) (h : ∀ c ∈ split s, c ≠ dot ∧ c ≠ dotdot) : ∀ c ∈ comps s, IsName c := by
  have key : ∀ (cs : List Str), (∀ c ∈ cs, slash ∉ c ∧ c ≠ dot ∧ c ≠ dotdot) → ∀ st, (∀ c ∈ st, IsName c) →
      ∀ c ∈ cs.foldl (cleanStep (isAbs s)) st, IsName c := by
    intro cs
    induction cs with
    | nil => intro _ st h; exact h
    | cons a rest ih =>
      intro hcs st hst
      rw [List.foldl_cons]
      apply ih (fun c hc => hcs c (List.mem_cons_of_mem _ hc))
      obtain ⟨h1, h2, h3⟩ := hcs a List.mem_cons_self
      unfold cleanStep
      split
      · exact hst
      · rename_i hx
        intro c hc
        rcases List.mem_cons.1 hc with rfl | hc
        · exact ⟨⟨fun h => hx (Or.inl h), h1⟩, h2, h3⟩
        · exact hst c hc
  intro c hc
  exact key (split s) (fun c hc => ⟨split_no_slash s c hc, h c hc⟩) [] (by simp) c (List.mem_reverse.1 hc)

theorem normal_names_of_head {cs : List Str} (h : Normal false cs) (hh : cs.head? ≠ some dotdot) : ∀ c ∈ cs, IsName c := by
  cases h with
  | names h => exact h
  | up _ _ => simp at hh

theorem join_eq_dotdot {cs : List Str} (h : Normal false cs) : join cs = dotdot ∨ (∃ t, join cs = dotdot ++ slash :: t) ↔ cs.head? = some dotdot := by
  cases cs with
  | nil => simp [join, dotdot]
  | cons a rest =>
    have ha := (h.isComp a List.mem_cons_self).1
    simp only [List.head?_cons, Option.some.injEq]
    constructor
    · intro hj
      cases rest with
      | nil =>
        simp only [join] at hj
        rcases hj with hj | ⟨t, hj⟩
        · exact hj
        · exact absurd (by rw [hj]; simp) ha.2
      | cons b r =>
        simp only [join] at hj
        rcases hj with hj | ⟨t, hj⟩
        · have : slash ∈ dotdot := by rw [← hj]; simp
          exact absurd this (by decide)
        · have e1 := split_append_slash ha.2 (join (b :: r))
          have e2 := split_append_slash (a := dotdot) (by decide) t
          rw [hj, e2] at e1
          simp at e1
          exact e1.1.symm
    · rintro rfl
      cases rest with
      | nil => left; rfl
      | cons b r => right; exact ⟨join (b :: r), rfl⟩

/-- `IsLocal`: relative, not empty, and every component of the cleaned path is a proper name. -/
theorem isLocal_iff (s : Str) : isLocal s = true ↔ s ≠ [] ∧ isAbs s = false ∧ ∀ c ∈ comps s, IsName c := by
  unfold isLocal
  by_cases habs : isAbs s = true
  · simp [habs]
  by_cases hnil : s = []
  · simp [hnil]
  · have habs : isAbs s = false := by simpa using habs
    rw [if_neg (by simp [habs, hnil])]
    have hn := comps_normal s
    rw [habs] at hn
    by_cases hd : ((split s).any (fun c => decide (c = dot) || decide (c = dotdot))) = true
    · rw [if_pos hd]
      have hcl : ((clean s = dotdot) ∨ hasPrefix (clean s) (dotdot ++ [slash]) = true) ↔ (comps s).head? = some dotdot := by
        rw [← join_eq_dotdot hn, hasPrefix_iff]
        unfold clean render
        rw [habs]
        simp only [Bool.false_eq_true, if_false]
        split
        · rename_i he; rw [he]; simp [join, dot, dotdot, slash]
        · simp
      constructor
      · intro h
        have h : ¬ ((clean s = dotdot) ∨ hasPrefix (clean s) (dotdot ++ [slash]) = true) := by simpa using h
        rw [hcl] at h
        exact ⟨hnil, habs, normal_names_of_head hn h⟩
      · rintro ⟨_, _, h⟩
        have : ¬ ((clean s = dotdot) ∨ hasPrefix (clean s) (dotdot ++ [slash]) = true) := by
          rw [hcl]
          intro hh
          cases hcs : comps s with
          | nil => rw [hcs] at hh; simp at hh
          | cons a r =>
            rw [hcs] at hh h
            simp at hh
            exact (h a List.mem_cons_self).2.2 hh
        simpa using this
    · rw [if_neg hd]
      have hd' : ∀ c ∈ split s, c ≠ dot ∧ c ≠ dotdot := by
        intro c hc
        constructor
        · rintro rfl; exact hd (List.any_eq_true.2 ⟨_, hc, by simp⟩)
        · rintro rfl; exact hd (List.any_eq_true.2 ⟨_, hc, by simp⟩)
      constructor
      · intro _; exact ⟨hnil, habs, comps_no_dots s hd'⟩
      · intro _
        have h1 : s ≠ dotdot := by
          rintro rfl
          exact (hd' dotdot (by decide)).2 rfl
        have h2 : hasPrefix s (dotdot ++ [slash]) = false := by
          cases hp : hasPrefix s (dotdot ++ [slash]) with
          | false => rfl
          | true =>
            obtain ⟨t, ht⟩ := (hasPrefix_iff _ _).1 hp
            rw [List.append_assoc] at ht
            have := split_append_slash (a := dotdot) (by decide) t
            have hm : dotdot ∈ split s := by rw [ht]; show dotdot ∈ split (dotdot ++ slash :: t); rw [this]; simp
            exact absurd rfl (hd' _ hm).2
        simp [h1, h2]


/-! ### base, dir and join -/

theorem takeWhile_rev {x : Str} (hx : slash ∉ x) (s : Str) : (x.reverse ++ slash :: s).takeWhile (· ≠ slash) = x.reverse := by
  rw [List.takeWhile_append_of_pos]
  · simp
  · intro c hc
    have : c ≠ slash := by rintro rfl; exact hx (List.mem_reverse.1 hc)
    simpa using this

theorem dropWhile_rev {x : Str} (hx : slash ∉ x) (s : Str) : (x.reverse ++ slash :: s).dropWhile (· ≠ slash) = slash :: s := by
  rw [List.dropWhile_append_of_pos]
  · simp
  · intro c hc
    have : c ≠ slash := by rintro rfl; exact hx (List.mem_reverse.1 hc)
    simpa using this

theorem takeWhile_all {x : Str} (hx : slash ∉ x) : x.reverse.takeWhile (· ≠ slash) = x.reverse := by
  have := List.takeWhile_append_of_pos (p := fun c => decide (c ≠ slash)) (l₁ := x.reverse) (l₂ := []) (by
    intro c hc
    have : c ≠ slash := by rintro rfl; exact hx (List.mem_reverse.1 hc)
    simpa using this)
  simpa using this

theorem dropWhile_all {x : Str} (hx : slash ∉ x) : x.reverse.dropWhile (· ≠ slash) = [] := by
  have := List.dropWhile_append_of_pos (p := fun c => decide (c ≠ slash)) (l₁ := x.reverse) (l₂ := []) (by
    intro c hc
    have : c ≠ slash := by rintro rfl; exact hx (List.mem_reverse.1 hc)
    simpa using this)
  simpa using this

/-- Dropping trailing slashes does nothing after a component. -/
theorem trim_comp {x : Str} (hx : IsComp x) (s : Str) : ((s ++ x).reverse.dropWhile (· = slash)).reverse = s ++ x := by
  obtain ⟨h1, h2⟩ := hx
  rw [List.reverse_append]
  rcases List.eq_nil_or_concat x with rfl | ⟨i, a, rfl⟩
  · exact absurd rfl h1
  · have ha : a ≠ slash := by rintro rfl; exact h2 (by simp)
    rw [List.concat_eq_append, List.reverse_append]
    simp [ha]

theorem base_comp {x : Str} (hx : IsComp x) : base x = x := by
  unfold base
  have := trim_comp hx []
  rw [List.nil_append] at this
  simp only [this, if_neg hx.1, filePart, takeWhile_all hx.2, List.reverse_reverse]

theorem base_append {x : Str} (hx : IsComp x) (s : Str) : base (s ++ slash :: x) = x := by
  unfold base
  have := trim_comp hx (s ++ [slash])
  rw [List.append_assoc] at this
  change ((s ++ slash :: x).reverse.dropWhile (· = slash)).reverse = s ++ slash :: x at this
  simp only [this]
  rw [if_neg (by simp), if_neg (by simp)]
  unfold filePart
  rw [List.reverse_append, List.reverse_cons, List.append_assoc]
  have := takeWhile_rev hx.2 s.reverse
  simp only [List.singleton_append, this, List.reverse_reverse]

theorem dirPart_append {x : Str} (hx : IsComp x) (s : Str) : dirPart (s ++ slash :: x) = s ++ [slash] := by
  unfold dirPart
  rw [List.reverse_append, List.reverse_cons, List.append_assoc]
  have := dropWhile_rev hx.2 s.reverse
  simp only [List.singleton_append, this, List.reverse_cons, List.reverse_reverse]

theorem dirPart_comp {x : Str} (hx : IsComp x) : dirPart x = [] := by
  unfold dirPart
  rw [dropWhile_all hx.2]; rfl

theorem join_concat {cs : List Str} (h : cs ≠ []) (x : Str) : join (cs ++ [x]) = join cs ++ slash :: x := by
  induction cs with
  | nil => exact absurd rfl h
  | cons a rest ih =>
    cases rest with
    | nil => rfl
    | cons b r =>
      show a ++ slash :: join ((b :: r) ++ [x]) = (a ++ slash :: join (b :: r)) ++ slash :: x
      rw [ih (by simp)]; simp

/-- The last component is the base, the others are the directory. -/
theorem base_render {r : Bool} {cs : List Str} {x : Str} (hx : IsComp x) : base (render r (cs ++ [x])) = x := by
  unfold render
  cases r with
  | true =>
    simp only [if_true]
    by_cases h : cs = []
    · subst h; exact base_append hx []
    · rw [join_concat h]; exact base_append hx (slash :: join cs)
  | false =>
    simp only [Bool.false_eq_true, if_false]
    rw [if_neg (by simp)]
    by_cases h : cs = []
    · subst h; exact base_comp hx
    · rw [join_concat h]; exact base_append hx (join cs)

theorem comps_nil : comps [] = [] := by decide

theorem clean_trailing {s : Str} (h : s ≠ []) : clean (s ++ [slash]) = clean s := by
  unfold clean
  rw [isAbs_append h]
  have := comps_join s [] h (by rw [comps_nil]; simp) rfl
  rw [this, comps_nil, List.append_nil]

theorem clean_render {r : Bool} {cs : List Str} (h : Normal r cs) : clean (render r cs) = render r cs := by
  unfold clean; rw [isAbs_render h, comps_render h]

theorem Normal.init {r : Bool} {cs : List Str} {x : Str} (h : Normal r (cs ++ [x])) : Normal r cs := by
  generalize hl : cs ++ [x] = l at h
  induction h generalizing cs with
  | names h => subst hl; exact .names (fun c hc => h c (List.mem_append_left _ hc))
  | up hr _ ih =>
    cases cs with
    | nil => exact .names (by simp)
    | cons a rest =>
      simp at hl
      obtain ⟨rfl, hl⟩ := hl
      exact .up hr (ih hl)

theorem Normal.snoc {r : Bool} {cs : List Str} {x : Str} (h : Normal r cs) (hx : IsName x) : Normal r (cs ++ [x]) := by
  induction h with
  | names h =>
    apply Normal.names; intro c hc
    rcases List.mem_append.1 hc with hc | hc
    · exact h c hc
    · rw [List.mem_singleton.1 hc]; exact hx
  | up hr _ ih => exact .up hr ih

theorem dir_render {r : Bool} {cs : List Str} {x : Str} (h : Normal r (cs ++ [x])) : dir (render r (cs ++ [x])) = render r cs := by
  have hx := (h.isComp x (by simp)).1
  have hi := h.init
  have hc := clean_render hi
  unfold dir
  unfold render at hc ⊢
  cases r with
  | true =>
    simp only [if_true] at hc ⊢
    by_cases hcs : cs = []
    · subst hcs
      have := dirPart_append hx []
      rw [List.nil_append] at this
      show clean (dirPart (slash :: x)) = _
      rw [this]; decide
    · rw [join_concat hcs]
      have := dirPart_append hx (slash :: join cs)
      rw [List.cons_append] at this
      rw [this]
      have := clean_trailing (s := slash :: join cs) (by simp)
      rw [List.cons_append] at *
      rw [this, hc]
  | false =>
    simp only [Bool.false_eq_true, if_false] at hc ⊢
    rw [if_neg (by simp)]
    by_cases hcs : cs = []
    · subst hcs
      show clean (dirPart x) = _
      rw [dirPart_comp hx]; decide
    · rw [join_concat hcs, dirPart_append hx]
      rw [if_neg hcs] at hc ⊢
      rw [clean_trailing (join_ne_nil (fun c hc => (hi.isComp c hc).1) hcs), hc]

theorem split_comp {x : Str} (hx : IsComp x) : split x = [x] := split_of_no_slash hx.2

theorem comps_name {x : Str} (hx : IsName x) : comps x = [x] := by
  unfold comps
  rw [split_comp hx.1]
  simp only [List.foldl_cons, List.foldl_nil, cleanStep]
  rw [if_neg (by rintro (h | h); exact hx.1.1 h; exact hx.2.1 h), if_neg hx.2.2]
  rfl

theorem isAbs_name {x : Str} (hx : IsComp x) : isAbs x = false := by
  have := isAbs_join (cs := [x]) (by simpa using hx)
  simpa [join] using this

theorem clean_name {x : Str} (hx : IsName x) : clean x = x := by
  unfold clean render
  rw [isAbs_name hx.1, comps_name hx]
  simp [join]

/-- Joining a proper name to a directory appends it. -/
theorem join2_name {d x : Str} (hd : d ≠ []) (hx : IsName x) : join2 d x = render (isAbs d) (comps d ++ [x]) := by
  unfold join2
  rw [if_neg (by simp [hd]), if_neg hd, if_neg hx.1.1]
  unfold clean
  rw [isAbs_append hd, comps_join d x hd (by rw [comps_name hx]; simpa using hx) (isAbs_name hx.1), comps_name hx]

theorem base_join2 {d x : Str} (hd : d ≠ []) (hx : IsName x) : base (join2 d x) = x := by
  rw [join2_name hd hx]; exact base_render hx.1

theorem dir_join2 {d x : Str} (hd : d ≠ []) (hx : IsName x) : dir (join2 d x) = clean d := by
  rw [join2_name hd hx, dir_render ((comps_normal d).snoc hx)]; rfl

theorem comps_join2 {d x : Str} (hd : d ≠ []) (hx : IsName x) : comps (join2 d x) = comps d ++ [x] := by
  rw [join2_name hd hx, comps_render ((comps_normal d).snoc hx)]

theorem clean_join2 {d x : Str} (hd : d ≠ []) (hx : IsName x) : clean (join2 d x) = join2 d x := by
  rw [join2_name hd hx, clean_render ((comps_normal d).snoc hx)]

/-- `Base` is a slash or has no slash; it is never empty. -/
theorem base_spec (s : Str) : base s = [slash] ∨ IsComp (base s) := by
  unfold base
  split
  · right; decide
  · simp only
    split
    · left; rfl
    · rename_i h
      right
      unfold filePart
      generalize ht : (s.reverse.dropWhile (· = slash)).reverse = t at *
      constructor
      · rcases List.eq_nil_or_concat t with rfl | ⟨i, a, rfl⟩
        · exact absurd rfl h
        · have ha : a ≠ slash := by
            rintro rfl
            have : s.reverse.dropWhile (· = slash) = slash :: i.reverse := by
              rw [← List.reverse_inj, ht]; simp
            have hh := List.head?_dropWhile_not (fun c => decide (c = slash)) s.reverse
            rw [this] at hh
            simp at hh
          rw [List.concat_eq_append, List.reverse_append]
          simp [ha]
      · intro hm
        have hall := List.all_takeWhile (p := fun c => decide (c ≠ slash)) (l := t.reverse)
        have := List.all_eq_true.1 hall _ (List.mem_reverse.1 hm)
        simp at this

end Verif.Path
