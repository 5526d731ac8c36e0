import Verif.Common.Path
/-
What a relative name means, independently of `Clean`: walk its elements from the base, never stepping above it.
-/
namespace Verif.Path

/-- Walk the elements from the directory `st` (reversed): empty elements and "." stay, ".." goes up and must not leave the base, others go down. -/
def walkFrom : List Str → List Str → Option (List Str)
  | st, [] => some st.reverse
  | st, c :: rest =>
    if c = [] ∨ c = dot then walkFrom st rest
    else if c = dotdot then match st with
      | [] => none
      | _ :: st' => walkFrom st' rest
    else walkFrom (c :: st) rest

/-- Where a name leads below a base directory: nothing for absolute names and names that step above the base. -/
def placeOf (name : Str) : Option (List Str) := if isAbs name then none else walkFrom [] (split name)

theorem cleanStep_bottom (st : List Str) (c : Str) (k : Nat) : ∃ st' k', cleanStep false (st ++ List.replicate (k + 1) dotdot) c = st' ++ List.replicate (k' + 1) dotdot := by
  unfold cleanStep
  split
  · exact ⟨st, k, rfl⟩
  · split
    · cases st with
      | nil =>
        rw [List.nil_append, List.replicate_succ]
        simp only [if_true]
        exact ⟨[], k + 1, by rw [List.nil_append, List.replicate_succ (n := k + 1), List.replicate_succ]⟩
      | cons a t =>
        rw [List.cons_append]
        simp only
        split
        · exact ⟨dotdot :: a :: t, k, rfl⟩
        · exact ⟨t, k, rfl⟩
    · exact ⟨c :: st, k, rfl⟩

theorem foldl_bottom (cs : List Str) : ∀ (st : List Str) (k : Nat), ∃ st' k', cs.foldl (cleanStep false) (st ++ List.replicate (k + 1) dotdot) = st' ++ List.replicate (k' + 1) dotdot := by
  induction cs with
  | nil => intro st k; exact ⟨st, k, rfl⟩
  | cons c rest ih =>
    intro st k
    obtain ⟨st1, k1, h⟩ := cleanStep_bottom st c k
    rw [List.foldl_cons, h]
    exact ih st1 k1

theorem walkFrom_eq (cs : List Str) (hcs : ∀ c ∈ cs, slash ∉ c) : ∀ st, (∀ c ∈ st, IsName c) →
    (∀ r, walkFrom st cs = some r → r = (cs.foldl (cleanStep false) st).reverse ∧ ∀ c ∈ r, IsName c) ∧
    (walkFrom st cs = none → ∃ st' k, cs.foldl (cleanStep false) st = st' ++ List.replicate (k + 1) dotdot) := by
  induction cs with
  | nil =>
    intro st hst
    constructor
    · intro r hr
      cases hr
      exact ⟨rfl, fun c hc => hst c (List.mem_reverse.1 hc)⟩
    · intro h; cases h
  | cons c rest ih =>
    intro st hst
    have hrest : ∀ x ∈ rest, slash ∉ x := fun x hx => hcs x (List.mem_cons_of_mem _ hx)
    rw [List.foldl_cons]
    unfold walkFrom
    by_cases h1 : c = [] ∨ c = dot
    · rw [if_pos h1, show cleanStep false st c = st from by unfold cleanStep; rw [if_pos h1]]
      exact ih hrest st hst
    · rw [if_neg h1]
      by_cases h2 : c = dotdot
      · rw [if_pos h2]
        cases st with
        | nil =>
          constructor
          · intro r hr; cases hr
          · intro _
            have : cleanStep false [] c = [] ++ List.replicate (0 + 1) dotdot := by
              unfold cleanStep; rw [if_neg h1, if_pos h2]; rfl
            rw [this]
            exact foldl_bottom rest [] 0
        | cons a t =>
          have ha := hst a List.mem_cons_self
          have : cleanStep false (a :: t) c = t := by
            unfold cleanStep; rw [if_neg h1, if_pos h2]
            simp only
            rw [if_neg ha.2.2]
          rw [this]
          exact ih hrest t (fun x hx => hst x (List.mem_cons_of_mem _ hx))
      · rw [if_neg h2]
        have hn : IsName c := ⟨⟨fun h => h1 (Or.inl h), hcs c List.mem_cons_self⟩, fun h => h1 (Or.inr h), h2⟩
        rw [show cleanStep false st c = c :: st from by unfold cleanStep; rw [if_neg h1, if_neg h2]]
        exact ih hrest (c :: st) (by
          intro x hx
          rcases List.mem_cons.1 hx with rfl | hx
          · exact hn
          · exact hst x hx)

/-- The walk gives the components of the cleaned name, when these are names. -/
theorem placeOf_some {name : Str} {ns : List Str} (h : placeOf name = some ns) : isAbs name = false ∧ comps name = ns ∧ ∀ c ∈ ns, IsName c := by
  unfold placeOf at h
  cases ha : isAbs name with
  | true => simp [ha] at h
  | false =>
    simp [ha] at h
    obtain ⟨h1, h2⟩ := (walkFrom_eq (split name) (split_no_slash name) [] (by simp)).1 ns h
    refine ⟨rfl, ?_, h2⟩
    unfold comps
    rw [ha, h1]

theorem placeOf_none {name : Str} (h : placeOf name = none) : isAbs name = true ∨ dotdot ∈ comps name := by
  unfold placeOf at h
  cases ha : isAbs name with
  | true => exact Or.inl rfl
  | false =>
    right
    simp [ha] at h
    obtain ⟨st, k, hs⟩ := (walkFrom_eq (split name) (split_no_slash name) [] (by simp)).2 h
    unfold comps
    rw [ha, hs]
    simp [List.replicate_succ]

theorem placeOf_iff (name : Str) (ns : List Str) : placeOf name = some ns ↔ isAbs name = false ∧ comps name = ns ∧ ∀ c ∈ ns, IsName c := by
  constructor
  · exact placeOf_some
  · rintro ⟨h1, h2, h3⟩
    cases hp : placeOf name with
    | none =>
      rcases placeOf_none hp with h | h
      · rw [h1] at h; cases h
      · rw [h2] at h; exact absurd rfl (h3 _ h).2.2
    | some ns' => rw [← h2, (placeOf_some hp).2.1]

theorem placeOf_clean (name : Str) : placeOf (clean name) = placeOf name := by
  cases h : placeOf name with
  | some ns => rw [placeOf_iff] at h ⊢; rw [isAbs_clean, comps_clean]; exact h
  | none =>
    cases h' : placeOf (clean name) with
    | none => rfl
    | some ns => rw [placeOf_iff, isAbs_clean, comps_clean, ← placeOf_iff] at h'; rw [h] at h'; cases h'

theorem isLocal_clean_iff (name : Str) : isLocal (clean name) = true ↔ placeOf name ≠ none := by
  rw [isLocal_iff, isAbs_clean, comps_clean]
  constructor
  · rintro ⟨_, h1, h2⟩ h
    rw [(placeOf_iff name (comps name)).2 ⟨h1, rfl, h2⟩] at h; cases h
  · intro h
    cases hp : placeOf name with
    | none => exact absurd hp h
    | some ns =>
      obtain ⟨h1, h2, h3⟩ := placeOf_some hp
      exact ⟨clean_ne_nil _, h1, by rw [h2]; exact h3⟩

theorem clean_eq_dot_iff (name : Str) : clean name = dot ↔ placeOf name = some [] := by
  rw [placeOf_iff]
  constructor
  · intro h
    have h1 := isAbs_clean name
    have h2 := comps_clean name
    rw [h] at h1 h2
    refine ⟨h1.symm, ?_, by simp⟩
    rw [← h2]; decide
  · rintro ⟨h1, h2, _⟩
    unfold clean render
    simp [h1, h2]

/-- "a/../b/./c" leads to b/c; "a/../../a" leaves. -/
example : placeOf ['a', '/', '.', '.', '/', 'b', '/', '.', '/', 'c'] = some [['b'], ['c']] ∧ placeOf ['a', '/', '.', '.', '/', '.', '.', '/', 'a'] = none ∧
    placeOf [] = some [] ∧ placeOf ['/', 'a'] = none := by decide

end Verif.Path
