import Verif.Vroot.WrapProps
import Verif.Fsutil.TempProps
/-
C97: the wrapper of afero filesystems that converts names to those of io/fs, /repo/aferofs/valid_path.go and valid_path.validpathfs.generate.go.
-/
namespace Verif.Afero.ValidPath
open Verif.Path

/-! ### Model -/

/-- valid_path.go 11-21 `toFsPath` on Unix: volume names are empty there and `ToSlash` changes nothing. -/
def toFsPath (p : Str) : Str :=
  if p = [] then p
  else
    let p := clean p
    let p := (cutPrefix p ['.', slash]).getD p
    (cutPrefix p [slash]).getD p

/-- The methods of `afero.Fs`, with their names and whatever else they are given. -/
inductive Call (V : Type) where
  | create (name : Str)
  | mkdir (name : Str) (v : V)
  | mkdirAll (path : Str) (v : V)
  | open_ (name : Str)
  | openFile (name : Str) (v : V)
  | remove (name : Str)
  | removeAll (path : Str)
  | rename (oldname newname : Str)
  | stat (name : Str)
  | name
  | chmod (name : Str) (v : V)
  | chown (name : Str) (v : V)
  | chtimes (name : Str) (v : V)

/-- valid_path.validpathfs.generate.go 11-87 with valid_path.go 29-34 `modifyPath`: the call that the filesystem below gets. -/
def forward {V : Type} : Call V → Call V
  | .create n => .create (toFsPath n)
  | .mkdir n v => .mkdir (toFsPath n) v
  | .mkdirAll n v => .mkdirAll (toFsPath n) v
  | .open_ n => .open_ (toFsPath n)
  | .openFile n v => .openFile (toFsPath n) v
  | .remove n => .remove (toFsPath n)
  | .removeAll n => .removeAll (toFsPath n)
  | .rename o n => .rename (toFsPath o) (toFsPath n)
  | .stat n => .stat (toFsPath n)
  | .name => .name
  | .chmod n v => .chmod (toFsPath n) v
  | .chown n v => .chown (toFsPath n) v
  | .chtimes n v => .chtimes (toFsPath n) v

/-! ### Specification -/

/-- Where the elements of a path lead, from a place given leaf first: "" and "." stay, ".." goes up but not above the root. -/
def follow : List Str → List Str → List Str
  | at_, [] => at_.reverse
  | at_, c :: cs => if c = [] ∨ c = dot then follow at_ cs else if c = dotdot then follow at_.tail cs else follow (c :: at_) cs

/-- The place that a name means, in a filesystem whose root is the root and the working directory. -/
def leadsTo (p : Str) : List Str := follow [] (split p)

/-- A relative path goes above the directory that it starts in, at some point. -/
def climbs : Nat → List Str → Bool
  | _, [] => false
  | d, c :: cs => if c = [] ∨ c = dot then climbs d cs
    else if c = dotdot then (match d with | 0 => true | d + 1 => climbs d cs) else climbs (d + 1) cs

/-- The names that a call is given, and the call with other names. -/
def Call.names {V : Type} : Call V → List Str
  | .create n | .mkdir n _ | .mkdirAll n _ | .open_ n | .openFile n _ | .remove n | .removeAll n | .stat n | .chmod n _ | .chown n _ | .chtimes n _ => [n]
  | .rename o n => [o, n]
  | .name => []

/-- The call is the same up to its names. -/
inductive SameMethod {V : Type} : Call V → Call V → Prop
  | create a b : SameMethod (.create a) (.create b)
  | mkdir a b v : SameMethod (.mkdir a v) (.mkdir b v)
  | mkdirAll a b v : SameMethod (.mkdirAll a v) (.mkdirAll b v)
  | open_ a b : SameMethod (.open_ a) (.open_ b)
  | openFile a b v : SameMethod (.openFile a v) (.openFile b v)
  | remove a b : SameMethod (.remove a) (.remove b)
  | removeAll a b : SameMethod (.removeAll a) (.removeAll b)
  | rename a b c d : SameMethod (.rename a b) (.rename c d)
  | stat a b : SameMethod (.stat a) (.stat b)
  | name : SameMethod .name .name
  | chmod a b v : SameMethod (.chmod a v) (.chmod b v)
  | chown a b v : SameMethod (.chown a v) (.chown b v)
  | chtimes a b v : SameMethod (.chtimes a v) (.chtimes b v)

/-! ### Lemmas -/

theorem step_skip {r : Bool} {st : List Str} {c : Str} (h : c = [] ∨ c = dot) : cleanStep r st c = st := by unfold cleanStep; rw [if_pos h]
theorem step_name {r : Bool} {st : List Str} {c : Str} (h1 : ¬ (c = [] ∨ c = dot)) (h2 : c ≠ dotdot) : cleanStep r st c = c :: st := by
  unfold cleanStep; rw [if_neg h1, if_neg h2]
theorem step_up {r : Bool} {a : Str} {st : List Str} (h : a ≠ dotdot) : cleanStep r (a :: st) dotdot = st := by
  unfold cleanStep; rw [if_neg (by decide), if_pos rfl]; simp only [if_neg h]
theorem step_above (k : Nat) : cleanStep false (List.replicate k dotdot) dotdot = List.replicate (k + 1) dotdot := by
  unfold cleanStep; rw [if_neg (by decide), if_pos rfl]
  cases k with
  | zero => rfl
  | succ k => simp [List.replicate_succ]

theorem follow_eq (cs : List Str) : ∀ st : List Str, dotdot ∉ st → follow st cs = (cs.foldl (cleanStep true) st).reverse := by
  induction cs with
  | nil => intro st _; rfl
  | cons c cs ih =>
    intro st hst
    rw [follow, List.foldl_cons]
    split
    · rename_i h1
      rw [step_skip h1]; exact ih st hst
    · split
      · rename_i h1 h2
        rw [h2]
        cases st with
        | nil => exact ih [] hst
        | cons a st =>
          rw [step_up (by intro h; exact hst (by rw [h]; exact List.mem_cons_self))]
          exact ih st fun h => hst (List.mem_cons_of_mem _ h)
      · rename_i h1 h2
        rw [step_name h1 h2]
        exact ih (c :: st) (by
          intro h
          rcases List.mem_cons.1 h with h | h
          · exact h2 h.symm
          · exact hst h)

/-- Cleaning a relative path and then going on from the root. -/
theorem foldl_rooted (cs : List Str) (hcs : ∀ c ∈ cs, slash ∉ c) : ∀ (ns : List Str) (k : Nat), (∀ c ∈ ns, IsName c) →
    ∃ ns' k', cs.foldl (cleanStep false) (ns ++ List.replicate k dotdot) = ns' ++ List.replicate k' dotdot ∧ (∀ c ∈ ns', IsName c) ∧
      cs.foldl (cleanStep true) ns = ns' ∧ (k' = 0 ↔ k = 0 ∧ climbs ns.length cs = false) := by
  induction cs with
  | nil => intro ns k hn; exact ⟨ns, k, rfl, hn, rfl, by cases ns <;> simp [climbs]⟩
  | cons c cs ih =>
    intro ns k hn
    have ihc := ih fun x hx => hcs x (List.mem_cons_of_mem _ hx)
    rw [List.foldl_cons, List.foldl_cons, climbs.eq_def]
    simp only
    by_cases h1 : c = [] ∨ c = dot
    · rw [step_skip h1, step_skip h1, if_pos h1]; exact ihc ns k hn
    · rw [if_neg h1]
      by_cases h2 : c = dotdot
      · rw [if_pos h2, h2]
        cases ns with
        | nil =>
          obtain ⟨ns', k', g1, g2, g3, g4⟩ := ihc [] (k + 1) hn
          refine ⟨ns', k', ?_, g2, g3, ?_⟩
          · rw [← g1, List.nil_append, List.nil_append, step_above]
          · simp only [List.length_nil, Bool.true_eq_false, and_false, iff_false]
            intro h
            have := (g4.1 h).1
            omega
        | cons a ns =>
          rw [List.cons_append, step_up (hn a List.mem_cons_self).2.2, step_up (hn a List.mem_cons_self).2.2]
          exact ihc ns k fun x hx => hn x (List.mem_cons_of_mem _ hx)
      · rw [if_neg h2, step_name h1 h2, step_name h1 h2]
        exact ihc (c :: ns) k (by
          intro x hx
          rcases List.mem_cons.1 hx with rfl | hx
          · exact ⟨⟨fun h => h1 (Or.inl h), hcs _ List.mem_cons_self⟩, fun h => h1 (Or.inr h), h2⟩
          · exact hn x hx)

theorem leadsTo_names (p : Str) : ∀ c ∈ leadsTo p, IsName c := by
  unfold leadsTo
  rw [follow_eq _ [] (by simp)]
  obtain ⟨ns, k, h1, h2, h3⟩ := stack_foldl (r := true) (split p) (split_no_slash p) (st := []) ⟨[], 0, by simp, by simp, by simp⟩
  rw [h1, h3 rfl]
  simpa using h2

/-- The elements of a cleaned path: as many ".." as it goes above, then the place. -/
theorem comps_leadsTo (p : Str) : ∃ k, comps p = List.replicate k dotdot ++ leadsTo p ∧
    (k = 0 ↔ isAbs p = true ∨ climbs 0 (split p) = false) := by
  unfold comps leadsTo
  rw [follow_eq _ [] (by simp)]
  cases ha : isAbs p with
  | true => exact ⟨0, rfl, by simp⟩
  | false =>
    obtain ⟨ns, k, h1, _, h3, h4⟩ := foldl_rooted (split p) (split_no_slash p) [] 0 (by simp)
    simp only [List.replicate_zero, List.append_nil] at h1
    refine ⟨k, ?_, ?_⟩
    · rw [h1, h3]; simp
    · simpa using h4

theorem cut_dot {cs : List Str} (h : ∀ c ∈ cs, IsComp c ∧ c ≠ dot) : cutPrefix (join cs) ['.', slash] = none := by
  unfold cutPrefix
  rw [if_neg]
  intro hp
  cases cs with
  | nil => simp [join] at hp
  | cons a rest =>
    have ha := h a List.mem_cons_self
    cases a with
    | nil => exact ha.1.1 rfl
    | cons x xs =>
      cases xs with
      | nil =>
        cases rest with
        | nil => simp [join] at hp
        | cons b r =>
          simp only [join, List.cons_append, List.isPrefixOf, Bool.and_eq_true, beq_iff_eq] at hp
          exact ha.2 (by rw [← hp.1]; rfl)
      | cons y ys =>
        have hy : y ≠ slash := fun hc => ha.1.2 (by simp [hc])
        cases rest with
        | nil =>
          simp only [join, List.isPrefixOf, Bool.and_eq_true, beq_iff_eq] at hp
          exact hy hp.2.1.symm
        | cons b r =>
          simp only [join, List.cons_append, List.isPrefixOf, Bool.and_eq_true, beq_iff_eq] at hp
          exact hy hp.2.1.symm

theorem cut_slash {s : Str} (h : isAbs s = false) : cutPrefix s [slash] = none := by
  unfold cutPrefix
  rw [if_neg]
  intro hp
  cases s with
  | nil => simp at hp
  | cons x xs => simp [isAbs] at h; simp at hp; exact h hp.symm

/-- What the conversion gives. -/
theorem toFsPath_eq (p : Str) : toFsPath p =
    if p = [] then [] else if comps p = [] then (if isAbs p = true then [] else dot) else join (comps p) := by
  unfold toFsPath
  by_cases hp : p = []
  · simp [hp]
  · rw [if_neg hp, if_neg hp]
    have hn := comps_normal p
    have hc := hn.isComp
    unfold clean render
    cases ha : isAbs p with
    | true =>
      have h1 : cutPrefix (slash :: join (comps p)) ['.', slash] = none := by simp [cutPrefix, slash]
      have h2 : cutPrefix (slash :: join (comps p)) [slash] = some (join (comps p)) := by simp [cutPrefix]
      simp only [if_true, h1, Option.getD_none, h2, Option.getD_some]
      split
      · rename_i h; rw [h]; rfl
      · rfl
    | false =>
      simp only [Bool.false_eq_true, if_false]
      by_cases he : comps p = []
      · simp only [if_pos he]; decide
      · simp only [if_neg he, cut_dot hc, Option.getD_none]
        rw [cut_slash (isAbs_join fun c h => (hc c h).1)]
        rfl

theorem valid_split {p : Str} (h : Fsutil.ValidUTF8 p) : ∀ c ∈ split p, Fsutil.ValidUTF8 c := by
  have key : ∀ (cs : List Str), (∀ c ∈ cs, slash ∉ c) → Fsutil.ValidUTF8 (join cs) → ∀ c ∈ cs, Fsutil.ValidUTF8 c := by
    intro cs
    induction cs with
    | nil => intro _ _ c hc; cases hc
    | cons a rest ih =>
      intro hs hv c hc
      cases rest with
      | nil => rcases List.mem_cons.1 hc with rfl | hc
               · exact hv
               · cases hc
      | cons b r =>
        obtain ⟨rs, h1, h2⟩ := hv
        have := Fsutil.valid_cut (c := slash) (by decide) rs h1 a (join (b :: r)) h2
        rcases List.mem_cons.1 hc with rfl | hc
        · exact this.1
        · exact ih (fun x hx => hs x (List.mem_cons_of_mem _ hx)) this.2 c hc
  exact key (split p) (split_no_slash p) (by rw [join_split]; exact h)

theorem valid_join {cs : List Str} (h : ∀ c ∈ cs, Fsutil.ValidUTF8 c) : Fsutil.ValidUTF8 (join cs) := by
  induction cs with
  | nil => exact .nil
  | cons a rest ih =>
    have ih := ih fun c hc => h c (List.mem_cons_of_mem _ hc)
    cases rest with
    | nil => exact h a List.mem_cons_self
    | cons b r =>
      show Fsutil.ValidUTF8 (a ++ slash :: join (b :: r))
      exact Fsutil.ValidUTF8.append (h a List.mem_cons_self) (Fsutil.ValidUTF8.append (a := [slash]) (Fsutil.valid_ascii (by decide)) ih)

/-- Elements after cleaning are elements before it, or "..". -/
theorem foldl_mem (r : Bool) (cs : List Str) : ∀ st : List Str, ∀ c ∈ cs.foldl (cleanStep r) st, c ∈ st ∨ c ∈ cs ∨ c = dotdot := by
  induction cs with
  | nil => intro st c h; exact Or.inl h
  | cons a cs ih =>
    intro st c h
    rw [List.foldl_cons] at h
    rcases ih _ c h with h | h | h
    · unfold cleanStep at h
      split at h
      · exact Or.inl h
      · split at h
        · cases st with
          | nil => cases r <;> simp at h; exact Or.inr (Or.inr h)
          | cons t rest =>
            simp only at h
            split at h
            · rcases List.mem_cons.1 h with h | h
              · exact Or.inr (Or.inr h)
              · exact Or.inl h
            · exact Or.inl (List.mem_cons_of_mem _ h)
        · rcases List.mem_cons.1 h with rfl | h
          · exact Or.inr (Or.inl List.mem_cons_self)
          · exact Or.inl h
    · exact Or.inr (Or.inl (List.mem_cons_of_mem _ h))
    · exact Or.inr (Or.inr h)

theorem valid_comps {p : Str} (h : Fsutil.ValidUTF8 p) : ∀ c ∈ comps p, Fsutil.ValidUTF8 c := by
  intro c hc
  unfold comps at hc
  rcases foldl_mem _ _ _ c (List.mem_reverse.1 hc) with h' | h' | rfl
  · cases h'
  · exact valid_split h c h'
  · exact Fsutil.valid_ascii (by decide)

/-! ### C97 -/

/-- **C97** (same place). The converted name leads where the given one leads. -/
theorem C97_same_place (p : Str) : leadsTo (toFsPath p) = leadsTo p := by
  rw [toFsPath_eq]
  split
  · rename_i h; rw [h]
  · obtain ⟨k, hk, _⟩ := comps_leadsTo p
    split
    · rename_i h
      rw [h] at hk
      have : leadsTo p = [] := by
        have := congrArg List.length hk
        simp only [List.length_nil, List.length_append] at this
        exact List.length_eq_zero_iff.1 (by omega)
      rw [this]
      split <;> decide
    · rename_i h
      unfold leadsTo
      rw [split_join h fun c hc => ((comps_normal p).isComp c hc).1.2, hk, follow_eq _ [] (by simp), List.foldl_append]
      have : ∀ k : Nat, (List.replicate k dotdot).foldl (cleanStep true) [] = [] := by
        intro k
        induction k with
        | zero => rfl
        | succ k ih => exact ih
      rw [this, foldl_names _ (leadsTo_names p)]
      simp [leadsTo]

/-- **C97** (valid names). A name in UTF-8 becomes a valid name of io/fs exactly if it is not empty, is relative and does not go above where it starts, or
is absolute and leads to something else than the root. -/
theorem C97_valid_partial (p : Str) (hp : Fsutil.ValidUTF8 p) : Vroot.IsValidPath (toFsPath p) ↔
    p ≠ [] ∧ (if isAbs p = true then leadsTo p ≠ [] else climbs 0 (split p) = false) := by
  obtain ⟨k, hk, hz⟩ := comps_leadsTo p
  have hnil : ¬ Vroot.IsValidPath [] := by
    rintro ⟨_, h | h⟩
    · cases h
    · exact (h [] (by decide)).1 rfl
  have hdot : Vroot.IsValidPath dot := ⟨Fsutil.valid_ascii (by decide), Or.inl rfl⟩
  rw [toFsPath_eq]
  by_cases hpe : p = []
  · rw [if_pos hpe]
    exact ⟨fun h => absurd h hnil, fun h => absurd hpe h.1⟩
  · rw [if_neg hpe]
    simp only [ne_eq, hpe, not_false_eq_true, true_and]
    by_cases hc : comps p = []
    · rw [if_pos hc]
      have hl : k = 0 ∧ leadsTo p = [] := by
        rw [hc] at hk
        have := congrArg List.length hk
        simp only [List.length_nil, List.length_append, List.length_replicate] at this
        exact ⟨by omega, List.length_eq_zero_iff.1 (by omega)⟩
      cases ha : isAbs p with
      | true => simp only [if_true, hl.2, not_true_eq_false, iff_false]; exact hnil
      | false =>
        simp only [Bool.false_eq_true, if_false]
        have := hz.1 hl.1
        rw [ha] at this
        exact ⟨fun _ => by simpa using this, fun _ => hdot⟩
    · rw [if_neg hc]
      have hcomp := (comps_normal p).isComp
      have hsp : split (join (comps p)) = comps p := split_join hc fun c h => (hcomp c h).1.2
      have hv : Vroot.IsValidPath (join (comps p)) ↔ k = 0 := by
        constructor
        · rintro ⟨_, h | h⟩
          · have := congrArg split h
            rw [hsp] at this
            exact absurd rfl (hcomp dot (by rw [this]; decide)).2
          · rw [hsp, hk] at h
            cases k with
            | zero => rfl
            | succ k => exact absurd rfl (h dotdot (by simp [List.replicate_succ])).2.2
        · intro h0
          refine ⟨valid_join (valid_comps hp), Or.inr ?_⟩
          rw [hsp, hk, h0]
          intro c h
          have := leadsTo_names p c (by simpa using h)
          exact ⟨this.1.1, this.2.1, this.2.2⟩
      rw [hv, hz]
      cases ha : isAbs p with
      | true =>
        simp only [true_or, if_true, true_iff]
        intro h
        rw [h, hz.2 (Or.inl ha)] at hk
        exact hc hk
      | false => simp

/-- **C97** (one spelling). A name that becomes valid becomes "." or the elements of the place it leads to. -/
theorem C97_canonical (p : Str) (h : Vroot.IsValidPath (toFsPath p)) : toFsPath p = if leadsTo p = [] then dot else join (leadsTo p) := by
  have key := C97_same_place p
  generalize toFsPath p = q at *
  obtain ⟨_, h | h⟩ := h
  · subst h
    rw [← key]
    rfl
  · have hn : ∀ c ∈ split q, IsName c := fun c hc => ⟨⟨(h c hc).1, split_no_slash q c hc⟩, (h c hc).2.1, (h c hc).2.2⟩
    have : leadsTo q = split q := by
      unfold leadsTo
      rw [follow_eq _ [] (by simp), foldl_names _ hn]
      simp
    rw [← key, this, if_neg (split_ne_nil q), join_split]

/-- **C97** (again). Converting a name twice changes nothing more. -/
theorem C97_idempotent (p : Str) : toFsPath (toFsPath p) = toFsPath p := by
  rw [toFsPath_eq p]
  split
  · rfl
  · split
    · split <;> decide
    · rename_i h
      have hn : Normal false (comps p) := by
        have := comps_normal p
        cases ha : isAbs p with
        | false => rw [ha] at this; exact this
        | true =>
          rw [ha] at this
          generalize comps p = cs at this
          cases this with
          | names h => exact .names h
          | up hr _ => cases hr
      have hr : render false (comps p) = join (comps p) := by unfold render; simp [h]
      have hne : join (comps p) ≠ [] := join_ne_nil (fun c hc => (hn.isComp c hc).1) h
      have h1 : comps (join (comps p)) = comps p := by rw [← hr]; exact comps_render hn
      rw [toFsPath_eq, if_neg hne, h1, if_neg h]

/-- **C97** (calls). Every call reaches the filesystem below as the same call with its names converted, each in its place. -/
theorem C97_calls {V : Type} (c : Call V) : SameMethod c (forward c) ∧ (forward c).names = c.names.map toFsPath := by
  cases c <;> exact ⟨by constructor, rfl⟩

/-- **C97** fails for the root given as "/": it becomes the empty name, which is not valid; "." is what it means. -/
theorem C97_counterexample_root : toFsPath ['/'] = [] ∧ leadsTo ['/'] = leadsTo dot ∧ toFsPath dot = dot := by decide

/-- **C97** fails for names with too many "..", although an absolute path with them is made valid. -/
theorem C97_counterexample_up : toFsPath "../a".toList = "../a".toList ∧ toFsPath "/../a".toList = "a".toList ∧ leadsTo "../a".toList = ["a".toList] := by decide

example : toFsPath "/x//./y/../z/".toList = "x/z".toList ∧ toFsPath "./a".toList = "a".toList := by decide

end Verif.Afero.ValidPath
