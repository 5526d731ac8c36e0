import Verif.Vroot.WalkModel
/-
Property C42: what WalkDir visits.
-/
namespace Verif.Vroot.Walk
open Verif.Path

/-! ## Specification -/

/-- What there is to visit: an entry with nothing beneath it, or a directory with the report that listing it failed (if it did) and its entries by name. -/
inductive Node where
  | leaf (v : Visit)
  | dir (v : Visit) (report : Option Visit) (children : List (Str × Node))

/-- Where a visit belongs: the names leading to it from the root.  The report that listing a directory failed counts as a nameless entry of that directory. -/
abbrev Addr := List Str

mutual
/-- All visits of a tree: a directory before its entries, the entries in the order of the listing. -/
def preorder (a : Addr) : Node → List (Addr × Visit)
  | .leaf v => [(a, v)]
  | .dir v report cs => (a, v) :: ((report.toList.map (fun r => (a ++ [[]], r))) ++ preorderAll a cs)
def preorderAll (a : Addr) : List (Str × Node) → List (Addr × Visit)
  | [] => []
  | (d, n) :: rest => preorder (a ++ [d]) n ++ preorderAll a rest
end

def Visit.isDir (v : Visit) : Bool := v.info = some .dir && !v.failed

/-- Which later visits an answer cancels: `SkipDir` on a directory those beneath it, `SkipDir` on anything else those in the same directory, `SkipAll` and errors all. -/
def cancels (x : Addr × Visit) (ans : Answer) (y : Addr) : Bool :=
  match ans with
  | .ok => false
  | .skipDir => if x.2.isDir then decide (x.1 <+: y) else decide (x.1.dropLast <+: y)
  | .skipAll => true
  | .err _ => true

/-- State of the specification: calls made, cancelled places, error to return. -/
structure Spec where
  made : List Visit
  cancelled : Addr → Bool
  result : Answer

/-- The error to return, if the answer is one. -/
def errOr (old : Answer) : Answer → Answer
  | .err n => .err n
  | _ => old

def specStep (fn : Fn) (st : Spec) (x : Addr × Visit) : Spec :=
  if st.cancelled x.1 then st
  else
    let ans := fn st.made x.2
    { made := st.made ++ [x.2], cancelled := fun y => st.cancelled y || cancels x ans y, result := errOr st.result ans }

/-- The calls that ought to be made: every visit, in order, unless an earlier answer cancelled it. -/
def spec (fn : Fn) (l : List (Addr × Visit)) : Spec := l.foldl (specStep fn) ⟨[], fun _ => false, .ok⟩

/-- Two directories, given by path and real path, are the same as far as can be told: the same inode, or, where there are no inodes, the same known real path. -/
def SameDir (w : World) (x y : Str × Str) : Prop :=
  (∃ n, w.ident x.1 x.2 = some n ∧ w.ident y.1 y.2 = some n) ∨ (w.ident x.1 x.2 = none ∧ w.ident y.1 y.2 = none ∧ x.2 ≠ [] ∧ x.2 = y.2)

theorem sameDir_iff (w : World) (x y : Str × Str) : SameDir w x y ↔ ∃ key, keyOf w x.1 x.2 = some key ∧ keyOf w y.1 y.2 = some key := by
  unfold SameDir keyOf
  cases hx : w.ident x.1 x.2 with
  | some n =>
    cases hy : w.ident y.1 y.2 with
    | some m =>
      simp only [Option.some.injEq, reduceCtorEq, false_and, or_false]
      exact ⟨fun ⟨a, h1, h2⟩ => ⟨_, rfl, by rw [h1, h2]⟩, fun ⟨key, h1, h2⟩ => by subst h1; cases h2; exact ⟨n, rfl, rfl⟩⟩
    | none =>
      simp only [reduceCtorEq, and_false, false_and, exists_false, or_false, Option.some.injEq, false_iff]
      rintro ⟨key, h1, h2⟩
      split at h2
      · cases h2
      · rw [← h1] at h2; cases h2
  | none =>
    cases hy : w.ident y.1 y.2 with
    | some m =>
      simp only [reduceCtorEq, and_false, false_and, exists_false, or_false, Option.some.injEq, false_iff]
      rintro ⟨key, h1, h2⟩
      split at h1
      · cases h1
      · rw [← h2] at h1; cases h1
    | none =>
      simp only [reduceCtorEq, false_and, exists_false, true_and, false_or]
      constructor
      · rintro ⟨h1, h2⟩
        exact ⟨.path x.2, by rw [if_neg h1], by rw [if_neg (h2 ▸ h1), h2]⟩
      · rintro ⟨key, h1, h2⟩
        split at h1
        · cases h1
        · rename_i hne
          split at h2
          · cases h2
          · rw [← Option.some.inj h1] at h2; exact ⟨hne, (Key.path.inj (Option.some.inj h2)).symm⟩

/-- The tree below a place, as the filesystem shows it: links followed if asked, directories that are their own ancestors not entered again.
`none` when deeper than `fuel`. -/
def unroll (w : World) (following : Bool) : (fuel : Nat) → (path real : Str) → Kind → (budget : Nat) → (keys : List Key) → Option Node
  | 0, _, _, _, _, _ => none
  | fuel + 1, path, real, kind, budget, keys =>
    let path := clean path
    match follow w following path real kind budget with
    | none => some (.leaf ⟨path, real, if following ∧ kind = .link then w.stat path else some kind, true⟩)
    | some (kind, real, budget) =>
      let v : Visit := ⟨path, real, some kind, false⟩
      let l := w.listing path
      let inside (keys : List Key) : Option Node :=
        (l.1.mapM (fun d => match w.lstat (join2 path d) with
          | none => some (d, Node.leaf ⟨join2 path d, if real = [] then [] else join2 real d, none, true⟩)
          | some k => (unroll w following fuel (join2 path d) (if real = [] then [] else join2 real d) k budget keys).map (fun n => (d, n)))).map
          (fun cs => Node.dir v (if l.2 then none else some ⟨path, real, none, true⟩) cs)
      if kind ≠ .dir then some (.leaf v)
      else match keyOf w path real with
        | none => inside keys
        | some key => if key ∈ keys then some (.leaf v) else inside (key :: keys)

/-! ## The walk of a tree -/

mutual
def walkNode (fn : Fn) : Node → List Visit → List Visit × Answer
  | .leaf v, h => (h ++ [v], match fn h v with | .skipDir => if v.isDir then .ok else .skipDir | a => a)
  | .dir v report cs, h =>
    match fn h v with
    | .ok =>
      match report with
      | none => walkNodes fn cs (h ++ [v])
      | some r => match fn (h ++ [v]) r with
        | .ok => walkNodes fn cs (h ++ [v] ++ [r])
        | .skipDir => (h ++ [v] ++ [r], .ok)
        | a => (h ++ [v] ++ [r], a)
    | .skipDir => (h ++ [v], .ok)
    | a => (h ++ [v], a)
def walkNodes (fn : Fn) : List (Str × Node) → List Visit → List Visit × Answer
  | [], h => (h, .ok)
  | (_, n) :: rest, h => match walkNode fn n h with
    | (h, .ok) => walkNodes fn rest h
    | (h, .skipDir) => (h, .ok)
    | (h, a) => (h, a)
end

/-- Trees whose directories are directories, whose names are distinct and not empty, and where reports are not directories. -/
inductive Sound : Node → Prop
  | leaf (v : Visit) : Sound (.leaf v)
  | dir (v : Visit) (report : Option Visit) (cs : List (Str × Node)) (hv : v.isDir = true) (hr : ∀ r, report = some r → r.isDir = false)
      (hd : (cs.map Prod.fst).Nodup) (hne : ∀ c ∈ cs, c.1 ≠ []) (hcs : ∀ c ∈ cs, Sound c.2) : Sound (.dir v report cs)

mutual
theorem preorder_prefix (a : Addr) : ∀ (n : Node), ∀ x ∈ preorder a n, a <+: x.1
  | .leaf v => by intro x hx; simp [preorder] at hx; subst hx; exact List.prefix_rfl
  | .dir v report cs => by
    intro x hx
    simp only [preorder, List.mem_cons, List.mem_append, List.mem_map] at hx
    rcases hx with rfl | ⟨r, _, rfl⟩ | hx
    · exact List.prefix_rfl
    · exact List.prefix_append _ _
    · obtain ⟨d, _, h⟩ := preorderAll_prefix a cs x hx
      exact (List.prefix_append a [d]).trans h
theorem preorderAll_prefix (a : Addr) : ∀ (cs : List (Str × Node)), ∀ x ∈ preorderAll a cs, ∃ d, d ∈ cs.map Prod.fst ∧ (a ++ [d]) <+: x.1
  | [] => by intro x hx; simp [preorderAll] at hx
  | (d, n) :: rest => by
    intro x hx
    simp only [preorderAll, List.mem_append] at hx
    rcases hx with hx | hx
    · exact ⟨d, by simp, preorder_prefix (a ++ [d]) n x hx⟩
    · obtain ⟨d', h1, h2⟩ := preorderAll_prefix a rest x hx
      exact ⟨d', by simp only [List.map_cons]; exact List.mem_cons_of_mem _ h1, h2⟩
end

/-- Nothing happens for cancelled visits. -/
theorem fold_cancelled (fn : Fn) (l : List (Addr × Visit)) (st : Spec) (h : ∀ x ∈ l, st.cancelled x.1 = true) : l.foldl (specStep fn) st = st := by
  induction l with
  | nil => rfl
  | cons x rest ih =>
    rw [List.foldl_cons, show specStep fn st x = st from by unfold specStep; rw [if_pos (h x List.mem_cons_self)]]
    exact ih (fun y hy => h y (List.mem_cons_of_mem _ hy))

theorem prefix_snoc_disjoint {a : Addr} {d e : Str} {y : Addr} (h1 : (a ++ [d]) <+: y) (h2 : (a ++ [e]) <+: y) : d = e := by
  obtain ⟨t, ht⟩ := h1
  obtain ⟨u, hu⟩ := h2
  rw [← ht] at hu
  have := List.append_cancel_left ((List.append_assoc a [e] u).symm.trans (hu.trans (List.append_assoc a [d] t)))
  simp at this
  exact this.1.symm

/-- What the state of the specification says after the walk of the tree at `a` ended with an answer. -/
def After (a : Addr) (st st' : Spec) : Answer → Prop
  | .ok => (∀ y, ¬ a <+: y → st'.cancelled y = st.cancelled y) ∧ st'.result = st.result
  | .skipDir => (∀ y, ¬ a <+: y → st'.cancelled y = (st.cancelled y || decide (a.dropLast <+: y))) ∧ st'.result = st.result
  | .skipAll => (∀ y, st'.cancelled y = true) ∧ st'.result = st.result
  | .err n => (∀ y, st'.cancelled y = true) ∧ st'.result = .err n

theorem specStep_run (fn : Fn) (st : Spec) (x : Addr × Visit) (h : st.cancelled x.1 = false) :
    specStep fn st x = ⟨st.made ++ [x.2], fun y => st.cancelled y || cancels x (fn st.made x.2) y, errOr st.result (fn st.made x.2)⟩ := by
  unfold specStep
  rw [if_neg (by simp [h])]

mutual
theorem walkNode_spec (fn : Fn) : ∀ (n : Node), Sound n → ∀ (a : Addr) (st : Spec), (∀ y, a <+: y → st.cancelled y = false) →
    ((preorder a n).foldl (specStep fn) st).made = (walkNode fn n st.made).1 ∧
    After a st ((preorder a n).foldl (specStep fn) st) (walkNode fn n st.made).2
  | .leaf v, _, a, st, hst => by
    have h0 := hst a List.prefix_rfl
    simp only [preorder, List.foldl_cons, List.foldl_nil, walkNode]
    rw [specStep_run fn st (a, v) h0]
    refine ⟨rfl, ?_⟩
    cases hans : fn st.made v with
    | ok => simp [After, cancels, errOr]
    | skipAll => simp [After, cancels, errOr]
    | err n => simp [After, cancels, errOr]
    | skipDir =>
      cases hd : v.isDir with
      | true =>
        simp only [if_true, After, cancels, hd]
        refine ⟨?_, rfl⟩
        intro y hy
        simp [hy]
      | false => simp [After, cancels, hd, errOr]
  | .dir v report cs, hs, a, st, hst => by
    cases hs with
    | dir _ _ _ hv hr hd hne hcs =>
      have h0 := hst a List.prefix_rfl
      simp only [preorder, List.foldl_cons, List.foldl_append, walkNode]
      rw [specStep_run fn st (a, v) h0]
      -- everything beneath is cancelled: nothing more happens
      have stop : ∀ st' : Spec, (∀ y, a <+: y → st'.cancelled y = true) →
          (preorderAll a cs).foldl (specStep fn) ((report.toList.map (fun r => (a ++ [[]], r))).foldl (specStep fn) st') = st' := by
        intro st' h
        rw [fold_cancelled fn (report.toList.map (fun r => (a ++ [[]], r))) st' (by
          intro x hx
          simp only [List.mem_map] at hx
          obtain ⟨r, _, rfl⟩ := hx
          exact h _ (List.prefix_append _ _))]
        apply fold_cancelled
        intro x hx
        obtain ⟨d, _, h2⟩ := preorderAll_prefix a cs x hx
        exact h _ ((List.prefix_append a [d]).trans h2)
      cases hans : fn st.made v with
      | skipAll =>
        rw [stop _ (by intro y hy; simp [cancels])]
        simp [After, cancels, errOr]
      | err n =>
        rw [stop _ (by intro y hy; simp [cancels])]
        simp [After, cancels, errOr]
      | skipDir =>
        rw [stop _ (by intro y hy; simp [cancels, hv, hy])]
        refine ⟨rfl, ?_, rfl⟩
        intro y hy
        simp [cancels, hv, hy]
      | ok =>
        simp only [cancels, Bool.or_false, errOr]
        cases report with
        | none =>
          simp only [Option.toList_none, List.map_nil, List.foldl_nil]
          have := walkNodes_spec fn cs hcs hd a ⟨st.made ++ [v], fun y => st.cancelled y, st.result⟩
            (fun y e _ hy => hst y ((List.prefix_append a [e]).trans hy))
          exact ⟨this.1, this.2⟩
        | some r =>
          have hrd := hr r rfl
          simp only [Option.toList_some, List.map_cons, List.map_nil, List.foldl_cons, List.foldl_nil]
          rw [specStep_run fn ⟨st.made ++ [v], fun y => st.cancelled y, st.result⟩ (a ++ [[]], r) (hst _ (List.prefix_append _ _))]
          simp only
          have hcut : ∀ st' : Spec, (∀ y, a <+: y → st'.cancelled y = true) → (preorderAll a cs).foldl (specStep fn) st' = st' := by
            intro st' h
            apply fold_cancelled
            intro x hx
            obtain ⟨d, _, h2⟩ := preorderAll_prefix a cs x hx
            exact h _ ((List.prefix_append a [d]).trans h2)
          cases hans2 : fn (st.made ++ [v]) r with
          | ok =>
            simp only [cancels, Bool.or_false, errOr]
            have := walkNodes_spec fn cs hcs hd a ⟨st.made ++ [v] ++ [r], fun y => st.cancelled y, st.result⟩
              (fun y e _ hy => hst y ((List.prefix_append a [e]).trans hy))
            exact ⟨this.1, this.2⟩
          | skipDir =>
            rw [hcut _ (by intro y hy; simp [cancels, hrd, hy])]
            refine ⟨rfl, ?_, rfl⟩
            intro y hy
            simp [cancels, hrd, hy]
          | skipAll =>
            rw [hcut _ (by intro y hy; simp [cancels])]
            simp [After, cancels, errOr]
          | err n =>
            rw [hcut _ (by intro y hy; simp [cancels])]
            simp [After, cancels, errOr]
theorem walkNodes_spec (fn : Fn) : ∀ (cs : List (Str × Node)), (∀ c ∈ cs, Sound c.2) → (cs.map Prod.fst).Nodup → ∀ (a : Addr) (st : Spec),
    (∀ y, ∀ e ∈ cs.map Prod.fst, (a ++ [e]) <+: y → st.cancelled y = false) →
    ((preorderAll a cs).foldl (specStep fn) st).made = (walkNodes fn cs st.made).1 ∧
    After a st ((preorderAll a cs).foldl (specStep fn) st) (walkNodes fn cs st.made).2
  | [], _, _, a, st, _ => by
    simp [preorderAll, walkNodes, After]
  | (d, n) :: rest, hcs, hd, a, st, hst => by
    simp only [preorderAll, List.foldl_append, walkNodes]
    obtain ⟨h1, h2⟩ := walkNode_spec fn n (hcs (d, n) List.mem_cons_self) (a ++ [d]) st (fun y hy => hst y d (by simp) hy)
    generalize hst1 : (preorder (a ++ [d]) n).foldl (specStep fn) st = st1 at h1 h2
    rcases hw : walkNode fn n st.made with ⟨h', ans⟩
    rw [hw] at h1 h2
    simp only at h1 h2
    rw [List.map_cons, List.nodup_cons] at hd
    have hrest : ∀ x ∈ preorderAll a rest, a <+: x.1 := by
      intro x hx
      obtain ⟨e, _, h⟩ := preorderAll_prefix a rest x hx
      exact (List.prefix_append a [e]).trans h
    have hout : ∀ y, ¬ a <+: y → ¬ (a ++ [d]) <+: y := fun y hy h => hy ((List.prefix_append a [d]).trans h)
    cases ans with
    | ok =>
      simp only
      obtain ⟨h3, h4⟩ := h2
      have := walkNodes_spec fn rest (fun c hc => hcs c (List.mem_cons_of_mem _ hc)) hd.2 a st1 (by
        intro y e he hy
        rw [h3 y (by
          intro hy2
          have := prefix_snoc_disjoint hy hy2
          subst this
          exact hd.1 he)]
        exact hst y e (by simp only [List.map_cons]; exact List.mem_cons_of_mem _ he) hy)
      rw [h1] at this
      refine ⟨this.1, ?_⟩
      generalize walkNodes fn rest h' = w2 at this
      obtain ⟨_, h5⟩ := this
      rcases w2 with ⟨h6, a2⟩
      cases a2 with
      | ok => exact ⟨fun y hy => by rw [h5.1 y hy, h3 y (hout y hy)], by rw [h5.2, h4]⟩
      | skipDir => exact ⟨fun y hy => by rw [h5.1 y hy, h3 y (hout y hy)], by rw [h5.2, h4]⟩
      | skipAll => exact ⟨h5.1, by rw [h5.2, h4]⟩
      | err n => exact h5
    | skipDir =>
      simp only
      obtain ⟨h3, h4⟩ := h2
      have hall : ∀ e ∈ rest.map Prod.fst, ∀ y, (a ++ [e]) <+: y → st1.cancelled y = true := by
        intro e he y hy
        rw [h3 y (by
          intro hy2
          have := prefix_snoc_disjoint hy hy2
          subst this
          exact hd.1 he)]
        have : a <+: y := (List.prefix_append a [e]).trans hy
        simp [this]
      rw [fold_cancelled fn _ st1 (by
        intro x hx
        obtain ⟨e, he, h⟩ := preorderAll_prefix a rest x hx
        exact hall e he _ h)]
      refine ⟨h1, ?_, h4⟩
      intro y hy
      rw [h3 y (hout y hy)]
      simp [hy]
    | skipAll =>
      simp only
      obtain ⟨h3, h4⟩ := h2
      rw [fold_cancelled fn _ st1 (fun x _ => h3 _)]
      exact ⟨h1, h3, h4⟩
    | err m =>
      simp only
      obtain ⟨h3, h4⟩ := h2
      rw [fold_cancelled fn _ st1 (fun x _ => h3 _)]
      exact ⟨h1, h3, h4⟩
end

/-! ## The walk of a filesystem is the walk of its tree -/

/-- What is listed can be inspected, and listings name nothing twice. -/
structure Regular (w : World) : Prop where
  inspect : ∀ p d, d ∈ (w.listing p).1 → w.lstat (join2 p d) ≠ none
  nodup : ∀ p, (w.listing p).1.Nodup
  named : ∀ p, [] ∉ (w.listing p).1

theorem visits_append (a b : List Event) : visits (a ++ b) = visits a ++ visits b := List.filterMap_append ..

theorem visits_visit (a : List Event) (v : Visit) : visits (a ++ [.visit v]) = visits a ++ [v] := by rw [visits_append]; rfl
theorem visits_enter (a : List Event) (p r : Str) : visits (a ++ [.enter p r]) = visits a := by rw [visits_append]; simp [visits]
theorem visits_leave (a : List Event) : visits (a ++ [.leave]) = visits a := by rw [visits_append]; simp [visits]

/-- The tree of one entry of a listing. -/
def childNode (w : World) (rec : Str → Str → Kind → Option Node) (path real d : Str) : Option (Str × Node) :=
  match w.lstat (join2 path d) with
  | none => some (d, Node.leaf ⟨join2 path d, if real = [] then [] else join2 real d, none, true⟩)
  | some k => (rec (join2 path d) (if real = [] then [] else join2 real d) k).map (fun n => (d, n))

/-- The tree of a directory. -/
def dirNode (w : World) (rec : Str → Str → Kind → Option Node) (path real : Str) : Option Node :=
  ((w.listing path).1.mapM (childNode w rec path real)).map
    (fun cs => Node.dir ⟨path, real, some .dir, false⟩ (if (w.listing path).2 then none else some ⟨path, real, none, true⟩) cs)

theorem unroll_succ (w : World) (following : Bool) (fuel : Nat) (path real : Str) (kind : Kind) (budget : Nat) (keys : List Key) :
    unroll w following (fuel + 1) path real kind budget keys =
    (match follow w following (clean path) real kind budget with
    | none => some (.leaf ⟨clean path, real, if following ∧ kind = .link then w.stat (clean path) else some kind, true⟩)
    | some (kind, real, budget) =>
      if kind ≠ .dir then some (.leaf ⟨clean path, real, some kind, false⟩)
      else match keyOf w (clean path) real with
        | none => dirNode w (fun p r k => unroll w following fuel p r k budget keys) (clean path) real
        | some key => if key ∈ keys then some (.leaf ⟨clean path, real, some kind, false⟩)
          else dirNode w (fun p r k => unroll w following fuel p r k budget (key :: keys)) (clean path) real) := by
  conv => lhs; unfold unroll
  cases hf : follow w following (clean path) real kind budget with
  | none => simp only [hf]
  | some x =>
    rcases x with ⟨k', r', b'⟩
    simp only [hf]
    by_cases hk : k' = .dir
    · subst hk; rfl
    · rw [if_pos hk, if_pos hk]

theorem mapM_cons_some {α β : Type} {f : α → Option β} {a : α} {l : List α} {cs : List β} (h : (a :: l).mapM f = some cs) :
    ∃ b bs, f a = some b ∧ l.mapM f = some bs ∧ cs = b :: bs := by
  rw [List.mapM_cons] at h
  cases hb : f a with
  | none => rw [hb] at h; cases h
  | some b =>
    rw [hb] at h
    cases hbs : l.mapM f with
    | none => rw [hbs] at h; cases h
    | some bs => rw [hbs] at h; cases h; exact ⟨b, bs, rfl, rfl, rfl⟩

/-- Walking `p` gives what walking its tree gives. -/
def Agrees (_fn : Fn) (_evs : List Event) (res : Option (List Event × Answer)) (out : List Visit × Answer) : Prop :=
  ∃ evs', res = some (evs', out.2) ∧ visits evs' = out.1

theorem entries_eq {w : World} (hw : Regular w) {fn : Fn} {rec : Str → Str → Kind → List Event → Option (List Event × Answer)} {rec' : Str → Str → Kind → Option Node}
    (hrec : ∀ p r k n, rec' p r k = some n → ∀ evs, Agrees fn evs (rec p r k evs) (walkNode fn n (visits evs))) (path real : Str) :
    ∀ (ds : List Str), (∀ d ∈ ds, d ∈ (w.listing path).1) → ∀ cs, ds.mapM (childNode w rec' path real) = some cs → ∀ evs,
      Agrees fn evs (entries w fn rec path real ds evs) (walkNodes fn cs (visits evs)) := by
  intro ds
  induction ds with
  | nil =>
    intro _ cs h evs
    rw [List.mapM_nil] at h
    cases h
    exact ⟨evs, rfl, rfl⟩
  | cons d rest ih =>
    intro hds cs h evs
    obtain ⟨b, bs, hb, hbs, rfl⟩ := mapM_cons_some h
    unfold childNode at hb
    cases hl : w.lstat (join2 path d) with
    | none => exact absurd hl (hw.inspect path d (hds d List.mem_cons_self))
    | some k =>
      rw [hl] at hb
      simp only at hb
      cases hn : rec' (join2 path d) (if real = [] then [] else join2 real d) k with
      | none => rw [hn] at hb; cases hb
      | some n =>
        rw [hn] at hb
        cases hb
        obtain ⟨evs', h1, h2⟩ := hrec _ _ _ _ hn evs
        unfold entries
        simp only [hl, h1, walkNodes]
        rcases hwn : walkNode fn n (visits evs) with ⟨hh, ans⟩
        rw [hwn] at h1 h2
        simp only at h2
        cases ans with
        | ok =>
          simp only
          rw [← h2]
          exact ih (fun d hd => hds d (List.mem_cons_of_mem _ hd)) bs hbs evs'
        | skipDir => exact ⟨evs', rfl, h2⟩
        | skipAll => exact ⟨evs', rfl, h2⟩
        | err m => exact ⟨evs', rfl, h2⟩

theorem descend_eq {w : World} (hw : Regular w) {fn : Fn} {rec : Str → Str → Kind → List Event → Option (List Event × Answer)} {rec' : Str → Str → Kind → Option Node}
    (hrec : ∀ p r k n, rec' p r k = some n → ∀ evs, Agrees fn evs (rec p r k evs) (walkNode fn n (visits evs))) (path real : Str) (n : Node)
    (hn : dirNode w rec' path real = some n) (evs : List Event) (hok : fn (visits evs) ⟨path, real, some .dir, false⟩ = .ok) :
    Agrees fn evs (descend w fn rec path real (evs ++ [.visit ⟨path, real, some .dir, false⟩])) (walkNode fn n (visits evs)) := by
  unfold dirNode at hn
  cases hcs : (w.listing path).1.mapM (childNode w rec' path real) with
  | none => rw [hcs] at hn; cases hn
  | some cs =>
    rw [hcs] at hn
    simp only [Option.map_some, Option.some.injEq] at hn
    subst hn
    simp only [walkNode, hok]
    unfold descend
    simp only
    have he := entries_eq hw hrec path real _ (fun d hd => hd) cs hcs
    cases hl : (w.listing path).2 with
    | true =>
      simp only [if_true]
      obtain ⟨evs', h1, h2⟩ := he (evs ++ [.visit ⟨path, real, some .dir, false⟩] ++ [.enter path real])
      rw [h1]
      rw [visits_enter, visits_visit] at h1 h2
      exact ⟨evs' ++ [.leave], by rw [visits_enter, visits_visit]; rfl, by rw [visits_leave]; exact h2⟩
    | false =>
      simp only [Bool.false_eq_true, if_false, call]
      rw [visits_enter, visits_visit]
      cases ha : fn (visits evs ++ [⟨path, real, some .dir, false⟩]) ⟨path, real, none, true⟩ with
      | ok =>
        simp only
        obtain ⟨evs', h1, h2⟩ := he (evs ++ [.visit ⟨path, real, some .dir, false⟩] ++ [.enter path real] ++ [.visit ⟨path, real, none, true⟩])
        rw [h1]
        rw [visits_visit, visits_enter, visits_visit] at h1 h2
        exact ⟨evs' ++ [.leave], by rw [visits_visit, visits_enter, visits_visit]; rfl, by rw [visits_leave]; exact h2⟩
      | skipDir => exact ⟨_, rfl, by simp only; rw [visits_leave, visits_visit, visits_enter, visits_visit]⟩
      | skipAll => exact ⟨_, rfl, by simp only; rw [visits_leave, visits_visit, visits_enter, visits_visit]⟩
      | err m => exact ⟨_, rfl, by simp only; rw [visits_leave, visits_visit, visits_enter, visits_visit]⟩

theorem walk_eq {w : World} (hw : Regular w) (following : Bool) (fn : Fn) : ∀ (fuel : Nat) (path real : Str) (kind : Kind) (budget : Nat) (keys : List Key) (n : Node),
    unroll w following fuel path real kind budget keys = some n → ∀ evs,
      Agrees fn evs (walk w following fn fuel path real kind budget keys evs) (walkNode fn n (visits evs)) := by
  intro fuel
  induction fuel with
  | zero => intro path real kind budget keys n h; cases h
  | succ f ih =>
    intro path real kind budget keys n h evs
    rw [unroll_succ] at h
    unfold walk
    simp only
    cases hf : follow w following (clean path) real kind budget with
    | none =>
      rw [hf] at h
      cases h
      simp only [walkNode, Visit.isDir, call]
      refine ⟨_, ?_, visits_visit _ _⟩
      cases fn (visits evs) _ <;> simp
    | some x =>
      rcases x with ⟨k', r', b'⟩
      rw [hf] at h
      simp only at h ⊢
      have leaf : ∀ (_ : n = .leaf ⟨clean path, r', some k', false⟩), ∀ (x : List Event → Option (List Event × Answer)),
          (x (evs ++ [.visit ⟨clean path, r', some k', false⟩]) = some (evs ++ [.visit ⟨clean path, r', some k', false⟩], .ok)) →
          Agrees fn evs (match call fn evs ⟨clean path, r', some k', false⟩ with
            | (evs, .ok) => x evs
            | (evs, .skipDir) => some (evs, if k' = .dir then .ok else .skipDir)
            | (evs, a) => some (evs, a)) (walkNode fn n (visits evs)) := by
        rintro rfl x hx
        simp only [walkNode, call]
        cases ha : fn (visits evs) ⟨clean path, r', some k', false⟩ with
        | ok => exact ⟨_, hx, visits_visit _ _⟩
        | skipDir =>
          refine ⟨_, ?_, visits_visit _ _⟩
          by_cases hk : k' = .dir <;> simp [Visit.isDir, hk]
        | skipAll => exact ⟨_, rfl, visits_visit _ _⟩
        | err m => exact ⟨_, rfl, visits_visit _ _⟩
      by_cases hk : k' = .dir
      · rw [if_neg (by simp [hk])] at h
        subst hk
        have dirc : ∀ (keys' : List Key), dirNode w (fun p r k => unroll w following f p r k b' keys') (clean path) r' = some n →
          Agrees fn evs (match call fn evs ⟨clean path, r', some .dir, false⟩ with
            | (evs, .ok) => descend w fn (fun p r k => walk w following fn f p r k b' keys') (clean path) r' evs
            | (evs, .skipDir) => some (evs, .ok)
            | (evs, a) => some (evs, a)) (walkNode fn n (visits evs)) := by
          intro keys' hd
          simp only [call]
          cases ha : fn (visits evs) ⟨clean path, r', some .dir, false⟩ with
          | ok => exact descend_eq hw (fun p r k n hn evs => ih p r k b' keys' n hn evs) (clean path) r' n hd evs ha
          | _ =>
            unfold dirNode at hd
            cases hcs : (w.listing (clean path)).1.mapM (childNode w (fun p r k => unroll w following f p r k b' keys') (clean path) r') with
            | none => rw [hcs] at hd; cases hd
            | some cs =>
              rw [hcs] at hd
              simp only [Option.map_some, Option.some.injEq] at hd
              subst hd
              simp only [walkNode, ha]
              exact ⟨_, rfl, visits_visit _ _⟩
        cases hkey : keyOf w (clean path) r' with
        | none =>
          rw [hkey] at h
          have := dirc keys h
          simp only [call] at this ⊢
          cases ha : fn (visits evs) ⟨clean path, r', some .dir, false⟩ <;> rw [ha] at this <;> exact this
        | some key =>
          rw [hkey] at h
          simp only at h
          by_cases hm : key ∈ keys
          · rw [if_pos hm] at h
            refine leaf (by cases h; rfl) _ ?_
            simp [hm]
          · rw [if_neg hm] at h
            have := dirc (key :: keys) h
            simp only [call] at this ⊢
            cases ha : fn (visits evs) ⟨clean path, r', some .dir, false⟩ <;> rw [ha] at this <;> simp only [hm, if_false] <;> exact this
      · rw [if_pos hk] at h
        refine leaf (by cases h; rfl) _ ?_
        rw [if_pos hk]

theorem mapM_fst {w : World} {rec : Str → Str → Kind → Option Node} {path real : Str} : ∀ (ds : List Str) (cs : List (Str × Node)),
    ds.mapM (childNode w rec path real) = some cs → cs.map Prod.fst = ds := by
  intro ds
  induction ds with
  | nil => intro cs h; rw [List.mapM_nil] at h; cases h; rfl
  | cons d rest ih =>
    intro cs h
    obtain ⟨b, bs, hb, hbs, rfl⟩ := mapM_cons_some h
    rw [List.map_cons, ih bs hbs]
    congr
    unfold childNode at hb
    split at hb
    · cases hb; rfl
    · rename_i k _
      cases hn : rec (join2 path d) (if real = [] then [] else join2 real d) k with
      | none => rw [hn] at hb; cases hb
      | some n => rw [hn] at hb; cases hb; rfl

theorem mapM_child {w : World} {rec : Str → Str → Kind → Option Node} {path real : Str} : ∀ (ds : List Str) (cs : List (Str × Node)),
    ds.mapM (childNode w rec path real) = some cs → ∀ c ∈ cs, childNode w rec path real c.1 = some c ∧ c.1 ∈ ds := by
  intro ds
  induction ds with
  | nil => intro cs h c hc; rw [List.mapM_nil] at h; cases h; simp at hc
  | cons d rest ih =>
    intro cs h c hc
    have hf := mapM_fst _ _ h
    obtain ⟨b, bs, hb, hbs, rfl⟩ := mapM_cons_some h
    rcases List.mem_cons.1 hc with rfl | hc
    · rw [List.map_cons, List.cons.injEq] at hf
      rw [hf.1]; exact ⟨hb, List.mem_cons_self⟩
    · obtain ⟨h1, h2⟩ := ih bs hbs c hc
      exact ⟨h1, List.mem_cons_of_mem _ h2⟩

theorem unroll_sound {w : World} (hw : Regular w) (following : Bool) : ∀ (fuel : Nat) (path real : Str) (kind : Kind) (budget : Nat) (keys : List Key) (n : Node),
    unroll w following fuel path real kind budget keys = some n → Sound n := by
  intro fuel
  induction fuel with
  | zero => intro path real kind budget keys n h; cases h
  | succ f ih =>
    intro path real kind budget keys n h
    rw [unroll_succ] at h
    have dirc : ∀ b' keys' r', dirNode w (fun p r k => unroll w following f p r k b' keys') (clean path) r' = some n → Sound n := by
      intro b' keys' r' hd
      unfold dirNode at hd
      cases hcs : (w.listing (clean path)).1.mapM (childNode w (fun p r k => unroll w following f p r k b' keys') (clean path) r') with
      | none => rw [hcs] at hd; cases hd
      | some cs =>
        rw [hcs] at hd
        simp only [Option.map_some, Option.some.injEq] at hd
        subst hd
        have hfst := mapM_fst _ _ hcs
        refine .dir _ _ _ rfl ?_ (by rw [hfst]; exact hw.nodup _) ?_ ?_
        · intro r hr
          split at hr
          · cases hr
          · cases hr; rfl
        · intro c hc h0
          have : c.1 ∈ cs.map Prod.fst := List.mem_map_of_mem hc
          rw [hfst, h0] at this
          exact hw.named _ this
        · intro c hc
          obtain ⟨h1, _⟩ := mapM_child _ _ hcs c hc
          unfold childNode at h1
          split at h1
          · have := congrArg (Option.map Prod.snd) h1
            simp at this
            rw [← this]
            exact .leaf _
          · rename_i k _
            cases hn : unroll w following f (join2 (clean path) c.1) (if r' = [] then [] else join2 r' c.1) k b' keys' with
            | none => simp only [hn] at h1; cases h1
            | some m =>
              simp only [hn] at h1
              have := congrArg (Option.map Prod.snd) h1
              simp at this
              rw [← this]
              exact ih _ _ _ _ _ _ hn
    split at h
    · cases h; exact .leaf _
    · split at h
      · cases h; exact .leaf _
      · split at h
        · exact dirc _ _ _ h
        · split at h
          · cases h; exact .leaf _
          · exact dirc _ _ _ h

/-- **C42 (partial).** For every filesystem in which what is listed can be inspected (no entry disappears between listing and inspection), every callback, with and
without following links: if there is a finite tree to visit, the calls WalkDir makes are exactly the visits of that tree in order, each once, except those cancelled by an earlier
answer; and the error returned is the error answered.  What is missing: entries whose inspection fails, see the counterexamples. -/
theorem C42_visits_partial (w : World) (hw : Regular w) (following : Bool) (fn : Fn) (fuel : Nat) (root : Str) (k : Kind) (hroot : w.lstat root = some k) (tree : Node)
    (htree : unroll w following fuel root root k 40 [] = some tree) :
    ∃ evs, walkDir w following fn fuel root = some (evs, (spec fn (preorder [] tree)).result) ∧ visits evs = (spec fn (preorder [] tree)).made := by
  obtain ⟨evs, h1, h2⟩ := walk_eq hw following fn fuel root root k 40 [] tree htree []
  obtain ⟨h3, h4⟩ := walkNode_spec fn tree (unroll_sound hw following _ _ _ _ _ _ _ htree) [] ⟨[], fun _ => false, .ok⟩ (by intro y _; rfl)
  refine ⟨evs, ?_, ?_⟩
  · unfold walkDir
    simp only [hroot, h1, Option.map_some, Option.some.injEq, Prod.mk.injEq, true_and]
    have h4' : After [] ⟨[], fun _ => false, .ok⟩ (spec fn (preorder [] tree)) (walkNode fn tree (visits [])).2 := h4
    generalize (walkNode fn tree (visits [])).2 = a at h4'
    cases a with
    | ok => exact h4'.2.symm
    | skipDir => exact h4'.2.symm
    | skipAll => exact h4'.2.symm
    | err m => exact h4'.2.symm
  · rw [h2]; exact h3.symm

/-! ## Without following links: the tree is what the filesystem holds -/

/-- An entry: a chain of listed names from the place `(path, real)` of kind `k`, through directories. -/
inductive Below (w : World) : Str → Str → Kind → Addr → Str → Str → Kind → Prop
  | here (p r : Str) (k : Kind) : Below w p r k [] p r k
  | down {p r d : Str} {k' k'' : Kind} {a : Addr} {p'' r'' : Str} (hd : d ∈ (w.listing p).1) (hl : w.lstat (join2 p d) = some k')
      (h : Below w (join2 p d) (if r = [] then [] else join2 r d) k' a p'' r'' k'') : Below w p r .dir (d :: a) p'' r'' k''

/-- What is to be visited below a place: every entry, and for directories that cannot be listed (completely) a report. -/
def Shown (w : World) (p r : Str) (k : Kind) (a : Addr) (v : Visit) : Prop :=
  (∃ p' r' k', Below w p r k a p' r' k' ∧ v = ⟨p', r', some k', false⟩) ∨
  (∃ b p' r', a = b ++ [[]] ∧ Below w p r k b p' r' .dir ∧ (w.listing p').2 = false ∧ v = ⟨p', r', none, true⟩)

/-- No directory is its own ancestor, as far as inodes or real paths tell. -/
def NoRepeat (w : World) (p r : Str) (k : Kind) : Prop :=
  ∀ a p' r' b p'' r'', Below w p r k a p' r' .dir → Below w p' r' .dir b p'' r'' .dir → b ≠ [] → ¬ SameDir w (p', r') (p'', r'')

theorem Below.trans {w : World} {p r : Str} {k : Kind} {a : Addr} {p' r' : Str} {k' : Kind} (h : Below w p r k a p' r' k') {b : Addr} {p'' r'' : Str} {k'' : Kind}
    (h2 : Below w p' r' k' b p'' r'' k'') : Below w p r k (a ++ b) p'' r'' k'' := by
  induction h with
  | here => exact h2
  | down hd hl _ ih => exact .down hd hl (ih h2)

mutual
theorem preorder_shift (a : Addr) : ∀ (n : Node) (b : Addr), preorder (a ++ b) n = (preorder b n).map (fun x => (a ++ x.1, x.2))
  | .leaf v, b => by simp [preorder]
  | .dir v report cs, b => by
    simp only [preorder, List.map_cons, List.map_append, preorderAll_shift a cs b]
    congr 2
    cases report <;> simp
theorem preorderAll_shift (a : Addr) : ∀ (cs : List (Str × Node)) (b : Addr), preorderAll (a ++ b) cs = (preorderAll b cs).map (fun x => (a ++ x.1, x.2))
  | [], b => by simp [preorderAll]
  | (d, n) :: rest, b => by
    simp only [preorderAll, List.map_append, preorderAll_shift a rest b]
    rw [List.append_assoc, preorder_shift a n (b ++ [d])]
end

theorem mem_preorderAll (cs : List (Str × Node)) (a : Addr) (v : Visit) :
    (a, v) ∈ preorderAll [] cs ↔ ∃ c ∈ cs, ∃ b, a = c.1 :: b ∧ (b, v) ∈ preorder [] c.2 := by
  induction cs with
  | nil => simp [preorderAll]
  | cons c rest ih =>
    rcases c with ⟨d, n⟩
    have hs := preorder_shift [d] n []
    simp only [List.append_nil] at hs
    simp only [preorderAll, List.nil_append, List.mem_append, ih, hs, List.mem_map, Prod.mk.injEq]
    constructor
    · rintro (⟨⟨b, v'⟩, h1, h2, h3⟩ | ⟨c, hc, h⟩)
      · simp only at h2 h3
        subst h3
        exact ⟨(d, n), List.mem_cons_self, b, h2.symm, h1⟩
      · exact ⟨c, List.mem_cons_of_mem _ hc, h⟩
    · rintro ⟨c, hc, b, h1, h2⟩
      rcases List.mem_cons.1 hc with rfl | hc
      · left; exact ⟨(b, v), h2, h1.symm, rfl⟩
      · right; exact ⟨c, hc, b, h1, h2⟩

theorem mapM_child_mem {w : World} {rec : Str → Str → Kind → Option Node} {path real : Str} : ∀ (ds : List Str) (cs : List (Str × Node)),
    ds.mapM (childNode w rec path real) = some cs → ∀ d ∈ ds, ∃ n, (d, n) ∈ cs ∧ childNode w rec path real d = some (d, n) := by
  intro ds cs h d hd
  have hf := mapM_fst _ _ h
  rw [← hf] at hd
  obtain ⟨⟨d', n⟩, hc, rfl⟩ := List.mem_map.1 hd
  exact ⟨n, hc, (mapM_child _ _ h _ hc).1⟩

theorem clean_join2_any {p : Str} (hp : p ≠ []) (d : Str) : clean (join2 p d) = join2 p d := by
  unfold join2
  rw [if_neg (fun h => hp h.1), if_neg hp]
  split <;> exact clean_clean _

theorem unroll_shown {w : World} (hw : Regular w) : ∀ (fuel : Nat) (path real : Str) (kind : Kind) (budget : Nat) (keys : List Key) (n : Node), clean path = path →
    (∀ a p' r' key, Below w path real kind a p' r' .dir → keyOf w p' r' = some key → key ∉ keys) → NoRepeat w path real kind →
    unroll w false fuel path real kind budget keys = some n → ∀ a v, (a, v) ∈ preorder [] n ↔ Shown w path real kind a v := by
  intro fuel
  induction fuel with
  | zero => intro path real kind budget keys n _ _ _ h; cases h
  | succ f ih =>
    intro path real kind budget keys n hcl hkeys hnr h a v
    rw [unroll_succ, hcl] at h
    have hfol : follow w false path real kind budget = some (kind, real, budget) := by simp [follow]
    rw [hfol] at h
    simp only at h
    by_cases hk : kind = .dir
    · subst hk
      rw [if_neg (by simp)] at h
      have dirc : ∀ keys', (∀ a p' r' key, a ≠ [] → Below w path real .dir a p' r' .dir → keyOf w p' r' = some key → key ∉ keys') →
          dirNode w (fun p r k => unroll w false f p r k budget keys') path real = some n → ((a, v) ∈ preorder [] n ↔ Shown w path real .dir a v) := by
        intro keys' hkeys' hd
        unfold dirNode at hd
        cases hcs : (w.listing path).1.mapM (childNode w (fun p r k => unroll w false f p r k budget keys') path real) with
        | none => rw [hcs] at hd; cases hd
        | some cs =>
          rw [hcs] at hd
          simp only [Option.map_some, Option.some.injEq] at hd
          subst hd
          simp only [preorder, List.mem_cons, List.mem_append, Prod.mk.injEq, List.nil_append, mem_preorderAll]
          -- the tree of an entry
          have child : ∀ d m k', w.lstat (join2 path d) = some k' → d ∈ (w.listing path).1 →
              unroll w false f (join2 path d) (if real = [] then [] else join2 real d) k' budget keys' = some m →
              ∀ b v, (b, v) ∈ preorder [] m ↔ Shown w (join2 path d) (if real = [] then [] else join2 real d) k' b v := by
            intro d m k' hl hd hm b v
            refine ih _ _ _ _ _ _ (clean_join2_any (by rw [← hcl]; exact clean_ne_nil _) d) ?_ ?_ hm b v
            · intro a p' r' key hb hkey
              exact hkeys' (d :: a) p' r' key (by simp) (.down hd hl hb) hkey
            · intro a p' r' b p'' r'' hb hb2 hne
              exact hnr (d :: a) p' r' b p'' r'' (.down hd hl hb) hb2 hne
          constructor
          · rintro (⟨rfl, rfl⟩ | h | ⟨c, hc, b, rfl, hb⟩)
            · left; exact ⟨path, real, .dir, .here _ _ _, rfl⟩
            · right
              split at h
              · simp at h
              · rename_i hlist
                simp at h
                obtain ⟨rfl, rfl⟩ := h
                exact ⟨[], path, real, rfl, .here _ _ _, by simpa using hlist, rfl⟩
            · obtain ⟨h1, h2⟩ := mapM_child _ _ hcs c hc
              unfold childNode at h1
              cases hl : w.lstat (join2 path c.1) with
              | none => exact absurd hl (hw.inspect path c.1 h2)
              | some k' =>
                rw [hl] at h1
                simp only at h1
                cases hn : unroll w false f (join2 path c.1) (if real = [] then [] else join2 real c.1) k' budget keys' with
                | none => rw [hn] at h1; cases h1
                | some m =>
                  rw [hn] at h1
                  have hm : m = c.2 := by
                    have := congrArg (Option.map Prod.snd) h1
                    simpa using this
                  subst hm
                  rcases (child c.1 _ k' hl h2 hn b v).1 hb with ⟨p', r', k'', hb', rfl⟩ | ⟨b', p', r', rfl, hb', hlist, rfl⟩
                  · left; exact ⟨p', r', k'', .down h2 hl hb', rfl⟩
                  · right; exact ⟨c.1 :: b', p', r', rfl, .down h2 hl hb', hlist, rfl⟩
          · intro hs
            rcases hs with ⟨p', r', k'', hb, rfl⟩ | ⟨b, p', r', rfl, hb, hlist, rfl⟩
            · cases hb with
              | here => left; exact ⟨rfl, rfl⟩
              | @down _ _ d k' _ a' _ _ hd hl hb' =>
                right; right
                obtain ⟨m, hmem, hm⟩ := mapM_child_mem _ _ hcs d hd
                refine ⟨(d, m), hmem, a', rfl, ?_⟩
                unfold childNode at hm
                rw [hl] at hm
                simp only at hm
                cases hn : unroll w false f (join2 path d) (if real = [] then [] else join2 real d) k' budget keys' with
                | none => rw [hn] at hm; cases hm
                | some m' =>
                  rw [hn] at hm
                  simp at hm
                  subst hm
                  exact (child d _ k' hl hd hn a' _).2 (Or.inl ⟨p', r', k'', hb', rfl⟩)
            · cases hb with
              | here =>
                right; left
                rw [if_neg (by simp [hlist])]
                simp
              | @down _ _ d k' _ a' _ _ hd hl hb' =>
                right; right
                obtain ⟨m, hmem, hm⟩ := mapM_child_mem _ _ hcs d hd
                refine ⟨(d, m), hmem, a' ++ [[]], rfl, ?_⟩
                unfold childNode at hm
                rw [hl] at hm
                simp only at hm
                cases hn : unroll w false f (join2 path d) (if real = [] then [] else join2 real d) k' budget keys' with
                | none => rw [hn] at hm; cases hm
                | some m' =>
                  rw [hn] at hm
                  simp at hm
                  subst hm
                  exact (child d _ k' hl hd hn _ _).2 (Or.inr ⟨a', p', r', rfl, hb', hlist, rfl⟩)
      cases hkey : keyOf w path real with
      | none =>
        rw [hkey] at h
        exact dirc keys (fun a p' r' key _ hb hk => hkeys a p' r' key hb hk) h
      | some key =>
        rw [hkey] at h
        simp only at h
        rw [if_neg (hkeys [] path real key (.here _ _ _) hkey)] at h
        refine dirc (key :: keys) ?_ h
        intro a p' r' key' hne hb hk hmem
        rcases List.mem_cons.1 hmem with rfl | hmem
        · exact hnr [] path real a p' r' (.here _ _ _) hb hne ((sameDir_iff ..).2 ⟨_, hkey, hk⟩)
        · exact hkeys a p' r' key' hb hk hmem
    · rw [if_pos hk] at h
      simp only [Option.some.injEq] at h
      subst h
      simp only [preorder, List.mem_cons, List.not_mem_nil, or_false, Prod.mk.injEq]
      constructor
      · rintro ⟨rfl, rfl⟩
        left; exact ⟨path, real, kind, .here _ _ _, rfl⟩
      · rintro (⟨p', r', k'', hb, rfl⟩ | ⟨b, p', r', rfl, hb, hlist, rfl⟩)
        · cases hb with
          | here => exact ⟨rfl, rfl⟩
          | down => exact absurd rfl hk
        · cases hb with
          | here => exact absurd rfl hk
          | down => exact absurd rfl hk

/-- **C42, the tree is complete.** Without following links, in a filesystem without loops, the visits of the tree are exactly the entries reachable by listed names
from the root, with their paths, real paths and kinds, and one report per directory whose listing failed. -/
theorem C42_tree_complete_partial (w : World) (hw : Regular w) (fuel : Nat) (root : Str) (hcl : clean root = root) (k : Kind) (_hroot : w.lstat root = some k)
    (hnr : NoRepeat w root root k) (tree : Node) (htree : unroll w false fuel root root k 40 [] = some tree) (a : Addr) (v : Visit) :
    (a, v) ∈ preorder [] tree ↔ Shown w root root k a v :=
  unroll_shown hw fuel root root k 40 [] tree hcl (fun _ _ _ _ _ _ h => by simp at h) hnr htree a v

mutual
theorem preorder_nodup (a : Addr) : ∀ (n : Node), Sound n → ((preorder a n).map Prod.fst).Nodup
  | .leaf v, _ => by simp [preorder]
  | .dir v report cs, hs => by
    cases hs with
    | dir _ _ _ hv hr hd hne hcs =>
      simp only [preorder, List.map_cons, List.map_append, List.map_map]
      have hcs' := preorderAll_nodup a cs hcs hd
      have hself : ∀ x ∈ (preorderAll a cs).map Prod.fst, ∃ d, d ≠ [] ∧ (a ++ [d]) <+: x := by
        intro x hx
        obtain ⟨y, hy, rfl⟩ := List.mem_map.1 hx
        obtain ⟨d, h1, h2⟩ := preorderAll_prefix a cs y hy
        obtain ⟨c, hc, rfl⟩ := List.mem_map.1 h1
        exact ⟨c.1, hne c hc, h2⟩
      rw [List.nodup_cons]
      constructor
      · intro h
        rcases List.mem_append.1 h with h | h
        · simp at h
        · obtain ⟨d, _, t, ht⟩ := hself _ h
          have := congrArg List.length ht
          simp at this
      · rw [List.nodup_append]
        refine ⟨by cases report <;> simp, hcs', ?_⟩
        intro x hx y hy heq
        subst heq
        obtain ⟨d, hd1, hd2⟩ := hself _ hy
        cases report with
        | none => simp at hx
        | some r =>
          simp at hx
          subst hx
          exact hd1 (prefix_snoc_disjoint hd2 List.prefix_rfl)
theorem preorderAll_nodup (a : Addr) : ∀ (cs : List (Str × Node)), (∀ c ∈ cs, Sound c.2) → (cs.map Prod.fst).Nodup → ((preorderAll a cs).map Prod.fst).Nodup
  | [], _, _ => by simp [preorderAll]
  | (d, n) :: rest, hcs, hd => by
    rw [List.map_cons, List.nodup_cons] at hd
    simp only [preorderAll, List.map_append]
    rw [List.nodup_append]
    refine ⟨preorder_nodup (a ++ [d]) n (hcs (d, n) List.mem_cons_self), preorderAll_nodup a rest (fun c hc => hcs c (List.mem_cons_of_mem _ hc)) hd.2, ?_⟩
    intro x hx y hy heq
    subst heq
    obtain ⟨x1, hx1, rfl⟩ := List.mem_map.1 hx
    obtain ⟨y1, hy1, hxy⟩ := List.mem_map.1 hy
    obtain ⟨e, he, h2⟩ := preorderAll_prefix a rest y1 hy1
    have h1 := preorder_prefix (a ++ [d]) n x1 hx1
    rw [← hxy] at h1
    have := prefix_snoc_disjoint h1 h2
    subst this
    exact hd.1 he
end

/-- **C42, each once.** No place is visited twice. -/
theorem C42_once (w : World) (hw : Regular w) (following : Bool) (fuel : Nat) (root : Str) (k : Kind) (tree : Node)
    (htree : unroll w following fuel root root k 40 [] = some tree) : ((preorder [] tree).map Prod.fst).Nodup :=
  preorder_nodup [] tree (unroll_sound hw following _ _ _ _ _ _ _ htree)

/-! ## Examples -/

/-- A directory "r" holding "a" (a directory holding the file "x") and "b" (a file). -/
def sample : World where
  lstat := fun p => if p = ['r'] ∨ p = ['r', '/', 'a'] then some .dir else if p = ['r', '/', 'b'] ∨ p = ['r', '/', 'a', '/', 'x'] then some .file else none
  stat := fun p => if p = ['r'] ∨ p = ['r', '/', 'a'] then some .dir else if p = ['r', '/', 'b'] ∨ p = ['r', '/', 'a', '/', 'x'] then some .file else none
  resolve := fun _ _ => none
  listing := fun p => if p = ['r'] then ([['a'], ['b']], true) else if p = ['r', '/', 'a'] then ([['x']], true) else ([], false)
  ident := fun _ _ => none

def paths (r : Option (List Event × Answer)) : Option (List Str × Answer) := r.map (fun x => ((visits x.1).map Visit.path, x.2))

/-- Everything is visited in order; skipping "a" leaves out "a/x"; skipping at "a/x" leaves out nothing but goes on with "b". -/
example : paths (walkDir sample false (fun _ _ => .ok) 5 ['r']) = some ([['r'], ['r', '/', 'a'], ['r', '/', 'a', '/', 'x'], ['r', '/', 'b']], .ok) ∧
    paths (walkDir sample false (fun _ v => if v.path = ['r', '/', 'a'] then .skipDir else .ok) 5 ['r']) = some ([['r'], ['r', '/', 'a'], ['r', '/', 'b']], .ok) ∧
    paths (walkDir sample false (fun _ v => if v.path = ['r', '/', 'a', '/', 'x'] then .err 3 else .ok) 5 ['r']) =
      some ([['r'], ['r', '/', 'a'], ['r', '/', 'a', '/', 'x']], .err 3) := by decide +kernel

theorem sample_regular : Regular sample := by
  have h1 : ∀ p, (sample.listing p).1 = if p = ['r'] then [['a'], ['b']] else if p = ['r', '/', 'a'] then [['x']] else [] := by
    intro p
    show (if p = ['r'] then ([['a'], ['b']], true) else if p = ['r', '/', 'a'] then ([['x']], true) else ([], false)).1 = _
    split
    · rfl
    · split <;> rfl
  constructor
  · intro p d hd
    rw [h1] at hd
    split at hd
    · rename_i hp; subst hp
      simp at hd
      rcases hd with rfl | rfl <;> decide
    · split at hd
      · rename_i hp; subst hp
        simp at hd
        subst hd; decide
      · simp at hd
  · intro p
    rw [h1]
    split
    · decide
    · split <;> decide
  · intro p
    rw [h1]
    split
    · decide
    · split <;> decide

/-- The hypotheses of the theorem hold for it, with a tree of four visits. -/
example : ∃ tree, unroll sample false 5 ['r'] ['r'] .dir 40 [] = some tree ∧ (preorder [] tree).length = 4 := by
  refine ⟨_, rfl, ?_⟩
  decide +kernel

/-- The same with "a" vanishing between the listing and its inspection. -/
def vanishing : World := { sample with lstat := fun p => if p = ['r', '/', 'a'] then none else sample.lstat p }

/-- **C42 does not hold when an entry cannot be inspected:** the function is told, answers nil, and the remaining entry "b" is never visited. -/
theorem C42_counterexample_hidden_sibling :
    paths (walkDir vanishing false (fun _ _ => .ok) 5 ['r']) = some ([['r'], ['r', '/', 'a']], .ok) ∧ vanishing.lstat ['r', '/', 'b'] = some .file ∧
    ['b'] ∈ (vanishing.listing ['r']).1 := by decide +kernel

/-- "r" holds the directory "a" (holding "x", which cannot be inspected) and the file "b". -/
def vanishing2 : World := { sample with lstat := fun p => if p = ['r', '/', 'a', '/', 'x'] then none else sample.lstat p }

/-- **Nor does `SkipDir` for such an entry only skip its directory:** answered for "a/x", it also hides "b". -/
theorem C42_counterexample_skip_too_much :
    paths (walkDir vanishing2 false (fun _ v => if v.failed then .skipDir else .ok) 5 ['r']) = some ([['r'], ['r', '/', 'a'], ['r', '/', 'a', '/', 'x']], .ok) := by decide +kernel

end Verif.Vroot.Walk
