import Verif.Fsutil.CopyPathModel
import Verif.Fsutil.CopyOver
import Verif.Tarfs.TreeLemmas
/-
C70: `CopyPath` copies the named entries and the directories above them, and nothing else.
-/
namespace Verif.Fsutil.Copy
open Verif.Path Verif.Prog

/-! ### paths -/

mutual
theorem Node.look_eq : ∀ (n : Node) (p : List Str), n.look p = n.find p
  | .mk ent _, [] => by rw [Node.look, Node.find]
  | .mk (.dir _) kids, c :: p => by rw [Node.look, Node.find]; exact Kids.look_eq kids c p
  | .mk (.file _ _) _, _ :: _ => by simp [Node.look, Node.find]
  | .mk (.link _) _, _ :: _ => by simp [Node.look, Node.find]
  | .mk .other _, _ :: _ => by simp [Node.look, Node.find]
theorem Kids.look_eq : ∀ (ks : Kids) (c : Str) (p : List Str), ks.look c p = ks.find c p
  | .nil, _, _ => by rw [Kids.look, Kids.find]
  | .cons name n rest, c, p => by rw [Kids.look, Kids.find, Node.look_eq n p, Kids.look_eq rest c p]
end

theorem validPath_names {p : Str} (h : Tarfs.validPath p = true) : p ≠ [] ∧ isAbs p = false ∧ ∀ c ∈ comps p, IsName c := by
  unfold Tarfs.validPath at h
  simp only [Bool.or_eq_true, decide_eq_true_eq, List.all_eq_true] at h
  rcases h with rfl | h
  · exact ⟨by decide, by decide, by decide⟩
  · refine ⟨?_, ?_, comps_no_dots p (fun c hc => (h c hc).2)⟩
    · rintro rfl; exact (h [] (by simp [split])).1 rfl
    · cases p with
      | nil => rfl
      | cons a s =>
        unfold isAbs
        simp only [List.head?_cons, decide_eq_false_iff_not, Option.some.injEq]
        intro ha
        subst ha
        have := (h [] (by rw [show slash :: s = [] ++ slash :: s by rfl, split_append_slash (by simp)]; simp)).1
        exact this rfl

theorem normal_append {R cp : List Str} (hR : Normal false R) (h : ∀ c ∈ cp, IsName c) : Normal false (R ++ cp) := by
  induction cp generalizing R with
  | nil => simpa using hR
  | cons c cp ih =>
    rw [show R ++ c :: cp = (R ++ [c]) ++ cp by simp]
    exact ih (hR.snoc (h c (by simp))) (fun x hx => h x (by simp [hx]))

/-- The destination of a valid path. -/
theorem join2_valid {root p : Str} (habs : isAbs root = false) (hp : p ≠ [] ∧ isAbs p = false ∧ ∀ c ∈ comps p, IsName c) (hroot : root ≠ []) :
    join2 root p = render false (comps root ++ comps p) := by
  have h := comps_dst (root := root) hp.1 hp.2.1 hp.2.2
  have hc : clean (join2 root p) = join2 root p := by
    unfold join2
    rw [if_neg (by simp [hroot]), if_neg hroot, if_neg hp.1, clean_clean]
  have ha : isAbs (join2 root p) = false := by
    unfold join2
    rw [if_neg (by simp [hroot]), if_neg hroot, if_neg hp.1, isAbs_clean]
    rw [List.append_cons, List.append_assoc, isAbs_append hroot, habs]
  rw [← hc]
  unfold clean
  rw [h, ha]

theorem dir_dot : dir dot = dot := by decide

theorem dropLast_of_concat {D : List Str} {x : Str} : (D ++ [x]).dropLast = D := by simp

/-- The directories above an entry: the proper prefixes of its place. -/
theorem parents_eq {root p : Str} (habs : isAbs root = false) (hp : p ≠ [] ∧ isAbs p = false ∧ ∀ c ∈ comps p, IsName c) (hroot : root ≠ []) :
    parents root p = (List.range (comps root ++ comps p).dropLast.length).map (fun i => render false ((comps root ++ comps p).dropLast.take (i + 1))) := by
  have hN := normal_append (R := comps root) (by have := comps_normal root; rwa [habs] at this) hp.2.2
  unfold parents
  rw [join2_valid habs hp hroot]
  rcases List.eq_nil_or_concat (comps root ++ comps p) with h | ⟨D, x, h⟩
  · rw [h]; decide
  · rw [List.concat_eq_append] at h
    rw [h] at hN ⊢
    rw [dir_render hN, dropLast_of_concat]
    have hD := hN.init
    by_cases hDn : D = []
    · subst hDn; decide
    · have hnd : render false D ≠ dot := by
        intro hd
        have := comps_render hD
        rw [hd] at this
        exact hDn (by rw [← this]; decide)
      simp only [if_neg hnd]
      rw [C31_from_head]
      unfold prefixes
      rw [comps_render hD, isAbs_render hD]
      simp [hDn]

theorem mem_parents {root p : Str} (habs : isAbs root = false) (hp : p ≠ [] ∧ isAbs p = false ∧ ∀ c ∈ comps p, IsName c) (hroot : root ≠ []) {d : Str} :
    d ∈ parents root p ↔ ∃ E, E ≠ [] ∧ E <+: (comps root ++ comps p).dropLast ∧ d = render false E := by
  rw [parents_eq habs hp hroot]
  simp only [List.mem_map, List.mem_range]
  constructor
  · rintro ⟨i, hi, rfl⟩
    refine ⟨_, ?_, List.take_prefix _ _, rfl⟩
    intro h
    have := congrArg List.length h
    rw [List.length_take] at this
    simp only [List.length_nil] at this
    omega
  · rintro ⟨E, hE, hpre, rfl⟩
    have hl := hpre.length_le
    have hpos : 0 < E.length := List.length_pos_iff.2 hE
    refine ⟨E.length - 1, by omega, ?_⟩
    rw [show E.length - 1 + 1 = E.length by omega, ← List.prefix_iff_eq_take.1 hpre]

theorem stripCommon_left : ∀ (R q : List Str), stripCommon R (R ++ q) = ([], q)
  | [], q => by cases q <;> rfl
  | r :: R, q => by simp only [List.cons_append, stripCommon, if_true]; exact stripCommon_left R q

theorem stripCommon_right : ∀ (E q : List Str), stripCommon (E ++ q) E = (q, [])
  | [], q => by cases q <;> rfl
  | r :: E, q => by simp only [List.cons_append, stripCommon, if_true]; exact stripCommon_right E q

theorem relTo_below {root : Str} {q : List Str} (hN : Normal false (comps root ++ q)) : relTo root (render false (comps root ++ q)) = some (render false q) := by
  unfold relTo
  rw [comps_render hN, stripCommon_left]
  rfl

/-- The relative path of a directory strictly above the root is refused by the source, if it is computed at all. -/
theorem relTo_above {root : Str} {E q : List Str} (hR : comps root = E ++ q) (hq : q ≠ []) (hN : Normal false E) :
    relTo root (render false E) = none ∨ ∃ r, relTo root (render false E) = some r ∧ r ≠ dot ∧ Tarfs.validPath r = false := by
  unfold relTo
  rw [comps_render hN, hR, stripCommon_right]
  simp only [List.append_nil]
  split
  · exact Or.inl rfl
  · right
    refine ⟨_, rfl, ?_, ?_⟩
    · intro h
      cases q with
      | nil => exact hq rfl
      | cons a q =>
        unfold render at h
        simp only [Bool.false_eq_true, if_false, List.map_cons, if_neg (List.cons_ne_nil _ _)] at h
        have := congrArg List.head? h
        cases q with
        | nil => simp only [List.map_nil, join] at h; exact absurd h (by decide)
        | cons b q =>
          have := congrArg List.length h
          simp [join, dotdot, dot] at this
    · cases hv : Tarfs.validPath (render false (q.map fun _ => dotdot)) with
      | false => rfl
      | true =>
        exfalso
        have h1 := (validPath_names hv).2.2
        have hn : ∀ q : List Str, Normal false (q.map fun _ => dotdot) := by
          intro q
          induction q with
          | nil => exact .names (by simp)
          | cons _ q ih => exact .up rfl ih
        rw [comps_render (hn q)] at h1
        cases q with
        | nil => exact hq rfl
        | cons a q => exact (h1 dotdot (by simp)).2.2 rfl

mutual
theorem Node.find_above : ∀ (n : Node) (q : List Str) (c : Str) (r : List Str) {ent : Ent}, n.find (q ++ c :: r) = some ent → ∃ m, n.find q = some (.dir m)
  | .mk en kids, [], c, r, ent, h => by
    cases en with
    | dir m => exact ⟨m, by rw [Node.find]⟩
    | file _ _ => simp [Node.find] at h
    | link _ => simp [Node.find] at h
    | other => simp [Node.find] at h
  | .mk en kids, a :: q, c, r, ent, h => by
    cases en with
    | dir m =>
      simp only [List.cons_append] at h
      rw [Node.find] at h ⊢
      exact Kids.find_above kids a q c r h
    | file _ _ => simp [Node.find] at h
    | link _ => simp [Node.find] at h
    | other => simp [Node.find] at h
theorem Kids.find_above : ∀ (ks : Kids) (a : Str) (q : List Str) (c : Str) (r : List Str) {ent : Ent}, ks.find a (q ++ c :: r) = some ent →
    ∃ m, ks.find a q = some (.dir m)
  | .nil, a, q, c, r, ent, h => by rw [Kids.find] at h; cases h
  | .cons name n rest, a, q, c, r, ent, h => by
    rw [Kids.find] at h ⊢
    split at h
    · rename_i hn; rw [if_pos hn]; exact Node.find_above n q c r h
    · rename_i hn; rw [if_neg hn]; exact Kids.find_above rest a q c r h
end

/-! ### gathering -/

/-- What the first loop found. -/
def Found (src : Node) (x : Str × Ent) : Prop :=
  (x.1 ≠ [] ∧ isAbs x.1 = false ∧ ∀ c ∈ comps x.1, IsName c) ∧ src.find (comps x.1) = some x.2

theorem srcStat_some {src : Node} {p : Str} {ent : Ent} (h : srcStat src p = some ent) :
    (p ≠ [] ∧ isAbs p = false ∧ ∀ c ∈ comps p, IsName c) ∧ src.find (comps p) = some ent := by
  unfold srcStat at h
  split at h
  · rename_i hv; exact ⟨validPath_names hv, by rw [← Node.look_eq]; exact h⟩
  · cases h

theorem gather_holds {e : Env} {src : Node} {I : Disk → Prop} {d0 : Disk} : ∀ (ps : List Str),
    Holds I (fun d => d = d0) (gather e src ps) (fun r d => d = d0 ∧ ∀ l, r = .ok l → l.map Prod.fst = ps.map clean ∧ ∀ x ∈ l, Found src x)
  | [] => by
    unfold gather
    exact .pure (by rintro s rfl; exact ⟨rfl, fun l h => by cases h; simp⟩)
  | p :: ps => by
    unfold gather
    refine .bind (fun r d => d = d0 ∧ ∀ u, r = .ok u → True) (call_holds ⟨rfl, by simp⟩ (fun _ => ⟨rfl, by simp⟩)) (fun _ => ?_)
      (fun er s h => ⟨h.1, fun l hl => by cases hl⟩)
    refine .weaken (P' := fun d => d = d0) ?_ (fun s h => h.1) (fun _ h => h) (fun _ _ h => h)
    cases hs : srcStat src (clean p) with
    | none => exact .fail (by rintro s rfl; exact ⟨rfl, fun l h => by cases h⟩)
    | some ent =>
      refine .bind _ (gather_holds ps) (fun l => ?_) (fun er s h => ⟨h.1, fun l hl => by cases hl⟩)
      refine .pure ?_
      rintro s ⟨rfl, h⟩
      obtain ⟨h1, h2⟩ := h l rfl
      refine ⟨rfl, fun l' hl => ?_⟩
      cases hl
      refine ⟨by simp [h1], ?_⟩
      intro x hx
      rcases List.mem_cons.1 hx with rfl | hx
      · exact srcStat_some hs
      · exact h2 x hx

/-! ### only the named places change -/

/-- The places `CopyPath` may touch: the root and what is above it, the named entries, and the directories between. -/
def Touched (root : Str) (paths : List Str) (k : List Str) : Prop :=
  (k ≠ [] ∧ k <+: comps root) ∨ ∃ p ∈ paths, ∃ q, q <+: comps p ∧ k = comps root ++ q

theorem keeps_makeDir {K : List Str → Prop} {d0 : Disk} {e : Env} {src : Node} {root d : Str} (h : d ≠ dot → K (comps d)) :
    Keeps (Within K d0) (makeDir e src root d) := by
  unfold makeDir
  refine .ite (fun _ => keeps_pure) (fun hd => ?_)
  refine keeps_bind ?_ (fun _ => ?_)
  · unfold mkdirOrExist
    refine keeps_bind (.attempt (keeps_mkdir (h hd))) (fun r => ?_)
    split
    · exact keeps_pure
    · exact keeps_fail
    · exact keeps_pure
  · split
    · exact keeps_pure
    · refine .ite (fun _ => keeps_pure) (fun _ => keeps_bind keeps_call (fun _ => ?_))
      split
      · exact keeps_fail
      · exact keeps_chmod (h hd)

theorem keeps_makeDirs {K : List Str → Prop} {d0 : Disk} {e : Env} {src : Node} {root : Str} : ∀ (ds : List Str), (∀ d ∈ ds, d ≠ dot → K (comps d)) →
    Keeps (Within K d0) (makeDirs e src root ds)
  | [], _ => by unfold makeDirs; exact keeps_pure
  | d :: ds, h => by
    unfold makeDirs
    exact keeps_bind (keeps_makeDir (h d (by simp))) (fun _ => keeps_makeDirs ds (fun x hx => h x (by simp [hx])))

theorem keeps_copyEntries {K : List Str → Prop} {d0 : Disk} {e : Env} {root : Str} : ∀ (l : List (Str × Ent)), (∀ x ∈ l, K (comps (join2 root x.1))) →
    Keeps (Within K d0) (copyEntries e root l)
  | [], _ => by unfold copyEntries; exact keeps_pure
  | x :: xs, h => by
    unfold copyEntries
    exact keeps_bind (keeps_copyEntry (h x (by simp)) _) (fun _ => keeps_copyEntries xs (fun y hy => h y (by simp [hy])))

theorem mem_dirs {root : Str} {l : List (Str × Ent)} {d : Str} :
    d ∈ Tarfs.sortKeys (l.flatMap (fun x => parents root x.1)).eraseDups ↔ ∃ x ∈ l, d ∈ parents root x.1 := by
  rw [Tarfs.mem_sortKeys, List.mem_eraseDups, List.mem_flatMap]

theorem dropLast_prefix (l : List Str) : l.dropLast <+: l := List.dropLast_prefix l

theorem prefix_append_cases {E R q : List Str} (h : E <+: R ++ q) : E <+: R ∨ ∃ q', q' ≠ [] ∧ q' <+: q ∧ E = R ++ q' := by
  rcases Nat.le_total E.length R.length with hl | hl
  · exact Or.inl (List.prefix_of_prefix_length_le h (List.prefix_append R q) hl)
  · obtain ⟨q', rfl⟩ := List.prefix_of_prefix_length_le (List.prefix_append R q) h hl
    by_cases hq : q' = []
    · subst hq; left; simp
    · right; exact ⟨q', hq, (List.prefix_append_right_inj R).1 h, rfl⟩

theorem normal_prefix {E F : List Str} (h : Normal false F) (hp : E <+: F) : Normal false E := by
  obtain ⟨t, rfl⟩ := hp
  induction t generalizing E with
  | nil => simpa using h
  | cons x t ih =>
    have : E ++ x :: t = (E ++ [x]) ++ t := by simp
    rw [this] at h
    exact (ih h).init

/-- **C70** Whatever fails and wherever the process dies: a place that is none of the named entries, none of the directories between the root and them, and
neither the root nor above it, is as it was.
Missing from **C70**: the calls of this destination do not follow symlinks; for one whose calls do, see `C70_follow_only_named_partial`. -/
theorem C70_only_named_partial (e : Env) (src : Node) (root : Str) (paths : List Str) (d : Disk) :
    (∀ t ∈ crashes (copyPath e src root paths) d, Within (Touched root paths) d t) ∧
    Within (Touched root paths) d (final (copyPath e src root paths) d) := by
  have h : Holds (Within (Touched root paths) d) (fun s => s = d) (copyPath e src root paths) (fun _ => Within (Touched root paths) d) := by
    unfold copyPath
    simp only
    refine .ite (fun _ => .fail (by rintro s rfl; exact Within.refl)) (fun habs => ?_)
    have habs : isAbs (clean root) = false := by simpa using habs
    have hroot := clean_ne_nil root
    refine .bind _ (gather_holds paths) (fun l => ?_) (by rintro er s ⟨rfl, _⟩; exact Within.refl)
    refine .fix (fun s0 hs0 => ?_)
    obtain ⟨rfl, hl⟩ := hs0
    obtain ⟨hmap, hfound⟩ := hl l rfl
    have hkeep : ∀ x ∈ l, ∃ p ∈ paths, comps x.1 = comps p := by
      intro x hx
      have : x.1 ∈ paths.map clean := by rw [← hmap]; exact List.mem_map_of_mem hx
      obtain ⟨p, hp, he⟩ := List.mem_map.1 this
      exact ⟨p, hp, by rw [← he, comps_clean]⟩
    refine .weaken (P' := Within (Touched root paths) s0) (I' := Within (Touched root paths) s0) (Q' := fun _ => Within (Touched root paths) s0) ?_
      (by rintro s rfl; exact Within.refl) (fun _ h => h) (fun _ _ h => h)
    refine keeps_bind (keeps_makeDirs _ ?_) (fun _ => keeps_copyEntries _ ?_)
    · intro dd hdd _
      obtain ⟨x, hx, hm⟩ := mem_dirs.1 hdd
      obtain ⟨E, hE, hpre, rfl⟩ := (mem_parents habs (hfound x hx).1 hroot).1 hm
      have hpre' := hpre.trans (dropLast_prefix _)
      rw [comps_clean] at hpre'
      have hN := normal_append (R := comps root) (by have := comps_normal root; rw [isAbs_clean] at habs; rwa [habs] at this) (hfound x hx).1.2.2
      rw [comps_render (normal_prefix hN hpre')]
      rcases prefix_append_cases hpre' with h | ⟨q, _, hq, rfl⟩
      · exact Or.inl ⟨hE, h⟩
      · obtain ⟨p, hp, hc⟩ := hkeep x hx
        exact Or.inr ⟨p, hp, q, by rw [← hc]; exact hq, rfl⟩
    · intro x hx
      obtain ⟨p, hp, hc⟩ := hkeep x hx
      rw [comps_dst (hfound x hx).1.1 (hfound x hx).1.2.1 (hfound x hx).1.2.2, comps_clean, hc]
      exact Or.inr ⟨p, hp, comps p, List.prefix_refl _, rfl⟩
  exact h d rfl

/-! ### what a successful call leaves -/

/-- A step at a place under the root: the copy of an entry, or (`none`) a bare `Mkdir` of the root. -/
def step (e : Env) (o : Option Ent) (old : Option DEnt) : Option DEnt :=
  match o with
  | some ent => over e ent old
  | none => match old with
    | none => some (.dir (e.umask modePerm))
    | some v => some v

/-- The steps in order; `K` are component lists. -/
def stepAll (e : Env) (d : Disk) (l : List (List Str × Option Ent)) : Disk := l.foldl (fun d x => upd d x.1 (step e x.2 (d x.1))) d

theorem stepAll_append (e : Env) (d : Disk) (a b : List (List Str × Option Ent)) : stepAll e d (a ++ b) = stepAll e (stepAll e d a) b := by
  simp [stepAll]

/-- The steps belong to the copy of `src` at `R`. -/
def Steps (src : Node) (R : List Str) (l : List (List Str × Option Ent)) : Prop :=
  ∀ x ∈ l, (∃ q ent, x = (R ++ q, some ent) ∧ src.find q = some ent) ∨ (x.2 = none ∧ x.1 <+: R)

theorem over_idem (e : Env) (ent : Ent) (old : Option DEnt) : over e ent (over e ent old) = over e ent old := by
  cases ent with
  | dir m =>
    rcases old with _ | ⟨_ | _ | _⟩ <;> rfl
  | file m b =>
    rcases old with _ | ⟨_ | _ | _⟩ <;> rfl
  | link t => simp only [over]; split <;> simp_all
  | other => rfl

/-- What the steps leave at the place of an entry that is among them. -/
theorem stepAll_at {e : Env} {src : Node} {R q : List Str} {ent : Ent} (hf : src.find q = some ent) (hroot : q = [] → ∃ m, ent = .dir m)
    {l : List (List Str × Option Ent)} (hs : Steps src R l) (hm : (R ++ q, some ent) ∈ l) (d : Disk) :
    stepAll e d l (R ++ q) = over e ent (d (R ++ q)) := by
  -- whatever was done before, the value is the old one, made, or copied
  have key : ∀ (l : List (List Str × Option Ent)), Steps src R l → ∀ (d : Disk) (old : Option DEnt),
      (over e ent (d (R ++ q)) = over e ent old → (((R ++ q, some ent) ∈ l ∨ d (R ++ q) = over e ent old) → stepAll e d l (R ++ q) = over e ent old)) := by
    intro l
    induction l with
    | nil =>
      intro _ d old h0 h
      rcases h with h | h
      · cases h
      · exact h
    | cons x l ih =>
      intro hs d old h0 h
      have hs' : Steps src R l := fun y hy => hs y (by simp [hy])
      show stepAll e (upd d x.1 (step e x.2 (d x.1))) l (R ++ q) = _
      by_cases hx : x.1 = R ++ q
      · rcases hs x (by simp) with ⟨q', ent', rfl, hf'⟩ | ⟨hn, hpre⟩
        · have hqq : q' = q := List.append_cancel_left hx
          subst hqq
          rw [hf] at hf'
          cases hf'
          refine ih hs' _ old ?_ (Or.inr ?_)
          · rw [upd_self]; show over e ent (over e ent _) = _; rw [over_idem, h0]
          · rw [upd_self]; exact h0
        · rw [hx] at hpre
          have hq : q = [] := by
            have := hpre.length_le
            simp at this
            cases q with
            | nil => rfl
            | cons _ _ => simp at this; omega
          obtain ⟨m, rfl⟩ := hroot hq
          have hne : x ≠ (R ++ q, some (.dir m)) := by rintro rfl; cases hn
          refine ih hs' _ old ?_ ?_
          · rw [hx, upd_self, hn]
            rcases ho : d (R ++ q) with _ | v
            · rw [ho] at h0; rw [← h0]; rfl
            · rw [ho] at h0; exact h0
          · rcases h with h | h
            · left
              rcases List.mem_cons.1 h with h | h
              · exact absurd h.symm hne
              · exact h
            · right
              rw [hx, upd_self, hn, h]
              simp only [step]
              rcases old with _ | ⟨_ | _ | _⟩ <;> rfl
      · have hne : R ++ q ≠ x.1 := fun h => hx h.symm
        refine ih hs' _ old (by rw [upd_other hne]; exact h0) ?_
        rw [upd_other hne]
        rcases h with h | h
        · left
          rcases List.mem_cons.1 h with h | h
          · exact absurd (by rw [← h]) hx
          · exact h
        · exact Or.inr h
  exact key l hs d _ rfl (Or.inl hm)

theorem mkdirOrExist_gives {e : Env} {p : Str} {d : Disk} (h : result (mkdirOrExist e p) d = .ok ()) :
    final (mkdirOrExist e p) d = upd d (comps p) (step e none (d (comps p))) := by
  unfold mkdirOrExist at h ⊢
  obtain ⟨r, h4, h5, h6⟩ := run_bind_ok h
  have hr : r = result (mkdir e p modePerm) d := by
    unfold result Prog.attempt at h4
    cases h4; rfl
  have hf : final (Prog.attempt (mkdir e p modePerm)) d = final (mkdir e p modePerm) d := rfl
  rw [h6, hf]
  split at h5
  · obtain ⟨h7, h8⟩ := mkdir_result.2 hr.symm
    show final (mkdir e p modePerm) d = _
    rw [h8]
    rcases hd : d (comps p) with _ | v
    · exact absurd hd h7
    · rw [show step e none (some v) = some v from rfl, ← hd, upd_same]
  · cases h5
  · obtain ⟨h7, h8⟩ := mkdir_result.1 hr.symm
    show final (mkdir e p modePerm) d = _
    rw [h8, h7]
    rfl

/-- One directory below the root. -/
theorem makeDir_below {e : Env} {src : Node} {root : Str} {q : List Str} {m : Nat} (hN : Normal false (comps root ++ q)) (hq : q ≠ [])
    (hnames : ∀ c ∈ q, IsName c) (hf : src.find q = some (.dir m)) {d : Disk}
    (h : result (makeDir e src root (render false (comps root ++ q))) d = .ok ()) :
    final (makeDir e src root (render false (comps root ++ q))) d = stepAll e d [(comps root ++ q, some (.dir m))] := by
  have hnd : render false (comps root ++ q) ≠ dot := by
    intro hd
    have := comps_render hN
    rw [hd] at this
    have : comps root ++ q = [] := by rw [← this]; decide
    exact hq (List.append_eq_nil_iff.1 this).2
  have hNq : Normal false q := by simpa using normal_append (R := []) (.names (by simp)) hnames
  have hqd : render false q ≠ dot := by
    intro hd
    have := comps_render hNq
    rw [hd] at this
    exact hq (by rw [← this]; decide)
  unfold makeDir at h ⊢
  rw [if_neg hnd] at h ⊢
  obtain ⟨_, h1, h2, h3⟩ := run_bind_ok h
  rw [h3]
  rw [mkdirOrExist_gives h1] at h2 ⊢
  rw [relTo_below hN] at h2 ⊢
  simp only [if_neg hqd] at h2 ⊢
  obtain ⟨_, h4, h5, h6⟩ := run_bind_ok h2
  rw [call_ok h4] at h5 h6
  rw [h6]
  have hstat : ∀ ent, srcStat src (render false q) = some ent → ent = .dir m := by
    intro ent he
    have := (srcStat_some he).2
    rw [comps_render hNq, hf] at this
    cases this; rfl
  cases hs : srcStat src (render false q) with
  | none => rw [hs] at h5; cases h5
  | some ent =>
    have := hstat ent hs
    subst this
    rw [hs] at h5
    simp only at h5 ⊢
    have hk : comps (render false (comps root ++ q)) = comps root ++ q := comps_render hN
    rcases chmod_gives h5 with ⟨m', h7, h8⟩ | ⟨m', b, h7, h8⟩
    · rw [hk] at h7 h8 ⊢
      rw [h8]
      rw [upd_self] at h7
      show _ = upd d _ (over e (.dir m) (d _))
      funext k
      by_cases hkk : k = comps root ++ q
      · subst hkk
        rw [set_self, upd_self]
        rcases hd : d (comps root ++ q) with _ | ⟨_ | _ | _⟩
        · rfl
        · rfl
        · rw [hd] at h7; cases h7
        · rfl
      · rw [set_other hkk, upd_other hkk, upd_other hkk]
    · rw [hk] at h7 h8 ⊢
      rw [h8]
      rw [upd_self] at h7
      show _ = upd d _ (over e (.dir m) (d _))
      funext k
      by_cases hkk : k = comps root ++ q
      · subst hkk
        rw [set_self, upd_self]
        rcases hd : d (comps root ++ q) with _ | ⟨_ | _ | _⟩
        · rw [hd] at h7; cases h7
        · rw [hd] at h7; cases h7
        · rw [hd] at h7; cases h7; rfl
        · rw [hd] at h7; cases h7
      · rw [set_other hkk, upd_other hkk, upd_other hkk]

/-- The root itself, or a directory above it. -/
theorem makeDir_above {e : Env} {src : Node} {root : Str} {E : List Str} (hpre : E <+: comps root) (hE : E ≠ []) (hN : Normal false E) {d : Disk}
    (h : result (makeDir e src root (render false E)) d = .ok ()) :
    final (makeDir e src root (render false E)) d = stepAll e d [(E, none)] := by
  have hnd : render false E ≠ dot := by
    intro hd
    have := comps_render hN
    rw [hd] at this
    exact hE (by rw [← this]; decide)
  unfold makeDir at h ⊢
  rw [if_neg hnd] at h ⊢
  obtain ⟨_, h1, h2, h3⟩ := run_bind_ok h
  rw [h3]
  have hmk := mkdirOrExist_gives h1
  rw [comps_render hN] at hmk
  have hfin : ∀ (r : Option Str), (r = none ∨ r = some dot ∨ ∃ x, r = some x ∧ x ≠ dot ∧ Tarfs.validPath x = false) → ∀ (d1 : Disk),
      result ((match r with
        | none => Pure.pure ()
        | some r => if r = dot then Pure.pure () else do
          call e (.stat r)
          match srcStat src r with
          | none => Prog.fail .notExist
          | some ent => chmod e (render false E) (e.mask (modeOf ent)) : P Unit)) d1 = .ok () →
      final ((match r with
        | none => Pure.pure ()
        | some r => if r = dot then Pure.pure () else do
          call e (.stat r)
          match srcStat src r with
          | none => Prog.fail .notExist
          | some ent => chmod e (render false E) (e.mask (modeOf ent)) : P Unit)) d1 = d1 := by
    rintro r (rfl | rfl | ⟨x, rfl, hx, hv⟩) d1 hr
    · rfl
    · simp only [if_true]; rfl
    · exfalso
      simp only [if_neg hx] at hr
      obtain ⟨_, h4, h5, _⟩ := run_bind_ok hr
      have hs : srcStat src x = none := by unfold srcStat; rw [hv]; rfl
      rw [hs] at h5
      cases h5
  have hcase : relTo root (render false E) = none ∨ relTo root (render false E) = some dot ∨
      ∃ x, relTo root (render false E) = some x ∧ x ≠ dot ∧ Tarfs.validPath x = false := by
    obtain ⟨q, hq⟩ := hpre
    by_cases hqn : q = []
    · subst hqn
      right; left
      have := relTo_below (root := root) (q := []) (by rw [← hq]; simpa using hN)
      rw [List.append_nil] at this
      rw [List.append_nil] at hq
      rw [hq, this]
      rfl
    · rcases relTo_above hq.symm hqn hN with h | h
      · exact Or.inl h
      · exact Or.inr (Or.inr h)
  exact (hfin _ hcase _ h2).trans hmk

/-- The directories the second loop goes over. -/
def GoodDir (src : Node) (root d : Str) : Prop :=
  ∃ E, E ≠ [] ∧ Normal false E ∧ d = render false E ∧
    (E <+: comps root ∨ ∃ q m, q ≠ [] ∧ (∀ c ∈ q, IsName c) ∧ E = comps root ++ q ∧ src.find q = some (.dir m))

theorem makeDirs_gives {e : Env} {src : Node} {root : Str} : ∀ (ds : List Str), (∀ d ∈ ds, GoodDir src root d) → ∀ (d : Disk),
    result (makeDirs e src root ds) d = .ok () →
    ∃ l, Steps src (comps root) l ∧ final (makeDirs e src root ds) d = stepAll e d l ∧
      ∀ q m, q ≠ [] → render false (comps root ++ q) ∈ ds → src.find q = some (.dir m) → Normal false (comps root ++ q) → (comps root ++ q, some (.dir m)) ∈ l
  | [], _, d, h => ⟨[], (by intro x hx; cases hx), rfl, (by intro q m _ h; cases h)⟩
  | dd :: ds, hg, d, h => by
    unfold makeDirs at h ⊢
    obtain ⟨_, h1, h2, h3⟩ := run_bind_ok h
    obtain ⟨l, hl1, hl2, hl3⟩ := makeDirs_gives ds (fun x hx => hg x (by simp [hx])) _ h2
    obtain ⟨E, hE, hN, rfl, hcase⟩ := hg dd (by simp)
    rcases hcase with hpre | ⟨q, m, hq, hnames, rfl, hf⟩
    · have hmd := makeDir_above (e := e) (src := src) hpre hE hN h1
      refine ⟨(E, none) :: l, ?_, ?_, ?_⟩
      · intro x hx
        rcases List.mem_cons.1 hx with rfl | hx
        · exact Or.inr ⟨rfl, hpre⟩
        · exact hl1 x hx
      · rw [h3, hl2, hmd]; rfl
      · intro q m hq hmem hf hN'
        rcases List.mem_cons.1 hmem with h | h
        · exfalso
          have := congrArg comps h
          rw [comps_render hN', comps_render hN] at this
          have hlen := hpre.length_le
          rw [← this] at hlen
          simp at hlen
          cases q with
          | nil => exact hq rfl
          | cons _ _ => simp at hlen; omega
        · exact List.mem_cons_of_mem _ (hl3 q m hq h hf hN')
    · have hmd := makeDir_below (e := e) hN hq hnames hf h1
      refine ⟨(comps root ++ q, some (.dir m)) :: l, ?_, ?_, ?_⟩
      · intro x hx
        rcases List.mem_cons.1 hx with rfl | hx
        · exact Or.inl ⟨q, _, rfl, hf⟩
        · exact hl1 x hx
      · rw [h3, hl2, hmd]; rfl
      · intro q' m' hq' hmem hf' hN'
        rcases List.mem_cons.1 hmem with h | h
        · have := congrArg comps h
          rw [comps_render hN', comps_render hN] at this
          have := List.append_cancel_left this
          subst this
          rw [hf] at hf'
          cases hf'
          simp
        · exact List.mem_cons_of_mem _ (hl3 q' m' hq' h hf' hN')

theorem copyEntries_gives {e : Env} {src : Node} {root : Str} : ∀ (l : List (Str × Ent)), (∀ x ∈ l, Found src x) → ∀ (d : Disk),
    result (copyEntries e root l) d = .ok () →
    final (copyEntries e root l) d = stepAll e d (l.map fun x => (comps root ++ comps x.1, some x.2)) ∧
    ∀ l1 x l2 t, l = l1 ++ x :: l2 → x.2 = .link t → e.links = true →
      stepAll e d (l1.map fun x => (comps root ++ comps x.1, some x.2)) (comps root ++ comps x.1) = none
  | [], _, d, h => ⟨rfl, by intro l1 x l2 t h; cases l1 <;> cases h⟩
  | x :: xs, hf, d, h => by
    unfold copyEntries at h ⊢
    obtain ⟨_, h1, h2, h3⟩ := run_bind_ok h
    have hx := (hf x (by simp)).1
    have hk := comps_dst (root := root) hx.1 hx.2.1 hx.2.2
    obtain ⟨h4, h5⟩ := copyEntry_gives h1
    rw [hk] at h4 h5
    rw [h4] at h2 h3
    obtain ⟨h6, h7⟩ := copyEntries_gives xs (fun y hy => hf y (by simp [hy])) _ h2
    refine ⟨by rw [h3, h6]; rfl, ?_⟩
    intro l1 y l2 t he hy hl
    cases l1 with
    | nil =>
      simp only [List.nil_append, List.cons.injEq] at he
      obtain ⟨rfl, _⟩ := he
      exact h5 t hy hl
    | cons z l1 =>
      simp only [List.cons_append, List.cons.injEq] at he
      obtain ⟨rfl, he⟩ := he
      exact h7 l1 y l2 t he hy hl

theorem stepAll_untouched {e : Env} {k : List Str} : ∀ {l : List (List Str × Option Ent)} {d : Disk}, (∀ x ∈ l, x.1 ≠ k) → stepAll e d l k = d k := by
  intro l
  induction l with
  | nil => intro d _; rfl
  | cons x l ih =>
    intro d h
    show stepAll e (upd d x.1 _) l k = d k
    rw [ih (fun y hy => h y (by simp [hy])), upd_other (fun h' => h x (by simp) h'.symm)]

/-- A value once present stays present. -/
theorem stepAll_some {e : Env} {k : List Str} : ∀ {l : List (List Str × Option Ent)} {d : Disk}, d k ≠ none → stepAll e d l k ≠ none := by
  intro l
  induction l with
  | nil => intro d h; exact h
  | cons x l ih =>
    intro d h
    refine ih ?_
    show upd d x.1 (step e x.2 (d x.1)) k ≠ none
    by_cases hk : k = x.1
    · subst hk
      rw [upd_self]
      rcases hd : d x.1 with _ | v
      · exact absurd hd h
      · rcases x with ⟨_, _ | ent⟩
        · simp [step]
        · cases ent with
          | dir m => cases v <;> simp [step, over]
          | file m b => cases v <;> simp [step, over]
          | link t => simp only [step, over]; split <;> simp
          | other => simp [step, over]
    · rw [upd_other hk]; exact h

/-- **C70** When the call succeeds and no file of the destination stands where the source has a directory: every named entry of the source is copied to its
place under the root (as `Placed` says), and every directory between the root and a named entry is there with the masked mode of the source's.
Missing from **C70**: a root of two or more components, with which the call never succeeds, and the clash of a file with a directory; see below. -/
theorem C70_copies_partial (e : Env) (src : Node) (root : Str) (paths : List Str) (d : Disk)
    (hsrc : ∃ m, src.find [] = some (.dir m))
    (hclash : ∀ q m, src.find q = some (.dir m) → ∀ m' b, d (comps root ++ q) ≠ some (.file m' b))
    (hok : result (copyPath e src root paths) d = .ok ()) :
    ∀ p ∈ paths,
      (∃ ent, src.find (comps p) = some ent ∧
        Placed e ent (d (comps root ++ comps p)) (final (copyPath e src root paths) d (comps root ++ comps p))) ∧
      ∀ q, q ≠ [] → q <+: comps p → q ≠ comps p →
        ∃ m, src.find q = some (.dir m) ∧ final (copyPath e src root paths) d (comps root ++ q) = some (.dir (e.mask m)) := by
  unfold copyPath at hok ⊢
  simp only at hok ⊢
  by_cases habs : isAbs (clean root) = true
  · rw [if_pos habs] at hok; cases hok
  rw [if_neg habs] at hok ⊢
  have habs : isAbs (clean root) = false := by simpa using habs
  have hroot := clean_ne_nil root
  obtain ⟨l, h1, h2, h3⟩ := run_bind_ok hok
  have hg := (gather_holds (e := e) (src := src) (I := fun _ => True) (d0 := d) paths d rfl).2
  have hfd : final (gather e src paths) d = d := hg.1
  obtain ⟨hmap, hfound⟩ := hg.2 l h1
  rw [hfd] at h2 h3
  obtain ⟨_, h4, h5, h6⟩ := run_bind_ok h2
  rw [h3, h6]
  have hR : Normal false (comps (clean root)) := by have := comps_normal (clean root); rwa [habs] at this
  have hgood : ∀ dd ∈ Tarfs.sortKeys (l.flatMap (fun x => parents (clean root) x.1)).eraseDups, GoodDir src (clean root) dd := by
    intro dd hdd
    obtain ⟨x, hx, hm⟩ := mem_dirs.1 hdd
    obtain ⟨E, hE, hpre, rfl⟩ := (mem_parents habs (hfound x hx).1 hroot).1 hm
    have hpre' := hpre.trans (dropLast_prefix _)
    have hN := normal_append hR (hfound x hx).1.2.2
    refine ⟨E, hE, normal_prefix hN hpre', rfl, ?_⟩
    rcases prefix_append_cases hpre' with h | ⟨q, hq, hqp, rfl⟩
    · exact Or.inl h
    · right
      obtain ⟨t, ht⟩ := hqp
      have htn : t ≠ [] := by
        rintro rfl
        rw [List.append_nil] at ht
        subst ht
        have := hpre.length_le
        simp at this
        cases hc : comps x.1 with
        | nil => exact hq hc
        | cons _ _ => rw [hc] at this; simp at this; omega
      obtain ⟨c, t', rfl⟩ := List.exists_cons_of_ne_nil htn
      obtain ⟨m, hm⟩ := Node.find_above src q c t' (by rw [ht]; exact (hfound x hx).2)
      exact ⟨q, m, hq, fun y hy => (hfound x hx).1.2.2 y (by rw [← ht]; simp [hy]), rfl, hm⟩
  obtain ⟨l1, hl1, hl2, hl3⟩ := makeDirs_gives _ hgood d h4
  rw [hl2] at h5 ⊢
  obtain ⟨h7, h8⟩ := copyEntries_gives l hfound _ h5
  rw [comps_clean] at h7 h8 hl1 hR
  simp only [comps_clean] at hl3
  rw [h7, ← stepAll_append]
  have hsteps : Steps src (comps root) (l1 ++ l.map fun x => (comps root ++ comps x.1, some x.2)) := by
    intro y hy
    rcases List.mem_append.1 hy with hy | hy
    · exact hl1 y hy
    · obtain ⟨x, hx, rfl⟩ := List.mem_map.1 hy
      exact Or.inl ⟨_, _, rfl, (hfound x hx).2⟩
  have hfin : ∀ q ent, src.find q = some ent → (comps root ++ q, some ent) ∈ (l1 ++ l.map fun x => (comps root ++ comps x.1, some x.2)) →
      stepAll e d (l1 ++ l.map fun x => (comps root ++ comps x.1, some x.2)) (comps root ++ q) = over e ent (d (comps root ++ q)) := by
    intro q ent hf hm
    refine stepAll_at hf ?_ hsteps hm d
    rintro rfl
    obtain ⟨m, hm⟩ := hsrc
    rw [hf] at hm
    cases hm
    exact ⟨m, rfl⟩
  intro p hp
  have hpx : ∃ x ∈ l, x.1 = clean p := by
    have : clean p ∈ l.map Prod.fst := by rw [hmap]; exact List.mem_map_of_mem hp
    obtain ⟨x, hx, he⟩ := List.mem_map.1 this
    exact ⟨x, hx, he⟩
  obtain ⟨x, hx, hxp⟩ := hpx
  have hcx : comps x.1 = comps p := by rw [hxp, comps_clean]
  have hxf := hfound x hx
  refine ⟨⟨x.2, by rw [← hcx]; exact hxf.2, ?_⟩, ?_⟩
  · have hval := hfin (comps x.1) x.2 hxf.2 (List.mem_append_right _ (List.mem_map.2 ⟨x, hx, rfl⟩))
    rw [hcx] at hval
    rw [hval]
    have hxf2 : src.find (comps p) = some x.2 := by rw [← hcx]; exact hxf.2
    rcases x with ⟨xs, ent⟩
    cases ent with
    | dir m =>
      show over e (.dir m) _ = some (.dir (e.mask m))
      have := hclash (comps p) m hxf2
      unfold over
      rcases hd : d (comps root ++ comps p) with _ | ⟨_ | _ | _⟩
      · rfl
      · rfl
      · exact absurd hd (this _ _)
      · rfl
    | file m b =>
      refine ⟨?_, ?_⟩
      · intro m' b' h; rw [h]; rfl
      · intro h; rw [h]; rfl
    | link t =>
      show if e.links = true then _ else _
      by_cases hl' : e.links = true
      · rw [if_pos hl']
        obtain ⟨a, b, hab⟩ := List.append_of_mem hx
        have hfree := h8 a (xs, .link t) b t hab rfl hl'
        rw [← stepAll_append] at hfree
        refine ⟨?_, by simp [over, hl']⟩
        rcases hd : d (comps root ++ comps p) with _ | v
        · rfl
        · exfalso
          refine stepAll_some (e := e) (k := comps root ++ comps p) (l := l1 ++ a.map fun x => (comps root ++ comps x.1, some x.2)) (d := d) (by rw [hd]; simp) ?_
          rw [← hcx]
          exact hfree
      · rw [if_neg hl']
        simp [over, hl']
    | other => rfl
  · intro q hq hpre hne
    obtain ⟨t, ht⟩ := hpre
    have htn : t ≠ [] := by rintro rfl; rw [List.append_nil] at ht; exact hne ht
    obtain ⟨c, t', rfl⟩ := List.exists_cons_of_ne_nil htn
    obtain ⟨m, hm⟩ := Node.find_above src q c t' (by rw [ht, ← hcx]; exact hxf.2)
    refine ⟨m, hm, ?_⟩
    have hN : Normal false (comps root ++ q) := normal_append hR (fun y hy => hxf.1.2.2 y (by rw [hcx, ← ht]; simp [hy]))
    have hmem := hl3 q m hq (mem_dirs.2 ⟨x, hx, (mem_parents habs hxf.1 hroot).2 ⟨_, by simp [hq], ?_, rfl⟩⟩) hm hN
    · rw [hfin q _ hm (List.mem_append_left _ hmem)]
      have := hclash q m hm
      unfold over
      rcases hd : d (comps root ++ q) with _ | ⟨_ | _ | _⟩
      · rfl
      · rfl
      · exact absurd hd (this _ _)
      · rfl
    · rw [comps_clean, hcx, ← ht]
      rw [show comps root ++ (q ++ c :: t') = (comps root ++ q) ++ c :: t' by simp, List.dropLast_append_of_ne_nil (by simp)]
      exact List.prefix_append _ _

/-- **C70** fails for a root of two or more components: the call never succeeds, whatever the source and the destination hold, unless nothing is named. -/
theorem C70_counterexample_nested_root (e : Env) (src : Node) (root : Str) (a b : Str) (rest : List Str) (hroot : comps root = a :: b :: rest)
    (hn : ∀ c ∈ comps root, IsName c) (p : Str) (ps : List Str) (d : Disk) :
    result (copyPath e src root (p :: ps)) d ≠ .ok () := by
  intro hok
  unfold copyPath at hok
  simp only at hok
  by_cases habs : isAbs (clean root) = true
  · rw [if_pos habs] at hok; cases hok
  rw [if_neg habs] at hok
  have habs : isAbs (clean root) = false := by simpa using habs
  have hrn := clean_ne_nil root
  obtain ⟨l, h1, h2, h3⟩ := run_bind_ok hok
  have hg := (gather_holds (e := e) (src := src) (I := fun _ => True) (d0 := d) (p :: ps) d rfl).2
  obtain ⟨hmap, hfound⟩ := hg.2 l h1
  obtain ⟨_, h4, _, _⟩ := run_bind_ok h2
  have hl : ∃ x, x ∈ l := by
    cases l with
    | nil => simp at hmap
    | cons x _ => exact ⟨x, by simp⟩
  obtain ⟨x, hx⟩ := hl
  have hmem : render false [a] ∈ Tarfs.sortKeys (l.flatMap (fun x => parents (clean root) x.1)).eraseDups := by
    refine mem_dirs.2 ⟨x, hx, (mem_parents habs (hfound x hx).1 hrn).2 ⟨[a], by simp, ?_, rfl⟩⟩
    rw [comps_clean, hroot]
    simp
  have key : ∀ (ds : List Str) (d : Disk), render false [a] ∈ ds → result (makeDirs e src (clean root) ds) d ≠ .ok () := by
    intro ds
    induction ds with
    | nil => intro d h; cases h
    | cons dd ds ih =>
      intro d h hr
      unfold makeDirs at hr
      obtain ⟨_, h5, h6, _⟩ := run_bind_ok hr
      rcases List.mem_cons.1 h with rfl | h
      · have hna : IsName a := hn a (by rw [hroot]; simp)
        have hN : Normal false [a] := by simpa using normal_append (R := []) (.names (by simp)) (cp := [a]) (by simpa using hna)
        have hnd : render false [a] ≠ dot := by
          intro hd
          have := comps_render hN
          rw [hd] at this
          rw [show comps dot = [] by decide] at this
          cases this
        unfold makeDir at h5
        rw [if_neg hnd] at h5
        obtain ⟨_, _, h7, _⟩ := run_bind_ok h5
        rcases relTo_above (root := clean root) (E := [a]) (q := b :: rest) (by rw [comps_clean, hroot]; rfl) (by simp) hN with h8 | ⟨r, h8, hrd, hv⟩
        · unfold relTo at h8
          rw [comps_clean, hroot, comps_render hN] at h8
          simp only [stripCommon, if_true] at h8
          have hb : b ≠ dotdot := (hn b (by rw [hroot]; simp)).2.2
          have hb' : ¬ (some b = some dotdot) := by simpa using hb
          cases rest <;> simp [hb] at h8
        · rw [h8] at h7
          simp only [if_neg hrd] at h7
          obtain ⟨_, _, h9, _⟩ := run_bind_ok h7
          have hs : srcStat src r = none := by unfold srcStat; rw [hv]; rfl
          rw [hs] at h9
          cases h9
      · exact ih _ h h6
  exact key _ _ hmem h4

/-! ### the hypotheses are met -/

example : result (copyPath demoEnv demoSrc dot [['s', '/', 'l'], ['f']]) emptyDisk = .ok () ∧
    final (copyPath demoEnv demoSrc dot [['s', '/', 'l'], ['f']]) emptyDisk [['s'], ['l']] = some (.link ['x']) ∧
    final (copyPath demoEnv demoSrc dot [['s', '/', 'l'], ['f']]) emptyDisk [['s']] = some (.dir 448) ∧
    final (copyPath demoEnv demoSrc dot [['s', '/', 'l'], ['f']]) emptyDisk [['f']] = some (.file 420 [1, 2, 3]) := by
  refine ⟨by rfl, by rfl, by rfl, by rfl⟩

/-- With the root "o/u" the same call fails, leaving the directory "o". -/
example : result (copyPath demoEnv demoSrc ['o', '/', 'u'] [['f']]) emptyDisk = .error .notExist ∧
    final (copyPath demoEnv demoSrc ['o', '/', 'u'] [['f']]) emptyDisk [['o']] = some (.dir 511) := by
  refine ⟨by rfl, by rfl⟩

end Verif.Fsutil.Copy
