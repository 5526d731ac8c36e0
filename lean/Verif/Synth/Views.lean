import Verif.Synth.Effects
import Verif.Synth.Overwrite
/-
C78: the view of a file is closed exactly once, when the file leaves the tree (view.go 26-29); and the calls that break this.
-/
namespace Verif.Synth.Tree
open Verif.Path

/-! ## Specification -/

/-- The node can be reached from one of the roots. -/
def In (R : List Id) (s : St) (i : Id) : Prop := ∃ b ∈ R, Under s b i

/-- No file has this view, nor had it. -/
def Unused (s : St) (v : Nat) : Prop := ∀ (i : Id) nm m, s.nodes[i]? ≠ some (.file nm m v)

/-- The policy, but refusing to put a file or a link over a directory. -/
def refusing (cb : AddFunc) : AddFunc := fun p inc ex => match cb p inc ex with
  | .ok .override => if inc ≠ .dir ∧ ex = some .dir then .error .exist else .ok .override
  | r => r

/-- The policy does not answer "keep" to a file where something is, nor to a directory where something else is. -/
def Exchanges (cb : AddFunc) : Prop := (∀ p k, cb p .file (some k) ≠ .ok .keep) ∧ ∀ p k, k ≠ .dir → cb p .dir (some k) ≠ .ok .keep

/-- The calls for which the property is proved: no Link; the allocator and the callers of AddFile and AddFS give every file a view of its own; AddFile and AddFS do not put a file or a link over
a directory (AddFS would do the same under a policy that refuses that); AddFS under MergeOverwrite, FailOnConflict, or a policy that does not keep; Rename does not put a file over itself,
nor a directory into itself. -/
def Call.OwnViews (s : St) (b : Id) : Call → Prop
  | .create _ _ => Unused s s.nextView
  | .addFile cb _ _ v => Unused s v ∧ ∀ p k, cb p k (some .dir) ≠ .ok .override
  | .rename old new => ∀ d k t e j, Place s b old d k → s.lookup d k = some t → Place s b new e j → ¬ Under s t e ∧ s.lookup e j ≠ some t
  | .link .. => False
  | .addFS fuel cb name src => src.views.Nodup ∧ (∀ v ∈ src.views, Unused s v) ∧ (cb = mergeOverwrite ∨ cb = failOnConflict ∨ Exchanges cb) ∧
      Tree.addFS fuel (refusing cb) s b name src = Tree.addFS fuel cb s b name src
  | _ => True

def OwnRun (w : World) : List (Nat × Call) → Prop
  | [] => True
  | (r, c) :: rest => (∀ b, w.roots[r]? = some b → c.OwnViews w.st b) ∧ OwnRun (w.step r c) rest

/-! ## Proofs -/

structure Views (R : List Id) (s : St) : Prop where
  inj : ∀ i j v, v ∈ s.viewsOf i → v ∈ s.viewsOf j → i = j
  nodup : s.closed.Nodup
  owned : ∀ v ∈ s.closed, ∃ i, v ∈ s.viewsOf i
  exact : ∀ i v, v ∈ s.viewsOf i → (v ∈ s.closed ↔ ¬ In R s i)

theorem mem_viewsOf {s : St} {i : Id} {v : Nat} : v ∈ s.viewsOf i ↔ ∃ nm m, s.nodes[i]? = some (.file nm m v) := by
  unfold St.viewsOf
  constructor
  · intro h
    split at h
    · rename_i a b c hx
      rw [List.mem_singleton] at h
      subst h; exact ⟨a, b, hx⟩
    · cases h
  · rintro ⟨nm, m, h⟩; rw [h]; simp

theorem mem_viewsOf_look {s : St} {i : Id} {v : Nat} : v ∈ s.viewsOf i ↔ ∃ nm m, s.look i = some (.file nm m v) := by
  rw [mem_viewsOf]
  unfold St.look
  constructor
  · rintro ⟨a, b, h⟩; exact ⟨a, b, by rw [h]; rfl⟩
  · rintro ⟨a, b, h⟩
    cases hx : s.nodes[i]? with
    | none => rw [hx] at h; cases h
    | some n =>
      rw [hx] at h
      cases n with
      | dir r => simp [skel] at h
      | link x y => simp [skel] at h
      | file x y z => exact ⟨x, y, by simp [skel] at h; simp [h]⟩

theorem unused_iff {s : St} {v : Nat} : Unused s v ↔ ∀ i, v ∉ s.viewsOf i := by
  constructor
  · intro h i hv
    obtain ⟨nm, m, hn⟩ := mem_viewsOf.1 hv
    exact h i nm m hn
  · intro h i nm m hn; exact h i (mem_viewsOf.2 ⟨nm, m, hn⟩)

theorem view_not_dir {s : St} {i : Id} {v : Nat} (hv : v ∈ s.viewsOf i) : ¬ s.isDir i := by
  rintro ⟨r, hr⟩
  obtain ⟨nm, m, hn⟩ := mem_viewsOf.1 hv
  rw [dir?_iff, hn] at hr; cases hr

theorem In.mono {R : List Id} {s s' : St} (hs : ∀ d k c, s.lookup d k = some c → s'.lookup d k = some c) {i : Id} (h : In R s i) : In R s' i := by
  obtain ⟨b, hb, hu⟩ := h
  refine ⟨b, hb, ?_⟩
  rcases hu with rfl | hu
  · exact .inl rfl
  · exact .inr (hu.under_of_shrink hs)

theorem In.step {R : List Id} {s : St} {d c : Id} {k : Str} (h : In R s d) (hc : s.lookup d k = some c) : In R s c := by
  obtain ⟨b, hb, hu⟩ := h
  exact ⟨b, hb, .inr (hu.step hc)⟩

theorem In.root {R : List Id} {s : St} {b : Id} (h : b ∈ R) : In R s b := ⟨b, h, .inl rfl⟩

theorem In.trans {R : List Id} {s : St} {d c : Id} (h : In R s d) (hu : Under s d c) : In R s c := by
  obtain ⟨b, hb, hu'⟩ := h
  exact ⟨b, hb, hu'.trans hu⟩

/-- Induction along the ways from the roots. -/
theorem In.induct {R : List Id} {s : St} {P : Id → Prop} (hroot : ∀ b ∈ R, P b) (hstep : ∀ d k c, In R s d → P d → s.lookup d k = some c → P c) {i : Id} (h : In R s i) : P i := by
  obtain ⟨b, hb, hu⟩ := h
  rcases hu with rfl | hu
  · exact hroot _ hb
  · induction hu with
    | child hc => exact hstep _ _ _ (In.root hb) (hroot b hb) hc
    | step hb' hc ih => exact hstep _ _ _ ⟨b, hb, .inr hb'⟩ ih hc

/-! ### A new entry -/

theorem adds_sub {s s' : St} {d : Id} {k : Str} {n : Node} (h : Adds s s' d k n) (hfree : s.lookup d k = none) : ∀ e j c, s.lookup e j = some c → s'.lookup e j = some c := by
  intro e j c hc
  rw [h.rest.entries e j ?_]; exact hc
  rintro ⟨rfl, rfl⟩
  rw [hfree] at hc; cases hc

theorem views_adds {R : List Id} {s s' : St} (hv : Views R s) {d : Id} {k : Str} {n : Node} (h : Adds s s' d k n) (hfree : s.lookup d k = none) (hd : In R s d)
    (hdd : s.isDir d) (hnew : ∀ nm m v, n = .file nm m v → Unused s v) : Views R s' := by
  obtain ⟨c, hc, hlk, hcn, _, hsame⟩ := h.new
  have hcd : c ≠ d := by
    rintro rfl
    obtain ⟨r, hr⟩ := hdd
    rw [dir?_iff, hc] at hr; cases hr
  have hold : ∀ i, i ≠ c → ∀ v, (v ∈ s'.viewsOf i ↔ v ∈ s.viewsOf i) := by
    intro i hi v; rw [mem_viewsOf_look, mem_viewsOf_look, hsame i hi]
  have hcv : ∀ v, v ∈ s'.viewsOf c → Unused s v := by
    intro v hv'
    obtain ⟨nm, m, hx⟩ := mem_viewsOf.1 hv'
    rw [hcn] at hx
    exact hnew nm m v (Option.some.inj hx)
  have hcno : ∀ j, s'.lookup c j = none := by
    intro j
    rw [h.rest.entries c j (fun e => hcd e.1)]
    cases hx : s.lookup c j with
    | none => rfl
    | some y =>
      obtain ⟨r, hr⟩ := lookup_isDir hx
      rw [dir?_iff, hc] at hr; cases hr
  have hin : ∀ i, i ≠ c → (In R s' i ↔ In R s i) := by
    intro i hi
    constructor
    · intro h'
      refine In.induct (P := fun i => i ≠ c → In R s i) (fun b hb _ => In.root hb) ?_ h' hi
      intro e j x _ ih hx hxc
      have hec : e ≠ c := by rintro rfl; rw [hcno] at hx; cases hx
      rw [h.rest.entries e j ?_] at hx
      · exact (ih hec).step hx
      · rintro ⟨rfl, rfl⟩
        rw [hlk] at hx
        exact hxc (Option.some.inj hx).symm
    · exact In.mono (adds_sub h hfree)
  refine ⟨?_, by rw [h.closed]; exact hv.nodup, ?_, ?_⟩
  · intro i j v hi hj
    by_cases hic : i = c <;> by_cases hjc : j = c
    · rw [hic, hjc]
    · subst hic; exact absurd ((hold j hjc v).1 hj) (unused_iff.1 (hcv v hi) j)
    · subst hjc; exact absurd ((hold i hic v).1 hi) (unused_iff.1 (hcv v hj) i)
    · exact hv.inj i j v ((hold i hic v).1 hi) ((hold j hjc v).1 hj)
  · intro v hvc
    rw [h.closed] at hvc
    obtain ⟨i, hi⟩ := hv.owned v hvc
    have hic : i ≠ c := by rintro rfl; obtain ⟨_, _, hx⟩ := mem_viewsOf.1 hi; rw [hc] at hx; cases hx
    exact ⟨i, (hold i hic v).2 hi⟩
  · intro i v hi
    rw [h.closed]
    by_cases hic : i = c
    · subst hic
      have : v ∉ s.closed := by
        intro hvc
        obtain ⟨j, hj⟩ := hv.owned v hvc
        exact unused_iff.1 (hcv v hi) j hj
      have hin' : In R s' i := (In.mono (adds_sub h hfree) hd).step hlk
      exact ⟨fun h => absurd h this, fun h => absurd hin' h⟩
    · rw [hin i hic]; exact hv.exact i v ((hold i hic v).1 hi)

/-! ### An entry less -/

theorem in_removes {R : List Id} {s s' : St} (hg : Good s) {d : Id} {k : Str} {t : Id} (h : Removes s s' d k t) (hl : s.lookup d k = some t) (hemp : s.entries t = []) {i : Id} (hi : i ≠ t)
    (h' : In R s i) : In R s' i := by
  refine In.induct (P := fun i => i ≠ t → In R s' i) (fun b hb _ => In.root hb) ?_ h' hi
  intro e j x _ ih hx hxt
  have het : e ≠ t := by
    rintro rfl
    have := (mem_entries hg).2 ⟨j, hx⟩
    rw [hemp] at this; cases this
  refine (ih het).step (k := j) ?_
  rw [h.rest.entries e j ?_]; exact hx
  rintro ⟨rfl, rfl⟩
  rw [hl] at hx
  exact hxt (Option.some.inj hx).symm

theorem removes_sub {s s' : St} {d : Id} {k : Str} {t : Id} (h : Removes s s' d k t) : ∀ e j c, s'.lookup e j = some c → s.lookup e j = some c := by
  intro e j c hc
  by_cases hx : e = d ∧ j = k
  · rw [hx.1, hx.2, h.gone.1] at hc; cases hc
  · rw [← h.rest.entries e j hx]; exact hc

theorem views_removes {R : List Id} {s s' : St} (hg : Good s) (hv : Views R s) (hR : ∀ b ∈ R, s.isDir b) {d : Id} {k : Str} {t : Id} (h : Removes s s' d k t) (hl : s.lookup d k = some t)
    (hemp : s.entries t = []) (hd : In R s d) (hc : s'.closed = s.closed ++ s.viewsOf t) : Views R s' := by
  have hvw : ∀ i, s'.viewsOf i = s.viewsOf i := viewsOf_look h.nodes
  have hin : ∀ i, i ≠ t → (In R s' i ↔ In R s i) := fun i hi => ⟨In.mono (removes_sub h), in_removes hg h hl hemp hi⟩
  have htin : ∀ v, v ∈ s.viewsOf t → ¬ In R s' t := by
    intro v hvt h'
    obtain ⟨b, hb, hu⟩ := h'
    rcases hu with rfl | hu
    · exact view_not_dir hvt (hR _ hb)
    · have : ∀ e j, s'.lookup e j ≠ some t := by
        intro e j hx
        obtain ⟨rfl, rfl⟩ := hg.single _ _ _ _ _ (removes_sub h _ _ _ hx) hl
        rw [h.gone.1] at hx; cases hx
      cases hu with
      | child hx => exact this _ _ hx
      | step _ hx => exact this _ _ hx
  have hopen : ∀ v, v ∈ s.viewsOf t → v ∉ s.closed := fun v hvt h' => (hv.exact t v hvt).1 h' (hd.step hl)
  refine ⟨?_, ?_, ?_, ?_⟩
  · intro i j v hi hj; rw [hvw] at hi hj; exact hv.inj i j v hi hj
  · rw [hc]
    refine List.nodup_append.2 ⟨hv.nodup, ?_, ?_⟩
    · unfold St.viewsOf; split <;> simp
    · intro a ha b hb hab
      subst hab
      exact hopen a hb ha
  · intro v hvc
    rw [hc] at hvc
    rcases List.mem_append.1 hvc with hvc | hvc
    · obtain ⟨i, hi⟩ := hv.owned v hvc; exact ⟨i, by rw [hvw]; exact hi⟩
    · exact ⟨t, by rw [hvw]; exact hvc⟩
  · intro i v hi
    rw [hvw] at hi
    rw [hc, List.mem_append]
    by_cases hit : i = t
    · subst hit
      exact ⟨fun _ => htin v hi, fun _ => .inr hi⟩
    · rw [hin i hit, ← hv.exact i v hi]
      constructor
      · rintro (h1 | h1)
        · exact h1
        · exact absurd (hv.inj i t v hi h1) hit
      · exact .inl

/-! ### A subtree less -/

theorem nodup_removeSubtree {s0 : St} (hg : Good s0) (ha : Acyclic s0) (hinj : ∀ i j v, v ∈ s0.viewsOf i → v ∈ s0.viewsOf j → i = j) : ∀ (fuel : Nat) (n : Id) (s s' : St), Shr s0 s →
    s.closed.Nodup → (∀ e, Under s0 n e → ∀ v ∈ s0.viewsOf e, v ∉ s.closed) → removeSubtree fuel n s = some s' → s'.closed.Nodup := by
  intro fuel
  induction fuel with
  | zero => intro n s s' _ _ _ h; cases h
  | succ fuel ih =>
    intro n s s' hs hnd hfresh h
    simp only [removeSubtree] at h
    split at h
    · cases he : eachChild (removeSubtree fuel) (s.entries n) s with
      | none => rw [he] at h; cases h
      | some s1 =>
        rw [he] at h
        cases h
        rw [closed_clear]
        have key : ∀ (cs : List Id) (a a' : St), Shr s0 a → cs.Nodup → (∀ c ∈ cs, ∃ k, s0.lookup n k = some c) → a.closed.Nodup →
            (∀ c ∈ cs, ∀ e, Under s0 c e → ∀ v ∈ s0.viewsOf e, v ∉ a.closed) → eachChild (removeSubtree fuel) cs a = some a' → a'.closed.Nodup := by
          intro cs
          induction cs with
          | nil => intro a a' _ _ _ hn _ h; cases h; exact hn
          | cons c cs ihc =>
            intro a a' hsa hcsn hcs hn hf h
            simp only [eachChild] at h
            cases hr : removeSubtree fuel c a with
            | none => rw [hr] at h; cases h
            | some a1 =>
              rw [hr] at h
              have h1 := ih c a a1 hsa hn (hf c List.mem_cons_self) hr
              refine ihc a1 a' (hsa.trans (shr_removeSubtree fuel c a a1 hr)) (List.nodup_cons.1 hcsn).2 (fun c' hc' => hcs c' (List.mem_cons_of_mem _ hc')) h1 ?_ h
              intro c' hc' e hu v hv hvc
              rcases only_under hg fuel c a a1 hsa hr v hvc with h2 | ⟨e', hu', h2⟩
              · exact hf c' (List.mem_cons_of_mem _ hc') e hu v hv h2
              · obtain rfl := hinj e e' v hv h2
                obtain ⟨k, hk⟩ := hcs c List.mem_cons_self
                obtain ⟨k', hk'⟩ := hcs c' (List.mem_cons_of_mem _ hc')
                have hkk : k ≠ k' := by
                  rintro rfl
                  rw [hk] at hk'
                  cases hk'
                  exact (List.nodup_cons.1 hcsn).1 hc'
                exact siblings hg ha hk hk' hkk hu' hu
        refine key (s.entries n) s s1 hs (nodup_entries (hs.good hg) n) ?_ hnd ?_ he
        · intro c hc
          obtain ⟨k, hk⟩ := (mem_entries (hs.good hg)).1 hc
          exact ⟨k, hs.sub _ _ _ hk⟩
        · intro c hc e hu
          obtain ⟨k, hk⟩ := (mem_entries (hs.good hg)).1 hc
          exact hfresh e (Under.trans (.inr (.child (hs.sub _ _ _ hk))) hu)
    · cases h
      rw [closed_closeView]
      refine List.nodup_append.2 ⟨hnd, ?_, ?_⟩
      · unfold St.viewsOf; split <;> simp
      · intro a ha' b hb hab
        subst hab
        rw [viewsOf_look hs.look] at hb
        exact hfresh n (.inl rfl) a hb ha'
    · cases h; exact hnd

theorem views_removesAll {R : List Id} {s s' : St} (hg : Good s) (hv : Views R s) (hR : ∀ b ∈ R, s.isDir b) {d : Id} {k : Str} {t : Id} (h : RemovesAll s s' d k t)
    (hl : s.lookup d k = some t) (hd : In R s d) (hnd : s'.closed.Nodup) : Views R s' := by
  have hvw : ∀ i, s'.viewsOf i = s.viewsOf i := viewsOf_look h.nodes
  have hsub : ∀ e j c, s'.lookup e j = some c → s.lookup e j = some c := by
    intro e j c hc
    by_cases hu : Under s t e
    · rw [h.emptied e j hu] at hc; cases hc
    · by_cases hx : e = d ∧ j = k
      · rw [hx.1, hx.2, h.gone] at hc; cases hc
      · rw [← h.entries e j hu hx]; exact hc
  have hkeep : ∀ i, ¬ Under s t i → In R s i → In R s' i := by
    intro i hi h'
    refine In.induct (P := fun i => ¬ Under s t i → In R s' i) (fun b hb _ => In.root hb) ?_ h' hi
    intro e j x _ ih hx hxt
    have het : ¬ Under s t e := fun hu => hxt (.inr (hu.step hx))
    refine (ih het).step (k := j) ?_
    rw [h.entries e j het ?_]; exact hx
    rintro ⟨rfl, rfl⟩
    rw [hl] at hx
    exact hxt (.inl (Option.some.inj hx).symm)
  have hgone : ∀ i v, v ∈ s.viewsOf i → Under s t i → ¬ In R s' i := by
    intro i v hvi hu h'
    obtain ⟨b, hb, hu'⟩ := h'
    rcases hu' with rfl | hu'
    · exact view_not_dir hvi (hR _ hb)
    · have : ∀ e j, s'.lookup e j ≠ some i := by
        intro e j hx
        have hx0 := hsub _ _ _ hx
        rcases hu with rfl | hu
        · obtain ⟨rfl, rfl⟩ := hg.single _ _ _ _ _ hx0 hl
          rw [h.gone] at hx; cases hx
        · have hue : Under s t e := by
            cases hu with
            | child h0 => obtain ⟨rfl, _⟩ := hg.single _ _ _ _ _ hx0 h0; exact .inl rfl
            | step h1 h0 => obtain ⟨rfl, _⟩ := hg.single _ _ _ _ _ hx0 h0; exact .inr h1
          rw [h.emptied e j hue] at hx; cases hx
      cases hu' with
      | child hx => exact this _ _ hx
      | step _ hx => exact this _ _ hx
  refine ⟨?_, hnd, ?_, ?_⟩
  · intro i j v hi hj; rw [hvw] at hi hj; exact hv.inj i j v hi hj
  · intro v hvc
    rcases (h.closes v).1 hvc with hvc | ⟨e, _, he⟩
    · obtain ⟨i, hi⟩ := hv.owned v hvc; exact ⟨i, by rw [hvw]; exact hi⟩
    · exact ⟨e, by rw [hvw]; exact he⟩
  · intro i v hi
    rw [hvw] at hi
    rw [h.closes]
    by_cases hu : Under s t i
    · exact ⟨fun _ => hgone i v hi hu, fun _ => .inr ⟨i, hu, hi⟩⟩
    · have : In R s' i ↔ In R s i := ⟨In.mono hsub, hkeep i hu⟩
      rw [this, ← hv.exact i v hi]
      constructor
      · rintro (h1 | ⟨e, hue, h1⟩)
        · exact h1
        · obtain rfl := hv.inj i e v hi h1; exact absurd hue hu
      · exact .inl

/-! ### A move -/

theorem views_moves {R : List Id} {s s' : St} (hg : Good s) (hv : Views R s) (hR : ∀ b ∈ R, s.isDir b) {d e t : Id} {k j : Str} (h : Moves s s' d k t e j) (hl : s.lookup d k = some t)
    (hd : In R s d) (he : In R s e) (htame : ¬ Under s t e) (hself : s.lookup e j ≠ some t) (hemp : ∀ x, s.lookup e j = some x → s.entries x = [])
    (hc : s'.closed = s.closed ++ (match s.lookup e j with | none => [] | some x => s.viewsOf x)) : Views R s' := by
  have hvw : ∀ i v, v ∈ s'.viewsOf i ↔ v ∈ s.viewsOf i := by
    intro i v
    rw [mem_viewsOf_look, mem_viewsOf_look]
    by_cases hi : i = t
    · subst hi
      rw [h.node]
      constructor
      · rintro ⟨nm, m, hx⟩
        cases hy : s.look i with
        | none => rw [hy] at hx; cases hx
        | some n =>
          rw [hy] at hx
          cases n with
          | dir r => simp at hx
          | link a b => simp at hx
          | file a b c => simp at hx; exact ⟨a, b, by rw [hx.2.2]⟩
      · rintro ⟨nm, m, hx⟩; exact ⟨j, m, by rw [hx]; rfl⟩
    · rw [h.nodes i hi]
  have htin : In R s t := hd.step hl
  -- what was reachable and is not replaced still is
  have houtside : ∀ i, ¬ Under s t i → s.lookup e j ≠ some i → In R s i → In R s' i := by
    intro i hi hx h'
    refine In.induct (P := fun i => ¬ Under s t i → s.lookup e j ≠ some i → In R s' i) (fun b hb _ _ => In.root hb) ?_ h' hi hx
    intro a q x _ ih hax hxt hxx
    have hat : ¬ Under s t a := fun hu => hxt (.inr (hu.step hax))
    have haa : s.lookup e j ≠ some a := by
      intro hh
      have := (mem_entries hg).2 ⟨q, hax⟩
      rw [hemp a hh] at this; cases this
    refine (ih hat haa).step (k := q) ?_
    rw [h.entries, if_neg, if_neg]
    · exact hax
    · rintro ⟨rfl, rfl⟩; rw [hl] at hax; exact hxt (.inl (Option.some.inj hax).symm)
    · rintro ⟨rfl, rfl⟩; exact hxx hax
  have hee : s.lookup e j ≠ some e := by
    intro hh
    have := (mem_entries hg).2 ⟨j, hh⟩
    rw [hemp e hh] at this; cases this
  have htin' : In R s' t := (houtside e htame hee he).step (k := j) (by rw [h.entries, if_pos ⟨rfl, rfl⟩])
  have hinside : ∀ i, Under s t i → In R s' i := by
    intro i hu
    rcases hu with rfl | hu
    · exact htin'
    · have go : ∀ a q x, Under s t a → In R s' a → s.lookup a q = some x → In R s' x := by
        intro a q x hua hia hax
        by_cases hx : a = d ∧ q = k
        · rw [hx.1, hx.2, hl] at hax; cases hax; exact htin'
        · refine hia.step (k := q) ?_
          rw [h.entries, if_neg, if_neg hx]
          · exact hax
          · rintro ⟨rfl, rfl⟩; exact htame hua
      induction hu with
      | child hx => exact go _ _ _ (.inl rfl) htin' hx
      | step hb hx ih => exact go _ _ _ (.inr hb) ih hx
  have hback : ∀ i, In R s' i → In R s i := by
    intro i h'
    refine In.induct (P := fun i => In R s i) (fun b hb => In.root hb) ?_ h'
    intro a q x _ ih hax
    rw [h.entries] at hax
    split at hax
    · cases hax; exact htin
    · split at hax
      · cases hax
      · exact ih.step hax
  have hin : ∀ i, s.lookup e j ≠ some i → (In R s' i ↔ In R s i) := by
    intro i hx
    refine ⟨hback i, fun h' => ?_⟩
    by_cases hu : Under s t i
    · exact hinside i hu
    · exact houtside i hu hx h'
  have hgone : ∀ x v, s.lookup e j = some x → v ∈ s.viewsOf x → ¬ In R s' x := by
    intro x v hx hvx h'
    have hxt : x ≠ t := by rintro rfl; exact hself hx
    obtain ⟨b, hb, hu⟩ := h'
    rcases hu with rfl | hu
    · exact view_not_dir hvx (hR _ hb)
    · have : ∀ a q, s'.lookup a q ≠ some x := by
        intro a q hax
        rw [h.entries] at hax
        split at hax
        · exact hxt (Option.some.inj hax).symm
        · rename_i hne
          split at hax
          · cases hax
          · exact hne (hg.single _ _ _ _ _ hax hx)
      cases hu with
      | child hx => exact this _ _ hx
      | step _ hx => exact this _ _ hx
  refine ⟨?_, ?_, ?_, ?_⟩
  · intro i i' v hi hi'; rw [hvw] at hi hi'; exact hv.inj i i' v hi hi'
  · rw [hc]
    cases hx : s.lookup e j with
    | none => simp only [List.append_nil]; exact hv.nodup
    | some x =>
      refine List.nodup_append.2 ⟨hv.nodup, ?_, ?_⟩
      · simp only; unfold St.viewsOf; split <;> simp
      · intro a ha b hb hab
        subst hab
        exact (hv.exact x a hb).1 ha (he.step hx)
  · intro v hvc
    rw [hc] at hvc
    rcases List.mem_append.1 hvc with hvc | hvc
    · obtain ⟨i, hi⟩ := hv.owned v hvc; exact ⟨i, (hvw i v).2 hi⟩
    · cases hx : s.lookup e j with
      | none => rw [hx] at hvc; cases hvc
      | some x => rw [hx] at hvc; exact ⟨x, (hvw x v).2 hvc⟩
  · intro i v hi
    rw [hvw] at hi
    rw [hc, List.mem_append]
    by_cases hx : s.lookup e j = some i
    · rw [hx]
      exact ⟨fun _ => hgone i v hx hi, fun _ => .inr hi⟩
    · rw [hin i hx, ← hv.exact i v hi]
      constructor
      · rintro (h1 | h1)
        · exact h1
        · cases hy : s.lookup e j with
          | none => rw [hy] at h1; cases h1
          | some y =>
            rw [hy] at h1
            obtain rfl := hv.inj i y v hi h1
            exact absurd hy hx
      · exact .inl

/-! ### Calls -/

/-- The state of a world together with its roots. -/
structure Ok (R : List Id) (s : St) : Prop where
  good : Good s
  acyclic : Acyclic s
  dirs : ∀ b ∈ R, s.isDir b
  views : Views R s

theorem place_in {R : List Id} {s : St} (hg : Good s) {b : Id} (hb : b ∈ R) (hbd : s.isDir b) {name : Str} {d : Id} {k : Str} (h : Place s b name d k) : In R s d := by
  obtain ⟨ns, n, hp, hn, hf, _⟩ := h
  obtain ⟨name', hname⟩ := exists_name (ns := ns) (fun c hc => (placeOf_some hp).2.2 c (List.mem_append_left _ hc))
  obtain ⟨r, hr, rfl⟩ := (resolve_iff hg hbd name' d).2 ⟨ns, n, hname, hn, hf⟩
  exact ⟨b, hb, (resolve_ok hg hbd hr).under⟩

theorem Ok.next {R : List Id} {s s' : St} (h : Ok R s) (hp : Pres s s') (hv : Views R s') : Ok R s' :=
  ⟨hp.good h.good, hp.acyclic h.acyclic, fun b hb => hp.keeps b (h.dirs b hb), hv⟩

/-- A call that makes an entry. -/
theorem views_creates {R : List Id} {s : St} (h : Ok R s) {b : Id} (hb : b ∈ R) {name : Str} {n : Id → Str → Node} {r : St × Option Err} (hc : Creates s b name n r)
    (hnew : ∀ d k nm m v, n d k = .file nm m v → Unused s v) : Views R r.1 := by
  by_cases hp : ∃ d k, Place s b name d k
  · obtain ⟨d, k, hp⟩ := hp
    cases hl : s.lookup d k with
    | some c => rw [hc.taken d k c hp hl]; exact h.views
    | none =>
      obtain ⟨_, ha⟩ := hc.made d k hp hl
      obtain ⟨_, _, _, _, _, hdd⟩ := id hp
      exact views_adds h.views ha hl (place_in h.good hb (h.dirs b hb) hp) hdd (hnew d k)
  · rw [(hc.noPlace hp).1]; exact h.views

theorem views_chain {R : List Id} (mode : Nat) : ∀ (ks : List Str) (s s' : St) (d : Id), Views R s → In R s d → s.isDir d → (∀ k rest, ks = k :: rest → s.lookup d k = none) →
    MakesChain mode s s' d ks → Views R s' := by
  intro ks
  induction ks with
  | nil => intro s s' d hv _ _ _ h; rw [h]; exact hv
  | cons k ks ih =>
    intro s s' d hv hin hdd hfree h
    obtain ⟨s1, c, ha, hc, hch⟩ := h
    have hfree := hfree k ks rfl
    have hv1 := views_adds hv ha hfree hin hdd (by intro nm m v hx; cases hx)
    obtain ⟨c', hc', hlk, hcn, _, hsame⟩ := ha.new
    rw [hlk] at hc
    cases hc
    have hdc : s1.dir? c = some ⟨k, some d, [], [], mode⟩ := dir?_iff.2 hcn
    refine ih s1 s' c hv1 ((In.mono (adds_sub ha hfree) hin).step hlk) ⟨_, hdc⟩ ?_ hch
    intro k' rest _
    rw [lookup_of_dir hdc]; rfl

theorem put_over {s : St} {d : Id} (hd : s.isDir d) (k : Str) (n : Node) : s.put d k n = (s.removeEntry d k).put d k n := by
  obtain ⟨r, hr⟩ := hd
  have hlt := lt_of_dir hr
  have hcomm : (s.alloc n).1.removeEntry d k = ((s.removeEntry d k).alloc n).1 := by
    unfold St.removeEntry
    rw [dir?_alloc, if_neg (Nat.ne_of_lt hlt), hr]
    simp only
    cases assoc k r.index with
    | none => rfl
    | some e =>
      simp only [St.setDir, St.alloc]
      rw [List.set_append_left _ _ hlt]
  have hgone : (s.alloc n).1.removeEntry d k = ((s.alloc n).1.removeEntry d k).removeEntry d k := by
    rw [removeEntry_missing (s := (s.alloc n).1.removeEntry d k)]
    rw [lookup_removeEntry, if_pos ⟨rfl, rfl⟩]
  have hlen : (s.removeEntry d k).nodes.length = s.nodes.length := nodes_length_removeEntry s d k
  unfold St.put St.addEntry
  have e2 : ((s.removeEntry d k).alloc n).2 = (s.alloc n).2 := hlen
  rw [e2, ← hcomm, ← hgone]

theorem entries_nodir {s : St} {i : Id} (h : ¬ s.isDir i) : s.entries i = [] := by
  unfold St.entries
  cases hx : s.dir? i with
  | none => rfl
  | some r => exact absurd ⟨r, hx⟩ h

theorem ok_ensureEach {R : List Id} {b : Id} (hb : b ∈ R) : ∀ (ps : List Str) (parent : Id) (s : St), Ok R s → In R s parent → s.isDir parent →
    Ok R (ensureEach b ps parent s).1 ∧ ∀ d, (ensureEach b ps parent s).2 = .ok d → In R (ensureEach b ps parent s).1 d := by
  intro ps
  induction ps with
  | nil => intro parent s h hin _; refine ⟨h, ?_⟩; intro d hd; cases hd; exact hin
  | cons p rest ih =>
    intro parent s h hin hpd
    have hbd := h.dirs b hb
    simp only [ensureEach]
    split
    · rename_i r hr
      split
      · exact ⟨h, by intro d hd; cases hd⟩
      · rename_i x hx
        exact ih _ s h ⟨b, hb, (resolve_ok h.good hbd hr).under⟩ ⟨x, hx⟩
    · rename_i hmiss
      split
      · exact ⟨h, by intro d hd; cases hd⟩
      · rename_i pp pb hpp
        have hpl := (resolveParent_iff h.good hbd p pp pb).1 hpp
        have hppd := resolveParent_dir hpp
        have hppin := place_in h.good hb hbd hpl
        have hpres : Pres s (s.putDir pp pb 0o755).1 := pres_putDir hppd pb 0o755
        have hblank : (Node.dir (newDir pb 0o755 (some pp))).Blank := by simp [Node.Blank, newDir]
        have hboth : Views R (s.put pp pb (.dir (newDir pb 0o755 (some pp)))) ∧ In R (s.put pp pb (.dir (newDir pb 0o755 (some pp)))) s.nodes.length := by
          have hlk : (s.put pp pb (.dir (newDir pb 0o755 (some pp)))).lookup pp pb = some s.nodes.length := by
            rw [lookup_put hppd hblank, if_pos ⟨rfl, rfl⟩]
          cases hl : s.lookup pp pb with
          | none =>
            have ha := adds_put (n := .dir (newDir pb 0o755 (some pp))) hppd hblank hl
            exact ⟨views_adds h.views ha hl hppin hppd (by intro nm m v hx; cases hx), (In.mono (adds_sub ha hl) hppin).step hlk⟩
          | some c =>
            obtain ⟨nm, tg, hcl⟩ := missing_is_link h.good hbd hmiss hpp hl
            have hrem := removes_entry h.good hl
            have hnd : ¬ s.isDir c := by rintro ⟨r, hr⟩; rw [dir?_iff, hcl] at hr; cases hr
            have hemp := entries_nodir hnd
            have hvo : s.viewsOf c = [] := by unfold St.viewsOf; rw [hcl]
            have hv1 := views_removes h.good h.views h.dirs hrem hl hemp hppin (by rw [closed_removeEntry', hvo]; simp)
            have hne : pp ≠ c := by rintro rfl; exact hnd hppd
            have hin1 := in_removes h.good hrem hl hemp hne hppin
            have hd1 : (s.removeEntry pp pb).isDir pp := Keeps.of_look (look_removeEntry s pp pb) pp hppd
            rw [put_over hppd] at hlk ⊢
            have ha := adds_put (n := .dir (newDir pb 0o755 (some pp))) hd1 hblank hrem.gone.1
            exact ⟨views_adds hv1 ha hrem.gone.1 hin1 hd1 (by intro nm m v hx; cases hx), (In.mono (adds_sub ha hrem.gone.1) hin1).step hlk⟩
        exact ih s.nodes.length _ (h.next hpres hboth.1) hboth.2 (putDir_isDir pb 0o755)
    · exact ⟨h, by intro d hd; cases hd⟩

theorem ok_ensureParents {R : List Id} {b : Id} (hb : b ∈ R) {s : St} (h : Ok R s) (name : Str) :
    Ok R (ensureParents s b name).1 ∧ ∀ d base, (ensureParents s b name).2 = .ok (d, base) → In R (ensureParents s b name).1 d := by
  unfold ensureParents
  split
  · exact ⟨h, by intro d base hd; cases hd⟩
  · rename_i slash hs
    split
    · exact ⟨h, by intro d base hd; cases hd⟩
    · split
      · exact ⟨h, by intro d base hd; cases hd; exact In.root hb⟩
      · have h1 := ok_ensureEach hb (Fsutil.vPathFromHead (splitLast slash).1) b s h (In.root hb) (h.dirs b hb)
        split
        · rename_i s1 e he; rw [he] at h1; exact ⟨h1.1, by intro d base hd; cases hd⟩
        · rename_i s1 d he
          rw [he] at h1
          refine ⟨h1.1, ?_⟩
          intro d' base hd
          cases hd
          exact h1.2 d rfl

/-- Directories made for AddFile hold no views. -/
theorem unused_ensure {b : Id} {v : Nat} : ∀ (ps : List Str) (parent : Id) (s : St), Unused s v → Unused (ensureEach b ps parent s).1 v := by
  intro ps
  induction ps with
  | nil => intro parent s h; exact h
  | cons p rest ih =>
    intro parent s h
    simp only [ensureEach]
    split
    · split
      · exact h
      · exact ih _ s h
    · split
      · exact h
      · rename_i pp pb hpp
        apply ih
        rw [unused_iff] at h ⊢
        intro i hv
        obtain ⟨nm, m, hx⟩ := mem_viewsOf_look.1 hv
        rw [look_put] at hx
        split at hx
        · simp [skel] at hx
        · exact h i (mem_viewsOf_look.2 ⟨nm, m, hx⟩)
    · exact h

theorem unused_ensureParents {b : Id} {v : Nat} {s : St} (name : Str) (h : Unused s v) : Unused (ensureParents s b name).1 v := by
  unfold ensureParents
  split
  · exact h
  · rename_i slash hs
    split
    · exact h
    · split
      · exact h
      · have h1 := unused_ensure (b := b) (v := v) (Fsutil.vPathFromHead (splitLast slash).1) b s h
        split
        · rename_i s1 e he; rw [he] at h1; exact h1
        · rename_i s1 d he; rw [he] at h1; exact h1

/-- A file or link put where nothing is, or in place of one. -/
theorem views_replace {R : List Id} {s : St} (h : Ok R s) {d : Id} {base : Str} {n : Node} (hin : In R s d) (hdd : s.isDir d) (hold : ∀ c, s.lookup d base = some c → ¬ s.isDir c)
    (hu : ∀ nm m v, n = .file nm m v → Unused s v) (hb : n.Blank) : Views R ((s.unlink d base).put d base n) := by
  cases hl : s.lookup d base with
  | none =>
    have hul : s.unlink d base = s := by unfold St.unlink; rw [hl]
    rw [hul]
    exact views_adds h.views (adds_put hdd hb hl) hl hin hdd hu
  | some c =>
    have hul : s.unlink d base = (s.removeEntry d base).closeView c := by unfold St.unlink; rw [hl]
    have hnd := hold c hl
    have hemp := entries_nodir hnd
    have hrem : Removes s ((s.removeEntry d base).closeView c) d base c := by
      have := removes_entry h.good hl
      exact ⟨⟨fun e j hne => by rw [lookup_closeView]; exact this.rest.entries e j hne, fun e he => by rw [entries_closeView]; exact this.rest.lists e he⟩,
        ⟨by rw [lookup_closeView]; exact this.gone.1, by rw [entries_closeView]; exact this.gone.2⟩, fun i => by rw [look_closeView]; exact this.nodes i⟩
    have hv1 := views_removes h.good h.views h.dirs hrem hl hemp hin (by rw [closed_closeView, closed_removeEntry', viewsOf_look (look_removeEntry s d base)])
    have hin1 := in_removes h.good hrem hl hemp (by rintro rfl; exact hnd hdd) hin
    have hd1 : ((s.removeEntry d base).closeView c).isDir d := Keeps.of_look hrem.nodes d hdd
    rw [hul]
    refine views_adds hv1 (adds_put hd1 hb hrem.gone.1) hrem.gone.1 hin1 hd1 ?_
    intro nm m v' hx
    have := hu nm m v' hx
    rw [unused_iff] at this ⊢
    intro i; rw [viewsOf_look hrem.nodes]; exact this i

theorem views_addFile {R : List Id} {b : Id} (hb : b ∈ R) {s : St} (h : Ok R s) {cb : AddFunc} {name : Str} {mode v : Nat} (hun : Unused s v)
    (hcb : ∀ p k, cb p k (some .dir) ≠ .ok .override) : Views R (addFile cb s b name mode v).1 := by
  have h1 := ok_ensureParents hb h name
  have hdir := (pres_ensureParents (h.dirs b hb) name).2
  have hu := unused_ensureParents (b := b) name hun
  unfold addFile
  split
  · rename_i s1 e he; rw [he] at h1; exact h1.1.views
  · rename_i s1 d base he
    rw [he] at h1 hdir hu
    have hin := h1.2 d base rfl
    have hdd := hdir d base rfl
    obtain ⟨h1, _⟩ := h1
    simp only at h1 hin hdd hu
    split
    · exact h1.views
    · exact h1.views
    · exact h1.views
    · rename_i hdec
      refine views_replace h1 hin hdd ?_ (fun nm m v' hx => by cases hx; exact hu) (by trivial)
      rintro c hl ⟨r, hr⟩
      apply hcb (clean name) .file
      rw [← hdec, existing_some hl (dir?_iff.1 hr)]
      rfl

/-! ### AddFS -/

/-- As `removesAll`, for AddFS, which takes the entry away first. -/
theorem removesAll_after {s : St} (hg : Good s) {d : Id} {k : Str} {t : Id} (h : s.lookup d k = some t) (hd : ¬ Under s t d) {fuel : Nat} {s1 : St}
    (h1 : removeSubtree fuel t (s.removeEntry d k) = some s1) : RemovesAll s s1 d k t := by
  have hg0 : Good (s.removeEntry d k) := (shr_removeEntry s d k).good hg
  have hl0 : ∀ e j, (s.removeEntry d k).lookup e j = if e = d ∧ j = k then none else s.lookup e j := fun e j => lookup_removeEntry ..
  have hu : ∀ e, Under (s.removeEntry d k) t e ↔ Under s t e := by
    intro e
    constructor
    · rintro (rfl | hb)
      · exact .inl rfl
      · right
        induction hb with
        | child hc => exact .child ((shr_removeEntry s d k).sub _ _ _ hc)
        | step _ hc ih => exact .step ih ((shr_removeEntry s d k).sub _ _ _ hc)
    · rintro (rfl | hb)
      · exact .inl rfl
      · right
        induction hb with
        | child hc =>
          exact .child ((hl0 _ _).trans ((if_neg (fun hx => hd (.inl hx.1.symm))).trans hc))
        | @step e j c hb hc ih =>
          exact .step ih ((hl0 e j).trans ((if_neg (fun hx : e = d ∧ j = k => hd (.inr (hx.1 ▸ hb)))).trans hc))
  have hs := shr_removeSubtree fuel t _ s1 h1
  obtain ⟨hsw, hdone⟩ := sweep_removeSubtree hg0 fuel t _ s1 ⟨Shr.refl _, fun e k hne => absurd rfl hne, ⟨[], by simp⟩⟩ h1
  have hsame : ∀ e, ¬ Under s t e → s1.nodes[e]? = (s.removeEntry d k).nodes[e]? := by
    intro e he
    have he' : ¬ Under (s.removeEntry d k) t e := fun h => he ((hu e).1 h)
    by_cases hlt : e < (s.removeEntry d k).nodes.length
    · have hcl : Closed (fun i => Under (s.removeEntry d k) t i ∨ (s.removeEntry d k).nodes.length ≤ i) (s.removeEntry d k) := by
        refine ⟨?_, fun i hi => .inr hi⟩
        rintro a j c (ha | ha) hc
        · exact .inl (.inr (ha.step hc))
        · obtain ⟨r, hr⟩ := lookup_isDir hc
          exact absurd (lt_of_dir hr) (Nat.not_lt.2 ha)
      refine (fr_removeSubtree fuel t _ s1 hg0 hcl (.inl (.inl rfl)) h1).1.same e ?_
      rintro (hh | hh)
      · exact he' hh
      · exact absurd hlt (Nat.not_lt.2 hh)
    · have e1 : (s.removeEntry d k).nodes[e]? = none := List.getElem?_eq_none (Nat.not_lt.1 hlt)
      have := hs.look e
      unfold St.look at this
      rw [e1] at this
      rw [e1]
      cases hx : s1.nodes[e]? with
      | none => rfl
      | some x => rw [hx] at this; cases this
  have hlk : ∀ e j, ¬ Under s t e → s1.lookup e j = (s.removeEntry d k).lookup e j := by
    intro e j he; unfold St.lookup St.dir?; rw [hsame e he]
  have hen : ∀ e, ¬ Under s t e → s1.entries e = (s.removeEntry d k).entries e := by
    intro e he; unfold St.entries St.dir?; rw [hsame e he]
  refine ⟨by rw [hlk d k hd, hl0, if_pos ⟨rfl, rfl⟩], fun e j he => (hdone e ((hu e).2 he)).1 j, ?_, ?_, ?_, ?_, ?_⟩
  · intro e j he hne; rw [hlk e j he, hl0, if_neg hne]
  · intro e he hne; rw [hen e he, entries_removeEntry_ne s d k hne]
  · intro he; rw [hen d he, entries_removeEntry hg h]
  · intro i; rw [hs.look, look_removeEntry]
  · intro v
    have hvo : ∀ e, (s.removeEntry d k).viewsOf e = s.viewsOf e := viewsOf_look (look_removeEntry s d k)
    constructor
    · intro hv
      rcases only_under hg0 fuel t _ s1 (Shr.refl _) h1 v hv with hv | ⟨e, he, hv⟩
      · rw [closed_removeEntry'] at hv; exact .inl hv
      · exact .inr ⟨e, (hu e).1 he, by rw [← hvo]; exact hv⟩
    · rintro (hv | ⟨e, he, hv⟩)
      · obtain ⟨vs, hvs⟩ := closed_removeSubtree fuel t _ s1 h1
        rw [hvs, closed_removeEntry']; exact List.mem_append_left _ hv
      · exact (hdone e ((hu e).2 he)).2 v (by rw [hvo]; exact hv)

/-- A directory that is filled is reached as before. -/
theorem in_fr {R : List Id} {s s' : St} {d : Id} (ha : Acyclic s) (hfr : ∀ U : Id → Prop, Closed U s → U d → Fr U s s') (h : In R s d) : In R s' d := by
  have hcl : Closed (fun i => Under s d i ∨ s.nodes.length ≤ i) s := by
    refine ⟨?_, fun i hi => .inr hi⟩
    rintro a j c (ha | ha) hc
    · exact .inl (.inr (ha.step hc))
    · obtain ⟨r, hr⟩ := lookup_isDir hc
      exact absurd (lt_of_dir hr) (Nat.not_lt.2 ha)
  have hf := hfr _ hcl (.inl (.inl rfl))
  refine In.induct (P := fun e => ¬ Below s d e → In R s' e) (fun b hb _ => In.root hb) ?_ h (ha d)
  intro x j e _ ih hx hne
  have hxd : x ≠ d := by rintro rfl; exact hne (.child hx)
  have hxb : ¬ Below s d x := fun hb => hne (.step hb hx)
  refine (ih hxb).step (k := j) ?_
  have : s'.nodes[x]? = s.nodes[x]? := hf.same x (by
    rintro ((h | h) | h)
    · exact hxd h
    · exact hxb h
    · obtain ⟨r, hr⟩ := lookup_isDir hx
      exact absurd (lt_of_dir hr) (Nat.not_lt.2 h))
  unfold St.lookup St.dir? at hx ⊢
  rw [this]; exact hx

theorem unused_look {s s' : St} {v : Nat} (h : ∀ i, s'.look i = s.look i) (hu : Unused s v) : Unused s' v := by
  rw [unused_iff] at hu ⊢
  intro i; rw [viewsOf_look h]; exact hu i

theorem unused_put {s : St} {d : Id} {k : Str} {n : Node} {v : Nat} (hn : ∀ nm m, n ≠ .file nm m v) (hu : Unused s v) : Unused (s.put d k n) v := by
  rw [unused_iff] at hu ⊢
  intro i hv
  obtain ⟨nm, m, hx⟩ := mem_viewsOf_look.1 hv
  rw [look_put] at hx
  split at hx
  · cases n with
    | dir r => simp [skel] at hx
    | file a b c => simp only [skel, Option.some.injEq] at hx; exact hn nm m hx
    | link a b => simp [skel] at hx
  · exact hu i (mem_viewsOf_look.2 ⟨nm, m, hx⟩)

/-- What the policy must not do. -/
structure Polite (cb : AddFunc) : Prop where
  leaf : ∀ p inc, inc ≠ .dir → cb p inc (some .dir) ≠ .ok .override
  file : ∀ p k, cb p .file (some k) ≠ .ok .keep
  dir : ∀ p k, k ≠ .dir → cb p .dir (some k) ≠ .ok .keep

theorem existing_dir {s : St} {d c : Id} {k : Str} (hl : s.lookup d k = some c) (hd : s.isDir c) : s.existing d k = some .dir := by
  obtain ⟨r, hr⟩ := hd
  rw [existing_some hl (dir?_iff.1 hr)]; rfl

theorem existing_nodir {s : St} (hg : Good s) {d c : Id} {k : Str} (hl : s.lookup d k = some c) (hd : ¬ s.isDir c) : ∃ x, s.existing d k = some x ∧ x ≠ .dir := by
  cases he : s.existing d k with
  | none => rw [existing_none hg he] at hl; cases hl
  | some x =>
    refine ⟨x, rfl, ?_⟩
    rintro rfl
    unfold St.existing at he
    rw [hl] at he
    cases hn : s.nodes[c]? with
    | none => simp [hn] at he
    | some n =>
      cases n with
      | dir r => exact hd ⟨r, dir?_iff.2 hn⟩
      | file a b e => simp [hn, Node.kind] at he
      | link a b => simp [hn, Node.kind] at he

/-- The directory that a directory of the source goes to. -/
theorem ok_materialize {R : List Id} {s : St} (h : Ok R s) {dst : Id} (hin : In R s dst) (hdd : s.isDir dst) {fuel : Nat} {base : Str} {mode : Nat} {ov : Bool} {s1 : St} {d : Id}
    (hov : ∀ c, s.lookup dst base = some c → ¬ s.isDir c → ov = true) (hm : materializeDir fuel s dst base mode ov = some (s1, d)) :
    Ok R s1 ∧ In R s1 d ∧ ∀ v, Unused s v → Unused s1 v := by
  have hp := (pres_materialize hdd hm).1
  have hblank : (Node.dir (newDir base mode (some dst))).Blank := by simp [Node.Blank, newDir]
  have hput : ∀ s2 : St, Views R s2 → In R s2 dst → s2.isDir dst → s2.lookup dst base = none → (∀ v, Unused s v → Unused s2 v) → s2.putDir dst base mode = (s1, d) →
      Ok R s1 ∧ In R s1 d ∧ ∀ v, Unused s v → Unused s1 v := by
    intro s2 hv hi hd hf hun he
    have hs1 : s1 = s2.put dst base (.dir (newDir base mode (some dst))) := by rw [St.putDir] at he; exact (Prod.mk.inj he).1.symm
    have hd1 : d = s2.nodes.length := by rw [St.putDir] at he; exact (Prod.mk.inj he).2.symm
    have ha := adds_put hd hblank hf
    rw [← hs1] at ha
    refine ⟨h.next hp (views_adds hv ha hf hi hd (by intro nm m v hx; cases hx)), (In.mono (adds_sub ha hf) hi).step (k := base) ?_, ?_⟩
    · rw [hs1, lookup_put hd hblank, if_pos ⟨rfl, rfl⟩, hd1]
    · intro v hu
      rw [hs1]
      exact unused_put (by intro nm m hx; cases hx) (hun v hu)
  unfold materializeDir at hm
  split at hm
  · rename_i hf
    cases hm
    exact hput s h.views hin hdd hf (fun _ h => h) rfl
  · rename_i ex hex
    split at hm
    · cases hm
      exact ⟨h, hin.step hex, fun _ h => h⟩
    · rename_i hnd
      have hovt : ov = true := by
        by_cases hx : s.isDir ex
        · obtain ⟨r, hr⟩ := hx
          cases ov with
          | true => rfl
          | false => exact absurd ⟨by rw [hr]; rfl, rfl⟩ hnd
        · exact hov ex hex hx
      rw [if_pos hovt] at hm
      cases hr : removeSubtree fuel ex (s.removeEntry dst base) with
      | none => rw [hr] at hm; cases hm
      | some s2 =>
        rw [hr] at hm
        simp only [Option.map_some, Option.some.injEq] at hm
        have hnu : ¬ Under s ex dst := by
          rintro (rfl | hb)
          · exact h.acyclic _ (.child hex)
          · exact h.acyclic _ (Below.trans (.child hex) hb)
        have hra := removesAll_after h.good hex hnu hr
        have hv : Views R s2 := by
          refine views_removesAll h.good h.views h.dirs hra hex hin ?_
          have hp1 := (shr_removeEntry s dst base).pres
          refine nodup_removeSubtree (hp1.good h.good) (hp1.acyclic h.acyclic) ?_ fuel ex _ s2 (Shr.refl _) (by rw [closed_removeEntry']; exact h.views.nodup) ?_ hr
          · intro i j v hi hj
            rw [viewsOf_look (look_removeEntry s dst base)] at hi hj
            exact h.views.inj i j v hi hj
          · intro e hu v hv hvc
            rw [viewsOf_look (look_removeEntry s dst base)] at hv
            rw [closed_removeEntry'] at hvc
            have hb' : ∀ e, Below (s.removeEntry dst base) ex e → Below s ex e := by
              intro e hb
              induction hb with
              | child hc => exact .child ((shr_removeEntry s dst base).sub _ _ _ hc)
              | step _ hc ih => exact .step ih ((shr_removeEntry s dst base).sub _ _ _ hc)
            have hu' : Under s ex e := hu.imp id (hb' e)
            exact (h.views.exact e v hv).1 hvc ((hin.step hex).trans hu')
        have hin2 : In R s2 dst := by
          refine In.induct (P := fun i => ¬ Under s ex i → In R s2 i) (fun b hb _ => In.root hb) ?_ hin hnu
          intro e j x _ ih hx hxt
          have het : ¬ Under s ex e := fun hu => hxt (.inr (hu.step hx))
          refine (ih het).step (k := j) ?_
          rw [hra.entries e j het ?_]; exact hx
          rintro ⟨rfl, rfl⟩
          rw [hex] at hx
          exact hxt (.inl (Option.some.inj hx).symm)
        exact hput s2 hv hin2 (Keeps.of_look hra.nodes dst hdd) hra.gone (fun v => unused_look hra.nodes) hm

mutual
theorem ok_addWalk {R : List Id} (fuel : Nat) {cb : AddFunc} (hcb : Polite cb) (s : St) (h : Ok R s) (dst : Id) (base path : Str) (hin : In R s dst) (hdd : s.isDir dst) :
    (src : Src) → src.views.Nodup → (∀ v ∈ src.views, Unused s v) →
    Ok R (addWalk fuel cb s dst base path src).1 ∧ ∀ v, v ∉ src.views → Unused s v → Unused (addWalk fuel cb s dst base path src).1 v
  | .bad => fun _ _ => ⟨h, fun _ _ h => h⟩
  | .dir mode ok kids => fun hnd hun => by
    have fin : ∀ ov s1 d, (∀ c, s.lookup dst base = some c → ¬ s.isDir c → ov = true) → materializeDir fuel s dst base mode ov = some (s1, d) →
        Ok R (if ok then addKids fuel cb s1 d path kids else (s1, some .source)).1 ∧
        ∀ v, v ∉ (Src.dir mode ok kids).views → Unused s v → Unused (if ok then addKids fuel cb s1 d path kids else (s1, some .source)).1 v := by
      intro ov s1 d hov hm
      obtain ⟨h1, h2, h3⟩ := ok_materialize h hin hdd hov hm
      cases ok with
      | false => exact ⟨h1, fun v _ hu => h3 v hu⟩
      | true =>
        have := ok_addKids fuel hcb s1 h1 d path h2 (pres_materialize hdd hm).2 kids (by simpa [Src.views] using hnd) (fun v hv => h3 v (hun v (by simpa [Src.views] using hv)))
        exact ⟨this.1, fun v hv hu => this.2 v (by simpa [Src.views] using hv) (h3 v hu)⟩
    simp only [addWalk]
    split
    · exact ⟨h, fun _ _ h => h⟩
    · exact ⟨h, fun _ _ h => h⟩
    · rename_i hdec
      split
      · exact ⟨h, fun _ _ h => h⟩
      · rename_i s1 d hm
        refine fin false s1 d ?_ hm
        intro c hl hc
        obtain ⟨x, hx, hxd⟩ := existing_nodir h.good hl hc
        rw [hx] at hdec
        exact absurd hdec (hcb.dir _ _ hxd)
    · split
      · exact ⟨h, fun _ _ h => h⟩
      · rename_i s1 d hm
        exact fin true s1 d (fun _ _ _ => rfl) hm
  | .link target => fun _ _ => by
    simp only [addWalk]
    split
    · exact ⟨h, fun _ _ h => h⟩
    · exact ⟨h, fun _ _ h => h⟩
    · cases target with
      | none => exact ⟨h, fun _ _ h => h⟩
      | some t =>
        simp only
        split
        · exact ⟨h, fun _ _ h => h⟩
        · rename_i hl
          have hv := views_adds h.views (adds_put (n := .link base t) hdd trivial hl) hl hin hdd (by intro nm m v hx; cases hx)
          exact ⟨h.next (pres_put (n := .link base t) hdd trivial rfl (by intro r hr; cases hr)) hv, fun v _ hu => unused_put (by intro nm m hx; cases hx) hu⟩
    · rename_i hdec
      cases target with
      | none => exact ⟨h, fun _ _ h => h⟩
      | some t =>
        have hold : ∀ c, s.lookup dst base = some c → ¬ s.isDir c := by
          intro c hl hc
          rw [existing_dir hl hc] at hdec
          exact hcb.leaf _ _ (by decide) hdec
        have hv := views_replace (n := .link base t) h hin hdd hold (by intro nm m v hx; cases hx) trivial
        have hp : Pres s ((s.unlink dst base).put dst base (.link base t)) := (shr_unlink s dst base).pres.trans (pres_put (n := .link base t) ((shr_unlink s dst base).pres.keeps _ hdd) trivial rfl (by intro r hr; cases hr))
        exact ⟨h.next hp hv, fun v _ hu => unused_put (by intro nm m hx; cases hx) (unused_look (shr_unlink s dst base).look hu)⟩
  | .file mode view => fun hnd hun => by
    simp only [addWalk]
    split
    · exact ⟨h, fun _ _ h => h⟩
    · exact ⟨h, fun _ _ h => h⟩
    · rename_i hdec
      cases view with
      | none => exact ⟨h, fun _ _ h => h⟩
      | some v =>
        simp only
        split
        · rename_i c hl
          exfalso
          cases he : s.existing dst base with
          | none => rw [existing_none h.good he] at hl; cases hl
          | some x => rw [he] at hdec; exact hcb.file _ _ hdec
        · rename_i hl
          have hv := views_adds h.views (adds_put (n := .file base mode v) hdd trivial hl) hl hin hdd (by intro nm m v' hx; cases hx; exact hun v (by simp [Src.views]))
          exact ⟨h.next (pres_put (n := .file base mode v) hdd trivial rfl (by intro r hr; cases hr)) hv, fun v' hv' hu => unused_put (by intro nm m hx; cases hx; exact hv' (by simp [Src.views])) hu⟩
    · rename_i hdec
      cases view with
      | none => exact ⟨h, fun _ _ h => h⟩
      | some v =>
        have hold : ∀ c, s.lookup dst base = some c → ¬ s.isDir c := by
          intro c hl hc
          rw [existing_dir hl hc] at hdec
          exact hcb.leaf _ _ (by decide) hdec
        have hv := views_replace (n := .file base mode v) h hin hdd hold (by intro nm m v' hx; cases hx; exact hun v (by simp [Src.views])) trivial
        have hp : Pres s ((s.unlink dst base).put dst base (.file base mode v)) := (shr_unlink s dst base).pres.trans (pres_put (n := .file base mode v) ((shr_unlink s dst base).pres.keeps _ hdd) trivial rfl (by intro r hr; cases hr))
        exact ⟨h.next hp hv, fun v' hv' hu => unused_put (by intro nm m hx; cases hx; exact hv' (by simp [Src.views])) (unused_look (shr_unlink s dst base).look hu)⟩
theorem ok_addKids {R : List Id} (fuel : Nat) {cb : AddFunc} (hcb : Polite cb) (s : St) (h : Ok R s) (d : Id) (path : Str) (hin : In R s d) (hdd : s.isDir d) :
    (kids : List (Str × Src)) → (kidsViews kids).Nodup → (∀ v ∈ kidsViews kids, Unused s v) →
    Ok R (addKids fuel cb s d path kids).1 ∧ ∀ v, v ∉ kidsViews kids → Unused s v → Unused (addKids fuel cb s d path kids).1 v
  | [] => fun _ _ => ⟨h, fun _ _ h => h⟩
  | (k, c) :: rest => fun hnd hun => by
    simp only [kidsViews] at hnd hun ⊢
    obtain ⟨hn1, hn2, hn3⟩ := List.nodup_append.1 hnd
    have h1 := ok_addWalk fuel hcb s h d k (slashJoin path k) hin hdd c hn1 (fun v hv => hun v (List.mem_append_left _ hv))
    have p1 := pres_addWalk fuel cb s d k (slashJoin path k) hdd c
    have i1 := in_fr (R := R) (d := d) h.acyclic (fun U hc hu => fr_addWalk fuel cb s d k (slashJoin path k) h.good hdd hc hu c) hin
    simp only [addKids]
    split
    · rename_i s1 e he
      rw [he] at h1
      exact ⟨h1.1, fun v hv hu => h1.2 v (fun hx => hv (List.mem_append_left _ hx)) hu⟩
    · rename_i s1 he
      rw [he] at h1 p1 i1
      have h2 := ok_addKids fuel hcb s1 h1.1 d path i1 (p1.keeps _ hdd) rest hn2 (fun v hv => h1.2 v (fun hx => hn3 v hx v hv rfl) (hun v (List.mem_append_right _ hv)))
      exact ⟨h2.1, fun v hv hu => h2.2 v (fun hx => hv (List.mem_append_right _ hx)) (h1.2 v (fun hx => hv (List.mem_append_left _ hx)) hu)⟩
end

theorem polite_refusing {cb : AddFunc} (h : cb = mergeOverwrite ∨ cb = failOnConflict ∨ Exchanges cb) : Polite (refusing cb) := by
  have hleaf : ∀ p inc, inc ≠ .dir → refusing cb p inc (some .dir) ≠ .ok .override := by
    intro p inc hi
    unfold refusing
    split
    · rw [if_pos ⟨hi, rfl⟩]; intro hx; cases hx
    · rename_i hne; exact hne
  have hx : Exchanges cb := by
    rcases h with rfl | rfl | h
    · constructor
      · intro p k; simp [mergeOverwrite]
      · intro p k hk; simp [mergeOverwrite, hk]
    · constructor
      · intro p k; simp [failOnConflict]
      · intro p k hk; simp [failOnConflict, hk]
    · exact h
  refine ⟨hleaf, ?_, ?_⟩
  · intro p k
    unfold refusing
    split
    · split <;> (intro hx; cases hx)
    · exact hx.1 p k
  · intro p k hk
    unfold refusing
    split
    · split <;> (intro hx; cases hx)
    · exact hx.2 p k hk

theorem views_addFS {R : List Id} {b : Id} (hb : b ∈ R) {s : St} (h : Ok R s) {fuel : Nat} {cb : AddFunc} {name : Str} {src : Src} (hnd : src.views.Nodup)
    (hun : ∀ v ∈ src.views, Unused s v) (hcb : cb = mergeOverwrite ∨ cb = failOnConflict ∨ Exchanges cb)
    (hsame : addFS fuel (refusing cb) s b name src = addFS fuel cb s b name src) : Views R (addFS fuel cb s b name src).1 := by
  rw [← hsame]
  have hpol := polite_refusing hcb
  unfold addFS
  split
  · exact h.views
  · split
    · split
      · rename_i m kids
        exact (ok_addKids fuel hpol s h b dot (In.root hb) (h.dirs b hb) kids (by simpa [Src.views] using hnd) (fun v hv => hun v (by simpa [Src.views] using hv))).1.views
      · exact h.views
    · have h1 := ok_ensureParents hb h name
      have hdir := (pres_ensureParents (h.dirs b hb) name).2
      split
      · rename_i s1 e he; rw [he] at h1; exact h1.1.views
      · rename_i s1 d base he
        have hu : ∀ v ∈ src.views, Unused s1 v := by
          intro v hv
          have := unused_ensureParents (b := b) name (hun v hv)
          rw [he] at this; exact this
        rw [he] at h1 hdir
        exact (ok_addWalk fuel hpol s1 h1.1 d base _ (h1.2 d base rfl) (hdir d base rfl) src hnd hu).1.views

theorem views_call {R : List Id} {b : Id} (hb : b ∈ R) {s : St} (h : Ok R s) (c : Call) (hc : c.OwnViews s b) : Views R (callOn s b c).1 := by
  have hbd := h.dirs b hb
  have hg := h.good
  cases c with
  | mkdir n m => exact views_creates h hb (creates_mkdir hg hbd n m) (by intro d k nm m' v hx; cases hx)
  | mkdirAll n m =>
    obtain ⟨h1, h2, h3⟩ := mkdirAll_exact hg hbd n m
    simp only [callOn]
    by_cases ha : ∃ x, LeadsTo s b n x ∧ s.isDir x
    · obtain ⟨x, hx, hxd⟩ := ha
      rw [h1 x hx hxd]; exact h.views
    · by_cases hp : ∃ pre k rest d, placeOf n = some (pre ++ k :: rest) ∧ Leads s b pre d ∧ s.isDir d ∧ s.lookup d k = none
      · obtain ⟨pre, k, rest, d, hp, hld, hdd, hfree⟩ := hp
        obtain ⟨s', he, hch⟩ := h2 pre k rest d hp hld hdd hfree
        rw [he]
        have hin : In R s d := by
          obtain ⟨n', hn', hf⟩ := hld
          obtain ⟨name', hname⟩ := exists_name (ns := pre) (fun c hc => (placeOf_some hp).2.2 c (List.mem_append_left _ hc))
          obtain ⟨r, hr, rfl⟩ := (resolve_iff hg hbd name' d).2 ⟨pre, n', hname, hn', hf⟩
          exact ⟨b, hb, (resolve_ok hg hbd hr).under⟩
        refine views_chain m (k :: rest) s s' d h.views hin hdd ?_ hch
        intro k' rest' e; cases e; exact hfree
      · rw [(h3 ha hp).1]; exact h.views
  | create n m => exact views_creates h hb (creates_create hg hbd n m) (by intro d k nm m' v hx; cases hx; exact hc)
  | symlink t n => exact views_creates h hb (creates_symlink hg hbd t n) (by intro d k nm m' v hx; cases hx)
  | link o n => exact hc.elim
  | addFS fuel cb name src => exact views_addFS hb h hc.1 hc.2.1 hc.2.2.1 hc.2.2.2
  | openRoot n => exact h.views
  | addFile cb n m v => exact views_addFile hb h hc.1 hc.2
  | remove n busy =>
    simp only [callOn]
    unfold remove
    split
    · exact h.views
    · rename_i d k hrp
      have hpl := (resolveParent_iff hg hbd n d k).1 hrp
      split
      · exact h.views
      · rename_i t hl
        split
        · exact h.views
        · rename_i hemp
          split
          · exact h.views
          · have this := removes_entry hg hl
            have hrem : Removes s ((s.removeEntry d k).closeView t) d k t :=
              ⟨⟨fun e j hne => by rw [lookup_closeView]; exact this.rest.entries e j hne, fun e he => by rw [entries_closeView]; exact this.rest.lists e he⟩,
                ⟨by rw [lookup_closeView]; exact this.gone.1, by rw [entries_closeView]; exact this.gone.2⟩, fun i => by rw [look_closeView]; exact this.nodes i⟩
            exact views_removes hg h.views h.dirs hrem hl (by simpa using hemp) (place_in hg hb hbd hpl)
              (by rw [closed_closeView, closed_removeEntry', viewsOf_look (look_removeEntry s d k)])
  | removeAll fuel n =>
    simp only [callOn]
    unfold removeAll
    split
    · exact h.views
    · split
      · exact h.views
      · split
        · exact h.views
        · split
          · exact h.views
          · rename_i d k hrp
            have hpl := (resolveParent_iff hg hbd n d k).1 hrp
            have hin := place_in hg hb hbd hpl
            split
            · exact h.views
            · rename_i t hl
              split
              · exact h.views
              · rename_i s1 hs1
                refine views_removesAll hg h.views h.dirs (removesAll hg hl hs1) hl hin ?_
                rw [closed_removeEntry']
                refine nodup_removeSubtree hg h.acyclic h.views.inj fuel t s s1 (Shr.refl s) h.views.nodup ?_ hs1
                intro e hu v hv hvc
                exact (h.views.exact e v hv).1 hvc ((hin.step hl).trans hu)
  | rename o n =>
    simp only [callOn]
    by_cases h1 : ∃ d k t, Place s b o d k ∧ s.lookup d k = some t
    · by_cases h2 : ∃ e j, Place s b n e j
      · obtain ⟨d, k, t, hp, hl⟩ := h1
        obtain ⟨e, j, hq⟩ := h2
        obtain ⟨htame, hself⟩ := hc d k t e j hp hl hq
        obtain ⟨hne, hok⟩ := rename_exact hg hbd hp hl hq
        by_cases hx : ∀ x, s.lookup e j = some x → s.entries x = []
        · obtain ⟨s', he, hm, hcl⟩ := hok hx
          rw [he]
          exact views_moves hg h.views h.dirs hm hl (place_in hg hb hbd hp) (place_in hg hb hbd hq) htame hself hx hcl
        · obtain ⟨x, hx⟩ := Classical.not_forall.1 hx
          obtain ⟨hx1, hx2⟩ := Classical.not_imp.1 hx
          rw [hne x hx1 hx2]; exact h.views
      · rw [(rename_fails hg hbd (.inr h2)).1]; exact h.views
    · rw [(rename_fails hg hbd (.inl h1)).1]; exact h.views

theorem ownViews_tame {s : St} (hg : Good s) {b : Id} (hbd : s.isDir b) {c : Call} (h : c.OwnViews s b) : c.Tame s b := by
  cases c with
  | rename o n =>
    intro op ob t np nb h1 h2 h3
    exact (h op ob t np nb ((resolveParent_iff hg hbd o op ob).1 h1) h2 ((resolveParent_iff hg hbd n np nb).1 h3)).1
  | _ => trivial

theorem ok_step {w : World} (h : Ok w.roots w.st) (r : Nat) (c : Call) (hc : ∀ b, w.roots[r]? = some b → c.OwnViews w.st b) : Ok (w.step r c).roots (w.step r c).st := by
  have hw : WGood w := ⟨h.good, h.dirs⟩
  have hw' := wgood_step hw r c
  have hac : Acyclic (w.step r c).st := by
    rcases step_st w r c with e | ⟨b, hb, e⟩
    · rw [e]; exact h.acyclic
    · rw [e]; exact acyclic_call c (h.dirs b (List.mem_of_getElem? hb)) (ownViews_tame h.good (h.dirs b (List.mem_of_getElem? hb)) (hc b hb)) h.acyclic
  refine ⟨hw'.good, hac, hw'.roots, ?_⟩
  unfold World.step
  split
  · exact h.views
  · rename_i b hb
    have hbm := List.mem_of_getElem? hb
    have hv := views_call hbm h c (hc b hb)
    split
    · rename_i n
      split
      · rename_i d hd
        have hu : Under w.st b d := by
          unfold openRoot at hd
          split at hd
          · cases hd
          · rename_i r hr
            split at hd
            · cases hd
            · cases hd; exact (resolve_ok h.good (h.dirs b hbm) hr).under
        have hin : ∀ i, In (w.roots ++ [d]) w.st i ↔ In w.roots w.st i := by
          intro i
          constructor
          · rintro ⟨x, hx, hu'⟩
            rcases List.mem_append.1 hx with hx | hx
            · exact ⟨x, hx, hu'⟩
            · rw [List.mem_singleton] at hx
              subst hx
              exact ⟨b, hbm, hu.trans hu'⟩
          · rintro ⟨x, hx, hu'⟩; exact ⟨x, List.mem_append_left _ hx, hu'⟩
        exact ⟨h.views.inj, h.views.nodup, h.views.owned, fun i v hi => (h.views.exact i v hi).trans (not_congr (hin i).symm)⟩
      · exact hv
    · exact hv

theorem ok_run : ∀ (hist : List (Nat × Call)) (w : World), Ok w.roots w.st → OwnRun w hist → Ok (w.run hist).roots (w.run hist).st := by
  intro hist
  induction hist with
  | nil => intro w h _; exact h
  | cons x rest ih =>
    intro w h ht
    obtain ⟨r, c⟩ := x
    exact ih _ (ok_step h r c ht.1) ht.2

theorem ok_init : Ok World.init.roots World.init.st := by
  have hno : ∀ i v, v ∉ World.init.st.viewsOf i := by
    intro i v hv
    obtain ⟨nm, m, h⟩ := mem_viewsOf.1 hv
    match i with
    | 0 => simp [World.init] at h
    | i + 1 => simp [World.init] at h
  exact ⟨good_init, acyclic_init, wgood_init.roots, ⟨fun i j v h => absurd h (hno i v), by simp [World.init], by simp [World.init], fun i v h => absurd h (hno i v)⟩⟩

/-! ## Properties -/

/-- **C78** (partial: the histories of `OwnRun`). A file that was ever made: its view is closed exactly when the file is no longer in the tree of any root; no view is closed twice, and
only views of files are closed. Missing: Link, AddFile or AddFS with a file or link over a directory, AddFS with a policy that keeps, a rename onto itself, a directory renamed into itself; see the counterexamples. -/
theorem C78_views_partial (hist : List (Nat × Call)) (h : OwnRun World.init hist) :
    (∀ (i : Id) nm m v, (after hist).st.nodes[i]? = some (.file nm m v) → (v ∈ (after hist).st.closed ↔ ¬ ∃ b ∈ (after hist).roots, Under (after hist).st b i)) ∧
    (after hist).st.closed.Nodup ∧ ∀ v ∈ (after hist).st.closed, ∃ (i : Id) (nm : Str) (m : Nat), (after hist).st.nodes[i]? = some (Node.file nm m v) := by
  have := (ok_run hist _ ok_init h).views
  refine ⟨fun i nm m v hn => this.exact i v (mem_viewsOf.2 ⟨nm, m, hn⟩), this.nodup, fun v hv => ?_⟩
  obtain ⟨i, hi⟩ := this.owned v hv
  obtain ⟨nm, m, hn⟩ := mem_viewsOf.1 hi
  exact ⟨i, nm, m, hn⟩

/-- A file is made in a directory, renamed over another, both under a second root; the directory is then removed as a whole. -/
def ownSample : List (Nat × Call) :=
  [(0, .mkdir ['a'] 0), (0, .create ['a', '/', 'f'] 0), (0, .create ['g'] 0), (0, .openRoot ['a']), (0, .rename ['g'] ['a', '/', 'f']), (0, .removeAll 9 ['a']), (1, .create ['h'] 0)]

/-- The view 0 is closed by the rename, 1 by RemoveAll; the file h, made through the second root in the removed directory, is still reached from that root. -/
example : (after ownSample).st.closed = [0, 1] ∧ (after ownSample).roots = [0, 1] ∧ (after ownSample).st.lookup 1 ['h'] = some 4 ∧ (after ownSample).st.lookup 0 ['a'] = none := by
  decide +kernel

/-- The hypothesis of `C78_views_partial` holds of it: the only rename moves g (node 3) over f (node 2). -/
example : OwnRun World.init ownSample := by
  have hu : ∀ hist : List (Nat × Call), (∀ (i : Fin (after hist).st.nodes.length), (match (after hist).st.nodes[i] with | .file _ _ v => decide (v ≠ (after hist).st.nextView) | _ => true) = true) →
      Unused (after hist).st (after hist).st.nextView := by
    intro hist h i nm m hx
    obtain ⟨hlt, he⟩ := List.getElem?_eq_some_iff.1 hx
    have := h ⟨i, hlt⟩
    simp [he] at this
  refine ⟨fun _ _ => trivial, ?_, ?_, fun _ _ => trivial, ?_, fun _ _ => trivial, ?_, trivial⟩
  · intro _ _; exact hu [(0, .mkdir ['a'] 0)] (by decide +kernel)
  · intro _ _; exact hu [(0, .mkdir ['a'] 0), (0, .create ['a', '/', 'f'] 0)] (by decide +kernel)
  · intro b hb
    cases hb
    have hw : WGood (World.init.run (ownSample.take 4)) := wgood_run (ownSample.take 4) _ wgood_init
    intro d k t e j hp hl hq
    have hp : resolveParent (World.init.run (ownSample.take 4)).st 0 0 ['g'] = .ok (d, k) := (resolveParent_iff hw.good (hw.roots 0 (by decide +kernel)) ['g'] d k).2 hp
    have hq : resolveParent (World.init.run (ownSample.take 4)).st 0 0 ['a', '/', 'f'] = .ok (e, j) := (resolveParent_iff hw.good (hw.roots 0 (by decide +kernel)) ['a', '/', 'f'] e j).2 hq
    have e1 : resolveParent (World.init.run (ownSample.take 4)).st 0 0 ['g'] = .ok (0, ['g']) := by decide +kernel
    have e2 : resolveParent (World.init.run (ownSample.take 4)).st 0 0 ['a', '/', 'f'] = .ok (1, ['f']) := by decide +kernel
    rw [e1] at hp; rw [e2] at hq
    cases hp; cases hq
    have e3 : (World.init.run (ownSample.take 4)).st.lookup 0 ['g'] = some 3 := by decide +kernel
    have e4 : (World.init.run (ownSample.take 4)).st.lookup 1 ['f'] = some 2 := by decide +kernel
    have hl : (World.init.run (ownSample.take 4)).st.lookup 0 ['g'] = some t := hl
    rw [e3] at hl; cases hl
    constructor
    · intro hun
      have hnd : ¬ (World.init.run (ownSample.take 4)).st.isDir 3 := by
        rintro ⟨r, hr⟩
        have : (World.init.run (ownSample.take 4)).st.dir? 3 = none := by decide +kernel
        rw [this] at hr; cases hr
      rcases hun with h | h
      · cases h
      · have : ∀ {c}, Below (World.init.run (ownSample.take 4)).st 3 c → (World.init.run (ownSample.take 4)).st.isDir 3 := by
          intro c h
          induction h with
          | child hc => exact lookup_isDir hc
          | step _ _ ih => exact ih
        exact hnd (this h)
    · intro h
      have h : (World.init.run (ownSample.take 4)).st.lookup 1 ['f'] = some 3 := h
      rw [e4] at h; cases h
  · intro b hb; exact hu (ownSample.take 6) (by decide +kernel)

/-- AddFS puts a directory over a file and a file over another; the views of both are closed. -/
def addSample : List (Nat × Call) :=
  [(0, .create ['f'] 0), (0, .create ['g'] 0), (0, .addFS 9 mergeOverwrite dot (.dir 0 true [(['f'], .dir 0 true [(['x'], .file 0 (some 7))]), (['g'], .file 0 (some 8))]))]

example : (after addSample).st.closed = [0, 1] ∧ (after addSample).st.lookup 0 ['f'] = some 3 ∧ (after addSample).st.lookup 3 ['x'] = some 4 ∧ (after addSample).st.lookup 0 ['g'] = some 5 := by
  refine ⟨by decide +kernel, by decide +kernel, by decide +kernel, by decide +kernel⟩

deriving instance DecidableEq for DirRec, Node, St

example : OwnRun World.init addSample := by
  have hu : ∀ hist v, (∀ (i : Fin (after hist).st.nodes.length), (match (after hist).st.nodes[i] with | .file _ _ w => decide (w ≠ v) | _ => true) = true) → Unused (after hist).st v := by
    intro hist v h i nm m hx
    obtain ⟨hlt, he⟩ := List.getElem?_eq_some_iff.1 hx
    have := h ⟨i, hlt⟩
    simp [he] at this
  refine ⟨fun _ _ => hu [] _ (by decide +kernel), fun _ _ => hu [(0, .create ['f'] 0)] _ (by decide +kernel), ?_, trivial⟩
  intro b hb
  cases hb
  refine ⟨by decide, ?_, .inl rfl, by decide +kernel⟩
  intro v hv
  have hv : v ∈ [7, 8] := hv
  simp only [List.mem_cons, List.not_mem_nil, or_false] at hv
  rcases hv with rfl | rfl
  · exact hu (addSample.take 2) _ (by decide +kernel)
  · exact hu (addSample.take 2) _ (by decide +kernel)

/-- **C78** violated: a file has two names; removing one closes its view, although the other name still has it. Removing the other closes the view a second time. -/
theorem C78_counterexample_hard_link :
    (after [(0, .create ['f'] 0), (0, .link ['f'] ['g']), (0, .remove ['f'] false)]).st.closed = [0] ∧
    (after [(0, .create ['f'] 0), (0, .link ['f'] ['g']), (0, .remove ['f'] false)]).st.lookup 0 ['g'] = some 2 ∧
    (after [(0, .create ['f'] 0), (0, .link ['f'] ['g']), (0, .remove ['f'] false)]).st.nodes[2]? = some (.file ['g'] 0 0) ∧
    (after [(0, .create ['f'] 0), (0, .link ['f'] ['g']), (0, .remove ['f'] false), (0, .remove ['g'] false)]).st.closed = [0, 0] := by
  decide +kernel

/-- **C78** violated: a file renamed onto itself keeps its name, but its view is closed. -/
theorem C78_counterexample_rename_onto_itself :
    (after [(0, .create ['f'] 0), (0, .rename ['f'] ['f'])]).st.closed = [0] ∧
    (after [(0, .create ['f'] 0), (0, .rename ['f'] ['f'])]).st.lookup 0 ['f'] = some 1 ∧
    (after [(0, .create ['f'] 0), (0, .rename ['f'] ['f'])]).st.nodes[1]? = some (.file ['f'] 0 0) := by
  decide +kernel

/-- **C78** violated: AddFile over a directory (the default policy does so) never closes the views of the files beneath it. -/
theorem C78_counterexample_file_over_directory :
    (after [(0, .mkdir ['a'] 0), (0, .create ['a', '/', 'f'] 0)]).st.lookup 1 ['f'] = some 2 ∧
    (after [(0, .mkdir ['a'] 0), (0, .create ['a', '/', 'f'] 0), (0, .addFile mergeOverwrite ['a'] 0 7)]).st.closed = [] ∧
    (after [(0, .mkdir ['a'] 0), (0, .create ['a', '/', 'f'] 0), (0, .addFile mergeOverwrite ['a'] 0 7)]).st.lookup 0 ['a'] = some 3 ∧
    (after [(0, .mkdir ['a'] 0), (0, .create ['a', '/', 'f'] 0), (0, .addFile mergeOverwrite ['a'] 0 7)]).st.entries 0 = [3] := by
  decide +kernel

/-- **C78** violated: under MergeKeep a directory replaces a file (C51_counterexample_keep_replaces_file), whose view is never closed. -/
theorem C78_counterexample_keep_replaces_file :
    (after [(0, .create ['f'] 0), (0, .addFS 9 mergeKeep dot (.dir 0 true [(['f'], .dir 0 true [])]))]).st.closed = [] ∧
    (after [(0, .create ['f'] 0), (0, .addFS 9 mergeKeep dot (.dir 0 true [(['f'], .dir 0 true [])]))]).st.lookup 0 ['f'] = some 2 ∧
    (after [(0, .create ['f'] 0), (0, .addFS 9 mergeKeep dot (.dir 0 true [(['f'], .dir 0 true [])]))]).st.entries 0 = [2] := by
  refine ⟨by decide +kernel, by decide +kernel, by decide +kernel⟩

end Verif.Synth.Tree
