import Verif.Tarfs.SparseModel
import Verif.Stream.MultiProps
/-
Properties C33 and C34: sparse maps and sparse members.
-/
namespace Verif.Tarfs

/-! ## Specification vocabulary -/

/-- Byte position `x` lies in one of the fragments. -/
def Covered (sp : List Frag) (x : Int) : Prop := ∃ f ∈ sp, f.off ≤ x ∧ x < f.off + f.len

instance (sp : List Frag) (x : Int) : Decidable (Covered sp x) :=
  inferInstanceAs (Decidable (∃ f ∈ sp, f.off ≤ x ∧ x < f.off + f.len))

/-- The fragments are in ascending order and do not overlap. -/
def Ordered (sp : List Frag) : Prop := sp.Pairwise (fun a b => a.off + a.len ≤ b.off)

/-- The canonical form of a map: no empty fragments and no two fragments that touch. -/
def Canonical (sp : List Frag) : Prop := (∀ f ∈ sp, 0 < f.len) ∧ sp.Pairwise (fun a b => a.off + a.len < b.off)

/-! ## The inversion without the shared array -/

/-- The gaps between the non-empty fragments of `sp`, and the end of the last one. -/
def gaps : (pre : Int) → List Frag → List Frag × Int
  | pre, [] => ([], pre)
  | pre, f :: rest =>
    if f.len = 0 then gaps pre rest
    else if f.off - pre > 0 then (⟨pre, f.off - pre⟩ :: (gaps f.stop rest).1, (gaps f.stop rest).2)
    else gaps f.stop rest

theorem take_set_succ {α} (l : List α) (k : Nat) (a : α) (h : k < l.length) : (l.set k a).take (k + 1) = l.take k ++ [a] := by
  rw [List.take_add_one, List.take_set_of_le (Nat.le_refl k)]
  simp [h]

/-- Writing the result over the source never disturbs a fragment that is still to be read. -/
theorem invertLoop_eq (n : Nat) : ∀ (arr : List Frag) (i k : Nat) (pre : Int), k ≤ i → i + n = arr.length →
    (invertLoop n arr i k pre).1.take (invertLoop n arr i k pre).2.1 = arr.take k ++ (gaps pre (arr.drop i)).1 ∧
    (invertLoop n arr i k pre).2.2 = (gaps pre (arr.drop i)).2 := by
  induction n with
  | zero =>
    intro arr i k pre _ hi
    rw [List.drop_eq_nil_of_le (by omega)]
    simp [invertLoop, gaps]
  | succ n ih =>
    intro arr i k pre hk hi
    have hlt : i < arr.length := by omega
    rw [List.drop_eq_getElem_cons hlt]
    simp only [invertLoop, List.getElem?_eq_getElem hlt, gaps]
    by_cases h0 : arr[i].len = 0
    · simp only [h0, if_true]
      exact ih arr (i+1) k pre (by omega) (by omega)
    · simp only [h0, if_false]
      by_cases h1 : arr[i].off - pre > 0
      · simp only [h1, if_true]
        have := ih (arr.set k ⟨pre, arr[i].off - pre⟩) (i+1) (k+1) arr[i].stop (by omega) (by simp; omega)
        rw [this.1, this.2, take_set_succ _ _ _ (by omega), List.drop_set_of_lt (by omega)]
        simp
      · simp only [h1, if_false]
        exact ih arr (i+1) k arr[i].stop (by omega) (by omega)

theorem invert_eq (sp : List Frag) (size : Int) :
    invert sp size = (gaps 0 sp).1 ++ [⟨(gaps 0 sp).2, size - (gaps 0 sp).2⟩] := by
  have := invertLoop_eq sp.length sp 0 0 0 (Nat.le_refl _) (by omega)
  simp only [List.drop_zero, List.take_zero, List.nil_append] at this
  unfold invert
  rw [← this.1, ← this.2]

/-! ## Facts about the gaps -/

theorem validateFrom_cons (size pre : Int) (f : Frag) (rest : List Frag) :
    validateFrom size pre (f :: rest) = true ↔
      (((((0 ≤ f.off ∧ 0 ≤ f.len) ∧ f.off ≤ maxInt64 - f.len) ∧ f.off + f.len ≤ size) ∧ pre ≤ f.off) ∧
        validateFrom size (f.off + f.len) rest = true) := by
  simp only [validateFrom, Bool.and_eq_true, decide_eq_true_eq]; exact Iff.rfl

theorem gaps_bounds {size : Int} (sp : List Frag) : ∀ {lo pre : Int}, lo ≤ pre → pre ≤ size → validateFrom size pre sp = true →
    pre ≤ (gaps lo sp).2 ∨ (gaps lo sp).2 = lo := by
  induction sp with
  | nil => intro lo pre _ _ _; right; rfl
  | cons f rest ih =>
    intro lo pre h1 h2 hv
    rw [validateFrom_cons] at hv
    obtain ⟨⟨⟨⟨⟨a, b⟩, c⟩, d⟩, e⟩, g⟩ := hv
    simp only [gaps, Frag.stop]
    split
    · rename_i hl
      rcases ih (lo := lo) (pre := f.off + f.len) (by omega) d g with h | h
      · left; omega
      · right; exact h
    · split
      · simp only
        rcases ih (lo := f.off + f.len) (pre := f.off + f.len) (by omega) d g with h | h <;> (left; omega)
      · rcases ih (lo := f.off + f.len) (pre := f.off + f.len) (by omega) d g with h | h <;> (left; omega)

/-- Everything about the gaps of a valid map that starts at or after `pre`: `lo` is the end of the last non-empty fragment. -/
theorem gaps_spec {size : Int} (sp : List Frag) : ∀ {lo pre : Int}, lo ≤ pre → pre ≤ size → validateFrom size pre sp = true →
    lo ≤ (gaps lo sp).2 ∧ (gaps lo sp).2 ≤ size ∧
    (∀ g ∈ (gaps lo sp).1, lo ≤ g.off ∧ 0 < g.len ∧ g.off + g.len < (gaps lo sp).2) ∧
    (gaps lo sp).1.Pairwise (fun a b => a.off + a.len < b.off) ∧
    (∀ x, lo ≤ x → x < (gaps lo sp).2 → (Covered (gaps lo sp).1 x ↔ ¬ Covered sp x)) ∧
    (∀ x, Covered sp x → lo ≤ x ∧ x < (gaps lo sp).2) := by
  induction sp with
  | nil =>
    intro lo pre h1 h2 _
    simp [gaps, Covered]
    omega
  | cons f rest ih =>
    intro lo pre h1 h2 hv
    rw [validateFrom_cons] at hv
    obtain ⟨⟨⟨⟨⟨a, b⟩, c⟩, d⟩, e⟩, hv⟩ := hv
    have hcons : ∀ x, Covered (f :: rest) x ↔ (f.off ≤ x ∧ x < f.off + f.len) ∨ Covered rest x := by
      intro x; simp [Covered]
    simp only [gaps, Frag.stop]
    by_cases h0 : f.len = 0
    · simp only [h0, if_true]
      obtain ⟨i1, i2, i3, i4, i5, i6⟩ := ih (lo := lo) (pre := f.off + f.len) (by omega) d hv
      refine ⟨i1, i2, i3, i4, ?_, ?_⟩
      · intro x hx1 hx2
        rw [i5 x hx1 hx2, hcons]
        constructor
        · rintro h (h' | h')
          · omega
          · exact h h'
        · intro h h'; exact h (Or.inr h')
      · intro x hx
        rw [hcons] at hx
        rcases hx with h' | h'
        · omega
        · exact i6 x h'
    · simp only [h0, if_false]
      obtain ⟨i1, i2, i3, i4, i5, i6⟩ := ih (lo := f.off + f.len) (pre := f.off + f.len) (by omega) d hv
      by_cases h3 : f.off - lo > 0
      · simp only [h3, if_true]
        refine ⟨by omega, i2, ?_, ?_, ?_, ?_⟩
        · intro g hg
          rw [List.mem_cons] at hg
          rcases hg with rfl | hg
          · simp only; omega
          · have := i3 g hg; omega
        · rw [List.pairwise_cons]
          refine ⟨?_, i4⟩
          intro g hg
          have := i3 g hg
          simp only; omega
        · intro x hx1 hx2
          have hc : Covered (⟨lo, f.off - lo⟩ :: (gaps (f.off + f.len) rest).1) x ↔ (lo ≤ x ∧ x < lo + (f.off - lo)) ∨ Covered (gaps (f.off + f.len) rest).1 x := by
            simp [Covered]
          rw [hc, hcons]
          by_cases hx : x < f.off + f.len
          · have n1 : ¬ Covered (gaps (f.off + f.len) rest).1 x := by
              rintro ⟨g, hg, h4, h5⟩
              have := i3 g hg; omega
            have n2 : ¬ Covered rest x := by
              intro h; have := i6 x h; omega
            constructor
            · rintro (h | h)
              · rintro (h' | h')
                · omega
                · exact n2 h'
              · exact absurd h n1
            · intro h
              left
              constructor
              · exact hx1
              · apply Int.not_le.1
                intro h'; exact h (Or.inl ⟨by omega, by omega⟩)
          · rw [i5 x (by omega) hx2]
            constructor
            · rintro (h | h)
              · omega
              · rintro (h' | h')
                · omega
                · exact h h'
            · intro h; right; intro h'; exact h (Or.inr h')
        · intro x hx
          rw [hcons] at hx
          rcases hx with h' | h'
          · omega
          · have := i6 x h'; omega
      · simp only [h3, if_false]
        have hlo : lo = f.off := by omega
        refine ⟨by omega, i2, ?_, i4, ?_, ?_⟩
        · intro g hg
          have := i3 g hg; omega
        · intro x hx1 hx2
          rw [hcons]
          by_cases hx : x < f.off + f.len
          · have n1 : ¬ Covered (gaps (f.off + f.len) rest).1 x := by
              rintro ⟨g, hg, h4, h5⟩
              have := i3 g hg; omega
            constructor
            · intro h; exact absurd h n1
            · intro h; exact absurd (Or.inl ⟨by omega, by omega⟩) h
          · rw [i5 x (by omega) hx2]
            constructor
            · rintro h (h' | h')
              · omega
              · exact h h'
            · intro h h'; exact h (Or.inr h')
        · intro x hx
          rw [hcons] at hx
          rcases hx with h' | h'
          · omega
          · have := i6 x h'; omega

theorem covered_append (a b : List Frag) (x : Int) : Covered (a ++ b) x ↔ Covered a x ∨ Covered b x := by
  constructor
  · rintro ⟨f, hf, h⟩
    rw [List.mem_append] at hf
    rcases hf with hf | hf
    · exact Or.inl ⟨f, hf, h⟩
    · exact Or.inr ⟨f, hf, h⟩
  · rintro (⟨f, hf, h⟩ | ⟨f, hf, h⟩)
    · exact ⟨f, List.mem_append_left _ hf, h⟩
    · exact ⟨f, List.mem_append_right _ hf, h⟩

/-! ## C33 -/

/-- Which maps are valid: the size is not negative, every fragment lies in `0 … size-1`, and they come in order. -/
theorem C33_valid_iff (sp : List Frag) (size : Int) (hmax : size ≤ maxInt64) :
    validate sp size = true ↔ 0 ≤ size ∧ (∀ f ∈ sp, 0 ≤ f.off ∧ 0 ≤ f.len ∧ f.off + f.len ≤ size) ∧ Ordered sp := by
  have key : ∀ (l : List Frag) (pre : Int), 0 ≤ pre → (validateFrom size pre l = true ↔
      (∀ f ∈ l, pre ≤ f.off ∧ 0 ≤ f.len ∧ f.off + f.len ≤ size) ∧ Ordered l) := by
    intro l
    induction l with
    | nil => intro pre _; simp [validateFrom, Ordered]
    | cons f l ih =>
      intro pre hpre
      rw [validateFrom_cons]
      unfold Ordered
      rw [List.pairwise_cons]
      constructor
      · rintro ⟨⟨⟨⟨⟨h1, h2⟩, h3⟩, h4⟩, h5⟩, h6⟩
        obtain ⟨h7, h8⟩ := (ih (f.off + f.len) (by omega)).1 h6
        refine ⟨?_, fun g hg => (h7 g hg).1, h8⟩
        intro g hg
        rcases List.mem_cons.1 hg with rfl | hg
        · exact ⟨h5, h2, h4⟩
        · have := h7 g hg; exact ⟨by omega, this.2⟩
      · rintro ⟨h1, h2, h3⟩
        obtain ⟨a1, a2, a3⟩ := h1 f (List.mem_cons_self ..)
        refine ⟨⟨⟨⟨⟨by omega, a2⟩, by omega⟩, a3⟩, a1⟩, (ih _ (by omega)).2 ⟨fun g hg => ⟨h2 g hg, (h1 g (List.mem_cons_of_mem _ hg)).2⟩, h3⟩⟩
  unfold validate
  rw [Bool.and_eq_true, decide_eq_true_eq, key sp 0 (by omega)]

/-- **C33.** For every sparse map that archive/tar accepts: data and hole fragments are disjoint, together they cover exactly
the positions `0 … size-1`, both lists are ordered and no hole but possibly the last is empty. -/
theorem C33_partition (sp : List Frag) (size : Int) (hv : validate sp size = true) :
    (∀ x, 0 ≤ x → x < size → (Covered (invert sp size) x ↔ ¬ Covered sp x)) ∧
    (∀ x, Covered sp x ∨ Covered (invert sp size) x → 0 ≤ x ∧ x < size) ∧
    Ordered sp ∧ Ordered (invert sp size) ∧
    (∀ f ∈ (invert sp size).dropLast, 0 < f.len) ∧ (∀ f ∈ invert sp size, 0 ≤ f.off ∧ 0 ≤ f.len ∧ f.off + f.len ≤ size) ∧
    ((invert sp size).getLast?.map (fun f => f.off + f.len) = some size) := by
  simp [validate] at hv
  obtain ⟨hs, hv⟩ := hv
  obtain ⟨i1, i2, i3, i4, i5, i6⟩ := gaps_spec sp (lo := 0) (pre := 0) (by omega) hs hv
  rw [invert_eq]
  generalize hgl : (gaps 0 sp).1 = G at *
  generalize hgp : (gaps 0 sp).2 = P at *
  have hlast : ∀ x, Covered [⟨P, size - P⟩] x ↔ P ≤ x ∧ x < size := by
    intro x; simp [Covered]; omega
  have hG : ∀ x, Covered G x → 0 ≤ x ∧ x < P := by
    rintro x ⟨g, hg, h⟩
    have := i3 g hg; omega
  refine ⟨?_, ?_, ?_, ?_, ?_, ?_, ?_⟩
  · intro x h1 h2
    rw [covered_append, hlast]
    by_cases hx : x < P
    · rw [← i5 x h1 hx]
      constructor
      · rintro (h | h)
        · exact h
        · omega
      · exact Or.inl
    · constructor
      · rintro _ h
        have := i6 x h; omega
      · intro _; right; omega
  · rintro x (h | h)
    · have := i6 x h; omega
    · rw [covered_append, hlast] at h
      rcases h with h | h
      · have := hG x h; omega
      · omega
  · -- the map itself is ordered because it was validated
    have : ∀ (sp : List Frag) (pre : Int), validateFrom size pre sp = true → (∀ f ∈ sp, pre ≤ f.off) ∧ Ordered sp := by
      intro sp
      induction sp with
      | nil => intro pre _; simp [Ordered]
      | cons f rest ih =>
        intro pre hv
        rw [validateFrom_cons] at hv
        obtain ⟨⟨⟨⟨⟨a, b⟩, c⟩, d⟩, e⟩, hv⟩ := hv
        obtain ⟨j1, j2⟩ := ih _ hv
        refine ⟨?_, ?_⟩
        · intro g hg
          rw [List.mem_cons] at hg
          rcases hg with rfl | hg
          · exact e
          · have := j1 g hg; omega
        · exact List.pairwise_cons.2 ⟨j1, j2⟩
    exact (this sp 0 hv).2
  · unfold Ordered
    rw [List.pairwise_append]
    refine ⟨i4.imp (by intros; omega), by simp, ?_⟩
    intro a ha b hb
    simp at hb; subst hb
    have := i3 a ha
    simp only; omega
  · rw [List.dropLast_concat]
    intro f hf; exact (i3 f hf).2.1
  · intro f hf
    rw [List.mem_append] at hf
    rcases hf with hf | hf
    · have := i3 f hf; omega
    · simp at hf; subst hf
      simp only; omega
  · simp; omega

/-- A map from the documentation (copied_go_std.go 54-62). -/
example : validate [⟨2, 5⟩, ⟨18, 3⟩] 25 = true ∧ invert [⟨2, 5⟩, ⟨18, 3⟩] 25 = [⟨0, 2⟩, ⟨7, 11⟩, ⟨21, 4⟩] := by decide

/-- Two canonical maps that cover the same positions are equal. -/
theorem C33_canonical_unique (a b : List Frag) (ha : Canonical a) (hb : Canonical b) (h : ∀ x, Covered a x ↔ Covered b x) : a = b := by
  induction a generalizing b with
  | nil =>
    cases b with
    | nil => rfl
    | cons f r =>
      have h0 := hb.1 f (by simp)
      obtain ⟨g, hg, _⟩ := (h f.off).2 ⟨f, by simp, by omega, by omega⟩
      simp at hg
  | cons f r ih =>
    cases b with
    | nil =>
      have h0 := ha.1 f (by simp)
      obtain ⟨g, hg, _⟩ := (h f.off).1 ⟨f, by simp, by omega, by omega⟩
      simp at hg
    | cons g s =>
      obtain ⟨pa, oa⟩ := ha
      obtain ⟨pb, ob⟩ := hb
      rw [List.pairwise_cons] at oa ob
      have f0 := pa f (by simp)
      have g0 := pb g (by simp)
      have lowA : ∀ x, Covered (f :: r) x → f.off ≤ x := by
        rintro x ⟨e, he, h1, h2⟩
        rw [List.mem_cons] at he
        rcases he with rfl | he
        · exact h1
        · have := oa.1 e he; omega
      have lowB : ∀ x, Covered (g :: s) x → g.off ≤ x := by
        rintro x ⟨e, he, h1, h2⟩
        rw [List.mem_cons] at he
        rcases he with rfl | he
        · exact h1
        · have := ob.1 e he; omega
      have inA : ∀ x, f.off ≤ x → x < f.off + f.len → Covered (f :: r) x := fun x h1 h2 => ⟨f, by simp, h1, h2⟩
      have inB : ∀ x, g.off ≤ x → x < g.off + g.len → Covered (g :: s) x := fun x h1 h2 => ⟨g, by simp, h1, h2⟩
      have hoff : f.off = g.off := by
        have h1 := lowB _ ((h f.off).1 (inA f.off (by omega) (by omega)))
        have h2 := lowA _ ((h g.off).2 (inB g.off (by omega) (by omega)))
        omega
      have gapA : ¬ Covered (f :: r) (f.off + f.len) := by
        rintro ⟨e, he, h1, h2⟩
        rw [List.mem_cons] at he
        rcases he with rfl | he
        · omega
        · have := oa.1 e he; omega
      have gapB : ¬ Covered (g :: s) (g.off + g.len) := by
        rintro ⟨e, he, h1, h2⟩
        rw [List.mem_cons] at he
        rcases he with rfl | he
        · omega
        · have := ob.1 e he; omega
      have hlen : f.len = g.len := by
        apply Int.le_antisymm
        · apply Int.not_lt.1
          intro hlt
          exact gapB ((h _).1 (inA _ (by omega) (by omega)))
        · apply Int.not_lt.1
          intro hlt
          exact gapA ((h _).2 (inB _ (by omega) (by omega)))
      have hfg : f = g := by cases f; cases g; simp_all
      subst hfg
      congr 1
      apply ih s ⟨fun e he => pa e (by simp [he]), oa.2⟩ ⟨fun e he => pb e (by simp [he]), ob.2⟩
      intro x
      have : ∀ t : List Frag, (∀ e ∈ t, f.off + f.len < e.off) → (Covered t x ↔ Covered (f :: t) x ∧ f.off + f.len ≤ x) := by
        intro t ht
        constructor
        · rintro ⟨e, he, h1, h2⟩
          have := ht e he
          exact ⟨⟨e, by simp [he], h1, h2⟩, by omega⟩
        · rintro ⟨⟨e, he, h1, h2⟩, h3⟩
          rw [List.mem_cons] at he
          rcases he with rfl | he
          · omega
          · exact ⟨e, he, h1, h2⟩
      rw [this r oa.1, this s ob.1, h x]

/-- The inverse of a valid map is valid, so it can be inverted again. -/
theorem C33_inverse_valid (sp : List Frag) (size : Int) (hmax : size ≤ maxInt64) (hv : validate sp size = true) :
    validate (invert sp size) size = true := by
  obtain ⟨_, _, _, ho, _, hb, _⟩ := C33_partition sp size hv
  have hs : 0 ≤ size := by simp [validate] at hv; exact hv.1
  have : ∀ (l : List Frag) (pre : Int), Ordered l → (∀ f ∈ l, pre ≤ f.off ∧ 0 ≤ f.off ∧ 0 ≤ f.len ∧ f.off + f.len ≤ size) → validateFrom size pre l = true := by
    intro l
    induction l with
    | nil => intros; rfl
    | cons f rest ih =>
      intro pre ho hb
      unfold Ordered at ho
      rw [List.pairwise_cons] at ho
      have hf := hb f (by simp)
      rw [validateFrom_cons]
      refine ⟨by omega, ih _ ho.2 ?_⟩
      intro g hg
      have := hb g (by simp [hg])
      have := ho.1 g hg
      omega
  simp [validate, hs]
  exact this _ 0 ho (fun f hf => by have := hb f hf; omega)

/-- **C33, twice.** Inverting a valid map twice gives, apart from a possible empty last fragment, the canonical map with the same data
positions: it has no empty and no touching fragments, and it covers what the original covers.  By `C33_canonical_unique`
it is the only one. -/
theorem C33_twice_canonical (sp : List Frag) (size : Int) (hmax : size ≤ maxInt64) (hv : validate sp size = true) :
    let twice := (invert (invert sp size) size).filter (fun f => f.len ≠ 0)
    Canonical twice ∧ ∀ x, Covered twice x ↔ Covered sp x := by
  have hv' := C33_inverse_valid sp size hmax hv
  obtain ⟨a1, a2, _⟩ := C33_partition sp size hv
  obtain ⟨b1, b2, _, b4, b5, b6, _⟩ := C33_partition _ size hv'
  have hcov : ∀ (l : List Frag) x, Covered (l.filter (fun f => f.len ≠ 0)) x ↔ Covered l x := by
    intro l x
    constructor
    · rintro ⟨f, hf, h⟩; exact ⟨f, (List.mem_filter.1 hf).1, h⟩
    · rintro ⟨f, hf, h⟩
      exact ⟨f, List.mem_filter.2 ⟨hf, by simp; omega⟩, h⟩
  refine ⟨⟨?_, ?_⟩, ?_⟩
  · intro f hf
    rw [List.mem_filter] at hf
    have := b6 f hf.1
    have := hf.2
    simp at this
    omega
  · -- consecutive fragments are separated by a position that is not covered
    apply List.Pairwise.filter
    simp [validate] at hv'
    obtain ⟨hs, hv'⟩ := hv'
    obtain ⟨i1, i2, i3, i4, i5, i6⟩ := gaps_spec (invert sp size) (lo := 0) (pre := 0) (by omega) hs hv'
    rw [invert_eq (invert sp size)]
    rw [List.pairwise_append]
    refine ⟨i4, by simp, ?_⟩
    intro a ha b hb
    simp at hb; subst hb
    exact (i3 a ha).2.2
  · intro x
    rw [hcov]
    by_cases hx : 0 ≤ x ∧ x < size
    · rw [b1 x hx.1 hx.2, a1 x hx.1 hx.2]
      exact Decidable.not_not
    · constructor
      · intro h; exact absurd (b2 x (Or.inr h)) hx
      · intro h; exact absurd (a2 x (Or.inl h)) hx

/-- Empty and touching fragments disappear. -/
example : validate [⟨0, 0⟩, ⟨2, 3⟩, ⟨5, 2⟩, ⟨9, 1⟩] 12 = true ∧
    (invert (invert [⟨0, 0⟩, ⟨2, 3⟩, ⟨5, 2⟩, ⟨9, 1⟩] 12) 12).filter (fun f => f.len ≠ 0) = [⟨2, 5⟩, ⟨9, 1⟩] := by decide

end Verif.Tarfs
