import Verif.Stream.MultiModel
/-
Helper lemmas about the multi reader model: layout and search.
-/
namespace Verif.Stream

/-- Sum of the declared sizes. -/
def sizeSum (segs : List Sized) : Nat := (segs.map (·.size)).sum

@[simp] theorem sizeSum_nil : sizeSum [] = 0 := rfl
@[simp] theorem sizeSum_cons (s : Sized) (segs) : sizeSum (s :: segs) = s.size + sizeSum segs := by
  simp [sizeSum]

theorem totalSize_eq (b : Nat) (segs : List Sized) : totalSize b segs = b + sizeSum segs := by
  induction segs generalizing b with
  | nil => simp [totalSize]
  | cons s rest ih => simp [totalSize, ih]; omega

@[simp] theorem translate_length (b : Nat) (segs : List Sized) : (translate b segs).length = segs.length := by
  induction segs generalizing b with
  | nil => rfl
  | cons s rest ih => simp [translate, ih]

theorem translate_getElem? (b : Nat) (segs : List Sized) (i : Nat) :
    (translate b segs)[i]? = (segs[i]?).map (fun s => ⟨s.R, s.size, b + sizeSum (segs.take i)⟩) := by
  induction segs generalizing b i with
  | nil => simp [translate]
  | cons s rest ih =>
    cases i with
    | zero => simp [translate]
    | succ i => simp [translate, ih]; congr 1; funext s'; congr 1; omega

theorem translate_drop (b k : Nat) (segs : List Sized) :
    (translate b segs).drop k = translate (b + sizeSum (segs.take k)) (segs.drop k) := by
  induction segs generalizing b k with
  | nil => simp [translate]
  | cons s rest ih =>
    cases k with
    | zero => simp
    | succ k => simp [translate, ih]; congr 1; omega

/-- A segment holds the offset. -/
def Holds (off : Nat) (r : SizedAt) : Prop := r.headOff ≤ off ∧ off < r.headOff + r.size

/-- Segments are laid out one after the other. -/
def Ordered (rs : List SizedAt) : Prop := rs.Pairwise (fun a b => a.headOff + a.size ≤ b.headOff)

theorem translate_ge (b : Nat) (segs : List Sized) : ∀ r ∈ translate b segs, b ≤ r.headOff := by
  induction segs generalizing b with
  | nil => simp [translate]
  | cons s rest ih =>
    intro r hr
    simp only [translate, List.mem_cons] at hr
    rcases hr with rfl | hr
    · simp
    · have := ih _ r hr; omega

theorem translate_ordered (b : Nat) (segs : List Sized) : Ordered (translate b segs) := by
  induction segs generalizing b with
  | nil => simp [translate, Ordered]
  | cons s rest ih =>
    refine List.Pairwise.cons ?_ (ih _)
    intro r hr
    simpa using translate_ge _ _ r hr

theorem ordered_lt {rs : List SizedAt} (h : Ordered rs) {i j : Nat} {a b : SizedAt} (hij : i < j)
    (ha : rs[i]? = some a) (hb : rs[j]? = some b) : a.headOff + a.size ≤ b.headOff := by
  unfold Ordered at h
  rw [List.pairwise_iff_getElem] at h
  rw [List.getElem?_eq_some_iff] at ha hb
  obtain ⟨hi, rfl⟩ := ha
  obtain ⟨hj, rfl⟩ := hb
  exact h i j hi hj hij

theorem holds_unique {rs : List SizedAt} (h : Ordered rs) {off i j : Nat} {a b : SizedAt}
    (ha : rs[i]? = some a) (hb : rs[j]? = some b) (h1 : Holds off a) (h2 : Holds off b) : i = j := by
  unfold Holds at *
  rcases Nat.lt_trichotomy i j with hij | hij | hij
  · have := ordered_lt h hij ha hb; omega
  · exact hij
  · have := ordered_lt h hij hb ha; omega

theorem exists_holds (b : Nat) (segs : List Sized) (off : Nat) (h1 : b ≤ off) (h2 : off < b + sizeSum segs) :
    ∃ (i : Nat) (r : SizedAt), (translate b segs)[i]? = some r ∧ Holds off r := by
  induction segs generalizing b with
  | nil => simp at h2; omega
  | cons s rest ih =>
    by_cases hs : off < b + s.size
    · exact ⟨0, ⟨s.R, s.size, b⟩, by simp [translate], by simp [Holds]; omega⟩
    · simp at h2
      obtain ⟨i, r, hr, hh⟩ := ih (b + s.size) (by omega) (by omega)
      exact ⟨i + 1, r, by simpa [translate] using hr, hh⟩

theorem holds_bound {b : Nat} {segs : List Sized} {off i : Nat} {r : SizedAt}
    (hr : (translate b segs)[i]? = some r) (hh : Holds off r) : b ≤ off ∧ off < b + sizeSum segs := by
  induction segs generalizing b i with
  | nil => simp [translate] at hr
  | cons s rest ih =>
    cases i with
    | zero =>
      simp [translate] at hr; subst hr
      simp [Holds] at hh ⊢; omega
    | succ i =>
      simp [translate] at hr
      have := ih hr
      simp; omega

theorem linearSearch_some {off : Nat} {rs : List SizedAt} {i : Nat} (h : linearSearch off rs = some i) :
    ∃ r, rs[i]? = some r ∧ Holds off r := by
  induction rs generalizing i with
  | nil => simp [linearSearch] at h
  | cons a rest ih =>
    unfold linearSearch at h
    split at h
    · rename_i hc
      simp at h; subst h
      exact ⟨a, by simp, hc⟩
    · simp at h
      obtain ⟨j, hj, rfl⟩ := h
      obtain ⟨r, hr, hh⟩ := ih hj
      exact ⟨r, by simpa using hr, hh⟩

theorem linearSearch_none {off : Nat} {rs : List SizedAt} (h : linearSearch off rs = none) :
    ∀ r ∈ rs, ¬ Holds off r := by
  induction rs with
  | nil => simp
  | cons a rest ih =>
    unfold linearSearch at h
    split at h
    · simp at h
    · rename_i hc
      simp at h
      intro r hr
      rcases List.mem_cons.mp hr with rfl | hr
      · exact hc
      · exact ih h r hr

theorem segCmp_neg {off : Nat} {r : SizedAt} : segCmp off r < 0 ↔ r.headOff + r.size ≤ off := by
  unfold segCmp; split
  · constructor <;> intro h <;> omega
  · split
    · constructor <;> intro h <;> omega
    · constructor <;> intro h <;> omega

theorem segCmp_zero {off : Nat} {r : SizedAt} : segCmp off r = 0 ↔ Holds off r := by
  unfold segCmp Holds; split
  · constructor <;> intro h <;> omega
  · split
    · constructor <;> intro h <;> omega
    · constructor <;> intro h <;> omega

/-- Loop invariant of the binary search. -/
theorem bsLoop_spec (off : Nat) (rs : List SizedAt) (ho : Ordered rs) (i j : Nat) (hij : i ≤ j) (hj : j ≤ rs.length)
    (hlo : ∀ k r, k < i → rs[k]? = some r → r.headOff + r.size ≤ off)
    (hhi : ∀ k r, j ≤ k → rs[k]? = some r → off < r.headOff + r.size) :
    (∀ k r, k < bsLoop off rs i j → rs[k]? = some r → r.headOff + r.size ≤ off) ∧
    (∀ k r, bsLoop off rs i j ≤ k → rs[k]? = some r → off < r.headOff + r.size) := by
  fun_induction bsLoop off rs i j with
  | case1 i j hlt m hm =>
    have : m < rs.length := by omega
    simp at hm; omega
  | case2 i j hlt m r hm hneg ih =>
    rw [segCmp_neg] at hneg
    apply ih (by omega) hj
    · intro k r' hk hr'
      rcases Nat.lt_or_eq_of_le (Nat.le_of_lt_succ hk) with hk | hk
      · have := ordered_lt ho hk hr' hm; omega
      · subst hk; rw [hm] at hr'; cases hr'; exact hneg
    · exact hhi
  | case3 i j hlt m r hm hneg ih =>
    rw [segCmp_neg] at hneg
    apply ih (by omega) (by omega) hlo
    intro k r' hk hr'
    rcases Nat.lt_or_eq_of_le hk with hk | hk
    · have := ordered_lt ho hk hm hr'; omega
    · subst hk; rw [hm] at hr'; cases hr'; omega
  | case4 i j hlt =>
    have : i = j := by omega
    subst this
    exact ⟨hlo, hhi⟩

theorem binarySearch_some {off : Nat} {rs : List SizedAt} {i : Nat} (h : binarySearch off rs = some i) :
    ∃ r, rs[i]? = some r ∧ Holds off r := by
  unfold binarySearch at h
  simp only at h
  split at h
  · simp at h
  · rename_i r hr
    split at h
    · rename_i hc
      simp at h; subst h
      exact ⟨r, hr, segCmp_zero.mp hc⟩
    · simp at h

theorem binarySearch_none {off : Nat} {rs : List SizedAt} (ho : Ordered rs) (h : binarySearch off rs = none) :
    ∀ r ∈ rs, ¬ Holds off r := by
  intro r hr hh
  obtain ⟨k, hk⟩ := List.mem_iff_getElem?.mp hr
  have hspec := bsLoop_spec off rs ho 0 rs.length (by omega) (by omega) (by intros; omega)
    (by intro k r hk hr; simp [List.getElem?_eq_none hk] at hr)
  have hlen : k < rs.length := by
    rw [List.getElem?_eq_some_iff] at hk; exact hk.1
  have hge : bsLoop off rs 0 rs.length ≤ k := by
    rcases Nat.lt_or_ge k (bsLoop off rs 0 rs.length) with hlt | hge
    · have := hspec.1 k r hlt hk; unfold Holds at hh; omega
    · exact hge
  unfold binarySearch at h
  simp only at h
  split at h
  · rename_i hn
    simp at hn; omega
  · rename_i r' hr'
    split at h
    · simp at h
    · rename_i hc
      rw [segCmp_zero] at hc
      have h2 := hspec.2 _ r' (Nat.le_refl _) hr'
      apply hc
      refine ⟨?_, h2⟩
      rcases Nat.lt_or_eq_of_le hge with hlt | heq
      · have := ordered_lt ho hlt hr' hk
        unfold Holds at hh; omega
      · rw [heq] at hr'; rw [hk] at hr'; cases hr'
        exact hh.1

theorem search_some {off : Nat} {rs : List SizedAt} {i : Nat} (h : search off rs = some i) :
    ∃ r, rs[i]? = some r ∧ Holds off r := by
  unfold search at h; split at h
  · exact binarySearch_some h
  · exact linearSearch_some h

theorem search_none {off : Nat} {rs : List SizedAt} (ho : Ordered rs) (h : search off rs = none) :
    ∀ r ∈ rs, ¬ Holds off r := by
  unfold search at h; split at h
  · exact binarySearch_none ho h
  · exact linearSearch_none h

theorem search_eq_of_holds {off : Nat} {rs : List SizedAt} (ho : Ordered rs) {i : Nat} {r : SizedAt}
    (hr : rs[i]? = some r) (hh : Holds off r) : search off rs = some i := by
  cases hs : search off rs with
  | none => exact absurd hh (search_none ho hs r (List.mem_iff_getElem?.mpr ⟨i, hr⟩))
  | some j =>
    obtain ⟨r', hr', hh'⟩ := search_some hs
    rw [holds_unique ho hr hr' hh hh']

/-- In a translated layout an offset below the end is always found. -/
theorem search_translate (b : Nat) (segs : List Sized) (off : Nat) (h1 : b ≤ off) (h2 : off < b + sizeSum segs) :
    ∃ (i : Nat) (r : SizedAt), search off (translate b segs) = some i ∧ (translate b segs)[i]? = some r ∧ Holds off r := by
  obtain ⟨i, r, hr, hh⟩ := exists_holds b segs off h1 h2
  exact ⟨i, r, search_eq_of_holds (translate_ordered b segs) hr hh, hr, hh⟩

end Verif.Stream
