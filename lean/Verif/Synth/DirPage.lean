import Verif.Common.Bytes
import Verif.Synth.TreeAcyclic
/-
C50: paging through an open directory, /repo/vroot/synthfs/handle_dir.go 112-183.
-/
namespace Verif.Synth.DirPage
open Verif

/-! ### Model -/

inductive Page (α : Type) where
  | entries (l : List α)
  | eof
  | panic
deriving DecidableEq

/-- handle_dir.go 118-141 `readEntries`: `all` is what the directory lists at the time of the call, `n` a Go int. Where
`cursor + n` overflows, `make` is called with a length that no slice can have and panics. -/
def readEntries {α : Type} (all : List α) (cursor : Nat) (n : Int) : Page α × Nat :=
  if all.length ≤ cursor then (if n ≤ 0 then .entries [] else .eof, cursor)
  else if 0 < n ∧ wrap64 (cursor + n) < all.length then
    if wrap64 (cursor + n) < cursor then (.panic, cursor)
    else (.entries (slice all cursor n.toNat), cursor + n.toNat)
  else (.entries (all.drop cursor), all.length)

/-- Calls one after the other, each with what the directory lists at that moment. -/
def pages {α : Type} : (cursor : Nat) → List (List α × Int) → List (Page α) × Nat
  | cursor, [] => ([], cursor)
  | cursor, (all, n) :: rest => ((readEntries all cursor n).1 :: (pages (readEntries all cursor n).2 rest).1, (pages (readEntries all cursor n).2 rest).2)

/-! ### Specification -/

/-- What a page delivers. -/
def Page.items {α : Type} : Page α → List α
  | .entries l => l
  | _ => []

/-- Everything the calls delivered, in order. -/
def delivered {α : Type} (ps : List (Page α)) : List α := ps.flatMap Page.items

/-- Batch sizes for which no sum overflows. -/
def Sane {α : Type} (hist : List (List α × Int)) : Prop := ∀ x ∈ hist, (x.1.length : Int) + x.2 ≤ maxInt64 ∧ -maxInt64 ≤ x.2

/-- At every call, the directory still begins with what this handle has delivered already: entries may have been added, and
entries not delivered yet may have been removed. -/
def Steady {α : Type} (hist : List (List α × Int)) : Prop :=
  ∀ pre b m post, hist = pre ++ (b, m) :: post → delivered (pages 0 pre).1 <+: b

/-- What the next call should answer, when `rest` has not been delivered yet. -/
def shouldAnswer {α : Type} (rest : List α) (n : Int) : Page α :=
  if n ≤ 0 then .entries rest else match rest with
    | [] => .eof
    | rest => .entries (rest.take n.toNat)

/-! ### Lemmas -/

theorem pages_snoc {α : Type} (x : List α × Int) : ∀ (pre : List (List α × Int)) (c : Nat),
    pages c (pre ++ [x]) = ((pages c pre).1 ++ [(readEntries x.1 (pages c pre).2 x.2).1], (readEntries x.1 (pages c pre).2 x.2).2) := by
  intro pre
  induction pre with
  | nil => intro c; rfl
  | cons y pre ih =>
    intro c
    simp only [List.cons_append, pages, ih]

theorem delivered_snoc {α : Type} (ps : List (Page α)) (p : Page α) : delivered (ps ++ [p]) = delivered ps ++ p.items := by
  simp [delivered]

theorem read_answer {α : Type} {all D R : List α} (h : all = D ++ R) {n : Int} (h1 : (all.length : Int) + n ≤ maxInt64) (h2 : -maxInt64 ≤ n) :
    (readEntries all D.length n).1 = shouldAnswer R n ∧ (readEntries all D.length n).2 = D.length + (shouldAnswer R n).items.length := by
  have hl : all.length = D.length + R.length := by rw [h]; simp
  have hdrop : all.drop D.length = R := by rw [h]; simp
  have hw : wrap64 (D.length + n) = D.length + n := by
    apply wrap64_of_isInt64
    unfold IsInt64 minInt64
    unfold maxInt64 at h1 h2 ⊢
    omega
  unfold readEntries shouldAnswer
  cases R with
  | nil =>
    rw [if_pos (by simp at hl; omega)]
    by_cases hn : n ≤ 0
    · simp only [if_pos hn, Page.items]; exact ⟨trivial, rfl⟩
    · simp only [if_neg hn, Page.items]; exact ⟨trivial, rfl⟩
  | cons x R =>
    have hlen : all.length = D.length + (R.length + 1) := by simpa using hl
    rw [if_neg (by omega), hw]
    by_cases hn : n ≤ 0
    · rw [if_neg (by omega), if_pos hn, hdrop]
      exact ⟨rfl, by simp only [Page.items]; omega⟩
    · rw [if_neg hn]
      simp only
      by_cases hlt : (D.length : Int) + n < all.length
      · rw [if_pos ⟨by omega, hlt⟩, if_neg (by omega)]
        unfold slice
        rw [hdrop]
        refine ⟨rfl, ?_⟩
        simp only [Page.items, List.length_take, List.length_cons]
        omega
      · rw [if_neg (by omega), hdrop]
        rw [List.take_of_length_le (by simp only [List.length_cons]; omega)]
        exact ⟨rfl, by simp only [Page.items]; omega⟩

theorem sane_pre {α : Type} {pre post : List (List α × Int)} (h : Sane (pre ++ post)) : Sane pre := fun x hx => h x (List.mem_append_left _ hx)

theorem steady_pre {α : Type} {pre post : List (List α × Int)} (h : Steady (pre ++ post)) : Steady pre := by
  intro p b m q e
  exact h p b m (q ++ post) (by rw [e]; simp)

theorem cursor_eq {α : Type} (hist : List (List α × Int)) (hs : Sane hist) (hst : Steady hist) : (pages 0 hist).2 = (delivered (pages 0 hist).1).length := by
  induction hist using Tree.snocInd with
  | nil => rfl
  | snoc pre x ih =>
    have ih := ih (sane_pre hs) (steady_pre hst)
    obtain ⟨b, m⟩ := x
    obtain ⟨R, hR⟩ := hst pre b m [] rfl
    have hx := hs (b, m) (by simp)
    rw [pages_snoc]
    simp only [delivered_snoc, List.length_append]
    rw [ih]
    have := read_answer hR.symm hx.1 hx.2
    rw [this.2, this.1]

/-! ### Property C50 -/

/-- **C50**. Whatever was called on the handle before, as long as the directory still begins with what was delivered (it does when
it does not change, when entries are added, and when entries not delivered yet are removed): the next call delivers the following
entries, at most `n` of them, all of them if `n ≤ 0`, and io.EOF exactly when there is none left.
Missing from C50: removal of entries already delivered, and huge batch sizes (`Sane`). -/
theorem C50_pages_partial {α : Type} (hist : List (List α × Int)) (hs : Sane hist) (hst : Steady hist) (pre : List (List α × Int)) (b : List α) (n : Int)
    (post : List (List α × Int)) (h : hist = pre ++ (b, n) :: post) (rest : List α) (hb : b = delivered (pages 0 pre).1 ++ rest) :
    (pages 0 (pre ++ [(b, n)])).1 = (pages 0 pre).1 ++ [shouldAnswer rest n] := by
  subst h
  have hx := hs (b, n) (by simp)
  rw [pages_snoc, cursor_eq pre (sane_pre hs) (steady_pre hst), (read_answer hb hx.1 hx.2).1]

/-- **C50** (unchanged directory). Paging through a directory that does not change: what the pages deliver, put together, is a
beginning of the directory, so each entry is delivered at most once and in order; once a page answers io.EOF or one asked for
everything, it is the whole directory.
Missing from C50: huge batch sizes (`Sane`). -/
theorem C50_unchanged_partial {α : Type} (all : List α) (ns : List Int) (hs : Sane (ns.map fun n => (all, n))) :
    delivered (pages 0 (ns.map fun n => (all, n))).1 <+: all ∧
    ((Page.eof ∈ (pages 0 (ns.map fun n => (all, n))).1 ∨ ∃ n ∈ ns, n ≤ 0) → delivered (pages 0 (ns.map fun n => (all, n))).1 = all) ∧
    Page.panic ∉ (pages 0 (ns.map fun n => (all, n))).1 := by
  have key : ∀ (ns : List Int), Sane (ns.map fun n => (all, n)) → Steady (ns.map fun n => (all, n)) ∧ delivered (pages 0 (ns.map fun n => (all, n))).1 <+: all ∧
    ((Page.eof ∈ (pages 0 (ns.map fun n => (all, n))).1 ∨ ∃ n ∈ ns, n ≤ 0) → delivered (pages 0 (ns.map fun n => (all, n))).1 = all) ∧ Page.panic ∉ (pages 0 (ns.map fun n => (all, n))).1 := by
    intro ns
    induction ns using Tree.snocInd with
    | nil =>
      intro _
      refine ⟨?_, ⟨all, rfl⟩, ?_, by simp [pages]⟩
      · intro pre b m post h; cases pre <;> cases h
      · rintro (h | ⟨n, hn, _⟩)
        · simp [pages] at h
        · cases hn
    | snoc ns n ih =>
      intro hs
      rw [List.map_append] at hs ⊢
      obtain ⟨hst, hpre, hall, hnp⟩ := ih (sane_pre hs)
      have hst' : Steady (ns.map (fun n => (all, n)) ++ [n].map (fun n => (all, n))) := by
        intro pre b m post h
        rcases List.eq_nil_or_concat post with rfl | ⟨post', y, rfl⟩
        · obtain ⟨e1, e2⟩ := List.append_inj' h rfl
          cases e2
          rw [← e1]
          exact hpre
        · rw [List.concat_eq_append, ← List.cons_append, ← List.append_assoc] at h
          obtain ⟨e1, _⟩ := List.append_inj' h rfl
          exact hst pre b m post' e1
      obtain ⟨rest, hrest⟩ := hpre
      have hp := C50_pages_partial _ hs hst' _ all n [] rfl rest hrest.symm
      refine ⟨hst', ?_⟩
      simp only [List.map_cons, List.map_nil] at hp ⊢
      rw [hp, delivered_snoc]
      unfold shouldAnswer
      by_cases hn : n ≤ 0
      · simp only [if_pos hn, Page.items, hrest]
        exact ⟨List.prefix_refl _, fun _ => trivial, by simpa using hnp⟩
      · simp only [if_neg hn]
        cases rest with
        | nil =>
          simp only [Page.items, List.append_nil] at hrest ⊢
          rw [hrest]
          exact ⟨List.prefix_refl _, fun _ => rfl, by simpa using hnp⟩
        | cons x rest =>
          simp only [Page.items]
          refine ⟨⟨(x :: rest).drop n.toNat, by rw [List.append_assoc, List.take_append_drop, hrest]⟩, ?_, by simpa using hnp⟩
          rintro (h | ⟨m, hm, hm0⟩)
          · have := hall (.inl (by simpa using h))
            rw [this] at hrest
            have := congrArg List.length hrest
            simp at this
          · rcases List.mem_append.1 hm with hm | hm
            · have := hall (.inr ⟨m, hm, hm0⟩)
              rw [this] at hrest
              have := congrArg List.length hrest
              simp at this
            · simp at hm; subst hm; exact absurd hm0 hn
  have := key ns hs
  exact ⟨this.2.1, this.2.2.1, this.2.2.2⟩

example : (pages 0 ([2, 1, 5, 1].map fun n => ([10, 11, 12, 13, 14], (n : Int)))).1 = [.entries [10, 11], .entries [12], .entries [13, 14], .eof] := by decide
example : Sane ([2, 1, 5, 1].map fun n => ([10, 11, 12, 13, 14], (n : Int))) := by
  intro x hx; simp [maxInt64] at hx ⊢; rcases hx with rfl | rfl | rfl | rfl <;> simp

/-! ### Directories that lose delivered entries -/

/-- The next state of a directory: some entries are removed, new ones come last. -/
def Edits {α : Type} (a b : List α) (seen : List α) : Prop := ∃ keep : α → Bool, ∃ new, b = a.filter keep ++ new ∧ new.Nodup ∧ (∀ x ∈ new, x ∉ a ∧ x ∉ seen)

/-- Every call sees an edited version of what the call before it saw; entries that were delivered and removed do not come back (an
entry made again under the same name is another entry). -/
def Edited {α : Type} : (seen : List α) → (cur : List α) → (cursor : Nat) → List (List α × Int) → Prop
  | _, _, _, [] => True
  | seen, cur, cursor, (b, n) :: rest => Edits cur b seen ∧ Edited (seen ++ (readEntries b cursor n).1.items) b (readEntries b cursor n).2 rest

theorem read_items {α : Type} (all : List α) (c : Nat) (n : Int) :
    ∃ k, (readEntries all c n).1.items = (all.drop c).take k ∧ ((readEntries all c n).2 = c + k ∨ ((readEntries all c n).2 = all.length ∧ all.length ≤ c + k) ∨ ((readEntries all c n).2 = c ∧ k = 0)) := by
  unfold readEntries
  split
  · rename_i h
    refine ⟨0, ?_, .inl rfl⟩
    split <;> simp [Page.items]
  · split
    · split
      · exact ⟨0, by simp [Page.items], .inl rfl⟩
      · exact ⟨n.toNat, rfl, .inl rfl⟩
    · refine ⟨all.length, ?_, .inr (.inl ⟨rfl, by omega⟩)⟩
      simp only [Page.items]
      rw [List.take_of_length_le (by simp)]

theorem edited_nodup {α : Type} [DecidableEq α] : ∀ (hist : List (List α × Int)) (seen cur : List α) (c : Nat), seen.Nodup → cur.Nodup → (∀ x ∈ seen, x ∈ cur → x ∈ cur.take c) →
    Edited seen cur c hist → (seen ++ delivered (pages c hist).1).Nodup := by
  intro hist
  induction hist with
  | nil => intro seen cur c hs _ _ _; simpa [pages, delivered] using hs
  | cons y rest ih =>
    intro seen cur c hs hc hin he
    obtain ⟨b, n⟩ := y
    obtain ⟨⟨keep, new, hb, hnew, hfresh⟩, he'⟩ := he
    have hbn : b.Nodup := by
      rw [hb, List.nodup_append]
      refine ⟨hc.filter _, hnew, ?_⟩
      intro x hx z hz hxz
      subst hxz
      exact (hfresh x hz).1 (List.mem_filter.1 hx).1
    have hbin : ∀ x ∈ seen, x ∈ b → x ∈ b.take c := by
      intro x hx hxb
      rw [hb] at hxb ⊢
      rcases List.mem_append.1 hxb with h | h
      · obtain ⟨h1, h2⟩ := List.mem_filter.1 h
        have h3 := hin x hx h1
        have h4 : x ∈ (cur.take c).filter keep := List.mem_filter.2 ⟨h3, h2⟩
        have h5 : cur.filter keep = (cur.take c).filter keep ++ (cur.drop c).filter keep := by
          rw [← List.filter_append, List.take_append_drop]
        rw [h5, List.append_assoc]
        have hlen : ((cur.take c).filter keep).length ≤ c := Nat.le_trans (List.length_filter_le _ _) (by simp; omega)
        rw [List.take_append, List.take_of_length_le hlen]
        exact List.mem_append_left _ h4
      · exact absurd hx (hfresh x h).2
    obtain ⟨k, hk, hcur⟩ := read_items b c n
    have hdel : delivered (pages c ((b, n) :: rest)).1 = (readEntries b c n).1.items ++ delivered (pages (readEntries b c n).2 rest).1 := by
      simp [pages, delivered]
    rw [hdel, ← List.append_assoc]
    have hsplit : ∀ x, x ∈ b.take c → x ∉ b.drop c := by
      intro x h1 h2
      have : (b.take c ++ b.drop c).Nodup := by rw [List.take_append_drop]; exact hbn
      exact (List.nodup_append.1 this).2.2 x h1 x h2 rfl
    refine ih (seen ++ (readEntries b c n).1.items) b _ ?_ hbn ?_ he'
    · rw [List.nodup_append]
      refine ⟨hs, ?_, ?_⟩
      · rw [hk]
        exact List.Nodup.sublist (List.take_sublist _ _) (List.Nodup.sublist (List.drop_sublist _ _) hbn)
      · intro x hx z hz hxz
        subst hxz
        rw [hk] at hz
        have hz' := List.mem_of_mem_take hz
        exact hsplit x (hbin x hx (List.mem_of_mem_drop hz')) hz'
    · have htk : ∀ x, x ∈ b.take c ∨ x ∈ (b.drop c).take k → x ∈ b.take (readEntries b c n).2 := by
        intro x hx
        have hx' : x ∈ b.take (c + k) := by
          rw [List.take_add]
          rcases hx with hx | hx
          · exact List.mem_append_left _ hx
          · exact List.mem_append_right _ hx
        rcases hcur with h | ⟨h, hl⟩ | ⟨h, h0⟩
        · rw [h]; exact hx'
        · rw [h, List.take_of_length_le (Nat.le_refl _)]
          exact List.mem_of_mem_take hx'
        · subst h0; rw [h]; simpa using hx'
      intro x hx hxb
      rcases List.mem_append.1 hx with hx | hx
      · exact htk x (.inl (hbin x hx hxb))
      · rw [hk] at hx
        exact htk x (.inr hx)

/-- **C50** (never twice). Whatever is removed and added between the calls, no entry is delivered twice. -/
theorem C50_never_twice {α : Type} [DecidableEq α] (all : List α) (hall : all.Nodup) (hist : List (List α × Int)) (h : Edited [] all 0 hist) :
    (delivered (pages 0 hist).1).Nodup := by
  have := edited_nodup hist [] all 0 List.nodup_nil hall (by simp) h
  simpa using this

/-- **C50** fails when entries that were already delivered are removed: of the directory a, b, c the first call delivers a, then a is
removed, and the next call, which asks for all the rest, does not deliver b. (The removal is one of the synthetic tree.) -/
theorem C50_counterexample_removal :
    let before := Tree.after [(0, .mkdir ['a'] 0), (0, .mkdir ['b'] 0), (0, .mkdir ['c'] 0)]
    let later := before.run [(0, .remove ['a'] false)]
    before.st.entries 0 = [1, 2, 3] ∧ later.st.entries 0 = [2, 3] ∧
    (pages 0 [(before.st.entries 0, 1), (later.st.entries 0, -1), (later.st.entries 0, 1)]).1 = [.entries [1], .entries [3], .eof] := by
  decide +kernel

/-- A batch size close to the largest int panics once the handle has moved. -/
theorem C50_note_huge_batch_panics : (pages 0 [([10, 11, 12], 1), ([10, 11, 12], maxInt64)]).1 = [.entries [10], .panic] := by decide +kernel

end Verif.Synth.DirPage
