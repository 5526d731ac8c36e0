import Verif.Common.Path
/-
Model of the lines describing a tree to set up: /repo/fsutil/testhelper/setup.go 52-94 `ParseSetupProcLine` (C111).

Unix separators: `filepath.FromSlash` is the identity. `strconv.Unquote` is a parameter. Texts of errors are left out.
-/
namespace Verif.Testhelper
open Verif Verif.Path

/-- What a line asks for (setup.go 132-256). -/
inductive Proc where
  | dir (name : Str)
  | file (name content : Str)
  | symlink (name target : Str)
  deriving DecidableEq, Repr

def arrow : Str := [' ', '-', '>', ' ']
def colon : Str := [':', ' ']

/-- `strings.Cut` and `strings.Contains`: around the first occurrence. -/
def cut (w : Str) : Str → Option (Str × Str)
  | [] => if w.isPrefixOf [] then some ([], []) else none
  | c :: r => if w.isPrefixOf (c :: r) then some ([], (c :: r).drop w.length) else (cut w r).map fun p => (c :: p.1, p.2)

/-- setup.go 52-94 `ParseSetupProcLine`. -/
def parse (unquote : Str → Option Str) (line : Str) : Option Proc :=
  match cut arrow line with
  | some (p, t) => if p = [] ∨ t = [] then none else some (.symlink p t)
  | none =>
    if line.getLast? = some slash then
      if line.dropLast = [] then none else some (.dir line.dropLast)
    else match cut colon line with
      | none => none
      | some (p, c) =>
        if p = [] then none
        else if c.head? = some '"' ∨ c.head? = some '`' then (unquote c).map (.file p)
        else if ' ' ∈ c then none
        else some (.file p c)

/-! ## Specification -/

/-- `w` occurs in `s`. -/
def Has (w s : Str) : Prop := ∃ a b, s = a ++ w ++ b

/-- `s` is `a`, then `w`, then `b`, and `w` occurs nowhere earlier. -/
def First (w s a b : Str) : Prop := s = a ++ w ++ b ∧ ∀ a' b', s = a' ++ w ++ b' → a.length ≤ a'.length

theorem prefix_iff {w s : Str} : w.isPrefixOf s = true ↔ ∃ t, s = w ++ t := by
  rw [List.isPrefixOf_iff_prefix]
  exact ⟨fun ⟨t, h⟩ => ⟨t, h.symm⟩, fun ⟨t, h⟩ => ⟨t, h.symm⟩⟩

theorem cut_none {w s : Str} : cut w s = none ↔ ¬ Has w s := by
  induction s with
  | nil =>
    unfold cut
    split
    · rename_i h
      obtain ⟨t, ht⟩ := prefix_iff.mp h
      exact ⟨fun h => (by cases h), fun hn => absurd ⟨[], t, by simpa using ht⟩ hn⟩
    · rename_i h
      refine ⟨fun _ ⟨a, b, hab⟩ => h (prefix_iff.mpr ⟨b, ?_⟩), fun _ => rfl⟩
      have ha : a = [] := by
        cases a with
        | nil => rfl
        | cons x a => cases hab
      rw [ha] at hab
      simpa using hab
  | cons c r ih =>
    unfold cut
    split
    · rename_i h
      obtain ⟨t, ht⟩ := prefix_iff.mp h
      exact ⟨fun h => (by cases h), fun hn => absurd ⟨[], t, by simpa using ht⟩ hn⟩
    · rename_i h
      rw [Option.map_eq_none_iff, ih]
      refine not_congr ⟨fun ⟨a, b, hab⟩ => ⟨c :: a, b, by rw [hab]; rfl⟩, fun ⟨a, b, hab⟩ => ?_⟩
      cases a with
      | nil => exact absurd (prefix_iff.mpr ⟨b, by simpa using hab⟩) h
      | cons x a =>
        simp only [List.cons_append, List.cons.injEq] at hab
        exact ⟨a, b, hab.2⟩

theorem cut_some {w s a b : Str} : cut w s = some (a, b) ↔ First w s a b := by
  induction s generalizing a with
  | nil =>
    unfold cut
    constructor
    · intro h
      split at h
      · rename_i hw
        cases h
        obtain ⟨t, ht⟩ := prefix_iff.mp hw
        have := List.append_eq_nil_iff.mp ht.symm
        exact ⟨by rw [this.1]; rfl, fun a' b' _ => Nat.zero_le _⟩
      · cases h
    · rintro ⟨h, _⟩
      have h1 := List.append_eq_nil_iff.mp h.symm
      have h2 := List.append_eq_nil_iff.mp h1.1
      rw [h2.1, h2.2, h1.2]
      rfl
  | cons c r ih =>
    unfold cut
    split
    · rename_i hw
      obtain ⟨t, ht⟩ := prefix_iff.mp hw
      have hd : (c :: r).drop w.length = t := by rw [ht]; simp
      rw [hd]
      constructor
      · intro h
        cases h
        exact ⟨by simpa using ht, fun a' b' _ => Nat.zero_le _⟩
      · rintro ⟨h1, h2⟩
        have ha : a = [] := by
          have := h2 [] t (by simpa using ht)
          exact List.eq_nil_of_length_eq_zero (by simpa using this)
        subst ha
        have : t = b := by
          rw [ht] at h1
          simpa using h1
        rw [this]
    · rename_i hw
      constructor
      · intro h
        rw [Option.map_eq_some_iff] at h
        obtain ⟨⟨x, y⟩, hxy, he⟩ := h
        cases he
        obtain ⟨h1, h2⟩ := ih.mp hxy
        refine ⟨by rw [h1]; rfl, fun a' b' hab => ?_⟩
        cases a' with
        | nil => exact absurd (prefix_iff.mpr ⟨b', by simpa using hab⟩) hw
        | cons z a' =>
          simp only [List.cons_append, List.cons.injEq] at hab
          exact Nat.succ_le_succ (h2 a' b' hab.2)
      · rintro ⟨h1, h2⟩
        cases a with
        | nil => exact absurd (prefix_iff.mpr ⟨b, by simpa using h1⟩) hw
        | cons z a =>
          simp only [List.cons_append, List.cons.injEq] at h1
          rw [Option.map_eq_some_iff]
          refine ⟨(a, b), ih.mpr ⟨h1.2, fun a' b' hab => ?_⟩, by rw [h1.1]⟩
          have := h2 (c :: a') b' (by rw [hab]; rfl)
          simpa using this

/-! ## C111 -/

/-- **C111** (links). A line asks for a symbolic link exactly when it is a name, an arrow and a target; the name ends at the first arrow. -/
theorem C111_link (u : Str → Option Str) (l p t : Str) : parse u l = some (.symlink p t) ↔ First arrow l p t ∧ p ≠ [] ∧ t ≠ [] := by
  unfold parse
  rw [← cut_some]
  cases hc : cut arrow l with
  | some q =>
    obtain ⟨x, y⟩ := q
    simp only [Option.some.injEq, Prod.mk.injEq]
    by_cases he : x = [] ∨ y = []
    · rw [if_pos he]
      refine ⟨(fun h => by cases h), ?_⟩
      rintro ⟨⟨rfl, rfl⟩, h1, h2⟩
      rcases he with h | h
      · exact absurd h h1
      · exact absurd h h2
    · rw [if_neg he]
      constructor
      · intro h
        cases h
        exact ⟨⟨rfl, rfl⟩, fun h => he (Or.inl h), fun h => he (Or.inr h)⟩
      · rintro ⟨⟨rfl, rfl⟩, _, _⟩
        rfl
  | none =>
    simp only
    refine ⟨fun h => ?_, fun h => by cases h.1⟩
    exfalso
    split at h
    · split at h <;> cases h
    · split at h
      · cases h
      · split at h
        · cases h
        · split at h
          · rw [Option.map_eq_some_iff] at h
            obtain ⟨_, _, h⟩ := h
            cases h
          · split at h <;> cases h

/-- **C111** (directories). A line asks for a directory exactly when it is a name and a slash, and there is no arrow in it. -/
theorem C111_dir (u : Str → Option Str) (l p : Str) : parse u l = some (.dir p) ↔ l = p ++ [slash] ∧ p ≠ [] ∧ ¬ Has arrow l := by
  unfold parse
  rw [← cut_none]
  cases hc : cut arrow l with
  | some q =>
    obtain ⟨x, y⟩ := q
    simp only
    refine ⟨fun h => ?_, fun h => by cases h.2.2⟩
    split at h <;> cases h
  | none =>
    simp only
    by_cases hl : l.getLast? = some slash
    · rw [if_pos hl]
      have hne : l ≠ [] := by
        intro h
        rw [h] at hl
        cases hl
      have hsplit : l = l.dropLast ++ [slash] := by
        rw [List.getLast?_eq_some_getLast hne, Option.some.injEq] at hl
        rw [← hl]
        exact (List.dropLast_concat_getLast hne).symm
      constructor
      · intro h
        split at h
        · cases h
        · rename_i hd
          cases h
          exact ⟨hsplit, hd, trivial⟩
      · rintro ⟨h, hp, _⟩
        have : l.dropLast = p := by rw [h]; simp
        rw [this, if_neg hp]
    · rw [if_neg hl]
      refine ⟨fun h => ?_, fun h => absurd (by rw [h.1]; simp) hl⟩
      exfalso
      split at h
      · cases h
      · split at h
        · cases h
        · split at h
          · rw [Option.map_eq_some_iff] at h
            obtain ⟨_, _, h⟩ := h
            cases h
          · split at h <;> cases h

/-- **C111** (files). A line asks for a file exactly when it is a name, a colon with a space and a content; the name ends at the first one; there is no arrow in it, and no slash at its end. A content
that begins with a quote is what Go makes of it; any other has no spaces and stands for itself. -/
theorem C111_file (u : Str → Option Str) (l p c : Str) : parse u l = some (.file p c) ↔
    ∃ q, First colon l p q ∧ p ≠ [] ∧ ¬ Has arrow l ∧ l.getLast? ≠ some slash ∧
      (((q.head? = some '"' ∨ q.head? = some '`') ∧ u q = some c) ∨ (q.head? ≠ some '"' ∧ q.head? ≠ some '`' ∧ ' ' ∉ q ∧ q = c)) := by
  unfold parse
  simp only [← cut_none, ← cut_some]
  cases hc : cut arrow l with
  | some q =>
    obtain ⟨x, y⟩ := q
    simp only
    refine ⟨fun h => ?_, fun ⟨_, _, _, h, _⟩ => by cases h⟩
    split at h <;> cases h
  | none =>
    simp only
    by_cases hl : l.getLast? = some slash
    · rw [if_pos hl]
      refine ⟨fun h => ?_, fun ⟨_, _, _, _, h, _⟩ => absurd hl h⟩
      split at h <;> cases h
    · rw [if_neg hl]
      cases hk : cut colon l with
      | none => exact ⟨(fun h => by cases h), fun ⟨_, h, _⟩ => by cases h⟩
      | some q =>
        obtain ⟨x, y⟩ := q
        simp only [Option.some.injEq, Prod.mk.injEq]
        by_cases hx : x = []
        · rw [if_pos hx]
          refine ⟨(fun h => by cases h), ?_⟩
          rintro ⟨q, ⟨rfl, rfl⟩, hp, _⟩
          exact absurd hx hp
        · rw [if_neg hx]
          by_cases hq : y.head? = some '"' ∨ y.head? = some '`'
          · rw [if_pos hq, Option.map_eq_some_iff]
            constructor
            · rintro ⟨z, hz, he⟩
              cases he
              exact ⟨y, ⟨rfl, rfl⟩, hx, trivial, hl, Or.inl ⟨hq, hz⟩⟩
            · rintro ⟨q, ⟨rfl, rfl⟩, _, _, _, ⟨_, h⟩ | ⟨h1, h2, _⟩⟩
              · exact ⟨c, h, rfl⟩
              · rcases hq with h | h
                · exact absurd h h1
                · exact absurd h h2
          · rw [if_neg hq]
            by_cases hs : ' ' ∈ y
            · rw [if_pos hs]
              refine ⟨(fun h => by cases h), ?_⟩
              rintro ⟨q, ⟨rfl, rfl⟩, _, _, _, ⟨h, _⟩ | ⟨_, _, h, _⟩⟩
              · exact absurd h hq
              · exact absurd hs h
            · rw [if_neg hs]
              constructor
              · intro h
                cases h
                exact ⟨_, ⟨rfl, rfl⟩, hx, trivial, hl, Or.inr ⟨fun h => hq (Or.inl h), fun h => hq (Or.inr h), hs, rfl⟩⟩
              · rintro ⟨q, ⟨rfl, rfl⟩, _, _, _, ⟨h, _⟩ | ⟨_, _, _, rfl⟩⟩
                · exact absurd h hq
                · rfl

/-! ## Writing a tree down and reading it back -/

/-- An occurrence that ends within the first part lies in it. -/
theorem has_left {w a b p r : Str} (h : p ++ r = a ++ w ++ b) (hl : a.length + w.length ≤ p.length) : Has w p := by
  refine ⟨a, b.take (p.length - (a ++ w).length), ?_⟩
  have := congrArg (List.take p.length) h
  rw [List.take_left, List.take_append, List.take_of_length_le (by simpa using hl)] at this
  exact this

/-- One that begins after it lies in the second. -/
theorem has_right {w a b p r : Str} (h : p ++ r = a ++ w ++ b) (hl : p.length ≤ a.length) : Has w r := by
  refine ⟨a.drop p.length, b, ?_⟩
  have := congrArg (List.drop p.length) h
  rw [List.drop_left, List.append_assoc, List.drop_append_of_le_length hl] at this
  rw [this, List.append_assoc]

/-- The letters of an occurrence. -/
theorem letter {w a b s : Str} (h : s = a ++ w ++ b) {i : Nat} (hi : i < w.length) : s[a.length + i]? = w[i]? := by
  rw [h, List.append_assoc, List.getElem?_append_right (by omega), Nat.add_sub_cancel_left, List.getElem?_append_left hi]

/-- **C111** (directories, written down). -/
theorem C111_write_dir (u : Str → Option Str) (p : Str) (hp : p ≠ []) (ha : ¬ Has arrow p) : parse u (p ++ [slash]) = some (.dir p) := by
  refine (C111_dir u _ p).mpr ⟨rfl, hp, fun ⟨a, b, h⟩ => ?_⟩
  by_cases hl : a.length + 4 ≤ p.length
  · exact ha (has_left h hl)
  · have hlen := congrArg List.length h
    simp only [List.length_append, List.length_cons, List.length_nil, arrow] at hlen
    have h3 := letter h (i := 3) (by decide)
    rw [List.getElem?_append_right (by omega), show a.length + 3 - p.length = 0 by omega] at h3
    exact absurd h3 (by decide)

/-- **C111** (links, written down). The name may not end in the beginning of another arrow. -/
theorem C111_write_link (u : Str → Option Str) (p t : Str) (hp : p ≠ []) (ht : t ≠ []) (ha : ¬ Has arrow (p ++ [' '])) : parse u (p ++ arrow ++ t) = some (.symlink p t) := by
  refine (C111_link u _ p t).mpr ⟨⟨rfl, fun a b h => ?_⟩, hp, ht⟩
  apply Classical.byContradiction
  intro hlt
  have hx : ∀ i, i < 4 → (p ++ arrow ++ t)[p.length + i]? = arrow[i]? := fun i hi => letter rfl hi
  by_cases h3 : a.length + 3 ≤ p.length
  · refine ha (has_left (r := ['-', '>', ' '] ++ t) (a := a) (b := b) ?_ (by simp [arrow]; omega))
    rw [← h]
    simp [arrow]
  · have h0 := hx 0 (by decide)
    have hn := letter h (i := p.length - a.length) (by simp [arrow]; omega)
    rw [show a.length + (p.length - a.length) = p.length + 0 by omega, h0] at hn
    have : p.length - a.length = 1 ∨ p.length - a.length = 2 := by omega
    rcases this with h | h <;> rw [h] at hn <;> exact absurd hn (by decide)

/-- Where the name ends and no arrow is, for a line with a colon. -/
theorem colon_line {p q : Str} (hc : ¬ Has colon p) (ha : ¬ Has arrow p) (hb : ¬ Has arrow (' ' :: q)) : First colon (p ++ colon ++ q) p q ∧ ¬ Has arrow (p ++ colon ++ q) := by
  have h0 : (p ++ colon ++ q)[p.length + 0]? = some ':' := letter (w := colon) rfl (by decide)
  refine ⟨⟨rfl, fun a b h => ?_⟩, fun ⟨a, b, h⟩ => ?_⟩
  · apply Classical.byContradiction
    intro hlt
    by_cases h2 : a.length + 2 ≤ p.length
    · exact hc (has_left (r := colon ++ q) (by rw [← h, List.append_assoc]) h2)
    · have hn := letter h (i := 1) (by decide)
      rw [show a.length + 1 = p.length + 0 by omega, h0] at hn
      exact absurd hn (by decide)
  · by_cases h4 : a.length + 4 ≤ p.length
    · exact ha (has_left (r := colon ++ q) (by rw [← h, List.append_assoc]) h4)
    · by_cases h1 : a.length ≤ p.length
      · have hn := letter h (i := p.length - a.length) (by simp [arrow]; omega)
        rw [show a.length + (p.length - a.length) = p.length + 0 by omega, h0] at hn
        have : p.length - a.length = 0 ∨ p.length - a.length = 1 ∨ p.length - a.length = 2 ∨ p.length - a.length = 3 := by omega
        rcases this with h | h | h | h <;> rw [h] at hn <;> exact absurd hn (by decide)
      · exact hb (has_right (p := p ++ [':']) (r := ' ' :: q) (a := a) (b := b) (by rw [← h]; simp [colon]) (by simp; omega))

theorem last_ne {p q : Str} (h : q.getLast? ≠ some slash) : (p ++ colon ++ q).getLast? ≠ some slash := by
  cases hq : q.getLast? with
  | none =>
    rw [List.getLast?_eq_none_iff.mp hq]
    simp [colon, slash]
  | some x =>
    rw [hq] at h
    rw [List.getLast?_append, hq]
    exact h

/-- **C111** (files, written down). A content without spaces, that neither begins with a quote nor ends in a slash, stands for itself. -/
theorem C111_write_plain (u : Str → Option Str) (p c : Str) (hp : p ≠ []) (ha : ¬ Has arrow p) (hc : ¬ Has colon p) (hs : ' ' ∉ c) (h1 : c.head? ≠ some '"') (h2 : c.head? ≠ some '`')
    (hm : c.getLast? ≠ some slash) : parse u (p ++ colon ++ c) = some (.file p c) := by
  have hb : ¬ Has arrow (' ' :: c) := by
    rintro ⟨a, b, h⟩
    cases a with
    | nil =>
      simp only [arrow, List.nil_append, List.cons_append, List.cons.injEq] at h
      exact hs (by rw [h.2]; simp)
    | cons x a =>
      simp only [List.cons_append, List.cons.injEq] at h
      exact hs (by rw [h.2]; simp [arrow])
  obtain ⟨hf, hn⟩ := colon_line hc ha hb
  exact (C111_file u _ p c).mpr ⟨c, hf, hp, hn, last_ne hm, Or.inr ⟨h1, h2, hs, rfl⟩⟩

/-- **C111** (files, written down with a quoted content). Every content can be written so that it is read back, as long as there is no arrow in the quoted text. `q` is the quoted text, which begins and
ends with a quote. -/
theorem C111_write_quoted_partial (u : Str → Option Str) (p q c : Str) (hp : p ≠ []) (ha : ¬ Has arrow p) (hc : ¬ Has colon p) (hq : ¬ Has arrow q) (h1 : q.head? = some '"' ∨ q.head? = some '`')
    (hm : q.getLast? ≠ some slash) (hu : u q = some c) : parse u (p ++ colon ++ q) = some (.file p c) := by
  have hb : ¬ Has arrow (' ' :: q) := by
    rintro ⟨a, b, h⟩
    cases a with
    | nil =>
      simp only [arrow, List.nil_append, List.cons_append, List.cons.injEq] at h
      rw [h.2] at h1
      rcases h1 with h1 | h1 <;> exact absurd h1 (by simp)
    | cons x a =>
      simp only [List.cons_append, List.cons.injEq] at h
      exact hq ⟨a, b, h.2⟩
  obtain ⟨hf, hn⟩ := colon_line hc ha hb
  exact (C111_file u _ p c).mpr ⟨q, hf, hp, hn, last_ne hm, Or.inl ⟨h1, hu⟩⟩

/-- **C111** does not hold when the content has an arrow in it: for every unquoting, `a: "x -> y"` asks for a link named `a: "x`. -/
theorem C111_counterexample_arrow (u : Str → Option Str) :
    parse u ("a".toList ++ colon ++ "\"x -> y\"".toList) = some (.symlink "a: \"x".toList "y\"".toList) := by
  rfl

/-- A content that ends in a slash and is not quoted is taken for the end of the name of a directory. -/
theorem C111_counterexample_slash (u : Str → Option Str) : parse u ("a".toList ++ colon ++ "x/".toList) = some (.dir "a: x".toList) := by
  rfl

/-- A name that ends in an arrow without the last space loses it. -/
theorem C111_counterexample_name (u : Str → Option Str) : parse u ("a ->".toList ++ arrow ++ "b".toList) = some (.symlink "a".toList "-> b".toList) := by
  rfl

/-- The names and contents of the tests of the package. -/
example (u : Str → Option Str) (hu : u "\"hello world\"".toList = some "hello world".toList) :
    parse u ("dir/file.txt".toList ++ colon ++ "\"hello world\"".toList) = some (.file "dir/file.txt".toList "hello world".toList) ∧
    parse u ("dir/file.txt".toList ++ colon ++ "content".toList) = some (.file "dir/file.txt".toList "content".toList) ∧
    parse u ("dir/link".toList ++ arrow ++ "../a: b".toList) = some (.symlink "dir/link".toList "../a: b".toList) ∧
    parse u ("dir: a".toList ++ [slash]) = some (.dir "dir: a".toList) := by
  refine ⟨?_, rfl, rfl, rfl⟩
  refine C111_write_quoted_partial u _ _ _ (by decide) (cut_none.mp rfl) (cut_none.mp rfl) (cut_none.mp rfl) (Or.inl rfl) (by decide) hu

end Verif.Testhelper
