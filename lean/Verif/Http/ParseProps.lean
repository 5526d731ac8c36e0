import Verif.Http.Model
import Verif.Common.StrLemmas
/-
Property C13: Content-Range parsing is exact.
-/
namespace Verif.Http

/-- Specification: the unit token, "bytes" in any letter case (`ſ` counts as `s`, as `strings.EqualFold` has it). -/
def BytesUnit (u : Str) : Prop :=
  ∃ b y t e s, u = [b, y, t, e, s] ∧ b ∈ ['b', 'B'] ∧ y ∈ ['y', 'Y'] ∧ t ∈ ['t', 'T'] ∧ e ∈ ['e', 'E'] ∧ s ∈ ['s', 'S', 'ſ']

/-- Specification: the header value `v` says range `[s, e]` of `t`, up to surrounding white space and extra blanks after the unit. -/
def SaysRange (v : Str) (s e t : Nat) : Prop :=
  ∃ w1 u pad S E T w2, v = w1 ++ (u ++ ' ' :: (pad ++ (S ++ '-' :: (E ++ '/' :: T)))) ++ w2 ∧
    (∀ c ∈ w1, isSpace c) ∧ (∀ c ∈ w2, isSpace c) ∧ BytesUnit u ∧ (∀ c ∈ pad, c = ' ') ∧
    IsDecimal S s ∧ IsDecimal E e ∧ IsDecimal T t

/-- Specification: the header value `v` is the unsatisfied form with complete length `t`. -/
def SaysUnsatisfied (v : Str) (t : Nat) : Prop :=
  ∃ w1 u pad T w2, v = w1 ++ (u ++ ' ' :: (pad ++ ('*' :: '/' :: T))) ++ w2 ∧
    (∀ c ∈ w1, isSpace c) ∧ (∀ c ∈ w2, isSpace c) ∧ BytesUnit u ∧ (∀ c ∈ pad, c = ' ') ∧ IsDecimal T t

theorem foldEq_iff {c l : Char} : foldEq c l = true ↔ c = l ∨ c = l.toUpper ∨ (l = 's' ∧ c = 'ſ') := by
  unfold foldEq
  simp only [Bool.or_eq_true, decide_eq_true_eq, Bool.and_eq_true, or_assoc]
  have : ∀ c : Char, c.toNat = 0x17F ↔ c = 'ſ' := by
    intro c
    constructor
    · intro h; apply Char.ext; apply UInt32.toNat.inj; exact h
    · rintro rfl; rfl
  rw [this]

theorem isBytesUnit_iff {u : Str} : isBytesUnit u = true ↔ BytesUnit u := by
  unfold isBytesUnit BytesUnit
  split
  · rename_i a b c d e
    simp only [Bool.and_eq_true, foldEq_iff]
    constructor
    · rintro ⟨⟨⟨⟨h1, h2⟩, h3⟩, h4⟩, h5⟩
      refine ⟨a, b, c, d, e, rfl, ?_⟩
      simp at *
      exact ⟨h1, h2, h3, h4, by simpa using h5⟩
    · rintro ⟨_, _, _, _, _, he, h1, h2, h3, h4, h5⟩
      simp at he
      obtain ⟨rfl, rfl, rfl, rfl, rfl⟩ := he
      simp at *
      exact ⟨⟨⟨⟨h1, h2⟩, h3⟩, h4⟩, by simpa using h5⟩
  · rename_i h
    constructor
    · intro h; simp at h
    · rintro ⟨_, _, _, _, _, rfl, _⟩; exact absurd rfl (h _ _ _ _ _)

theorem parseDecimal_iff {s : Str} {v : Int} : parseDecimal s = some v ↔ ∃ n : Nat, IsDecimal s n ∧ (n : Int) ≤ maxInt64 ∧ v = n := by
  unfold parseDecimal
  by_cases hs : s = []
  · subst hs; simp; intro n h; exact absurd rfl h.ne_nil
  · rw [if_neg hs]
    split
    · rename_i hall
      simp at hall
      obtain ⟨c, rest, rfl⟩ : ∃ c rest, s = c :: rest := by
        cases s with
        | nil => exact absurd rfl hs
        | cons c rest => exact ⟨c, rest, rfl⟩
      have hc := hall c (by simp)
      have h1 : c ≠ '-' := by rintro rfl; exact absurd hc.1 (by decide)
      have h2 : c ≠ '+' := by rintro rfl; exact absurd hc.1 (by decide)
      unfold parseInt64
      simp only [h1, h2, if_false]
      rw [if_neg (by simp)]
      cases hd : digitsVal 0 (c :: rest) with
      | none =>
        simp
        intro n hn
        rw [(digitsVal_isDecimal hs).2 hn] at hd; simp at hd
      | some w =>
        have hw := (digitsVal_isDecimal hs).1 hd
        simp only [Bool.false_eq_true, if_false]
        constructor
        · intro h
          split at h
          · simp at h; exact ⟨w, hw, by unfold maxInt64; omega, h.symm⟩
          · simp at h
        · rintro ⟨n, hn, hle, rfl⟩
          have := hn.unique hw
          subst this
          rw [if_pos (by unfold maxInt64 at hle; omega)]
    · rename_i hall
      constructor
      · intro h; simp at h
      · rintro ⟨n, hn, _⟩
        exfalso; apply hall
        simp; exact hn.digits

theorem digit_not_space {c : Char} (h : '0' ≤ c ∧ c ≤ '9') : isSpace c = false := by
  have h1 : '0'.toNat ≤ c.toNat := h.1
  have h2 : c.toNat ≤ '9'.toNat := h.2
  have e0 : '0'.toNat = 48 := rfl
  have e9 : '9'.toNat = 57 := rfl
  unfold isSpace
  simp
  omega

theorem dropWhile_split {α} (p : α → Bool) (l : List α) : ∃ w, l = w ++ l.dropWhile p ∧ ∀ c ∈ w, p c = true := by
  induction l with
  | nil => exact ⟨[], rfl, by simp⟩
  | cons a l ih =>
    by_cases h : p a = true
    · obtain ⟨w, h1, h2⟩ := ih
      refine ⟨a :: w, ?_, ?_⟩
      · rw [List.dropWhile_cons_of_pos h, List.cons_append, ← h1]
      · intro c hc; simp at hc
        rcases hc with rfl | hc
        · exact h
        · exact h2 c hc
    · exact ⟨[], by rw [List.dropWhile_cons_of_neg h]; rfl, by simp⟩

theorem dropWhile_append_all {α} (p : α → Bool) (w l : List α) (h : ∀ c ∈ w, p c = true) : (w ++ l).dropWhile p = l.dropWhile p := by
  induction w with
  | nil => rfl
  | cons a w ih =>
    rw [List.cons_append, List.dropWhile_cons_of_pos (h a (by simp))]
    exact ih (fun c hc => h c (by simp [hc]))

theorem trimSpace_split (v : Str) : ∃ w1 w2, v = w1 ++ trimSpace v ++ w2 ∧ (∀ c ∈ w1, isSpace c = true) ∧ (∀ c ∈ w2, isSpace c = true) := by
  obtain ⟨w1, h1, hw1⟩ := dropWhile_split isSpace v
  obtain ⟨w2, h2, hw2⟩ := dropWhile_split isSpace (v.dropWhile isSpace).reverse
  refine ⟨w1, w2.reverse, ?_, hw1, by simpa using hw2⟩
  unfold trimSpace
  rw [List.append_assoc, ← List.reverse_append, ← h2, List.reverse_reverse]
  exact h1

theorem trimSpace_of_ends (w1 t w2 : Str) (hw1 : ∀ c ∈ w1, isSpace c = true) (hw2 : ∀ c ∈ w2, isSpace c = true)
    (a z : Char) (t1 t2 : Str) (ha : t = a :: t1) (hz : t = t2 ++ [z]) (hna : isSpace a = false) (hnz : isSpace z = false) :
    trimSpace (w1 ++ t ++ w2) = t := by
  unfold trimSpace
  rw [List.append_assoc, dropWhile_append_all _ _ _ hw1]
  conv => lhs; rw [ha, List.cons_append, List.dropWhile_cons_of_neg (by simp [hna]), ← List.cons_append, ← ha]
  rw [List.reverse_append, dropWhile_append_all _ _ _ (by simpa using hw2)]
  rw [hz, List.reverse_append, List.reverse_singleton, List.singleton_append, List.dropWhile_cons_of_neg (by simp [hnz])]
  simp

theorem BytesUnit.first {u : Str} (h : BytesUnit u) : ∃ a u', u = a :: u' ∧ isSpace a = false ∧ ' ' ∉ u := by
  obtain ⟨b, y, t, e, s, rfl, h1, h2, h3, h4, h5⟩ := h
  refine ⟨b, [y, t, e, s], rfl, ?_, ?_⟩
  · simp at h1; rcases h1 with rfl | rfl <;> decide
  · simp at *
    refine ⟨?_, ?_, ?_, ?_, ?_⟩
    · rcases h1 with rfl | rfl <;> decide
    · rcases h2 with rfl | rfl <;> decide
    · rcases h3 with rfl | rfl <;> decide
    · rcases h4 with rfl | rfl <;> decide
    · rcases h5 with rfl | rfl | rfl <;> decide

theorem IsDecimal.last {s : Str} {n : Nat} (h : IsDecimal s n) : ∃ t z, s = t ++ [z] ∧ isSpace z = false := by
  have hne := h.ne_nil
  exact ⟨s.dropLast, s.getLast hne, (List.dropLast_concat_getLast hne).symm, digit_not_space (h.digits _ (List.getLast_mem hne))⟩

theorem IsDecimal.not_mem {s : Str} {n : Nat} (h : IsDecimal s n) {c : Char} (hc : ¬ ('0' ≤ c ∧ c ≤ '9')) : c ∉ s :=
  fun hm => hc (h.digits c hm)

/-- The common front part of the parser, on a value built as the specification says. -/
theorem parse_front (w1 u pad rng T w2 : Str) (t : Nat) (hw1 : ∀ c ∈ w1, isSpace c = true) (hw2 : ∀ c ∈ w2, isSpace c = true)
    (hu : BytesUnit u) (hpad : ∀ c ∈ pad, c = ' ') (hT : IsDecimal T t)
    (hr : ∃ a r', rng = a :: r' ∧ a ≠ ' ') (hslash : '/' ∉ rng) :
    cutFirst ' ' (trimSpace (w1 ++ (u ++ ' ' :: (pad ++ (rng ++ '/' :: T))) ++ w2)) = some (u, pad ++ (rng ++ '/' :: T)) ∧
    isBytesUnit u = true ∧
    cutFirst '/' ((pad ++ (rng ++ '/' :: T)).dropWhile (· = ' ')) = some (rng, T) := by
  obtain ⟨a, u', hu1, hu2, hu3⟩ := hu.first
  obtain ⟨T', z, hT1, hT2⟩ := IsDecimal.last hT
  refine ⟨?_, isBytesUnit_iff.2 hu, ?_⟩
  · rw [trimSpace_of_ends w1 _ w2 hw1 hw2 a z (u' ++ ' ' :: (pad ++ (rng ++ '/' :: T))) (u ++ ' ' :: (pad ++ (rng ++ '/' :: T')))
      (by rw [hu1]; rfl) (by rw [hT1]; simp) hu2 hT2]
    exact cutFirst_eq_some.2 ⟨rfl, hu3⟩
  · rw [dropWhile_append_all _ _ _ (by intro c hc; simp [hpad c hc])]
    obtain ⟨x, r', rfl, hx⟩ := hr
    rw [List.cons_append, List.dropWhile_cons_of_neg (by simpa using hx), ← List.cons_append]
    exact cutFirst_eq_some.2 ⟨rfl, hslash⟩

/-- C13: the parser accepts exactly the strings saying a range inside its complete length, all numbers fitting int64, and exactly the
strings of the unsatisfied form, and it returns the numbers they say.  Everything else is an error. -/
theorem C13_parse_exact (v : Str) (a b c : Int) :
    parseContentRange v = some (a, b, c) ↔
      (∃ s e t : Nat, SaysRange v s e t ∧ s ≤ e ∧ e < t ∧ (t : Int) ≤ maxInt64 ∧ a = s ∧ b = e ∧ c = t) ∨
      (∃ t : Nat, SaysUnsatisfied v t ∧ (t : Int) ≤ maxInt64 ∧ a = -1 ∧ b = -1 ∧ c = t) := by
  constructor
  · intro h
    obtain ⟨w1, w2, hv, hw1, hw2⟩ := trimSpace_split v
    unfold parseContentRange at h
    cases hc1 : cutFirst ' ' (trimSpace v) with
    | none => simp [hc1] at h
    | some p =>
      obtain ⟨u, spec⟩ := p
      simp only [hc1] at h
      split at h
      · simp at h
      · rename_i hu
        simp at hu
        obtain ⟨pad, hpad, hpads⟩ := dropWhile_split (· = ' ') spec
        cases hc2 : cutFirst '/' (spec.dropWhile (· = ' ')) with
        | none => simp [hc2] at h
        | some p =>
          obtain ⟨rng, T⟩ := p
          simp only [hc2] at h
          obtain ⟨hc1a, hc1b⟩ := cutFirst_eq_some.1 hc1
          obtain ⟨hc2a, hc2b⟩ := cutFirst_eq_some.1 hc2
          cases hT : parseDecimal T with
          | none => simp [hT] at h
          | some t =>
            simp only [hT] at h
            obtain ⟨tn, hTd, hTm, rfl⟩ := parseDecimal_iff.1 hT
            split at h
            · rename_i hstar
              simp at h
              right
              refine ⟨tn, ⟨w1, u, pad, T, w2, ?_, hw1, hw2, isBytesUnit_iff.1 hu, by simpa using hpads, hTd⟩, hTm, by omega, by omega, by omega⟩
              rw [hstar] at hc2a
              rw [hc2a] at hpad
              rw [hv, hc1a, hpad]
              simp
            · cases hc3 : cutFirst '-' rng with
              | none => simp [hc3] at h
              | some p =>
                obtain ⟨S, E⟩ := p
                simp only [hc3] at h
                obtain ⟨hc3a, hc3b⟩ := cutFirst_eq_some.1 hc3
                cases hS : parseDecimal S with
                | none => simp [hS] at h
                | some s =>
                  simp only [hS] at h
                  cases hE : parseDecimal E with
                  | none => simp [hE] at h
                  | some e =>
                    simp only [hE] at h
                    obtain ⟨sn, hSd, hSm, rfl⟩ := parseDecimal_iff.1 hS
                    obtain ⟨en, hEd, hEm, rfl⟩ := parseDecimal_iff.1 hE
                    split at h
                    · simp at h
                    · simp at h
                      left
                      refine ⟨sn, en, tn, ⟨w1, u, pad, S, E, T, w2, ?_, hw1, hw2, isBytesUnit_iff.1 hu, by simpa using hpads, hSd, hEd, hTd⟩,
                        by omega, by omega, hTm, by omega, by omega, by omega⟩
                      rw [hc3a] at hc2a
                      rw [hc2a] at hpad
                      rw [hv, hc1a, hpad]
                      simp
  · rintro (⟨s, e, t, ⟨w1, u, pad, S, E, T, w2, rfl, hw1, hw2, hu, hpad, hS, hE, hT⟩, h1, h2, h3, rfl, rfl, rfl⟩ |
      ⟨t, ⟨w1, u, pad, T, w2, rfl, hw1, hw2, hu, hpad, hT⟩, h3, rfl, rfl, rfl⟩)
    · have hdash : '-' ∉ S := IsDecimal.not_mem hS (by decide)
      obtain ⟨x, S', rfl⟩ : ∃ x S', S = x :: S' := by
        cases S with
        | nil => exact absurd rfl hS.ne_nil
        | cons x S' => exact ⟨x, S', rfl⟩
      have hxs : x ≠ ' ' := by rintro rfl; exact absurd (hS.digits ' ' (by simp)) (by decide)
      have hxstar : x ≠ '*' := by rintro rfl; exact absurd (hS.digits '*' (by simp)) (by decide)
      obtain ⟨f1, f2, f3⟩ := parse_front w1 u pad ((x :: S') ++ '-' :: E) T w2 t hw1 hw2 hu hpad hT ⟨x, S' ++ '-' :: E, rfl, hxs⟩
        (by simp only [List.mem_append, List.mem_cons, not_or]
            refine ⟨by have := IsDecimal.not_mem hS (c := '/') (by decide); simpa using this, by decide, IsDecimal.not_mem hE (by decide)⟩)
      have hassoc : (x :: S') ++ '-' :: (E ++ '/' :: T) = ((x :: S') ++ '-' :: E) ++ '/' :: T := by simp
      unfold parseContentRange
      rw [hassoc, f1]
      simp only [f2, f3]
      rw [parseDecimal_iff.2 ⟨t, hT, h3, rfl⟩]
      simp only [Bool.not_true, Bool.false_eq_true, if_false]
      rw [if_neg (by simp [hxstar])]
      rw [cutFirst_eq_some.2 ⟨rfl, hdash⟩]
      simp only
      rw [parseDecimal_iff.2 ⟨s, hS, by omega, rfl⟩]
      simp only
      rw [parseDecimal_iff.2 ⟨e, hE, by omega, rfl⟩]
      simp only
      rw [if_neg (by omega)]
    · obtain ⟨f1, f2, f3⟩ := parse_front w1 u pad ['*'] T w2 t hw1 hw2 hu hpad hT ⟨'*', [], rfl, by decide⟩ (by decide)
      unfold parseContentRange
      have hassoc : '*' :: '/' :: T = ['*'] ++ '/' :: T := rfl
      rw [hassoc, f1]
      simp only [f2, f3]
      rw [parseDecimal_iff.2 ⟨t, hT, h3, rfl⟩]
      simp

/-- The header value a server formats for range `[s, e]` of `t` (`fmt.Sprintf("bytes %d-%d/%d", …)`). -/
def formatRange (s e t : Nat) : Str := "bytes ".toList ++ (natDigits s ++ '-' :: (natDigits e ++ '/' :: natDigits t))

theorem bytes_unit : BytesUnit "bytes".toList := isBytesUnit_iff.1 (by decide)

/-- C13: formatting and parsing back is the identity on every range inside its complete length. -/
theorem C13_roundtrip (s e t : Nat) (h1 : s ≤ e) (h2 : e < t) (h3 : (t : Int) ≤ maxInt64) :
    parseContentRange (formatRange s e t) = some ((s : Int), (e : Int), (t : Int)) := by
  refine (C13_parse_exact _ _ _ _).2 (Or.inl ⟨s, e, t, ?_, h1, h2, h3, rfl, rfl, rfl⟩)
  exact ⟨[], "bytes".toList, [], natDigits s, natDigits e, natDigits t, [], by simp [formatRange], by simp, by simp,
    bytes_unit, by simp, natDigits_isDecimal _, natDigits_isDecimal _, natDigits_isDecimal _⟩

/-- non-vacuity of C13, and the corner cases: sign, unknown total, range outside the total, overflow, odd letter case -/
example : parseContentRange " BYTES   0-499/1000\t".toList = some (0, 499, 1000) ∧
    parseContentRange "bytes */1000".toList = some (-1, -1, 1000) ∧
    parseContentRange "bytes 0-+5/10".toList = none ∧ parseContentRange "bytes 0-5/*".toList = none ∧
    parseContentRange "bytes 5-10/10".toList = none ∧ parseContentRange "bytes 5-4/10".toList = none ∧
    parseContentRange "bytes 0-5/9223372036854775808".toList = none ∧
    parseContentRange "bytes 0-5/9223372036854775807".toList = some (0, 5, 9223372036854775807) := by decide

end Verif.Http
