import Verif.Tarfs.MapModel
import Verif.Tarfs.NumericProps
import Verif.Tarfs.SparseProps
import Verif.Common.StrLemmas
/-
C100: the map of a sparse file is read as it was written, in the three formats, and found behind the extension headers.
-/
namespace Verif.Tarfs.Map

/-! ### Specification -/

/-- `s` is a decimal number with value `v`, perhaps with a sign, that fits in 64 bits. -/
def IsInt (s : Str) (v : Int) : Prop :=
  (∃ d n, IsDecimal d n ∧ (((s = d ∨ s = '+' :: d) ∧ v = n) ∨ (s = '-' :: d ∧ v = -(n : Int)))) ∧ -(2 ^ 63) ≤ v ∧ v < 2 ^ 63

/-- The numbers of the entries, offset and length in turn. -/
inductive Numbers : List Str → List Frag → Prop
  | nil : Numbers [] []
  | cons {a b : Str} {ls : List Str} {f : Frag} {l : List Frag} : IsInt a f.off → IsInt b f.len → Numbers ls l → Numbers (a :: b :: ls) (f :: l)

/-- Texts with commas between them. -/
def commas : List Str → Str
  | [] => []
  | [a] => a
  | a :: l => a ++ ',' :: commas l

/-! ### Numbers -/

theorem digit_not {c : Char} (h : '0' ≤ c ∧ c ≤ '9') : c ≠ '-' ∧ c ≠ '+' ∧ c ≠ ',' ∧ c ≠ '\n' := by
  refine ⟨?_, ?_, ?_, ?_⟩ <;> (rintro rfl; revert h; decide)

theorem parseInt64_iff (s : Str) (v : Int) : parseInt64 s = some v ↔ IsInt s v := by
  unfold parseInt64 IsInt
  cases s with
  | nil =>
    constructor
    · intro h; cases h
    · rintro ⟨⟨d, n, hd, (⟨h | h, _⟩ | ⟨h, _⟩)⟩, _⟩
      · exact absurd h.symm hd.ne_nil
      · cases h
      · cases h
  | cons c rest =>
    have hfirst : ∀ d n, IsDecimal d n → c :: rest = d → c ≠ '-' ∧ c ≠ '+' := by
      intro d n hd h
      have := digit_not (hd.digits c (by rw [← h]; exact List.mem_cons_self))
      exact ⟨this.1, this.2.1⟩
    by_cases h1 : c = '-'
    · subst h1
      simp only [if_true]
      by_cases hr : rest = []
      · subst hr
        simp only [if_true]
        constructor
        · intro h; cases h
        · rintro ⟨⟨d, n, hd, (⟨h | h, _⟩ | ⟨h, _⟩)⟩, _⟩
          · exact absurd rfl (hfirst d n hd h).1
          · cases h
          · cases h; exact absurd rfl hd.ne_nil
      · rw [if_neg hr]
        constructor
        · intro h
          cases hx : digitsVal 0 rest with
          | none => rw [hx] at h; cases h
          | some n =>
            rw [hx] at h
            simp only at h
            split at h
            · rename_i hle
              cases h
              refine ⟨⟨rest, n, (digitsVal_isDecimal hr).1 hx, Or.inr ⟨rfl, rfl⟩⟩, ?_, ?_⟩ <;> omega
            · cases h
        · rintro ⟨⟨d, n, hd, (⟨h | h, _⟩ | ⟨h, hv⟩)⟩, hlo, _⟩
          · exact absurd rfl (hfirst d n hd h).1
          · cases h
          · cases h
            rw [(digitsVal_isDecimal hr).2 hd]
            simp only
            rw [if_pos (by omega), hv]
    · by_cases h2 : c = '+'
      · subst h2
        simp only [if_neg h1, if_true]
        by_cases hr : rest = []
        · subst hr
          simp only [if_true]
          constructor
          · intro h; cases h
          · rintro ⟨⟨d, n, hd, (⟨h | h, _⟩ | ⟨h, _⟩)⟩, _⟩
            · exact absurd rfl (hfirst d n hd h).2
            · cases h; exact absurd rfl hd.ne_nil
            · cases h
        · rw [if_neg hr]
          constructor
          · intro h
            cases hx : digitsVal 0 rest with
            | none => rw [hx] at h; cases h
            | some n =>
              rw [hx] at h
              simp only [Bool.false_eq_true, if_false] at h
              split at h
              · rename_i hle
                cases h
                refine ⟨⟨rest, n, (digitsVal_isDecimal hr).1 hx, Or.inl ⟨Or.inr rfl, rfl⟩⟩, ?_, ?_⟩ <;> omega
              · cases h
          · rintro ⟨⟨d, n, hd, (⟨h | h, hv⟩ | ⟨h, hv⟩)⟩, _, hhi⟩
            · exact absurd rfl (hfirst d n hd h).2
            · cases h
              rw [(digitsVal_isDecimal hr).2 hd]
              simp only [Bool.false_eq_true, if_false]
              rw [if_pos (by omega), hv]
            · cases h
      · simp only [if_neg h1, if_neg h2]
        have hr : c :: rest ≠ [] := by simp
        rw [if_neg hr]
        constructor
        · intro h
          cases hx : digitsVal 0 (c :: rest) with
          | none => rw [hx] at h; cases h
          | some n =>
            rw [hx] at h
            simp only [Bool.false_eq_true, if_false] at h
            split at h
            · rename_i hle
              cases h
              refine ⟨⟨c :: rest, n, (digitsVal_isDecimal hr).1 hx, Or.inl ⟨Or.inl rfl, rfl⟩⟩, ?_, ?_⟩ <;> omega
            · cases h
        · rintro ⟨⟨d, n, hd, (⟨h | h, hv⟩ | ⟨h, hv⟩)⟩, _, hhi⟩
          · subst h
            rw [(digitsVal_isDecimal hr).2 hd]
            simp only [Bool.false_eq_true, if_false]
            rw [if_pos (by omega), hv]
          · cases h; exact absurd rfl h2
          · cases h; exact absurd rfl h1

theorem IsInt.chars {s : Str} {v : Int} (h : IsInt s v) : s ≠ [] ∧ ',' ∉ s ∧ '\n' ∉ s := by
  obtain ⟨⟨d, n, hd, h⟩, _⟩ := h
  have hc : ',' ∉ d ∧ '\n' ∉ d := ⟨fun hm => (digit_not (hd.digits _ hm)).2.2.1 rfl, fun hm => (digit_not (hd.digits _ hm)).2.2.2 rfl⟩
  rcases h with ⟨rfl | rfl, _⟩ | ⟨rfl, _⟩
  · exact ⟨hd.ne_nil, hc⟩
  · exact ⟨by simp, by simp [hc.1], by simp [hc.2]⟩
  · exact ⟨by simp, by simp [hc.1], by simp [hc.2]⟩

theorem pairs_iff : ∀ (ls : List Str) (l : List Frag), ls.length = 2 * l.length → (pairs ls = some l ↔ Numbers ls l)
  | [], l, hl => by
    cases l with
    | nil => exact ⟨fun _ => .nil, fun _ => rfl⟩
    | cons f l => simp at hl
  | [a], l, hl => by simp at hl; omega
  | a :: b :: ls, l, hl => by
    cases l with
    | nil => simp at hl
    | cons f l =>
      have ih := pairs_iff ls l (by simp at hl; omega)
      rw [pairs]
      constructor
      · intro h
        split at h
        · rename_i off len ha hb
          cases hp : pairs ls with
          | none => rw [hp] at h; cases h
          | some l' =>
            rw [hp] at h
            simp only [Option.map_some, Option.some.injEq, List.cons.injEq] at h
            obtain ⟨rfl, rfl⟩ := h
            exact .cons ((parseInt64_iff a off).1 ha) ((parseInt64_iff b len).1 hb) (ih.1 hp)
        · cases h
      · intro h
        cases h with
        | cons ha hb hn =>
          rw [(parseInt64_iff a _).2 ha, (parseInt64_iff b _).2 hb, ih.2 hn]
          rfl

theorem pairs_length : ∀ (ls : List Str) (l : List Frag), pairs ls = some l → ls.length % 2 = 0 → ls.length = 2 * l.length
  | [], l, h, _ => by cases h; rfl
  | [a], l, h, h2 => by simp at h2
  | a :: b :: ls, l, h, h2 => by
    rw [pairs] at h
    split at h
    · cases hp : pairs ls with
      | none => rw [hp] at h; cases h
      | some l' =>
        rw [hp] at h
        cases h
        have := pairs_length ls l' hp (by simp at h2; omega)
        simp [this]; omega
    · cases h

theorem Numbers.length {ls : List Str} {l : List Frag} (h : Numbers ls l) : ls.length = 2 * l.length := by
  induction h with
  | nil => rfl
  | cons _ _ _ ih => simp [ih]; omega

theorem Numbers.chars {ls : List Str} {l : List Frag} (h : Numbers ls l) : ∀ s ∈ ls, s ≠ [] ∧ ',' ∉ s ∧ '\n' ∉ s := by
  induction h with
  | nil => intro s hs; cases hs
  | cons ha hb _ ih =>
    intro s hs
    rcases List.mem_cons.1 hs with rfl | hs
    · exact ha.chars
    · rcases List.mem_cons.1 hs with rfl | hs
      · exact hb.chars
      · exact ih s hs

/-! ### Format 0.1 -/

theorem badCount_false {n : Int} (hn : n < 2 ^ 63) : badCount n = false ↔ 0 ≤ n ∧ n < 2 ^ 62 := by
  unfold badCount
  rw [Bool.or_eq_false_iff, decide_eq_false_iff_not, decide_eq_false_iff_not]
  constructor
  · rintro ⟨h1, h2⟩
    refine ⟨by omega, ?_⟩
    apply Classical.byContradiction
    intro h3
    apply h2
    unfold wrap64 Int.bmod
    simp only
    split <;> omega
  · rintro ⟨h1, h2⟩
    refine ⟨by omega, ?_⟩
    rw [wrap64_of_isInt64 (by unfold IsInt64 minInt64 maxInt64; omega)]
    omega

theorem splitComma_ne (s : Str) : splitComma s ≠ [] := by
  cases s with
  | nil => simp [splitComma]
  | cons c s =>
    rw [splitComma]
    split
    · simp
    · split <;> simp

theorem commas_split (s : Str) : commas (splitComma s) = s := by
  induction s with
  | nil => rfl
  | cons c s ih =>
    rw [splitComma]
    split
    · rename_i h
      cases hx : splitComma s with
      | nil => exact absurd hx (splitComma_ne s)
      | cons a l => rw [hx] at ih; rw [commas, ih, h]; simp; simp
    · split
      · rename_i hx; exact absurd hx (splitComma_ne s)
      · rename_i a l hx
        rw [hx] at ih
        cases l with
        | nil => rw [commas] at ih ⊢; rw [ih]
        | cons b l => rw [commas] at ih ⊢ <;> simp [ih]

theorem splitComma_none {a : Str} (h : ',' ∉ a) : splitComma a = [a] := by
  induction a with
  | nil => rfl
  | cons c a ih =>
    simp only [List.mem_cons, not_or] at h
    rw [splitComma, if_neg (fun e => h.1 e.symm), ih h.2]

theorem splitComma_append {a : Str} (h : ',' ∉ a) (s : Str) : splitComma (a ++ ',' :: s) = a :: splitComma s := by
  induction a with
  | nil => simp [splitComma]
  | cons c a ih =>
    simp only [List.mem_cons, not_or] at h
    rw [List.cons_append, splitComma, if_neg (fun e => h.1 e.symm), ih h.2]

theorem splitComma_commas : ∀ (ls : List Str), ls ≠ [] → (∀ a ∈ ls, ',' ∉ a) → splitComma (commas ls) = ls
  | [], h, _ => absurd rfl h
  | [a], _, h => splitComma_none (h a (by simp))
  | a :: b :: ls, _, h => by
    rw [commas, splitComma_append (h a (by simp)), splitComma_commas (b :: ls) (by simp) (fun x hx => h x (by simp [List.mem_cons.1 hx]))]
    simp

/-- **C100** (format 0.x). The records give a map exactly if the first one is the number of entries and the second one lists offsets and lengths of that many
entries, separated by commas; then the map is that list. -/
theorem C100_pax0_exact (nb map : Str) (l : List Frag) :
    read0x1 nb map = some l ↔ IsInt nb l.length ∧ (l.length : Int) < 2 ^ 62 ∧ ∃ ls, Numbers ls l ∧ map = commas ls := by
  unfold read0x1
  cases hp : parseInt64 nb with
  | none =>
    constructor
    · intro h; cases h
    · rintro ⟨h, _⟩
      rw [(parseInt64_iff nb _).2 h] at hp; cases hp
  | some n =>
    have hi := (parseInt64_iff nb n).1 hp
    have hb := badCount_false hi.2.2
    have huniq : ∀ m : Int, IsInt nb m → m = n := by
      intro m hm
      have := (parseInt64_iff nb m).2 hm
      rw [hp] at this
      cases this; rfl
    simp only
    cases hx : badCount n with
    | true =>
      rw [hx] at hb
      simp only [if_true]
      constructor
      · intro h; cases h
      · rintro ⟨h, h2, _⟩
        have := huniq _ h
        exact absurd (hb.2 ⟨by omega, by omega⟩) (by decide)
    | false =>
      obtain ⟨h0, h62⟩ := hb.1 hx
      have hw : wrap64 (2 * n) = 2 * n := wrap64_of_isInt64 (by unfold IsInt64 minInt64 maxInt64; omega)
      simp only [Bool.false_eq_true, if_false, hw]
      constructor
      · intro h
        have hm : commas (if splitComma map = [[]] then [] else splitComma map) = map := by
          split
          · rename_i he
            have := commas_split map
            rw [he] at this
            rw [← this]; rfl
          · exact commas_split map
        generalize (if splitComma map = [[]] then [] else splitComma map) = m at h hm
        split at h
        · cases h
        · rename_i hlen
          have hlen : (m.length : Int) = 2 * n := by
            apply Classical.byContradiction; exact hlen
          have hll := pairs_length _ l h (by omega)
          have hnum := (pairs_iff _ l hll).1 h
          have hn : n = l.length := by omega
          exact ⟨hn ▸ hi, by omega, _, hnum, hm.symm⟩
      · rintro ⟨h1, h2, ls, hnum, rfl⟩
        have hn := huniq _ h1
        have hls : (if splitComma (commas ls) = [[]] then [] else splitComma (commas ls)) = ls := by
          cases ls with
          | nil => rfl
          | cons a ls =>
            rw [splitComma_commas _ (by simp) (fun x hx => (hnum.chars x hx).2.1), if_neg]
            intro h
            cases h
            exact (hnum.chars [] (by simp)).1 rfl
        rw [hls, if_neg (by rw [hnum.length]; omega)]
        exact (pairs_iff ls l hnum.length).2 hnum

/-- A writer of the format: decimal numbers. -/
def written (l : List Frag) : List Str := (l.map fun f => [natDigits f.off.toNat, natDigits f.len.toNat]).flatten

theorem isInt_natDigits {v : Int} (h0 : 0 ≤ v) (h : v < 2 ^ 63) : IsInt (natDigits v.toNat) v :=
  ⟨⟨_, _, natDigits_isDecimal v.toNat, Or.inl ⟨Or.inl rfl, by omega⟩⟩, by omega, h⟩

theorem numbers_written (l : List Frag) (h : ∀ f ∈ l, 0 ≤ f.off ∧ f.off < 2 ^ 63 ∧ 0 ≤ f.len ∧ f.len < 2 ^ 63) : Numbers (written l) l := by
  induction l with
  | nil => exact .nil
  | cons f l ih =>
    have hf := h f (by simp)
    exact .cons (isInt_natDigits hf.1 hf.2.1) (isInt_natDigits hf.2.2.1 hf.2.2.2) (ih fun x hx => h x (by simp [hx]))

/-- **C100** (format 0.x, round trip). Every map written out is read back. -/
theorem C100_pax0_roundtrip (l : List Frag) (h : ∀ f ∈ l, 0 ≤ f.off ∧ f.off < 2 ^ 63 ∧ 0 ≤ f.len ∧ f.len < 2 ^ 63) (hl : l.length < 2 ^ 62) :
    read0x1 (natDigits l.length) (commas (written l)) = some l := by
  refine (C100_pax0_exact _ _ l).2 ⟨?_, by omega, _, numbers_written l h, rfl⟩
  have := isInt_natDigits (v := (l.length : Int)) (by omega) (by omega)
  simpa using this

example : read0x1 "2".toList "0,5,10,3".toList = some [⟨0, 5⟩, ⟨10, 3⟩] ∧ read0x1 "2".toList "0,5,10".toList = none ∧ read0x1 "0".toList [] = some [] := by
  decide

end Verif.Tarfs.Map
