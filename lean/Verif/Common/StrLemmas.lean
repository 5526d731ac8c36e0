import Verif.Common.Str
/-
Lemmas about the string helpers, and the specification of decimal numbers.
-/
namespace Verif

/-- `c` is the decimal digit `d`. -/
def IsDigit (c : Char) (d : Nat) : Prop := d < 10 ∧ c = Nat.digitChar d

/-- Specification: `s` is a non-empty decimal numeral with value `n`. -/
inductive IsDecimal : Str → Nat → Prop where
  | one {c d} : IsDigit c d → IsDecimal [c] d
  | snoc {s n c d} : IsDecimal s n → IsDigit c d → IsDecimal (s ++ [c]) (10 * n + d)

theorem cutFirst_eq_some {sep : Char} {s a b : Str} : cutFirst sep s = some (a, b) ↔ s = a ++ sep :: b ∧ sep ∉ a := by
  induction s generalizing a b with
  | nil => simp [cutFirst]
  | cons c rest ih =>
    simp only [cutFirst]
    split
    · rename_i h
      subst h
      constructor
      · intro h; simp at h; obtain ⟨rfl, rfl⟩ := h; simp
      · rintro ⟨h, hn⟩
        cases a with
        | nil => simp at h; simp [h]
        | cons x a => simp at h; simp [h.1] at hn
    · rename_i h
      constructor
      · intro hm
        simp only [Option.map_eq_some_iff] at hm
        obtain ⟨⟨a', b'⟩, hc, he⟩ := hm
        simp at he
        obtain ⟨rfl, rfl⟩ := he
        obtain ⟨rfl, hn⟩ := ih.1 hc
        refine ⟨by simp, ?_⟩
        simp [hn]; exact fun e => h e.symm
      · rintro ⟨he, hn⟩
        cases a with
        | nil => simp at he; exact absurd he.1 h
        | cons x a =>
          simp at he
          obtain ⟨rfl, rfl⟩ := he
          simp at hn
          rw [ih.2 ⟨rfl, hn.2⟩]
          simp

theorem cutFirst_eq_none {sep : Char} {s : Str} : cutFirst sep s = none ↔ sep ∉ s := by
  induction s with
  | nil => simp [cutFirst]
  | cons c rest ih =>
    simp only [cutFirst]
    split
    · rename_i h; simp [h]
    · rename_i h
      simp [ih]; exact fun _ e => h e.symm

theorem digitVal_eq_some {c : Char} {d : Nat} : digitVal c = some d ↔ IsDigit c d := by
  unfold digitVal IsDigit
  constructor
  · intro h
    split at h
    · rename_i hc
      simp at h
      have h1 : '0'.toNat ≤ c.toNat := hc.1
      have h2 : c.toNat ≤ '9'.toNat := hc.2
      have e0 : '0'.toNat = 48 := rfl
      have e9 : '9'.toNat = 57 := rfl
      have hd : d = c.toNat - 48 := by omega
      refine ⟨by omega, ?_⟩
      have : c.toNat ∈ [48,49,50,51,52,53,54,55,56,57] := by simp; omega
      apply Char.ext
      apply UInt32.toNat.inj
      show c.toNat = (Nat.digitChar d).toNat
      simp at this
      rcases this with h | h | h | h | h | h | h | h | h | h <;> (rw [hd, h]; rfl)
    · simp at h
  · rintro ⟨hd, rfl⟩
    have : d ∈ [0,1,2,3,4,5,6,7,8,9] := by simp; omega
    simp at this
    rcases this with h | h | h | h | h | h | h | h | h | h <;> (subst h; decide)

theorem digitVal_isSome {c : Char} : (digitVal c).isSome ↔ '0' ≤ c ∧ c ≤ '9' := by
  unfold digitVal; split <;> simp_all

theorem digitsVal_append (acc : Nat) (s t : Str) :
    digitsVal acc (s ++ t) = (digitsVal acc s).bind (fun v => digitsVal v t) := by
  induction s generalizing acc with
  | nil => simp [digitsVal]
  | cons c s ih =>
    simp only [List.cons_append, digitsVal]
    cases digitVal c with
    | none => rfl
    | some d => exact ih _

theorem digitsVal_isDecimal {s : Str} {v : Nat} (hs : s ≠ []) : digitsVal 0 s = some v ↔ IsDecimal s v := by
  constructor
  · -- induct from the right
    have gen : ∀ (n : Nat) (s : Str), s.length = n → s ≠ [] → ∀ v, digitsVal 0 s = some v → IsDecimal s v := by
      intro n
      induction n with
      | zero => intro s hl hne; simp at hl; exact absurd hl hne
      | succ n ih =>
        intro s hl hne v hv
        have hsl := List.dropLast_concat_getLast hne
        rw [← hsl] at hv ⊢
        rw [digitsVal_append] at hv
        by_cases hd : s.dropLast = []
        · rw [hd] at hv ⊢
          simp only [digitsVal, Option.bind_some] at hv
          cases hdv : digitVal (s.getLast hne) with
          | none => simp [hdv] at hv
          | some d =>
            simp [hdv] at hv; subst hv
            exact .one (digitVal_eq_some.1 hdv)
        · cases hp : digitsVal 0 s.dropLast with
          | none => simp [hp] at hv
          | some p =>
            rw [hp] at hv
            simp only [digitsVal, Option.bind_some] at hv
            cases hdv : digitVal (s.getLast hne) with
            | none => simp [hdv] at hv
            | some d =>
              simp [hdv] at hv; subst hv
              rw [Nat.mul_comm]
              exact .snoc (ih _ (by simp [hl]) hd p hp) (digitVal_eq_some.1 hdv)
    exact gen _ s rfl hs v
  · intro h
    induction h with
    | one hd => simp [digitsVal, digitVal_eq_some.2 hd]
    | @snoc s n c d h1 hd ih =>
      have hne : s ≠ [] := by cases h1 <;> simp
      rw [digitsVal_append, ih hne]
      simp [digitsVal, digitVal_eq_some.2 hd]; omega

theorem IsDecimal.ne_nil {s : Str} {n : Nat} (h : IsDecimal s n) : s ≠ [] := by cases h <;> simp

theorem IsDecimal.digits {s : Str} {n : Nat} (h : IsDecimal s n) : ∀ c ∈ s, '0' ≤ c ∧ c ≤ '9' := by
  induction h with
  | one hd => intro c hc; simp at hc; subst hc; rw [← digitVal_isSome, digitVal_eq_some.2 hd]; rfl
  | snoc _ hd ih =>
    intro c hc
    simp at hc
    rcases hc with hc | rfl
    · exact ih c hc
    · rw [← digitVal_isSome, digitVal_eq_some.2 hd]; rfl

/-- A decimal numeral has one value. -/
theorem IsDecimal.unique {s : Str} {n m : Nat} (h : IsDecimal s n) (h' : IsDecimal s m) : n = m := by
  have h1 := (digitsVal_isDecimal h.ne_nil).2 h
  have h2 := (digitsVal_isDecimal h.ne_nil).2 h'
  rw [h1] at h2; simpa using h2

theorem natDigits_isDecimal (n : Nat) : IsDecimal (natDigits n) n := by
  unfold natDigits
  induction n using Nat.strongRecOn with
  | ind n ih =>
    rcases Nat.lt_or_ge n 10 with h | h
    · rw [Nat.toDigits_of_lt_base h]; exact .one ⟨h, rfl⟩
    · rw [Nat.toDigits_of_base_le (by omega) h]
      have := IsDecimal.snoc (ih (n / 10) (by omega)) (c := Nat.digitChar (n % 10)) (d := n % 10) ⟨by omega, rfl⟩
      have e : 10 * (n / 10) + n % 10 = n := by omega
      rw [e] at this; exact this

end Verif
