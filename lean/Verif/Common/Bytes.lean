/-
Byte strings, slices and int64 wrap-around, shared by all models.
-/
namespace Verif

/-- A Go byte slice or string, seen as a value (aliasing is modelled only where a property needs it). -/
abbrev Bytes := List UInt8

/-- `slice c off n` is `c[off : off+n]` clipped to the end of `c`. -/
def slice {α : Type _} (c : List α) (off n : Nat) : List α := (c.drop off).take n

/-- int64 two's complement wrap-around of an exact integer. -/
def wrap64 (x : Int) : Int := x.bmod (2 ^ 64)

/-- largest int64 -/
def maxInt64 : Int := 2 ^ 63 - 1
/-- smallest int64 -/
def minInt64 : Int := -(2 ^ 63)

/-- `x` fits in an int64. -/
def IsInt64 (x : Int) : Prop := minInt64 ≤ x ∧ x ≤ maxInt64

instance (x : Int) : Decidable (IsInt64 x) := inferInstanceAs (Decidable (_ ∧ _))

theorem wrap64_of_isInt64 {x : Int} (h : IsInt64 x) : wrap64 x = x := by
  unfold IsInt64 minInt64 maxInt64 at h
  unfold wrap64
  rw [Int.bmod_eq_iff] <;> omega

/-- The sum of two non-negative int64 values wraps to a negative number exactly when it overflows. -/
theorem wrap64_add_nonneg {a b : Int} (ha : 0 ≤ a) (hb : 0 ≤ b) (ha' : a ≤ maxInt64) (hb' : b ≤ maxInt64) :
    (a + b ≤ maxInt64 → wrap64 (a + b) = a + b) ∧ (maxInt64 < a + b → wrap64 (a + b) < 0) := by
  unfold maxInt64 at *
  unfold wrap64
  constructor
  · intro h
    rw [Int.bmod_eq_iff] <;> omega
  · intro h
    have : (a + b).bmod (2 ^ 64) = a + b - 2 ^ 64 := by
      rw [Int.bmod_eq_iff] <;> omega
    omega

@[simp] theorem slice_zero_len {α} (c : List α) (off : Nat) : slice c off 0 = [] := by simp [slice]

@[simp] theorem slice_nil {α} (off n : Nat) : slice ([] : List α) off n = [] := by simp [slice]

theorem slice_length {α} (c : List α) (off n : Nat) : (slice c off n).length = min n (c.length - off) := by
  simp [slice]

theorem slice_add {α} (c : List α) (off k n : Nat)  :
    slice c off k ++ slice c (off + k) n = slice c off (k + n) := by
  unfold slice
  rw [List.take_add]
  congr 1
  rw [List.drop_drop]

theorem slice_of_ge {α} (c : List α) (off n : Nat) (h : c.length ≤ off) : slice c off n = [] := by
  simp [slice, List.drop_eq_nil_of_le h]

theorem slice_append_left {α} (a b : List α) (off n : Nat) (h : off + n ≤ a.length) :
    slice (a ++ b) off n = slice a off n := by
  unfold slice
  rw [List.drop_append_of_le_length (by omega)]
  rw [List.take_append_of_le_length]
  simp; omega

theorem slice_append_right {α} (a b : List α) (off n : Nat) (h : a.length ≤ off) :
    slice (a ++ b) off n = slice b (off - a.length) n := by
  unfold slice
  rw [List.drop_append]
  rw [List.drop_eq_nil_of_le h]; simp

theorem slice_clip {α} (c : List α) (off n : Nat) : slice c off n = slice c off (min n (c.length - off)) := by
  unfold slice
  rw [List.take_eq_take_iff]; simp

theorem slice_getElem? {α} (c : List α) (off n j : Nat) (h : j < n) :
    (slice c off n)[j]? = c[off + j]? := by
  simp [slice, h]

end Verif
