import Verif.Common.Str
/-
Model of /repo/fsutil/truncate_utf8.go and property C24. A Go string is a byte string; a byte is the character with that code.
-/
namespace Verif.Fsutil

/-- Go's table `first` of utf8.go: size and accepted range of the second byte, by first byte; `none` for an invalid first byte. -/
def firstInfo (b : Nat) : Option (Nat × Nat × Nat) :=
  if 0xC2 ≤ b ∧ b ≤ 0xDF then some (2, 0x80, 0xBF)
  else if b = 0xE0 then some (3, 0xA0, 0xBF)
  else if b = 0xED then some (3, 0x80, 0x9F)
  else if 0xE1 ≤ b ∧ b ≤ 0xEF then some (3, 0x80, 0xBF)
  else if b = 0xF0 then some (4, 0x90, 0xBF)
  else if 0xF1 ≤ b ∧ b ≤ 0xF3 then some (4, 0x80, 0xBF)
  else if b = 0xF4 then some (4, 0x80, 0x8F)
  else none

/-- std `utf8.DecodeRuneInString(s)`: the size it returns (1 for an invalid encoding, 0 for the empty string). -/
def decodeSize (s : Str) : Nat :=
  match s with
  | [] => 0
  | c0 :: rest =>
    if c0.toNat < 0x80 then 1
    else match firstInfo c0.toNat with
      | none => 1
      | some (sz, lo, hi) =>
        if rest.length + 1 < sz then 1
        else match rest with
          | [] => 1
          | c1 :: rest2 =>
            if c1.toNat < lo ∨ hi < c1.toNat then 1
            else if (rest2.take (sz - 2)).all (fun c => 0x80 ≤ c.toNat && c.toNat ≤ 0xBF) then sz else 1

/-- truncate_utf8.go 19-26: the loop; returns `off`. Fuel: the length of `part`. -/
def truncLoop (maxBytes : Nat) : (fuel : Nat) → (part : Str) → (off : Nat) → Nat
  | 0, _, off => off
  | fuel + 1, part, off =>
    if part = [] then off
    else
      let n := decodeSize part
      if off + n > maxBytes then off else truncLoop maxBytes fuel (part.drop n) (off + n)

/-- truncate_utf8.go 9-28 `TruncateUTF8` -/
def truncateUTF8 (s : Str) (maxBytes : Int) : Str :=
  if maxBytes ≤ 0 then []
  else if (s.length : Int) ≤ maxBytes then s
  else s.take (truncLoop maxBytes.toNat s.length s 0)

/-! ### specification: UTF-8 -/

/-- Unicode scalar values. -/
def IsScalar (r : Nat) : Prop := r < 0xD800 ∨ (0xDFFF < r ∧ r < 0x110000)

instance (r : Nat) : Decidable (IsScalar r) := inferInstanceAs (Decidable (_ ∨ _))

/-- The UTF-8 encoding of a scalar value (RFC 3629 section 3), as byte values. -/
def encode (r : Nat) : List Nat :=
  if r < 0x80 then [r]
  else if r < 0x800 then [0xC0 + r / 64, 0x80 + r % 64]
  else if r < 0x10000 then [0xE0 + r / 4096, 0x80 + r / 64 % 64, 0x80 + r % 64]
  else [0xF0 + r / 262144, 0x80 + r / 4096 % 64, 0x80 + r / 64 % 64, 0x80 + r % 64]

/-- The byte values of a string. -/
def bytesOf (s : Str) : List Nat := s.map Char.toNat

/-- A string is valid UTF-8: the concatenation of the encodings of scalar values. -/
def ValidUTF8 (s : Str) : Prop := ∃ rs : List Nat, (∀ r ∈ rs, IsScalar r) ∧ bytesOf s = rs.flatMap encode

/-! ### proofs -/

theorem encode_length_pos (r : Nat) : 0 < (encode r).length := by unfold encode; (repeat' split) <;> simp

theorem firstInfo_two {b : Nat} (h1 : 0xC2 ≤ b) (h2 : b ≤ 0xDF) : firstInfo b = some (2, 0x80, 0xBF) := by
  unfold firstInfo; rw [if_pos ⟨h1, h2⟩]

theorem firstInfo_three {b : Nat} (h1 : 0xE0 ≤ b) (h2 : b ≤ 0xEF) : ∃ lo hi, firstInfo b = some (3, lo, hi) ∧
    (lo = if b = 0xE0 then 0xA0 else 0x80) ∧ (hi = if b = 0xED then 0x9F else 0xBF) := by
  unfold firstInfo
  rw [if_neg (by omega)]
  split
  · rename_i h; subst h; exact ⟨_, _, rfl, by simp, by simp⟩
  · split
    · rename_i h; subst h; exact ⟨_, _, rfl, by simp, by simp⟩
    · rw [if_pos (by omega)]; exact ⟨_, _, rfl, by simp [*], by simp [*]⟩

theorem firstInfo_four {b : Nat} (h1 : 0xF0 ≤ b) (h2 : b ≤ 0xF4) : ∃ lo hi, firstInfo b = some (4, lo, hi) ∧
    (lo = if b = 0xF0 then 0x90 else 0x80) ∧ (hi = if b = 0xF4 then 0x8F else 0xBF) := by
  unfold firstInfo
  rw [if_neg (by omega), if_neg (by omega), if_neg (by omega), if_neg (by omega)]
  split
  · rename_i h; subst h; exact ⟨_, _, rfl, by simp, by simp⟩
  · split
    · exact ⟨_, _, rfl, by first | rfl | (split <;> omega), by first | rfl | (split <;> omega)⟩
    · rw [if_pos (by omega)]; exact ⟨_, _, rfl, by simp [*], by rw [if_pos (by omega)]⟩

/-- Decoding reads exactly one encoded scalar value off the front. -/
theorem decodeSize_encode {r : Nat} (hr : IsScalar r) (e t : Str) (he : bytesOf e = encode r) : decodeSize (e ++ t) = e.length := by
  have hlen : e.length = (encode r).length := by rw [← he]; simp [bytesOf]
  unfold IsScalar at hr
  unfold encode at he hlen
  split at he
  · rename_i h
    match e, hlen with
    | [c0], _ =>
      simp [bytesOf] at he
      simp [decodeSize, he, h]
    | [], hl => rw [if_pos h] at hl; simp at hl
    | _ :: _ :: _, hl => rw [if_pos h] at hl; simp at hl
  · rename_i h0
    rw [if_neg h0] at hlen
    split at he
    · rename_i h
      rw [if_pos h] at hlen
      match e, hlen with
      | [c0, c1], _ =>
        simp [bytesOf] at he
        obtain ⟨e0, e1⟩ := he
        simp only [List.cons_append, List.nil_append, decodeSize, e0]
        rw [if_neg (by omega), firstInfo_two (by omega) (by omega)]
        simp only [List.length_cons]
        rw [if_neg (by omega), if_neg (by omega)]
        simp
      | [], hl => simp at hl
      | [_], hl => simp at hl
      | _ :: _ :: _ :: _, hl => simp at hl
    · rename_i h1
      rw [if_neg h1] at hlen
      split at he
      · rename_i h
        rw [if_pos h] at hlen
        match e, hlen with
        | [c0, c1, c2], _ =>
          simp [bytesOf] at he
          obtain ⟨e0, e1, e2⟩ := he
          simp only [List.cons_append, List.nil_append, decodeSize, e0]
          rw [if_neg (by omega)]
          obtain ⟨lo, hi, hf, hlo, hhi⟩ := firstInfo_three (b := 0xE0 + r / 4096) (by omega) (by omega)
          rw [hf]
          simp only [List.length_cons]
          rw [if_neg (by omega), if_neg (by split at hlo <;> split at hhi <;> omega)]
          rw [if_pos (by simp; omega)]
          rfl
        | [], hl => simp at hl
        | [_], hl => simp at hl
        | [_, _], hl => simp at hl
        | _ :: _ :: _ :: _ :: _, hl => simp at hl
      · rename_i h2
        rw [if_neg h2] at hlen
        match e, hlen with
        | [c0, c1, c2, c3], _ =>
          simp [bytesOf] at he
          obtain ⟨e0, e1, e2, e3⟩ := he
          simp only [List.cons_append, List.nil_append, decodeSize, e0]
          rw [if_neg (by omega)]
          obtain ⟨lo, hi, hf, hlo, hhi⟩ := firstInfo_four (b := 0xF0 + r / 262144) (by omega) (by omega)
          rw [hf]
          simp only [List.length_cons]
          rw [if_neg (by omega), if_neg (by split at hlo <;> split at hhi <;> omega)]
          rw [if_pos (by simp; omega)]
          rfl
        | [], hl => simp at hl
        | [_], hl => simp at hl
        | [_, _], hl => simp at hl
        | [_, _, _], hl => simp at hl
        | _ :: _ :: _ :: _ :: _ :: _, hl => simp at hl

theorem decodeSize_bounds {s : Str} (h : s ≠ []) : 1 ≤ decodeSize s ∧ decodeSize s ≤ s.length := by
  unfold decodeSize
  split
  · exact absurd rfl h
  · rename_i c0 rest
    split
    · simp
    · split
      · simp
      · rename_i sz lo hi hf
        have : 1 ≤ sz := by
          unfold firstInfo at hf
          repeat' split at hf
          all_goals first | (simp at hf; omega) | simp at hf
        split
        · simp
        · split
          · simp
          · (repeat' split) <;> (simp at *; try omega)

theorem bytesOf_append (a b : Str) : bytesOf (a ++ b) = bytesOf a ++ bytesOf b := by simp [bytesOf]

/-- Splitting a valid string after its first scalar value. -/
theorem bytes_split {s : Str} {x y : List Nat} (h : bytesOf s = x ++ y) : ∃ e t, s = e ++ t ∧ bytesOf e = x ∧ bytesOf t = y := by
  refine ⟨s.take x.length, s.drop x.length, (List.take_append_drop _ _).symm, ?_, ?_⟩
  · unfold bytesOf at *; rw [List.map_take, h]; simp
  · unfold bytesOf at *; rw [List.map_drop, h]; simp

theorem ValidUTF8.nil : ValidUTF8 [] := ⟨[], by simp, rfl⟩

theorem ValidUTF8.cons {e s : Str} {r : Nat} (hr : IsScalar r) (he : bytesOf e = encode r) (h : ValidUTF8 s) : ValidUTF8 (e ++ s) := by
  obtain ⟨rs, h1, h2⟩ := h
  refine ⟨r :: rs, ?_, by rw [bytesOf_append, he, h2, List.flatMap_cons]⟩
  intro x hx; rcases List.mem_cons.1 hx with rfl | hx
  · exact hr
  · exact h1 x hx

theorem truncLoop_bounds (maxBytes : Nat) : ∀ (fuel : Nat) (part : Str) (off : Nat), off ≤ maxBytes →
    truncLoop maxBytes fuel part off ≤ maxBytes ∧ off ≤ truncLoop maxBytes fuel part off := by
  intro fuel
  induction fuel with
  | zero => intro part off h; exact ⟨h, Nat.le_refl _⟩
  | succ fuel ih =>
    intro part off h
    unfold truncLoop
    split
    · exact ⟨h, Nat.le_refl _⟩
    · simp only
      split
      · exact ⟨h, Nat.le_refl _⟩
      · have := ih (part.drop (decodeSize part)) (off + decodeSize part) (by omega)
        omega

/-- The loop on valid input keeps a valid prefix, and the longest one. -/
theorem truncLoop_valid (maxBytes : Nat) : ∀ (rs : List Nat), (∀ r ∈ rs, IsScalar r) → ∀ (part : Str), bytesOf part = rs.flatMap encode →
    ∀ (fuel off : Nat), part.length ≤ fuel → off ≤ maxBytes →
    ValidUTF8 (part.take (truncLoop maxBytes fuel part off - off)) ∧
    ∀ p, p <+: part → ValidUTF8 p → off + p.length ≤ maxBytes → p.length ≤ truncLoop maxBytes fuel part off - off := by
  intro rs
  induction rs with
  | nil =>
    intro _ part hp fuel off hf ho
    have hnil : part = [] := by simpa [bytesOf] using hp
    subst hnil
    have : truncLoop maxBytes fuel [] off = off := by cases fuel <;> simp [truncLoop]
    rw [this]
    simp only [Nat.sub_self, List.take_zero]
    refine ⟨.nil, ?_⟩
    intro p hpre _ _
    have := hpre.length_le
    simpa using this
  | cons r rs ih =>
    intro hrs part hp fuel off hf ho
    rw [List.flatMap_cons] at hp
    obtain ⟨e, t, rfl, he, ht⟩ := bytes_split hp
    have hr := hrs r List.mem_cons_self
    have helen : e.length = (encode r).length := by rw [← he]; simp [bytesOf]
    have hpos : 0 < e.length := by rw [helen]; exact encode_length_pos r
    have hd := decodeSize_encode hr e t he
    cases fuel with
    | zero => rw [List.length_append] at hf; omega
    | succ fuel =>
      unfold truncLoop
      rw [if_neg (by intro h; rw [(List.append_eq_nil_iff.1 h).1] at hpos; simp at hpos)]
      simp only [hd]
      have hfirst : ∀ p, p <+: e ++ t → ValidUTF8 p → p = [] ∨ ∃ q, p = e ++ q ∧ q <+: t ∧ ValidUTF8 q := by
        rintro p ⟨w, hw⟩ ⟨rs', h1, h2⟩
        cases rs' with
        | nil => left; simpa [bytesOf] using h2
        | cons r' rs' =>
          right
          rw [List.flatMap_cons] at h2
          obtain ⟨e', q, rfl, he', hq⟩ := bytes_split h2
          have hd' := decodeSize_encode (h1 r' List.mem_cons_self) e' (q ++ w) he'
          rw [← List.append_assoc, hw, hd] at hd'
          rw [List.append_assoc] at hw
          have := List.append_inj hw hd'.symm
          obtain ⟨rfl, rfl⟩ := this
          exact ⟨q, rfl, ⟨w, rfl⟩, rs', fun x hx => h1 x (List.mem_cons_of_mem _ hx), hq⟩
      split
      · rename_i hbig
        simp only [Nat.sub_self, List.take_zero]
        refine ⟨.nil, ?_⟩
        intro p hpre hv hle
        rcases hfirst p hpre hv with rfl | ⟨q, rfl, _, _⟩
        · simp
        · rw [List.length_append] at hle; omega
      · rename_i hsmall
        have hdrop : (e ++ t).drop e.length = t := by simp
        rw [hdrop]
        obtain ⟨h1, h2⟩ := ih (fun x hx => hrs x (List.mem_cons_of_mem _ hx)) t ht fuel (off + e.length) (by rw [List.length_append] at hf; omega) (by omega)
        have hge := (truncLoop_bounds maxBytes fuel t (off + e.length) (by omega)).2
        generalize hT : truncLoop maxBytes fuel t (off + e.length) = T at *
        have hsub : T - off = e.length + (T - (off + e.length)) := by omega
        rw [hsub]
        constructor
        · have : (e ++ t).take (e.length + (T - (off + e.length))) = e ++ t.take (T - (off + e.length)) := by
            rw [List.take_append]; simp [List.take_of_length_le]
          rw [this]
          exact .cons hr he h1
        · intro p hpre hv hle
          rcases hfirst p hpre hv with rfl | ⟨q, rfl, hq, hvq⟩
          · simp
          · have := h2 q hq hvq (by rw [List.length_append] at hle; omega)
            rw [List.length_append]; omega

/-- C24: truncation returns a prefix of at most the given number of bytes; nothing is cut when the string fits. -/
theorem C24_prefix (s : Str) (n : Int) :
    truncateUTF8 s n <+: s ∧ ((truncateUTF8 s n).length : Int) ≤ max n 0 ∧ ((s.length : Int) ≤ n → truncateUTF8 s n = s) := by
  unfold truncateUTF8
  split
  · rename_i h
    refine ⟨List.nil_prefix, by simp; omega, ?_⟩
    intro h'; symm; apply List.eq_nil_of_length_eq_zero; omega
  · split
    · exact ⟨List.prefix_refl _, by omega, fun _ => rfl⟩
    · refine ⟨List.take_prefix _ _, ?_, fun h => by omega⟩
      have := (truncLoop_bounds n.toNat s.length s 0 (by omega)).1
      rw [List.length_take]
      omega

/-- C24: truncating valid UTF-8 gives valid UTF-8, and no longer valid prefix fits. -/
theorem C24_longest_valid (s : Str) (n : Int) (h : ValidUTF8 s) :
    ValidUTF8 (truncateUTF8 s n) ∧
    ∀ p, p <+: s → ValidUTF8 p → (p.length : Int) ≤ n → p.length ≤ (truncateUTF8 s n).length := by
  unfold truncateUTF8
  split
  · exact ⟨.nil, fun p _ _ hp => by have : p.length = 0 := by omega
                                    simp [this]⟩
  · split
    · exact ⟨h, fun p hp _ _ => hp.length_le⟩
    · rename_i h1 h2
      obtain ⟨rs, hrs, hb⟩ := h
      obtain ⟨v, m⟩ := truncLoop_valid n.toNat rs hrs s hb s.length 0 (Nat.le_refl _) (by omega)
      simp only [Nat.sub_zero] at v m
      refine ⟨v, ?_⟩
      intro p hp hv hle
      have := m p hp hv (by omega)
      have := hp.length_le
      rw [List.length_take]
      omega

/-- The documentation of `TruncateUTF8` promises a valid result for any input; an invalid string that fits is returned as it is. -/
theorem C24_counterexample_invalid_input : truncateUTF8 [Char.ofNat 0xFF] 5 = [Char.ofNat 0xFF] ∧ ¬ ValidUTF8 [Char.ofNat 0xFF] := by
  refine ⟨by decide, ?_⟩
  rintro ⟨rs, h1, h2⟩
  cases rs with
  | nil => simp [bytesOf] at h2
  | cons r rs =>
    have hb : bytesOf [Char.ofNat 0xFF] = [255] := by decide
    rw [hb, List.flatMap_cons] at h2
    have hr := h1 r List.mem_cons_self
    unfold IsScalar at hr
    unfold encode at h2
    (repeat' split at h2) <;> simp at h2 <;> omega

/-- non-vacuity of C24: "é€" is valid, 5 bytes; cut to 4 bytes only "é" stays. -/
example : ValidUTF8 ([0xC3, 0xA9, 0xE2, 0x82, 0xAC].map Char.ofNat) ∧
    bytesOf (truncateUTF8 ([0xC3, 0xA9, 0xE2, 0x82, 0xAC].map Char.ofNat) 4) = [0xC3, 0xA9] := by
  refine ⟨⟨[0xE9, 0x20AC], by decide, by decide⟩, by decide⟩

end Verif.Fsutil
