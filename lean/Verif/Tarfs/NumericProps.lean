import Verif.Tarfs.NumericModel
/-
Property C35: numeric header fields decode exactly.
-/
namespace Verif.Tarfs

/-! ## Specification -/

/-- Big-endian value of a byte string. -/
def beNat : Bytes → Nat
  | [] => 0
  | c :: rest => c.toNat * 256 ^ rest.length + beNat rest

/-- The number a base-256 field encodes: the bit after the marker bit and all that follow form a two's complement number
of `8·len - 1` bits. -/
def twosComplement (b : Bytes) : Int :=
  let bits := 8 * b.length - 1
  let u := beNat b % 2 ^ bits
  if u < 2 ^ (bits - 1) then (u : Int) else (u : Int) - (2 ^ bits : Nat)

/-- A base-256 field: its first bit is set. -/
def IsBase256 (b : Bytes) : Prop := ∃ c rest, b = c :: rest ∧ 128 ≤ c.toNat

/-- Spaces and NULs only. -/
def Pad (b : Bytes) : Prop := ∀ c ∈ b, c = 32 ∨ c = 0

/-- `b` is an octal field with value `v`: padding, octal digits, and then padding or, if there were digits, a NUL and anything. -/
def OctalField (b : Bytes) (v : Nat) : Prop :=
  ∃ pad ds rest, b = pad ++ ds ++ rest ∧ Pad pad ∧ (∀ d ∈ ds, 48 ≤ d.toNat ∧ d.toNat ≤ 55) ∧ v = octVal ds ∧
    (Pad rest ∨ (ds ≠ [] ∧ rest.head? = some 0))

/-! ## Bits of bytes -/

theorem u8_ind {P : UInt8 → Prop} (h : ∀ n : Fin 256, P (UInt8.ofNat n.val)) (c : UInt8) : P c := by
  have := h ⟨c.toNat, c.toNat_lt⟩
  simpa using this

theorem mark_iff (c : UInt8) : c &&& 0x80 ≠ 0 ↔ 128 ≤ c.toNat :=
  u8_ind (P := fun c => c &&& 0x80 ≠ 0 ↔ 128 ≤ c.toNat) (by decide +kernel) c

theorem sign_iff (c : UInt8) : c &&& 0x40 ≠ 0 ↔ 64 ≤ c.toNat % 128 :=
  u8_ind (P := fun c => c &&& 0x40 ≠ 0 ↔ 64 ≤ c.toNat % 128) (by decide +kernel) c

theorem xor_ff (c : UInt8) : (c ^^^ 0xff).toNat = 255 - c.toNat :=
  u8_ind (P := fun c => (c ^^^ 0xff).toNat = 255 - c.toNat) (by decide +kernel) c

theorem xor_0 (c : UInt8) : (c ^^^ 0).toNat = c.toNat :=
  u8_ind (P := fun c => (c ^^^ 0).toNat = c.toNat) (by decide +kernel) c

theorem and_7f (c : UInt8) : (c &&& 0x7f).toNat = c.toNat % 128 :=
  u8_ind (P := fun c => (c &&& 0x7f).toNat = c.toNat % 128) (by decide +kernel) c

theorem isOct_iff (c : UInt8) : isOct c = true ↔ 48 ≤ c.toNat ∧ c.toNat ≤ 55 :=
  u8_ind (P := fun c => isOct c = true ↔ 48 ≤ c.toNat ∧ c.toNat ≤ 55) (by decide +kernel) c

theorem isPad_iff (c : UInt8) : isPad c = true ↔ c = 32 ∨ c = 0 := by simp [isPad]

/-! ## Base-256 -/

theorem beNat_lt (b : Bytes) : beNat b < 256 ^ b.length := by
  induction b with
  | nil => simp [beNat]
  | cons c rest ih =>
    simp only [beNat, List.length_cons, Nat.pow_succ]
    have := c.toNat_lt
    have h2 : c.toNat * 256 ^ rest.length ≤ 255 * 256 ^ rest.length := Nat.mul_le_mul_right _ (by omega)
    have h3 : 256 ^ rest.length * 256 = 255 * 256 ^ rest.length + 256 ^ rest.length := by omega
    omega

/-- The transformed value: all bytes inverted or none. -/
def invNat (inv : UInt8) (b : Bytes) : Nat := beNat (b.map (· ^^^ inv))

theorem invNat_ff (b : Bytes) : invNat 0xff b + beNat b + 1 = 256 ^ b.length := by
  induction b with
  | nil => rfl
  | cons c rest ih =>
    have h1 : invNat 0xff (c :: rest) = (255 - c.toNat) * 256 ^ rest.length + invNat 0xff rest := by
      simp only [invNat, List.map_cons, beNat, List.length_map, xor_ff]
    rw [h1]
    simp only [beNat, List.length_cons, Nat.pow_succ]
    have := c.toNat_lt
    rw [Nat.sub_mul]
    have h2 : c.toNat * 256 ^ rest.length ≤ 255 * 256 ^ rest.length := Nat.mul_le_mul_right _ (by omega)
    omega

theorem invNat_0 (b : Bytes) : invNat 0 b = beNat b := by
  induction b with
  | nil => rfl
  | cons c rest ih =>
    have h1 : invNat 0 (c :: rest) = c.toNat * 256 ^ rest.length + invNat 0 rest := by
      simp only [invNat, List.map_cons, beNat, List.length_map, xor_0]
    rw [h1, ih]; rfl

/-- The loop after the first byte: it computes the exact value, and gives up only when the value reaches 2^64. -/
theorem b256Loop_rest (inv : UInt8) (b : Bytes) : ∀ x,
    match b256Loop inv false x b with
    | none => 2 ^ 64 ≤ x * 256 ^ b.length + invNat inv b
    | some y => y = x * 256 ^ b.length + invNat inv b := by
  induction b with
  | nil => intro x; simp [b256Loop, invNat, beNat]
  | cons c rest ih =>
    intro x
    have h1 : x * 256 ^ (c :: rest).length + invNat inv (c :: rest) =
        (x * 256 + (c ^^^ inv).toNat) * 256 ^ rest.length + invNat inv rest := by
      simp only [invNat, List.map_cons, beNat, List.length_map, List.length_cons, Nat.pow_succ, Nat.add_mul]
      rw [Nat.mul_assoc x 256, Nat.mul_comm 256]; omega
    simp only [b256Loop, Bool.false_eq_true, if_false]
    by_cases hx : x / 2 ^ 56 > 0
    · rw [if_pos hx]
      rw [h1]
      have h2 : 2 ^ 56 ≤ x := by
        have := Nat.div_pos_iff.1 hx
        omega
      have h3 : 1 ≤ 256 ^ rest.length := Nat.pow_pos (by omega)
      have h4 : 2 ^ 56 * 256 * 1 ≤ (x * 256 + (c ^^^ inv).toNat) * 256 ^ rest.length :=
        Nat.mul_le_mul (by omega) h3
      simp only
      omega
    · rw [if_neg hx, h1]
      exact ih _

theorem pow256 (n : Nat) : 2 ^ (8 * (n + 1) - 1) = 128 * 256 ^ n := by
  rw [show 8 * (n + 1) - 1 = 7 + 8 * n by omega, Nat.pow_add, Nat.pow_mul]

theorem pow256' (n : Nat) : 2 ^ (8 * (n + 1) - 1 - 1) = 64 * 256 ^ n := by
  rw [show 8 * (n + 1) - 1 - 1 = 6 + 8 * n by omega, Nat.pow_add, Nat.pow_mul]

/-- The two's complement value in terms of the first byte. -/
theorem twos_cons (c : UInt8) (rest : Bytes) :
    (64 ≤ c.toNat % 128 → twosComplement (c :: rest) = ((c.toNat % 128) * 256 ^ rest.length + beNat rest : Nat) - (128 * 256 ^ rest.length : Nat)) ∧
    (c.toNat % 128 < 64 → twosComplement (c :: rest) = ((c.toNat % 128) * 256 ^ rest.length + beNat rest : Nat)) := by
  have hb := beNat_lt rest
  have hmod : beNat (c :: rest) % 2 ^ (8 * (c :: rest).length - 1) = (c.toNat % 128) * 256 ^ rest.length + beNat rest := by
    rw [List.length_cons, pow256]
    simp only [beNat]
    have h1 : c.toNat = 128 * (c.toNat / 128) + c.toNat % 128 := by omega
    have h2 : c.toNat * 256 ^ rest.length = 128 * 256 ^ rest.length * (c.toNat / 128) + (c.toNat % 128) * 256 ^ rest.length := by
      conv => lhs; rw [h1]
      rw [Nat.add_mul, Nat.mul_assoc, Nat.mul_assoc, Nat.mul_comm (c.toNat / 128)]
    rw [h2, Nat.add_assoc, Nat.mul_add_mod]
    apply Nat.mod_eq_of_lt
    have h3 : (c.toNat % 128) * 256 ^ rest.length ≤ 127 * 256 ^ rest.length := Nat.mul_le_mul_right _ (by omega)
    omega
  unfold twosComplement
  simp only [hmod]
  rw [List.length_cons, pow256, pow256']
  constructor
  · intro h
    have h3 : 64 * 256 ^ rest.length ≤ (c.toNat % 128) * 256 ^ rest.length := Nat.mul_le_mul_right _ h
    rw [if_neg (by omega)]
  · intro h
    have h3 : (c.toNat % 128) * 256 ^ rest.length ≤ 63 * 256 ^ rest.length := Nat.mul_le_mul_right _ (by omega)
    rw [if_pos (by omega)]

/-- **C35, base-256.** A field of any width whose first bit is set decodes to the two's complement number it encodes when that
number fits an int64, and is rejected otherwise. -/
theorem C35_base256_exact (b : Bytes) (h : IsBase256 b) :
    parseNumeric b = if IsInt64 (twosComplement b) then some (twosComplement b) else none := by
  obtain ⟨c, rest, rfl, hc⟩ := h
  have hb := beNat_lt rest
  obtain ⟨t1, t2⟩ := twos_cons c rest
  simp only [parseNumeric]
  rw [if_pos ((mark_iff c).2 hc)]
  have hlt := c.toNat_lt
  by_cases hs : 64 ≤ c.toNat % 128
  · rw [if_pos ((sign_iff c).2 hs)]
    rw [t1 hs]
    have hloop := b256Loop_rest 0xff rest ((c ^^^ 0xff) &&& 0x7f).toNat
    have hstep : b256Loop 0xff true 0 (c :: rest) = b256Loop 0xff false ((c ^^^ 0xff) &&& 0x7f).toNat rest := by
      simp [b256Loop]
    have hval : ((c ^^^ 0xff) &&& 0x7f).toNat * 256 ^ rest.length + invNat 0xff rest + ((c.toNat % 128) * 256 ^ rest.length + beNat rest) + 1 =
        128 * 256 ^ rest.length := by
      rw [and_7f, xor_ff, show (255 - c.toNat) % 128 = 127 - c.toNat % 128 by omega, Nat.sub_mul]
      have h3 : (c.toNat % 128) * 256 ^ rest.length ≤ 127 * 256 ^ rest.length := Nat.mul_le_mul_right _ (by omega)
      have := invNat_ff rest
      omega
    rw [hstep]
    generalize hX : ((c ^^^ 0xff) &&& 0x7f).toNat * 256 ^ rest.length + invNat 0xff rest = X at *
    generalize hU : (c.toNat % 128) * 256 ^ rest.length + beNat rest = U at *
    have hneg : ((U : Nat) : Int) - ((128 * 256 ^ rest.length : Nat) : Int) = -(X : Int) - 1 := by omega
    rw [hneg]
    cases hl : b256Loop 0xff false ((c ^^^ 0xff) &&& 0x7f).toNat rest with
    | none =>
      rw [hl] at hloop
      simp only at hloop
      rw [if_neg]
      unfold IsInt64 minInt64 maxInt64; omega
    | some y =>
      rw [hl] at hloop
      simp only at hloop
      subst hloop
      simp only
      by_cases hy : y / 2 ^ 63 > 0
      · rw [if_pos hy, if_neg]
        have := (Nat.div_pos_iff.1 hy).2
        unfold IsInt64 minInt64 maxInt64; omega
      · rw [if_neg hy, if_pos trivial, if_pos]
        have : y < 2 ^ 63 := by
          apply Nat.lt_of_not_le
          intro h; exact hy (Nat.div_pos_iff.2 ⟨by omega, h⟩)
        unfold IsInt64 minInt64 maxInt64; omega
  · rw [if_neg (fun h => hs ((sign_iff c).1 h))]
    rw [t2 (by omega)]
    have hloop := b256Loop_rest 0 rest ((c ^^^ 0) &&& 0x7f).toNat
    have hstep : b256Loop 0 true 0 (c :: rest) = b256Loop 0 false ((c ^^^ 0) &&& 0x7f).toNat rest := by
      simp [b256Loop]
    rw [hstep]
    rw [invNat_0] at hloop
    have e : ((c ^^^ 0) &&& 0x7f).toNat = c.toNat % 128 := by rw [and_7f, xor_0]
    rw [e] at hloop ⊢
    generalize hU : (c.toNat % 128) * 256 ^ rest.length + beNat rest = U at *
    cases hl : b256Loop 0 false (c.toNat % 128) rest with
    | none =>
      rw [hl] at hloop
      simp only at hloop
      rw [if_neg]
      unfold IsInt64 minInt64 maxInt64; omega
    | some y =>
      rw [hl] at hloop
      simp only at hloop
      subst hloop
      simp only
      by_cases hy : y / 2 ^ 63 > 0
      · rw [if_pos hy, if_neg]
        have := (Nat.div_pos_iff.1 hy).2
        unfold IsInt64 minInt64 maxInt64; omega
      · rw [if_neg hy, if_neg (by decide), if_pos]
        have : y < 2 ^ 63 := by
          apply Nat.lt_of_not_le
          intro h; exact hy (Nat.div_pos_iff.2 ⟨by omega, h⟩)
        unfold IsInt64 minInt64 maxInt64; omega

/-- 12-byte fields: -1, 2^33, and a number that does not fit. -/
example : parseNumeric (List.replicate 12 0xff) = some (-1) ∧
    parseNumeric [0x80, 0, 0, 0, 0, 0, 0, 2, 0, 0, 0, 0] = some (2 ^ 33) ∧
    parseNumeric [0x80, 0, 0, 1, 0, 0, 0, 0, 0, 0, 0, 0] = none ∧ IsBase256 (List.replicate 12 0xff) := by
  refine ⟨by decide, by decide, by decide, 0xff, List.replicate 11 0xff, rfl, by decide⟩

/-! ## Octal -/

theorem octVal_lt (b : Bytes) (h : ∀ d ∈ b, 48 ≤ d.toNat ∧ d.toNat ≤ 55) : octVal b < 8 ^ b.length := by
  have key : ∀ (b : Bytes) (a : Nat), (∀ d ∈ b, 48 ≤ d.toNat ∧ d.toNat ≤ 55) →
      b.foldl (fun a c => a * 8 + (c.toNat - 48)) a < (a + 1) * 8 ^ b.length := by
    intro b
    induction b with
    | nil => intro a _; simp
    | cons c rest ih =>
      intro a h
      simp only [List.foldl_cons, List.length_cons, Nat.pow_succ]
      have hc := h c (by simp)
      have := ih (a * 8 + (c.toNat - 48)) (fun d hd => h d (by simp [hd]))
      have h2 : (a * 8 + (c.toNat - 48) + 1) * 8 ^ rest.length ≤ ((a + 1) * 8) * 8 ^ rest.length := Nat.mul_le_mul_right _ (by omega)
      rw [Nat.mul_comm (8 ^ rest.length) 8, ← Nat.mul_assoc]
      omega
  have := key b 0 h
  simpa [octVal] using this

theorem dropWhile_pads {p b : Bytes} (hp : Pad p) : (p ++ b).dropWhile isPad = b.dropWhile isPad := by
  rw [List.dropWhile_append_of_pos]
  intro c hc; exact (isPad_iff c).2 (hp c hc)

theorem pad_reverse {p : Bytes} (hp : Pad p) : Pad p.reverse := fun c hc => hp c (List.mem_reverse.1 hc)

theorem trim_pads {p t q : Bytes} (hp : Pad p) (hq : Pad q) (h1 : ∀ c, t.head? = some c → isPad c = false)
    (h2 : ∀ c, t.getLast? = some c → isPad c = false) : trimPad (p ++ t ++ q) = t := by
  unfold trimPad
  rw [List.append_assoc, dropWhile_pads hp]
  cases t with
  | nil =>
    rw [List.nil_append, ← List.append_nil q, dropWhile_pads hq]; rfl
  | cons c rest =>
    have hc := h1 c rfl
    rw [List.cons_append, List.dropWhile_cons, if_neg (by simp [hc]), ← List.cons_append, List.reverse_append,
      dropWhile_pads (pad_reverse hq)]
    rcases List.eq_nil_or_concat (c :: rest) with h | ⟨i, a, h⟩
    · cases h
    · rw [h] at h2 ⊢
      rw [List.concat_eq_append] at h2 ⊢
      rw [List.reverse_append]
      have := h2 a (by simp)
      simp [this]

/-- Every byte string is padding, a trimmed middle, and padding. -/
theorem trim_split (b : Bytes) : ∃ p q, b = p ++ trimPad b ++ q ∧ Pad p ∧ Pad q ∧
    (∀ c, (trimPad b).head? = some c → isPad c = false) := by
  refine ⟨b.takeWhile isPad, ((b.dropWhile isPad).reverse.takeWhile isPad).reverse, ?_, ?_, ?_, ?_⟩
  · unfold trimPad
    rw [List.append_assoc, ← List.reverse_append, List.takeWhile_append_dropWhile, List.reverse_reverse, List.takeWhile_append_dropWhile]
  · intro c hc
    exact (isPad_iff c).1 (List.all_eq_true.1 (List.all_takeWhile) c hc)
  · intro c hc
    rw [List.mem_reverse] at hc
    exact (isPad_iff c).1 (List.all_eq_true.1 (List.all_takeWhile) c hc)
  · intro c hc
    have hsplit : (b.dropWhile isPad) = trimPad b ++ ((b.dropWhile isPad).reverse.takeWhile isPad).reverse := by
      unfold trimPad
      rw [← List.reverse_append, List.takeWhile_append_dropWhile, List.reverse_reverse]
    have h2 : (b.dropWhile isPad).head? = some c := by
      rw [hsplit, List.head?_append, hc]; rfl
    have := List.head?_dropWhile_not isPad b
    rw [h2] at this
    simpa using this

theorem oct_not_pad {d : UInt8} (h : 48 ≤ d.toNat ∧ d.toNat ≤ 55) : isPad d = false ∧ d ≠ 0 := by
  have h0 : d ≠ 0 := by rintro rfl; simp at h
  refine ⟨?_, h0⟩
  cases hp : isPad d with
  | false => rfl
  | true =>
    rcases (isPad_iff d).1 hp with rfl | rfl
    · simp at h
    · simp at h

theorem parseOctal_iff (b : Bytes) (v : Int) : parseOctal b = some v ↔ ∃ n, OctalField b n ∧ n < 2 ^ 64 ∧ v = wrap64 n := by
  constructor
  · intro h
    obtain ⟨p, q, hb, hp, hq, hh⟩ := trim_split b
    unfold parseOctal at h
    by_cases ht : trimPad b = []
    · simp [ht] at h
      refine ⟨0, ⟨p, [], q, by rw [ht] at hb; exact hb, hp, by simp, rfl, Or.inl hq⟩, by omega, ?_⟩
      rw [← h]; decide
    · simp only [ht, if_false] at h
      unfold parseUint8 at h
      split at h
      · simp at h
      · rename_i x hx
        split at hx
        · rename_i hc
          simp at hx h
          subst hx
          obtain ⟨h1, h2, h3⟩ := hc
          have hdig : ∀ d ∈ cString (trimPad b), 48 ≤ d.toNat ∧ d.toNat ≤ 55 := by
            intro d hd
            exact (isOct_iff d).1 (List.all_eq_true.1 h2 d hd)
          refine ⟨octVal (cString (trimPad b)), ⟨p, cString (trimPad b), (trimPad b).dropWhile (· ≠ 0) ++ q, ?_, hp, hdig, rfl, ?_⟩, h3, h.symm⟩
          · have := List.takeWhile_append_dropWhile (p := fun c : UInt8 => decide (c ≠ 0)) (l := trimPad b)
            unfold cString
            rw [List.append_assoc, ← List.append_assoc (List.takeWhile _ _), this, ← List.append_assoc]
            exact hb
          · by_cases hr : (trimPad b).dropWhile (· ≠ 0) = []
            · left; rw [hr]; exact hq
            · right
              refine ⟨h1, ?_⟩
              have h5 := List.head?_dropWhile_not (fun c : UInt8 => decide (c ≠ 0)) (trimPad b)
              rw [List.head?_append]
              cases hd : (trimPad b).dropWhile (fun c => decide (c ≠ 0)) with
              | nil => exact absurd hd hr
              | cons a r =>
                rw [hd] at h5
                simp at h5
                simp [h5]
        · cases hx
  · rintro ⟨n, ⟨pad, ds, rest, rfl, hp, hds, rfl, hrest⟩, hn, hv⟩
    rw [hv]; clear hv
    by_cases hd0 : ds = []
    · subst hd0
      rcases hrest with hr | ⟨h, _⟩
      · have : trimPad (pad ++ [] ++ rest) = [] := trim_pads hp hr (by simp) (by simp)
        unfold parseOctal
        simp only [this, if_true]; decide
      · exact absurd rfl h
    · -- the middle part starts with the digits
      have hmid : ∃ r, trimPad (pad ++ ds ++ rest) = ds ++ r ∧ (r = [] ∨ r.head? = some 0) := by
        have hhead : ∀ t : Bytes, ∀ c, (ds ++ t).head? = some c → isPad c = false := by
          intro t c hc
          cases ds with
          | nil => exact absurd rfl hd0
          | cons a r => simp at hc; subst hc; exact (oct_not_pad (hds a (by simp))).1
        have hlast : ∀ c, ds.getLast? = some c → isPad c = false := by
          intro c hc
          exact (oct_not_pad (hds c (List.mem_of_getLast? hc))).1
        rcases hrest with hr | ⟨_, hr⟩
        · exact ⟨[], by rw [List.append_nil]; exact trim_pads hp hr (by simpa using hhead []) hlast, Or.inl rfl⟩
        · obtain ⟨p2, q2, hb, hp2, hq2, _⟩ := trim_split rest.reverse
          by_cases hall : Pad rest
          · exact ⟨[], by rw [List.append_nil]; exact trim_pads hp hall (by simpa using hhead []) hlast, Or.inl rfl⟩
          · -- cut the padding at the end of `rest`
            have hs : rest = (rest.reverse.dropWhile isPad).reverse ++ (rest.reverse.takeWhile isPad).reverse := by
              rw [← List.reverse_append, List.takeWhile_append_dropWhile, List.reverse_reverse]
            generalize hr1 : (rest.reverse.dropWhile isPad).reverse = r1 at hs
            generalize hr2 : (rest.reverse.takeWhile isPad).reverse = r2 at hs
            have hpad2 : Pad r2 := by
              intro c hc
              rw [← hr2, List.mem_reverse] at hc
              exact (isPad_iff c).1 (List.all_eq_true.1 (List.all_takeWhile) c hc)
            have hne : r1 ≠ [] := by
              rintro rfl
              rw [List.nil_append] at hs
              rw [hs] at hall; exact hall hpad2
            have hl1 : ∀ c, r1.getLast? = some c → isPad c = false := by
              intro c hc
              rw [← hr1, List.getLast?_reverse] at hc
              have := List.head?_dropWhile_not isPad rest.reverse
              rw [hc] at this; simpa using this
            refine ⟨r1, ?_, Or.inr ?_⟩
            · rw [hs, List.append_assoc, ← List.append_assoc ds, ← List.append_assoc]
              apply trim_pads hp hpad2 (hhead r1)
              intro c hc
              rw [List.getLast?_append] at hc
              cases h1 : r1.getLast? with
              | none => exact absurd (List.getLast?_eq_none_iff.1 h1) hne
              | some a => rw [h1] at hc; simp at hc; subst hc; exact hl1 a h1
            · rw [hs, List.head?_append] at hr
              cases r1 with
              | nil => exact absurd rfl hne
              | cons a r => simpa using hr
      obtain ⟨r, hr, hr0⟩ := hmid
      have hcs : cString (ds ++ r) = ds := by
        unfold cString
        rw [List.takeWhile_append_of_pos]
        · rcases hr0 with rfl | h
          · simp
          · cases r with
            | nil => simp at h
            | cons a r => simp at h; subst h; simp
        · intro c hc; simp; exact (oct_not_pad (hds c hc)).2
      unfold parseOctal
      rw [hr]
      simp only [hcs]
      rw [if_neg (by simp [hd0])]
      unfold parseUint8
      rw [if_pos ⟨hd0, List.all_eq_true.2 (fun d hd => (isOct_iff d).2 (hds d hd)), hn⟩]

theorem octal_not_base256 {b : Bytes} {n : Nat} (h : OctalField b n) : ¬ IsBase256 b := by
  rintro ⟨c, rest, rfl, hc⟩
  obtain ⟨pad, ds, r, hb, hp, hds, _, hr⟩ := h
  cases pad with
  | cons a p =>
    simp at hb
    obtain ⟨rfl, _⟩ := hb
    rcases hp c (by simp) with rfl | rfl <;> simp at hc
  | nil =>
    cases ds with
    | cons a d =>
      simp at hb
      obtain ⟨rfl, _⟩ := hb
      have := hds c (by simp); omega
    | nil =>
      simp at hb; subst hb
      rcases hr with hr | ⟨h, _⟩
      · rcases hr c (by simp) with rfl | rfl <;> simp at hc
      · exact absurd rfl h

theorem parseNumeric_octal {b : Bytes} (h : ¬ IsBase256 b) : parseNumeric b = parseOctal b := by
  cases b with
  | nil => rfl
  | cons c rest =>
    simp only [parseNumeric]
    rw [if_neg]
    intro hm
    exact h ⟨c, rest, rfl, (mark_iff c).1 hm⟩

/-- **C35.** A numeric header field of at most 21 bytes (the fields of a tar header have 8 or 12) decodes to `v` exactly when it is a
base-256 field that encodes `v` as a two's complement number that fits 64 bits, or an octal field with value `v`. Everything else is
rejected; nothing is wrapped.
Missing from C35: octal fields wider than 21 bytes. -/
theorem C35_numeric_exact_partial (b : Bytes) (hlen : b.length ≤ 21) (v : Int) :
    parseNumeric b = some v ↔
      (IsBase256 b ∧ IsInt64 (twosComplement b) ∧ v = twosComplement b) ∨ (∃ n : Nat, OctalField b n ∧ v = n) := by
  by_cases hb : IsBase256 b
  · rw [C35_base256_exact b hb]
    constructor
    · intro h
      split at h
      · rename_i h1
        left; simp at h; exact ⟨hb, h1, h.symm⟩
      · cases h
    · rintro (⟨_, h1, rfl⟩ | ⟨n, h, _⟩)
      · rw [if_pos h1]
      · exact absurd hb (octal_not_base256 h)
  · rw [parseNumeric_octal hb, parseOctal_iff]
    have hsmall : ∀ n, OctalField b n → n < 2 ^ 63 := by
      rintro n ⟨pad, ds, rest, rfl, _, hds, rfl, _⟩
      have h1 := octVal_lt ds hds
      have h2 : 8 ^ ds.length ≤ 8 ^ 21 := Nat.pow_le_pow_right (by omega) (by simp at hlen; omega)
      have h3 : 8 ^ 21 = 2 ^ 63 := by decide
      omega
    constructor
    · rintro ⟨n, h1, _, hv⟩
      right
      refine ⟨n, h1, hv.trans (wrap64_of_isInt64 ?_)⟩
      have := hsmall n h1
      unfold IsInt64 minInt64 maxInt64; omega
    · rintro (⟨h, _⟩ | ⟨n, h1, rfl⟩)
      · exact absurd h hb
      · refine ⟨n, h1, by have := hsmall n h1; omega, (wrap64_of_isInt64 ?_).symm⟩
        have := hsmall n h1
        unfold IsInt64 minInt64 maxInt64; omega

/-- The field "0000644 \0" and one with rubbish behind its NUL. -/
example : OctalField [48, 48, 48, 48, 54, 52, 52, 32, 0] 420 ∧ parseNumeric [48, 48, 48, 48, 54, 52, 52, 32, 0] = some 420 ∧
    parseNumeric [32, 49, 50, 0, 120] = some 10 ∧ parseNumeric [49, 32, 50] = none ∧ parseNumeric [56] = none := by
  refine ⟨⟨[], [48, 48, 48, 48, 54, 52, 52], [32, 0], rfl, by simp [Pad], by decide, by decide, Or.inl (by simp [Pad])⟩,
    by decide, by decide, by decide, by decide⟩

/-- Why the width is limited: an octal string of 22 digits with value 2^63 is accepted and wraps to a negative number. -/
theorem C35_counterexample_wide_octal :
    OctalField (49 :: List.replicate 21 48) (2 ^ 63) ∧ parseNumeric (49 :: List.replicate 21 48) = some (-(2 ^ 63)) := by
  refine ⟨⟨[], 49 :: List.replicate 21 48, [], rfl, by simp [Pad], by decide, by decide +kernel, Or.inl (by simp [Pad])⟩, by decide +kernel⟩

end Verif.Tarfs
