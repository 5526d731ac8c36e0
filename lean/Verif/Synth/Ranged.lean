import Verif.Synth.MemBuf
/-
Model of byte-range views, /repo/vroot/synthfs/view_fs.go 70-205 (NewRangedView, rangedView, rangedHandle), with Go's
io.SectionReader, and property C52.  The backing bytes do not change while the handle is used.
-/
namespace Verif.Synth.Ranged
open Verif.Synth

/-! ## Model -/

inductive SErr where
  | eof
  | offset    -- io: errOffset / errWhence
  | rofs
  | other
deriving DecidableEq

/-- A positioned read of `k` bytes at an offset: the bytes and the error. -/
abbrev ReaderAt := Nat → Int → Bytes × Option SErr

/-- view_fs.go 75-94 `NewRangedView`: the argument checks (the probe of the inner view is assumed to succeed). -/
def newRanged (off n : Int) : Option (Int × Int) := if off < 0 then none else if n ≤ 0 then none else some (off, n)

/-- std `io.SectionReader` -/
structure Section where
  base : Int
  off : Int
  limit : Int
deriving DecidableEq

/-- std `io.NewSectionReader(r, off, n)`, called in view_fs.go 120 -/
def newSection (off n : Int) : Section := ⟨off, off, if off ≤ maxInt64 - n then n + off else maxInt64⟩

/-- std `SectionReader.Size` -/
def Section.size (s : Section) : Int := s.limit - s.base

/-- std `SectionReader.Read`, view_fs.go 167-169. The third component is the positioned read made on the inner handle. -/
def Section.read (r : ReaderAt) (s : Section) (k : Nat) : Section × (Bytes × Option SErr) × Option (Nat × Int) :=
  if s.off ≥ s.limit then (s, ([], some .eof), none)
  else
    let k' := if (k : Int) > s.limit - s.off then (s.limit - s.off).toNat else k
    let x := r k' s.off
    ({ s with off := s.off + x.1.length }, x, some (k', s.off))

/-- std `SectionReader.ReadAt`, view_fs.go 171-173 -/
def Section.readAt (r : ReaderAt) (s : Section) (k : Nat) (off : Int) : (Bytes × Option SErr) × Option (Nat × Int) :=
  if off < 0 ∨ off ≥ s.size then (([], some .eof), none)
  else
    let o := off + s.base
    if (k : Int) > s.limit - o then
      let k' := (s.limit - o).toNat
      let x := r k' o
      ((x.1, match x.2 with | none => some .eof | some e => some e), some (k', o))
    else (r k o, some (k, o))

/-- std `SectionReader.Seek`, view_fs.go 175-177 -/
def Section.seek (s : Section) (offset whence : Int) : Section × Except SErr Int :=
  let t : Option Int :=
    if whence = 0 then some (wrap64 (offset + s.base))
    else if whence = 1 then some (wrap64 (offset + s.off))
    else if whence = 2 then some (wrap64 (offset + s.limit))
    else none
  match t with
  | none => (s, .error .offset)
  | some t => if t < s.base then (s, .error .offset) else ({ s with off := t }, .ok (t - s.base))

/-- Calls on a handle of a ranged view. -/
inductive ROp where
  | read (k : Nat)
  | readAt (k : Nat) (off : Int)
  | seek (off whence : Int)
  | size
  | write (p : Bytes)
  | writeAt (p : Bytes) (off : Int)
  | truncate (n : Int)

inductive RResp where
  | data (d : Bytes) (err : Option SErr)
  | pos (n : Int)
  | size (n : Int)
  | failed (e : SErr)
deriving DecidableEq

/-- view_fs.go 145-192: one call; with the positioned read it made on the inner handle, if any. -/
def rstep (r : ReaderAt) (s : Section) : ROp → Section × RResp × Option (Nat × Int)
  | .read k => let (s', x, c) := s.read r k; (s', .data x.1 x.2, c)
  | .readAt k off => let (x, c) := s.readAt r k off; (s, .data x.1 x.2, c)
  | .seek off whence => match s.seek off whence with
    | (s', .ok n) => (s', .pos n, none)
    | (s', .error e) => (s', .failed e, none)
  | .size => (s, .size s.size, none)
  | .write _ => (s, .failed .rofs, none)
  | .writeAt _ _ => (s, .failed .rofs, none)
  | .truncate _ => (s, .failed .rofs, none)

def rrun (r : ReaderAt) (s : Section) : List ROp → List (RResp × Option (Nat × Int))
  | [] => []
  | op :: rest => (rstep r s op).2 :: rrun r (rstep r s op).1 rest

/-! ## Specification -/

/-- `r` reads the byte string `c`: the bytes asked for as far as they exist, `io.EOF` if there are fewer; at most `io.EOF` otherwise. -/
def Reads (r : ReaderAt) (c : Bytes) : Prop :=
  ∀ k off, 0 ≤ off → (r k off).1 = slice c off.toNat k ∧ ((r k off).2 = none ∨ (r k off).2 = some .eof) ∧
    ((slice c off.toNat k).length < k → (r k off).2 = some .eof)

/-- A read-only file of `n` bytes at position `pos`, whose bytes are `d`, that begins `base` bytes into another: the new
position and whether the answer is right. -/
def Right (base n : Nat) (d : Bytes) (pos : Nat) : ROp → RResp → Nat → Prop
  | .read k, a, pos' => ∃ e, a = .data (slice d pos k) e ∧ (e = none ∨ e = some .eof) ∧ (slice d pos k = [] → 0 < k → e = some .eof) ∧ pos' = pos + (slice d pos k).length
  | .readAt k off, a, pos' => pos' = pos ∧
      (off < 0 → a = .data [] (some .eof)) ∧
      (0 ≤ off → ∃ e, a = .data (slice d off.toNat k) e ∧ (e = none ∨ e = some .eof) ∧ ((slice d off.toNat k).length < k → e = some .eof))
  | .seek off whence, a, pos' =>
      match (if whence = 0 then some 0 else if whence = 1 then some pos else if whence = 2 then some n else none : Option Nat) with
      | none => a = .failed .offset ∧ pos' = pos
      | some st => if st + off < 0 ∨ base + (st + off) > maxInt64 then a = .failed .offset ∧ pos' = pos else a = .pos (st + off) ∧ (pos' : Int) = st + off
  | .size, a, pos' => a = .size n ∧ pos' = pos
  | _, a, pos' => a = .failed .rofs ∧ pos' = pos

/-- Every answer of a history is right, and every read made on the backing file lies inside the range. -/
def AllRight (base n : Nat) (d : Bytes) : Nat → List ROp → List (RResp × Option (Nat × Int)) → Prop
  | _, [], out => out = []
  | pos, op :: ops, out => ∃ a c rest pos', out = (a, c) :: rest ∧ Right base n d pos op a pos' ∧
      (∀ k o, c = some (k, o) → (base : Int) ≤ o ∧ o + k ≤ base + n) ∧ AllRight base n d pos' ops rest

/-- Seek offsets are int64 values. -/
def ROp.Int64 : ROp → Prop
  | .seek off _ => IsInt64 off
  | _ => True

/-! ## Proofs -/

theorem slice_slice {α} (c : List α) (o n p k : Nat) : slice (slice c o n) p k = slice c (o + p) (min k (n - p)) := by
  unfold slice
  rw [List.drop_take, List.take_take, List.drop_drop]

theorem seek_sum {base st off : Int} (hb : 0 ≤ base) (hst : base ≤ st) (hst' : st ≤ maxInt64) (hi : IsInt64 off) :
    (¬ (st - base + off < 0 ∨ base + (st - base + off) > maxInt64) → wrap64 (off + st) = off + st ∧ ¬ off + st < base) ∧
    ((st - base + off < 0 ∨ base + (st - base + off) > maxInt64) → wrap64 (off + st) < base) := by
  obtain ⟨i1, i2⟩ := hi
  constructor
  · intro h
    rw [not_or] at h
    refine ⟨wrap64_of_isInt64 ⟨?_, ?_⟩, ?_⟩
    · unfold minInt64; omega
    · omega
    · omega
  · intro h
    rcases h with h | h
    · rw [wrap64_of_isInt64 ⟨by omega, by omega⟩]; omega
    · have := (wrap64_add_nonneg (a := off) (b := st) (by omega) (by omega) i2 hst').2 (by omega)
      omega

theorem step_right {r : ReaderAt} {c : Bytes} (hr : Reads r c) {base n pos : Nat} (hfit : (base + n : Int) ≤ maxInt64) (hpos : (base + pos : Int) ≤ maxInt64)
    (op : ROp) (hi : op.Int64) :
    ∃ pos' : Nat, (rstep r ⟨base, base + pos, base + n⟩ op).1 = ⟨base, base + pos', base + n⟩ ∧ (base + pos' : Int) ≤ maxInt64 ∧
      Right base n (slice c base n) pos op (rstep r ⟨base, base + pos, base + n⟩ op).2.1 pos' ∧
      ∀ k o, (rstep r ⟨base, base + pos, base + n⟩ op).2.2 = some (k, o) → (base : Int) ≤ o ∧ o + k ≤ base + n := by
  cases op with
  | read k =>
    simp only [rstep, Section.read]
    by_cases hge : (base + pos : Int) ≥ base + n
    · rw [if_pos hge]
      refine ⟨pos, rfl, hpos, ?_, by simp⟩
      have : slice (slice c base n) pos k = [] := by
        rw [slice_slice, show n - pos = 0 by omega]; simp
      exact ⟨some .eof, by simp [this], .inr rfl, fun _ _ => rfl, by simp [this]⟩
    · rw [if_neg hge]
      simp only
      generalize hk : (if (k : Int) > base + n - (base + pos) then (base + n - (base + pos) : Int).toNat else k) = k'
      have hk' : k' = min k (n - pos) := by rw [← hk]; split <;> omega
      obtain ⟨h1, h2, h3⟩ := hr k' (base + pos) (by omega)
      have hs : slice (slice c base n) pos k = (r k' (base + pos)).1 := by
        rw [h1, slice_slice, hk']; rfl
      have hlen : (slice (slice c base n) pos k).length ≤ n - pos := by
        rw [slice_slice, slice_length]; omega
      refine ⟨pos + (slice (slice c base n) pos k).length, ?_, ?_, ?_, ?_⟩
      · rw [← hs]; simp; omega
      · omega
      · refine ⟨(r k' (base + pos)).2, by rw [hs], h2, ?_, rfl⟩
        intro he hk0
        apply h3
        rw [← h1, ← hs, he]
        simp; omega
      · intro a o ho
        cases ho
        omega
  | readAt k off =>
    simp only [rstep, Section.readAt, Section.size]
    by_cases hb : off < 0 ∨ off ≥ (base + n : Int) - base
    · rw [if_pos hb]
      refine ⟨pos, rfl, hpos, ⟨rfl, fun _ => rfl, ?_⟩, by simp⟩
      intro h0
      have : slice (slice c base n) off.toNat k = [] := by
        rw [slice_slice, show n - off.toNat = 0 by omega]; simp
      exact ⟨some .eof, by simp [this], .inr rfl, fun _ => rfl⟩
    · rw [if_neg hb]
      by_cases hgt : (k : Int) > base + n - (off + base)
      · rw [if_pos hgt]
        simp only
        obtain ⟨h1, h2, h3⟩ := hr (base + n - (off + base) : Int).toNat (off + base) (by omega)
        have hs : slice (slice c base n) off.toNat k = (r (base + n - (off + base) : Int).toNat (off + base)).1 := by
          rw [h1, slice_slice]
          congr 1 <;> omega
        refine ⟨pos, rfl, hpos, ⟨rfl, fun h => by omega, fun _ => ?_⟩, ?_⟩
        · refine ⟨_, by rw [hs], ?_, ?_⟩
          · rcases h2 with h2 | h2 <;> rw [h2] <;> simp
          · intro _
            rcases h2 with h2 | h2 <;> rw [h2]
        · intro a o ho
          cases ho
          omega
      · rw [if_neg hgt]
        obtain ⟨h1, h2, h3⟩ := hr k (off + base) (by omega)
        have hs : slice (slice c base n) off.toNat k = slice c (off + base).toNat k := by
          rw [slice_slice]
          congr 1 <;> omega
        refine ⟨pos, rfl, hpos, ⟨rfl, fun h => by omega, fun _ => ?_⟩, ?_⟩
        · refine ⟨_, by rw [hs, h1], h2, ?_⟩
          rw [hs]; exact h3
        · intro a o ho
          cases ho
          omega
  | seek off whence =>
    have go : ∀ st : Nat, (base + st : Int) ≤ maxInt64 → ∃ pos' : Nat,
        (if wrap64 (off + (base + st)) < base then ((⟨base, base + pos, base + n⟩ : Section), (.error .offset : Except SErr Int)) else (⟨base, wrap64 (off + (base + st)), base + n⟩, .ok (wrap64 (off + (base + st)) - base))).1 = ⟨base, base + pos', base + n⟩ ∧ (base + pos' : Int) ≤ maxInt64 ∧
        (if (st : Int) + off < 0 ∨ base + ((st : Int) + off) > maxInt64 then
          (if wrap64 (off + (base + st)) < base then ((⟨base, base + pos, base + n⟩ : Section), (.error .offset : Except SErr Int)) else (⟨base, wrap64 (off + (base + st)), base + n⟩, .ok (wrap64 (off + (base + st)) - base))).2 = .error .offset ∧ pos' = pos
         else (if wrap64 (off + (base + st)) < base then ((⟨base, base + pos, base + n⟩ : Section), (.error .offset : Except SErr Int)) else (⟨base, wrap64 (off + (base + st)), base + n⟩, .ok (wrap64 (off + (base + st)) - base))).2 = .ok ((st : Int) + off) ∧ (pos' : Int) = st + off) := by
      intro st hst
      obtain ⟨g1, g2⟩ := seek_sum (base := base) (st := base + st) (off := off) (by omega) (by omega) hst hi
      rw [show (base + st : Int) - base = st by omega] at g1 g2
      by_cases hbad : (st : Int) + off < 0 ∨ base + ((st : Int) + off) > maxInt64
      · rw [if_pos (g2 hbad)]
        refine ⟨pos, rfl, hpos, ?_⟩
        rw [if_pos hbad]
        exact ⟨rfl, rfl⟩
      · obtain ⟨w1, w2⟩ := g1 hbad
        rw [w1, if_neg w2]
        refine ⟨((st : Int) + off).toNat, ?_, ?_, ?_⟩
        · simp only [Section.mk.injEq, true_and, and_true]; omega
        · omega
        · rw [if_neg hbad]
          simp only [Except.ok.injEq]; omega
    simp only [rstep, Section.seek, Right]
    by_cases w0 : whence = 0
    · subst w0
      obtain ⟨pos', h1, h2, h3⟩ := go 0 (by omega)
      simp only [if_true]
      rw [show (base + (0 : Nat) : Int) = base by omega] at h1 h3
      generalize (if wrap64 (off + base) < base then ((⟨base, base + pos, base + n⟩ : Section), (.error .offset : Except SErr Int)) else (⟨base, wrap64 (off + base), base + n⟩, .ok (wrap64 (off + base) - base))) = x at h1 h3
      obtain ⟨x1, x2⟩ := x
      refine ⟨pos', ?_, h2, ?_, ?_⟩
      · cases x2 <;> exact h1
      · simp only at h3
        split at h3
        · rename_i hc; rw [if_pos hc]; rw [h3.1]; exact ⟨rfl, h3.2⟩
        · rename_i hc; rw [if_neg hc]; rw [h3.1]; exact ⟨rfl, h3.2⟩
      · cases x2 <;> simp
    · by_cases w1 : whence = 1
      · subst w1
        obtain ⟨pos', h1, h2, h3⟩ := go pos hpos
        simp only [if_neg w0, if_true]
        generalize (if wrap64 (off + (base + pos)) < base then ((⟨base, base + pos, base + n⟩ : Section), (.error .offset : Except SErr Int)) else (⟨base, wrap64 (off + (base + pos)), base + n⟩, .ok (wrap64 (off + (base + pos)) - base))) = x at h1 h3
        obtain ⟨x1, x2⟩ := x
        refine ⟨pos', ?_, h2, ?_, ?_⟩
        · cases x2 <;> exact h1
        · simp only at h3
          split at h3
          · rename_i hc; rw [if_pos hc]; rw [h3.1]; exact ⟨rfl, h3.2⟩
          · rename_i hc; rw [if_neg hc]; rw [h3.1]; exact ⟨rfl, h3.2⟩
        · cases x2 <;> simp
      · by_cases w2 : whence = 2
        · subst w2
          obtain ⟨pos', h1, h2, h3⟩ := go n hfit
          simp only [if_neg w0, if_neg w1, if_true]
          generalize (if wrap64 (off + (base + n)) < base then ((⟨base, base + pos, base + n⟩ : Section), (.error .offset : Except SErr Int)) else (⟨base, wrap64 (off + (base + n)), base + n⟩, .ok (wrap64 (off + (base + n)) - base))) = x at h1 h3
          obtain ⟨x1, x2⟩ := x
          refine ⟨pos', ?_, h2, ?_, ?_⟩
          · cases x2 <;> exact h1
          · simp only at h3
            split at h3
            · rename_i hc; rw [if_pos hc]; rw [h3.1]; exact ⟨rfl, h3.2⟩
            · rename_i hc; rw [if_neg hc]; rw [h3.1]; exact ⟨rfl, h3.2⟩
          · cases x2 <;> simp
        · simp only [if_neg w0, if_neg w1, if_neg w2]
          exact ⟨pos, rfl, hpos, by simp, by simp⟩
  | size => exact ⟨pos, rfl, hpos, ⟨by simp only [rstep, Section.size]; congr 1; omega, rfl⟩, by simp [rstep]⟩
  | write p => exact ⟨pos, rfl, hpos, ⟨rfl, rfl⟩, by simp [rstep]⟩
  | writeAt p off => exact ⟨pos, rfl, hpos, ⟨rfl, rfl⟩, by simp [rstep]⟩
  | truncate m => exact ⟨pos, rfl, hpos, ⟨rfl, rfl⟩, by simp [rstep]⟩

theorem run_right {r : ReaderAt} {c : Bytes} (hr : Reads r c) {base n : Nat} (hfit : (base + n : Int) ≤ maxInt64) (ops : List ROp) :
    ∀ pos : Nat, (base + pos : Int) ≤ maxInt64 → (∀ op ∈ ops, op.Int64) → AllRight base n (slice c base n) pos ops (rrun r ⟨base, base + pos, base + n⟩ ops) := by
  induction ops with
  | nil => intro pos _ _; rfl
  | cons op ops ih =>
    intro pos hpos hi
    obtain ⟨pos', h1, h2, h3, h4⟩ := step_right hr hfit hpos op (hi op List.mem_cons_self)
    refine ⟨_, _, _, pos', rfl, h3, h4, ?_⟩
    rw [h1]
    exact ih pos' h2 (fun o ho => hi o (List.mem_cons_of_mem _ ho))

/-- The in-memory buffer is such a reader of its content. -/
def ofBuf (b : Buf) : ReaderAt := fun k off =>
  ((b.readAt k off).1, (b.readAt k off).2.map fun | .eof => .eof | _ => .other)

theorem ofBuf_reads (b : Buf) : Reads (ofBuf b) b.content := by
  intro k off h0
  unfold ofBuf
  rw [readAt_slice h0]
  refine ⟨rfl, ?_, ?_⟩
  · simp only
    split <;> simp
  · intro hl
    simp only
    rw [if_pos (.inr hl)]; rfl

/-! ## C52 -/

/-- Every history of calls on a handle of the range `[off, off+n)` of any backing file is answered as by a read-only file
of `n` bytes holding that part of the backing file, and every read made on the backing file lies inside the range. (If
the backing file ends inside the range, only the bytes that exist are read; see `C52_note_range_beyond_end`.)
Missing from C52: ranges whose end overflows int64. -/
theorem C52_section_partial (r : ReaderAt) (c : Bytes) (hr : Reads r c) (off n : Int) (v : Int × Int) (hv : newRanged off n = some v)
    (hfit : off + n ≤ maxInt64) (ops : List ROp) (hi : ∀ op ∈ ops, op.Int64) :
    AllRight off.toNat n.toNat (slice c off.toNat n.toNat) 0 ops (rrun r (newSection v.1 v.2) ops) := by
  unfold newRanged at hv
  split at hv
  · cases hv
  split at hv
  · cases hv
  cases hv
  have hs : newSection off n = ⟨off.toNat, off.toNat + (0 : Nat), off.toNat + n.toNat⟩ := by
    unfold newSection
    rw [if_pos (by omega)]
    simp only [Section.mk.injEq]; omega
  simp only
  rw [hs]
  exact run_right hr (by omega) ops 0 (by omega) hi

/-- Exactly the ranges with a non-negative offset and a positive length are accepted, and taken as given. -/
theorem C52_accepts (off n : Int) (v : Int × Int) : newRanged off n = some v ↔ 0 ≤ off ∧ 0 < n ∧ v = (off, n) := by
  unfold newRanged
  by_cases h1 : off < 0
  · rw [if_pos h1]; simp; omega
  · rw [if_neg h1]
    by_cases h2 : n ≤ 0
    · rw [if_pos h2]; simp; omega
    · rw [if_neg h2]
      constructor
      · intro h; cases h; exact ⟨by omega, by omega, rfl⟩
      · rintro ⟨_, _, rfl⟩; rfl

/-- Whatever the range, also when its end overflows int64: the handle is a read-only file holding the bytes of the backing file in `[off, off+n)`, which reports `n` bytes, or, when
the range ends beyond the largest offset a file can have, the number of bytes up to there. -/
theorem C52_every_range (r : ReaderAt) (c : Bytes) (hr : Reads r c) (hc : (c.length : Int) ≤ maxInt64) (off n : Int) (v : Int × Int) (hv : newRanged off n = some v)
    (hoff : off ≤ maxInt64) (ops : List ROp) (hi : ∀ op ∈ ops, op.Int64) :
    AllRight off.toNat (min n (maxInt64 - off)).toNat (slice c off.toNat n.toNat) 0 ops (rrun r (newSection v.1 v.2) ops) := by
  obtain ⟨h0, h1, rfl⟩ := (C52_accepts off n v).1 hv
  have hs : newSection off n = ⟨off.toNat, off.toNat + (0 : Nat), off.toNat + (min n (maxInt64 - off)).toNat⟩ := by
    unfold newSection
    simp only [Section.mk.injEq]
    refine ⟨by omega, by omega, ?_⟩
    split <;> omega
  have hsl : slice c off.toNat n.toNat = slice c off.toNat (min n (maxInt64 - off)).toNat := by
    unfold slice
    apply List.ext_getElem?
    intro i
    rw [List.getElem?_take, List.getElem?_take]
    by_cases hi1 : i < (min n (maxInt64 - off)).toNat
    · rw [if_pos hi1, if_pos (by omega)]
    · rw [if_neg hi1]
      split
      · rw [List.getElem?_eq_none (by rw [List.length_drop]; omega)]
      · rfl
  simp only
  rw [hs, hsl]
  exact run_right hr (by omega) ops 0 (by omega) hi

/-- **C52** violated for a range whose end overflows: the view reports the length `n` it was made with (view_fs.go 129), its handle less. -/
theorem C52_counterexample_length_overflow :
    newRanged 10 maxInt64 = some (10, maxInt64) ∧ (rrun (ofBuf ⟨[0, 1, 2], []⟩) (newSection 10 maxInt64) [.size]).map (·.1) = [.size (maxInt64 - 10)] := by
  constructor <;> rfl

/-- When the range lies inside the backing file, the file it shows has exactly `n` bytes: byte `i` is byte `off + i` of the backing file. -/
theorem C52_exact (c : Bytes) (off n : Nat) (h : off + n ≤ c.length) :
    (slice c off n).length = n ∧ ∀ i, i < n → (slice c off n)[i]? = c[off + i]? := by
  constructor
  · rw [slice_length]; omega
  · intro i hi; exact slice_getElem? c off n i hi

/-- A range of a range reads as a file again: the positioned reads of a handle satisfy the contract assumed of the backing file.
Missing from C52: as for `C52_section_partial`. -/
theorem C52_nests_partial (r : ReaderAt) (c : Bytes) (hr : Reads r c) (base n : Nat) (hfit : (base + n : Int) ≤ maxInt64) :
    Reads (fun k off => ((⟨base, base, base + n⟩ : Section).readAt r k off).1) (slice c base n) := by
  intro k off h0
  obtain ⟨pos', _, _, ⟨_, _, h3⟩, _⟩ := step_right hr (pos := 0) hfit (by omega) (.readAt k off) trivial
  obtain ⟨e, h4, h5, h6⟩ := h3 h0
  simp only [rstep] at h4
  rw [show ((base : Int) + (0 : Nat)) = base by omega] at h4
  simp only [RResp.data.injEq] at h4
  obtain ⟨h7, h8⟩ := h4
  exact ⟨h7, by rw [h8]; exact h5, fun hl => by rw [h8]; exact h6 hl⟩

/-- Bytes 2..6 of an eight-byte file. -/
example : (rrun (ofBuf ⟨[0, 1, 2, 3, 4, 5, 6, 7], []⟩) (newSection 2 4) [.read 3, .read 3, .read 3, .readAt 9 1, .seek (-1) 2, .read 4, .readAt 1 4, .size, .write [1]]).map (·.1)
    = [.data [2, 3, 4] none, .data [5] none, .data [] (some .eof), .data [3, 4, 5] (some .eof), .pos 3, .data [5] none, .data [] (some .eof), .size 4, .failed .rofs] := by decide

/-- The range is not checked against the backing file: ten bytes are announced, two can be read. -/
theorem C52_note_range_beyond_end : (rrun (ofBuf ⟨[0, 1, 2], []⟩) (newSection 1 10) [.size, .read 10, .read 10]).map (·.1)
    = [.size 10, .data [1, 2] (some .eof), .data [] (some .eof)] := by decide

end Verif.Synth.Ranged
