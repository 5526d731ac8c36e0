import Verif.Tarfs.SparseProps
/-
Property C34: reading a sparse member.
-/
namespace Verif.Tarfs
open Verif.Stream

/-! ## Specification vocabulary -/

/-- The contents of a sparse file of the given size: from position `lo` on, zeros up to the next fragment, then the fragment's
bytes, taken one after the other from the stored `body`, and zeros after the last fragment. -/
def expand (size : Int) : (lo : Int) → (body : Bytes) → List Frag → Bytes
  | lo, _, [] => List.replicate (size - lo).toNat 0
  | lo, body, f :: rest =>
    List.replicate (f.off - lo).toNat 0 ++ body.take f.len.toNat ++ expand size (f.off + f.len) (body.drop f.len.toNat) rest

/-- The byte at position `x` of the sparse file: `k` bytes of the body belong to earlier fragments. -/
def sparseByte (body : Bytes) : (k : Nat) → List Frag → (x : Int) → Option UInt8
  | _, [], _ => some 0
  | k, f :: rest, x =>
    if f.off ≤ x ∧ x < f.off + f.len then body[k + (x - f.off).toNat]?
    else sparseByte body (k + f.len.toNat) rest x

/-- Number of stored bytes. -/
def storedLen (sp : List Frag) : Int := (sp.map (·.len)).sum

/-- The `io.ReaderAt` contract over the contents `c`: reads are full, and a read that is not says so by EOF.  When the read ends
exactly at the end of the contents the error may be nil or EOF, differently at every call. -/
def FullReaderAt (R : ReaderFn) (c : Bytes) : Prop :=
  ∀ call len off, ∃ e, R call len off = (slice c off len, e) ∧ (e = none ∨ e = some .eof) ∧
    ((slice c off len).length < len → e = some .eof) ∧ (e = some .eof → c.length ≤ off + (slice c off len).length)

/-! ## Helpers -/

theorem section_delivers {R : ReaderFn} {c : Bytes} (h : FullReaderAt R c) (base n : Nat) (hb : base + n ≤ c.length) :
    Delivers (sectionAt R base n) (slice c base n) := by
  intro call len off
  have hsl : (slice c base n).length = n := by rw [slice_length]; omega
  unfold sectionAt
  by_cases h1 : n ≤ off
  · rw [if_pos h1]
    exact ⟨[], some .eof, rfl, by simp, by simp, Or.inr rfl, by intro _; rw [hsl]; simpa using h1, by simp⟩
  · rw [if_neg h1]
    have hin : ∀ l, l ≤ n - off → (slice c (base + off) l).length = l := by intro l hl; rw [slice_length]; omega
    have heq : ∀ l, l ≤ n - off → slice c (base + off) l = slice (slice c base n) off l := by
      intro l hl
      unfold slice
      rw [List.drop_take, List.take_take, List.drop_drop]
      congr 1; omega
    by_cases h2 : n - off < len
    · simp only [h2, if_true]
      obtain ⟨e, he, h3, h4, h5⟩ := h call (n - off) (base + off)
      rw [he]
      refine ⟨_, _, rfl, ?_, ?_, ?_, ?_, ?_⟩
      · rw [hin _ (Nat.le_refl _)]; exact heq _ (Nat.le_refl _)
      · rw [hin _ (Nat.le_refl _)]; omega
      · rcases h3 with rfl | rfl <;> simp
      · intro _; rw [hin _ (Nat.le_refl _), hsl]; omega
      · rcases h3 with rfl | rfl <;> simp
    · simp only [h2, if_false]
      obtain ⟨e, he, h3, h4, h5⟩ := h call len (base + off)
      rw [he]
      have hl : len ≤ n - off := by omega
      refine ⟨_, _, rfl, ?_, ?_, h3, ?_, ?_⟩
      · rw [hin _ hl]; exact heq _ hl
      · rw [hin _ hl]; omega
      · intro h6
        have := h5 h6
        rw [hin _ hl] at this ⊢
        rw [hsl]; omega
      · intro _ h7; rw [hin _ hl]; exact h7

theorem slice_replicate (n off l : Nat) (a : UInt8) : slice (List.replicate n a) off l = List.replicate (min l (n - off)) a := by
  simp [slice]

theorem zeros_delivers (n : Nat) : Delivers (sectionAt zeros 0 n) (List.replicate n 0) := by
  intro call len off
  unfold sectionAt zeros
  by_cases h1 : n ≤ off
  · rw [if_pos h1]
    exact ⟨[], some .eof, rfl, by simp, by simp, Or.inr rfl, by intro _; simpa using h1, by simp⟩
  · rw [if_neg h1]
    by_cases h2 : n - off < len
    · simp only [h2, if_true]
      refine ⟨_, _, rfl, ?_, ?_, Or.inr rfl, ?_, by simp⟩
      · rw [slice_replicate]; simp
      · simp; omega
      · intro _; simp; omega
    · simp only [h2, if_false]
      refine ⟨_, _, rfl, ?_, by simp, Or.inl rfl, by simp, by simp⟩
      rw [slice_replicate]; simp; omega

/-- The readers of `makeLoop` together with what they hold. -/
def loopParts (ra : ReaderFn) (arch : Bytes) (bodyStart : Nat) : (prev : Int) → (cur : Nat) → List Frag → List Part
  | _, _, [] => []
  | prev, cur, h :: rest =>
    let space := h.off - prev
    (if space ≠ 0 then [⟨sectionAt ra (bodyStart + cur) space.toNat, slice arch (bodyStart + cur) space.toNat, space.toNat⟩] else [])
      ++ ⟨sectionAt zeros 0 h.len.toNat, List.replicate h.len.toNat 0, h.len.toNat⟩
      :: loopParts ra arch bodyStart h.stop (if space ≠ 0 then cur + space.toNat else cur) rest

theorem loopParts_sized (ra : ReaderFn) (arch : Bytes) (bs : Nat) (H : List Frag) : ∀ prev cur,
    (loopParts ra arch bs prev cur H).map Part.sized = makeLoop ra bs prev cur H := by
  induction H with
  | nil => intros; rfl
  | cons h rest ih =>
    intro prev cur
    simp only [loopParts, makeLoop, List.map_append, List.map_cons, ih]
    congr 1
    split <;> simp [Part.sized]

theorem concat_append (a b : List Part) : concat (a ++ b) = concat a ++ concat b := by simp [concat]
theorem concat_cons (a : Part) (b : List Part) : concat (a :: b) = a.content ++ concat b := by simp [concat]

theorem expand_skip {size : Int} (sp : List Frag) (body : Bytes) {lo m : Int} (h1 : lo ≤ m) (h2 : m ≤ size)
    (hv : validateFrom size m sp = true) :
    expand size lo body sp = List.replicate (m - lo).toNat 0 ++ expand size m body sp := by
  cases sp with
  | nil =>
    simp only [expand]
    rw [List.replicate_append_replicate]; congr 1; omega
  | cons f rest =>
    rw [validateFrom_cons] at hv
    simp only [expand]
    rw [← List.append_assoc, ← List.append_assoc, List.replicate_append_replicate]
    congr 3; omega

theorem storedLen_cons (f : Frag) (rest : List Frag) : storedLen (f :: rest) = f.len + storedLen rest := by simp [storedLen]

theorem storedLen_nonneg {size pre : Int} {sp : List Frag} (hv : validateFrom size pre sp = true) : 0 ≤ storedLen sp := by
  induction sp generalizing pre with
  | nil => simp [storedLen]
  | cons f rest ih =>
    rw [validateFrom_cons] at hv
    have := ih hv.2
    rw [storedLen_cons]; omega

/-- The part made for one stretch of data. -/
theorem data_part {ra : ReaderFn} {arch : Bytes} (h : FullReaderAt ra arch) (bs cur : Nat) (space : Int) (hsp : 0 ≤ space)
    (hb : (bs : Int) + cur + space ≤ arch.length) (P : List Part)
    (hP : P = if space ≠ 0 then [⟨sectionAt ra (bs + cur) space.toNat, slice arch (bs + cur) space.toNat, space.toNat⟩] else []) :
    (∀ p ∈ P, p.Honest) ∧ concat P = slice arch (bs + cur) space.toNat := by
  subst hP
  by_cases h0 : space = 0
  · subst h0; simp [concat]
  · rw [if_pos h0]
    refine ⟨?_, by simp [concat]⟩
    intro p hp
    simp at hp; subst hp
    refine ⟨section_delivers h _ _ (by omega), ?_⟩
    simp only
    rw [slice_length]; omega

theorem zero_part (n : Nat) : (⟨sectionAt zeros 0 n, List.replicate n 0, n⟩ : Part).Honest := ⟨zeros_delivers n, by simp⟩

/-- The loop of `makeReader` over the holes that `invertSparseEntries` finds. -/
theorem loop_spec {ra : ReaderFn} {arch : Bytes} (hra : FullReaderAt ra arch) (bs : Nat) {size : Int} (sp : List Frag) :
    ∀ {prev lo pre : Int} (cur : Nat), prev ≤ lo → lo ≤ pre → pre ≤ size → validateFrom size pre sp = true →
    (bs : Int) + cur + (lo - prev) + storedLen sp ≤ arch.length →
    let H := (gaps lo sp).1 ++ [⟨(gaps lo sp).2, size - (gaps lo sp).2⟩]
    (∀ p ∈ loopParts ra arch bs prev cur H, p.Honest) ∧
    concat (loopParts ra arch bs prev cur H) =
      slice arch (bs + cur) (lo - prev).toNat ++ expand size lo (arch.drop (bs + cur + (lo - prev).toNat)) sp := by
  induction sp with
  | nil =>
    intro prev lo pre cur h1 h2 h3 _ hb
    simp only [gaps, List.nil_append, loopParts, expand]
    obtain ⟨d1, d2⟩ := data_part hra bs cur (lo - prev) (by omega) (by simp [storedLen] at hb; omega) _ rfl
    refine ⟨?_, ?_⟩
    · intro p hp
      rw [List.mem_append] at hp
      rcases hp with hp | hp
      · exact d1 p hp
      · simp at hp; subst hp; exact zero_part _
    · rw [concat_append, d2, concat_cons]; simp [concat]
  | cons f rest ih =>
    intro prev lo pre cur h1 h2 h3 hv hb
    rw [validateFrom_cons] at hv
    obtain ⟨⟨⟨⟨⟨a, b⟩, c⟩, d⟩, e⟩, hv⟩ := hv
    rw [storedLen_cons] at hb
    have hnn := storedLen_nonneg hv
    simp only [gaps, Frag.stop, expand]
    by_cases h0 : f.len = 0
    · simp only [h0, if_true]
      have hv' := hv
      rw [h0, Int.add_zero] at hv'
      obtain ⟨i1, i2⟩ := ih (prev := prev) (lo := lo) (pre := f.off) cur h1 (by omega) (by omega) hv' (by omega)
      refine ⟨i1, ?_⟩
      rw [i2, expand_skip rest _ (lo := lo) (m := f.off) (by omega) (by omega) hv']
      simp
    · simp only [h0, if_false]
      by_cases h4 : f.off - lo > 0
      · simp only [h4, if_true, List.cons_append, loopParts, Frag.stop]
        obtain ⟨d1, d2⟩ := data_part hra bs cur (lo - prev) (by omega) (by omega) _ rfl
        have hcur : (if lo - prev ≠ 0 then cur + (lo - prev).toNat else cur) = cur + (lo - prev).toNat := by
          split <;> omega
        rw [hcur]
        obtain ⟨i1, i2⟩ := ih (prev := f.off) (lo := f.off + f.len) (pre := f.off + f.len) (cur + (lo - prev).toNat)
          (by omega) (by omega) d hv (by omega)
        rw [show lo + (f.off - lo) = f.off by omega]
        refine ⟨?_, ?_⟩
        · intro p hp
          rw [List.mem_append, List.mem_cons] at hp
          rcases hp with hp | rfl | hp
          · exact d1 p hp
          · exact zero_part _
          · exact i1 p hp
        · rw [concat_append, concat_cons, d2, i2]
          simp only
          rw [show (f.off + f.len - f.off).toNat = f.len.toNat by omega]
          rw [List.append_assoc]
          congr 1; congr 1
          rw [List.drop_drop]
          rw [Nat.add_assoc bs cur]
          rfl
      · simp only [h4, if_false]
        have hlo : lo = f.off := by omega
        subst hlo
        obtain ⟨i1, i2⟩ := ih (prev := prev) (lo := f.off + f.len) (pre := f.off + f.len) cur (by omega) (by omega) d hv (by omega)
        refine ⟨i1, ?_⟩
        rw [i2]
        have e1 : (f.off + f.len - prev).toNat = (f.off - prev).toNat + f.len.toNat := by omega
        rw [e1, ← slice_add]
        simp only [Int.sub_self, Int.toNat_zero, List.replicate_zero, List.nil_append, List.append_assoc]
        congr 1; congr 1
        rw [List.drop_drop]
        congr 2; omega

theorem expand_length {size : Int} (sp : List Frag) : ∀ {lo pre : Int} (body : Bytes), lo ≤ pre → pre ≤ size →
    validateFrom size pre sp = true → storedLen sp ≤ body.length → (expand size lo body sp).length = (size - lo).toNat := by
  induction sp with
  | nil => intros; simp [expand]
  | cons f rest ih =>
    intro lo pre body h1 h2 hv hb
    rw [validateFrom_cons] at hv
    rw [storedLen_cons] at hb
    have hnn := storedLen_nonneg hv.2
    simp only [expand, List.length_append, List.length_replicate, List.length_take]
    rw [ih (lo := f.off + f.len) (pre := f.off + f.len) _ (by omega) (by omega) hv.2 (by rw [List.length_drop]; omega)]
    omega

theorem sparseByte_before {size : Int} (body : Bytes) (sp : List Frag) : ∀ {pre x : Int} (k : Nat), validateFrom size pre sp = true → x < pre →
    sparseByte body k sp x = some 0 := by
  induction sp with
  | nil => intros; rfl
  | cons f rest ih =>
    intro pre x k hv hx
    rw [validateFrom_cons] at hv
    simp only [sparseByte]
    rw [if_neg (by omega)]
    exact ih _ hv.2 (by omega)

theorem expand_byte {size : Int} (body : Bytes) (sp : List Frag) : ∀ {lo pre : Int} (k : Nat), lo ≤ pre → pre ≤ size →
    validateFrom size pre sp = true → k + storedLen sp ≤ body.length → ∀ x : Int, lo ≤ x → x < size →
    (expand size lo (body.drop k) sp)[(x - lo).toNat]? = sparseByte body k sp x := by
  induction sp with
  | nil =>
    intro lo pre k _ _ _ _ x hx1 hx2
    simp only [expand, sparseByte]
    rw [List.getElem?_replicate, if_pos (by omega)]
  | cons f rest ih =>
    intro lo pre k h1 h2 hv hb x hx1 hx2
    rw [validateFrom_cons] at hv
    rw [storedLen_cons] at hb
    have hnn := storedLen_nonneg hv.2
    simp only [expand, sparseByte]
    by_cases c1 : x < f.off
    · rw [if_neg (by omega), List.append_assoc, List.getElem?_append_left (by simp; omega), List.getElem?_replicate, if_pos (by omega)]
      exact (sparseByte_before body rest _ hv.2 (by omega)).symm
    · rw [List.append_assoc, List.getElem?_append_right (by simp; omega)]
      simp only [List.length_replicate]
      have e1 : (x - lo).toNat - (f.off - lo).toNat = (x - f.off).toNat := by omega
      rw [e1]
      by_cases c2 : x < f.off + f.len
      · rw [if_pos (by omega), List.getElem?_append_left (by simp; omega), List.getElem?_take]
        rw [if_pos (by omega), List.getElem?_drop]
      · rw [if_neg (by omega), List.getElem?_append_right (by simp; omega)]
        have hl : (List.take f.len.toNat (List.drop k body)).length = f.len.toNat := by simp; omega
        rw [hl]
        have := ih (lo := f.off + f.len) (pre := f.off + f.len) (k + f.len.toNat) (by omega) (by omega) hv.2 (by omega) x (by omega) hx2
        rw [List.drop_drop, ← this]
        congr 1
        omega

/-- The parts that `makeReader` builds for a sparse member. -/
theorem makeParts_spec {ra : ReaderFn} {arch : Bytes} (hra : FullReaderAt ra arch) (bs : Nat) (sp : List Frag) (size : Int)
    (hv : validate sp size = true) (hb : (bs : Int) + storedLen sp ≤ arch.length) :
    ∃ parts : List Part, makeParts ra bs (invert sp size) size = parts.map Part.sized ∧ (∀ p ∈ parts, p.Honest) ∧
      concat parts = expand size 0 (arch.drop bs) sp := by
  simp [validate] at hv
  obtain ⟨hs, hv⟩ := hv
  obtain ⟨h1, h2⟩ := loop_spec hra bs (size := size) sp (prev := 0) (lo := 0) (pre := 0) 0 (by omega) (by omega) hs hv (by simpa using hb)
  rw [← invert_eq] at h1 h2
  simp only [Int.sub_self, Int.toNat_zero, slice_zero_len, List.nil_append, Nat.add_zero] at h2
  refine ⟨loopParts ra arch bs 0 0 (invert sp size), ?_, h1, h2⟩
  unfold makeParts
  rw [loopParts_sized]
  have hlen : ((makeLoop ra bs 0 0 (invert sp size)).map (·.size)).sum = size.toNat := by
    have hc := concat_length (loopParts ra arch bs 0 0 (invert sp size)) (fun p hp => (h1 p hp).2)
    rw [h2, expand_length sp (lo := 0) (pre := 0) _ (by omega) hs hv (by rw [List.length_drop]; omega)] at hc
    rw [← loopParts_sized ra arch]
    simp only [List.map_map]
    unfold declaredTotal at hc
    rw [Int.sub_zero] at hc
    rw [hc]; rfl
  simp only [hlen]
  rw [if_neg (by omega)]

/-! ## C34 -/

/-- **C34.** What a sparse member reads as.  The archive holds `arch`, the member's stored body starts at `bodyStart` and is complete;
`sp` is any map archive/tar accepts for this size.  Then there is a byte string `file` of exactly `size` bytes whose byte at
every position is the stored one inside a data fragment and zero elsewhere, such that every `ReadAt` answers like that string
(out of range: EOF; otherwise exactly the bytes asked for, clipped at the end), and every history of `Read` and `Seek` calls is that
of a cursor over it. -/
theorem C34_sparse_reads (ra : ReaderFn) (arch : Bytes) (hra : FullReaderAt ra arch) (bodyStart : Nat) (sp : List Frag) (size : Int)
    (hmax : size ≤ maxInt64) (hv : validate sp size = true) (hb : (bodyStart : Int) + storedLen sp ≤ arch.length) :
    ∃ file : Bytes, file.length = size.toNat ∧
      (∀ x : Int, 0 ≤ x → x < size → file[x.toNat]? = sparseByte (arch.drop bodyStart) 0 sp x) ∧
      (∀ (call len fuel : Nat) (off : Int), len < fuel →
        ∃ bs e, (makeReader ra bodyStart (invert sp size) size).readAt fuel call len off = some (bs, e) ∧
          ((off < 0 ∨ size ≤ off) → bs = [] ∧ e = some .eof) ∧
          (0 ≤ off → off < size → bs = slice file off.toNat len ∧ (e = none ∨ e = some .eof) ∧ (e = none → bs.length = len) ∧
            (off + len < size → e = none) ∧ (size < off + len → e = some .eof))) ∧
      (∀ ops : List Op, (∀ o w, Op.seek o w ∈ ops → IsInt64 o) →
        ∃ outs, runOps (makeReader ra bodyStart (invert sp size) size) 0 ops = some outs ∧ outs.map (·.1) = ops ∧
          CursorExplains file 0 outs) := by
  obtain ⟨parts, hp, hon, hc⟩ := makeParts_spec hra bodyStart sp size hv hb
  have hv' := hv
  simp [validate] at hv'
  obtain ⟨hs, hvf⟩ := hv'
  have hlen : (concat parts).length = size.toNat := by
    rw [hc, expand_length sp (lo := 0) (pre := 0) _ (by omega) hs hvf (by rw [List.length_drop]; omega)]; simp
  refine ⟨concat parts, hlen, ?_, ?_, ?_⟩
  · intro x h1 h2
    have := expand_byte (size := size) (arch.drop bodyStart) sp (lo := 0) (pre := 0) 0 (by omega) hs hvf (by rw [List.length_drop]; omega) x h1 h2
    rw [List.drop_zero, Int.sub_zero] at this
    rw [hc, this]
  · intro call len fuel off hfuel
    obtain ⟨bs, e, h1, h2, h3⟩ := C01_readAt_is_concatenation parts hon call len off fuel hfuel
    refine ⟨bs, e, ?_, ?_, ?_⟩
    · unfold makeReader; rw [hp]; exact h1
    · intro h; exact h2 (by omega)
    · intro h h'
      obtain ⟨g1, g2, g3, g4, g5⟩ := h3 h (by omega)
      exact ⟨g1, g2, g3, fun h => g4 (by omega), fun h => g5 (by omega)⟩
  · intro ops hops
    obtain ⟨outs, h1, h2, h3⟩ := C02_history_is_cursor parts hon (by omega) ops hops
    exact ⟨outs, by unfold makeReader; rw [hp]; exact h1, h2, h3⟩

theorem fullReader_fullReaderAt (c : Bytes) : FullReaderAt (fullReader c) c := by
  intro call len off
  refine ⟨_, rfl, ?_, ?_, ?_⟩
  · split <;> simp
  · intro h; rw [if_pos h]
  · intro h
    split at h
    · rename_i h'
      rw [slice_length] at h' ⊢; omega
    · cases h

/-- Archive `xxabcdefgh`, body at 2, fragments 2..6 and 18..20 of a file of 25 bytes: the example of the documentation
(copied_go_std.go 48-66). -/
example : (makeReader (fullReader [88, 88, 97, 98, 99, 100, 101, 102, 103, 104]) 2 (invert [⟨2, 5⟩, ⟨18, 3⟩] 25) 25).readAt 100 0 50 0
    = some ([0, 0, 97, 98, 99, 100, 101, 0, 0, 0, 0, 0, 0, 0, 0, 0, 0, 0, 102, 103, 104, 0, 0, 0, 0], some .eof) := by decide

example : FullReaderAt (fullReader [88, 88, 97, 98, 99, 100, 101, 102, 103, 104]) [88, 88, 97, 98, 99, 100, 101, 102, 103, 104] ∧
    validate [⟨2, 5⟩, ⟨18, 3⟩] 25 = true ∧ (2 : Int) + storedLen [⟨2, 5⟩, ⟨18, 3⟩] ≤ 10 :=
  ⟨fullReader_fullReaderAt _, by decide, by decide⟩

/-- **C34, body end.** The end of the stored body that `Sections` computes from the holes is the start plus the stored
bytes, so that the next header is looked for in the right place. -/
theorem C34_body_end (sp : List Frag) (size headerEnd : Int) (hv : validate sp size = true) :
    bodyEnd headerEnd size (invert sp size) = headerEnd + storedLen sp := by
  simp [validate] at hv
  obtain ⟨hs, hv⟩ := hv
  have key : ∀ (sp : List Frag) (lo pre : Int), lo ≤ pre → pre ≤ size → validateFrom size pre sp = true →
      ((gaps lo sp).1.map (·.len)).sum + (size - (gaps lo sp).2) = size - lo - storedLen sp := by
    intro sp
    induction sp with
    | nil => intro lo pre _ _ _; simp [gaps, storedLen]
    | cons f rest ih =>
      intro lo pre h1 h2 hv
      rw [validateFrom_cons] at hv
      rw [storedLen_cons]
      simp only [gaps, Frag.stop]
      by_cases h0 : f.len = 0
      · simp only [h0, if_true]
        have := ih lo (f.off + f.len) (by omega) (by omega) hv.2
        omega
      · simp only [h0, if_false]
        have := ih (f.off + f.len) (f.off + f.len) (by omega) (by omega) hv.2
        by_cases h4 : f.off - lo > 0
        · simp only [h4, if_true, List.map_cons, List.sum_cons]
          omega
        · simp only [h4, if_false]
          omega
  have := key sp 0 0 (by omega) hs hv
  unfold bodyEnd
  rw [invert_eq]
  simp only [List.map_append, List.map_cons, List.map_nil, List.sum_append, List.sum_cons, List.sum_nil]
  omega

example : bodyEnd 512 25 (invert [⟨2, 5⟩, ⟨18, 3⟩] 25) = 520 := by decide

/-- **C34, ordinary members.** A member without a sparse map reads as its stored bytes. -/
theorem C34_plain_reads (ra : ReaderFn) (arch : Bytes) (hra : FullReaderAt ra arch) (bodyStart size : Nat)
    (hb : bodyStart + size ≤ arch.length) : Delivers (plainReader ra bodyStart size) (slice arch bodyStart size) :=
  section_delivers hra _ _ hb

end Verif.Tarfs
