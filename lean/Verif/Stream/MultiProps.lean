import Verif.Stream.MultiReadLemmas
/-
Properties C01-C04: the virtual concatenation of /repo/stream/multi_read_at_closer.go.
-/
namespace Verif.Stream

/-! ## C01 -/

/-- **C01.** `ReadAt` on the virtual concatenation of honest parts: it ends (no fuel beyond `len(p)+1` steps is needed),
out-of-range offsets give `(0, EOF)`, and otherwise the bytes are exactly `content[off : off+len(p)]` clipped to the
end, the error is nil or EOF, nil implies the buffer is full, EOF implies that the end was reached, and reads that end
strictly inside give nil, reads that ask for more than there is give EOF. -/
theorem C01_readAt_is_concatenation (parts : List Part) (hon : ∀ p ∈ parts, p.Honest)
    (call len : Nat) (off : Int) (fuel : Nat) (hfuel : len < fuel) :
    ∃ bs e, (newMulti (parts.map Part.sized)).readAt fuel call len off = some (bs, e) ∧
      ((off < 0 ∨ (concat parts).length ≤ off) → bs = [] ∧ e = some .eof) ∧
      (0 ≤ off → off < (concat parts).length →
        bs = slice (concat parts) off.toNat len ∧
        (e = none ∨ e = some .eof) ∧
        (e = none → bs.length = len) ∧
        (off.toNat + len < (concat parts).length → e = none) ∧
        ((concat parts).length < off.toNat + len → e = some .eof)) := by
  have hdec : ∀ p ∈ parts, p.declared = p.content.length := fun p hp => (hon p hp).2
  have hD : ∀ p ∈ parts, Delivers p.R p.content := fun p hp => (hon p hp).1
  have hcl := concat_length parts hdec
  have hlim := newMulti_limit parts
  by_cases hr : off < 0 ∨ (concat parts).length ≤ off
  · refine ⟨[], some .eof, ?_, by simp, by intros; omega⟩
    unfold Multi.readAt
    rw [if_pos (by rw [hlim]; omega)]
  · unfold Multi.readAt
    rw [if_neg (by rw [hlim]; omega)]
    simp only [hlim]
    obtain ⟨o, rfl⟩ : ∃ o : Nat, off = o := ⟨off.toNat, by omega⟩
    simp only [Int.toNat_natCast]
    -- the loop never ends in a size error for honest parts, and EOF means the true end
    have key : ∀ mx l, l < fuel → o + l ≤ declaredTotal parts →
        ∃ bs e, (newMulti (parts.map Part.sized)).readAtLoop mx fuel call l o [] =
            some (bs, if mx ∧ e = none then some .eof else e) ∧
          bs = slice (concat parts) o l ∧
          ((e = none) ∨ (e = some .eof ∧ o + bs.length = declaredTotal parts)) := by
      intro mx l hl hol
      obtain ⟨bs, e, hok, heq⟩ := readAtLoop_spec parts hD mx fuel call l o [] hl (by omega) hol
      refine ⟨bs, e, by simpa using heq, ?_⟩
      cases he : e with
      | none =>
        obtain ⟨h1, h2⟩ := hok.nil he
        exact ⟨h1 ▸ h2.eq_slice hdec, Or.inl rfl⟩
      | some x =>
        cases x with
        | eof =>
          obtain ⟨h1, h2, h3, h4, h5⟩ := hok.eof he
          rw [vbyte_honest parts hdec] at h4
          simp at h4
          have hle := hok.le
          have hbl : bs.length = l := by omega
          refine ⟨hbl ▸ h1.eq_slice hdec, Or.inr ⟨rfl, by omega⟩⟩
        | unexpectedEOF =>
          obtain ⟨h1, h2, h3⟩ := hok.unexpected he
          rw [vbyte_honest parts hdec] at h3
          simp at h3; omega
        | invalidSize =>
          obtain ⟨k, p, _, _, hp, hlt⟩ := hok.invalid he
          have := hdec p hp; omega
        | einval => exact absurd he hok.einval
        | other c => exact absurd he (hok.other c)
    by_cases hmax : len > declaredTotal parts - o
    · rw [if_pos hmax]
      obtain ⟨bs, e, heq, hbs, he⟩ := key true (declaredTotal parts - o) (by omega) (by omega)
      have he' : (if true = true ∧ e = none then some RErr.eof else e) = some .eof := by
        rcases he with h | h
        · simp [h]
        · simp [h.1]
      rw [he'] at heq
      refine ⟨bs, some .eof, heq, by intros; omega, fun _ _ => ?_⟩
      refine ⟨?_, Or.inr rfl, by simp, by intros; omega, by simp⟩
      rw [hbs, slice_clip (concat parts) o len]
      congr 1; omega
    · rw [if_neg hmax]
      obtain ⟨bs, e, heq, hbs, he⟩ := key false len (by omega) (by omega)
      simp at heq
      have hblen : bs.length = len := by rw [hbs, slice_length]; omega
      refine ⟨bs, e, heq, by intros; omega, fun _ _ => ⟨hbs, ?_, fun _ => hblen, ?_, by intros; omega⟩⟩
      · rcases he with h | h
        · exact Or.inl h
        · exact Or.inr h.1
      · intro hlt
        rcases he with h | h
        · exact h
        · omega

/-- The hypotheses of C01 are met by real readers, full or dribbling, with zero-size parts. -/
theorem fullReader_delivers (c : Bytes) : Delivers (fullReader c) c := by
  intro call len off
  refine ⟨_, _, rfl, ?_, ?_, ?_, ?_, ?_⟩
  · rw [slice_length]; exact slice_clip c off len
  · rw [slice_length]; omega
  · split <;> simp
  · split
    · rename_i h; rw [slice_length] at *; omega
    · simp
  · split
    · simp
    · rename_i h; omega

theorem dribbleReader_delivers (c : Bytes) : Delivers (dribbleReader c) c := by
  intro call len off
  refine ⟨_, _, rfl, ?_, ?_, ?_, ?_, ?_⟩
  · rw [slice_length]; exact slice_clip c off _
  · rw [slice_length]; omega
  · split <;> simp
  · split
    · rename_i h; rw [slice_length] at *; omega
    · simp
  · split
    · simp
    · rename_i h; omega

example : ∀ p ∈ ([⟨fullReader [1,2], [1,2], 2⟩, ⟨fullReader [], [], 0⟩, ⟨dribbleReader [3,4,5], [3,4,5], 3⟩] : List Part),
    p.Honest := by
  intro p hp
  simp at hp
  rcases hp with rfl | rfl | rfl
  · exact ⟨fullReader_delivers _, rfl⟩
  · exact ⟨fullReader_delivers _, rfl⟩
  · exact ⟨dribbleReader_delivers _, rfl⟩

example : (newMulti (([⟨fullReader [1,2], [1,2], 2⟩, ⟨fullReader [], [], 0⟩, ⟨dribbleReader [3,4,5], [3,4,5], 3⟩] : List Part).map
    Part.sized)).readAt 20 0 4 1 = some ([2,3,4,5], none) := by decide

/-! ## C03 -/

/-- **C03.** The segment chosen for an offset is the one whose declared byte range contains it. -/
theorem C03_search_exact (segs : List Sized) (off i : Nat) :
    search off (translate 0 segs) = some i ↔
      i < segs.length ∧ ((segs.take i).map (·.size)).sum ≤ off ∧ off < ((segs.take (i+1)).map (·.size)).sum := by
  have hsum : ∀ i s, segs[i]? = some s →
      ((segs.take (i+1)).map (·.size)).sum = ((segs.take i).map (·.size)).sum + s.size := by
    intro i s hs
    rw [List.take_add_one, hs]; simp
  constructor
  · intro h
    obtain ⟨r, hr, hh⟩ := search_some h
    rw [translate_getElem?] at hr
    simp at hr
    obtain ⟨s, hs, rfl⟩ := hr
    have h2 := hsum i s hs
    simp only [Holds, sizeSum] at hh
    rw [h2]
    exact ⟨(List.getElem?_eq_some_iff.mp hs).1, hh.1, hh.2⟩
  · rintro ⟨hi, h1, h2⟩
    have hs : segs[i]? = some segs[i] := List.getElem?_eq_some_iff.mpr ⟨hi, rfl⟩
    rw [hsum i _ hs] at h2
    refine search_eq_of_holds (translate_ordered 0 segs) (r := ⟨segs[i].R, segs[i].size, sizeSum (segs.take i)⟩) ?_ ⟨h1, h2⟩
    rw [translate_getElem?, hs]; simp

/-- **C03.** Not found means outside the concatenation, and the two strategies always agree, whatever the number of segments. -/
theorem C03_search_total (segs : List Sized) (off : Nat) :
    (search off (translate 0 segs) = none ↔ (segs.map (·.size)).sum ≤ off) ∧
    linearSearch off (translate 0 segs) = binarySearch off (translate 0 segs) := by
  constructor
  · constructor
    · intro h
      rcases Nat.lt_or_ge off (segs.map (·.size)).sum with hlt | hge
      · obtain ⟨i, r, hs, _⟩ := search_translate 0 segs off (by omega) (by simpa [sizeSum] using hlt)
        rw [hs] at h; simp at h
      · exact hge
    · intro h
      cases hs : search off (translate 0 segs) with
      | none => rfl
      | some i =>
        obtain ⟨r, hr, hh⟩ := search_some hs
        have := holds_bound hr hh
        simp [sizeSum] at this; omega
  · have ho := translate_ordered 0 segs
    cases h1 : linearSearch off (translate 0 segs) with
    | none =>
      cases h2 : binarySearch off (translate 0 segs) with
      | none => rfl
      | some j =>
        obtain ⟨r, hr, hh⟩ := binarySearch_some h2
        exact absurd hh (linearSearch_none h1 r (List.mem_iff_getElem?.mpr ⟨j, hr⟩))
    | some i =>
      obtain ⟨r, hr, hh⟩ := linearSearch_some h1
      cases h2 : binarySearch off (translate 0 segs) with
      | none => exact absurd hh (binarySearch_none ho h2 r (List.mem_iff_getElem?.mpr ⟨i, hr⟩))
      | some j =>
        obtain ⟨r', hr', hh'⟩ := binarySearch_some h2
        rw [holds_unique ho hr hr' hh hh']

example : binarySearch 3 (translate 0 [⟨fullReader [], 2⟩, ⟨fullReader [], 0⟩, ⟨fullReader [], 3⟩]) = some 2 := by
  simp [binarySearch, bsLoop, translate, segCmp]

/-! ## C02 -/

/-- Calls a user makes on the reader. -/
inductive Op where
  | read (len : Nat)
  | seek (offset : Int) (w : Whence)

/-- What a call returned. -/
inductive Out where
  | read (bs : Bytes) (e : Option RErr)
  | seek (r : Except RErr Nat)

/-- The exact (unbounded) position a Seek asks for, with the cursor at `pos` in a string of `size` bytes; -1 for a bad whence. -/
def seekTarget (size pos : Nat) (offset : Int) : Whence → Int
  | .start => offset
  | .current => pos + offset
  | .end_ => size + offset
  | .bad => -1

/-- Specification: a single cursor over one byte string `c`, currently at `pos`, explains the observed history. -/
def CursorExplains (c : Bytes) : Nat → List (Op × Out) → Prop
  | _, [] => True
  | pos, (.read len, .read bs e) :: rest =>
    (if c.length ≤ pos then bs = [] ∧ e = some .eof
     else bs = slice c pos bs.length ∧ bs.length ≤ len ∧ (0 < len → 0 < bs.length) ∧
       (e = none ∨ (e = some .eof ∧ pos + bs.length = c.length))) ∧
    CursorExplains c (pos + bs.length) rest
  | pos, (.seek offset w, .seek r) :: rest =>
    if seekTarget c.length pos offset w < 0 ∨ maxInt64 < seekTarget c.length pos offset w then
      r = .error .einval ∧ CursorExplains c pos rest
    else r = .ok (seekTarget c.length pos offset w).toNat ∧ CursorExplains c (seekTarget c.length pos offset w).toNat rest
  | _, _ :: _ => False

/-- The observed history of running the calls on the model; `none` if some call panics. -/
def runOps (m : Multi) (call : Nat) : List Op → Option (List (Op × Out))
  | [] => some []
  | .read len :: rest =>
    match m.read call len with
    | none => none
    | some (m', bs, e) => (runOps m' (call + 1) rest).map ((.read len, .read bs e) :: ·)
  | .seek o w :: rest =>
    match m.seek o w with
    | none => none
    | some (m', r) => (runOps m' (call + 1) rest).map ((.seek o w, .seek r) :: ·)

/-- Invariant tying the reader's cached index to its offset. -/
structure MultiInv (parts : List Part) (m : Multi) : Prop where
  r : m.r = translate 0 (parts.map Part.sized)
  lim : m.upperLimit = declaredTotal parts
  idx : m.off < m.upperLimit → declaredTotal (parts.take m.idx) ≤ m.off

theorem read_step (parts : List Part) (hon : ∀ p ∈ parts, p.Honest) (m : Multi) (inv : MultiInv parts m) (call len : Nat) :
    ∃ m' bs e, m.read call len = some (m', bs, e) ∧ MultiInv parts m' ∧ m'.off = m.off + bs.length ∧
      (if (concat parts).length ≤ m.off then bs = [] ∧ e = some .eof
       else bs = slice (concat parts) m.off bs.length ∧ bs.length ≤ len ∧ (0 < len → 0 < bs.length) ∧
         (e = none ∨ (e = some .eof ∧ m.off + bs.length = (concat parts).length))) := by
  have hdec : ∀ p ∈ parts, p.declared = p.content.length := fun p hp => (hon p hp).2
  have hcl := concat_length parts hdec
  unfold Multi.read
  by_cases hge : m.off ≥ m.upperLimit
  · rw [if_pos hge]
    refine ⟨m, [], some .eof, rfl, inv, by simp, ?_⟩
    rw [if_pos (by rw [hcl, ← inv.lim]; exact hge)]; simp
  · rw [if_neg hge]
    have hidx := inv.idx (by omega)
    have hlt : m.off < declaredTotal parts := by rw [← inv.lim]; omega
    have hdr : m.r.drop m.idx = translate (0 + declaredTotal (parts.take m.idx)) ((parts.drop m.idx).map Part.sized) := by
      rw [inv.r, translate_drop, ← List.map_take, sizeSum_sized, ← List.map_drop]
    rw [hdr]
    have htd : declaredTotal parts = declaredTotal (parts.take m.idx) + declaredTotal (parts.drop m.idx) := by
      rw [← declaredTotal_append, List.take_append_drop]
    obtain ⟨i, r, hs, hr, hh⟩ := search_translate (0 + declaredTotal (parts.take m.idx)) ((parts.drop m.idx).map Part.sized)
      m.off (by omega) (by rw [sizeSum_sized]; omega)
    rw [hs]
    simp only [hr]
    rw [translate_getElem?] at hr
    simp only [List.getElem?_map, Option.map_map, Option.map_eq_some_iff, Function.comp] at hr
    obtain ⟨p, hp, rfl⟩ := hr
    rw [List.getElem?_drop] at hp
    rw [← List.map_take, sizeSum_sized, Nat.zero_add] at *
    have htake : declaredTotal (parts.take m.idx) + declaredTotal ((parts.drop m.idx).take i) =
        declaredTotal (parts.take (m.idx + i)) := by
      rw [List.take_add, declaredTotal_append]
    simp only [Holds, Part.sized] at hh
    simp only [Part.sized]
    rw [htake] at hh ⊢
    have hpm : p ∈ parts := List.mem_iff_getElem?.mpr ⟨_, hp⟩
    obtain ⟨⟨b, e, hR, hb, hlen, he, heof, hprog⟩, hpd⟩ : (∃ b e, _) ∧ _ :=
      ⟨(hon p hpm).1 call len (m.off - declaredTotal (parts.take (m.idx + i))), hdec p hpm⟩
    simp only [hR]
    generalize hH : declaredTotal (parts.take (m.idx + i)) = H at *
    have hblen : b.length ≤ p.content.length - (m.off - H) := by
      have := congrArg List.length hb
      rw [slice_length] at this; omega
    have hslice : b = slice (concat parts) m.off b.length := by
      have hAg : AgreesAt parts m.off b := by
        intro j hj
        rw [vbyte_at parts (m.idx + i) p (m.off + j) hp (by omega) (by omega), hH, hb, slice_getElem? _ _ _ _ hj]
        congr 1; omega
      exact hAg.eq_slice hdec
    have htot : declaredTotal parts = H + p.declared + declaredTotal (parts.drop (m.idx + i + 1)) := by
      have : parts = parts.take (m.idx + i) ++ p :: parts.drop (m.idx + i+1) := by
        obtain ⟨h1, h2⟩ := List.getElem?_eq_some_iff.mp hp
        rw [← h2, List.getElem_cons_drop, List.take_append_drop]
      conv => lhs; rw [this]
      simp only [declaredTotal, List.map_append, List.sum_append, List.map_cons, List.sum_cons] at *
      omega
    have hpos : 0 < len → 0 < b.length := by
      intro hl
      rcases he with h | h
      · exact hprog h hl
      · have := heof h; omega
    -- whatever branch: state
    have hinv' : MultiInv parts (if b.length > 0 ∨ e = some RErr.eof then { m with idx := m.idx + i, off := m.off + b.length } else m) := by
      split
      · refine ⟨inv.r, inv.lim, ?_⟩
        intro _
        simp only; rw [hH]; omega
      · exact inv
    have hoff' : (if b.length > 0 ∨ e = some RErr.eof then { m with idx := m.idx + i, off := m.off + b.length } else m).off
        = m.off + b.length := by
      split
      · rfl
      · rename_i hc
        have : b.length = 0 := by omega
        omega
    have hidx' : e = some RErr.eof →
        (if b.length > 0 ∨ e = some RErr.eof then { m with idx := m.idx + i, off := m.off + b.length } else m).idx = m.idx + i := by
      intro h; rw [if_pos (Or.inr h)]
    generalize (if b.length > 0 ∨ e = some RErr.eof then { m with idx := m.idx + i, off := m.off + b.length } else m) = m'
      at hinv' hoff' hidx' ⊢
    have hcls : ∃ e', classify (p.declared - (m.off - H)) (decide (m.r.length ≤ m'.idx + 1)) b e = (b, e') ∧
        (e' = none ∨ (e' = some .eof ∧ m.off + b.length = (concat parts).length)) := by
      unfold classify
      have he1 : ¬ (e ≠ none ∧ e ≠ some RErr.eof) := by
        rcases he with h | h <;> simp [h]
      rw [if_neg he1, if_neg (by omega)]
      split
      · rename_i hc
        have := heof hc.1; omega
      · split
        · exact ⟨none, rfl, Or.inl rfl⟩
        · rename_i h1 h2
          refine ⟨e, rfl, ?_⟩
          rcases he with h | h
          · exact Or.inl h
          · right
            refine ⟨h, ?_⟩
            have h3 := heof h
            rw [hidx' h] at h2
            rw [h] at h2
            simp [inv.r] at h2
            have h4 : parts.drop (m.idx + i + 1) = [] := List.drop_eq_nil_of_le (by omega)
            rw [h4] at htot
            simp [declaredTotal] at htot
            rw [hcl]; simp [declaredTotal]; omega
    obtain ⟨e', hcls, he'⟩ := hcls
    refine ⟨m', b, e', by rw [hcls], hinv', hoff', ?_⟩
    rw [if_neg (by omega)]
    exact ⟨hslice, hlen, hpos, he'⟩

theorem seek_step (parts : List Part) (m : Multi) (inv : MultiInv parts m) (hmax : (declaredTotal parts : Int) ≤ maxInt64)
    (hoff : (m.off : Int) ≤ maxInt64) (o : Int) (ho : IsInt64 o) (w : Whence) :
    ∃ m' r, m.seek o w = some (m', r) ∧ MultiInv parts m' ∧ (m'.off : Int) ≤ maxInt64 ∧
      (if seekTarget (declaredTotal parts) m.off o w < 0 ∨ maxInt64 < seekTarget (declaredTotal parts) m.off o w then
        r = .error .einval ∧ m' = m
       else r = .ok (seekTarget (declaredTotal parts) m.off o w).toNat ∧
        m'.off = (seekTarget (declaredTotal parts) m.off o w).toNat) := by
  have hw : ∀ a : Nat, (a : Int) ≤ maxInt64 → (wrap64 (o + a) < 0 ↔ (a + o < 0 ∨ maxInt64 < a + o)) ∧
      (0 ≤ (a : Int) + o → a + o ≤ maxInt64 → wrap64 (o + a) = a + o) := by
    intro a ha
    unfold IsInt64 at ho
    by_cases h0 : 0 ≤ o
    · have := wrap64_add_nonneg h0 (Int.natCast_nonneg a) ho.2 ha
      constructor
      · constructor
        · intro h
          by_cases h2 : maxInt64 < a + o
          · exact Or.inr h2
          · have := this.1 (by omega); omega
        · rintro (h | h)
          · omega
          · exact this.2 (by omega)
      · intro _ h; rw [this.1 (by omega)]; omega
    · have : wrap64 (o + a) = o + a := by
        apply wrap64_of_isInt64
        unfold IsInt64 minInt64 maxInt64 at *
        omega
      rw [this]
      unfold maxInt64 at *
      constructor
      · constructor
        · intro h; omega
        · rintro (h | h) <;> omega
      · intros; omega
  -- the common tail
  have tail : ∀ t : Int, 0 ≤ t → t ≤ maxInt64 →
      ∃ m' r, (if t.toNat ≥ m.upperLimit then some ({ m with off := t.toNat, idx := m.r.length }, Except.ok t.toNat)
        else match search t.toNat m.r with
          | none => none
          | some i => some ({ m with off := t.toNat, idx := i }, .ok t.toNat)) = some (m', r) ∧ MultiInv parts m' ∧
        (m'.off : Int) ≤ maxInt64 ∧ r = (.ok t.toNat : Except RErr Nat) ∧ m'.off = t.toNat := by
    intro t h0 h1
    split
    · rename_i hge
      refine ⟨_, _, rfl, ⟨inv.r, inv.lim, ?_⟩, by simp only; omega, rfl, rfl⟩
      intro h; simp only at h; omega
    · rename_i hlt
      obtain ⟨i, r, hs, hr, hh⟩ := search_translate 0 (parts.map Part.sized) t.toNat (by omega)
        (by rw [sizeSum_sized, ← inv.lim]; omega)
      rw [inv.r, hs]
      refine ⟨_, _, rfl, ⟨inv.r ▸ rfl, inv.lim, ?_⟩, by simp only; omega, rfl, rfl⟩
      intro _
      simp only
      rw [translate_getElem?] at hr
      simp at hr
      obtain ⟨p, hp, rfl⟩ := hr
      rw [← List.map_take, sizeSum_sized] at hh
      simp only [Holds] at hh
      exact hh.1
  have hlim := inv.lim
  cases w with
  | bad => exact ⟨m, .error .einval, by simp [Multi.seek], inv, hoff, by simp [seekTarget]⟩
  | start =>
    have hT : seekTarget (declaredTotal parts) m.off o .start = o := rfl
    rw [hT]
    simp only [Multi.seek]
    by_cases h : o < 0
    · rw [if_pos h]
      exact ⟨m, _, rfl, inv, hoff, by rw [if_pos (Or.inl h)]; simp⟩
    · rw [if_neg h]
      obtain ⟨m', r, h1, h2, h3, h4, h5⟩ := tail o (by omega) ho.2
      refine ⟨m', r, h1, h2, h3, ?_⟩
      rw [if_neg (by have := ho.2; omega)]
      exact ⟨h4, h5⟩
  | current =>
    have hT : seekTarget (declaredTotal parts) m.off o .current = m.off + o := rfl
    rw [hT]
    simp only [Multi.seek]
    have hc := hw m.off hoff
    by_cases h : wrap64 (o + m.off) < 0
    · rw [if_pos h]
      exact ⟨m, _, rfl, inv, hoff, by rw [if_pos (hc.1.mp h)]; simp⟩
    · rw [if_neg h]
      have hn := mt hc.1.mpr h
      have he := hc.2 (by omega) (by omega)
      rw [he]
      obtain ⟨m', r, h1, h2, h3, h4, h5⟩ := tail (m.off + o) (by omega) (by omega)
      refine ⟨m', r, h1, h2, h3, ?_⟩
      rw [if_neg hn]
      exact ⟨h4, h5⟩
  | end_ =>
    have hT : seekTarget (declaredTotal parts) m.off o .end_ = declaredTotal parts + o := rfl
    rw [hT]
    simp only [Multi.seek]
    have hc := hw m.upperLimit (by rw [hlim]; exact hmax)
    by_cases h : wrap64 (o + m.upperLimit) < 0
    · rw [if_pos h]
      exact ⟨m, _, rfl, inv, hoff, by rw [if_pos (by rw [← hlim]; exact hc.1.mp h)]; simp⟩
    · rw [if_neg h]
      have hn := mt hc.1.mpr h
      have he := hc.2 (by omega) (by omega)
      rw [he]
      obtain ⟨m', r, h1, h2, h3, h4, h5⟩ := tail (m.upperLimit + o) (by omega) (by omega)
      refine ⟨m', r, h1, h2, h3, ?_⟩
      rw [← hlim, if_neg hn]
      exact ⟨h4, h5⟩

/-- **C02.** Every history of `Read` and `Seek` calls on the virtual concatenation of honest parts is explained by a single
cursor over the concatenated bytes; no call panics.  Seek offsets range over all int64 values (the sums wrap in the code). -/
theorem C02_history_is_cursor (parts : List Part) (hon : ∀ p ∈ parts, p.Honest)
    (hmax : ((concat parts).length : Int) ≤ maxInt64) (ops : List Op)
    (hops : ∀ o w, Op.seek o w ∈ ops → IsInt64 o) :
    ∃ outs, runOps (newMulti (parts.map Part.sized)) 0 ops = some outs ∧ outs.map (·.1) = ops ∧
      CursorExplains (concat parts) 0 outs := by
  have hdec : ∀ p ∈ parts, p.declared = p.content.length := fun p hp => (hon p hp).2
  have hcl := concat_length parts hdec
  have gen : ∀ (ops : List Op) (m : Multi) (call : Nat), MultiInv parts m → (m.off : Int) ≤ maxInt64 →
      (∀ o w, Op.seek o w ∈ ops → IsInt64 o) →
      ∃ outs, runOps m call ops = some outs ∧ outs.map (·.1) = ops ∧ CursorExplains (concat parts) m.off outs := by
    intro ops
    induction ops with
    | nil => intro m call _ _ _; exact ⟨[], rfl, rfl, trivial⟩
    | cons op rest ih =>
      intro m call inv hoff hops
      cases op with
      | read len =>
        obtain ⟨m', bs, e, hr, inv', hoff', hspec⟩ := read_step parts hon m inv call len
        have hoffm : (m'.off : Int) ≤ maxInt64 := by
          rw [hoff']
          split at hspec
          · rw [hspec.1]; simpa using hoff
          · have := congrArg List.length hspec.1
            rw [slice_length] at this; omega
        obtain ⟨outs, h1, h2, h3⟩ := ih m' (call + 1) inv' hoffm (fun o w h => hops o w (by simp [h]))
        refine ⟨(.read len, .read bs e) :: outs, by simp [runOps, hr, h1], by simp [h2], ?_⟩
        unfold CursorExplains
        exact ⟨hspec, hoff' ▸ h3⟩
      | seek o w =>
        obtain ⟨m', r, hr, inv', hoff', hspec⟩ := seek_step parts m inv (by omega) hoff o (hops o w (by simp)) w
        obtain ⟨outs, h1, h2, h3⟩ := ih m' (call + 1) inv' hoff' (fun o w h => hops o w (by simp [h]))
        refine ⟨(.seek o w, .seek r) :: outs, by simp [runOps, hr, h1], by simp [h2], ?_⟩
        unfold CursorExplains
        rw [hcl]
        split
        · rename_i hc
          rw [if_pos hc] at hspec
          exact ⟨hspec.1, hspec.2 ▸ h3⟩
        · rename_i hc
          rw [if_neg hc] at hspec
          exact ⟨hspec.1, hspec.2 ▸ h3⟩
  refine gen ops _ 0 ⟨rfl, newMulti_limit parts, ?_⟩ (by simp [newMulti, maxInt64]) hops
  intro _; simp [newMulti, declaredTotal]

/-- **C02, corollary.** Reads only, until the first EOF: the bytes delivered are exactly the concatenation. -/
theorem C02_read_all (parts : List Part) (hon : ∀ p ∈ parts, p.Honest)
    (hmax : ((concat parts).length : Int) ≤ maxInt64) (lens : List Nat) (lastLen : Nat)
    (outs : List (Op × Out)) (bs : Bytes)
    (hrun : runOps (newMulti (parts.map Part.sized)) 0 (lens.map .read ++ [.read lastLen]) =
      some (outs ++ [(.read lastLen, .read bs (some .eof))])) :
    (outs.flatMap (fun o => match o.2 with | .read b _ => b | _ => [])) ++ bs = concat parts := by
  obtain ⟨outs', h1, h2, h3⟩ := C02_history_is_cursor parts hon hmax (lens.map .read ++ [.read lastLen]) (by simp)
  rw [hrun] at h1
  simp at h1
  subst h1
  have gen : ∀ (outs : List (Op × Out)) (pos : Nat), pos ≤ (concat parts).length →
      (∀ o ∈ outs, ∃ l, o.1 = .read l) →
      CursorExplains (concat parts) pos (outs ++ [(.read lastLen, .read bs (some .eof))]) →
      (outs.flatMap (fun o => match o.2 with | .read b _ => b | _ => [])) ++ bs = (concat parts).drop pos := by
    intro outs
    induction outs with
    | nil =>
      intro pos hp _ h
      simp only [List.nil_append, CursorExplains] at h
      simp
      obtain ⟨h, -⟩ := h
      split at h
      · rw [h.1, List.drop_eq_nil_of_le (by omega)]
      · obtain ⟨h1, _, _, h4⟩ := h
        simp at h4
        rw [h1, slice]
        rw [List.take_of_length_le]
        simp; omega
    | cons o rest ih =>
      intro pos hp hr h
      obtain ⟨op, out⟩ := o
      obtain ⟨l, hl⟩ := hr _ (List.mem_cons_self ..)
      simp at hl; subst hl
      cases out with
      | seek r => simp [CursorExplains] at h
      | read b e =>
        rw [List.cons_append] at h
        simp only [CursorExplains] at h
        obtain ⟨h1, h2⟩ := h
        have hb : b = slice (concat parts) pos b.length ∧ pos + b.length ≤ (concat parts).length := by
          split at h1
          · rw [h1.1]; simp; omega
          · refine ⟨h1.1, ?_⟩
            have := congrArg List.length h1.1
            rw [slice_length] at this; omega
        have := ih (pos + b.length) hb.2 (fun o ho => hr o (by simp [ho])) h2
        simp only [List.flatMap_cons, List.append_assoc, this]
        conv => lhs; lhs; rw [hb.1]
        unfold slice
        rw [← List.drop_drop, List.take_append_drop]
  have := gen outs 0 (by omega) ?_ h3
  · simpa using this
  · intro o ho
    have hm : o.1 ∈ lens.map Op.read ++ [.read lastLen] := by
      rw [← h2]; simp; exact Or.inl ⟨o.2, ho⟩
    simp at hm
    rcases hm with ⟨a, _, h⟩ | h
    · exact ⟨a, h.symm⟩
    · exact ⟨_, h⟩

example : runOps (newMulti (([⟨fullReader [1,2], [1,2], 2⟩, ⟨fullReader [], [], 0⟩, ⟨dribbleReader [3,4,5], [3,4,5], 3⟩] : List Part).map
      Part.sized)) 0 [.read 9, .seek (-1) .end_, .read 4]
    = some [(.read 9, .read [1,2] none), (.seek (-1) .end_, .seek (.ok 4)), (.read 4, .read [5] none)] := by
  rfl

/-! ## C04 -/

/-- **C04 (partial).** Parts whose content disagrees with the declared size, with readers that otherwise behave.
Whatever the read window inside the declared extent:
* a nil error means the buffer is full and every byte is the one the declared layout puts there;
* `io.ErrUnexpectedEOF` means that the byte right after those returned is missing from its part;
* `ErrInvalidSize` is reported only if some part holds more than declared, and the bytes before its declared end are right;
* `io.EOF` means the end was reached or the missing byte is in the *last* part.

Missing from the English property: (1) a short *last* part is reported as a plain `io.EOF`, see
`C04_counterexample_short_last`; (2) on `ErrInvalidSize` the returned count includes surplus bytes, see
`C04_counterexample_surplus`. -/
theorem C04_size_mismatch_partial (parts : List Part) (hD : ∀ p ∈ parts, Delivers p.R p.content)
    (call len off fuel : Nat) (hfuel : len < fuel) (hoff : off < declaredTotal parts) :
    ∃ bs e, (newMulti (parts.map Part.sized)).readAt fuel call len off = some (bs, e) ∧
      (e = none → bs.length = len) ∧
      (e ≠ some .invalidSize → ∀ j, j < bs.length → vbyte parts (off + j) = bs[j]?) ∧
      (e = some .unexpectedEOF → vbyte parts (off + bs.length) = none ∧ off + bs.length < declaredTotal parts) ∧
      (e = some .invalidSize → ∃ k p, k < bs.length ∧ (∀ j, j < k → vbyte parts (off + j) = bs[j]?) ∧
        p ∈ parts ∧ p.declared < p.content.length) ∧
      (e = some .eof → off + bs.length = declaredTotal parts ∨
        (vbyte parts (off + bs.length) = none ∧ declaredTotal parts.dropLast ≤ off + bs.length)) ∧
      (e = none ∨ e = some .eof ∨ e = some .unexpectedEOF ∨ e = some .invalidSize) := by
  have hlim := newMulti_limit parts
  unfold Multi.readAt
  rw [if_neg (by rw [hlim]; omega)]
  simp only [hlim, Int.toNat_natCast]
  have key : ∀ mx l, l < fuel → off + l ≤ declaredTotal parts → (mx = true → off + l = declaredTotal parts) →
      (mx = false → l = len) →
      ∃ bs e, (newMulti (parts.map Part.sized)).readAtLoop mx fuel call l off [] = some (bs, e) ∧
      (e = none → bs.length = len) ∧
      (e ≠ some .invalidSize → ∀ j, j < bs.length → vbyte parts (off + j) = bs[j]?) ∧
      (e = some .unexpectedEOF → vbyte parts (off + bs.length) = none ∧ off + bs.length < declaredTotal parts) ∧
      (e = some .invalidSize → ∃ k p, k < bs.length ∧ (∀ j, j < k → vbyte parts (off + j) = bs[j]?) ∧
        p ∈ parts ∧ p.declared < p.content.length) ∧
      (e = some .eof → off + bs.length = declaredTotal parts ∨
        (vbyte parts (off + bs.length) = none ∧ declaredTotal parts.dropLast ≤ off + bs.length)) ∧
      (e = none ∨ e = some .eof ∨ e = some .unexpectedEOF ∨ e = some .invalidSize) := by
    intro mx l hl hol hmx hmx'
    obtain ⟨bs, e, hok, heq⟩ := readAtLoop_spec parts hD mx fuel call l off [] hl hoff hol
    rw [List.nil_append] at heq
    refine ⟨bs, _, heq, ?_⟩
    cases he : e with
    | none =>
      obtain ⟨h1, h2⟩ := hok.nil he
      cases mx with
      | true => simp; exact ⟨h2, by have := hmx rfl; left; omega⟩
      | false => simp; exact ⟨by have := hmx' rfl; omega, h2⟩
    | some x =>
      cases x with
      | eof =>
        obtain ⟨h1, h2, h3, h4, h5⟩ := hok.eof he
        simp; exact ⟨h1, Or.inr ⟨h4, h5⟩⟩
      | unexpectedEOF =>
        obtain ⟨h1, h2, h3⟩ := hok.unexpected he
        simp; exact ⟨h1, h3, h2⟩
      | invalidSize =>
        obtain ⟨k, p, hk, hag, hp, hlt⟩ := hok.invalid he
        simp
        refine ⟨k, hk, ?_, p, hp, hlt⟩
        intro j hj
        have := hag j (by simp; omega)
        rw [this, List.getElem?_take_of_lt hj]
      | einval => exact absurd he hok.einval
      | other c => exact absurd he (hok.other c)
  split
  · exact key true _ (by omega) (by omega) (by intros; omega) (by simp)
  · exact key false len (by omega) (by omega) (by simp) (by simp)

/-- The hypotheses of `C04_size_mismatch_partial` are met by parts that are too short and too long. -/
example : (∀ p ∈ ([⟨fullReader [1], [1], 2⟩, ⟨fullReader [3,4,5], [3,4,5], 2⟩] : List Part), Delivers p.R p.content) ∧
    (newMulti (([⟨fullReader [1], [1], 2⟩, ⟨fullReader [3,4,5], [3,4,5], 2⟩] : List Part).map Part.sized)).readAt 9 0 3 0
      = some ([1], some .unexpectedEOF) := by
  constructor
  · intro p hp; simp at hp
    rcases hp with rfl | rfl <;> exact fullReader_delivers _
  · decide

/-- A short last part is *not* reported: a contract-abiding reader that holds 1 byte where 3 were declared makes `ReadAt` end with a
plain `io.EOF` after 3 of 5 declared bytes, and `Read` likewise, so `io.ReadAll` succeeds with truncated content. -/
theorem C04_counterexample_short_last :
    ∃ parts : List Part, (∀ p ∈ parts, Delivers p.R p.content) ∧ declaredTotal parts = 5 ∧
      (newMulti (parts.map Part.sized)).readAt 10 0 5 0 = some ([1,2,3], some .eof) ∧
      runOps (newMulti (parts.map Part.sized)) 0 [.read 5, .read 5] =
        some [(.read 5, .read [1,2] none), (.read 5, .read [3] (some .eof))] := by
  refine ⟨[⟨fullReader [1,2], [1,2], 2⟩, ⟨fullReader [3], [3], 3⟩], ?_, rfl, by decide, rfl⟩
  intro p hp; simp at hp
  rcases hp with rfl | rfl <;> exact fullReader_delivers _

/-- Surplus bytes of an over-long part are counted in the result that carries `ErrInvalidSize`. -/
theorem C04_counterexample_surplus :
    ∃ parts : List Part, (∀ p ∈ parts, Delivers p.R p.content) ∧
      (newMulti (parts.map Part.sized)).readAt 10 0 3 0 = some ([1,2,99], some .invalidSize) ∧
      vbyte parts 2 = some 3 := by
  refine ⟨[⟨fullReader [1,2,99], [1,2,99], 2⟩, ⟨fullReader [3], [3], 1⟩], ?_, by decide, by decide⟩
  intro p hp; simp at hp
  rcases hp with rfl | rfl <;> exact fullReader_delivers _

end Verif.Stream
