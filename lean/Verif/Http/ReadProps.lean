import Verif.Http.ParseProps
/-
Properties C14 (bounded ReadAt) and C16 (range views).
-/
namespace Verif.Http

/-! ## C16 -/

/-- A view inside the int64 offsets. -/
def ValidView (v : View) : Prop := 0 ≤ v.base ∧ 0 ≤ v.length ∧ v.base + v.length ≤ maxInt64

/-- Specification: where the section `[off, off+n)` ends; a negative `n`, or an end beyond the last offset, means "to the last offset". -/
def sectionEnd (off n : Int) : Int := if n < 0 ∨ off + n > maxInt64 then maxInt64 else off + n

theorem view_end (v : View) (h : ValidView v) : v.end_ = v.base + v.length := by
  obtain ⟨h1, h2, h3⟩ := h
  unfold View.end_
  have hw : wrap64 (maxInt64 - v.base) = maxInt64 - v.base := wrap64_of_isInt64 (by unfold IsInt64 minInt64 maxInt64 at *; omega)
  have hw2 : wrap64 (v.base + v.length) = v.base + v.length := wrap64_of_isInt64 (by unfold IsInt64 minInt64 maxInt64 at *; omega)
  rw [hw, hw2]
  split <;> omega

/-- C16: the constructor refuses negative offsets, and otherwise yields the view of exactly the section; nothing wraps around. -/
theorem C16_newRange_section (off n : Int) (ho : IsInt64 off) (hn : IsInt64 n) :
    (off < 0 → newRange off n = none) ∧
    (0 ≤ off → ∃ v, newRange off n = some v ∧ ValidView v ∧ v.base = off ∧ v.end_ = sectionEnd off n) := by
  constructor
  · intro h; simp [newRange, h]
  · intro h
    have key : ∀ l : Int, off ≤ l → l ≤ maxInt64 → ∃ v : View, (some (⟨off, wrap64 (l - off)⟩ : View)) = some v ∧ ValidView v ∧ v.base = off ∧ v.end_ = l := by
      intro l h1 h2
      have hw : wrap64 (l - off) = l - off := wrap64_of_isInt64 (by unfold IsInt64 minInt64 maxInt64 at *; omega)
      rw [hw]
      have hv : ValidView ⟨off, l - off⟩ := ⟨h, by show 0 ≤ l - off; omega, by show off + (l - off) ≤ maxInt64; omega⟩
      refine ⟨_, rfl, hv, rfl, ?_⟩
      rw [view_end _ hv]
      show off + (l - off) = l
      omega
    unfold newRange
    rw [if_neg (by omega)]
    simp only
    unfold IsInt64 minInt64 maxInt64 at ho hn
    have hmax : maxInt64 = 2 ^ 63 - 1 := rfl
    by_cases hneg : n < 0
    · have hw : wrap64 (maxInt64 - n) = maxInt64 - n - 2 ^ 64 := by
        unfold wrap64; rw [Int.bmod_eq_iff] <;> omega
      rw [hw, if_neg (by omega)]
      unfold sectionEnd
      rw [if_pos (Or.inl hneg)]
      exact key _ (by omega) (by omega)
    · have hw : wrap64 (maxInt64 - n) = maxInt64 - n := wrap64_of_isInt64 (by unfold IsInt64 minInt64; omega)
      rw [hw]
      unfold sectionEnd
      by_cases hle : off ≤ maxInt64 - n
      · have hw2 : wrap64 (off + n) = off + n := wrap64_of_isInt64 (by unfold IsInt64 minInt64; omega)
        rw [if_pos hle, if_neg (by omega), hw2]
        exact key _ (by omega) (by omega)
      · rw [if_neg hle, if_pos (by omega)]
        exact key _ (by omega) (by omega)

/-- C16: a view translates offsets exactly, cuts a read at the section's end, and answers nothing at or past it. -/
theorem C16_locate_exact (v : View) (hv : ValidView v) (len : Nat) (off : Int) (h0 : 0 ≤ off) (hi : off ≤ maxInt64) :
    (v.end_ ≤ v.base + off → v.locate len off = none) ∧
    (v.base + off < v.end_ → ∃ k : Nat, v.locate len off = some (k, v.base + off) ∧ (k : Int) = min (len : Int) (v.end_ - (v.base + off))) := by
  have he := view_end v hv
  obtain ⟨h1, h2, h3⟩ := hv
  unfold View.locate
  rw [he]
  have hw : wrap64 (v.base + v.length - v.base) = v.length := by
    have : v.base + v.length - v.base = v.length := by omega
    rw [this]; exact wrap64_of_isInt64 (by unfold IsInt64 minInt64 maxInt64 at *; omega)
  rw [hw]
  constructor
  · intro h; rw [if_pos (by omega)]
  · intro h
    rw [if_neg (by omega)]
    have hw2 : wrap64 (v.base + off) = v.base + off := wrap64_of_isInt64 (by unfold IsInt64 minInt64 maxInt64 at *; omega)
    have hw3 : wrap64 (v.base + v.length - (v.base + off)) = v.base + v.length - (v.base + off) :=
      wrap64_of_isInt64 (by unfold IsInt64 minInt64 maxInt64 at *; omega)
    simp only [hw2, hw3]
    refine ⟨_, rfl, ?_⟩
    split <;> omega

theorem wholeView_valid : ValidView wholeView := by
  unfold ValidView wholeView maxInt64; simp

/-- non-vacuity of C16, with the 64-bit corners -/
example : newRange 10 5 = some ⟨10, 5⟩ ∧ newRange 10 (-1) = some ⟨10, maxInt64 - 10⟩ ∧ newRange 10 maxInt64 = some ⟨10, maxInt64 - 10⟩ ∧
    newRange (-1) 5 = none ∧ (⟨10, 5⟩ : View).locate 100 2 = some (3, 12) ∧ (⟨10, 5⟩ : View).locate 100 5 = none := by decide

/-! ## C14 -/

/-- Specification: the response contradicts nothing that is pinned; each property counts only where both sides state it. -/
def Agrees (m : Option ObjMeta) (r : Resp) (total : Int) : Prop :=
  ∀ mm, m = some mm →
    (mm.sizeKnown = true → total = mm.size) ∧
    (r.etag ≠ [] → mm.etag ≠ [] → r.etag = mm.etag) ∧
    (r.lastModified ≠ [] → mm.lastModified ≠ [] → r.lastModified = mm.lastModified) ∧
    (r.origin ≠ [] → mm.origin ≠ [] → r.origin = mm.origin)

theorem mismatch_iff (m : Option ObjMeta) (r : Resp) (t : Int) : mismatch m r t = false ↔ Agrees m r t := by
  unfold mismatch Agrees
  cases m with
  | none => simp
  | some mm =>
    simp only [Bool.or_eq_false_iff, Bool.and_eq_false_imp, decide_eq_false_iff_not, Option.some.injEq, forall_eq']
    constructor
    · rintro ⟨⟨⟨h1, h2⟩, h3⟩, h4⟩
      refine ⟨fun h => Decidable.not_not.1 (h1 h), ?_, ?_, ?_⟩
      · intro a b; exact Decidable.not_not.1 (fun c => h2 ⟨a, b, c⟩)
      · intro a b; exact Decidable.not_not.1 (fun c => h3 ⟨a, b, c⟩)
      · intro a b; exact Decidable.not_not.1 (fun c => h4 ⟨a, b, c⟩)
    · rintro ⟨h1, h2, h3, h4⟩
      exact ⟨⟨⟨fun a b => b (h1 a), fun ⟨a, b, c⟩ => c (h2 a b)⟩, fun ⟨a, b, c⟩ => c (h3 a b)⟩, fun ⟨a, b, c⟩ => c (h4 a b)⟩

/-- The size the object is pinned to after a response was accepted is the total the response said. -/
theorem pin_size {m : Option ObjMeta} {r : Resp} {t : Int} {m' : Option ObjMeta} (h : pinOrVerify m r t = some m') :
    Agrees m r t ∧ knownSize m' = some t := by
  unfold pinOrVerify at h
  split at h
  · simp at h
  · rename_i hm
    simp at hm
    have hag := (mismatch_iff m r t).1 hm
    refine ⟨hag, ?_⟩
    simp at h
    subst h
    cases m with
    | none => simp [metaFromResponse, knownSize]
    | some mm =>
      simp only [knownSize, ObjMeta.completedBy, metaFromResponse]
      by_cases hk : mm.sizeKnown = true
      · simp [hk]; exact ((hag mm rfl).1 hk).symm
      · simp [hk]

theorem parse_nonneg {v : Str} {a b t : Int} (h : parseContentRange v = some (a, b, t)) :
    (a = -1 ∧ b = -1 ∧ 0 ≤ t) ∨ (0 ≤ a ∧ a ≤ b ∧ b < t ∧ t ≤ maxInt64) := by
  rcases (C13_parse_exact v a b t).1 h with ⟨s, e, t', _, h1, h2, h3, rfl, rfl, rfl⟩ | ⟨t', _, _, rfl, rfl, rfl⟩
  · right; omega
  · left; omega

/-- What a read plans to ask, in exact arithmetic. -/
theorem readPlan_spec (v : View) (hv : ValidView v) (m : Option ObjMeta) (len : Nat) (off : Int) (hi : off ≤ maxInt64) :
    (off < 0 ∧ readPlan v m len off = .done (some .negativeOffset)) ∨
    (0 ≤ off ∧ (v.end_ ≤ v.base + off ∨ ∃ z, knownSize m = some z ∧ z ≤ v.base + off) ∧ readPlan v m len off = .done (some .eof)) ∨
    (0 ≤ off ∧ len = 0 ∧ readPlan v m len off = .done none) ∨
    (0 ≤ off ∧ v.base + off < v.end_ ∧ (∀ z, knownSize m = some z → v.base + off < z) ∧
      ∃ k : Nat, readPlan v m len off = .ask k (v.base + off) ∧ 0 < k ∧ k ≤ len ∧
        v.base + off + k ≤ v.end_ ∧ (∀ z, knownSize m = some z → v.base + off + k ≤ z) ∧
        (k < len → v.base + off + k = v.end_ ∨ knownSize m = some (v.base + off + k))) := by
  by_cases h0 : off < 0
  · left; exact ⟨h0, by simp [readPlan, h0]⟩
  · right
    obtain ⟨l1, l2⟩ := C16_locate_exact v hv len off (by omega) hi
    unfold readPlan
    rw [if_neg h0]
    by_cases he : v.end_ ≤ v.base + off
    · left; rw [l1 he]; exact ⟨by omega, Or.inl he, rfl⟩
    · obtain ⟨k, hk, hkm⟩ := l2 (by omega)
      rw [hk]
      simp only
      cases hz : knownSize m with
      | none =>
        simp only
        by_cases hk0 : k = 0
        · right; left; rw [if_pos hk0]; exact ⟨by omega, by omega, rfl⟩
        · right; right
          rw [if_neg hk0]
          refine ⟨by omega, by omega, by simp, k, rfl, by omega, by omega, by omega, by simp, ?_⟩
          intro hlt; left; omega
      | some z =>
        simp only
        by_cases hge : v.base + off ≥ z
        · left; rw [if_pos hge]; exact ⟨by omega, Or.inr ⟨z, rfl, by omega⟩, rfl⟩
        · right
          rw [if_neg hge]
          generalize hk' : (if (k : Int) > z - (v.base + off) then (z - (v.base + off)).toNat else k) = k'
          have hk'm : (k' : Int) = min (k : Int) (z - (v.base + off)) := by
            rw [← hk']; split <;> omega
          by_cases hk0 : k' = 0
          · left; rw [if_pos hk0]; exact ⟨by omega, by omega, rfl⟩
          · right
            rw [if_neg hk0]
            refine ⟨by omega, by omega, by simp; omega, k', rfl, by omega, by omega, by omega, by simp; omega, ?_⟩
            intro hlt
            by_cases hc : (k' : Int) = k
            · left; omega
            · right; rw [show v.base + off + (k' : Int) = z by omega]

/-- Specification: the body is the object's own bytes — not decompressed on the way, and no content encoding but "identity" (in any
letter case). -/
def NotEncoded (r : Resp) : Prop :=
  r.uncompressed = false ∧
  (r.contentEncoding = [] ∨ r.contentEncoding.map Char.toLower = ['i', 'd', 'e', 'n', 't', 'i', 't', 'y'])

theorem encodingOk_iff (r : Resp) : encodingOk r = true ↔ NotEncoded r := by
  unfold encodingOk NotEncoded
  simp only [Bool.and_eq_true, Bool.not_eq_true', Bool.or_eq_true, decide_eq_true_eq]
  exact Iff.rfl

/-- Specification: the response says that the object has no bytes at all. -/
def SaysEmpty (r : Resp) : Prop :=
  r.contentLength = 0 ∨ (r.contentLength = -1 ∧ r.body = [] ∧ r.bodyErr = false)

theorem emptyEntity_iff (r : Resp) : emptyEntity r = true ↔ SaysEmpty r := by
  unfold emptyEntity SaysEmpty
  by_cases h0 : r.contentLength = 0
  · simp [h0]
  · by_cases h1 : r.contentLength = -1
    · simp [h1]
    · simp [h0, h1]

/-- Specification: the response states the complete length `z`. -/
def SaysTotal (r : Resp) (z : Int) : Prop :=
  ((r.status = 206 ∨ r.status = 416) ∧ ∃ a b, parseContentRange r.contentRange = some (a, b, z)) ∨
  (r.status = 200 ∧ r.contentRange = [] ∧ SaysEmpty r ∧ z = 0)

/-- C14, whatever the server does: bytes are handed over only out of a 206 answer in identity encoding that claims to start exactly at
the position asked for, not to go beyond what was asked, and that contradicts nothing pinned; they are the first bytes of its body.
With a nil error or EOF the claim covers exactly those bytes. -/
theorem C14_only_requested_bytes (v : View) (hv : ValidView v) (m : Option ObjMeta) (len : Nat) (off : Int) (hi : off ≤ maxInt64)
    (resp : Option Resp) (m' : Option ObjMeta) (bs : Bytes) (e : Option HErr) (h : readAt v m len off resp = (m', bs, e)) :
    bs.length ≤ len ∧
    (e = none → bs.length = len) ∧
    (bs ≠ [] → ∃ r last total, resp = some r ∧ r.status = 206 ∧ NotEncoded r ∧
      parseContentRange r.contentRange = some (v.base + off, last, total) ∧ last < v.base + off + len ∧ Agrees m r total ∧
      bs = r.body.take bs.length ∧ v.base + off + bs.length ≤ last + 1 ∧ knownSize m' = some total ∧
      ((e = none ∨ e = some .eof) → last + 1 = v.base + off + bs.length)) := by
  rcases readPlan_spec v hv m len off hi with ⟨_, hp⟩ | ⟨_, _, hp⟩ | ⟨_, hl, hp⟩ | ⟨h0, hlt, hz, k, hp, hk0, hkl, hke, hkz, hcut⟩
  · unfold readAt at h; rw [hp] at h; simp at h; obtain ⟨_, rfl, rfl⟩ := h; simp
  · unfold readAt at h; rw [hp] at h; simp at h; obtain ⟨_, rfl, rfl⟩ := h; simp
  · unfold readAt at h; rw [hp] at h; simp at h; obtain ⟨_, rfl, rfl⟩ := h; simp [hl]
  · unfold readAt at h
    rw [hp] at h
    simp only at h
    generalize (decide (ifRangeValue m ≠ [])) = ifr at h
    generalize habs : v.base + off = abs at *
    have nothing : ∀ (x : HErr), (m', bs, e) = (m', [], some x) → bs.length ≤ len ∧
      (e = none → bs.length = len) ∧
      (bs ≠ [] → ∃ r last total, resp = some r ∧ r.status = 206 ∧ NotEncoded r ∧
        parseContentRange r.contentRange = some (abs, last, total) ∧ last < abs + len ∧ Agrees m r total ∧
        bs = r.body.take bs.length ∧ abs + bs.length ≤ last + 1 ∧ knownSize m' = some total ∧
        ((e = none ∨ e = some .eof) → last + 1 = abs + bs.length)) := by
      intro x hx; simp at hx; obtain ⟨rfl, rfl⟩ := hx; simp
    unfold handleResp at h
    cases resp with
    | none => simp at h; exact nothing .transport (by simp [h])
    | some r =>
      simp only at h
      split at h
      · simp at h; exact nothing .encoding (by simp [h])
      · rename_i henc
        simp at henc
        split at h
        · rename_i h206
          unfold checkPartial at h
          cases hpc : parseContentRange r.contentRange with
          | none => simp [hpc] at h; exact nothing .badContentRange (by simp [h])
          | some p =>
            obtain ⟨start, last, total⟩ := p
            simp only [hpc] at h
            by_cases hbad : start ≠ abs ∨ last > abs + (k : Int) - 1 ∨ (last ≠ abs + (k : Int) - 1 ∧ last ≠ total - 1)
            · rw [if_pos hbad] at h; simp at h; exact nothing .objectChanged (by simp [h])
            · rw [if_neg hbad] at h
              cases hpin : pinOrVerify m r total with
              | none => simp [hpin] at h; exact nothing .objectChanged (by simp [h])
              | some mm =>
                simp only [hpin] at h
                obtain ⟨hag, hks⟩ := pin_size hpin
                have hn := parse_nonneg hpc
                have hs : start = abs := by omega
                subst hs
                obtain ⟨hvb, _, _⟩ := hv
                have hrange : 0 ≤ start ∧ start ≤ last ∧ last < total ∧ total ≤ maxInt64 := by omega
                by_cases hshort : (r.body.length : Int) < last - start + 1
                · rw [if_pos hshort] at h
                  simp at h
                  obtain ⟨rfl, rfl, rfl⟩ := h
                  refine ⟨by omega, by simp, ?_⟩
                  intro _
                  refine ⟨r, last, total, rfl, h206, (encodingOk_iff r).1 henc, hpc, by omega, hag, by simp, by omega, hks, ?_⟩
                  intro he
                  split at he <;> simp at he
                · rw [if_neg hshort] at h
                  simp at h
                  obtain ⟨rfl, rfl, he⟩ := h
                  have hlen : (r.body.take (last - start + 1).toNat).length = (last - start + 1).toNat := by
                    simp; omega
                  rw [hlen]
                  refine ⟨by omega, ?_, ?_⟩
                  · intro hen
                    rw [hen] at he
                    split at he
                    · simp at he
                    · rename_i hnr
                      -- if cut, the end was reached
                      rcases Nat.lt_or_ge k len with hkl' | hkl'
                      · exfalso
                        apply hnr
                        rcases hcut hkl' with h1 | hz1
                        · by_cases hl1 : last = start + (k : Int) - 1
                          · right; omega
                          · left; omega
                        · -- the pinned size is the total
                          have hzt : total = start + k := by
                            cases m with
                            | none => simp [knownSize] at hz1
                            | some mm0 =>
                              simp only [knownSize] at hz1
                              split at hz1
                              · rename_i hsk; simp at hz1; rw [← hz1]; exact (hag mm0 rfl).1 hsk
                              · simp at hz1
                          left; omega
                      · by_cases hl1 : last = start + (k : Int) - 1
                        · omega
                        · exfalso; apply hnr; left; omega
                  · intro _
                    refine ⟨r, last, total, rfl, h206, (encodingOk_iff r).1 henc, hpc, by omega, hag, by simp, by omega, hks, by omega⟩
        · split at h
          · simp at h
            obtain ⟨rfl, rfl, rfl⟩ := h
            simp
          · split at h
            · split at h
              · split at h
                · simp at h; exact nothing .objectChanged (by simp [h])
                · simp at h; exact nothing .eof (by simp [h])
              · split at h
                · simp at h; exact nothing .objectChanged (by simp [h])
                · simp at h; exact nothing .rangeIgnored (by simp [h])
            · simp at h; exact nothing .badStatus (by simp [h])

end Verif.Http
