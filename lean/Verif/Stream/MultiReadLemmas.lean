import Verif.Stream.MultiLemmas
import Verif.Stream.MultiSpec
namespace Verif.Stream

theorem sizeSum_sized (parts : List Part) : sizeSum (parts.map Part.sized) = declaredTotal parts := by
  induction parts with
  | nil => rfl
  | cons p rest ih => simp [declaredTotal, Part.sized] at *; exact ih

@[simp] theorem declaredTotal_cons (p : Part) (rest) : declaredTotal (p :: rest) = p.declared + declaredTotal rest := by
  simp [declaredTotal]

theorem declaredTotal_append (a b : List Part) : declaredTotal (a ++ b) = declaredTotal a + declaredTotal b := by
  simp [declaredTotal]

theorem newMulti_limit (parts : List Part) : (newMulti (parts.map Part.sized)).upperLimit = declaredTotal parts := by
  simp [newMulti, totalSize_eq, sizeSum_sized]

theorem vbyte_at (parts : List Part) (i : Nat) (p : Part) (pos : Nat) (hp : parts[i]? = some p)
    (h1 : declaredTotal (parts.take i) ≤ pos) (h2 : pos < declaredTotal (parts.take i) + p.declared) :
    vbyte parts pos = p.content[pos - declaredTotal (parts.take i)]? := by
  induction parts generalizing i pos with
  | nil => simp at hp
  | cons q rest ih =>
    cases i with
    | zero =>
      simp at hp; subst hp
      simp [declaredTotal] at h2 ⊢
      simp [vbyte, h2]
    | succ i =>
      simp at hp
      simp at h1 h2
      have hlt : ¬ pos < q.declared := by omega
      simp [vbyte, hlt]
      rw [ih i (pos - q.declared) hp (by omega) (by omega)]
      congr 1; omega

theorem vbyte_ge (parts : List Part) (pos : Nat) (h : declaredTotal parts ≤ pos) : vbyte parts pos = none := by
  induction parts generalizing pos with
  | nil => rfl
  | cons q rest ih =>
    simp at h
    have hlt : ¬ pos < q.declared := by omega
    simp [vbyte, hlt]
    exact ih _ (by omega)

/-- What an answer of `ReadAt` may look like, in terms of the declared layout. -/
structure ReadOk (parts : List Part) (off len : Nat) (bs : Bytes) (e : Option RErr) : Prop where
  le : bs.length ≤ len
  nil : e = none → bs.length = len ∧ AgreesAt parts off bs
  eof : e = some .eof → AgreesAt parts off bs ∧ 0 < bs.length ∧ off + bs.length ≤ declaredTotal parts ∧
    vbyte parts (off + bs.length) = none ∧ declaredTotal parts.dropLast ≤ off + bs.length
  unexpected : e = some .unexpectedEOF → AgreesAt parts off bs ∧ off + bs.length < declaredTotal parts ∧
    vbyte parts (off + bs.length) = none
  invalid : e = some .invalidSize → ∃ k p, k < bs.length ∧ AgreesAt parts off (bs.take k) ∧
    p ∈ parts ∧ p.declared < p.content.length
  other : ∀ c, e ≠ some (.other c)
  einval : e ≠ some .einval

/-- One step: `readAt1`. -/
theorem readAt1_spec (parts : List Part) (hD : ∀ p ∈ parts, Delivers p.R p.content) (call len off : Nat)
    (hoff : off < declaredTotal parts) :
    ∃ b e, (newMulti (parts.map Part.sized)).readAt1 call len off = (b, e) ∧
      b.length ≤ len ∧
      (e = none → AgreesAt parts off b ∧ off + b.length ≤ declaredTotal parts ∧ (0 < len → 0 < b.length)) ∧
      (e ≠ none → ReadOk parts off len b e) := by
  have hlim := newMulti_limit parts
  unfold Multi.readAt1
  rw [hlim, if_neg (by omega)]
  obtain ⟨i, r, hs, hr, hh⟩ := search_translate 0 (parts.map Part.sized) off (by omega)
    (by rw [sizeSum_sized]; omega)
  have hr' : (newMulti (parts.map Part.sized)).r = translate 0 (parts.map Part.sized) := rfl
  rw [hr', hs]
  simp only [hr]
  rw [translate_getElem?] at hr
  simp at hr
  obtain ⟨p, hp, rfl⟩ := hr
  rw [← List.map_take, sizeSum_sized] at *
  simp only [Holds, Part.sized] at hh
  simp only [Part.sized]
  have hpm : p ∈ parts := List.mem_iff_getElem?.mpr ⟨i, hp⟩
  obtain ⟨b, e, hR, hb, hlen, he, heof, hprog⟩ := hD p hpm call len (off - declaredTotal (parts.take i))
  rw [hR]
  simp only [classify]
  generalize hH : declaredTotal (parts.take i) = H at *
  have hi : i < parts.length := (List.getElem?_eq_some_iff.mp hp).1
  have htot : declaredTotal parts = H + p.declared + declaredTotal (parts.drop (i+1)) := by
    have : parts = parts.take i ++ p :: parts.drop (i+1) := by
      have h1 := List.getElem?_eq_some_iff.mp hp
      obtain ⟨h1, h2⟩ := h1
      rw [← h2, List.getElem_cons_drop, List.take_append_drop]
    conv => lhs; rw [this]
    simp only [declaredTotal, List.map_append, List.sum_append, List.map_cons, List.sum_cons] at *
    omega
  -- all bytes before the end of the declared part agree
  have agree : ∀ j, j < b.length → off + j < H + p.declared → vbyte parts (off + j) = b[j]? := by
    intro j hj hlt
    rw [vbyte_at parts i p (off + j) hp (by omega) (by omega), hH, hb, slice_getElem? _ _ _ _ hj]
    congr 1; omega
  have hblen : b.length ≤ p.content.length - (off - H) := by
    have := congrArg List.length hb
    rw [slice_length] at this; omega
  have he1 : ¬ (e ≠ none ∧ e ≠ some RErr.eof) := by
    rcases he with h | h <;> simp [h]
  rw [if_neg he1]
  by_cases hover : b.length > p.declared - (off - H)
  · rw [if_pos hover]
    refine ⟨b, some .invalidSize, rfl, hlen, by simp, fun _ => ?_⟩
    refine ⟨hlen, by simp, by simp, by simp, ?_, by simp, by simp⟩
    intro _
    refine ⟨p.declared - (off - H), p, hover, ?_, hpm, by omega⟩
    intro j hj
    rw [List.length_take] at hj
    rw [agree j (by omega) (by omega)]
    rw [List.getElem?_take_of_lt (by omega)]
  · rw [if_neg hover]
    have hAg : AgreesAt parts off b := fun j hj => agree j hj (by omega)
    by_cases hless : e = some .eof ∧ b.length = 0 ∧ p.declared - (off - H) > 0
    · rw [if_pos hless]
      refine ⟨b, some .unexpectedEOF, rfl, hlen, by simp, fun _ => ?_⟩
      refine ⟨hlen, by simp, by simp, ?_, by simp, by simp, by simp⟩
      intro _
      have h3 := heof hless.1
      refine ⟨hAg, by omega, ?_⟩
      rw [hless.2.1]
      rw [vbyte_at parts i p (off + 0) hp (by omega) (by omega), hH]
      simp; omega
    · rw [if_neg hless]
      by_cases hlast : e = some .eof ∧ (!decide ((translate 0 (parts.map Part.sized)).length ≤ i + 1)) = true
      · rw [if_pos hlast]
        refine ⟨b, none, rfl, hlen, fun _ => ⟨hAg, by omega, fun _ => ?_⟩, by simp⟩
        rcases Nat.eq_zero_or_pos b.length with h0 | h0
        · exact absurd ⟨hlast.1, h0, by omega⟩ hless
        · exact h0
      · rw [if_neg hlast]
        refine ⟨b, e, rfl, hlen, ?_, ?_⟩
        · intro hn
          exact ⟨hAg, by omega, hprog hn⟩
        · intro hn
          have heq : e = some .eof := by rcases he with h | h; exact absurd h hn; exact h
          subst heq
          simp at hlast
          have hi' : i + 1 = parts.length := by omega
          have hdrop : parts.drop (i+1) = [] := List.drop_eq_nil_of_le (by omega)
          have hdl : parts.dropLast = parts.take i := by
            rw [List.dropLast_eq_take]; congr 1; omega
          rw [hdrop] at htot
          simp [declaredTotal] at htot
          have h3 := heof rfl
          refine ⟨hlen, by simp, ?_, by simp, by simp, by simp, by simp⟩
          intro _
          have hpos : 0 < b.length := by
            rcases Nat.eq_zero_or_pos b.length with h0 | h0
            · exact absurd ⟨rfl, h0, by omega⟩ hless
            · exact h0
          refine ⟨hAg, hpos, by simp [declaredTotal]; omega, ?_, by rw [hdl]; omega⟩
          by_cases hend : off + b.length < H + p.declared
          · rw [vbyte_at parts i p _ hp (by omega) (by omega), hH]
            simp; omega
          · apply vbyte_ge; simp [declaredTotal]; omega

theorem AgreesAt.append {parts : List Part} {off : Nat} {a b : Bytes} (ha : AgreesAt parts off a)
    (hb : AgreesAt parts (off + a.length) b) : AgreesAt parts off (a ++ b) := by
  intro j hj
  by_cases h : j < a.length
  · rw [List.getElem?_append_left h]; exact ha j h
  · rw [List.getElem?_append_right (by omega)]
    have := hb (j - a.length) (by simp at hj; omega)
    rw [← this]; congr 1; omega

theorem ReadOk.prepend {parts : List Part} {off len : Nat} {a b : Bytes} {e : Option RErr}
    (ha : AgreesAt parts off a) (hal : a.length ≤ len) (h : ReadOk parts (off + a.length) (len - a.length) b e) :
    ReadOk parts off len (a ++ b) e := by
  have hle := h.le
  refine ⟨by simp; omega, ?_, ?_, ?_, ?_, h.other, h.einval⟩
  · intro he
    have := h.nil he
    exact ⟨by simp; omega, ha.append this.2⟩
  · intro he
    obtain ⟨h1, h2, h3, h4, h5⟩ := h.eof he
    have e1 : off + (a ++ b).length = off + a.length + b.length := by simp; omega
    rw [e1]
    exact ⟨ha.append h1, by simp; omega, h3, h4, h5⟩
  · intro he
    obtain ⟨h1, h2, h3⟩ := h.unexpected he
    have e1 : off + (a ++ b).length = off + a.length + b.length := by simp; omega
    rw [e1]
    exact ⟨ha.append h1, h2, h3⟩
  · intro he
    obtain ⟨k, p, hk, hag, hp⟩ := h.invalid he
    refine ⟨a.length + k, p, by simp; omega, ?_, hp⟩
    rw [List.take_length_add_append]
    exact ha.append hag

theorem readAtLoop_spec (parts : List Part) (hD : ∀ p ∈ parts, Delivers p.R p.content) (mx : Bool) :
    ∀ fuel call len off acc, len < fuel → off < declaredTotal parts → off + len ≤ declaredTotal parts →
    ∃ bs e, ReadOk parts off len bs e ∧
      (newMulti (parts.map Part.sized)).readAtLoop mx fuel call len off acc =
        some (acc ++ bs, if mx ∧ e = none then some .eof else e) := by
  intro fuel
  induction fuel with
  | zero => intros; omega
  | succ fuel ih =>
    intro call len off acc hf ho hl
    obtain ⟨b, e, hR, hlen, hnil, herr⟩ := readAt1_spec parts hD call len off ho
    unfold Multi.readAtLoop
    rw [hR]
    simp only
    by_cases hstop : b.length = len ∨ e ≠ none
    · rw [if_pos hstop]
      refine ⟨b, e, ?_, rfl⟩
      by_cases he : e = none
      · subst he
        have hbl : b.length = len := by simpa using hstop
        exact ⟨hlen, fun _ => ⟨hbl, (hnil rfl).1⟩, by simp, by simp, by simp, by simp, by simp⟩
      · exact herr he
    · rw [if_neg hstop]
      simp at hstop
      obtain ⟨hne, he⟩ := hstop
      obtain ⟨hag, htot, hprog⟩ := hnil he
      have hpos : 0 < b.length := hprog (by omega)
      obtain ⟨bs, e', hok, heq⟩ := ih (call + 1) (len - b.length) (off + b.length) (acc ++ b) (by omega) (by omega) (by omega)
      refine ⟨b ++ bs, e', hok.prepend hag hlen, ?_⟩
      rw [heq]; simp

/-- `concat` and `vbyte` agree for honest parts. -/
theorem vbyte_honest (parts : List Part) (h : ∀ p ∈ parts, p.declared = p.content.length) (pos : Nat) :
    vbyte parts pos = (concat parts)[pos]? := by
  induction parts generalizing pos with
  | nil => simp [vbyte, concat]
  | cons p rest ih =>
    have hp := h p (by simp)
    have ih := ih (fun q hq => h q (by simp [hq]))
    simp only [vbyte, concat, List.map_cons, List.flatten_cons]
    split
    · rw [List.getElem?_append_left (by omega)]
    · rw [List.getElem?_append_right (by omega), ih, hp]; rfl

theorem concat_length (parts : List Part) (h : ∀ p ∈ parts, p.declared = p.content.length) :
    (concat parts).length = declaredTotal parts := by
  induction parts with
  | nil => rfl
  | cons p rest ih =>
    have hp := h p (by simp)
    have ih := ih (fun q hq => h q (by simp [hq]))
    simp [concat] at *
    rw [ih, hp]

theorem AgreesAt.eq_slice {parts : List Part} (h : ∀ p ∈ parts, p.declared = p.content.length) {off : Nat} {bs : Bytes}
    (ha : AgreesAt parts off bs) : bs = slice (concat parts) off bs.length := by
  apply List.ext_getElem?
  intro j
  by_cases hj : j < bs.length
  · rw [slice_getElem? _ _ _ _ hj, ← ha j hj, vbyte_honest parts h]
  · rw [List.getElem?_eq_none (by omega), List.getElem?_eq_none]
    rw [slice_length]; omega

end Verif.Stream
