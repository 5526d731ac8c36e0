import Verif.Tarfs.MapRead
/-
C100, the old GNU format, and the map of a file as it is found behind the extension headers.
-/
namespace Verif.Tarfs.Map

/-! ### Specification -/

/-- A numeric field: base-256 or octal (C35). -/
def NumField (b : Bytes) (v : Int) : Prop := (IsBase256 b ∧ IsInt64 (twosComplement b) ∧ v = twosComplement b) ∨ ∃ n : Nat, OctalField b n ∧ v = n

/-- A table of `n` slots of 24 bytes: offset and length of each entry; the first slot that begins with a NUL ends it. -/
inductive Slots : Nat → Bytes → List Frag → Prop
  | full {b : Bytes} : Slots 0 b []
  | stop {n : Nat} {b : Bytes} : b.head? = some 0 → Slots (n + 1) b []
  | entry {n : Nat} {off len rest : Bytes} {f : Frag} {l : List Frag} : off.length = 12 → len.length = 12 → off.head? ≠ some 0 → NumField off f.off → NumField len f.len →
      Slots n rest l → Slots (n + 1) (off ++ len ++ rest) (f :: l)

/-- A chain of tables: the byte behind a table says whether a block with a table of 21 slots follows. -/
inductive Chain : Nat → Bytes → List Bytes → List Frag → Prop
  | last {n : Nat} {b : Bytes} {l : List Frag} : Slots n b l → b[24 * n]? = some 0 → Chain n b [] l
  | more {n : Nat} {b blk : Bytes} {c : UInt8} {bs : List Bytes} {l l' : List Frag} : Slots n b l → b[24 * n]? = some c → c ≠ 0 → blk.length = 512 → Chain 21 blk bs l' →
      Chain n b (blk :: bs) (l ++ l')

/-- The map that a file has, given its header block and what follows, or that it has none. -/
inductive SaysMap (typeflag : UInt8) (recs : Str → Str) (blk rest : Bytes) : Option (List Frag) → Prop
  | old {bs : List Bytes} {tail : Bytes} {l : List Frag} : typeflag = 83 → rest = bs.flatten ++ tail → Chain 4 ((blk.drop 386).take 97) bs l → SaysMap typeflag recs blk rest (some l)
  | v0 {ls : List Str} {l : List Frag} : typeflag ≠ 83 →
      (recs "GNU.sparse.major".toList = "0".toList ∧ (recs "GNU.sparse.minor".toList = "0".toList ∨ recs "GNU.sparse.minor".toList = "1".toList)) ∨
        (recs "GNU.sparse.major".toList = [] ∧ recs "GNU.sparse.minor".toList = [] ∧ recs "GNU.sparse.map".toList ≠ []) →
      IsInt (recs "GNU.sparse.numblocks".toList) l.length → (l.length : Int) < 2 ^ 62 → Numbers ls l → recs "GNU.sparse.map".toList = commas ls →
      SaysMap typeflag recs blk rest (some l)
  | v1 {text tail : Bytes} {l : List Frag} : typeflag ≠ 83 → recs "GNU.sparse.major".toList = "1".toList → recs "GNU.sparse.minor".toList = "0".toList →
      rest = text ++ tail → IsText text l → blocks text.length ≤ rest.length → SaysMap typeflag recs blk rest (some l)
  | unknown : typeflag ≠ 83 → (recs "GNU.sparse.major".toList ≠ [] ∨ recs "GNU.sparse.minor".toList ≠ []) →
      ¬ (recs "GNU.sparse.major".toList = "0".toList ∧ (recs "GNU.sparse.minor".toList = "0".toList ∨ recs "GNU.sparse.minor".toList = "1".toList)) →
      ¬ (recs "GNU.sparse.major".toList = "1".toList ∧ recs "GNU.sparse.minor".toList = "0".toList) → SaysMap typeflag recs blk rest none
  | plain : typeflag ≠ 83 → recs "GNU.sparse.major".toList = [] → recs "GNU.sparse.minor".toList = [] → recs "GNU.sparse.map".toList = [] →
      SaysMap typeflag recs blk rest none

/-- The bytes from the start of a file's headers on: extension headers (typeflags x, g, L, K) with their contents in whole blocks, then the header block. -/
inductive Leads : Bytes → Bytes → Bytes → Prop
  | here {blk rest : Bytes} {c : UInt8} : blk.length = 512 → blk[156]? = some c → c ∉ [120, 103, 76, 75] → Leads (blk ++ rest) blk rest
  | ext {e payload more blk rest : Bytes} {c : UInt8} {v : Nat} : e.length = 512 → e[156]? = some c → c ∈ [120, 103, 76, 75] →
      NumField ((e.drop 124).take 12) v → (v : Int) < 2 ^ 62 → payload.length = blocks v → Leads more blk rest → Leads (e ++ payload ++ more) blk rest

/-! ### Tables -/

theorem numField_iff {b : Bytes} (h : b.length ≤ 21) (v : Int) : parseNumeric b = some v ↔ NumField b v := C35_numeric_exact_partial b h v

theorem table_iff : ∀ (n : Nat) (b : Bytes) (l : List Frag), 24 * n ≤ b.length → (table n b = some l ↔ Slots n b l)
  | 0, b, l, _ => by
    constructor
    · intro h; cases h; exact .full
    · intro h; cases h; rfl
  | n + 1, b, l, hb => by
    rw [table]
    have h1 : (b.take 12).length = 12 := by rw [List.length_take]; omega
    have h2 : ((b.drop 12).take 12).length = 12 := by rw [List.length_take, List.length_drop]; omega
    have hsplit : b = b.take 12 ++ (b.drop 12).take 12 ++ b.drop 24 := by
      rw [List.append_assoc]
      have : b.drop 24 = (b.drop 12).drop 12 := by rw [List.drop_drop]
      rw [this, List.take_append_drop, List.take_append_drop]
    have hhead : (b.take 12).head? = b.head? := by cases b <;> simp
    constructor
    · intro h
      split at h
      · rename_i h0; cases h; exact .stop h0
      · rename_i h0
        split at h
        · rename_i off len ho hl
          cases ht : table n (b.drop 24) with
          | none => rw [ht] at h; cases h
          | some l' =>
            rw [ht] at h
            cases h
            rw [hsplit]
            exact .entry h1 h2 (by rw [hhead]; exact h0) ((numField_iff (by omega) _).1 ho) ((numField_iff (by omega) _).1 hl)
              ((table_iff n _ l' (by rw [List.length_drop]; omega)).1 ht)
        · cases h
    · intro h
      cases h with
      | stop h0 => rw [if_pos h0]
      | @entry _ off len rest f l' ho hl hne hfo hfl hs =>
        have e1 : (off ++ len ++ rest).take 12 = off := by rw [List.append_assoc, List.take_append_of_le_length (by omega), List.take_of_length_le (by omega)]
        have e2 : ((off ++ len ++ rest).drop 12).take 12 = len := by
          rw [List.append_assoc, ← ho, List.drop_left, ho, List.take_append_of_le_length (by omega), List.take_of_length_le (by omega)]
        have e3 : (off ++ len ++ rest).drop 24 = rest := by
          have : (off ++ len).length = 24 := by rw [List.length_append]; omega
          rw [← this, List.drop_left]
        have e0 : (off ++ len ++ rest).head? = off.head? := by
          cases off with
          | nil => simp at ho
          | cons c off => rfl
        rw [if_neg (by rw [e0]; exact hne), e1, e2, e3, (numField_iff (by omega) _).2 hfo, (numField_iff (by omega) _).2 hfl,
          (table_iff n rest l' (by simp at hb; omega)).2 hs]
        rfl

theorem head_drop (b : Bytes) (k : Nat) : (b.drop k).head? = b[k]? := by rw [List.head?_drop]

/-- **C100** (old GNU format). If a map is read, whatever pieces the reader below gives, it is the one of the chain of tables in the header and the blocks that
follow, and the reader is behind those blocks. -/
theorem oldLoop_read (e : Env) : ∀ (fuel n : Nat) (b : Bytes) (r r' : Rd) (l : List Frag), 24 * n < b.length → oldLoop e fuel n b r = some (.ok (l, r')) →
    ∃ bs tail, r.rest = bs.flatten ++ tail ∧ Chain n b bs l ∧ r'.data = r.data ∧ r'.pos = r.pos + bs.flatten.length := by
  intro fuel
  induction fuel with
  | zero => intro n b r r' l _ h; cases h
  | succ fuel ih =>
    intro n b r r' l hb h
    rw [oldLoop] at h
    cases ht : table n b with
    | none => rw [ht] at h; cases h
    | some l0 =>
      rw [ht] at h
      simp only at h
      have hs := (table_iff n b l0 (by omega)).1 ht
      rw [head_drop] at h
      obtain ⟨c, hc⟩ : ∃ c, b[24 * n]? = some c := ⟨_, List.getElem?_eq_getElem hb⟩
      rw [hc] at h
      split at h
      · rename_i hne
        cases hx : mustReadBlock e r with
        | none => rw [hx] at h; cases h
        | some x =>
          obtain ⟨blk, er, r1⟩ := x
          rw [hx] at h
          cases er with
          | some er => cases h
          | none =>
            simp only at h
            obtain ⟨b1, b2, b3, b4⟩ := mustReadBlock_ok hx
            have hbl : blk.length = 512 := by rw [b2, List.length_take]; omega
            cases ho : oldLoop e fuel 21 blk r1 with
            | none => rw [ho] at h; cases h
            | some y =>
              cases y with
              | error er => rw [ho] at h; cases h
              | ok z =>
                obtain ⟨l', r2⟩ := z
                rw [ho] at h
                simp only [Option.some.injEq, Except.ok.injEq, Prod.mk.injEq] at h
                obtain ⟨rfl, rfl⟩ := h
                obtain ⟨bs, tail, i1, i2, i3, i4⟩ := ih 21 blk r1 r2 l' (by omega) ho
                refine ⟨blk :: bs, tail, ?_, .more hs hc (fun h => hne (by rw [h])) hbl i2, by rw [i3, b3], ?_⟩
                · rw [List.flatten_cons, List.append_assoc, ← i1, rest_advance b3 b4, b2, List.take_append_drop]
                · rw [i4, b4, List.flatten_cons, List.length_append, hbl]; omega
      · rename_i hne
        cases h
        refine ⟨[], r.rest, rfl, .last hs ?_, rfl, rfl⟩
        rw [hc]
        apply Classical.byContradiction
        exact hne

theorem oldLoop_reads (e : Env) (hf : ∀ k, e.fault k = false) {n : Nat} {b : Bytes} {bs : List Bytes} {l : List Frag} (h : Chain n b bs l) :
    ∀ (fuel : Nat) (r : Rd) (tail : Bytes), 24 * n < b.length → r.rest = bs.flatten ++ tail → bs.length < fuel → ∃ r', oldLoop e fuel n b r = some (.ok (l, r')) := by
  induction h with
  | @last n b l hs hz =>
    intro fuel r tail hb _ hfu
    obtain ⟨fuel, rfl⟩ : ∃ f, fuel = f + 1 := ⟨fuel - 1, by omega⟩
    refine ⟨r, ?_⟩
    rw [oldLoop, (table_iff n b l (by omega)).2 hs]
    simp only
    rw [head_drop, hz, if_neg (by simp)]
  | @more n b blk c bs l l' hs hc hcz hbl hch ih =>
    intro fuel r tail hb hr hfu
    obtain ⟨fuel, rfl⟩ : ∃ f, fuel = f + 1 := ⟨fuel - 1, by omega⟩
    have hr' : r.rest = blk ++ (bs.flatten ++ tail) := by rw [hr]; simp
    obtain ⟨r1, m1, m2, m3⟩ := mustReadBlock_read e hf r (by rw [hr', List.length_append]; omega)
    have htk : r.rest.take 512 = blk := by rw [hr', List.take_append_of_le_length (by omega), List.take_of_length_le (by omega)]
    have hdr : r1.rest = bs.flatten ++ tail := by rw [rest_advance m2 m3, hr', ← hbl, List.drop_left]
    obtain ⟨r2, h2⟩ := ih fuel r1 tail (by omega) hdr (by simp at hfu; omega)
    refine ⟨r2, ?_⟩
    rw [oldLoop, (table_iff n b l (by omega)).2 hs]
    simp only
    rw [head_drop, hc, if_pos (by simp [hcz]), m1, htk]
    simp only
    rw [h2]

theorem oldLoop_total (e : Env) : ∀ (fuel n : Nat) (b : Bytes) (r : Rd), r.rest.length / 512 < fuel → oldLoop e fuel n b r ≠ none := by
  intro fuel
  induction fuel with
  | zero => intro n b r h; omega
  | succ fuel ih =>
    intro n b r h
    rw [oldLoop]
    split
    · simp
    · split
      · cases hx : mustReadBlock e r with
        | none => exact absurd hx (mustReadBlock_total e r)
        | some x =>
          obtain ⟨blk, er, r1⟩ := x
          cases er with
          | some er => simp
          | none =>
            obtain ⟨b1, b2, b3, b4⟩ := mustReadBlock_ok hx
            have := ih 21 blk r1 (by rw [rest_advance b3 b4, List.length_drop]; omega)
            simp only
            split
            · simp
            · rename_i hne; exact this
      · simp

/-! ### A writer of the old format -/

/-- A table with `n` slots and the byte behind it. -/
def tableOf (enc : Int → Bytes) (n : Nat) (l : List Frag) (flag : UInt8) : Bytes :=
  (l.map fun f => enc f.off ++ enc f.len).flatten ++ List.replicate (24 * (n - l.length)) 0 ++ [flag]

/-- The extension blocks: 21 entries each, the flag set in all but the last. -/
def extBlocks (enc : Int → Bytes) : (fuel : Nat) → List Frag → List Bytes
  | 0, _ => []
  | fuel + 1, l => if l = [] then [] else (tableOf enc 21 (l.take 21) (if l.length > 21 then 1 else 0) ++ List.replicate 7 0) :: extBlocks enc fuel (l.drop 21)

theorem slots_tableOf (enc : Int → Bytes) : ∀ (l : List Frag) (n : Nat) (rest : Bytes),
    (∀ f ∈ l, ∀ v, v = f.off ∨ v = f.len → (enc v).length = 12 ∧ (enc v).head? ≠ some 0 ∧ NumField (enc v) v) → l.length ≤ n →
    (l.length < n → rest.head? = some 0) → Slots n ((l.map fun f => enc f.off ++ enc f.len).flatten ++ rest) l
  | [], n, rest, _, _, hz => by
    cases n with
    | zero => exact .full
    | succ n => exact .stop (by simpa using hz (by simp))
  | f :: l, n, rest, h, hn, hz => by
    cases n with
    | zero => simp at hn
    | succ n =>
      obtain ⟨o1, o2, o3⟩ := h f (by simp) f.off (Or.inl rfl)
      obtain ⟨l1, l2, l3⟩ := h f (by simp) f.len (Or.inr rfl)
      have := slots_tableOf enc l n rest (fun g hg => h g (by simp [hg])) (by simpa using hn) (fun hl => hz (by simpa using hl))
      rw [List.map_cons, List.flatten_cons, List.append_assoc]
      exact .entry o1 l1 o2 o3 l3 this

theorem flatten_len (enc : Int → Bytes) : ∀ (l : List Frag), (∀ f ∈ l, ∀ v, v = f.off ∨ v = f.len → (enc v).length = 12) →
    ((l.map fun f => enc f.off ++ enc f.len).flatten).length = 24 * l.length
  | [], _ => rfl
  | f :: l, h => by
    rw [List.map_cons, List.flatten_cons, List.length_append, List.length_append, flatten_len enc l (fun g hg => h g (by simp [hg])),
      h f (by simp) _ (Or.inl rfl), h f (by simp) _ (Or.inr rfl), List.length_cons]
    omega

theorem tableOf_spec (enc : Int → Bytes) (l : List Frag) (n : Nat) (flag : UInt8) (rest : Bytes)
    (h : ∀ f ∈ l, ∀ v, v = f.off ∨ v = f.len → (enc v).length = 12 ∧ (enc v).head? ≠ some 0 ∧ NumField (enc v) v) (hn : l.length ≤ n) :
    Slots n (tableOf enc n l flag ++ rest) l ∧ (tableOf enc n l flag ++ rest)[24 * n]? = some flag ∧ (tableOf enc n l flag).length = 24 * n + 1 := by
  have hl := flatten_len enc l (fun f hf v hv => (h f hf v hv).1)
  refine ⟨?_, ?_, ?_⟩
  · unfold tableOf
    rw [List.append_assoc, List.append_assoc]
    refine slots_tableOf enc l n _ h hn ?_
    intro hlt
    obtain ⟨k, hk⟩ : ∃ k, 24 * (n - l.length) = k + 1 := ⟨24 * (n - l.length) - 1, by omega⟩
    rw [hk, List.replicate_succ]
    rfl
  · unfold tableOf
    rw [List.append_assoc, List.getElem?_append_right (by rw [List.length_append, hl, List.length_replicate]; omega), List.length_append, hl, List.length_replicate]
    have : 24 * n - (24 * l.length + 24 * (n - l.length)) = 0 := by omega
    rw [this]
    rfl
  · unfold tableOf
    rw [List.length_append, List.length_append, hl, List.length_replicate, List.length_singleton]
    omega

theorem chain_ext (enc : Int → Bytes) : ∀ (fuel : Nat) (l : List Frag), l ≠ [] → l.length < fuel →
    (∀ f ∈ l, ∀ v, v = f.off ∨ v = f.len → (enc v).length = 12 ∧ (enc v).head? ≠ some 0 ∧ NumField (enc v) v) →
    ∃ blk bs, extBlocks enc fuel l = blk :: bs ∧ blk.length = 512 ∧ Chain 21 blk bs l := by
  intro fuel
  induction fuel with
  | zero => intro l _ h; omega
  | succ fuel ih =>
    intro l hne hfu h
    obtain ⟨s1, s2, s3⟩ := tableOf_spec enc (l.take 21) 21 (if l.length > 21 then 1 else 0) (List.replicate 7 0) (fun f hf => h f (List.mem_of_mem_take hf))
      (by rw [List.length_take]; omega)
    refine ⟨_, extBlocks enc fuel (l.drop 21), by rw [extBlocks, if_neg hne], by rw [List.length_append, s3]; rfl, ?_⟩
    by_cases hl : l.length > 21
    · simp only [if_pos hl] at s1 s2 ⊢
      obtain ⟨blk, bs, i1, i2, i3⟩ := ih (l.drop 21) (by intro h0; have := congrArg List.length h0; rw [List.length_drop] at this; simp at this; omega)
        (by rw [List.length_drop]; omega) (fun f hf => h f (List.mem_of_mem_drop hf))
      rw [i1]
      have := Chain.more s1 s2 (by decide) i2 i3
      rwa [List.take_append_drop] at this
    · simp only [if_neg hl] at s1 s2 ⊢
      have hd : l.drop 21 = [] := List.drop_eq_nil_iff.2 (by omega)
      have ht : l.take 21 = l := List.take_of_length_le (by omega)
      rw [ht] at s1 s2 ⊢
      rw [hd]
      have : extBlocks enc fuel [] = [] := by cases fuel <;> simp [extBlocks]
      rw [this]
      exact .last s1 s2

/-! ### Finding the map -/

theorem which_spec (recs : Str → Str) :
    (which recs = .v0 ↔ (recs "GNU.sparse.major".toList = "0".toList ∧ (recs "GNU.sparse.minor".toList = "0".toList ∨ recs "GNU.sparse.minor".toList = "1".toList)) ∨
        (recs "GNU.sparse.major".toList = [] ∧ recs "GNU.sparse.minor".toList = [] ∧ recs "GNU.sparse.map".toList ≠ [])) ∧
    (which recs = .v1 ↔ recs "GNU.sparse.major".toList = "1".toList ∧ recs "GNU.sparse.minor".toList = "0".toList) := by
  unfold which
  simp only
  generalize recs "GNU.sparse.major".toList = major
  generalize recs "GNU.sparse.minor".toList = minor
  generalize recs "GNU.sparse.map".toList = m
  have h0 : "0".toList = ['0'] := rfl
  have h1 : "1".toList = ['1'] := rfl
  rw [h0, h1]
  by_cases a : major = ['0'] ∧ (minor = ['0'] ∨ minor = ['1'])
  · rw [if_pos a]
    refine ⟨⟨fun _ => Or.inl a, fun _ => rfl⟩, ⟨fun h => (by cases h), ?_⟩⟩
    rintro ⟨h, _⟩
    rw [a.1] at h
    exact absurd h (by decide)
  · rw [if_neg a]
    by_cases b : major = ['1'] ∧ minor = ['0']
    · rw [if_pos b]
      refine ⟨⟨fun h => (by cases h), ?_⟩, ⟨fun _ => b, fun _ => rfl⟩⟩
      rintro (h | ⟨h, _⟩)
      · exact absurd h a
      · rw [b.1] at h; cases h
    · rw [if_neg b]
      by_cases c : major ≠ [] ∨ minor ≠ []
      · rw [if_pos c]
        refine ⟨⟨fun h => (by cases h), ?_⟩, ⟨fun h => (by cases h), fun h => absurd h b⟩⟩
        rintro (h | ⟨h, h', _⟩)
        · exact absurd h a
        · rcases c with c | c
          · exact absurd h c
          · exact absurd h' c
      · rw [if_neg c]
        have c1 : major = [] := Classical.byContradiction fun h => c (Or.inl h)
        have c2 : minor = [] := Classical.byContradiction fun h => c (Or.inr h)
        by_cases d : m ≠ []
        · rw [if_pos d]
          exact ⟨⟨fun _ => Or.inr ⟨c1, c2, d⟩, fun _ => rfl⟩, ⟨fun h => (by cases h), fun h => absurd h b⟩⟩
        · rw [if_neg d]
          refine ⟨⟨fun h => (by cases h), ?_⟩, ⟨fun h => (by cases h), fun h => absurd h b⟩⟩
          rintro (h | ⟨_, _, h⟩)
          · exact absurd h a
          · exact absurd h d

theorem handle_read {e : Env} {fuel : Nat} {tf : UInt8} {recs : Str → Str} {blk : Bytes} {r : Rd} {m : Option (List Frag)} (hb : blk.length = 512)
    (h : handle e fuel tf recs blk r = some (.ok m)) : SaysMap tf recs blk r.rest m := by
  unfold handle at h
  have hw := which_spec recs
  split at h
  · rename_i htf
    unfold readOld at h
    cases hx : oldLoop e fuel 4 ((blk.drop 386).take 97) r with
    | none => rw [hx] at h; cases h
    | some x =>
      cases x with
      | error er => rw [hx] at h; cases h
      | ok z =>
        obtain ⟨l, r'⟩ := z
        rw [hx] at h
        cases h
        obtain ⟨bs, tail, h1, h2, _⟩ := oldLoop_read e fuel 4 _ r r' l (by rw [List.length_take, List.length_drop]; omega) hx
        exact .old htf h1 h2
  · rename_i htf
    cases hwh : which recs with
    | none_ =>
      rw [hwh] at h hw
      cases h
      have n0 : ¬ _ := fun x => by have := hw.1.2 x; cases this
      have n1 : ¬ _ := fun x => by have := hw.2.2 x; cases this
      by_cases c : recs "GNU.sparse.major".toList ≠ [] ∨ recs "GNU.sparse.minor".toList ≠ []
      · exact .unknown htf c (fun x => n0 (Or.inl x)) n1
      · have c1 : recs "GNU.sparse.major".toList = [] := Classical.byContradiction fun h => c (Or.inl h)
        have c2 : recs "GNU.sparse.minor".toList = [] := Classical.byContradiction fun h => c (Or.inr h)
        have c3 : recs "GNU.sparse.map".toList = [] := Classical.byContradiction fun h => n0 (Or.inr ⟨c1, c2, h⟩)
        exact .plain htf c1 c2 c3
    | v0 =>
      rw [hwh] at h hw
      simp only at h
      cases hx : read0x1 (recs "GNU.sparse.numblocks".toList) (recs "GNU.sparse.map".toList) with
      | none => rw [hx] at h; cases h
      | some l =>
        rw [hx] at h
        cases h
        obtain ⟨p1, p2, ls, p3, p4⟩ := (C100_pax0_exact _ _ l).1 hx
        exact .v0 htf (hw.1.1 rfl) p1 p2 p3 p4
    | v1 =>
      rw [hwh] at h hw
      simp only at h
      cases hx : read1x0 e fuel r with
      | none => rw [hx] at h; cases h
      | some x =>
        cases x with
        | error er => rw [hx] at h; cases h
        | ok z =>
          obtain ⟨l, r'⟩ := z
          rw [hx] at h
          cases h
          obtain ⟨text, tail, p1, p2, p3, _⟩ := C100_pax1_read e fuel r r' l hx
          exact .v1 htf (hw.2.1 rfl).1 (hw.2.1 rfl).2 p1 p2 p3

theorem chain_len {n : Nat} {b : Bytes} {bs : List Bytes} {l : List Frag} (h : Chain n b bs l) : bs.flatten.length = 512 * bs.length := by
  induction h with
  | last => rfl
  | more _ _ _ hb _ ih => rw [List.flatten_cons, List.length_append, ih, hb, List.length_cons]; omega

theorem handle_reads (e : Env) (hf : ∀ k, e.fault k = false) {fuel : Nat} {tf : UInt8} {recs : Str → Str} {blk : Bytes} {r : Rd} {m : Option (List Frag)}
    (hb : blk.length = 512) (hfu : r.rest.length / 512 < fuel) (h : SaysMap tf recs blk r.rest m) : handle e fuel tf recs blk r = some (.ok m) := by
  unfold handle
  have hw := which_spec recs
  cases h with
  | @old bs tail l htf hr hc =>
    rw [if_pos htf]
    have hlen : bs.length < fuel := by
      have := chain_len hc
      have h2 := congrArg List.length hr
      rw [List.length_append] at h2
      omega
    obtain ⟨r', h'⟩ := oldLoop_reads e hf hc fuel r tail (by rw [List.length_take, List.length_drop]; omega) hr hlen
    unfold readOld
    rw [h']
  | @v0 ls l htf hv h1 h2 h3 h4 =>
    rw [if_neg htf, hw.1.2 hv]
    simp only
    rw [(C100_pax0_exact _ _ l).2 ⟨h1, h2, ls, h3, h4⟩]
  | @v1 text tail l htf h1 h2 h3 h4 h5 =>
    rw [if_neg htf, hw.2.2 ⟨h1, h2⟩]
    simp only
    obtain ⟨r', h', _⟩ := C100_pax1_reads e hf fuel r text tail l h3 h4 h5 hfu
    rw [h']
  | unknown htf h1 h2 h3 =>
    rw [if_neg htf]
    have : which recs = .none_ := by
      cases hx : which recs with
      | none_ => rfl
      | v0 =>
        rcases hw.1.1 hx with h | ⟨a, b, _⟩
        · exact absurd h h2
        · rcases h1 with h1 | h1
          · exact absurd a h1
          · exact absurd b h1
      | v1 => exact absurd (hw.2.1 hx) h3
    rw [this]
  | plain htf h1 h2 h3 =>
    rw [if_neg htf]
    have : which recs = .none_ := by
      cases hx : which recs with
      | none_ => rfl
      | v0 =>
        rcases hw.1.1 hx with h | ⟨_, _, h⟩
        · rw [h1] at h; exact absurd h.1 (by decide)
        · exact absurd h3 h
      | v1 =>
        have := (hw.2.1 hx).1
        rw [h1] at this; exact absurd this (by decide)
    rw [this]

theorem isMeta_iff (c : UInt8) : isMeta c = true ↔ c ∈ ([120, 103, 76, 75] : List UInt8) := by
  unfold isMeta
  simp only [Bool.or_eq_true, beq_iff_eq, List.mem_cons, List.not_mem_nil, or_false, or_assoc]

theorem readFull_ok {e : Env} {r r1 : Rd} {b : Bytes} (h : readFull e r = some (b, none, r1)) :
    512 ≤ r.rest.length ∧ b = r.rest.take 512 ∧ r1.data = r.data ∧ r1.pos = r.pos + 512 := by
  unfold readFull at h
  cases hx : tryReadFull e 512 513 [] r with
  | none => rw [hx] at h; cases h
  | some x =>
    obtain ⟨b', er, r'⟩ := x
    rw [hx] at h
    simp only [Option.some.injEq, Prod.mk.injEq] at h
    obtain ⟨rfl, he, rfl⟩ := h
    obtain ⟨k, k0, k1, k2, k3, k4, k5, k6, k7, k8, k9⟩ := tryReadFull_spec e 512 513 [] r b' er r' (by simp) hx
    simp only [List.nil_append, List.length_nil, Nat.zero_add] at k1 k2
    split at he
    · cases he
    · have := k6 he
      have hk : k = 512 := by omega
      subst hk
      exact ⟨k0, k1, k4, k5⟩

theorem readFull_eof {e : Env} {r r1 : Rd} {b : Bytes} (h : readFull e r = some (b, some .eof, r1)) : r.rest.length < 512 ∧ b = [] := by
  unfold readFull at h
  cases hx : tryReadFull e 512 513 [] r with
  | none => rw [hx] at h; cases h
  | some x =>
    obtain ⟨b', er, r'⟩ := x
    rw [hx] at h
    simp only [Option.some.injEq, Prod.mk.injEq] at h
    obtain ⟨rfl, he, rfl⟩ := h
    obtain ⟨k, k0, k1, k2, k3, k4, k5, k6, k7, k8, k9⟩ := tryReadFull_spec e 512 513 [] r b' er r' (by simp) hx
    simp only [List.nil_append, List.length_nil, Nat.zero_add] at k1 k2
    split at he
    · cases he
    · rename_i hc
      obtain ⟨h1, h2⟩ := k7 he
      rw [rest_advance k4 k5, List.drop_eq_nil_iff] at h1
      refine ⟨by omega, ?_⟩
      apply Classical.byContradiction
      intro hb
      exact hc ⟨he, hb⟩

theorem skip_spec {blk : Bytes} {r : Rd} {v : Nat} (h : NumField ((blk.drop 124).take 12) v) (hv : (v : Int) < 2 ^ 62) :
    (skip blk r).data = r.data ∧ (skip blk r).pos = r.pos + blocks v := by
  have hp := (numField_iff (b := (blk.drop 124).take 12) (by rw [List.length_take]; omega) (v : Int)).2 h
  have hw : wrap64 ((v : Int) + (-(v : Int)) % 512) = blocks v := by
    rw [wrap64_of_isInt64 (by unfold IsInt64 minInt64 maxInt64; omega)]
    unfold blocks
    omega
  unfold skip
  simp only [hp, Option.getD_some, hw]
  rw [if_neg (by omega)]
  exact ⟨rfl, by show ((r.pos : Int) + (blocks v : Int)).toNat = _; omega⟩

/-- The loop over the extension headers reaches the header block, unless reading fails. -/
theorem findHeader_leads (e : Env) (tf : UInt8) (recs : Str → Str) {region blk rest : Bytes} (h : Leads region blk rest) : ∀ (fuel : Nat) (r : Rd), r.rest = region →
    region.length / 512 < fuel →
    blk.length = 512 ∧ ((∃ er, findHeader e tf recs fuel r = some (.error er) ∧ ∃ k, e.fault k = true) ∨
      ∃ fuel' r', findHeader e tf recs fuel r = handle e fuel' tf recs blk r' ∧ r'.rest = rest ∧ rest.length / 512 < fuel') := by
  -- one block
  have block : ∀ (r : Rd), 512 ≤ r.rest.length → (∃ b er r1, readFull e r = some (b, some er, r1) ∧ er ≠ .eof ∧ ∃ k, e.fault k = true) ∨
      ∃ r1, readFull e r = some (r.rest.take 512, none, r1) ∧ r1.data = r.data ∧ r1.pos = r.pos + 512 := by
    intro r hr
    cases hx : readFull e r with
    | none =>
      unfold readFull at hx
      cases hy : tryReadFull e 512 513 [] r with
      | none => exact absurd hy (tryReadFull_total e 512 513 [] r (by simp) (by simp))
      | some y => rw [hy] at hx; cases hx
    | some x =>
      obtain ⟨b, er, r1⟩ := x
      cases er with
      | none =>
        obtain ⟨_, h2, h3, h4⟩ := readFull_ok hx
        exact Or.inr ⟨r1, by rw [h2], h3, h4⟩
      | some er =>
        refine Or.inl ⟨b, er, r1, rfl, ?_, ?_⟩
        · rintro rfl
          have := (readFull_eof hx).1
          omega
        · by_cases hfa : ∃ k, e.fault k = true
          · exact hfa
          · have hfa : ∀ k, e.fault k = false := by
              intro k
              cases hk : e.fault k with
              | false => rfl
              | true => exact absurd ⟨k, hk⟩ hfa
            obtain ⟨r2, h2, _⟩ := tryReadFull_block e hfa r hr
            unfold readFull at hx
            rw [h2] at hx
            cases hx
  have drop_head : ∀ (b : Bytes) (k : Nat) (c : UInt8), b[k]? = some c → (b.drop k).head? = some c := by
    intro b k c h; rw [List.head?_drop]; exact h
  induction h with
  | @here blk rest c hb hc hm =>
    intro fuel r hr hfu
    refine ⟨hb, ?_⟩
    obtain ⟨fuel, rfl⟩ : ∃ f, fuel = f + 1 := ⟨fuel - 1, by omega⟩
    rw [findHeader]
    rcases block r (by rw [hr, List.length_append]; omega) with ⟨b, er, r1, h1, h2, h3⟩ | ⟨r1, h1, h2, h3⟩
    · left
      rw [h1]
      simp only
      rw [if_pos (Or.inl ⟨by simp, by simpa using h2⟩)]
      exact ⟨er, rfl, h3⟩
    · right
      have htk : r.rest.take 512 = blk := by rw [hr, List.take_append_of_le_length (by omega), List.take_of_length_le (by omega)]
      rw [h1, htk]
      simp only
      rw [if_neg (by rintro (⟨h, _⟩ | h); exact h rfl; rw [h] at hb; simp at hb), drop_head blk 156 c hc]
      simp only
      rw [if_neg (by rw [isMeta_iff]; exact hm)]
      have hrest : r1.rest = rest := by rw [rest_advance h2 h3, hr, ← hb, List.drop_left]
      refine ⟨fuel, r1, rfl, hrest, ?_⟩
      rw [List.length_append] at hfu
      omega
  | @ext ex payload more blk rest c v hb hc hm hn hv hp hl ih =>
    intro fuel r hr hfu
    obtain ⟨fuel, rfl⟩ : ∃ f, fuel = f + 1 := ⟨fuel - 1, by omega⟩
    have hr' : r.rest = ex ++ (payload ++ more) := by rw [hr, List.append_assoc]
    rw [List.length_append, List.length_append] at hfu
    rcases block r (by rw [hr', List.length_append]; omega) with ⟨b, er, r1, h1, h2, h3⟩ | ⟨r1, h1, h2, h3⟩
    · have hbl : blk.length = 512 := by
        have hmore : ∀ {x y z : Bytes}, Leads x y z → y.length = 512 := by
          intro x y z h
          induction h with
          | here h _ _ => exact h
          | ext _ _ _ _ _ _ _ ih => exact ih
        exact hmore hl
      refine ⟨hbl, Or.inl ?_⟩
      rw [findHeader, h1]
      simp only
      rw [if_pos (Or.inl ⟨by simp, by simpa using h2⟩)]
      exact ⟨er, rfl, h3⟩
    · have htk : r.rest.take 512 = ex := by rw [hr', List.take_append_of_le_length (by omega), List.take_of_length_le (by omega)]
      have hsk := skip_spec (blk := ex) (r := r1) hn hv
      have hrest : (skip ex r1).rest = more := by
        rw [rest_advance hsk.1 hsk.2, rest_advance h2 h3, hr', ← hb, List.drop_left, ← hp, List.drop_left]
      have := ih fuel (skip ex r1) hrest (by omega)
      rw [findHeader, h1, htk]
      simp only
      rw [if_neg (by rintro (⟨h, _⟩ | h); exact h rfl; rw [h] at hb; simp at hb), drop_head ex 156 c hc]
      simp only
      rw [if_pos ((isMeta_iff c).2 hm)]
      exact this

/-- **C100**. The holes of a file: when the map that its headers say is read, however the bytes come and whatever fails, the holes are the inverse of that map;
a file without a map has none. -/
theorem C100_holes (e : Env) (fuel : Nat) (tf : UInt8) (size : Int) (recs : Str → Str) (region blk rest : Bytes) (hl : Leads region blk rest) (htf : tf ≠ 103)
    (hfu : region.length / 512 < fuel) (x : Option (List Frag)) (h : reconstruct e fuel tf size recs region = some (.ok x)) :
    ∃ m, SaysMap tf recs blk rest m ∧ x = m.map fun l => invert l size := by
  unfold reconstruct at h
  rw [if_neg htf] at h
  obtain ⟨hb, hcase⟩ := findHeader_leads e tf recs hl fuel ⟨region, 0, 0⟩ rfl hfu
  rcases hcase with ⟨er, h1, _⟩ | ⟨fuel', r', h1, h2, _⟩
  · rw [h1] at h; cases h
  · rw [h1] at h
    cases hx : handle e fuel' tf recs blk r' with
    | none => rw [hx] at h; cases h
    | some y =>
      rw [hx] at h
      cases y with
      | error er => cases h
      | ok m =>
        have := handle_read hb hx
        rw [h2] at this
        cases m with
        | none => cases h; exact ⟨none, this, rfl⟩
        | some l => cases h; exact ⟨some l, this, rfl⟩

/-- **C100**. And the map is read when reading does not fail. -/
theorem C100_holes_found (e : Env) (hf : ∀ k, e.fault k = false) (fuel : Nat) (tf : UInt8) (size : Int) (recs : Str → Str) (region blk rest : Bytes)
    (hl : Leads region blk rest) (htf : tf ≠ 103) (hfu : region.length / 512 < fuel) (m : Option (List Frag)) (hm : SaysMap tf recs blk rest m) :
    reconstruct e fuel tf size recs region = some (.ok (m.map fun l => invert l size)) := by
  unfold reconstruct
  rw [if_neg htf]
  obtain ⟨hb, hcase⟩ := findHeader_leads e tf recs hl fuel ⟨region, 0, 0⟩ rfl hfu
  rcases hcase with ⟨er, _, k, hk⟩ | ⟨fuel', r', h1, h2, h3⟩
  · rw [hf k] at hk; cases hk
  · rw [h1, handle_reads e hf hb (by rw [h2]; exact h3) (by rw [h2]; exact hm)]
    cases m <;> rfl

/-- **C100** (old GNU format, round trip). A map of any length written in the old format, with fields in octal or base-256, is read back. -/
theorem C100_old_roundtrip (e : Env) (hf : ∀ k, e.fault k = false) (enc : Int → Bytes) (l : List Frag)
    (henc : ∀ f ∈ l, ∀ v, v = f.off ∨ v = f.len → (enc v).length = 12 ∧ (enc v).head? ≠ some 0 ∧ NumField (enc v) v)
    (pre post tail : Bytes) (hpre : pre.length = 386) (r : Rd) (fuel : Nat) (hr : r.rest = (extBlocks enc (l.length + 1) (l.drop 4)).flatten ++ tail)
    (hfu : l.length < fuel) :
    ∃ r', readOld e fuel (pre ++ tableOf enc 4 (l.take 4) (if l.length > 4 then 1 else 0) ++ post) r = some (.ok (l, r')) := by
  have ht := tableOf_spec enc (l.take 4) 4 (if l.length > 4 then 1 else 0) [] (fun f hf => henc f (List.mem_of_mem_take hf)) (by rw [List.length_take]; omega)
  rw [List.append_nil] at ht
  obtain ⟨s1, s2, s3⟩ := ht
  have htab : ((pre ++ tableOf enc 4 (l.take 4) (if l.length > 4 then 1 else 0) ++ post).drop 386).take 97 = tableOf enc 4 (l.take 4) (if l.length > 4 then 1 else 0) := by
    rw [List.append_assoc, ← hpre, List.drop_left, List.take_append_of_le_length (by omega), List.take_of_length_le (by omega)]
  unfold readOld
  rw [htab]
  have hchain : Chain 4 (tableOf enc 4 (l.take 4) (if l.length > 4 then 1 else 0)) (extBlocks enc (l.length + 1) (l.drop 4)) l ∧
      (extBlocks enc (l.length + 1) (l.drop 4)).length ≤ l.length := by
    have hlen : ∀ (fuel : Nat) (l : List Frag), (extBlocks enc fuel l).length ≤ l.length := by
      intro fuel
      induction fuel with
      | zero => intro l; simp [extBlocks]
      | succ fuel ih =>
        intro l
        rw [extBlocks]
        split
        · simp
        · rename_i hne
          have := ih (l.drop 21)
          have : 0 < l.length := List.length_pos_iff.2 hne
          rw [List.length_cons]
          rw [List.length_drop] at *
          omega
    by_cases hl : l.length > 4
    · simp only [if_pos hl] at s1 s2 ⊢
      obtain ⟨blk, bs, i1, i2, i3⟩ := chain_ext enc (l.length + 1) (l.drop 4) (by intro h0; have := congrArg List.length h0; rw [List.length_drop] at this; simp at this; omega)
        (by rw [List.length_drop]; omega) (fun f hf => henc f (List.mem_of_mem_drop hf))
      have hh := hlen (l.length + 1) (l.drop 4)
      rw [i1] at hh ⊢
      have := Chain.more s1 s2 (by decide) i2 i3
      rw [List.take_append_drop] at this
      exact ⟨this, by rw [List.length_drop] at hh; omega⟩
    · simp only [if_neg hl] at s1 s2 ⊢
      have hd : l.drop 4 = [] := List.drop_eq_nil_iff.2 (by omega)
      have htk : l.take 4 = l := List.take_of_length_le (by omega)
      rw [htk] at s1 s2 ⊢
      rw [hd]
      have : extBlocks enc (l.length + 1) [] = [] := by simp [extBlocks]
      rw [this]
      exact ⟨.last s1 s2, by simp⟩
  exact oldLoop_reads e hf hchain.1 fuel r tail (by rw [s3]; omega) hr (by omega)

/-! ### Non-vacuity -/

/-- Eleven octal digits and a NUL. -/
def octField (v : Int) : Bytes := ((List.range 11).reverse.map fun i => UInt8.ofNat (48 + v.toNat / 8 ^ i % 8)) ++ [0]
def exEnv : Env := ⟨fun k => k % 3, fun _ => false, fun _ => true⟩

/-- Four entries in the header block and two in an extension block. -/
def exMap : List Frag := [⟨0, 5⟩, ⟨512, 1⟩, ⟨1024, 8⟩, ⟨2048, 8⟩, ⟨4096, 16⟩, ⟨10000, 7⟩]

/-- The hypothesis of `C100_old_roundtrip` is met. -/
theorem ex_enc : ∀ f ∈ exMap, ∀ v, v = f.off ∨ v = f.len → (octField v).length = 12 ∧ (octField v).head? ≠ some 0 ∧ NumField (octField v) v := by
  have key : ∀ f ∈ exMap, ((octField f.off).length = 12 ∧ (octField f.off).head? ≠ some 0 ∧ parseNumeric (octField f.off) = some f.off) ∧
      ((octField f.len).length = 12 ∧ (octField f.len).head? ≠ some 0 ∧ parseNumeric (octField f.len) = some f.len) := by decide +kernel
  intro f hf v hv
  obtain ⟨⟨a1, a2, a3⟩, b1, b2, b3⟩ := key f hf
  rcases hv with rfl | rfl
  · exact ⟨a1, a2, (numField_iff (by omega) _).1 a3⟩
  · exact ⟨b1, b2, (numField_iff (by omega) _).1 b3⟩

/-- A file with a map of format 1.0, behind an extended header. -/
def exHeader (c : UInt8) (size : Int) : Bytes := List.replicate 124 0 ++ octField size ++ List.replicate 20 0 ++ [c] ++ List.replicate 355 0
def exRegion : Bytes := exHeader 120 5 ++ List.replicate 512 9 ++ (exHeader 48 0 ++ ([50, 10, 48, 10, 53, 10, 49, 48, 10, 51, 10] ++ List.replicate 501 0))
def exRecs (k : Str) : Str := if k = "GNU.sparse.major".toList then "1".toList else if k = "GNU.sparse.minor".toList then "0".toList else []

/-- The hypotheses of `C100_holes_found` are met. -/
theorem exRegion_leads : Leads exRegion (exHeader 48 0) ([50, 10, 48, 10, 53, 10, 49, 48, 10, 51, 10] ++ List.replicate 501 0) := by
  refine .ext (c := 120) (v := 5) (by decide +kernel) (by decide +kernel) (by decide) ?_ (by omega) (by decide +kernel) (.here (c := 48) (by decide +kernel) (by decide +kernel) (by decide))
  exact (numField_iff (by decide +kernel) _).1 (by decide +kernel)

theorem exText : IsText [50, 10, 48, 10, 53, 10, 49, 48, 10, 51, 10] [⟨0, 5⟩, ⟨10, 3⟩] := by
  refine ⟨[50], [[48], [53], [49, 48], [51]], rfl, (parseInt64_iff _ _).1 (by decide), by decide, ?_⟩
  exact .cons ((parseInt64_iff _ _).1 (by decide)) ((parseInt64_iff _ _).1 (by decide))
    (.cons ((parseInt64_iff _ _).1 (by decide)) ((parseInt64_iff _ _).1 (by decide)) .nil)

example : reconstruct exEnv 8 48 20 exRecs exRegion = some (.ok (some [⟨5, 5⟩, ⟨13, 7⟩])) := by
  rw [C100_holes_found exEnv (fun _ => rfl) 8 48 20 exRecs exRegion _ _ exRegion_leads (by decide) (by decide +kernel) _
    (.v1 (by decide) (by decide) (by decide) rfl exText (by decide +kernel))]
  have : invert [⟨0, 5⟩, ⟨10, 3⟩] 20 = [⟨5, 5⟩, ⟨13, 7⟩] := by decide
  rw [Option.map_some, this]

example : ∃ r', readOld exEnv 8 (List.replicate 386 1 ++ tableOf octField 4 (exMap.take 4) 1 ++ List.replicate 29 0)
    ⟨(extBlocks octField 7 (exMap.drop 4)).flatten ++ [], 0, 0⟩ = some (.ok (exMap, r')) :=
  C100_old_roundtrip exEnv (fun _ => rfl) octField exMap ex_enc _ _ [] (by decide +kernel) _ 8 rfl (by decide)

end Verif.Tarfs.Map
