import Verif.Fsutil.TempModel
/-
Properties C21 (random temporary names), C22 (temp-directory policy), C23 (random open).
-/
namespace Verif.Fsutil
open Verif.Path

/-- Ten ASCII digits. -/
def TenDigits (d : Str) : Prop := d.length = 10 ∧ ∀ c ∈ d, '0' ≤ c ∧ c ≤ '9'

theorem padded_ten {u : Nat} (hu : u < 2 ^ 32) : TenDigits (padded u) := padded_spec hu

theorem TenDigits.no_dot {d : Str} (h : TenDigits d) : '.' ∉ d := fun hm => absurd (h.2 _ hm) (by decide)

theorem all_isDigit {d : Str} : d.all isDigit = true ↔ ∀ c ∈ d, '0' ≤ c ∧ c ≤ '9' := by
  rw [List.all_eq_true]
  constructor
  · intro h c hc; exact (isDigit_iff c).1 (h c hc)
  · intro h c hc; exact (isDigit_iff c).2 (h c hc)

/-- C21: the matcher recognises exactly the names `<base>.<10 digits>.tmp` with a non-empty base. -/
theorem C21_match_exact (path : Str) :
    matchRandom path = true ↔ ∃ b d, base path = b ++ '.' :: d ++ tmpExt ∧ b ≠ [] ∧ TenDigits d := by
  unfold matchRandom
  simp only
  constructor
  · intro h
    split at h
    · cases h
    · rename_i hs
      obtain ⟨t, ht⟩ := (hasSuffix_iff _ _).1 (by simpa using hs)
      rw [ht, trimSuffix_append] at h
      cases hc : cutLast '.' t with
      | none => rw [hc] at h; cases h
      | some p =>
        obtain ⟨x, y⟩ := p
        rw [hc] at h
        simp only at h
        split at h
        · cases h
        · split at h
          · cases h
          · rename_i h1 h2
            obtain ⟨rfl, _⟩ := cutLast_some hc
            exact ⟨x, y, ht, h1, by simpa using h2, all_isDigit.1 h⟩
  · rintro ⟨b, d, hb, hne, hd⟩
    rw [hb]
    have hs : hasSuffix (b ++ '.' :: d ++ tmpExt) tmpExt = true := (hasSuffix_iff _ _).2 ⟨_, rfl⟩
    rw [hs, trimSuffix_append, cutLast_append hd.no_dot]
    simp [hne, hd.1, all_isDigit.2 hd.2]

theorem pattern_no_slash {target : Str} (h : slash ∉ pattern target) : slash ∉ patBase target := by
  unfold pattern at h
  simp only [List.mem_append, not_or] at h
  exact h.1.1

theorem randomTemp_eq {target : Str} {u : Nat} {t : Str} (h : randomTemp target u = some t) :
    slash ∉ patBase target ∧ t = join2 (randomPolicyDir target) (patBase target ++ '.' :: padded u ++ tmpExt) := by
  unfold randomTemp at h
  split at h
  · cases h
  · rename_i hs
    simp at h
    refine ⟨pattern_no_slash hs, ?_⟩
    rw [← h]
    unfold randName
    rw [patParts_pattern]
    have : randDir (randomPolicyDir target) = randomPolicyDir target := by
      unfold randDir; rw [if_neg]; exact clean_ne_nil _
    rw [this]
    simp

theorem tempFile_isName {target : Str} (h : slash ∉ patBase target) {u : Nat} (hu : u < 2 ^ 32) :
    IsName (patBase target ++ '.' :: padded u ++ tmpExt) := by
  have := randName_isName (p := patBase target ++ ['.']) (q := tmpExt) hu (by
    simp only [List.mem_append, not_or]; exact ⟨h, by decide⟩) (by decide)
  simpa using this

theorem policyDir_ne (target : Str) : randomPolicyDir target ≠ [] := clean_ne_nil _

theorem clean_policyDir (target : Str) : clean (randomPolicyDir target) = randomPolicyDir target := clean_clean _

/-- The target has a usable base name: it is not the root. -/
theorem C21_accepts (target : Str) (u : Nat) : (∃ t, randomTemp target u = some t) ↔ base target ≠ [slash] := by
  have key : slash ∈ pattern target ↔ base target = [slash] := by
    unfold pattern
    simp only [List.mem_append]
    have h1 : slash ∉ (['.', '*'] : Str) := by decide
    have h2 : slash ∉ tmpExt := by decide
    simp only [h1, h2, or_false]
    rw [patBase_eq]
    rcases base_spec target with h | h
    · rw [h]; decide
    · constructor
      · intro hm; exact absurd ((C24_prefix (base target) 240).1.subset hm) h.2
      · intro hb; rw [hb] at h; exact absurd h (by decide)
  unfold randomTemp
  constructor
  · rintro ⟨t, h⟩ hs; rw [if_pos (key.2 hs)] at h; cases h
  · intro h; rw [if_neg (fun hm => h (key.1 hm))]; exact ⟨_, rfl⟩

/-- C21: every temporary name fits a file name, lies in the target's directory and is recognised. -/
theorem C21_temp_names (target : Str) (u : Nat) (hu : u < 2 ^ 32) (t : Str) (h : randomTemp target u = some t) :
    (base t).length ≤ 255 ∧ dir t = dir (clean target) ∧ matchRandom t = true := by
  obtain ⟨hs, rfl⟩ := randomTemp_eq h
  have hn := tempFile_isName hs hu
  have hb := base_join2 (policyDir_ne target) hn
  refine ⟨?_, ?_, ?_⟩
  · rw [hb]
    have h1 := (C24_prefix (base target) 240).2.1
    rw [← patBase_eq] at h1
    have h2 := (padded_ten hu).1
    simp only [List.length_append, List.length_cons, tmpExt]
    simp only [List.length_nil]
    omega
  · rw [dir_join2 (policyDir_ne target) hn, clean_policyDir]; rfl
  · rw [C21_match_exact, hb]
    exact ⟨patBase target, padded u, rfl, patBase_ne_nil target, padded_ten hu⟩

/-- C21: different random numbers give different names. -/
theorem C21_distinct (target : Str) (u v : Nat) (hu : u < 2 ^ 32) (hv : v < 2 ^ 32) (t : Str)
    (h1 : randomTemp target u = some t) (h2 : randomTemp target v = some t) : u = v := by
  obtain ⟨hs, e1⟩ := randomTemp_eq h1
  obtain ⟨_, e2⟩ := randomTemp_eq h2
  have b1 := base_join2 (policyDir_ne target) (tempFile_isName hs hu)
  have b2 := base_join2 (policyDir_ne target) (tempFile_isName hs hv)
  rw [← e1] at b1; rw [← e2, b1] at b2
  simp only [List.append_assoc, List.cons_append, List.append_cancel_left_eq, List.cons.injEq, true_and, List.append_cancel_right_eq] at b2
  -- equal padded numbers are equal
  have hval : ∀ w : Nat, digitsVal 0 (padded w) = some w := by
    intro w
    have hz : ∀ k, digitsVal 0 (List.replicate k '0') = some 0 := by
      intro k; induction k with
      | zero => rfl
      | succ k ih => rw [List.replicate_succ]; simp only [digitsVal, show digitVal '0' = some 0 from by decide]; exact ih
    unfold padded
    rw [digitsVal_append, hz]
    exact (digitsVal_isDecimal (natDigits_isDecimal w).ne_nil).2 (natDigits_isDecimal w)
  have := hval u
  rw [b2, hval v] at this
  simpa using this.symm

theorem bytes_ge_of_encode {r : Nat} (h : ¬ r < 0x80) : ∀ b ∈ encode r, 0x80 ≤ b := by
  unfold encode
  rw [if_neg h]
  intro b hb
  (repeat' split at hb) <;> simp at hb <;> omega

/-- Cutting valid UTF-8 at an ASCII byte leaves valid UTF-8 on both sides. -/
theorem valid_cut {c : Char} (hc : c.toNat < 0x80) : ∀ (rs : List Nat), (∀ r ∈ rs, IsScalar r) → ∀ (a b : Str),
    bytesOf (a ++ c :: b) = rs.flatMap encode → ValidUTF8 a ∧ ValidUTF8 b := by
  intro rs
  induction rs with
  | nil => intro _ a b h; simp [bytesOf] at h
  | cons r rs ih =>
    intro hrs a b h
    have hr := hrs r List.mem_cons_self
    have hrs' := fun x hx => hrs x (List.mem_cons_of_mem r hx)
    rw [List.flatMap_cons] at h
    by_cases hsmall : r < 0x80
    · have he : encode r = [r] := by unfold encode; rw [if_pos hsmall]
      rw [he] at h
      cases a with
      | nil =>
        simp [bytesOf] at h
        exact ⟨.nil, rs, hrs', by unfold bytesOf; exact h.2⟩
      | cons x xs =>
        have h' : x.toNat = r ∧ bytesOf (xs ++ c :: b) = rs.flatMap encode := by simpa [bytesOf] using h
        obtain ⟨v1, v2⟩ := ih hrs' xs b h'.2
        exact ⟨ValidUTF8.cons (e := [x]) hr (by rw [he]; simp [bytesOf, h'.1]) v1, v2⟩
    · have hge := bytes_ge_of_encode hsmall
      -- the cut is past the first scalar value
      have hlen : (encode r).length ≤ a.length := by
        rcases Nat.lt_or_ge a.length (encode r).length with hlt | hge'
        · exfalso
          have hidx : (bytesOf (a ++ c :: b))[a.length]? = some c.toNat := by simp [bytesOf]
          rw [h, List.getElem?_append_left hlt, List.getElem?_eq_getElem hlt] at hidx
          have := hge _ (List.getElem_mem hlt)
          simp at hidx
          omega
        · exact hge'
      obtain ⟨e, t, hat, he, ht⟩ : ∃ e t, a = e ++ t ∧ bytesOf e = encode r ∧ bytesOf (t ++ c :: b) = rs.flatMap encode := by
        refine ⟨a.take (encode r).length, a.drop (encode r).length, (List.take_append_drop _ _).symm, ?_, ?_⟩
        · have := congrArg (List.take (encode r).length) h
          rw [List.take_append_of_le_length (Nat.le_refl _), List.take_length] at this
          unfold bytesOf at this
          rw [List.map_append, List.take_append_of_le_length (by simpa using hlen), ← List.map_take] at this
          exact this
        · have := congrArg (List.drop (encode r).length) h
          rw [List.drop_append_of_le_length (Nat.le_refl _), List.drop_length, List.nil_append] at this
          rw [← this]
          unfold bytesOf
          rw [List.map_append, List.map_append, List.drop_append_of_le_length (by simpa using hlen), List.map_drop]
      obtain ⟨v1, v2⟩ := ih hrs' t b ht
      rw [hat]
      exact ⟨.cons hr he v1, v2⟩

theorem ValidUTF8.append {a b : Str} (ha : ValidUTF8 a) (hb : ValidUTF8 b) : ValidUTF8 (a ++ b) := by
  obtain ⟨ra, h1, h2⟩ := ha
  obtain ⟨rb, h3, h4⟩ := hb
  refine ⟨ra ++ rb, ?_, by rw [bytesOf_append, h2, h4, List.flatMap_append]⟩
  intro r hr
  rcases List.mem_append.1 hr with h | h
  · exact h1 r h
  · exact h3 r h

theorem valid_ascii {s : Str} (h : ∀ c ∈ s, c.toNat < 0x80) : ValidUTF8 s := by
  refine ⟨bytesOf s, ?_, ?_⟩
  · intro r hr
    obtain ⟨c, hc, rfl⟩ := List.mem_map.1 hr
    have := h c hc
    unfold IsScalar; omega
  · induction s with
    | nil => rfl
    | cons c cs ih =>
      have hc := h c List.mem_cons_self
      show c.toNat :: bytesOf cs = encode c.toNat ++ (bytesOf cs).flatMap encode
      rw [← ih (fun x hx => h x (List.mem_cons_of_mem _ hx))]
      unfold encode; rw [if_pos hc]; rfl

/-- The base of a valid path is valid. -/
theorem valid_base {s : Str} (h : ValidUTF8 s) : ValidUTF8 (base s) := by
  have trim : ∀ (n : Nat) (s : Str), s.length = n → ValidUTF8 s → ValidUTF8 ((s.reverse.dropWhile (· = slash)).reverse) := by
    intro n
    induction n with
    | zero => intro s hn h; rw [List.length_eq_zero_iff.1 hn]; exact .nil
    | succ n ih =>
      intro s hn h
      rcases List.eq_nil_or_concat s with rfl | ⟨i, a, rfl⟩
      · exact .nil
      · rw [List.concat_eq_append] at *
        by_cases ha : a = slash
        · subst ha
          obtain ⟨rs, h1, h2⟩ := h
          have := (valid_cut (c := slash) (by decide) rs h1 i [] h2).1
          have hi := ih i (by simp at hn; exact hn) this
          rw [List.reverse_append]
          simpa using hi
        · rw [List.reverse_append]
          simpa [ha] using h
  have last : ∀ s, ValidUTF8 s → ValidUTF8 (filePart s) := by
    intro s h
    unfold filePart
    by_cases hs : slash ∈ s
    · -- split at the last slash
      obtain ⟨a, b, hb⟩ : ∃ a b, cutLast slash s = some (a, b) := by
        cases hc : cutLast slash s with
        | some p => exact ⟨_, _, rfl⟩
        | none =>
          exfalso
          clear h
          induction s with
          | nil => simp at hs
          | cons c cs ih =>
            unfold cutLast at hc
            cases hx : cutLast slash cs with
            | some p => rw [hx] at hc; simp at hc
            | none =>
              rw [hx] at hc
              simp at hc
              rcases List.mem_cons.1 hs with h | h
              · exact hc h.symm
              · exact ih h hx
      obtain ⟨rfl, hnb⟩ := cutLast_some hb
      obtain ⟨rs, h1, h2⟩ := h
      have v := (valid_cut (c := slash) (by decide) rs h1 a b h2).2
      rw [List.reverse_append, List.reverse_cons, List.append_assoc]
      have := takeWhile_rev hnb a.reverse
      simp only [List.singleton_append, this, List.reverse_reverse]
      exact v
    · rw [takeWhile_all hs, List.reverse_reverse]; exact h
  unfold base
  split
  · exact valid_ascii (by decide)
  · simp only
    split
    · exact valid_ascii (by decide)
    · exact last _ (trim _ s rfl h)

/-- C21: a valid UTF-8 target gives a valid UTF-8 temporary file name. -/
theorem C21_valid_utf8 (target : Str) (u : Nat) (hu : u < 2 ^ 32) (t : Str) (h : randomTemp target u = some t) (hv : ValidUTF8 target) :
    ValidUTF8 (base t) := by
  obtain ⟨hs, rfl⟩ := randomTemp_eq h
  rw [base_join2 (policyDir_ne target) (tempFile_isName hs hu)]
  have v1 : ValidUTF8 (patBase target) := by rw [patBase_eq]; exact (C24_longest_valid _ 240 (valid_base hv)).1
  refine (v1.append ?_).append (valid_ascii (by decide))
  apply valid_ascii
  intro c hc
  rcases List.mem_cons.1 hc with rfl | hc
  · decide
  · have h1 := ((padded_ten hu).2 c hc).2
    have : c.toNat ≤ 57 := h1
    omega

/-- non-vacuity of C21: a target, its temporary name, and what the matcher says about both. -/
example : randomTemp "a/b*c".toList 42 = some "a/b*c.0000000042.tmp".toList ∧ matchRandom "a/b*c.0000000042.tmp".toList = true ∧
    matchRandom "a/.0000000042.tmp".toList = false ∧ matchRandom "a/b*c".toList = false := by decide +kernel

/-! ### C22 -/

/-- The policy's directory is neither the current directory nor the root. -/
def ProperDir (d : Str) : Prop := comps d ≠ []

theorem dirTemp_eq (d : Str) (u : Nat) : dirTemp (newDirPolicy d) u = join2 (clean d) (padded u ++ tmpExt) := by
  unfold dirTemp randName newDirPolicy
  have : randDir (clean d) = clean d := by unfold randDir; rw [if_neg (clean_ne_nil _)]
  rw [this]
  have : patParts ('*' :: tmpExt) = ([], tmpExt) := by decide
  rw [this]; rfl

theorem dirName_isName {u : Nat} (hu : u < 2 ^ 32) : IsName (padded u ++ tmpExt) := by
  have := randName_isName (p := []) (q := tmpExt) hu (by simp) (by decide)
  simpa using this

/-- C22 for every directory but "." and "/": the generated path is recognised. Missing: those two, see the counterexamples. -/
theorem C22_recognises_partial (d : Str) (u : Nat) (hu : u < 2 ^ 32) (hd : ProperDir d) :
    matchDir (newDirPolicy d) (dirTemp (newDirPolicy d) u) = true := by
  have hn := dirName_isName hu
  have hne := clean_ne_nil d
  have e : join2 (clean d) (padded u ++ tmpExt) = clean d ++ slash :: (padded u ++ tmpExt) := by
    rw [join2_name hne hn, isAbs_clean, comps_clean]
    unfold clean render
    split
    · rw [join_concat hd]; rfl
    · rw [if_neg (by simp), if_neg hd, join_concat hd]
  rw [dirTemp_eq]
  unfold newDirPolicy matchDir
  simp only [clean_clean, clean_join2 hne hn, base_join2 hne hn]
  have hin : (decide (join2 (clean d) (padded u ++ tmpExt) = clean d) ||
      (decide ((join2 (clean d) (padded u ++ tmpExt)).length > (clean d).length + 1) &&
      decide ((join2 (clean d) (padded u ++ tmpExt)).take (clean d).length = clean d) &&
      decide ((join2 (clean d) (padded u ++ tmpExt))[(clean d).length]? = some slash))) = true := by
    rw [e]
    have hl := (padded_ten hu).1
    have h1 : (clean d ++ slash :: (padded u ++ tmpExt)).length > (clean d).length + 1 := by
      simp only [List.length_append, List.length_cons]; omega
    have h2 : (clean d ++ slash :: (padded u ++ tmpExt)).take (clean d).length = clean d := by simp
    have h3 : (clean d ++ slash :: (padded u ++ tmpExt))[(clean d).length]? = some slash := by simp
    simp only [h1, h2, h3, decide_true, Bool.and_self, Bool.or_true]
  rw [hin, trimSuffix_append]
  have hs : hasSuffix (padded u ++ tmpExt) tmpExt = true := (hasSuffix_iff _ _).2 ⟨_, rfl⟩
  simp [hs, (padded_ten hu).1, all_isDigit.2 (padded_ten hu).2]

/-- What a match means: the path is at or below the directory and its last element is ten digits and ".tmp". -/
theorem C22_match_sound (d path : Str) (h : matchDir (newDirPolicy d) path = true) :
    (clean path = clean d ∨ ∃ rest, clean path = clean d ++ slash :: rest) ∧ ∃ ds, base (clean path) = ds ++ tmpExt ∧ TenDigits ds := by
  unfold matchDir at h
  simp only [newDirPolicy, clean_clean] at h
  split at h
  · cases h
  · rename_i hin
    have hin : clean path = clean d ∨ ((clean path).length > (clean d).length + 1 ∧ (clean path).take (clean d).length = clean d) ∧
        (clean path)[(clean d).length]? = some slash := by
      rcases Classical.em (clean path = clean d) with he | he
      · exact Or.inl he
      · simp [he] at hin; exact Or.inr hin
    split at h
    · cases h
    · rename_i hs
      obtain ⟨ds, hds⟩ := (hasSuffix_iff _ _).1 (by simpa using hs)
      rw [hds, trimSuffix_append] at h
      split at h
      · cases h
      · rename_i h10
        refine ⟨?_, ds, hds, by simpa using h10, all_isDigit.1 h⟩
        rcases hin with hin | ⟨⟨_, ht⟩, hg⟩
        · exact Or.inl hin
        · right
          refine ⟨(clean path).drop ((clean d).length + 1), ?_⟩
          have h1 := (List.take_append_drop (clean d).length (clean path)).symm
          rw [ht] at h1
          have hlt : (clean d).length < (clean path).length := by
            rcases Nat.lt_or_ge (clean d).length (clean path).length with h | h
            · exact h
            · rw [List.getElem?_eq_none h] at hg; cases hg
          rw [List.drop_eq_getElem_cons hlt] at h1
          rw [List.getElem?_eq_getElem hlt] at hg
          rw [Option.some.inj hg] at h1
          exact h1

/-- C22: with the current directory or the root as temporary directory the policy never recognises its own files. -/
theorem C22_counterexample_dot_and_root :
    dirTemp (newDirPolicy ['.']) 7 = "0000000007.tmp".toList ∧ matchDir (newDirPolicy ['.']) "0000000007.tmp".toList = false ∧
    dirTemp (newDirPolicy ['/']) 7 = "/0000000007.tmp".toList ∧ matchDir (newDirPolicy ['/']) "/0000000007.tmp".toList = false := by
  decide +kernel

/-- non-vacuity of C22 -/
example : ProperDir "t/../u//".toList ∧ dirTemp (newDirPolicy "t/../u//".toList) 7 = "u/0000000007.tmp".toList ∧
    matchDir (newDirPolicy "t/../u//".toList) "u/0000000007.tmp".toList = true ∧
    matchDir (newDirPolicy "t/../u//".toList) "ux/0000000007.tmp".toList = false := by unfold ProperDir; decide +kernel

/-! ### C23 -/

/-- An exclusive open: `op` is how the filesystem answers when `exists_ i` tells which names exist at attempt `i` (others may create and
remove names between attempts). -/
def Exclusive (exists_ : Nat → Str → Bool) (op : Nat → Str → OpenRes) : Prop :=
  ∀ i name, exists_ i name = true → op i name = .exist

theorem openLoop_spec (d pat : Str) (rand : Nat → Nat) (op : Nat → Str → OpenRes) : ∀ (fuel attempt : Nat), attempt < 10000 → fuel + attempt = 10000 →
    ∃ n, 0 < n ∧ attempt + n ≤ 10000 ∧ (openLoop d pat rand op fuel attempt).2 = (List.range n).map (fun i => randName d pat (rand (attempt + i))) ∧
      (∀ i, i + 1 < n → op (attempt + i) (randName d pat (rand (attempt + i))) = .exist) ∧
      (match (openLoop d pat rand op fuel attempt).1 with
        | .opened nm => nm = randName d pat (rand (attempt + (n - 1))) ∧ op (attempt + (n - 1)) nm = .ok
        | .badPattern => False
        | .maxRetry => attempt + n = 10000 ∧ op (attempt + (n - 1)) (randName d pat (rand (attempt + (n - 1)))) = .exist
        | .other => op (attempt + (n - 1)) (randName d pat (rand (attempt + (n - 1)))) = .other) := by
  intro fuel
  induction fuel with
  | zero => intro attempt h1 h2; omega
  | succ fuel ih =>
    intro attempt h1 h2
    unfold openLoop
    simp only
    cases hop : op attempt (randName d pat (rand attempt)) with
    | ok => exact ⟨1, by omega, by omega, by simp [List.range_succ], by intro i hi; omega, by simp [hop]⟩
    | other => exact ⟨1, by omega, by omega, by simp [List.range_succ], by intro i hi; omega, by simp [hop]⟩
    | exist =>
      simp only
      split
      · rename_i hlt
        obtain ⟨n, hn, hle, htr, hex, hres⟩ := ih (attempt + 1) hlt (by omega)
        refine ⟨n + 1, by omega, by omega, ?_, ?_, ?_⟩
        · simp only [htr]
          rw [List.range_succ_eq_map, List.map_cons, List.map_map]
          congr 1
          apply List.map_congr_left
          intro i _
          simp only [Function.comp]
          rw [show attempt + 1 + i = attempt + (i + 1) from by omega]
        · intro i hi
          cases i with
          | zero => exact hop
          | succ i => have := hex i (by omega); rwa [show attempt + 1 + i = attempt + (i + 1) from by omega] at this
        · have e : attempt + 1 + (n - 1) = attempt + (n + 1 - 1) := by omega
          have e2 : attempt + 1 + n = attempt + (n + 1) := by omega
          simp only
          rw [e, e2] at hres
          exact hres
      · refine ⟨1, by omega, by omega, by simp [List.range_succ], by intro i hi; omega, ?_⟩
        simp [hop]; omega

/-- C23: a random open that succeeds has created a file which did not exist when it was created, after only name collisions,
within the retry limit; the file is in the directory and matches the pattern. -/
theorem C23_opened (d pat : Str) (rand : Nat → Nat) (hr : ∀ i, rand i < 2 ^ 32) (exists_ : Nat → Str → Bool) (op : Nat → Str → OpenRes)
    (hx : Exclusive exists_ op) (name : Str) (h : (openRandom d pat rand op).1 = .opened name) :
    (∃ i, i < 10000 ∧ exists_ i name = false ∧ (openRandom d pat rand op).2.length = i + 1 ∧
      (openRandom d pat rand op).2.getLast? = some name) ∧
    dir name = clean d ∧
    (∃ ds, TenDigits ds ∧ ((∃ p s, pat = p ++ '*' :: s ∧ base name = p ++ ds ++ s) ∨ ('*' ∉ pat ∧ base name = pat ++ ds))) := by
  unfold openRandom at h ⊢
  split at h
  · cases h
  · rename_i hs
    rw [if_neg hs]
    obtain ⟨n, hn, hle, htr, hex, hres⟩ := openLoop_spec d pat rand op 10000 0 (by omega) (by omega)
    rw [h] at hres
    simp only [Nat.zero_add] at hres htr hle
    obtain ⟨hname, hok⟩ := hres
    have hps := patParts_no_slash hs
    have hisn := randName_isName (hr (n - 1)) hps.1 hps.2
    refine ⟨⟨n - 1, by omega, ?_, ?_, ?_⟩, ?_, ?_⟩
    · cases he : exists_ (n - 1) name with
      | false => rfl
      | true => rw [hx _ _ he] at hok; cases hok
    · rw [htr]; simp; omega
    · rw [htr]
      cases n with
      | zero => omega
      | succ k => rw [List.range_succ, List.map_append]; simp [hname]
    · rw [hname]; unfold randName
      rw [dir_join2 (randDir_ne d) hisn, clean_randDir]
    · refine ⟨padded (rand (n - 1)), padded_ten (hr _), ?_⟩
      have hb : base name = (patParts pat).1 ++ padded (rand (n - 1)) ++ (patParts pat).2 := by
        rw [hname]; unfold randName; rw [base_join2 (randDir_ne d) hisn]
      rcases patParts_spec pat with hp | ⟨hp1, hp2⟩
      · left; exact ⟨_, _, hp, hb⟩
      · right; refine ⟨hp1, ?_⟩; rw [hb, hp2]; simp

/-- C23: how a random open fails: a bad pattern touches nothing; the retry limit means 10000 collisions; any other error stops at once. -/
theorem C23_failures (d pat : Str) (rand : Nat → Nat) (op : Nat → Str → OpenRes) :
    ((openRandom d pat rand op).1 = .badPattern ↔ slash ∈ pat) ∧
    ((openRandom d pat rand op).1 = .badPattern → (openRandom d pat rand op).2 = []) ∧
    ((openRandom d pat rand op).1 = .maxRetry → (openRandom d pat rand op).2.length = 10000 ∧
      ∀ i, i < 10000 → op i (randName d pat (rand i)) = .exist) ∧
    ((openRandom d pat rand op).1 = .other → ∃ k, k < 10000 ∧ (openRandom d pat rand op).2.length = k + 1 ∧
      op k (randName d pat (rand k)) = .other ∧ ∀ i, i < k → op i (randName d pat (rand i)) = .exist) ∧
    (openRandom d pat rand op).2.length ≤ 10000 := by
  unfold openRandom
  by_cases hs : slash ∈ pat
  · simp [hs]
  · simp only [if_neg hs]
    obtain ⟨n, hn, hle, htr, hex, hres⟩ := openLoop_spec d pat rand op 10000 0 (by omega) (by omega)
    have hlen : (openLoop d pat rand op 10000 0).2.length = n := by rw [htr]; simp
    simp only [Nat.zero_add] at hres hex hle
    refine ⟨?_, ?_, ?_, ?_, by omega⟩
    · constructor
      · intro h; rw [h] at hres; exact hres.elim
      · intro h; exact absurd h hs
    · intro h; rw [h] at hres; exact hres.elim
    · intro h
      rw [h] at hres
      refine ⟨by omega, ?_⟩
      intro i hi
      by_cases hl : i + 1 < n
      · exact hex i hl
      · have : i = n - 1 := by omega
        rw [this]; exact hres.2
    · intro h
      rw [h] at hres
      exact ⟨n - 1, by omega, by omega, hres, fun i hi => hex i (by omega)⟩

/-- non-vacuity of C23: the first two names exist, the third does not. -/
example : Exclusive (fun _ nm => nm = "d/x0000000001.t".toList) (fun _ nm => if nm = "d/x0000000001.t".toList then .exist else .ok) ∧
    openRandom "d".toList "x*.t".toList (fun i => if i < 2 then 1 else 5) (fun _ nm => if nm = "d/x0000000001.t".toList then .exist else .ok) =
      (.opened "d/x0000000005.t".toList, ["d/x0000000001.t".toList, "d/x0000000001.t".toList, "d/x0000000005.t".toList]) := by
  constructor
  · intro i nm h; exact if_pos (of_decide_eq_true h)
  · decide +kernel

end Verif.Fsutil
