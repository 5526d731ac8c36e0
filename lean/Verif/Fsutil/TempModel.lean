import Verif.Common.Path
import Verif.Common.StrLemmas
import Verif.Fsutil.Utf8
/-
Model of /repo/fsutil/open_random.go and of the temporary-file policies of /repo/fsutil/safe_write.go.
-/
namespace Verif.Fsutil
open Verif.Path

/-- Around the last `sep` (`strings.LastIndex`), `none` if there is none. -/
def cutLast (sep : Char) : Str → Option (Str × Str)
  | [] => none
  | c :: rest =>
    match cutLast sep rest with
    | some (a, b) => some (c :: a, b)
    | none => if c = sep then some ([], rest) else none

/-- std `strings.HasSuffix` -/
def hasSuffix (s p : Str) : Bool := p.isSuffixOf s

/-- std `strings.TrimSuffix`, for a suffix that is there. -/
def trimSuffix (s p : Str) : Str := if hasSuffix s p then s.take (s.length - p.length) else s

/-- open_random.go 123-137 `randomUint32Padded`, for the random number `u`. -/
def padded (u : Nat) : Str := List.replicate (10 - (natDigits u).length) '0' ++ natDigits u

/-- Outcome of one `open` call of `openRandom`. -/
inductive OpenRes where
  | ok | exist | other
  deriving DecidableEq, Repr

/-- Outcome of `openRandom`. -/
inductive RandRes where
  | opened (name : Str)
  | badPattern
  | maxRetry
  | other
  deriving DecidableEq, Repr

/-- open_random.go 90-95: prefix and suffix of a pattern. -/
def patParts (pattern : Str) : Str × Str :=
  match cutLast '*' pattern with
  | none => (pattern, [])
  | some (a, b) => (a, b)

/-- open_random.go 82-84 -/
def randDir (d : Str) : Str := if d = [] then ['.', '/'] else d

/-- open_random.go 99-100: the name of one attempt. -/
def randName (d pattern : Str) (u : Nat) : Str :=
  join2 (randDir d) ((patParts pattern).1 ++ padded u ++ (patParts pattern).2)

/-- open_random.go 97-118: the loop; `rand i` is the random number of attempt `i` and `op i name` its outcome.
Returns the outcome and the names tried, in order. The fuel of `openRandom` is the retry limit, so it is never exhausted (C23). -/
def openLoop (d pattern : Str) (rand : Nat → Nat) (op : Nat → Str → OpenRes) : (fuel : Nat) → (attempt : Nat) → RandRes × List Str
  | 0, _ => (.other, [])
  | fuel + 1, attempt =>
    let name := randName d pattern (rand attempt)
    match op attempt name with
    | .ok => (.opened name, [name])
    | .exist =>
      if attempt + 1 < 10000 then
        let r := openLoop d pattern rand op fuel (attempt + 1)
        (r.1, name :: r.2)
      else (.maxRetry, [name])
    | .other => (.other, [name])

/-- open_random.go 75-119 `openRandom` -/
def openRandom (d pattern : Str) (rand : Nat → Nat) (op : Nat → Str → OpenRes) : RandRes × List Str :=
  if slash ∈ pattern then (.badPattern, []) else openLoop d pattern rand op 10000 0

/-! ### policies -/

def tmpExt : Str := ['.', 't', 'm', 'p']

/-- safe_write.go 262-270: the truncation loop of `pattern`; `some off` when it cuts. -/
def patLoop (maxPrefix : Nat) : (fuel : Nat) → (part : Str) → (off : Nat) → Option Nat
  | 0, _, _ => none
  | fuel + 1, part, off =>
    if part = [] then none
    else
      let n := decodeSize part
      if off + n > maxPrefix then some off else patLoop maxPrefix fuel (part.drop n) (off + n)

/-- safe_write.go 257 -/
def maxPrefix : Nat := 255 - 1 - 10 - tmpExt.length

/-- safe_write.go 256-271 -/
def patBase (path : Str) : Str :=
  let b := base path
  if b.length > maxPrefix then
    match patLoop maxPrefix b.length b 0 with
    | some off => b.take off
    | none => b
  else b

/-- safe_write.go 255-273 `pattern` -/
def pattern (path : Str) : Str := patBase path ++ ['.', '*'] ++ tmpExt

/-- safe_write.go 275-286 `TempFilePolicyRandom.Create` (and `Mkdir`, 288-299): directory and pattern given to `openRandom`. -/
def randomPolicyDir (target : Str) : Str := dir (clean target)

/-- The temporary path `TempFilePolicyRandom` makes for a target and a random number; `none` when the pattern is rejected. -/
def randomTemp (target : Str) (u : Nat) : Option Str :=
  if slash ∈ pattern target then none else some (randName (randomPolicyDir target) (pattern target) u)

def isDigit (c : Char) : Bool := '0' ≤ c && c ≤ '9'

/-- safe_write.go 330-359 `TempFilePolicyRandom.Match`. The `range` loop goes over runes; a rune is an ASCII digit exactly when it is a
byte that is one, so bytes are checked here. -/
def matchRandom (path : Str) : Bool :=
  let b := base path
  if !hasSuffix b tmpExt then false
  else
    match cutLast '.' (trimSuffix b tmpExt) with
    | none => false
    | some (before, after) =>
      if before = [] then false
      else if after.length ≠ 10 then false
      else after.all isDigit

/-- safe_write.go 366-372 `NewTempFilePolicyDir` -/
def newDirPolicy (tempDir : Str) : Str := clean tempDir

/-- safe_write.go 374-406: the temporary path the policy makes (`tempDir` as stored). -/
def dirTemp (tempDir : Str) (u : Nat) : Str := randName tempDir ('*' :: tmpExt) u

/-- safe_write.go 470-504 `TempFilePolicyDir.Match` -/
def matchDir (tempDir path : Str) : Bool :=
  let cp := clean path
  let ct := clean tempDir
  let inDir := cp = ct || (cp.length > ct.length + 1 && cp.take ct.length = ct && cp[ct.length]? = some slash)
  if !inDir then false
  else
    let b := base cp
    if !hasSuffix b tmpExt then false
    else
      let n := trimSuffix b tmpExt
      if n.length ≠ 10 then false else n.all isDigit

/-! ### lemmas -/

theorem cutLast_none {sep : Char} {s : Str} (h : sep ∉ s) : cutLast sep s = none := by
  induction s with
  | nil => rfl
  | cons c cs ih =>
    unfold cutLast
    rw [ih (fun hm => h (List.mem_cons_of_mem _ hm))]
    simp; rintro rfl; exact h (by simp)

theorem cutLast_append {sep : Char} {b : Str} (h : sep ∉ b) (a : Str) : cutLast sep (a ++ sep :: b) = some (a, b) := by
  induction a with
  | nil => simp [cutLast, cutLast_none h]
  | cons c cs ih => show cutLast sep (c :: (cs ++ sep :: b)) = _; rw [cutLast, ih]

theorem cutLast_some {sep : Char} {s a b : Str} (h : cutLast sep s = some (a, b)) : s = a ++ sep :: b ∧ sep ∉ b := by
  induction s generalizing a b with
  | nil => simp [cutLast] at h
  | cons c cs ih =>
    unfold cutLast at h
    cases hc : cutLast sep cs with
    | some p =>
      obtain ⟨x, y⟩ := p
      rw [hc] at h
      simp at h
      obtain ⟨rfl, rfl⟩ := h
      obtain ⟨h1, h2⟩ := ih hc
      exact ⟨by rw [h1]; rfl, h2⟩
    | none =>
      rw [hc] at h
      simp at h
      obtain ⟨rfl, rfl, rfl⟩ := h
      refine ⟨rfl, ?_⟩
      intro hm
      obtain ⟨x, y, hxy⟩ : ∃ x y, cutLast c cs = some (x, y) := by
        clear ih
        induction cs with
        | nil => simp at hm
        | cons d ds ihd =>
          unfold cutLast
          by_cases hd : c ∈ ds
          · cases hx : cutLast c ds with
            | some p => exact ⟨_, _, rfl⟩
            | none =>
              obtain ⟨x, y, h⟩ := ihd hx hd
              rw [hx] at h; cases h
          · rw [cutLast_none hd]
            rcases List.mem_cons.1 hm with rfl | hm
            · simp
            · exact absurd hm hd
      rw [hxy] at hc; cases hc

theorem hasSuffix_iff (s p : Str) : hasSuffix s p = true ↔ ∃ t, s = t ++ p := by
  unfold hasSuffix
  rw [List.isSuffixOf_iff_suffix]
  constructor
  · rintro ⟨t, h⟩; exact ⟨t, h.symm⟩
  · rintro ⟨t, h⟩; exact ⟨t, h.symm⟩

theorem trimSuffix_append (t p : Str) : trimSuffix (t ++ p) p = t := by
  unfold trimSuffix
  rw [if_pos ((hasSuffix_iff _ _).2 ⟨t, rfl⟩)]
  simp

theorem isDigit_iff (c : Char) : isDigit c = true ↔ '0' ≤ c ∧ c ≤ '9' := by unfold isDigit; simp

theorem padded_spec {u : Nat} (hu : u < 2 ^ 32) : (padded u).length = 10 ∧ ∀ c ∈ padded u, '0' ≤ c ∧ c ≤ '9' := by
  have hle : (natDigits u).length ≤ 10 := (Nat.length_toDigits_le_iff (by omega) (by omega)).2 (by omega)
  unfold padded
  constructor
  · rw [List.length_append, List.length_replicate]; omega
  · intro c hc
    rcases List.mem_append.1 hc with h | h
    · rw [List.eq_of_mem_replicate h]; decide
    · exact (natDigits_isDecimal u).digits c h

theorem digit_ne {c d : Char} (h : '0' ≤ c ∧ c ≤ '9') (hd : ¬ ('0' ≤ d ∧ d ≤ '9')) : c ≠ d := by rintro rfl; exact hd h

theorem padded_not_mem {u : Nat} (hu : u < 2 ^ 32) {d : Char} (hd : ¬ ('0' ≤ d ∧ d ≤ '9')) : d ∉ padded u :=
  fun hm => hd ((padded_spec hu).2 d hm)

/-- The generated file name is a proper name. -/
theorem randName_isName {p q : Str} {u : Nat} (hu : u < 2 ^ 32) (hp : slash ∉ p) (hq : slash ∉ q) : IsName (p ++ padded u ++ q) := by
  have hl := (padded_spec hu).1
  have hlen : (p ++ padded u ++ q).length ≥ 10 := by simp only [List.length_append]; omega
  refine ⟨⟨?_, ?_⟩, ?_, ?_⟩
  · intro h; rw [h] at hlen; simp at hlen
  · simp only [List.mem_append, not_or]; exact ⟨⟨hp, padded_not_mem hu (by decide)⟩, hq⟩
  · intro h; rw [h] at hlen; simp [dot] at hlen
  · intro h; rw [h] at hlen; simp [dotdot] at hlen

theorem patParts_spec (pat : Str) : (pat = (patParts pat).1 ++ '*' :: (patParts pat).2) ∨ ('*' ∉ pat ∧ patParts pat = (pat, [])) := by
  unfold patParts
  cases h : cutLast '*' pat with
  | none =>
    right
    refine ⟨?_, rfl⟩
    intro hm
    -- a member is always found
    obtain ⟨i, hi⟩ := List.append_of_mem hm
    obtain ⟨t, rfl⟩ := hi
    have : ∀ (a b : Str), cutLast '*' (a ++ '*' :: b) ≠ none := by
      intro a
      induction a with
      | nil => intro b; simp only [List.nil_append, cutLast]; cases cutLast '*' b <;> simp
      | cons c cs ih =>
        intro b
        show cutLast '*' (c :: (cs ++ '*' :: b)) ≠ none
        unfold cutLast
        cases hx : cutLast '*' (cs ++ '*' :: b) with
        | none => exact absurd hx (ih b)
        | some p => simp
    exact this _ _ h
  | some p => left; exact (cutLast_some h).1

theorem patParts_no_slash {pat : Str} (h : slash ∉ pat) : slash ∉ (patParts pat).1 ∧ slash ∉ (patParts pat).2 := by
  rcases patParts_spec pat with hp | ⟨_, hp⟩
  · rw [hp] at h
    simp only [List.mem_append, List.mem_cons, not_or] at h
    exact ⟨h.1, h.2.2⟩
  · rw [hp]; exact ⟨h, by simp⟩

theorem randDir_ne (d : Str) : randDir d ≠ [] := by unfold randDir; split <;> simp_all

theorem clean_randDir (d : Str) : clean (randDir d) = clean d := by
  unfold randDir
  split
  · rename_i h; subst h; decide
  · rfl

theorem patLoop_eq (maxPrefix : Nat) : ∀ (fuel : Nat) (part : Str) (off : Nat), part.length ≤ fuel → maxPrefix < off + part.length →
    patLoop maxPrefix fuel part off = some (truncLoop maxPrefix fuel part off) ∨ maxPrefix < off := by
  intro fuel
  induction fuel with
  | zero => intro part off h1 h2; right; omega
  | succ fuel ih =>
    intro part off h1 h2
    by_cases hp : part = []
    · subst hp; right; simpa using h2
    · have hd := decodeSize_bounds hp
      unfold patLoop truncLoop
      rw [if_neg hp, if_neg hp]
      simp only
      split
      · left; rfl
      · rcases ih (part.drop (decodeSize part)) (off + decodeSize part) (by rw [List.length_drop]; omega) (by rw [List.length_drop]; omega) with h | h
        · left; exact h
        · omega

/-- The prefix is the base truncated to 240 bytes. -/
theorem patBase_eq (path : Str) : patBase path = truncateUTF8 (base path) 240 := by
  unfold patBase truncateUTF8
  have hm : maxPrefix = 240 := by decide
  simp only [hm]
  by_cases h : (base path).length > 240
  · rw [if_pos h, if_neg (by omega), if_neg (by omega)]
    rcases patLoop_eq 240 (base path).length (base path) 0 (Nat.le_refl _) (by omega) with h' | h'
    · rw [h']; rfl
    · omega
  · rw [if_neg h, if_neg (by omega), if_pos (by omega)]

theorem patParts_pattern (path : Str) : patParts (pattern path) = (patBase path ++ ['.'], tmpExt) := by
  unfold patParts pattern
  have : patBase path ++ ['.', '*'] ++ tmpExt = (patBase path ++ ['.']) ++ '*' :: tmpExt := by simp
  rw [this, cutLast_append (by decide)]

theorem decodeSize_le_four (s : Str) : decodeSize s ≤ 4 := by
  unfold decodeSize
  split
  · omega
  · split
    · omega
    · split
      · omega
      · rename_i sz lo hi hf
        have : sz ≤ 4 := by
          unfold firstInfo at hf
          repeat' split at hf
          all_goals first | (simp at hf; omega) | simp at hf
        (repeat' split) <;> omega

theorem patBase_ne_nil (path : Str) : patBase path ≠ [] := by
  have hb : base path ≠ [] := by
    rcases base_spec path with h | h
    · rw [h]; simp
    · exact h.1
  rw [patBase_eq]
  unfold truncateUTF8
  rw [if_neg (by omega)]
  split
  · exact hb
  · intro h
    have hlen := congrArg List.length h
    rw [List.length_take] at hlen
    have hpos : 0 < (base path).length := List.length_pos_iff.2 hb
    have hT : truncLoop (240 : Int).toNat (base path).length (base path) 0 = 0 := by
      simp only [List.length_nil] at hlen; omega
    have hd := decodeSize_bounds hb
    have h4 := decodeSize_le_four (base path)
    cases hf : (base path).length with
    | zero => omega
    | succ k =>
      rw [hf] at hT
      unfold truncLoop at hT
      rw [if_neg hb] at hT
      simp only at hT
      rw [if_neg (by show ¬ (0 + decodeSize (base path) > 240); omega)] at hT
      have := (truncLoop_bounds (240 : Int).toNat k ((base path).drop (decodeSize (base path))) (0 + decodeSize (base path))
        (by show _ ≤ 240; omega)).2
      omega

end Verif.Fsutil
