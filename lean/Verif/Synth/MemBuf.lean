import Verif.Common.Bytes
/-
Model of the shared buffer of an in-memory file, /repo/vroot/synthfs/view_mem_buf.go (type memBuf), and property C45.

The backing array of a Go slice is modelled: `spare` are the bytes between the length and the capacity, because `grow`
uncovers them.  Locks: each method is one critical section, so a concurrent history is one sequence of calls.  The
modification time is not modelled.
-/
namespace Verif.Synth

/-! ## Model -/

/-- view_mem_buf.go 25-32 `memBuf`: the content slice and what its backing array holds beyond it. -/
structure Buf where
  content : Bytes
  spare : Bytes
deriving DecidableEq

/-- view_mem.go 30-39: a new file has the nil slice. -/
def Buf.empty : Buf := ⟨[], []⟩

/-- What the Go runtime decides when `append` must move the array: how much capacity it adds (arbitrary), and the largest
slice it can allocate. -/
structure Alloc where
  extra : Nat
  limit : Nat

inductive Err where
  | eof
  | negOff      -- "negative offset"
  | inval       -- wraps EINVAL
deriving DecidableEq

def zeros (n : Nat) : Bytes := List.replicate n 0

/-- view_mem_buf.go 106-112 `grow`. `none`: `make`/`append` panics, nothing assigned. The runtime zeroes the capacity it adds. -/
def Buf.grow (a : Alloc) (b : Buf) (n : Nat) : Option Buf :=
  if n ≤ b.spare.length then some ⟨b.content ++ b.spare.take n, b.spare.drop n⟩
  else if b.content.length + n ≤ a.limit then some ⟨b.content ++ zeros n, zeros a.extra⟩
  else none

/-- view_mem_buf.go 51-65 `readAt` into a buffer of `k` bytes: the bytes copied and the error. -/
def Buf.readAt (b : Buf) (k : Nat) (off : Int) : Bytes × Option Err :=
  if off < 0 then ([], some .negOff)
  else if off ≥ b.content.length then ([], some .eof)
  else
    let d := slice b.content off.toNat k
    if d.length < k then (d, some .eof) else (d, none)

/-- `copy(content[off:], p)` when the content reaches `off + len(p)`. -/
def patch (c : Bytes) (off : Nat) (p : Bytes) : Bytes := c.take off ++ p ++ c.drop (off + p.length)

/-- view_mem_buf.go 67-89 `writeAt` (`int` is 64 bits wide, so 71-73 never fires). Result: buffer, count, error; `none` for a panic. -/
def Buf.writeAt (a : Alloc) (b : Buf) (p : Bytes) (off : Int) : Option (Buf × Nat × Option Err) :=
  if off < 0 then some (b, 0, some .inval)
  else if (p.length : Int) > maxInt64 - off then some (b, 0, some .inval)
  else if p = [] then some (b, 0, none)
  else
    let o := off.toNat
    let e := o + p.length
    let b' := if e > b.content.length then b.grow a (e - b.content.length) else some b
    b'.map fun b => (⟨patch b.content o p, b.spare⟩, p.length, none)

/-- view_mem_buf.go 91-103 `truncate`; `content[:size:size]` drops the capacity. -/
def Buf.truncate (a : Alloc) (b : Buf) (size : Int) : Option (Buf × Option Err) :=
  if size < 0 then some (b, some .inval)
  else
    let n := size.toNat
    let b' := if n > b.content.length then b.grow a (n - b.content.length) else some b
    b'.map fun b => (⟨b.content.take n, []⟩, none)

/-- Calls on a memory file's bytes. -/
inductive Op where
  | readAt (k : Nat) (off : Int)
  | writeAt (p : Bytes) (off : Int)
  | truncate (size : Int)

inductive Resp where
  | read (data : Bytes) (err : Option Err)
  | wrote (n : Nat) (err : Option Err)
  | truncated (err : Option Err)
  | panic
deriving DecidableEq

/-- One call. -/
def Buf.step (a : Alloc) (b : Buf) : Op → Buf × Resp
  | .readAt k off => (b, .read (b.readAt k off).1 (b.readAt k off).2)
  | .writeAt p off => match b.writeAt a p off with
    | none => (b, .panic)
    | some (b', n, e) => (b', .wrote n e)
  | .truncate size => match b.truncate a size with
    | none => (b, .panic)
    | some (b', e) => (b', .truncated e)

/-- A history of calls, each with what the runtime's allocator does in it. Newest call last. -/
def Buf.run (b : Buf) : List (Alloc × Op) → Buf × List (Op × Resp)
  | [] => (b, [])
  | (a, op) :: rest =>
    let (b1, r) := b.step a op
    let (b2, rs) := b1.run rest
    (b2, (op, r) :: rs)

/-! ## Specification -/

/-- A change of a file that took effect. -/
inductive Ev where
  | write (off : Nat) (p : Bytes)
  | cut (size : Nat)
deriving DecidableEq

/-- The effect of a call, from its answer alone: errors and panics have none. -/
def effect : Op → Resp → List Ev
  | .writeAt p off, .wrote _ none => [.write off.toNat p]
  | .truncate size, .truncated none => [.cut size.toNat]
  | _, _ => []

/-- The changes of a history, newest first. -/
def effects (h : List (Op × Resp)) : List Ev := (h.flatMap fun (o, r) => effect o r).reverse

/-- Length of the file after the changes (newest first). -/
def lenOf : List Ev → Nat
  | [] => 0
  | .write off p :: h => if p = [] then lenOf h else max (lenOf h) (off + p.length)
  | .cut n :: _ => n

/-- Byte `i` after the changes (newest first): what the last write covering it put there, unless a later cut removed it; else zero. -/
def byteOf : List Ev → Nat → UInt8
  | [], _ => 0
  | .write off p :: h, i => if hi : off ≤ i ∧ i - off < p.length then p[i - off]'hi.2 else byteOf h i
  | .cut n :: h, i => if i < n then byteOf h i else 0

/-- The right answer to a call when the changes so far are `h`. -/
def Answers (a : Alloc) (h : List Ev) : Op → Resp → Prop
  | .readAt k off, r =>
    (off < 0 → r = .read [] (some .negOff)) ∧
    (0 ≤ off → ∃ d, r = .read d (if (off : Int) ≥ lenOf h ∨ d.length < k then some .eof else none) ∧
      d.length = min k (lenOf h - off.toNat) ∧ ∀ j (hj : j < d.length), d[j] = byteOf h (off.toNat + j))
  | .writeAt p off, r =>
    (off < 0 ∨ off + p.length > maxInt64 → r = .wrote 0 (some .inval)) ∧
    (0 ≤ off → off + p.length ≤ maxInt64 → r = .wrote p.length none ∨ (r = .panic ∧ lenOf h < off + p.length ∧ a.limit < off + p.length))
  | .truncate size, r =>
    (size < 0 → r = .truncated (some .inval)) ∧
    (0 ≤ size → r = .truncated none ∨ (r = .panic ∧ (lenOf h : Int) < size ∧ (a.limit : Int) < size))

/-! ## Proofs -/

/-- The file content that the changes define. -/
def fileOf (h : List Ev) : Bytes := (List.range (lenOf h)).map (byteOf h)

@[simp] theorem fileOf_length (h : List Ev) : (fileOf h).length = lenOf h := by simp [fileOf]

theorem byteOf_beyond (h : List Ev) : ∀ i, lenOf h ≤ i → byteOf h i = 0 := by
  induction h with
  | nil => intro i _; rfl
  | cons e h ih =>
    intro i hi
    cases e with
    | write off p =>
      simp only [lenOf] at hi
      simp only [byteOf]
      split
      · rename_i hc
        split at hi
        · subst p; simp at hc
        · omega
      · split at hi
        · exact ih i hi
        · exact ih i (by omega)
    | cut n =>
      simp only [lenOf] at hi
      simp only [byteOf]
      rw [if_neg (by omega)]

/-- The buffer holds the file that the changes define, and nothing but zeros beyond it. -/
structure Buf.Holds (b : Buf) (h : List Ev) : Prop where
  content : b.content = fileOf h
  spare : ∃ n, b.spare = zeros n

theorem ext_fileOf {c : Bytes} {h : List Ev} (hl : c.length = lenOf h) (hb : ∀ i (hi : i < c.length), c[i] = byteOf h i) : c = fileOf h := by
  apply List.ext_getElem
  · simp [hl]
  · intro i h1 h2
    simp [fileOf, hb i h1]

theorem grow_holds {a : Alloc} {b b' : Buf} {n : Nat} (hs : ∃ m, b.spare = zeros m) (hg : b.grow a n = some b') :
    b'.content = b.content ++ zeros n ∧ ∃ m, b'.spare = zeros m := by
  obtain ⟨m, hm⟩ := hs
  unfold Buf.grow at hg
  split at hg
  · rename_i hle
    cases hg
    constructor
    · simp only [hm, zeros, List.take_replicate]
      rw [hm] at hle
      simp [zeros] at hle
      rw [Nat.min_eq_left hle]
    · exact ⟨m - n, by simp [hm, zeros]⟩
  · split at hg
    · cases hg; exact ⟨rfl, a.extra, rfl⟩
    · cases hg

theorem grow_none {a : Alloc} {b : Buf} {n : Nat} (hg : b.grow a n = none) : a.limit < b.content.length + n := by
  unfold Buf.grow at hg
  split at hg
  · cases hg
  · split at hg
    · cases hg
    · omega

theorem patch_length {c : Bytes} {o : Nat} {p : Bytes} (h : o + p.length ≤ c.length) : (patch c o p).length = c.length := by
  simp [patch]; omega

theorem patch_get {c : Bytes} {o : Nat} {p : Bytes} (h : o + p.length ≤ c.length) (i : Nat) (hi : i < (patch c o p).length) :
    (patch c o p)[i] = if hc : o ≤ i ∧ i - o < p.length then p[i - o]'hc.2 else c[i]'(by rw [patch_length h] at hi; exact hi) := by
  simp only [patch]
  split
  · rename_i hc
    rw [List.getElem_append_left (by simp; omega)]
    rw [List.getElem_append_right (by simp; omega)]
    congr 1
    simp; omega
  · rename_i hc
    by_cases hlt : i < o
    · rw [List.getElem_append_left (by simp; omega)]
      rw [List.getElem_append_left (by simp; omega)]
      rw [List.getElem_take]
    · rw [List.getElem_append_right (by simp; omega)]
      simp only [List.getElem_drop, List.length_append, List.length_take]
      congr 1
      omega

/-- Extending with zeros does not change which bytes the changes define. -/
theorem padded_get (h : List Ev) (n i : Nat) (hi : i < (fileOf h ++ zeros n).length) : (fileOf h ++ zeros n)[i] = byteOf h i := by
  by_cases hlt : i < lenOf h
  · rw [List.getElem_append_left (by simpa using hlt)]
    simp [fileOf]
  · rw [List.getElem_append_right (by simpa using hlt)]
    simp only [zeros, List.getElem_replicate]
    exact (byteOf_beyond h i (by omega)).symm

theorem write_holds {a : Alloc} {b b' : Buf} {h : List Ev} {p : Bytes} {off : Int} {n : Nat} (hb : b.Holds h)
    (hw : b.writeAt a p off = some (b', n, none)) : 0 ≤ off ∧ n = p.length ∧ b'.Holds (.write off.toNat p :: h) := by
  unfold Buf.writeAt at hw
  split at hw
  · cases hw
  rename_i hneg
  split at hw
  · cases hw
  split at hw
  · rename_i hp
    cases hw
    subst p
    refine ⟨by omega, rfl, ?_, hb.spare⟩
    rw [hb.content]
    apply ext_fileOf
    · simp [lenOf]
    · intro i hi
      simp [byteOf, fileOf]
  · rename_i hp
    refine ⟨by omega, ?_⟩
    simp only at hw
    generalize hb1 : (if off.toNat + p.length > b.content.length then b.grow a (off.toNat + p.length - b.content.length) else some b) = r at hw
    cases r with
    | none => cases hw
    | some b1 =>
      simp only [Option.map_some, Option.some.injEq, Prod.mk.injEq] at hw
      obtain ⟨rfl, rfl, _⟩ := hw
      refine ⟨rfl, ?_⟩
      have key : (∃ k, b1.content = fileOf h ++ zeros k) ∧ off.toNat + p.length ≤ b1.content.length ∧ b1.content.length = max (lenOf h) (off.toNat + p.length) ∧ ∃ m, b1.spare = zeros m := by
        split at hb1
        · rename_i hgt
          obtain ⟨hc, hs⟩ := grow_holds hb.spare hb1
          rw [hb.content] at hc hgt
          rw [fileOf_length] at hgt
          refine ⟨⟨_, hc⟩, ?_, ?_, hs⟩
          · rw [hc]; simp [zeros]; omega
          · rw [hc]; simp [zeros]; omega
        · rename_i hgt
          cases hb1
          rw [hb.content, fileOf_length] at hgt
          refine ⟨⟨0, by simp [zeros, hb.content]⟩, ?_, ?_, hb.spare⟩
          · rw [hb.content, fileOf_length]; omega
          · rw [hb.content, fileOf_length]; omega
      obtain ⟨⟨k, hc⟩, hlen, hlen2, hs⟩ := key
      refine ⟨?_, hs⟩
      apply ext_fileOf
      · rw [patch_length hlen, hlen2]; simp [lenOf, hp]
      · intro i hi
        rw [patch_get hlen]
        simp only [byteOf]
        split
        · rfl
        · have hi' : i < (fileOf h ++ zeros k).length := by rw [← hc]; rw [patch_length hlen] at hi; exact hi
          rw [← padded_get h k i hi']
          congr 1

theorem truncate_holds {a : Alloc} {b b' : Buf} {h : List Ev} {size : Int} (hb : b.Holds h)
    (hw : b.truncate a size = some (b', none)) : 0 ≤ size ∧ b'.Holds (.cut size.toNat :: h) := by
  unfold Buf.truncate at hw
  split at hw
  · cases hw
  refine ⟨by omega, ?_⟩
  simp only at hw
  generalize hb1 : (if size.toNat > b.content.length then b.grow a (size.toNat - b.content.length) else some b) = r at hw
  cases r with
  | none => cases hw
  | some b1 =>
    simp only [Option.map_some, Option.some.injEq, Prod.mk.injEq, and_true] at hw
    subst hw
    have key : (∃ k, b1.content = fileOf h ++ zeros k) ∧ size.toNat ≤ b1.content.length := by
      split at hb1
      · rename_i hgt
        obtain ⟨hc, hs⟩ := grow_holds hb.spare hb1
        refine ⟨⟨_, hb.content ▸ hc⟩, ?_⟩
        rw [hc]; simp [zeros]; omega
      · cases hb1
        exact ⟨⟨0, by simp [zeros, hb.content]⟩, by omega⟩
    obtain ⟨⟨k, hc⟩, hlen⟩ := key
    refine ⟨?_, 0, rfl⟩
    apply ext_fileOf
    · simp [lenOf]; omega
    · intro i hi
      simp only [List.length_take] at hi
      simp only [List.getElem_take, byteOf]
      rw [if_pos (by omega)]
      have hi' : i < (fileOf h ++ zeros k).length := by rw [← hc]; omega
      rw [← padded_get h k i hi']
      congr 1

/-- A call that errs or panics leaves the file alone. -/
theorem step_quiet {a : Alloc} {b : Buf} {op : Op} (h : effect op (b.step a op).2 = []) : (b.step a op).1 = b := by
  cases op with
  | readAt k off => rfl
  | writeAt p off =>
    simp only [Buf.step] at h ⊢
    cases hw : b.writeAt a p off with
    | none => rfl
    | some r =>
      obtain ⟨b', n, e⟩ := r
      rw [hw] at h
      cases e with
      | none => simp [effect] at h
      | some e =>
        simp only
        unfold Buf.writeAt at hw
        split at hw
        · cases hw; rfl
        split at hw
        · cases hw; rfl
        split at hw
        · cases hw
        · simp only at hw
          generalize (if off.toNat + p.length > b.content.length then b.grow a (off.toNat + p.length - b.content.length) else some b) = r at hw
          cases r with
          | none => cases hw
          | some r => cases hw
  | truncate size =>
    simp only [Buf.step] at h ⊢
    cases hw : b.truncate a size with
    | none => rfl
    | some r =>
      obtain ⟨b', e⟩ := r
      rw [hw] at h
      cases e with
      | none => simp [effect] at h
      | some e =>
        simp only
        unfold Buf.truncate at hw
        split at hw
        · cases hw; rfl
        · simp only at hw
          generalize (if size.toNat > b.content.length then b.grow a (size.toNat - b.content.length) else some b) = r at hw
          cases r with
          | none => cases hw
          | some r => cases hw

theorem step_holds {a : Alloc} {b : Buf} {h : List Ev} (hb : b.Holds h) (op : Op) : (b.step a op).1.Holds (effect op (b.step a op).2 ++ h) := by
  cases hq : effect op (b.step a op).2 with
  | nil => rw [step_quiet hq]; exact hb
  | cons e es =>
    cases op with
    | readAt k off => simp [effect] at hq
    | writeAt p off =>
      simp only [Buf.step] at hq ⊢
      cases hw : b.writeAt a p off with
      | none => rw [hw] at hq; simp [effect] at hq
      | some r =>
        obtain ⟨b', n, er⟩ := r
        rw [hw] at hq
        cases er with
        | some er => simp [effect] at hq
        | none =>
          simp only [effect, List.cons.injEq] at hq
          obtain ⟨rfl, rfl⟩ := hq
          exact (write_holds hb hw).2.2
    | truncate size =>
      simp only [Buf.step] at hq ⊢
      cases hw : b.truncate a size with
      | none => rw [hw] at hq; simp [effect] at hq
      | some r =>
        obtain ⟨b', er⟩ := r
        rw [hw] at hq
        cases er with
        | some er => simp [effect] at hq
        | none =>
          simp only [effect, List.cons.injEq] at hq
          obtain ⟨rfl, rfl⟩ := hq
          exact (truncate_holds hb hw).2

theorem readAt_slice {b : Buf} {k : Nat} {off : Int} (h0 : 0 ≤ off) :
    b.readAt k off = (slice b.content off.toNat k, if (off : Int) ≥ b.content.length ∨ (slice b.content off.toNat k).length < k then some .eof else none) := by
  unfold Buf.readAt
  rw [if_neg (by omega)]
  split
  · rename_i hge
    rw [slice_of_ge _ _ _ (by omega)]
    simp [hge]
  · rename_i hge
    simp only [hge, false_or]
    split <;> rfl

theorem answers {a : Alloc} {b : Buf} {h : List Ev} (hb : b.Holds h) (op : Op) : Answers a h op (b.step a op).2 := by
  cases op with
  | readAt k off =>
    refine ⟨?_, ?_⟩
    · intro hneg
      simp [Buf.step, Buf.readAt, hneg]
    · intro h0
      refine ⟨slice b.content off.toNat k, ?_, ?_, ?_⟩
      · simp only [Buf.step, readAt_slice h0]
        rw [show b.content.length = lenOf h by rw [hb.content, fileOf_length]]
      · rw [slice_length, hb.content, fileOf_length]
      · intro j hj
        simp only [slice, List.getElem_take, List.getElem_drop]
        simp [hb.content, fileOf]
  | writeAt p off =>
    refine ⟨?_, ?_⟩
    · intro hbad
      simp only [Buf.step, Buf.writeAt]
      by_cases hneg : off < 0
      · simp [hneg]
      · rw [if_neg hneg, if_pos (by omega)]
    · intro h0 hfit
      simp only [Buf.step, Buf.writeAt]
      rw [if_neg (by omega), if_neg (by omega)]
      by_cases hp : p = []
      · simp [hp]
      · rw [if_neg hp]
        by_cases hgt : off.toNat + p.length > b.content.length
        · rw [if_pos hgt]
          cases hg : b.grow a (off.toNat + p.length - b.content.length) with
          | some b1 => left; rfl
          | none =>
            right
            have := grow_none hg
            rw [hb.content, fileOf_length] at hgt this
            refine ⟨rfl, ?_, ?_⟩ <;> omega
        · rw [if_neg hgt]
          left; rfl
  | truncate size =>
    refine ⟨?_, ?_⟩
    · intro hneg
      simp [Buf.step, Buf.truncate, hneg]
    · intro h0
      simp only [Buf.step, Buf.truncate]
      rw [if_neg (by omega)]
      by_cases hgt : size.toNat > b.content.length
      · rw [if_pos hgt]
        cases hg : b.grow a (size.toNat - b.content.length) with
        | some b1 => left; rfl
        | none =>
          right
          have := grow_none hg
          rw [hb.content, fileOf_length] at hgt this
          refine ⟨rfl, ?_, ?_⟩ <;> omega
      · rw [if_neg hgt]
        left; rfl

theorem effects_cons (o : Op) (r : Resp) (h : List (Op × Resp)) : effects ((o, r) :: h) = effects h ++ effect o r := by
  have : (effect o r).reverse = effect o r := by
    cases o <;> cases r <;> simp only [effect] <;> try rfl
    all_goals (rename_i e; cases e <;> rfl)
  simp [effects, this]

theorem run_length (calls : List (Alloc × Op)) : ∀ b : Buf, (b.run calls).2.length = calls.length := by
  induction calls with
  | nil => intro b; rfl
  | cons c calls ih =>
    intro b
    obtain ⟨a, op⟩ := c
    simp only [Buf.run, List.length_cons, ih]

theorem run_answers (calls : List (Alloc × Op)) : ∀ (b : Buf) (h : List Ev), b.Holds h →
    (b.run calls).1.Holds (effects (b.run calls).2 ++ h) ∧
    ∀ i (hi : i < calls.length), ∃ o r, (b.run calls).2[i]? = some (o, r) ∧ o = calls[i].2 ∧
      Answers calls[i].1 (effects ((b.run calls).2.take i) ++ h) o r := by
  induction calls with
  | nil => intro b h hb; exact ⟨by simpa [Buf.run, effects] using hb, fun i hi => absurd hi (Nat.not_lt_zero i)⟩
  | cons c calls ih =>
    intro b h hb
    obtain ⟨a, op⟩ := c
    obtain ⟨ih1, ih2⟩ := ih (b.step a op).1 _ (step_holds (a := a) hb op)
    simp only [Buf.run]
    refine ⟨by rw [effects_cons, List.append_assoc]; exact ih1, ?_⟩
    intro i hi
    cases i with
    | zero => exact ⟨op, (b.step a op).2, rfl, rfl, by simpa [effects] using answers hb op⟩
    | succ i =>
      obtain ⟨o, r, h1, h2, h3⟩ := ih2 i (by simpa using hi)
      refine ⟨o, r, by simpa using h1, by simpa using h2, ?_⟩
      simp only [List.take_succ_cons, effects_cons, List.append_assoc]
      simpa using h3

/-! ## C45 -/

/-- Every call of every history on a new memory file, whatever capacities the runtime picks, is answered as by a byte array
in which gaps are zeros: the answer to call `i` is right for the changes made by the calls before it. A call panics
only when the file would have to grow beyond what the runtime can allocate. -/
theorem C45_byte_array (calls : List (Alloc × Op)) (i : Nat) (hi : i < calls.length) :
    ∃ o r, (Buf.empty.run calls).2[i]? = some (o, r) ∧ o = calls[i].2 ∧
      Answers calls[i].1 (effects ((Buf.empty.run calls).2.take i)) o r := by
  have h := (run_answers calls Buf.empty [] ⟨rfl, 0, rfl⟩).2 i hi
  simpa using h

/-- A byte cut off by a truncate never reappears: until some later write covers its position it reads as zero. -/
theorem C45_cut_is_gone (later earlier : List Ev) (n i : Nat) (hi : n ≤ i)
    (hw : ∀ off p, .write off p ∈ later → ¬ (off ≤ i ∧ i < off + p.length)) : byteOf (later ++ .cut n :: earlier) i = 0 := by
  induction later with
  | nil => simp only [List.nil_append, byteOf]; rw [if_neg (by omega)]
  | cons e later ih =>
    have ih := ih (fun off p h => hw off p (List.mem_cons_of_mem _ h))
    cases e with
    | write off p =>
      simp only [List.cons_append, byteOf]
      have := hw off p List.mem_cons_self
      rw [dif_neg (by omega)]
      exact ih
    | cut m =>
      simp only [List.cons_append, byteOf]
      split
      · exact ih
      · rfl

/-- Write six bytes, cut to two, grow to five by writing at 4: the gap reads as zeros although the array once held other bytes. -/
example : (Buf.empty.run [(⟨10, 100⟩, .writeAt [1, 2, 3, 4, 5, 6] 0), (⟨10, 100⟩, .truncate 2), (⟨10, 100⟩, .writeAt [9] 4), (⟨0, 100⟩, .readAt 10 0)]).2.map (·.2)
    = [.wrote 6 none, .truncated none, .wrote 1 none, .read [1, 2, 0, 0, 9] (some .eof)] := by decide

/-- A write far beyond the end panics when the runtime cannot allocate that much. -/
theorem C45_note_sparse_write_panics : (Buf.empty.run [(⟨0, 1000⟩, .writeAt [1] (2 ^ 62))]).2.map (·.2) = [.panic] := by decide

end Verif.Synth
