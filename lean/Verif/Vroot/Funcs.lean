import Verif.Common.Bytes
/-!
C122: `ReadFile` and `WriteFile` of vroot. Code: /repo/vroot/funcs.go 37-53 and 91-104, with std `io.ReadAll`
(`b := make([]byte, 0, 512)`; read into the spare capacity; `io.EOF` ends; a full buffer is grown by `append`).
The file handle is arbitrary: how many bytes each `Read` and `Write` moves and which calls fail is given by parameters.
Left out: native `ReadFile` implementations (funcs.go 43-45 forward to them), panics of files that break the contract of io.Reader.
-/
namespace Verif.Vroot.Funcs

/-- What a `Read` reports: nothing, the end, or an error. -/
inductive RErr where
  | eof
  | fail (code : Nat)
deriving DecidableEq

/-- The file `ReadFile` opens: whether `Open` works, its content, and for the `k`-th `Read` into `room` bytes at a position how many bytes
come and what is reported. -/
structure Src where
  open_ : Option Nat
  content : Bytes
  read : (k pos room : Nat) → Nat × Option RErr

/-- What the interface of io.Reader asks for: no more bytes than there is room for and than there are, and the end only at the end. -/
def Src.Honest (f : Src) : Prop :=
  ∀ k pos room, pos ≤ f.content.length → (f.read k pos room).1 ≤ room ∧ pos + (f.read k pos room).1 ≤ f.content.length ∧
    ((f.read k pos room).2 = some .eof → pos + (f.read k pos room).1 = f.content.length)

/-- Every `Read` with room moves on or reports something. -/
def Src.Lively (f : Src) : Prop := ∀ k pos room, 0 < room → (f.read k pos room).1 = 0 → (f.read k pos room).2 ≠ none

/-- std io.ReadAll from the `k`-th read on, with `b` read so far in a buffer of capacity `cap`; `grow` is what `append` makes of a full
buffer's capacity. -/
def readAll (f : Src) (grow : Nat → Nat) : (fuel k cap : Nat) → (b : Bytes) → Option (Bytes × Option Nat)
  | 0, _, _, _ => none
  | fuel + 1, k, cap, b =>
    let r := f.read k b.length (cap - b.length)
    let b1 := b ++ (f.content.drop b.length).take r.1
    match r.2 with
    | some .eof => some (b1, none)
    | some (.fail e) => some (b1, some e)
    | none => readAll f grow fuel (k + 1) (if b1.length = cap then grow cap else cap) b1

/-- What `ReadFile` does: its result and how often it closed the handle it had opened. -/
structure ReadRes where
  bytes : Bytes
  err : Option Nat
  opened : Bool
  closes : Nat
deriving DecidableEq

/-- funcs.go 42-53 `ReadFile`. -/
def readFile (f : Src) (grow : Nat → Nat) (fuel : Nat) : Option ReadRes :=
  match f.open_ with
  | some e => some ⟨[], some e, false, 0⟩
  | none => (readAll f grow fuel 0 512 []).map (fun r => ⟨r.1, r.2, true, 1⟩)

/-! ### Reading -/

theorem take_drop_prefix (c : Bytes) (i n : Nat) : c.take i ++ (c.drop i).take n = c.take (i + n) := by
  rw [List.take_add]

theorem readAll_honest {f : Src} (hf : f.Honest) {grow : Nat → Nat} : ∀ fuel k cap (b : Bytes) r, b = f.content.take b.length →
    b.length ≤ f.content.length → readAll f grow fuel k cap b = some r →
    r.1 = f.content.take r.1.length ∧ (r.2 = none → r.1 = f.content) ∧
      ∀ e, r.2 = some e → ∃ k' pos room, pos ≤ f.content.length ∧ (f.read k' pos room).2 = some (.fail e) ∧
        r.1 = f.content.take (pos + (f.read k' pos room).1)
  | 0, _, _, _, _, _, _, h => by cases h
  | fuel + 1, k, cap, b, r, hb, hl, h => by
    obtain ⟨h1, h2, h3⟩ := hf k b.length (cap - b.length) hl
    have hb1 : b ++ (f.content.drop b.length).take (f.read k b.length (cap - b.length)).1 =
        f.content.take (b.length + (f.read k b.length (cap - b.length)).1) := by
      have := take_drop_prefix f.content b.length (f.read k b.length (cap - b.length)).1
      rw [← hb] at this; exact this
    have hlen : (f.content.take (b.length + (f.read k b.length (cap - b.length)).1)).length =
        b.length + (f.read k b.length (cap - b.length)).1 := by rw [List.length_take]; omega
    unfold readAll at h
    simp only [hb1] at h
    cases he : (f.read k b.length (cap - b.length)).2 with
    | none =>
      rw [he] at h
      simp only at h
      exact readAll_honest hf fuel _ _ _ r (by rw [hlen]) (by rw [hlen]; exact h2) h
    | some x =>
      rw [he] at h
      cases x with
      | eof =>
        simp only [Option.some.injEq] at h
        subst h
        refine ⟨by simp only; rw [hlen], fun _ => ?_, fun e h => by cases h⟩
        simp only
        rw [h3 he, List.take_length]
      | fail e =>
        simp only [Option.some.injEq] at h
        subst h
        refine ⟨by simp only; rw [hlen], (fun h => by cases h), fun e' h => ?_⟩
        injection h with h
        subst h
        exact ⟨k, b.length, cap - b.length, hl, he, rfl⟩

/-- **C122** (reading). For a file that keeps to the contract of io.Reader, however many bytes each `Read` delivers and whichever fails:
`ReadFile` returns the bytes of the file from its beginning; without an error all of them, and an error only if opening failed, when there
are no bytes, or a `Read` reported it, when the bytes are all that were read until then. A handle that was opened is closed exactly once. -/
theorem C122_readFile (f : Src) (hf : f.Honest) (grow : Nat → Nat) (fuel : Nat) (r : ReadRes) (h : readFile f grow fuel = some r) :
    (r.err = none → r.bytes = f.content) ∧ r.bytes <+: f.content ∧ (r.opened = true ↔ f.open_ = none) ∧ r.closes = (if r.opened then 1 else 0) ∧
    (∀ e, r.err = some e → (f.open_ = some e ∧ r.bytes = []) ∨ ∃ k pos room, (f.read k pos room).2 = some (.fail e) ∧
      r.bytes = f.content.take (pos + (f.read k pos room).1)) := by
  unfold readFile at h
  cases ho : f.open_ with
  | some e =>
    rw [ho] at h
    injection h with h
    subst h
    refine ⟨(fun h => by cases h), List.nil_prefix, by simp, rfl, fun e' h => ?_⟩
    injection h with h
    exact .inl ⟨by rw [h], rfl⟩
  | none =>
    rw [ho] at h
    simp only at h
    cases hr : readAll f grow fuel 0 512 [] with
    | none => rw [hr] at h; cases h
    | some q =>
      rw [hr] at h
      simp only [Option.map_some, Option.some.injEq] at h
      subst h
      obtain ⟨a, b, c⟩ := readAll_honest hf fuel 0 512 [] q (by simp) (by simp) hr
      refine ⟨b, ?_, by simp, rfl, fun e he => ?_⟩
      · rw [a]; exact List.take_prefix ..
      · obtain ⟨k, pos, room, _, h1, h2⟩ := c e he
        exact .inr ⟨k, pos, room, h1, h2⟩

theorem readAll_ends {f : Src} (hf : f.Honest) (hv : f.Lively) {grow : Nat → Nat} (hg : ∀ c, c < grow c) : ∀ fuel k cap (b : Bytes),
    b = f.content.take b.length → b.length ≤ f.content.length → b.length < cap → f.content.length - b.length < fuel →
    ∃ r, readAll f grow fuel k cap b = some r
  | 0, _, _, _, _, _, _, h => by omega
  | fuel + 1, k, cap, b, hb, hl, hc, hfu => by
    obtain ⟨h1, h2, h3⟩ := hf k b.length (cap - b.length) hl
    have hb1 : b ++ (f.content.drop b.length).take (f.read k b.length (cap - b.length)).1 =
        f.content.take (b.length + (f.read k b.length (cap - b.length)).1) := by
      have := take_drop_prefix f.content b.length (f.read k b.length (cap - b.length)).1
      rw [← hb] at this; exact this
    have hlen : (f.content.take (b.length + (f.read k b.length (cap - b.length)).1)).length =
        b.length + (f.read k b.length (cap - b.length)).1 := by rw [List.length_take]; omega
    unfold readAll
    simp only [hb1]
    cases he : (f.read k b.length (cap - b.length)).2 with
    | none =>
      have hpos : (f.read k b.length (cap - b.length)).1 ≠ 0 := fun h0 => hv k b.length (cap - b.length) (by omega) h0 he
      simp only
      refine readAll_ends hf hv hg fuel _ _ _ (by rw [hlen]) (by rw [hlen]; exact h2) ?_ (by rw [hlen]; omega)
      rw [hlen]
      split
      next e => have := hg cap; omega
      next e => omega
    | some x => cases x <;> exact ⟨_, rfl⟩

/-- **C122** (reading ends). If every `Read` that has room delivers something or reports something, `ReadFile` returns after at most one
`Read` more than the file has bytes, however the buffer grows. -/
theorem C122_readFile_ends (f : Src) (hf : f.Honest) (hv : f.Lively) (grow : Nat → Nat) (hg : ∀ c, c < grow c) :
    ∃ r, readFile f grow (f.content.length + 1) = some r := by
  unfold readFile
  cases f.open_ with
  | some e => exact ⟨_, rfl⟩
  | none =>
    obtain ⟨r, hr⟩ := readAll_ends hf hv hg (f.content.length + 1) 0 512 [] (by simp) (by simp) (by simp) (by simp)
    exact ⟨_, by simp only [hr]; rfl⟩

/-! ### Writing -/

/-- What is found under the name: nothing, or a file with permission bits and bytes. -/
abbrev Disk := Option (Nat × Bytes)

/-- How the calls of one `WriteFile` go: `Write` moves `n` bytes. -/
structure Run where
  openErr : Option Nat
  n : Nat
  writeErr : Option Nat
  closeErr : Option Nat

/-- What the interface of io.Writer asks for: fewer bytes only with an error. -/
def Run.Honest (o : Run) (data : Bytes) : Prop := o.n ≤ data.length ∧ (o.writeErr = none → o.n = data.length)

/-- funcs.go 92-104 `WriteFile`: the states of the disk one after the other, the error, how often the handle was closed. Opening with
`O_CREATE|O_TRUNC` keeps the permission bits of a file that is there. -/
def writeFile (data : Bytes) (perm : Nat) (o : Run) (d : Disk) : List Disk × Option Nat × Nat :=
  match o.openErr with
  | some e => ([d], some e, 0)
  | none =>
    let p := match d with | some x => x.1 | none => perm
    let err := match o.writeErr with
      | some e => some e
      | none => o.closeErr
    ([d, some (p, []), some (p, data.take o.n)], err, 1)

/-- The disk after it. -/
def final (data : Bytes) (perm : Nat) (o : Run) (d : Disk) : Disk :=
  match (writeFile data perm o d).1.getLast? with | some x => x | none => d

/-- **C122** (writing). `WriteFile` returns nil exactly if opening, writing and closing all worked, and then the file holds exactly the data,
with the permission bits it had, or the given ones if it was not there; otherwise it returns the first error, and what is left is the file as
it was (opening failed) or a file with a beginning of the data. A handle that was opened is closed exactly once. -/
theorem C122_writeFile (data : Bytes) (perm : Nat) (o : Run) (ho : o.Honest data) (d : Disk) :
    ((writeFile data perm o d).2.1 = none ↔ o.openErr = none ∧ o.writeErr = none ∧ o.closeErr = none) ∧
    ((writeFile data perm o d).2.1 = none → ∃ p, final data perm o d = some (p, data) ∧ p = (match d with | some x => x.1 | none => perm)) ∧
    ((writeFile data perm o d).2.1 = o.openErr.or (o.writeErr.or o.closeErr)) ∧
    ((o.openErr ≠ none ∧ final data perm o d = d) ∨ ∃ p b, final data perm o d = some (p, b) ∧ b <+: data) ∧
    (writeFile data perm o d).2.2 = (if o.openErr = none then 1 else 0) := by
  obtain ⟨h1, h2⟩ := ho
  unfold final writeFile
  cases hop : o.openErr with
  | some e => refine ⟨by simp, (fun h => by simp at h), by simp, .inl ⟨by simp, rfl⟩, by simp⟩
  | none =>
    cases hw : o.writeErr with
    | some e =>
      refine ⟨by simp, (fun h => by simp at h), by simp, .inr ⟨_, _, rfl, List.take_prefix ..⟩, by simp⟩
    | none =>
      refine ⟨by simp, fun _ => ⟨_, ?_, rfl⟩, by simp, .inr ⟨_, _, rfl, List.take_prefix ..⟩, by simp⟩
      simp only [List.getLast?]
      show some (_, data.take o.n) = _
      rw [h2 hw, List.take_length]

/-- **C122** (a process that dies while writing). At every point the file is as it was, or holds a beginning of the data. -/
theorem C122_writeFile_crash (data : Bytes) (perm : Nat) (o : Run) (d x : Disk) (h : x ∈ (writeFile data perm o d).1) :
    x = d ∨ ∃ p b, x = some (p, b) ∧ b <+: data := by
  unfold writeFile at h
  cases hop : o.openErr with
  | some e => rw [hop] at h; simp at h; exact .inl h
  | none =>
    rw [hop] at h
    simp at h
    rcases h with h | h | h
    · exact .inl h
    · exact .inr ⟨_, _, h, List.nil_prefix⟩
    · exact .inr ⟨_, _, h, List.take_prefix ..⟩

/-- **C122** (writing, then reading). What `WriteFile` has written without an error is what `ReadFile` then reads without an error. -/
theorem C122_roundtrip (data : Bytes) (perm : Nat) (o : Run) (ho : o.Honest data) (d : Disk) (hw : (writeFile data perm o d).2.1 = none)
    (f : Src) (hf : f.Honest) (hd : ∃ p, final data perm o d = some (p, f.content)) (grow : Nat → Nat) (fuel : Nat) (r : ReadRes)
    (h : readFile f grow fuel = some r) (he : r.err = none) : r.bytes = data := by
  obtain ⟨p, h1, _⟩ := (C122_writeFile data perm o ho d).2.1 hw
  obtain ⟨q, h2⟩ := hd
  rw [h1] at h2
  injection h2 with h2
  injection h2 with _ h2
  rw [(C122_readFile f hf grow fuel r h).1 he, h2]

/-- `WriteFile` is not atomic: a failed or interrupted one leaves neither the old nor the new content (that is what the safe writes of fsutil
are for). -/
theorem C122_note_not_atomic : ∃ (data : Bytes) (o : Run) (d : Disk), o.Honest data ∧ ∃ x ∈ (writeFile data 0o644 o d).1,
    x ≠ d ∧ ∀ p, x ≠ some (p, data) :=
  ⟨[1, 2], ⟨none, 1, some 5, none⟩, some (0o600, [9]), ⟨by decide, fun h => by cases h⟩, some (0o600, [1]), by decide, by decide,
    fun p h => by simp at h⟩

/-! ### Concrete cases -/

/-- Three bytes, delivered one by one, then the end. -/
def trickle : Src := ⟨none, [1, 2, 3], fun _ pos room => if pos < 3 then (min 1 room, none) else (0, some .eof)⟩

example : readFile trickle (· * 2) 10 = some ⟨[1, 2, 3], none, true, 1⟩ := by decide

example : trickle.Honest ∧ trickle.Lively := by
  refine ⟨fun k pos room h => ?_, fun k pos room h h0 => ?_⟩
  · unfold trickle at *
    simp only [List.length_cons, List.length_nil] at *
    split
    · exact ⟨by simp; omega, by simp; omega, fun h => by cases h⟩
    · exact ⟨by simp, by simp; omega, fun _ => by simp; omega⟩
  · unfold trickle at *
    simp only at *
    split at h0
    · simp at h0; omega
    next hn => rw [if_neg hn]; simp

/-- Two bytes, then a failure. -/
def broken : Src := ⟨none, [1, 2, 3], fun k _ _ => if k = 0 then (2, none) else (0, some (.fail 5))⟩

example : readFile broken (· * 2) 10 = some ⟨[1, 2], some 5, true, 1⟩ := by decide

example : (writeFile [1, 2, 3] 0o644 ⟨none, 3, none, none⟩ (some (0o600, [7, 7, 7, 7, 7]))).2.1 = none ∧
    final [1, 2, 3] 0o644 ⟨none, 3, none, none⟩ (some (0o600, [7, 7, 7, 7, 7])) = some (0o600, [1, 2, 3]) := by decide

end Verif.Vroot.Funcs
