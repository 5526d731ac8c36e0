import Verif.Synth.Append
/-
Model of the in-memory files of the afero filesystem, /repo/aferofs/synth/impl_inmem_file.go (memFile, memFileHandle), of the wrapper that refuses calls
after Close, /repo/aferofs/internal/closable, and properties C92 and C93.

The slice with its backing array (`Synth.Buf`), the allocator (`Synth.Alloc`), the calls and answers (`Synth.FOp`, `Synth.HResp`) and the specification of
open files are those of C45 and C46: this is an older copy of the same code, and the theorems below say where the two agree. The modification time is not
modelled; each call is one step, except in C93.
-/
namespace Verif.Afero.Mem
open Verif.Vroot Verif.Synth

/-! ## Model -/

/-- impl_inmem_file.go 249-256 `grow`; the runtime zeroes the capacity that `append` adds. `none`: a panic. -/
def grow (a : Alloc) (b : Buf) (growth : Nat) : Option Buf :=
  if b.spare.length ≥ growth then some ⟨b.content ++ b.spare.take growth, b.spare.drop growth⟩
  else if b.content.length + growth ≤ a.limit then some ⟨b.content ++ zeros growth, zeros a.extra⟩
  else none

/-- impl_inmem_file.go 201-221 `ReadAt` -/
def readAt (b : Buf) (k : Nat) (off : Int) : Bytes × Option Err :=
  if off < 0 then ([], some .negOff)
  else if off ≥ b.content.length then ([], some .eof)
  else
    let d := (b.content.drop off.toNat).take k
    (d, if d.length < k then some .eof else none)

/-- impl_inmem_file.go 224-247 `WriteAt`; 231 is computed modulo 2^64, 228-230 never fire where `int` has 64 bits. -/
def writeAt (a : Alloc) (b : Buf) (p : Bytes) (off : Int) : Option (Buf × Nat × Option Err) :=
  if off < 0 then some (b, 0, some .inval)
  else if wrap64 (off + p.length) < off then some (b, 0, some .inval)
  else if p.length = 0 then some (b, 0, none)
  else
    let growth : Int := off + p.length - b.content.length
    let b1 := if growth > 0 then grow a b growth.toNat else some b
    b1.map fun b1 => (⟨b1.content.take off.toNat ++ p ++ b1.content.drop (off.toNat + p.length), b1.spare⟩, p.length, none)

/-- impl_inmem_file.go 186-198 `Truncate` -/
def truncate (a : Alloc) (b : Buf) (size : Int) : Option (Buf × Option Err) :=
  if size < 0 then some (b, some .inval)
  else
    let diff : Int := size - b.content.length
    let b1 := if diff > 0 then grow a b diff.toNat else some b
    b1.map fun b1 => (⟨b1.content.take size.toNat, []⟩, none)

/-- flag.go 16-25 `flagReadable`; O_RDONLY is 0, so the mask is 3. -/
def flagReadable (flag : Vroot.Flag) : Bool :=
  if flag &&& 3#64 = 2#64 then true else if flag &&& 3#64 = 1#64 then false else true
/-- flag.go 27-36 `flagWritable` -/
def flagWritable (flag : Vroot.Flag) : Bool :=
  if flag &&& 3#64 = 2#64 then true else if flag &&& 3#64 = 1#64 then true else false

/-- impl_inmem_file.go 46-56 `Read` -/
def read (b : Buf) (h : Hd) (k : Nat) : Hd × HResp :=
  if !flagReadable h.flag then (h, .failed .badf)
  else
    let r := readAt b k h.off
    ({ h with off := wrap64 (h.off + r.1.length) }, readResp r)

/-- impl_inmem_file.go 114-129 `Write` -/
def write (a : Alloc) (b : Buf) (h : Hd) (p : Bytes) : Buf × Hd × HResp :=
  if !flagWritable h.flag then (b, h, .failed .badf)
  else
    let off : Int := if h.flag &&& oAPPEND != 0#64 then b.content.length else h.off
    match writeAt a b p off with
    | none => (b, { h with off := off }, .panic)
    | some (b', n, none) => (b', { h with off := wrap64 (off + n) }, .count n)
    | some (b', n, some e) => (b', { h with off := wrap64 (off + n) }, .failed (ofErr e))

/-- impl_inmem_file.go 131-141 `WriteAt` -/
def handleWriteAt (a : Alloc) (b : Buf) (h : Hd) (p : Bytes) (off : Int) : Buf × Hd × HResp :=
  if h.flag &&& oAPPEND != 0#64 then (b, h, .failed .inval)
  else if !flagWritable h.flag then (b, h, .failed .badf)
  else match writeAt a b p off with
    | none => (b, h, .panic)
    | some (b', n, none) => (b', h, .count n)
    | some (b', _, some e) => (b', h, .failed (ofErr e))

/-- impl_inmem_file.go 73-94 `Seek` -/
def seek (b : Buf) (h : Hd) (offset whence : Int) : Hd × HResp :=
  let to_ (off : Int) : Hd × HResp := if off < 0 then (h, .failed .inval) else ({ h with off := off }, .pos off)
  if whence = 0 then to_ offset
  else if whence = 1 then to_ (wrap64 (offset + h.off))
  else if whence = 2 then to_ (wrap64 (offset + b.content.length))
  else (h, .failed .inval)

/-- impl_inmem_file.go 106-112 `Truncate` -/
def handleTruncate (a : Alloc) (b : Buf) (h : Hd) (size : Int) : Buf × Hd × HResp :=
  if !flagWritable h.flag then (b, h, .failed .badf)
  else match truncate a b size with
    | none => (b, h, .panic)
    | some (b', none) => (b', h, .done)
    | some (b', some e) => (b', h, .failed (ofErr e))

/-- closable/file.go 24-37 `beforeEach` in front of every call (file.closable[t].generate.go), then the call; `size` is what `Stat` reports
(impl_inmem_file.go 96-98). WriteString (143-150) is `Write`. -/
def handleOp (a : Alloc) (b : Buf) (h : Hd) (op : FOp) : Buf × Hd × HResp :=
  if h.closed then (b, h, .failed .closed)
  else match op with
    | .close => (b, { h with closed := true }, .done)
    | .size => (b, h, .size b.content.length)
    | .read k => (b, read b h k)
    | .readAt k off => (b, h, if !flagReadable h.flag then .failed .badf else readResp (readAt b k off))
    | .write p => write a b h p
    | .writeAt p off => handleWriteAt a b h p off
    | .truncate size => handleTruncate a b h size
    | .seek off whence => (b, seek b h off whence)

/-- impl_inmem.go 42-44 `Open`, fs.go 338-348: a file that exists is cut first if O_TRUNC is given, whatever the access mode. (That the mode bits of the file
allow it is C90.) -/
def openOp (a : Alloc) (b : Buf) (flag : Vroot.Flag) : Option Buf × Hd :=
  (if flag &&& oTRUNC != 0#64 then (truncate a b 0).map (·.1) else some b, ⟨flag, 0, false⟩)

def step (a : Alloc) (s : Sys) : HOp → Sys × HResp
  | .open_ flag => match openOp a s.buf flag with
    | (none, _) => (s, .panic)
    | (some b, h) => (⟨b, s.hs ++ [h]⟩, .done)
  | .on i op => match s.hs[i]? with
    | none => (s, .noHandle)
    | some h => let (b, h', r) := handleOp a s.buf h op; (⟨b, s.hs.set i h'⟩, r)

def run (s : Sys) : List (Alloc × HOp) → List HResp
  | [] => []
  | (a, op) :: rest => (step a s op).2 :: run (step a s op).1 rest

/-! ## Specification -/

/-- What an open makes of a flag word: 3 is not an access mode of Go's and counts as reading here. -/
def descOf (flag : Vroot.Flag) : Desc := ⟨access flag ≠ .wronly, access flag = .wronly ∨ access flag = .rdwr, flag.getLsbD 10, 0, true⟩

/-- The reference of C46, except that a closed handle refuses everything, and that WriteAt on an append handle is refused for that reason first. -/
def posix (refuse : Bool) (h : List Ev) (d : Desc) (op : FOp) : List Ev × Desc × HResp :=
  if !d.isOpen then ([], d, .failed .closed)
  else match op with
    | .writeAt p off => if d.append then ([], d, .failed .inval) else Synth.posix refuse h d (.writeAt p off)
    | op => Synth.posix refuse h d op

/-- One call on the reference file; `flag.getLsbD 9` is O_TRUNC. -/
def pstep (refuse : Bool) (s : PSys) : HOp → PSys × HResp
  | .open_ flag => (⟨(if flag.getLsbD 9 then [.cut 0] else []) ++ s.changes, s.ds ++ [descOf flag]⟩, .done)
  | .on i op => match s.ds[i]? with
    | none => (s, .noHandle)
    | some d => let (e, d', r) := posix refuse s.changes d op; (⟨e ++ s.changes, s.ds.set i d'⟩, r)

def prun (s : PSys) : List (Bool × HOp) → List HResp
  | [] => []
  | (x, op) :: rest => (pstep x s op).2 :: prun (pstep x s op).1 rest

/-- The arguments are values of Go: offsets are int64, lengths are an int. -/
def GoArgs : HOp → Prop
  | .open_ _ => True
  | .on _ op => op.Int64 ∧ match op with
    | .write p => (p.length : Int) ≤ maxInt64
    | .writeAt p _ => (p.length : Int) ≤ maxInt64
    | _ => True

/-! ## Proofs -/

theorem grow_eq (a : Alloc) (b : Buf) (n : Nat) : grow a b n = b.grow a n := rfl

theorem readAt_eq (b : Buf) (k : Nat) (off : Int) : readAt b k off = b.readAt k off := by
  unfold readAt Buf.readAt slice
  split
  · rfl
  · split
    · rfl
    · simp only
      split <;> rfl

theorem writeAt_eq (a : Alloc) (b : Buf) (p : Bytes) (off : Int) (ho : off ≤ maxInt64) (hp : (p.length : Int) ≤ maxInt64) : writeAt a b p off = b.writeAt a p off := by
  unfold writeAt Buf.writeAt
  by_cases h0 : off < 0
  · rw [if_pos h0, if_pos h0]
  · rw [if_neg h0, if_neg h0]
    have hw := wrap64_add_nonneg (a := off) (b := p.length) (by omega) (by omega) ho hp
    by_cases hv : (p.length : Int) > maxInt64 - off
    · rw [if_pos hv, if_pos (by have := hw.2 (by omega); omega)]
    · rw [if_neg hv, if_neg (by have := hw.1 (by omega); omega)]
      by_cases he : p = []
      · subst he; simp
      · rw [if_neg he, if_neg (by simpa using he)]
        simp only [grow_eq]
        have e1 : (off + (p.length : Int) - (b.content.length : Int) > 0) ↔ off.toNat + p.length > b.content.length := by omega
        have e2 : (off + (p.length : Int) - (b.content.length : Int)).toNat = off.toNat + p.length - b.content.length := by omega
        simp only [e1, e2]
        rfl

theorem truncate_eq (a : Alloc) (b : Buf) (size : Int) : truncate a b size = b.truncate a size := by
  unfold truncate Buf.truncate
  split
  · rfl
  · rename_i h
    simp only [grow_eq]
    have e1 : (size - (b.content.length : Int) > 0) ↔ size.toNat > b.content.length := by omega
    have e2 : (size - (b.content.length : Int)).toNat = size.toNat - b.content.length := by omega
    simp only [e1, e2]

/-- A flag word without the mode 3. -/
def norm (f : Vroot.Flag) : Vroot.Flag := if f.toNat % 4 = 3 then f &&& 0xFFFFFFFFFFFFFFFC#64 else f

theorem and3 (f : Vroot.Flag) (k : Nat) (hk : k < 4) : (f &&& 3#64 = BitVec.ofNat 64 k) ↔ f.toNat % 4 = k := by
  rw [← BitVec.toNat_inj, BitVec.toNat_and]
  have h3 : (3#64).toNat = 2 ^ 2 - 1 := rfl
  rw [h3, Nat.and_two_pow_sub_one_eq_mod, BitVec.toNat_ofNat, Nat.mod_eq_of_lt (a := k) (by omega)]

theorem norm_mod (f : Vroot.Flag) : (norm f).toNat % 4 = if f.toNat % 4 = 3 then 0 else f.toNat % 4 := by
  unfold norm
  split
  · have h4 : (4 : Nat) = 2 ^ 2 := rfl
    rw [BitVec.toNat_and, h4, Nat.and_mod_two_pow]
    simp
  · rfl

theorem norm_bit (f : Vroot.Flag) (i : Nat) (hi : 2 ≤ i) : (norm f).getLsbD i = f.getLsbD i := by
  unfold norm
  split
  · by_cases h : i < 64
    · rw [BitVec.getLsbD_and]
      have : (0xFFFFFFFFFFFFFFFC#64).getLsbD i = true := by
        have : ∀ i : Fin 64, 2 ≤ i.val → (0xFFFFFFFFFFFFFFFC#64).getLsbD i.val = true := by decide
        exact this ⟨i, h⟩ hi
      rw [this, Bool.and_true]
    · rw [BitVec.getLsbD_of_ge _ _ (by omega), BitVec.getLsbD_of_ge _ _ (by omega)]
  · rfl

theorem readable_norm (f : Vroot.Flag) : flagReadable f = readable (norm f) := by
  have h := (C39_access (norm f)).1
  unfold access at h
  rw [norm_mod] at h
  unfold flagReadable
  simp only [and3 f 2 (by omega), and3 f 1 (by omega)]
  have hm : f.toNat % 4 < 4 := Nat.mod_lt _ (by omega)
  generalize f.toNat % 4 = m at h hm
  have : m = 0 ∨ m = 1 ∨ m = 2 ∨ m = 3 := by omega
  rcases this with rfl | rfl | rfl | rfl <;> simp at h ⊢ <;> simp [h]

theorem writable_norm (f : Vroot.Flag) : flagWritable f = writable (norm f) := by
  have h := (C39_access (norm f)).2.1
  unfold access at h
  rw [norm_mod] at h
  unfold flagWritable
  simp only [and3 f 2 (by omega), and3 f 1 (by omega)]
  have hm : f.toNat % 4 < 4 := Nat.mod_lt _ (by omega)
  generalize f.toNat % 4 = m at h hm
  have : m = 0 ∨ m = 1 ∨ m = 2 ∨ m = 3 := by omega
  rcases this with rfl | rfl | rfl | rfl <;> simp at h ⊢ <;> simp [h]

theorem descOf_norm (f : Vroot.Flag) : descOf f = Synth.descOf (norm f) := by
  unfold descOf Synth.descOf access
  rw [norm_mod, norm_bit f 10 (by omega)]
  have hm : f.toNat % 4 < 4 := Nat.mod_lt _ (by omega)
  generalize f.toNat % 4 = m at hm
  have : m = 0 ∨ m = 1 ∨ m = 2 ∨ m = 3 := by omega
  rcases this with rfl | rfl | rfl | rfl <;> simp

theorem append_flag (f : Vroot.Flag) : (f &&& oAPPEND != 0#64) = f.getLsbD 10 := (append_eq ⟨f, 0, false⟩).symm

theorem appends_norm (f : Vroot.Flag) : appends (norm f) = (f &&& oAPPEND != 0#64) := by
  rw [append_flag, ← norm_bit f 10 (by omega)]
  exact append_flag _

/-- The handle with the flag word that the newer code reads the same way. -/
def nh (h : Hd) : Hd := { h with flag := norm h.flag }

/-- The handle as the specification sees it. -/
def absA (h : Hd) : Desc := { descOf h.flag with pos := h.off.toNat, isOpen := !h.closed }

theorem absA_eq (h : Hd) : absA h = absH (nh h) := by
  unfold absA absH nh
  rw [descOf_norm]

/-- An open handle does what the newer code does. -/
theorem handleOp_eq (a : Alloc) (b : Buf) (h : Hd) (op : FOp) (ho : h.closed = false) (hok : h.Ok) (hb : (b.content.length : Int) ≤ maxInt64) (hi : GoArgs (.on 0 op))
    (hw : ∀ p off, op = .writeAt p off → (absA h).append = false) :
    ∃ b' h' r, handleOp a b h op = (b', h', r) ∧ fileOp a b (nh h) op = (b', nh h', r) := by
  have hc : ¬ ((nh h).closed = true) := by simp [nh, ho]
  have hc' : ¬ (h.closed = true) := by simp [ho]
  have hoff := hok.2
  have hr : readable (nh h).flag = flagReadable h.flag := (readable_norm h.flag).symm
  have hwr : writable (nh h).flag = flagWritable h.flag := (writable_norm h.flag).symm
  have hap : appends (nh h).flag = (h.flag &&& oAPPEND != 0#64) := appends_norm h.flag
  unfold handleOp
  rw [if_neg hc']
  cases op with
  | close => exact ⟨_, _, _, rfl, rfl⟩
  | size => exact ⟨_, _, _, rfl, rfl⟩
  | read k =>
    simp only [fileOp, if_neg hc, hr]
    unfold read memRead
    rw [hr]
    cases flagReadable h.flag with
    | false => exact ⟨_, _, _, rfl, rfl⟩
    | true => rw [readAt_eq]; exact ⟨_, _, _, rfl, rfl⟩
  | readAt k off =>
    simp only [fileOp, if_neg hc, hr]
    unfold memReadAt
    rw [hr]
    cases flagReadable h.flag with
    | false => exact ⟨_, _, _, rfl, rfl⟩
    | true => rw [readAt_eq]; exact ⟨_, _, _, rfl, rfl⟩
  | write p =>
    simp only [fileOp, if_neg hc, hwr]
    unfold write memWrite writePos
    rw [hwr, hap]
    cases flagWritable h.flag with
    | false => exact ⟨_, _, _, rfl, rfl⟩
    | true =>
      simp only [Bool.not_true, Bool.false_eq_true, if_false, Bool.true_eq_false]
      have : (if (h.flag &&& oAPPEND != 0#64) = true then (b.content.length : Int) else (nh h).off) = (if (h.flag &&& oAPPEND != 0#64) = true then (b.content.length : Int) else h.off) := rfl
      rw [this]
      rw [writeAt_eq a b p _ (by split <;> assumption) hi.2]
      generalize b.writeAt a p _ = x
      match x with
      | none => exact ⟨_, _, _, rfl, rfl⟩
      | some (b', n, none) => exact ⟨_, _, _, rfl, rfl⟩
      | some (b', n, some e) => exact ⟨_, _, _, rfl, rfl⟩
  | writeAt p off =>
    have hna : (h.flag &&& oAPPEND != 0#64) = false := by rw [append_flag]; exact hw p off rfl
    simp only [fileOp, if_neg hc, hwr]
    unfold handleWriteAt memWriteAt
    rw [hwr, hap, hna]
    simp only [Bool.false_eq_true, if_false]
    cases flagWritable h.flag with
    | false => exact ⟨_, _, _, rfl, rfl⟩
    | true =>
      simp only [Bool.not_true, Bool.false_eq_true, if_false, Bool.true_eq_false]
      rw [writeAt_eq a b p off hi.1.2 hi.2]
      generalize b.writeAt a p off = x
      match x with
      | none => exact ⟨_, _, _, rfl, rfl⟩
      | some (b', n, none) => exact ⟨_, _, _, rfl, rfl⟩
      | some (b', n, some e) => exact ⟨_, _, _, rfl, rfl⟩
  | truncate size =>
    simp only [fileOp, if_neg hc, hwr]
    unfold handleTruncate memTruncate
    rw [hwr]
    cases flagWritable h.flag with
    | false => exact ⟨_, _, _, rfl, rfl⟩
    | true =>
      rw [truncate_eq]
      generalize b.truncate a size = x
      match x with
      | none => exact ⟨_, _, _, rfl, rfl⟩
      | some (b', none) => exact ⟨_, _, _, rfl, rfl⟩
      | some (b', some e) => exact ⟨_, _, _, rfl, rfl⟩
  | seek off whence =>
    simp only [fileOp, if_neg hc]
    unfold seek memSeek
    have ho' : (nh h).off = h.off := rfl
    simp only [ho']
    by_cases w0 : whence = 0
    · simp only [if_pos w0]
      by_cases hneg : off < 0
      · simp only [if_pos hneg]; exact ⟨_, _, _, rfl, rfl⟩
      · simp only [if_neg hneg]; exact ⟨_, _, _, rfl, rfl⟩
    · simp only [if_neg w0]
      by_cases w1 : whence = 1
      · simp only [if_pos w1]
        by_cases hneg : wrap64 (off + h.off) < 0
        · simp only [if_pos hneg]; exact ⟨_, _, _, rfl, rfl⟩
        · simp only [if_neg hneg]; exact ⟨_, _, _, rfl, rfl⟩
      · simp only [if_neg w1]
        by_cases w2 : whence = 2
        · simp only [if_pos w2]
          by_cases hneg : wrap64 (off + b.content.length) < 0
          · simp only [if_pos hneg]; exact ⟨_, _, _, rfl, rfl⟩
          · simp only [if_neg hneg]; exact ⟨_, _, _, rfl, rfl⟩
        · simp only [if_neg w2]; exact ⟨_, _, _, rfl, rfl⟩

/-- One call on one handle refines the reference. -/
theorem handleOp_refines {a : Alloc} {b : Buf} {h : List Ev} {hd : Hd} (r : Rel b h) (hok : hd.Ok) (op : FOp) (hi : GoArgs (.on 0 op)) :
    ∃ b' hd' rs e, handleOp a b hd op = (b', hd', rs) ∧ posix (rs = .panic) h (absA hd) op = (e, absA hd', rs) ∧ Rel b' (e ++ h) ∧ hd'.Ok := by
  cases hcl : hd.closed with
  | true =>
    refine ⟨b, hd, .failed .closed, [], by unfold handleOp; rw [if_pos hcl], ?_, r, hok⟩
    unfold posix
    rw [if_pos (by simp [absA, hcl])]
  | false =>
    have hop : ¬ ((!(absA hd).isOpen) = true) := by simp [absA, hcl]
    by_cases hx : (∃ p off, op = .writeAt p off) ∧ (absA hd).append = true
    · obtain ⟨⟨p, off, rfl⟩, hap⟩ := hx
      refine ⟨b, hd, .failed .inval, [], ?_, ?_, r, hok⟩
      · unfold handleOp
        rw [if_neg (by simp [hcl])]
        simp only [handleWriteAt]
        rw [if_pos (by rw [append_flag]; exact hap)]
      · unfold posix
        rw [if_neg hop]
        simp only
        rw [if_pos hap]
    · have hw : ∀ p off, op = .writeAt p off → (absA hd).append = false := by
        intro p off e
        cases hb : (absA hd).append with
        | false => rfl
        | true => exact absurd ⟨⟨p, off, e⟩, hb⟩ hx
      have hlen : (b.content.length : Int) ≤ maxInt64 := by rw [r.length]; exact r.len
      obtain ⟨b', h', rs, h1, h2⟩ := handleOp_eq a b hd op hcl hok hlen hi hw
      obtain ⟨b2, hd2, rs2, e, h3, h4, h5, h6⟩ := fileOp_refines (a := a) r (hd := nh hd) hok op hi.1
      rw [h2] at h3
      obtain ⟨e1, e2⟩ := Prod.mk.inj h3
      obtain ⟨e3, e4⟩ := Prod.mk.inj e2
      subst e1; subst e3; subst e4
      refine ⟨b', h', rs, e, h1, ?_, h5, h6⟩
      rw [absA_eq, absA_eq, ← h4]
      have hop' : ¬ ((!(absH (nh hd)).isOpen) = true) := by rw [← absA_eq]; exact hop
      unfold posix
      rw [if_neg hop']
      cases op with
      | writeAt p off =>
        simp only
        rw [if_neg (by rw [← absA_eq, hw p off rfl]; simp)]
      | _ => rfl

structure ARel (s : Sys) (p : PSys) : Prop where
  rel : Rel s.buf p.changes
  hs : p.ds = s.hs.map absA
  ok : ∀ h ∈ s.hs, h.Ok

theorem step_refines {a : Alloc} {s : Sys} {p : PSys} (r : ARel s p) (op : HOp) (hi : GoArgs op) :
    ∃ p', pstep ((step a s op).2 = .panic) p op = (p', (step a s op).2) ∧ ARel (step a s op).1 p' := by
  have hnew : ∀ flag, ∀ h ∈ s.hs ++ [(⟨flag, 0, false⟩ : Hd)], h.Ok := by
    intro flag h hm
    rcases List.mem_append.1 hm with hm | hm
    · exact r.ok h hm
    · simp at hm; subst hm
      exact ⟨Int.le_refl _, by unfold maxInt64; simp⟩
  cases op with
  | open_ flag =>
    by_cases hc : (flag &&& oTRUNC != 0#64) = true
    · have hs : step a s (.open_ flag) = (⟨⟨[], []⟩, s.hs ++ [⟨flag, 0, false⟩]⟩, .done) := by
        simp only [step, openOp, if_pos hc, truncate_eq, truncate_zero, Option.map_some]
      rw [hs]
      refine ⟨_, rfl, ?_⟩
      rw [trunc_eq] at hc
      rw [if_pos hc]
      refine ⟨⟨⟨rfl, 0, rfl⟩, by simp [lenOf, maxInt64]⟩, ?_, hnew flag⟩
      rw [List.map_append, r.hs]; rfl
    · have hs : step a s (.open_ flag) = (⟨s.buf, s.hs ++ [⟨flag, 0, false⟩]⟩, .done) := by
        simp only [step, openOp, if_neg hc]
      rw [hs]
      refine ⟨_, rfl, ?_⟩
      rw [trunc_eq] at hc
      rw [if_neg hc]
      refine ⟨r.rel, ?_, hnew flag⟩
      rw [List.map_append, r.hs]; rfl
  | on i op =>
    cases hx : s.hs[i]? with
    | none =>
      have hs : step a s (.on i op) = (s, .noHandle) := by simp only [step, hx]
      rw [hs]
      refine ⟨p, ?_, r⟩
      simp only [pstep, r.hs, List.getElem?_map, hx, Option.map_none]
    | some hd =>
      have hmem : hd ∈ s.hs := List.mem_of_getElem? hx
      obtain ⟨b', hd', rs, e, h1, h2, h3, h4⟩ := handleOp_refines (a := a) r.rel (r.ok hd hmem) op hi
      have hs : step a s (.on i op) = (⟨b', s.hs.set i hd'⟩, rs) := by simp only [step, hx, h1]
      rw [hs]
      refine ⟨⟨e ++ p.changes, p.ds.set i (absA hd')⟩, ?_, h3, ?_, ?_⟩
      · simp only [pstep, r.hs, List.getElem?_map, hx, Option.map_some, h2]
      · rw [List.map_set, r.hs]
      · intro h hm
        rcases List.mem_or_eq_of_mem_set hm with hm | hm
        · exact r.ok h hm
        · subst hm; exact h4

theorem run_refines (calls : List (Alloc × HOp)) (hint : ∀ c ∈ calls, GoArgs c.2) : ∀ (s : Sys) (p : PSys), ARel s p →
    ∃ refusals : List Bool, refusals.length = calls.length ∧ prun p (refusals.zip (calls.map (·.2))) = run s calls ∧
      ∀ (i : Nat) (r : Bool), refusals[i]? = some r → r = true → (run s calls)[i]? = some HResp.panic := by
  induction calls with
  | nil => intro s p _; exact ⟨[], rfl, rfl, by simp⟩
  | cons c calls ih =>
    intro s p r
    obtain ⟨a, op⟩ := c
    obtain ⟨p', h1, h2⟩ := step_refines (a := a) r op (hint (a, op) List.mem_cons_self)
    obtain ⟨rf, h3, h4, h5⟩ := ih (fun c hc => hint c (List.mem_cons_of_mem _ hc)) _ _ h2
    refine ⟨decide ((step a s op).2 = .panic) :: rf, by simp [h3], ?_, ?_⟩
    · simp only [List.map_cons, List.zip_cons_cons, prun, run, h1, h4]
    · intro i x hx ht
      cases i with
      | zero =>
        simp only [List.getElem?_cons_zero, Option.some.injEq] at hx
        subst hx
        simp only [run, List.getElem?_cons_zero, Option.some.injEq]
        exact of_decide_eq_true ht
      | succ i =>
        simp only [List.getElem?_cons_succ] at hx
        simpa [run] using h5 i x hx ht

/-! ## C92 -/

/-- **C92**. Every history of opens and calls on the handles of one in-memory file is answered as by open files on a byte array (gaps are zeros, bytes cut
off never come back, each handle has its own cursor, append handles write at the end), with the three differences that `posix`, `descOf` and `pstep` spell
out: a closed handle refuses everything, WriteAt on an append handle is refused, O_TRUNC cuts also on a read-only open. A call panics only
where the reference refuses memory. -/
theorem C92_handles (calls : List (Alloc × HOp)) (hint : ∀ c ∈ calls, GoArgs c.2) :
    ∃ refusals : List Bool, refusals.length = calls.length ∧
      prun ⟨[], []⟩ (refusals.zip (calls.map (·.2))) = run ⟨Buf.empty, []⟩ calls ∧
      ∀ (i : Nat) (r : Bool), refusals[i]? = some r → r = true → (run ⟨Buf.empty, []⟩ calls)[i]? = some HResp.panic :=
  run_refines calls hint _ _ ⟨⟨⟨rfl, 0, rfl⟩, by unfold maxInt64; simp [lenOf]⟩, rfl, by simp⟩

/-- **C92** (memory). A call panics only when the file would have to grow beyond what the runtime can allocate. -/
theorem C92_panics (a : Alloc) (b : Buf) (h : Hd) (op : FOp) (hr : (handleOp a b h op).2.2 = .panic) :
    (∃ p, op = .write p ∧ ∃ off : Int, (off = h.off ∨ off = b.content.length) ∧ (a.limit : Int) < off + p.length) ∨
    (∃ p off, op = .writeAt p off ∧ (a.limit : Int) < off + p.length) ∨ (∃ size, op = .truncate size ∧ (a.limit : Int) < size) := by
  have hg : ∀ n, grow a b n = none → a.limit < b.content.length + n := by
    intro n hn
    unfold grow at hn
    split at hn
    · cases hn
    · split at hn
      · cases hn
      · omega
  have hw : ∀ p (off : Int), writeAt a b p off = none → (a.limit : Int) < off + p.length := by
    intro p off h1
    unfold writeAt at h1
    split at h1
    · cases h1
    split at h1
    · cases h1
    split at h1
    · cases h1
    simp only [Option.map_eq_none_iff] at h1
    split at h1
    · have := hg _ h1; omega
    · cases h1
  have ht : ∀ size : Int, truncate a b size = none → (a.limit : Int) < size := by
    intro size h1
    unfold truncate at h1
    split at h1
    · cases h1
    simp only [Option.map_eq_none_iff] at h1
    split at h1
    · have := hg _ h1; omega
    · cases h1
  have hread : ∀ x, readResp x ≠ HResp.panic := by
    intro x
    obtain ⟨d, e⟩ := x
    match e with
    | none => simp [readResp]
    | some .eof => simp [readResp]
    | some .negOff => simp [readResp]
    | some .inval => simp [readResp]
  unfold handleOp at hr
  split at hr
  · cases hr
  cases op with
  | close => cases hr
  | size => cases hr
  | read k =>
    simp only [read] at hr
    split at hr
    · cases hr
    · exact absurd hr (hread _)
  | readAt k off =>
    simp only at hr
    split at hr
    · cases hr
    · exact absurd hr (hread _)
  | write p =>
    left
    refine ⟨p, rfl, if h.flag &&& oAPPEND != 0#64 then b.content.length else h.off, ?_, ?_⟩
    · split
      · exact .inr rfl
      · exact .inl rfl
    · simp only [write] at hr
      split at hr
      · cases hr
      · split at hr
        · rename_i h1; exact hw _ _ h1
        · cases hr
        · cases hr
  | writeAt p off =>
    right; left
    refine ⟨p, off, rfl, ?_⟩
    simp only [handleWriteAt] at hr
    split at hr
    · cases hr
    · split at hr
      · cases hr
      · split at hr
        · rename_i h1; exact hw _ _ h1
        · cases hr
        · cases hr
  | truncate size =>
    right; right
    refine ⟨size, rfl, ?_⟩
    simp only [handleTruncate] at hr
    split at hr
    · cases hr
    · split at hr
      · rename_i h1; exact ht _ h1
      · cases hr
      · cases hr
  | seek off whence =>
    exfalso
    simp only [seek] at hr
    split at hr
    · split at hr <;> cases hr
    · split at hr
      · split at hr <;> cases hr
      · split at hr
        · split at hr <;> cases hr
        · cases hr

/-- **C92** (refusals). After Close every call is refused, the second Close too, and nothing changes any more. -/
theorem C92_closed (a : Alloc) (b : Buf) (h : Hd) (op : FOp) (hc : h.closed = true) : handleOp a b h op = (b, h, .failed .closed) := by
  unfold handleOp
  rw [if_pos hc]

/-- Write six bytes, cut to two, write at 4: the gap is zeros; a read-only handle cannot write; an append handle writes at the end; after Close nothing works. -/
example :
    let a : Alloc := ⟨10, 100⟩
    run ⟨Buf.empty, []⟩ [(a, .open_ 0x42#64), (a, .on 0 (.write [1, 2, 3, 4, 5, 6])), (a, .on 0 (.truncate 2)), (a, .on 0 (.writeAt [9] 4)), (a, .on 0 (.seek 0 0)),
      (a, .on 0 (.read 10)), (a, .open_ 0x401#64), (a, .on 1 (.write [7])), (a, .on 1 (.writeAt [7] 0)), (a, .on 0 .size), (a, .open_ 0#64), (a, .on 2 (.write [8])),
      (a, .on 2 (.readAt 2 4)), (a, .on 2 .close), (a, .on 2 .close), (a, .on 2 .size), (a, .open_ 3#64), (a, .on 3 (.write [1]))]
    = [.done, .count 6, .done, .count 1, .pos 0, .data [1, 2, 0, 0, 9] true, .done, .count 1, .failed .inval, .size 6, .done, .failed .badf, .data [9, 7] false, .done,
      .failed .closed, .failed .closed, .done, .failed .badf] := by decide

/-- Opening for reading with O_TRUNC cuts the file. -/
theorem C92_note_readonly_truncates :
    let a : Alloc := ⟨0, 100⟩
    run ⟨Buf.empty, []⟩ [(a, .open_ 2#64), (a, .on 0 (.write [1, 2, 3])), (a, .open_ 0x200#64), (a, .on 0 .size)] = [.done, .count 3, .done, .size 0] := by decide

/-- A write far beyond the end panics where a file on disk would report an error. -/
theorem C92_note_panics : run ⟨Buf.empty, []⟩ [(⟨0, 1000⟩, .open_ 2#64), (⟨0, 1000⟩, .on 0 (.writeAt [1] (2 ^ 62)))] = [.done, .panic] := by decide

/-- A read of no bytes at the end of the file answers io.EOF. -/
theorem C92_note_empty_read : run ⟨Buf.empty, []⟩ [(⟨0, 1000⟩, .open_ 2#64), (⟨0, 1000⟩, .on 0 (.read 0))] = [.done, .data [] true] := by decide

/-! ## C93: concurrent appends

impl_inmem_file.go 119-128: the handle's lock spans `Len` (174-178) and `WriteAt` (224-247), the file's lock does not. -/

/-- One step of goroutine `i` in `Write` on an append handle: lock the handle and read the length, or write and unlock. -/
def astep (s : AState) (a : Alloc) (i : Nat) : AState :=
  match s.threads[i]? with
  | none => s
  | some t => match t.todo, t.got with
    | [], _ => s
    | _ :: _, none => if locked s.threads t.handle then s else { s with threads := s.threads.set i { t with got := some s.buf.content.length } }
    | p :: rest, some o => match writeAt a s.buf p o with
      | none => { s with threads := s.threads.set i ⟨t.handle, rest, none⟩ }
      | some (b, _, none) => ⟨b, s.threads.set i ⟨t.handle, rest, none⟩, s.written ++ [p]⟩
      | some (b, _, some _) => { s with buf := b, threads := s.threads.set i ⟨t.handle, rest, none⟩ }

def arun (s : AState) : List (Alloc × Nat) → AState
  | [] => s
  | (a, i) :: rest => arun (astep s a i) rest

/-- The write half, at any offset. -/
theorem astep_write (a : Alloc) (b : Buf) (p : Bytes) (o : Int) : (astep ⟨b, [⟨0, [p], some o⟩], []⟩ a 0).buf = match writeAt a b p o with
    | none => b
    | some (b', _) => b' := by
  unfold astep
  simp only [List.getElem?_cons_zero]
  generalize writeAt a b p o = x
  match x with
  | none => rfl
  | some (b', n, none) => rfl
  | some (b', n, some e) => rfl

theorem write_at (a : Alloc) (b : Buf) (f : Vroot.Flag) (o off : Int) (p : Bytes) (hf : flagWritable f = true)
    (hoff : (if f &&& oAPPEND != 0#64 then (b.content.length : Int) else o) = off) : (write a b ⟨f, o, false⟩ p).1 = match writeAt a b p off with
    | none => b
    | some (b', _) => b' := by
  unfold write
  rw [hf]
  simp only [Bool.not_true, Bool.false_eq_true, if_false]
  rw [hoff]
  generalize writeAt a b p off = x
  match x with
  | none => rfl
  | some (b', n, none) => rfl
  | some (b', n, some e) => rfl

/-- Both halves at once are `Write`. -/
theorem astep_is_write (a : Alloc) (b : Buf) (f : Vroot.Flag) (o : Int) (p : Bytes) (hf : flagWritable f = true) (ha : f.getLsbD 10 = true) :
    (write a b ⟨f, o, false⟩ p).1 = (arun ⟨b, [⟨0, [p], none⟩], []⟩ [(a, 0), (a, 0)]).buf := by
  have hw : (f &&& oAPPEND != 0#64) = true := by rw [append_flag]; exact ha
  have h1 : ∀ off : Int, (b.content.length : Int) = off → astep ⟨b, [⟨0, [p], none⟩], []⟩ a 0 = ⟨b, [⟨0, [p], some off⟩], []⟩ := by
    intro off e; subst e; rfl
  have h2 : ∀ off : Int, (b.content.length : Int) = off →
      (write a b ⟨f, o, false⟩ p).1 = (astep (astep ⟨b, [⟨0, [p], none⟩], []⟩ a 0) a 0).buf := by
    intro off e
    rw [h1 off e, astep_write, write_at a b f o off p hf (by rw [if_pos hw]; exact e)]
  exact h2 _ rfl

/-- Lengths that a slice can have. -/
structure Small (s : AState) : Prop where
  content : (s.buf.content.length : Int) ≤ maxInt64
  todo : ∀ t ∈ s.threads, ∀ p ∈ t.todo, (p.length : Int) ≤ maxInt64
  got : ∀ t ∈ s.threads, ∀ o, t.got = some o → o ≤ maxInt64
  holds : ∃ h, s.buf.Holds h

theorem astep_eq {s : AState} (h : Small s) (a : Alloc) (i : Nat) : astep s a i = Synth.astep s a i ∧ Small (astep s a i) := by
  have key : ∀ (x : Thread), (∀ p ∈ x.todo, (p.length : Int) ≤ maxInt64) → (∀ o, x.got = some o → o ≤ maxInt64) → ∀ (b : Buf) (w : List Bytes),
      (b.content.length : Int) ≤ maxInt64 → (∃ h, b.Holds h) → Small ⟨b, s.threads.set i x, w⟩ := by
    intro x h1 h2 b w h3 h4
    refine ⟨h3, ?_, ?_, h4⟩
    · intro t ht
      rcases List.mem_or_eq_of_mem_set ht with hm | hm
      · exact h.todo t hm
      · subst hm; exact h1
    · intro t ht
      rcases List.mem_or_eq_of_mem_set ht with hm | hm
      · exact h.got t hm
      · subst hm; exact h2
  unfold astep Synth.astep
  cases hi : s.threads[i]? with
  | none => exact ⟨rfl, h⟩
  | some t =>
    have hmem : t ∈ s.threads := List.mem_of_getElem? hi
    obtain ⟨hd, todo, got⟩ := t
    match todo, got, hmem with
    | [], _, _ => exact ⟨rfl, h⟩
    | p :: rest, none, hmem =>
      refine ⟨rfl, ?_⟩
      simp only
      split
      · exact h
      · exact key ⟨hd, p :: rest, some s.buf.content.length⟩ (h.todo ⟨hd, p :: rest, none⟩ hmem) (fun o ho => by cases ho; exact h.content) _ _ h.content h.holds
    | p :: rest, some o, hmem =>
      simp only
      have hp := h.todo _ hmem p (by simp)
      have ho := h.got _ hmem o rfl
      have hrest : ∀ q ∈ rest, (q.length : Int) ≤ maxInt64 := fun q hq => h.todo _ hmem q (List.mem_cons_of_mem _ hq)
      rw [writeAt_eq a s.buf p o ho hp]
      obtain ⟨ev, hev⟩ := h.holds
      have hr : Rel s.buf ev := ⟨hev, by have := h.content; rwa [hev.content, fileOf_length] at this⟩
      rcases writeAt_cases (a := a) hr p o with ⟨_, hw⟩ | ⟨_, hw⟩ | ⟨_, b', hw, hr'⟩
      · rw [hw]
        exact ⟨rfl, key _ hrest (by simp) _ _ h.content h.holds⟩
      · rw [hw]
        exact ⟨rfl, key _ hrest (by simp) _ _ h.content h.holds⟩
      · rw [hw]
        exact ⟨rfl, key _ hrest (by simp) _ _ (by rw [hr'.length]; exact hr'.len) ⟨_, hr'.holds⟩⟩

theorem arun_eq (sched : List (Alloc × Nat)) : ∀ {s : AState}, Small s → arun s sched = Synth.arun s sched := by
  induction sched with
  | nil => intro s _; rfl
  | cons x rest ih =>
    intro s h
    obtain ⟨e, h'⟩ := astep_eq h x.1 x.2
    show arun (astep s x.1 x.2) rest = Synth.arun (Synth.astep s x.1 x.2) rest
    rw [ih h', e]

/-- **C93** partial: if all goroutines append through one handle, then under every schedule the file is what it was, followed by what was
written by the calls that returned, in the order in which they returned. Missing: several append handles on one file, where it is false. -/
theorem C93_one_handle_partial (b : Buf) (ev : List Ev) (hb : b.Holds ev) (hlen : (b.content.length : Int) ≤ maxInt64) (handle : Nat) (jobs : List (List Bytes))
    (hj : ∀ j ∈ jobs, ∀ p ∈ j, (p.length : Int) ≤ maxInt64) (sched : List (Alloc × Nat)) :
    (arun ⟨b, jobs.map (fun j => ⟨handle, j, none⟩), []⟩ sched).buf.content
      = b.content ++ (arun ⟨b, jobs.map (fun j => ⟨handle, j, none⟩), []⟩ sched).written.flatten := by
  rw [arun_eq sched ⟨hlen, ?_, ?_, ⟨ev, hb⟩⟩]
  · exact C47_one_handle_partial b ev hb handle jobs sched
  · intro t ht p hp
    simp only [List.mem_map] at ht
    obtain ⟨j, hjm, rfl⟩ := ht
    exact hj j hjm p hp
  · intro t ht o ho
    simp only [List.mem_map] at ht
    obtain ⟨j, hjm, rfl⟩ := ht
    cases ho

/-- Two goroutines through one handle. -/
example : (arun ⟨Buf.empty, [⟨0, [[1, 1]], none⟩, ⟨0, [[2, 2]], none⟩], []⟩ [(⟨0, 100⟩, 0), (⟨0, 100⟩, 1), (⟨0, 100⟩, 0), (⟨0, 100⟩, 1), (⟨0, 100⟩, 1)]).buf.content = [1, 1, 2, 2] := by
  decide

/-- **C93** fails: two goroutines with an append handle each; both calls return without error, and one overwrites the other. -/
theorem C93_counterexample :
    let a : Alloc := ⟨0, 100⟩
    arun ⟨Buf.empty, [⟨0, [[1, 1]], none⟩, ⟨1, [[2, 2]], none⟩], []⟩ [(a, 0), (a, 1), (a, 0), (a, 1)]
      = ⟨⟨[2, 2], []⟩, [⟨0, [], none⟩, ⟨1, [], none⟩], [[1, 1], [2, 2]]⟩ := by decide

end Verif.Afero.Mem
