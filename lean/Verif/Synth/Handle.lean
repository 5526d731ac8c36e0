import Verif.Synth.MemBuf
import Verif.Vroot.Flag
/-
Model of file handles on in-memory files, /repo/vroot/synthfs/view_mem_buf.go (memHandle) below handle.go (fileHandle),
and property C46.  Each call is one step: a schedule of whole calls.  (What happens between the two critical sections of an
append is the subject of C47, Append.lean.)
-/
namespace Verif.Synth
open Verif.Vroot

/-! ## Model -/

inductive HErr where
  | closed | badf | eof | negOff | inval
deriving DecidableEq

/-- view_mem_buf.go 116-123 `memHandle` and handle.go 23-33 `fileHandle`; both have the same flag. -/
structure Hd where
  flag : Flag
  off : Int
  closed : Bool

/-- Calls on an open file. -/
inductive FOp where
  | read (k : Nat)
  | readAt (k : Nat) (off : Int)
  | write (p : Bytes)
  | writeAt (p : Bytes) (off : Int)
  | seek (off : Int) (whence : Int)
  | truncate (size : Int)
  | size
  | close

inductive HResp where
  | data (d : Bytes) (eof : Bool)   -- count, nil or io.EOF
  | count (n : Nat)
  | pos (n : Int)
  | size (n : Nat)
  | done
  | failed (e : HErr)               -- count 0
  | panic
  | noHandle                        -- no such handle (not a call of the code)
deriving DecidableEq

def ofErr : Err → HErr
  | .eof => .eof
  | .negOff => .negOff
  | .inval => .inval

/-- The answer to a read: `io.EOF` comes with the bytes, other errors with none. -/
def readResp : Bytes × Option Err → HResp
  | (d, none) => .data d false
  | (d, some .eof) => .data d true
  | (_, some e) => .failed (ofErr e)

/-- `flag&os.O_APPEND != 0` -/
def appends (flag : Flag) : Bool := flag &&& oAPPEND != 0#64

/-- view_mem_buf.go 162-177 `memHandle.Read` -/
def memRead (b : Buf) (h : Hd) (k : Nat) : Hd × HResp :=
  if readable h.flag = false then (h, .failed .badf)
  else
    let r := b.readAt k h.off
    ({ h with off := wrap64 (h.off + r.1.length) }, readResp r)

/-- view_mem_buf.go 179-191 `memHandle.ReadAt` -/
def memReadAt (b : Buf) (h : Hd) (k : Nat) (off : Int) : HResp :=
  if readable h.flag = false then .failed .badf else readResp (b.readAt k off)

/-- view_mem_buf.go 193-208 `memHandle.Write`: where it writes. -/
def writePos (b : Buf) (h : Hd) : Int := if appends h.flag then (b.content.length : Int) else h.off

/-- view_mem_buf.go 193-208 `memHandle.Write` -/
def memWrite (a : Alloc) (b : Buf) (h : Hd) (p : Bytes) : Buf × Hd × HResp :=
  if writable h.flag = false then (b, h, .failed .badf)
  else match b.writeAt a p (writePos b h) with
    | none => (b, { h with off := writePos b h }, .panic)
    | some (b', n, none) => (b', { h with off := wrap64 (writePos b h + n) }, .count n)
    | some (b', n, some e) => (b', { h with off := wrap64 (writePos b h + n) }, .failed (ofErr e))

/-- view_mem_buf.go 210-223 `memHandle.WriteAt` -/
def memWriteAt (a : Alloc) (b : Buf) (h : Hd) (p : Bytes) (off : Int) : Buf × HResp :=
  if appends h.flag then (b, .failed .inval)
  else if writable h.flag = false then (b, .failed .badf)
  else match b.writeAt a p off with
    | none => (b, .panic)
    | some (b', n, none) => (b', .count n)
    | some (b', _, some e) => (b', .failed (ofErr e))

/-- view_mem_buf.go 229-254 `memHandle.Seek` -/
def memSeek (b : Buf) (h : Hd) (offset whence : Int) : Hd × HResp :=
  let target : Option Int :=
    if whence = 0 then some offset
    else if whence = 1 then some (wrap64 (offset + h.off))
    else if whence = 2 then some (wrap64 (offset + b.content.length))
    else none
  match target with
  | none => (h, .failed .inval)
  | some t => if t < 0 then (h, .failed .inval) else ({ h with off := t }, .pos t)

/-- view_mem_buf.go 256-264 `memHandle.Truncate` -/
def memTruncate (a : Alloc) (b : Buf) (h : Hd) (size : Int) : Buf × HResp :=
  if writable h.flag = false then (b, .failed .badf)
  else match b.truncate a size with
    | none => (b, .panic)
    | some (b', none) => (b', .done)
    | some (b', some e) => (b', .failed (ofErr e))

/-- handle.go 45-147 `fileHandle`: the checks before the inner handle is called. -/
def fileOp (a : Alloc) (b : Buf) (h : Hd) : FOp → Buf × Hd × HResp
  | .close => (b, { h with closed := true }, .done)
  | .size => (b, h, .size b.content.length)
  | .read k =>
    if h.closed then (b, h, .failed .closed)
    else if readable h.flag = false then (b, h, .failed .badf)
    else (b, memRead b h k)
  | .readAt k off =>
    if h.closed then (b, h, .failed .closed)
    else if readable h.flag = false then (b, h, .failed .badf)
    else (b, h, memReadAt b h k off)
  | .write p =>
    if h.closed then (b, h, .failed .closed)
    else if writable h.flag = false then (b, h, .failed .badf)
    else memWrite a b h p
  | .writeAt p off =>
    if h.closed then (b, h, .failed .closed)
    else if writable h.flag = false then (b, h, .failed .badf)
    else ((memWriteAt a b h p off).1, h, (memWriteAt a b h p off).2)
  | .truncate size =>
    if h.closed then (b, h, .failed .closed)
    else if writable h.flag = false then (b, h, .failed .badf)
    else ((memTruncate a b h size).1, h, (memTruncate a b h size).2)
  | .seek off whence =>
    if h.closed then (b, h, .failed .closed)
    else (b, memSeek b h off whence)

/-- open.go 62-74 (an existing regular file with an in-memory view): the new handle, truncated if asked and writable. -/
def openOp (a : Alloc) (b : Buf) (flag : Flag) : Buf × Hd :=
  let h : Hd := ⟨flag, 0, false⟩
  if flag &&& oTRUNC != 0#64 && writable flag then ((fileOp a b h (.truncate 0)).1, h) else (b, h)

/-- Calls on one file and the handles open on it. -/
inductive HOp where
  | open_ (flag : Flag)
  | on (i : Nat) (op : FOp)

structure Sys where
  buf : Buf
  hs : List Hd

def Sys.step (a : Alloc) (s : Sys) : HOp → Sys × HResp
  | .open_ flag => let (b, h) := openOp a s.buf flag; (⟨b, s.hs ++ [h]⟩, .done)
  | .on i op => match s.hs[i]? with
    | none => (s, .noHandle)
    | some h => let (b, h', r) := fileOp a s.buf h op; (⟨b, s.hs.set i h'⟩, r)

def Sys.run (s : Sys) : List (Alloc × HOp) → List HResp
  | [] => []
  | (a, op) :: rest => (s.step a op).2 :: (s.step a op).1.run rest

/-! ## Specification: open files as POSIX has them -/

/-- An open file description. -/
structure Desc where
  canRead : Bool
  canWrite : Bool
  append : Bool
  pos : Nat
  isOpen : Bool
deriving DecidableEq

/-- Bytes `from .. from+k` of the file that the changes define. -/
def bytesAt (h : List Ev) (at_ k : Nat) : Bytes := slice (fileOf h) at_ k

/-- A call on an open file: the change it makes, the description afterwards, and the answer. `refuse`: memory for the file cannot be had. -/
def posix (refuse : Bool) (h : List Ev) (d : Desc) : FOp → List Ev × Desc × HResp
  | .close => ([], { d with isOpen := false }, .done)
  | .size => ([], d, .size (lenOf h))
  | .read k =>
    if !d.isOpen then ([], d, .failed .closed)
    else if !d.canRead then ([], d, .failed .badf)
    else ([], { d with pos := d.pos + (bytesAt h d.pos k).length }, .data (bytesAt h d.pos k) (lenOf h ≤ d.pos || (bytesAt h d.pos k).length < k))
  | .readAt k off =>
    if !d.isOpen then ([], d, .failed .closed)
    else if !d.canRead then ([], d, .failed .badf)
    else if off < 0 then ([], d, .failed .negOff)
    else ([], d, .data (bytesAt h off.toNat k) (lenOf h ≤ off.toNat || (bytesAt h off.toNat k).length < k))
  | .write p =>
    if !d.isOpen then ([], d, .failed .closed)
    else if !d.canWrite then ([], d, .failed .badf)
    else
      let at_ := if d.append then lenOf h else d.pos
      if (at_ + p.length : Int) > maxInt64 then ([], { d with pos := at_ }, .failed .inval)
      else if refuse then ([], { d with pos := at_ }, .panic)
      else ([.write at_ p], { d with pos := at_ + p.length }, .count p.length)
  | .writeAt p off =>
    if !d.isOpen then ([], d, .failed .closed)
    else if !d.canWrite then ([], d, .failed .badf)
    else if d.append then ([], d, .failed .inval)
    else if off < 0 ∨ off + p.length > maxInt64 then ([], d, .failed .inval)
    else if refuse then ([], d, .panic)
    else ([.write off.toNat p], d, .count p.length)
  | .truncate size =>
    if !d.isOpen then ([], d, .failed .closed)
    else if !d.canWrite then ([], d, .failed .badf)
    else if size < 0 then ([], d, .failed .inval)
    else if refuse then ([], d, .panic)
    else ([.cut size.toNat], d, .done)
  | .seek off whence =>
    if !d.isOpen then ([], d, .failed .closed)
    else
      let start : Option Int := match whence with
        | 0 => some 0
        | 1 => some d.pos
        | 2 => some (lenOf h)
        | _ => none
      match start with
      | none => ([], d, .failed .inval)
      | some s => if s + off < 0 ∨ s + off > maxInt64 then ([], d, .failed .inval) else ([], { d with pos := (s + off).toNat }, .pos (s + off))

/-- What open(2) makes of a flag word. -/
def descOf (flag : Flag) : Desc := ⟨access flag ≠ .wronly, access flag ≠ .rdonly, flag.getLsbD 10, 0, true⟩

structure PSys where
  changes : List Ev
  ds : List Desc

/-- One call on the reference file; `flag.getLsbD 9` is O_TRUNC. -/
def PSys.step (refuse : Bool) (s : PSys) : HOp → PSys × HResp
  | .open_ flag =>
    (⟨(if flag.getLsbD 9 ∧ (descOf flag).canWrite then [.cut 0] else []) ++ s.changes, s.ds ++ [descOf flag]⟩, .done)
  | .on i op => match s.ds[i]? with
    | none => (s, .noHandle)
    | some d => let (e, d', r) := posix refuse s.changes d op; (⟨e ++ s.changes, s.ds.set i d'⟩, r)

/-- The reference run; `refusals` says at which calls memory cannot be had. -/
def PSys.run (s : PSys) : List (Bool × HOp) → List HResp
  | [] => []
  | (x, op) :: rest => (s.step x op).2 :: (s.step x op).1.run rest

/-- The arguments are int64 values. -/
def FOp.Int64 : FOp → Prop
  | .readAt _ off => IsInt64 off
  | .writeAt _ off => IsInt64 off
  | .seek off _ => IsInt64 off
  | .truncate n => IsInt64 n
  | _ => True

def HOp.Int64 : HOp → Prop
  | .open_ _ => True
  | .on _ op => op.Int64

/-! ## Proofs -/

def absH (h : Hd) : Desc := { descOf h.flag with pos := h.off.toNat, isOpen := !h.closed }

/-- A handle whose offset is a non-negative int64. -/
def Hd.Ok (h : Hd) : Prop := 0 ≤ h.off ∧ h.off ≤ maxInt64

theorem canRead_eq (h : Hd) : (absH h).canRead = readable h.flag := by
  have := (C39_access h.flag).1
  simp only [absH, descOf]
  cases hr : readable h.flag with
  | true => simpa using this.1 hr
  | false =>
    have hn : ¬ (access h.flag ≠ .wronly) := fun c => by rw [this.2 c] at hr; cases hr
    simpa using hn

theorem canWrite_flag (f : Flag) : (descOf f).canWrite = writable f := by
  have := (C39_access f).2.1
  simp only [descOf]
  cases hr : writable f with
  | true => simpa using this.1 hr
  | false =>
    have hn : ¬ (access f ≠ .rdonly) := fun c => by rw [this.2 c] at hr; cases hr
    simpa using hn

theorem canWrite_eq (h : Hd) : (absH h).canWrite = writable h.flag := canWrite_flag h.flag

theorem append_eq (h : Hd) : (absH h).append = appends h.flag := by
  have := and_pow h.flag 10 (by omega)
  simp only [absH, descOf, appends]
  cases hb : h.flag.getLsbD 10 with
  | true =>
    have : ¬ (h.flag &&& BitVec.ofNat 64 (2 ^ 10) = 0#64) := fun c => by rw [this.1 c] at hb; cases hb
    exact (bne_iff_ne.2 this).symm
  | false =>
    have h1 := this.2 hb
    have h2 : h.flag &&& oAPPEND = 0#64 := h1
    rw [h2]; rfl

theorem trunc_eq (f : Flag) : (f &&& oTRUNC != 0#64) = f.getLsbD 9 := by
  have := and_pow f 9 (by omega)
  cases hb : f.getLsbD 9 with
  | true =>
    have : ¬ (f &&& BitVec.ofNat 64 (2 ^ 9) = 0#64) := fun c => by rw [this.1 c] at hb; cases hb
    exact bne_iff_ne.2 this
  | false =>
    have h1 := this.2 hb
    have h2 : f &&& oTRUNC = 0#64 := h1
    rw [h2]; rfl

/-- The buffer, seen as the reference file. -/
structure Rel (b : Buf) (h : List Ev) : Prop where
  holds : b.Holds h
  len : (lenOf h : Int) ≤ maxInt64

theorem Rel.length {b : Buf} {h : List Ev} (r : Rel b h) : b.content.length = lenOf h := by rw [r.holds.content, fileOf_length]

/-- `writeAt` in one go: error, panic, or the change. -/
theorem writeAt_cases {a : Alloc} {b : Buf} {h : List Ev} (r : Rel b h) (p : Bytes) (off : Int) :
    ((off < 0 ∨ off + p.length > maxInt64) ∧ b.writeAt a p off = some (b, 0, some .inval)) ∨
    (¬ (off < 0 ∨ off + p.length > maxInt64) ∧ b.writeAt a p off = none) ∨
    (¬ (off < 0 ∨ off + p.length > maxInt64) ∧ ∃ b', b.writeAt a p off = some (b', p.length, none) ∧ Rel b' (.write off.toNat p :: h)) := by
  by_cases hbad : off < 0 ∨ off + p.length > maxInt64
  · left
    refine ⟨hbad, ?_⟩
    unfold Buf.writeAt
    by_cases hneg : off < 0
    · rw [if_pos hneg]
    · rw [if_neg hneg, if_pos (by omega)]
  · right
    cases hw : b.writeAt a p off with
    | none => exact .inl ⟨hbad, rfl⟩
    | some x =>
      obtain ⟨b', n, e⟩ := x
      right
      refine ⟨hbad, b', ?_⟩
      have hn : e = none := by
        unfold Buf.writeAt at hw
        rw [if_neg (by omega), if_neg (by omega)] at hw
        split at hw
        · cases hw; rfl
        · simp only at hw
          generalize (if off.toNat + p.length > b.content.length then b.grow a (off.toNat + p.length - b.content.length) else some b) = x at hw
          cases x with
          | none => cases hw
          | some x => cases hw; rfl
      subst hn
      obtain ⟨h0, rfl, hb'⟩ := write_holds r.holds hw
      refine ⟨rfl, hb', ?_⟩
      simp only [lenOf]
      have := r.len
      split <;> omega

theorem truncate_cases {a : Alloc} {b : Buf} {h : List Ev} (r : Rel b h) (size : Int) (hi : size ≤ maxInt64) :
    (size < 0 ∧ b.truncate a size = some (b, some .inval)) ∨
    (0 ≤ size ∧ b.truncate a size = none) ∨
    (0 ≤ size ∧ ∃ b', b.truncate a size = some (b', none) ∧ Rel b' (.cut size.toNat :: h)) := by
  by_cases hneg : size < 0
  · left; refine ⟨hneg, ?_⟩; unfold Buf.truncate; rw [if_pos hneg]
  · right
    cases hw : b.truncate a size with
    | none => exact .inl ⟨by omega, rfl⟩
    | some x =>
      obtain ⟨b', e⟩ := x
      right
      refine ⟨by omega, b', ?_⟩
      have hn : e = none := by
        unfold Buf.truncate at hw
        rw [if_neg hneg] at hw
        simp only at hw
        generalize (if size.toNat > b.content.length then b.grow a (size.toNat - b.content.length) else some b) = x at hw
        cases x with
        | none => cases hw
        | some x => cases hw; rfl
      subst hn
      obtain ⟨h0, hb'⟩ := truncate_holds r.holds hw
      refine ⟨rfl, hb', ?_⟩
      simp only [lenOf]
      omega

theorem readResp_eq {b : Buf} {h : List Ev} (r : Rel b h) (k : Nat) (off : Int) (h0 : 0 ≤ off) :
    readResp (b.readAt k off) = .data (bytesAt h off.toNat k) (lenOf h ≤ off.toNat || (bytesAt h off.toNat k).length < k) ∧
    (b.readAt k off).1 = bytesAt h off.toNat k := by
  rw [readAt_slice h0, r.holds.content, fileOf_length]
  refine ⟨?_, rfl⟩
  show readResp (bytesAt h off.toNat k, if off ≥ ↑(lenOf h) ∨ (bytesAt h off.toNat k).length < k then some Err.eof else none) = _
  by_cases hc : off ≥ ↑(lenOf h) ∨ (bytesAt h off.toNat k).length < k
  · rw [if_pos hc]
    simp only [readResp]
    congr 1
    rcases hc with hc | hc
    · simp [show lenOf h ≤ off.toNat by omega]
    · simp [hc]
  · rw [if_neg hc]
    simp only [readResp]
    congr 1
    rw [not_or] at hc
    simp [show ¬ lenOf h ≤ off.toNat by omega, hc.2]

/-- One call on one handle refines the reference. -/
theorem fileOp_refines {a : Alloc} {b : Buf} {h : List Ev} {hd : Hd} (r : Rel b h) (hok : hd.Ok) (op : FOp) (hint : op.Int64) :
    ∃ b' hd' rs e, fileOp a b hd op = (b', hd', rs) ∧ posix (rs = .panic) h (absH hd) op = (e, absH hd', rs) ∧ Rel b' (e ++ h) ∧ hd'.Ok := by
  have hclosed : (!(absH hd).isOpen) = hd.closed := by simp [absH]
  have hpos : (absH hd).pos = hd.off.toNat := rfl
  cases op with
  | close => exact ⟨_, _, _, [], rfl, rfl, r, hok⟩
  | size => exact ⟨_, _, _, [], rfl, by rw [r.length]; rfl, r, hok⟩
  | read k =>
    simp only [fileOp, posix]
    by_cases hc : hd.closed = true
    · exact ⟨_, _, _, [], if_pos hc, if_pos (hclosed.trans hc), r, hok⟩
    · simp only [if_neg hc, if_neg (show ¬ (!(absH hd).isOpen) = true by rw [hclosed]; exact hc)]
      by_cases hr : readable hd.flag = false
      · exact ⟨_, _, _, [], if_pos hr, if_pos (by rw [canRead_eq, hr]; rfl), r, hok⟩
      · have hr2 : ¬ (!(absH hd).canRead) = true := by rw [canRead_eq]; simp at hr; simp [hr]
        simp only [if_neg hr, if_neg hr2]
        obtain ⟨e1, e2⟩ := readResp_eq r k hd.off hok.1
        have hlen : (bytesAt h hd.off.toNat k).length ≤ lenOf h - hd.off.toNat := by
          unfold bytesAt; rw [slice_length, fileOf_length]; omega
        have hoff : wrap64 (hd.off + (bytesAt h hd.off.toNat k).length) = hd.off + (bytesAt h hd.off.toNat k).length ∧ hd.off + ((bytesAt h hd.off.toNat k).length : Int) ≤ maxInt64 := by
          have h1 := hok.1
          have h2 := hok.2
          have h3 := r.len
          have : hd.off + ((bytesAt h hd.off.toNat k).length : Int) ≤ maxInt64 := by omega
          refine ⟨wrap64_of_isInt64 ⟨?_, this⟩, this⟩
          unfold minInt64; omega
        have hm : memRead b hd k = ({ hd with off := hd.off + (bytesAt h hd.off.toNat k).length }, .data (bytesAt h hd.off.toNat k) (lenOf h ≤ hd.off.toNat || (bytesAt h hd.off.toNat k).length < k)) := by
          unfold memRead
          rw [if_neg hr]
          simp only [e1, e2, hoff.1]
        rw [hm]
        refine ⟨b, _, _, [], rfl, ?_, r, ⟨by have := hok.1; simp only; omega, hoff.2⟩⟩
        simp only [hpos, Prod.mk.injEq, true_and, and_true]
        simp only [absH]
        congr 1
        have := hok.1
        omega
  | readAt k off =>
    simp only [fileOp, posix]
    by_cases hc : hd.closed = true
    · exact ⟨_, _, _, [], if_pos hc, if_pos (hclosed.trans hc), r, hok⟩
    · simp only [if_neg hc, if_neg (show ¬ (!(absH hd).isOpen) = true by rw [hclosed]; exact hc)]
      by_cases hr : readable hd.flag = false
      · exact ⟨_, _, _, [], if_pos hr, if_pos (by rw [canRead_eq, hr]; rfl), r, hok⟩
      · have hr2 : ¬ (!(absH hd).canRead) = true := by rw [canRead_eq]; simp at hr; simp [hr]
        simp only [if_neg hr, if_neg hr2]
        refine ⟨b, hd, _, [], rfl, ?_, r, hok⟩
        unfold memReadAt
        rw [if_neg hr]
        by_cases hneg : off < 0
        · rw [if_pos hneg]
          unfold Buf.readAt
          rw [if_pos hneg]; rfl
        · rw [if_neg hneg, (readResp_eq r k off (by omega)).1]
  | write p =>
    simp only [fileOp, posix]
    by_cases hc : hd.closed = true
    · exact ⟨_, _, _, [], if_pos hc, if_pos (hclosed.trans hc), r, hok⟩
    · simp only [if_neg hc, if_neg (show ¬ (!(absH hd).isOpen) = true by rw [hclosed]; exact hc)]
      by_cases hr : writable hd.flag = false
      · exact ⟨_, _, _, [], if_pos hr, if_pos (by rw [canWrite_eq, hr]; rfl), r, hok⟩
      · have hr2 : ¬ (!(absH hd).canWrite) = true := by rw [canWrite_eq]; simp at hr; simp [hr]
        simp only [if_neg hr, if_neg hr2]
        have hwp : writePos b hd = ((if (absH hd).append = true then lenOf h else (absH hd).pos : Nat) : Int) := by
          unfold writePos
          rw [append_eq, r.length]
          split
          · rfl
          · have := hok.1
            rw [hpos]; omega
        have hmax : writePos b hd ≤ maxInt64 := by
          unfold writePos
          rw [r.length]
          have := hok.2
          have := r.len
          split <;> omega
        generalize hat : (if (absH hd).append = true then lenOf h else (absH hd).pos) = at_ at hwp
        unfold memWrite
        rw [if_neg hr]
        rcases writeAt_cases (a := a) r p (writePos b hd) with ⟨hbad, hw⟩ | ⟨hgood, hw⟩ | ⟨hgood, b', hw, r'⟩
        · simp only [hw]
          refine ⟨_, _, _, [], rfl, ?_, r, ?_⟩
          · rw [if_pos (by omega)]
            simp only [ofErr]
            congr 2
            simp only [absH]
            congr 1
            rw [Int.natCast_zero, Int.add_zero, wrap64_of_isInt64 ⟨by unfold minInt64; omega, hmax⟩]; simp only [hwp]; omega
          · simp only [Int.natCast_zero, Int.add_zero]
            rw [wrap64_of_isInt64 ⟨by unfold minInt64; omega, hmax⟩]
            exact ⟨by simp only; omega, hmax⟩
        · simp only [hw]
          refine ⟨_, _, _, [], rfl, ?_, r, ⟨by simp only; omega, hmax⟩⟩
          rw [if_neg (by omega)]
          simp only [decide_true, if_true, absH]
          congr 3
          simp only [hwp]; omega
        · simp only [hw]
          have hf : writePos b hd + p.length ≤ maxInt64 := by omega
          have hwr : wrap64 (writePos b hd + p.length) = writePos b hd + p.length := wrap64_of_isInt64 ⟨by unfold minInt64; omega, hf⟩
          refine ⟨_, _, _, [.write at_ p], rfl, ?_, ?_, ?_⟩
          · rw [if_neg (by omega)]
            simp only [absH, hwr]
            simp
            rw [hwp]; omega
          · rw [hwp] at r'; exact r'
          · rw [hwr]; exact ⟨by simp only; omega, hf⟩
  | writeAt p off =>
    simp only [fileOp, posix]
    by_cases hc : hd.closed = true
    · exact ⟨_, _, _, [], if_pos hc, if_pos (hclosed.trans hc), r, hok⟩
    · simp only [if_neg hc, if_neg (show ¬ (!(absH hd).isOpen) = true by rw [hclosed]; exact hc)]
      by_cases hr : writable hd.flag = false
      · exact ⟨_, _, _, [], if_pos hr, if_pos (by rw [canWrite_eq, hr]; rfl), r, hok⟩
      · have hr2 : ¬ (!(absH hd).canWrite) = true := by rw [canWrite_eq]; simp at hr; simp [hr]
        simp only [if_neg hr, if_neg hr2]
        rw [append_eq]
        unfold memWriteAt
        by_cases hap : appends hd.flag = true
        · simp only [if_pos hap]
          exact ⟨_, _, _, [], rfl, rfl, r, hok⟩
        · simp only [if_neg hap, if_neg hr]
          rcases writeAt_cases (a := a) r p off with ⟨hbad, hw⟩ | ⟨hgood, hw⟩ | ⟨hgood, b', hw, r'⟩
          · simp only [hw]
            exact ⟨_, _, _, [], rfl, if_pos hbad, r, hok⟩
          · simp only [hw]
            exact ⟨_, _, _, [], rfl, by rw [if_neg hgood]; rfl, r, hok⟩
          · simp only [hw]
            exact ⟨_, _, _, [.write off.toNat p], rfl, by rw [if_neg hgood]; rfl, r', hok⟩
  | truncate size =>
    simp only [fileOp, posix]
    by_cases hc : hd.closed = true
    · exact ⟨_, _, _, [], if_pos hc, if_pos (hclosed.trans hc), r, hok⟩
    · simp only [if_neg hc, if_neg (show ¬ (!(absH hd).isOpen) = true by rw [hclosed]; exact hc)]
      by_cases hr : writable hd.flag = false
      · exact ⟨_, _, _, [], if_pos hr, if_pos (by rw [canWrite_eq, hr]; rfl), r, hok⟩
      · have hr2 : ¬ (!(absH hd).canWrite) = true := by rw [canWrite_eq]; simp at hr; simp [hr]
        simp only [if_neg hr, if_neg hr2]
        unfold memTruncate
        simp only [if_neg hr]
        rcases truncate_cases (a := a) r size hint.2 with ⟨hbad, hw⟩ | ⟨hgood, hw⟩ | ⟨hgood, b', hw, r'⟩
        · simp only [hw]
          exact ⟨_, _, _, [], rfl, if_pos hbad, r, hok⟩
        · simp only [hw]
          exact ⟨_, _, _, [], rfl, by rw [if_neg (by omega)]; rfl, r, hok⟩
        · simp only [hw]
          exact ⟨_, _, _, [.cut size.toNat], rfl, by rw [if_neg (by omega)]; rfl, r', hok⟩
  | seek off whence =>
    simp only [fileOp, posix]
    by_cases hc : hd.closed = true
    · exact ⟨_, _, _, [], if_pos hc, if_pos (hclosed.trans hc), r, hok⟩
    · simp only [if_neg hc, if_neg (show ¬ (!(absH hd).isOpen) = true by rw [hclosed]; exact hc)]
      have seekTo : ∀ s : Nat, (s : Int) ≤ maxInt64 →
          ∃ b' hd' rs e, (b, (if wrap64 (off + s) < 0 then (hd, HResp.failed .inval) else ({ hd with off := wrap64 (off + s) }, HResp.pos (wrap64 (off + s))))) = (b', hd', rs) ∧
            (if (s : Int) + off < 0 ∨ (s : Int) + off > maxInt64 then (([] : List Ev), absH hd, HResp.failed .inval) else ([], { absH hd with pos := ((s : Int) + off).toNat }, .pos ((s : Int) + off))) = (e, absH hd', rs) ∧ Rel b' (e ++ h) ∧ hd'.Ok := by
        intro s hs
        have hw : (0 ≤ off + s ∧ off + s ≤ maxInt64 ∧ wrap64 (off + s) = off + s) ∨ ((off + s < 0 ∨ off + s > maxInt64) ∧ wrap64 (off + s) < 0) := by
          obtain ⟨i1, i2⟩ := hint
          by_cases h0 : 0 ≤ off
          · obtain ⟨w1, w2⟩ := wrap64_add_nonneg h0 (Int.natCast_nonneg s) i2 hs
            by_cases hle : off + s ≤ maxInt64
            · exact .inl ⟨by omega, hle, w1 hle⟩
            · exact .inr ⟨.inr (by omega), w2 (by omega)⟩
          · have : wrap64 (off + s) = off + s := wrap64_of_isInt64 ⟨by omega, by omega⟩
            rw [this]
            by_cases hle : off + (s : Int) < 0
            · exact .inr ⟨.inl hle, hle⟩
            · exact .inl ⟨by omega, by omega, rfl⟩
        rcases hw with ⟨h1, h2, h3⟩ | ⟨h1, h2⟩
        · rw [h3, if_neg (by omega), if_neg (by omega), Int.add_comm (s : Int) off]
          exact ⟨_, _, _, [], rfl, rfl, r, h1, h2⟩
        · rw [if_pos h2, if_pos (by omega)]
          exact ⟨_, _, _, [], rfl, rfl, r, hok⟩
      unfold memSeek
      by_cases w0 : whence = 0
      · subst w0
        have := seekTo 0 (by unfold maxInt64; simp)
        have e0 : wrap64 off = off := wrap64_of_isInt64 hint
        simpa [e0] using this
      · by_cases w1 : whence = 1
        · subst w1
          have := seekTo hd.off.toNat (by have := hok.1; have := hok.2; omega)
          have e1 : ((hd.off.toNat : Nat) : Int) = hd.off := Int.toNat_of_nonneg hok.1
          rw [e1] at this
          simpa [hpos, e1] using this
        · by_cases w2 : whence = 2
          · subst w2
            have := seekTo (lenOf h) r.len
            simpa [r.length] using this
          · simp only [if_neg w0, if_neg w1, if_neg w2]
            refine ⟨b, hd, _, [], rfl, ?_, r, hok⟩
            rfl

/-- The system of one file and its handles refines the reference system. -/
structure SRel (s : Sys) (p : PSys) : Prop where
  rel : Rel s.buf p.changes
  hs : p.ds = s.hs.map absH
  ok : ∀ h ∈ s.hs, h.Ok

theorem truncate_zero {a : Alloc} (b : Buf) : b.truncate a 0 = some (⟨[], []⟩, none) := by
  unfold Buf.truncate
  simp

theorem step_refines {a : Alloc} {s : Sys} {p : PSys} (r : SRel s p) (op : HOp) (hint : op.Int64) :
    ∃ p', p.step ((s.step a op).2 = .panic) op = (p', (s.step a op).2) ∧ SRel (s.step a op).1 p' := by
  cases op with
  | open_ flag =>
    refine ⟨_, rfl, ?_⟩
    simp only [Sys.step, openOp]
    by_cases hc : (flag &&& oTRUNC != 0#64 && writable flag) = true
    · rw [if_pos hc]
      rw [Bool.and_eq_true, trunc_eq] at hc
      have hw : ¬ (writable flag = false) := by rw [hc.2]; simp
      rw [if_pos ⟨hc.1, by rw [canWrite_flag]; exact hc.2⟩]
      refine ⟨?_, ?_, ?_⟩
      · simp only [fileOp, memTruncate, if_neg hw, truncate_zero]
        simp
        refine ⟨⟨rfl, 0, rfl⟩, ?_⟩
        simp [lenOf, maxInt64]
      · rw [List.map_append, r.hs]; rfl
      · intro h hm
        rcases List.mem_append.1 hm with hm | hm
        · exact r.ok h hm
        · simp at hm; subst hm
          exact ⟨Int.le_refl _, by unfold maxInt64; simp⟩
    · rw [if_neg hc]
      rw [if_neg (by rw [canWrite_flag]; rw [Bool.and_eq_true, trunc_eq] at hc; exact hc)]
      refine ⟨r.rel, ?_, ?_⟩
      · rw [List.map_append, r.hs]; rfl
      · intro h hm
        rcases List.mem_append.1 hm with hm | hm
        · exact r.ok h hm
        · simp at hm; subst hm
          exact ⟨Int.le_refl _, by unfold maxInt64; simp⟩
  | on i op =>
    cases hi : s.hs[i]? with
    | none =>
      have hs : s.step a (.on i op) = (s, .noHandle) := by simp only [Sys.step, hi]
      rw [hs]
      refine ⟨p, ?_, r⟩
      simp only [PSys.step, r.hs, List.getElem?_map, hi, Option.map_none]
    | some hd =>
      have hmem : hd ∈ s.hs := List.mem_of_getElem? hi
      obtain ⟨b', hd', rs, e, h1, h2, h3, h4⟩ := fileOp_refines (a := a) r.rel (r.ok hd hmem) op hint
      have hs : s.step a (.on i op) = (⟨b', s.hs.set i hd'⟩, rs) := by simp only [Sys.step, hi, h1]
      rw [hs]
      refine ⟨⟨e ++ p.changes, p.ds.set i (absH hd')⟩, ?_, h3, ?_, ?_⟩
      · simp only [PSys.step, r.hs, List.getElem?_map, hi, Option.map_some, h2]
      · rw [List.map_set, r.hs]
      · intro h hm
        rcases List.mem_or_eq_of_mem_set hm with hm | hm
        · exact r.ok h hm
        · subst hm; exact h4

theorem run_refines (calls : List (Alloc × HOp)) (hint : ∀ c ∈ calls, c.2.Int64) : ∀ (s : Sys) (p : PSys), SRel s p →
    ∃ refusals : List Bool, refusals.length = calls.length ∧ p.run (refusals.zip (calls.map (·.2))) = s.run calls ∧
      ∀ (i : Nat) (r : Bool), refusals[i]? = some r → r = true → (s.run calls)[i]? = some HResp.panic := by
  induction calls with
  | nil => intro s p _; exact ⟨[], rfl, rfl, by simp⟩
  | cons c calls ih =>
    intro s p r
    obtain ⟨a, op⟩ := c
    obtain ⟨p', h1, h2⟩ := step_refines (a := a) r op (hint (a, op) List.mem_cons_self)
    obtain ⟨rf, h3, h4, h5⟩ := ih (fun c hc => hint c (List.mem_cons_of_mem _ hc)) _ _ h2
    refine ⟨decide ((s.step a op).2 = .panic) :: rf, by simp [h3], ?_, ?_⟩
    · simp only [List.map_cons, List.zip_cons_cons, PSys.run, Sys.run, h1, h4]
    · intro i x hx ht
      cases i with
      | zero =>
        simp only [List.getElem?_cons_zero, Option.some.injEq] at hx
        subst hx
        simp only [Sys.run, List.getElem?_cons_zero, Option.some.injEq]
        exact of_decide_eq_true ht
      | succ i =>
        simp only [List.getElem?_cons_succ] at hx
        simpa [Sys.run] using h5 i x hx ht

/-! ## C46 -/

/-- Every history of opens and calls on handles of one memory file gives the answers of POSIX open files on a byte array,
where memory may be refused only at calls that panic. -/
theorem C46_handles_are_posix (calls : List (Alloc × HOp)) (hint : ∀ c ∈ calls, c.2.Int64) :
    ∃ refusals : List Bool, refusals.length = calls.length ∧
      (PSys.mk [] []).run (refusals.zip (calls.map (·.2))) = (Sys.mk Buf.empty []).run calls ∧
      ∀ (i : Nat) (r : Bool), refusals[i]? = some r → r = true → ((Sys.mk Buf.empty []).run calls)[i]? = some HResp.panic :=
  run_refines calls hint _ _ ⟨⟨⟨rfl, 0, rfl⟩, by unfold maxInt64; simp [lenOf]⟩, rfl, by simp⟩

/-- A call refused for a closed handle or for the access mode changes nothing: neither bytes nor any cursor. -/
theorem C46_refused_without_effect (a : Alloc) (b : Buf) (h : Hd) (op : FOp) (e : HErr) (he : e = .closed ∨ e = .badf)
    (hr : (fileOp a b h op).2.2 = .failed e) : (fileOp a b h op).1 = b ∧ (fileOp a b h op).2.1 = h := by
  have noWrite : ∀ p off b' n er, b.writeAt a p off = some (b', n, some er) → er = .inval := by
    intro p off b' n er hw
    unfold Buf.writeAt at hw
    split at hw
    · cases hw; rfl
    split at hw
    · cases hw; rfl
    split at hw
    · cases hw
    · simp only at hw
      generalize (if off.toNat + p.length > b.content.length then b.grow a (off.toNat + p.length - b.content.length) else some b) = x at hw
      cases x with
      | none => cases hw
      | some x => cases hw
  cases op with
  | close => simp [fileOp] at hr
  | size => simp [fileOp] at hr
  | read k =>
    simp only [fileOp] at hr ⊢
    split
    · exact ⟨rfl, rfl⟩
    · split
      · exact ⟨rfl, rfl⟩
      · rename_i h1 h2
        rw [if_neg h1, if_neg h2] at hr
        unfold memRead at hr
        rw [if_neg h2] at hr
        simp only at hr
        unfold Buf.readAt at hr
        split at hr
        · simp [readResp, ofErr] at hr; subst hr; rcases he with he | he <;> cases he
        · split at hr
          · simp [readResp] at hr
          · simp only at hr
            split at hr <;> simp [readResp] at hr
  | readAt k off =>
    simp only [fileOp]
    split
    · exact ⟨rfl, rfl⟩
    · split <;> exact ⟨rfl, rfl⟩
  | write p =>
    simp only [fileOp] at hr ⊢
    split
    · exact ⟨rfl, rfl⟩
    · split
      · exact ⟨rfl, rfl⟩
      · rename_i h1 h2
        rw [if_neg h1, if_neg h2] at hr
        unfold memWrite at hr
        rw [if_neg h2] at hr
        split at hr
        · simp at hr
        · simp at hr
        · rename_i hw
          have := noWrite _ _ _ _ _ hw
          subst this
          simp [ofErr] at hr; subst hr; rcases he with he | he <;> cases he
  | writeAt p off =>
    simp only [fileOp] at hr ⊢
    split
    · exact ⟨rfl, rfl⟩
    · split
      · exact ⟨rfl, rfl⟩
      · rename_i h1 h2
        rw [if_neg h1, if_neg h2] at hr
        unfold memWriteAt at hr ⊢
        split
        · exact ⟨rfl, rfl⟩
        · rename_i h3
          simp only [if_neg h3, if_neg h2] at hr ⊢
          cases hw : b.writeAt a p off with
          | none => simp
          | some x =>
            obtain ⟨b', n, er⟩ := x
            cases er with
            | none => rw [hw] at hr; simp at hr
            | some er =>
              have := noWrite _ _ _ _ _ hw
              subst this
              rw [hw] at hr
              simp [ofErr] at hr; subst hr; rcases he with he | he <;> cases he
  | truncate size =>
    simp only [fileOp] at hr ⊢
    split
    · exact ⟨rfl, rfl⟩
    · split
      · exact ⟨rfl, rfl⟩
      · rename_i h1 h2
        rw [if_neg h1, if_neg h2] at hr
        unfold memTruncate at hr ⊢
        rw [if_neg h2] at hr ⊢
        cases hw : b.truncate a size with
        | none => exact ⟨rfl, rfl⟩
        | some x =>
          obtain ⟨b', er⟩ := x
          rw [hw] at hr
          cases er with
          | none => simp at hr
          | some er =>
            have : er = .inval := by
              unfold Buf.truncate at hw
              split at hw
              · cases hw; rfl
              · simp only at hw
                generalize (if size.toNat > b.content.length then b.grow a (size.toNat - b.content.length) else some b) = x at hw
                cases x with
                | none => cases hw
                | some x => cases hw
            subst this
            simp [ofErr] at hr; subst hr; rcases he with he | he <;> cases he
  | seek off whence =>
    simp only [fileOp] at hr ⊢
    split
    · exact ⟨rfl, rfl⟩
    · rename_i h1
      rw [if_neg h1] at hr
      refine ⟨rfl, ?_⟩
      unfold memSeek at hr ⊢
      simp only at hr ⊢
      generalize (if whence = 0 then some off else if whence = 1 then some (wrap64 (off + h.off)) else if whence = 2 then some (wrap64 (off + ↑b.content.length)) else none) = t at hr ⊢
      cases t with
      | none => rfl
      | some t =>
        simp only at hr ⊢
        split
        · rfl
        · rename_i h2; rw [if_neg h2] at hr; simp at hr

/-- Two handles share bytes, not cursors; a read-only handle cannot write, a closed one cannot read; append writes at the end. -/
example :
    let a : Alloc := ⟨3, 100⟩
    (Sys.mk Buf.empty []).run [(a, .open_ 0x42#64), (a, .on 0 (.write [1, 2, 3])), (a, .open_ 0x401#64), (a, .on 1 (.write [7])),
      (a, .on 0 (.seek (-1) 2)), (a, .on 0 (.read 5)), (a, .open_ 0#64), (a, .on 2 (.write [9])), (a, .on 2 (.read 2)), (a, .on 0 .close), (a, .on 0 (.read 1)), (a, .on 1 (.read 1)),
      (a, .on 2 (.seek (2 ^ 63 - 1) 1))]
    = [.done, .count 3, .done, .count 1, .pos 3, .data [7] true, .done, .failed .badf, .data [1, 2] false, .done, .failed .closed, .failed .badf, .failed .inval] := by decide

end Verif.Synth
