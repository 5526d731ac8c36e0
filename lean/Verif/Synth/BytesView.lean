import Verif.Synth.Handle
/-
C117: a file bound from a byte slice, /repo/vroot/synthfs/view_bytes.go (`NewBytesView`) below handle.go 24-177 (`fileHandle`), opened through open.go 20-100.
The calls (`FOp`, `HOp`) are those of Handle.lean.
-/
namespace Verif.Synth.BytesView
open Verif Verif.Vroot Verif.Synth

/-! ### Model -/

inductive Why where
  | closed | badf | rofs | exist | negative | inval
deriving DecidableEq

/-- What a call answers. -/
inductive Ans where
  | data (d : Bytes) (eof : Bool)     -- the bytes, and nil or io.EOF
  | pos (n : Int)
  | size (n : Nat)
  | done
  | failed (e : Why)
  | noHandle                          -- no such handle (not a call of the code)
deriving DecidableEq

/-- handle.go 24-33 `fileHandle` over view_bytes.go 45-48 `bytesHandle`; `off` is the position of its bytes.Reader. -/
structure Hd where
  flag : Flag
  off : Int
  closed : Bool
deriving DecidableEq

/-- std bytes.Reader.Read: the position after it, and the answer. -/
def rdRead (b : Bytes) (i : Int) (k : Nat) : Int × Ans :=
  if (b.length : Int) ≤ i then (i, .data [] true) else (wrap64 (i + (slice b i.toNat k).length), .data (slice b i.toNat k) false)

/-- std bytes.Reader.ReadAt: it does not use the position. -/
def rdReadAt (b : Bytes) (k : Nat) (off : Int) : Ans :=
  if off < 0 then .failed .negative
  else if (b.length : Int) ≤ off then .data [] true
  else .data (slice b off.toNat k) ((slice b off.toNat k).length < k)

/-- view_bytes.go 77-93 `Seek` over std bytes.Reader.Seek. -/
def rdSeek (b : Bytes) (i : Int) (offset whence : Int) : Int × Ans :=
  let target : Option Int :=
    if whence = 0 then some offset
    else if whence = 1 then some (wrap64 (i + offset))
    else if whence = 2 then some (wrap64 (b.length + offset))
    else none
  match target with
  | none => (i, .failed .inval)
  | some t => if t < 0 then (i, .failed .negative) else (t, .pos t)

/-- view_bytes.go 30-35 `bytesView.Open`. -/
def viewOpen (flag : Flag) : Except Why Hd := if writeOp flag then .error .rofs else .ok ⟨flag, 0, false⟩

/-- `os.O_EXCL` -/
def oEXCL : Flag := 0x80#64

/-- open.go 20-76 `OpenFile` on the name of the file, 87-100 `openFileNode`. After `view.Open` accepted the flag it does not ask to truncate. -/
def treeOpen (flag : Flag) : Except Why Hd :=
  if flag &&& oCREATE != 0#64 && flag &&& oEXCL != 0#64 then .error .exist else viewOpen flag

/-- handle.go 45-150, and view_bytes.go 59-75 behind it; `Stat` (view_bytes.go 37-39) asks the view for the size, closed or not. -/
def fileOp (b : Bytes) (h : Hd) : FOp → Hd × Ans
  | .close => ({ h with closed := true }, .done)
  | .size => (h, .size b.length)
  | .read k =>
    if h.closed then (h, .failed .closed)
    else if readable h.flag = false then (h, .failed .badf)
    else ({ h with off := (rdRead b h.off k).1 }, (rdRead b h.off k).2)
  | .readAt k off =>
    if h.closed then (h, .failed .closed)
    else if readable h.flag = false then (h, .failed .badf)
    else (h, rdReadAt b k off)
  | .write _ | .writeAt _ _ | .truncate _ =>
    if h.closed then (h, .failed .closed)
    else if writable h.flag = false then (h, .failed .badf)
    else (h, .failed .rofs)
  | .seek off whence =>
    if h.closed then (h, .failed .closed)
    else ({ h with off := (rdSeek b h.off off whence).1 }, (rdSeek b h.off off whence).2)

/-- One call on the file or on one of the handles opened on it so far. -/
def step (b : Bytes) (hs : List Hd) : HOp → List Hd × Ans
  | .open_ flag => match treeOpen flag with
    | .error e => (hs, .failed e)
    | .ok h => (hs ++ [h], .done)
  | .on i op => match hs[i]? with
    | none => (hs, .noHandle)
    | some h => (hs.set i (fileOp b h op).1, (fileOp b h op).2)

/-- The calls of a history with what they answered. -/
def run (b : Bytes) : List Hd → List HOp → List (HOp × Ans)
  | _, [] => []
  | hs, op :: rest => (op, (step b hs op).2) :: run b (step b hs op).1 rest

/-! ### Specification -/

/-- The bytes a call gave to handle `i`, if it is a `Read` on it. -/
def gave (i : Nat) : HOp × Ans → Bytes
  | (.on j (.read _), .data d _) => if j = i then d else []
  | _ => []

/-- What a history has done to handle `i`: the bytes it was given by `Read`, one after the other. -/
def given (i : Nat) (l : List (HOp × Ans)) : Bytes := l.flatMap (gave i)

/-- Nobody moves the position of handle `i`. -/
def Straight (i : Nat) (l : List HOp) : Prop := ∀ off whence, HOp.on i (.seek off whence) ∉ l

/-! ### Proofs -/

/-- Handles are only ever opened for reading, at a position that is an int64. -/
structure Ok (h : Hd) : Prop where
  flag : writeOp h.flag = false
  low : 0 ≤ h.off
  high : h.off ≤ maxInt64

theorem readable_of {f : Flag} (h : writeOp f = false) : readable f = true ∧ writable f = false := by
  have h0 : f &&& (oWRONLY ||| oRDWR ||| oAPPEND ||| oCREATE ||| oTRUNC) = 0#64 := by
    unfold writeOp at h
    exact Classical.byContradiction fun c => by rw [bne_iff_ne.2 c] at h; cases h
  have bit : ∀ i, i < 64 → (oWRONLY ||| oRDWR ||| oAPPEND ||| oCREATE ||| oTRUNC).getLsbD i = true → f.getLsbD i = false := by
    intro i hi hm
    have := congrArg (fun v => BitVec.getLsbD v i) h0
    simp only [BitVec.getLsbD_and, hm, Bool.and_true] at this
    simpa using this
  have b0 := bit 0 (by omega) (by decide)
  have b1 := bit 1 (by omega) (by decide)
  have hw : f &&& oWRONLY = 0#64 := (and_pow f 0 (by omega)).2 b0
  have hr : f &&& oRDWR = 0#64 := (and_pow f 1 (by omega)).2 b1
  refine ⟨?_, ?_⟩
  · unfold readable writeOnly
    rw [hw]; rfl
  · unfold writable
    have : f &&& (oWRONLY ||| oRDWR) = 0#64 := by
      rw [BitVec.and_or_distrib_left, hw, hr]; rfl
    rw [this]; rfl

theorem ok_open {f : Flag} {h : Hd} (ho : treeOpen f = .ok h) : Ok h ∧ h = ⟨f, 0, false⟩ := by
  unfold treeOpen viewOpen at ho
  split at ho
  · cases ho
  · split at ho
    · cases ho
    · rename_i hw
      cases ho
      exact ⟨⟨by simpa using hw, by show (0 : Int) ≤ 0; decide, by show (0 : Int) ≤ maxInt64; decide⟩, rfl⟩

theorem rdRead_eq {b : Bytes} (hb : (b.length : Int) ≤ maxInt64) {i : Int} (h0 : 0 ≤ i) (k : Nat) :
    rdRead b i k = (i + (slice b i.toNat k).length, .data (slice b i.toNat k) (decide ((b.length : Int) ≤ i))) := by
  unfold rdRead
  split
  · rename_i h
    rw [slice_of_ge b i.toNat k (by omega)]
    simp [h]
  · rename_i h
    have hl := slice_length b i.toNat k
    rw [wrap64_of_isInt64 (by unfold IsInt64 minInt64; unfold maxInt64 at *; omega)]
    simp [h]

/-- Of a seek: where it leads, or that it is refused and nothing moved. -/
theorem rdSeek_cases {b : Bytes} (hb : (b.length : Int) ≤ maxInt64) {i : Int} (h0 : 0 ≤ i) (h1 : i ≤ maxInt64) (off whence : Int) (ho : IsInt64 off) :
    rdSeek b i off whence = (match (match whence with | 0 => some (0 : Int) | 1 => some i | 2 => some (b.length : Int) | _ => none) with
      | none => (i, .failed .inval)
      | some s => if s + off < 0 ∨ maxInt64 < s + off then (i, .failed .negative) else (s + off, .pos (s + off))) := by
  have key : ∀ s : Int, 0 ≤ s → s ≤ maxInt64 →
      (if wrap64 (s + off) < 0 then (i, Ans.failed .negative) else (wrap64 (s + off), .pos (wrap64 (s + off)))) =
      if s + off < 0 ∨ maxInt64 < s + off then (i, .failed .negative) else (s + off, .pos (s + off)) := by
    intro s hs hs'
    unfold IsInt64 at ho
    by_cases h : maxInt64 < s + off
    · have := (wrap64_add_nonneg hs (show 0 ≤ off by unfold maxInt64 at *; omega) hs' ho.2).2 h
      rw [if_pos this, if_pos (.inr h)]
    · have hw : wrap64 (s + off) = s + off := wrap64_of_isInt64 (by unfold IsInt64; unfold minInt64 maxInt64 at *; omega)
      rw [hw]
      by_cases hn : s + off < 0
      · rw [if_pos hn, if_pos (.inl hn)]
      · rw [if_neg hn, if_neg (by rintro (c | c) <;> contradiction)]
  unfold rdSeek
  by_cases w0 : whence = 0
  · subst w0
    have hk := key 0 (by decide) (by decide)
    rw [Int.zero_add, wrap64_of_isInt64 ho] at hk
    simpa using hk
  · by_cases w1 : whence = 1
    · subst w1
      simpa using key i h0 h1
    · by_cases w2 : whence = 2
      · subst w2
        simpa using key b.length (by omega) hb
      · simp only [if_neg w0, if_neg w1, if_neg w2]

theorem ok_fileOp {b : Bytes} (hb : (b.length : Int) ≤ maxInt64) {h : Hd} (hok : Ok h) (op : FOp) (hi : op.Int64) : Ok (fileOp b h op).1 := by
  cases op with
  | close => exact ⟨hok.flag, hok.low, hok.high⟩
  | size => exact hok
  | read k =>
    simp only [fileOp]
    split
    · exact hok
    · split
      · exact hok
      · rw [rdRead_eq hb hok.low k]
        refine ⟨hok.flag, ?_, ?_⟩
        · have := hok.low; show 0 ≤ h.off + _; omega
        · show h.off + ((slice b h.off.toNat k).length : Int) ≤ maxInt64
          rw [slice_length]
          have := hok.low; have := hok.high
          omega
  | readAt k off =>
    simp only [fileOp]
    split
    · exact hok
    · split <;> exact hok
  | write p =>
    simp only [fileOp]
    split
    · exact hok
    · split <;> exact hok
  | writeAt p off =>
    simp only [fileOp]
    split
    · exact hok
    · split <;> exact hok
  | truncate n =>
    simp only [fileOp]
    split
    · exact hok
    · split <;> exact hok
  | seek off whence =>
    simp only [fileOp]
    split
    · exact hok
    · rw [rdSeek_cases hb hok.low hok.high off whence hi]
      split
      · exact ⟨hok.flag, hok.low, hok.high⟩
      · rename_i s _
        split
        · exact ⟨hok.flag, hok.low, hok.high⟩
        · rename_i hn
          exact ⟨hok.flag, by show 0 ≤ s + off; omega, by show s + off ≤ maxInt64; omega⟩

theorem ok_step {b : Bytes} (hb : (b.length : Int) ≤ maxInt64) {hs : List Hd} (hok : ∀ h ∈ hs, Ok h) (op : HOp) (hi : op.Int64) :
    ∀ h ∈ (step b hs op).1, Ok h := by
  cases op with
  | open_ flag =>
    intro h hh
    simp only [step] at hh
    cases hx : treeOpen flag with
    | error e => rw [hx] at hh; exact hok h hh
    | ok h' =>
      rw [hx] at hh
      rcases List.mem_append.1 hh with hh | hh
      · exact hok h hh
      · rw [List.mem_singleton] at hh
        subst hh; exact (ok_open hx).1
  | on i op =>
    intro h hh
    simp only [step] at hh
    cases hx : hs[i]? with
    | none => rw [hx] at hh; exact hok h hh
    | some h' =>
      rw [hx] at hh
      rcases List.mem_or_eq_of_mem_set hh with hh | hh
      · exact hok h hh
      · subst hh; exact ok_fileOp hb (hok h' (List.mem_of_getElem? hx)) op hi

/-! ### C117 -/

/-- The file can be opened exactly by a flag that asks for no change: reading only, without create, truncate or append. -/
theorem C117_opens (flag : Flag) : (∃ h, treeOpen flag = .ok h) ↔ access flag = .rdonly ∧ asksChange flag = false := by
  have hmask : writeOp flag = (flag.getLsbD 0 || flag.getLsbD 1 || asksChange flag) := by
    have key : writeOp flag = false ↔ (flag.getLsbD 0 = false ∧ flag.getLsbD 1 = false ∧ flag.getLsbD 6 = false ∧ flag.getLsbD 9 = false ∧ flag.getLsbD 10 = false) := by
      have z : ∀ (x y : Flag), flag &&& (x ||| y) = 0#64 ↔ flag &&& x = 0#64 ∧ flag &&& y = 0#64 := by
        intro x y
        rw [BitVec.and_or_distrib_left, BitVec.or_eq_zero_iff]
      have hw : writeOp flag = false ↔ flag &&& (oWRONLY ||| oRDWR ||| oAPPEND ||| oCREATE ||| oTRUNC) = 0#64 := by
        unfold writeOp; simp
      rw [hw, z, z, z, z]
      have e0 : flag &&& oWRONLY = 0#64 ↔ _ := and_pow flag 0 (by omega)
      have e1 : flag &&& oRDWR = 0#64 ↔ _ := and_pow flag 1 (by omega)
      have e6 : flag &&& oCREATE = 0#64 ↔ _ := and_pow flag 6 (by omega)
      have e9 : flag &&& oTRUNC = 0#64 ↔ _ := and_pow flag 9 (by omega)
      have e10 : flag &&& oAPPEND = 0#64 ↔ _ := and_pow flag 10 (by omega)
      rw [e0, e1, e6, e9, e10]
      constructor
      · rintro ⟨⟨⟨⟨a, b⟩, c⟩, d⟩, e⟩; exact ⟨a, b, d, e, c⟩
      · rintro ⟨a, b, d, e, c⟩; exact ⟨⟨⟨⟨a, b⟩, c⟩, d⟩, e⟩
    unfold asksChange
    cases hx : writeOp flag with
    | false => obtain ⟨a, b, c, d, e⟩ := key.1 hx; rw [a, b, c, d, e]; rfl
    | true =>
      cases h0 : flag.getLsbD 0 <;> cases h1 : flag.getLsbD 1 <;> cases h6 : flag.getLsbD 6 <;> cases h9 : flag.getLsbD 9 <;> cases h10 : flag.getLsbD 10 <;> try rfl
      rw [key.2 ⟨h0, h1, h6, h9, h10⟩] at hx; cases hx
  have hcreate : asksChange flag = false → (flag &&& oCREATE != 0#64) = false := by
    intro h
    unfold asksChange at h
    have h6 : flag.getLsbD 6 = false := by
      cases h6 : flag.getLsbD 6 with
      | false => rfl
      | true => rw [h6] at h; cases h
    have : flag &&& oCREATE = 0#64 := (and_pow flag 6 (by omega)).2 h6
    rw [this]; rfl
  have hacc := access_bits flag
  constructor
  · rintro ⟨h, ho⟩
    have hw : writeOp flag = false := by
      have := ok_open ho
      rw [this.2] at this
      exact this.1.flag
    rw [hmask] at hw
    cases h0 : flag.getLsbD 0 <;> cases h1 : flag.getLsbD 1 <;> rw [h0, h1] at hw hacc <;> simp_all
  · rintro ⟨ha, hc⟩
    refine ⟨⟨flag, 0, false⟩, ?_⟩
    unfold treeOpen
    rw [hcreate hc]
    show viewOpen flag = _
    unfold viewOpen
    rw [if_neg]
    rw [hmask, hc]
    rw [hacc] at ha
    cases h0 : flag.getLsbD 0 <;> cases h1 : flag.getLsbD 1 <;> rw [h0, h1] at ha <;> simp_all

/-- At every point of every history of calls on the file and on the handles opened on it, the next call answers:
`ReadAt` the bytes at its offset, as many as asked for or up to the end, with io.EOF exactly if it begins at the end or behind, or gives less than asked for; it refuses a negative offset; `Stat` their
number; writing and truncating always fail. -/
theorem C117_answers (b : Bytes) {hs : List Hd} (hok : ∀ h ∈ hs, Ok h) (i : Nat) (h : Hd) (hi : hs[i]? = some h) :
    (∀ k off, h.closed = false → 0 ≤ off → ∃ eof, (step b hs (.on i (.readAt k off))).2 = .data (slice b off.toNat k) eof ∧
      (eof = true ↔ b.length ≤ off.toNat ∨ b.length < off.toNat + k)) ∧
    (∀ k off, off < 0 → ∃ e, (step b hs (.on i (.readAt k off))).2 = .failed e) ∧
    (step b hs (.on i .size)).2 = .size b.length ∧
    (∀ p, ∃ e, (step b hs (.on i (.write p))).2 = .failed e) ∧
    (∀ p off, ∃ e, (step b hs (.on i (.writeAt p off))).2 = .failed e) ∧
    (∀ n, ∃ e, (step b hs (.on i (.truncate n))).2 = .failed e) := by
  have ho := hok h (List.mem_of_getElem? hi)
  have hst : ∀ op, (step b hs (.on i op)).2 = (fileOp b h op).2 := by
    intro op; simp only [step, hi]
  refine ⟨?_, ?_, by rw [hst]; rfl, ?_, ?_, ?_⟩
  rotate_left
  · intro k off h0
    rw [hst]
    simp only [fileOp]
    split
    · exact ⟨_, rfl⟩
    · rw [(readable_of ho.flag).1]
      refine ⟨.negative, ?_⟩
      show rdReadAt b k off = _
      unfold rdReadAt
      rw [if_pos h0]
  rotate_right
  · intro k off hc h0
    rw [hst]
    simp only [fileOp]
    rw [hc, (readable_of ho.flag).1]
    show ∃ eof, rdReadAt b k off = _ ∧ _
    unfold rdReadAt
    rw [if_neg (by omega)]
    have hl := slice_length b off.toNat k
    split
    · rename_i hge
      refine ⟨true, ?_, (fun _ => Or.inl (by omega)), fun _ => rfl⟩
      rw [slice_of_ge b off.toNat k (by omega)]
    · refine ⟨_, rfl, ?_⟩
      rw [decide_eq_true_iff]
      omega
  all_goals
    intros
    rw [hst]
    simp only [fileOp]
    split
    · exact ⟨_, rfl⟩
    · rw [(readable_of ho.flag).2]
      exact ⟨_, rfl⟩

theorem getElem?_step_other {b : Bytes} {hs : List Hd} {i : Nat} {h : Hd} (hi : hs[i]? = some h) (op : HOp) (hne : ∀ o, op ≠ .on i o) :
    (step b hs op).1[i]? = some h := by
  have hlt : i < hs.length := by
    rcases Nat.lt_or_ge i hs.length with h' | h'
    · exact h'
    · rw [List.getElem?_eq_none h'] at hi; cases hi
  cases op with
  | open_ flag =>
    simp only [step]
    cases treeOpen flag with
    | error e => exact hi
    | ok h' => show (hs ++ [h'])[i]? = some h; rw [List.getElem?_append_left hlt]; exact hi
  | on j o =>
    have hj : j ≠ i := fun e => hne o (by rw [e])
    simp only [step]
    cases hx : hs[j]? with
    | none => exact hi
    | some h' => show (hs.set j _)[i]? = some h; rw [List.getElem?_set_ne hj]; exact hi

theorem getElem?_step_same {b : Bytes} {hs : List Hd} {i : Nat} {h : Hd} (hi : hs[i]? = some h) (o : FOp) :
    (step b hs (.on i o)).1[i]? = some (fileOp b h o).1 ∧ (step b hs (.on i o)).2 = (fileOp b h o).2 := by
  have hlt : i < hs.length := by
    rcases Nat.lt_or_ge i hs.length with h' | h'
    · exact h'
    · rw [List.getElem?_eq_none h'] at hi; cases hi
  simp only [step, hi, List.getElem?_set_self hlt, and_self]

/-- What a handle read from its position on. -/
theorem given_run {b : Bytes} (hb : (b.length : Int) ≤ maxInt64) {i : Nat} (l : List HOp) : ∀ {hs : List Hd} {h : Hd}, hs[i]? = some h → (∀ x ∈ hs, Ok x) →
    (∀ op ∈ l, op.Int64) → Straight i l →
    given i (run b hs l) <+: b.drop h.off.toNat ∧
    ((∃ k, (HOp.on i (.read k), Ans.data [] true) ∈ run b hs l) → given i (run b hs l) = b.drop h.off.toNat) := by
  induction l with
  | nil => intro hs h hi _ _ _; exact ⟨List.nil_prefix, fun ⟨k, hk⟩ => by cases hk⟩
  | cons op l ih =>
    intro hs h hi hok hint hst
    have hok' := ok_step hb hok op (hint op (by simp))
    have hint' : ∀ o ∈ l, o.Int64 := fun o ho => hint o (List.mem_cons_of_mem _ ho)
    have hst' : Straight i l := fun x y hm => hst x y (List.mem_cons_of_mem _ hm)
    have hself := hok h (List.mem_of_getElem? hi)
    have hcons : ∀ (x : HOp × Ans) t, given i (x :: t) = gave i x ++ given i t := fun x t => by simp [given]
    have hrun : run b hs (op :: l) = (op, (step b hs op).2) :: run b (step b hs op).1 l := rfl
    rw [hrun]
    by_cases hmine : ∃ o, op = .on i o
    · obtain ⟨o, rfl⟩ := hmine
      obtain ⟨h1, h2⟩ := getElem?_step_same (b := b) hi o
      obtain ⟨ih1, ih2⟩ := ih h1 hok' hint' hst'
      -- the calls that leave the position alone and are no successful read
      have quiet : (fileOp b h o).1.off = h.off → (∀ k d e, o = .read k → (fileOp b h o).2 ≠ .data d e) →
          given i ((.on i o, (step b hs (.on i o)).2) :: run b (step b hs (.on i o)).1 l) <+: b.drop h.off.toNat ∧
          ((∃ k, (HOp.on i (.read k), Ans.data [] true) ∈ (.on i o, (step b hs (.on i o)).2) :: run b (step b hs (.on i o)).1 l) →
            given i ((.on i o, (step b hs (.on i o)).2) :: run b (step b hs (.on i o)).1 l) = b.drop h.off.toNat) := by
        intro hoff hno
        rw [hoff] at ih1 ih2
        have hg : given i ((.on i o, (step b hs (.on i o)).2) :: run b (step b hs (.on i o)).1 l) = given i (run b (step b hs (.on i o)).1 l) := by
          rw [hcons, h2]
          have : gave i (.on i o, (fileOp b h o).2) = [] := by
            unfold gave
            split
            · rename_i heq
              injection heq with ha hc
              injection ha with ha hd
              exact absurd hc (hno _ _ _ hd)
            · rfl
          rw [this, List.nil_append]
        rw [hg]
        refine ⟨ih1, ?_⟩
        rintro ⟨k, hk⟩
        rcases List.mem_cons.1 hk with e | e
        · injection e with e1 e2
          injection e1 with _ e3
          rw [h2] at e2
          exact absurd e2.symm (hno k _ _ e3.symm)
        · exact ih2 ⟨k, e⟩
      cases o with
      | read k =>
        by_cases hc : h.closed = true
        · exact quiet (by simp only [fileOp]; rw [if_pos hc]) (by intro k' d e he; simp only [fileOp]; rw [if_pos hc]; exact fun c => by cases c)
        · have hf : fileOp b h (.read k) = ({ h with off := h.off + (slice b h.off.toNat k).length }, .data (slice b h.off.toNat k) (decide ((b.length : Int) ≤ h.off))) := by
            simp only [fileOp]
            rw [if_neg hc, if_neg (by rw [(readable_of hself.flag).1]; decide), rdRead_eq hb hself.low k]
          have hg : given i ((.on i (.read k), (step b hs (.on i (.read k))).2) :: run b (step b hs (.on i (.read k))).1 l) =
              slice b h.off.toNat k ++ given i (run b (step b hs (.on i (.read k))).1 l) := by
            rw [hcons, h2, hf]
            show (if i = i then _ else _) ++ _ = _
            rw [if_pos rfl]
          rw [hf] at ih1 ih2
          have hpos : (h.off + ((slice b h.off.toNat k).length : Int)).toNat = h.off.toNat + (slice b h.off.toNat k).length := by
            have := hself.low; omega
          have hsplit : slice b h.off.toNat k ++ b.drop (h.off.toNat + (slice b h.off.toNat k).length) = b.drop h.off.toNat := by
            rw [← List.drop_drop]
            unfold slice
            rw [List.length_take]
            rcases Nat.le_total k (b.drop h.off.toNat).length with hle | hle
            · rw [Nat.min_eq_left hle, List.take_append_drop]
            · rw [Nat.min_eq_right hle, List.take_of_length_le hle, List.drop_length, List.append_nil]
          simp only [hpos] at ih1 ih2
          rw [hg]
          refine ⟨?_, ?_⟩
          · rw [← hsplit]
            exact (List.prefix_append_right_inj _).2 ih1
          · rintro ⟨k', hk⟩
            rcases List.mem_cons.1 hk with e | e
            · injection e with _ e2
              rw [h2, hf] at e2
              injection e2 with e3 e4
              have hge : (b.length : Int) ≤ h.off := by simpa using e4.symm
              have hnil : b.drop h.off.toNat = [] := List.drop_eq_nil_of_le (by omega)
              rw [hnil, ← e3, List.nil_append]
              rw [← e3] at ih1
              have : given i (run b (step b hs (.on i (.read k))).1 l) <+: [] := by
                rw [← hnil]; exact ih1
              exact List.prefix_nil.1 this
            · rw [ih2 ⟨k', e⟩, hsplit]
      | close => exact quiet rfl (fun k d e he => by cases he)
      | size => exact quiet rfl (fun k d e he => by cases he)
      | readAt k off => exact quiet (by simp only [fileOp]; split; rfl; split <;> rfl) (fun k d e he => by cases he)
      | write p => exact quiet (by simp only [fileOp]; split; rfl; split <;> rfl) (fun k d e he => by cases he)
      | writeAt p off => exact quiet (by simp only [fileOp]; split; rfl; split <;> rfl) (fun k d e he => by cases he)
      | truncate n => exact quiet (by simp only [fileOp]; split; rfl; split <;> rfl) (fun k d e he => by cases he)
      | seek off whence => exact absurd (List.mem_cons_self) (hst off whence)
    · have hne : ∀ o, op ≠ .on i o := fun o e => hmine ⟨o, e⟩
      obtain ⟨ih1, ih2⟩ := ih (getElem?_step_other (b := b) hi op hne) hok' hint' hst'
      have hg : given i ((op, (step b hs op).2) :: run b (step b hs op).1 l) = given i (run b (step b hs op).1 l) := by
        rw [hcons]
        have : gave i (op, (step b hs op).2) = [] := by
          unfold gave
          split
          · rename_i j k d e heq
            injection heq with ha hc
            have hji : j ≠ i := fun e => hne _ (by rw [ha, e])
            rw [if_neg hji]
          · rfl
        rw [this, List.nil_append]
      rw [hg]
      refine ⟨ih1, ?_⟩
      rintro ⟨k, hk⟩
      rcases List.mem_cons.1 hk with e | e
      · injection e with e1 _
        exact absurd e1.symm (hne _)
      · exact ih2 ⟨k, e⟩

/-- A handle that was opened reads the bytes from the first one on, in order, none twice and none left out, whatever is done through other handles of the file meanwhile and in whatever
pieces it reads; once it was told io.EOF, it was given them all. Missing: calls on the handle that overlap (`C117_counterexample_shared`). -/
theorem C117_sequence_partial (b : Bytes) (hb : (b.length : Int) ≤ maxInt64) {hs : List Hd} (hok : ∀ h ∈ hs, Ok h) (flag : Flag) (h : Hd) (ho : treeOpen flag = .ok h)
    (l : List HOp) (hint : ∀ op ∈ l, op.Int64) (hst : Straight hs.length l) :
    given hs.length (run b (hs ++ [h]) l) <+: b ∧
    ((∃ k, (HOp.on hs.length (.read k), Ans.data [] true) ∈ run b (hs ++ [h]) l) → given hs.length (run b (hs ++ [h]) l) = b) := by
  obtain ⟨h1, h2⟩ := ok_open ho
  have := given_run hb l (hs := hs ++ [h]) (i := hs.length) (h := h) (by simp) (by
    intro x hx
    rcases List.mem_append.1 hx with hx | hx
    · exact hok x hx
    · rw [List.mem_singleton] at hx; subst hx; exact h1) hint hst
  rw [h2] at this ⊢
  exact this

/-- A `Seek` that answers `p` leads to `p`, counted from the begin, from where the handle is (what `Seek(0, io.SeekCurrent)` answers), or from the end; what the handle reads afterwards
are the bytes from `p` on. One that would lead before the begin is refused, as is one with another `whence`. -/
theorem C117_seek (b : Bytes) (hb : (b.length : Int) ≤ maxInt64) {hs : List Hd} (hok : ∀ h ∈ hs, Ok h) (i : Nat) (off whence : Int) (ho : IsInt64 off) :
    (∀ p, (step b hs (.on i (.seek off whence))).2 = .pos p →
      0 ≤ p ∧ ((whence = 0 ∧ p = off) ∨ (whence = 1 ∧ (step b hs (.on i (.seek 0 1))).2 = .pos (p - off)) ∨ (whence = 2 ∧ p = b.length + off)) ∧
      ∀ l, (∀ op ∈ l, op.Int64) → Straight i l → given i (run b (step b hs (.on i (.seek off whence))).1 l) <+: b.drop p.toNat) ∧
    ((whence = 0 ∧ off < 0) ∨ (whence = 2 ∧ b.length + off < 0) ∨ whence < 0 ∨ 2 < whence → ∀ p, (step b hs (.on i (.seek off whence))).2 ≠ .pos p) := by
  have hint : (HOp.on i (.seek off whence)).Int64 := ho
  cases hi : hs[i]? with
  | none =>
    have h1 : ∀ o, (step b hs (.on i o)).2 = .noHandle := fun o => by simp only [step, hi]
    refine ⟨fun p hp => ?_, fun _ p hp => ?_⟩ <;> rw [h1] at hp <;> cases hp
  | some h =>
    have hself := hok h (List.mem_of_getElem? hi)
    obtain ⟨h1, h2⟩ := getElem?_step_same (b := b) hi (.seek off whence)
    have h3 := (getElem?_step_same (b := b) hi (.seek 0 1)).2
    have hs' := rdSeek_cases hb hself.low hself.high off whence ho
    have hcur := rdSeek_cases hb hself.low hself.high 0 1 (by unfold IsInt64; decide)
    cases hc : h.closed with
    | true =>
      have h4 : (step b hs (.on i (.seek off whence))).2 = .failed .closed := by rw [h2]; simp only [fileOp, hc, if_true]
      refine ⟨fun p hp => ?_, fun _ p hp => ?_⟩ <;> rw [h4] at hp <;> cases hp
    | false =>
      have hf : ∀ o w, fileOp b h (.seek o w) = ({ h with off := (rdSeek b h.off o w).1 }, (rdSeek b h.off o w).2) := by
        intro o w; simp only [fileOp, hc]; rfl
      have hcur' : (step b hs (.on i (.seek 0 1))).2 = .pos h.off := by
        rw [h3, hf, hcur]
        have := hself.low; have := hself.high
        show (if h.off + 0 < 0 ∨ maxInt64 < h.off + 0 then _ else (h.off + 0, Ans.pos (h.off + 0))).2 = _
        rw [if_neg (by omega), Int.add_zero]
      -- where a successful seek leads
      have good : ∀ p, (step b hs (.on i (.seek off whence))).2 = .pos p →
          (rdSeek b h.off off whence).1 = p ∧ 0 ≤ p ∧ ((whence = 0 ∧ p = off) ∨ (whence = 1 ∧ p = h.off + off) ∨ (whence = 2 ∧ p = b.length + off)) := by
        intro p hp
        rw [h2, hf] at hp
        rw [hs'] at hp ⊢
        by_cases w0 : whence = 0
        · subst w0
          simp only [Int.zero_add] at hp ⊢
          split at hp
          · cases hp
          · rename_i hn
            rw [if_neg hn]
            injection hp with hp
            exact ⟨hp, by omega, .inl ⟨by trivial, hp.symm⟩⟩
        · by_cases w1 : whence = 1
          · subst w1
            simp only at hp ⊢
            split at hp
            · cases hp
            · rename_i hn
              rw [if_neg hn]
              injection hp with hp
              exact ⟨hp, by omega, .inr (.inl ⟨trivial, hp.symm⟩)⟩
          · by_cases w2 : whence = 2
            · subst w2
              simp only at hp ⊢
              split at hp
              · cases hp
              · rename_i hn
                rw [if_neg hn]
                injection hp with hp
                exact ⟨hp, by omega, .inr (.inr ⟨trivial, hp.symm⟩)⟩
            · split at hp
              · cases hp
              · rename_i hx; split at hx <;> first | contradiction | cases hx
      refine ⟨?_, ?_⟩
      · intro p hp
        obtain ⟨g1, g2, g3⟩ := good p hp
        refine ⟨g2, ?_, ?_⟩
        · rcases g3 with g | ⟨g, e⟩ | g
          · exact .inl g
          · refine .inr (.inl ⟨g, ?_⟩)
            rw [hcur', show p - off = h.off by omega]
          · exact .inr (.inr g)
        · intro l hl hst
          have := (given_run hb l h1 (ok_step hb hok _ hint) hl hst).1
          rw [hf] at this
          simp only [g1] at this
          exact this
      · intro hbad p hp
        obtain ⟨g1, g2, g3⟩ := good p hp
        omega

/-- The handles that a history of calls leaves are such as the theorems above ask for: so they hold at every point of every history that begins with no handle. -/
theorem C117_reached (b : Bytes) (hb : (b.length : Int) ≤ maxInt64) (l : List HOp) (hint : ∀ op ∈ l, op.Int64) :
    ∀ h ∈ l.foldl (fun hs op => (step b hs op).1) [], Ok h := by
  suffices ∀ hs : List Hd, (∀ h ∈ hs, Ok h) → ∀ h ∈ l.foldl (fun hs op => (step b hs op).1) hs, Ok h from this [] (by simp)
  induction l with
  | nil => intro hs hok; exact hok
  | cons op l ih => intro hs hok; exact ih (fun o ho => hint o (List.mem_cons_of_mem _ ho)) _ (ok_step hb hok op (hint op (by simp)))

/-! ### One handle, several goroutines -/

/-- std bytes.Reader.Read takes the position at its begin and stores the new one at its end; view_bytes.go 69-71 and handle.go 66-74 hold no lock over it.
(memHandle, view_mem_buf.go 162-177, and os.File do.) A step of goroutine `t`: it begins a read of `k` bytes, it ends it. -/
inductive Half where
  | begin (t k : Nat)
  | finish (t : Nat)
deriving DecidableEq

/-- The position, and what every goroutine has copied but not yet accounted for. -/
structure Shared where
  off : Nat
  pending : Nat → Option Bytes
  got : List (Nat × Bytes)

/-- The two halves. (`r.i += n` reads the position once more; here that is one step with the store.) -/
def half (b : Bytes) (s : Shared) : Half → Shared
  | .begin t k => { s with pending := fun u => if u = t then some (slice b s.off k) else s.pending u }
  | .finish t => match s.pending t with
    | some d => { off := s.off + d.length, pending := fun u => if u = t then none else s.pending u, got := s.got ++ [(t, d)] }
    | none => s

/-- Two goroutines that read from one handle at the same time: both are given the same bytes, and the bytes behind them nobody is given. -/
theorem C117_counterexample_shared : let s := [Half.begin 0 2, .begin 1 2, .finish 0, .finish 1, .begin 0 2, .finish 0].foldl (half [1, 2, 3, 4, 5, 6]) ⟨0, fun _ => none, []⟩
    s.got = [(0, [1, 2]), (1, [1, 2]), (0, [5, 6])] := by
  decide

/-! ### A case -/

/-- Two handles, one seeks and closes, the other reads on; a write and an open for writing are refused. -/
example : (run [1, 2, 3, 4, 5] [] [.open_ 0#64, .open_ 0#64, .on 0 (.read 2), .on 1 (.seek (-1) 2), .on 1 (.read 9), .on 0 (.write [9]), .on 1 .close, .on 1 (.read 1), .on 0 (.read 9),
      .on 0 (.read 9), .on 0 (.readAt 3 3), .on 0 .size, .open_ 2#64, .open_ 0xc0#64, .on 0 (.seek (-9) 1)]).map Prod.snd =
    [.done, .done, .data [1, 2] false, .pos 4, .data [5] false, .failed .badf, .done, .failed .closed, .data [3, 4, 5] false, .data [] true, .data [4, 5] true, .size 5,
      .failed .rofs, .failed .exist, .failed .negative] := by
  decide

end Verif.Synth.BytesView
