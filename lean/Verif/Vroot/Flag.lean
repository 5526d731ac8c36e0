/-
Model of /repo/vroot/internal/openflag/flag.go and property C39.  A flag word is an `int`, 64 bits.
-/
namespace Verif.Vroot

abbrev Flag := BitVec 64

/-- os `O_WRONLY`, `O_RDWR`, `O_APPEND`, `O_CREATE`, `O_TRUNC` on Linux. (`syscall.O_RDWR` is the same value as `os.O_RDWR`.) -/
def oWRONLY : Flag := 1#64
def oRDWR : Flag := 2#64
def oAPPEND : Flag := 0x400#64
def oCREATE : Flag := 0x40#64
def oTRUNC : Flag := 0x200#64

/-- flag.go 10-12 `WriteOp` -/
def writeOp (flag : Flag) : Bool := flag &&& (oWRONLY ||| oRDWR ||| oAPPEND ||| oCREATE ||| oTRUNC) != 0#64
/-- flag.go 18-20 `ReadOnly` -/
def readOnly (flag : Flag) : Bool := flag &&& oRDWR == 0#64 && flag &&& oWRONLY == 0#64
/-- flag.go 22-24 `WriteOnly` -/
def writeOnly (flag : Flag) : Bool := flag &&& oWRONLY != 0#64 && flag &&& oRDWR == 0#64
/-- flag.go 26-28 `Readable` -/
def readable (flag : Flag) : Bool := !writeOnly flag
/-- flag.go 30-32 `Writable` -/
def writable (flag : Flag) : Bool := flag &&& (oWRONLY ||| oRDWR) != 0#64
/-- flag.go 14-16 `ReadWrite` -/
def readWrite (flag : Flag) : Bool := readable flag && writable flag

/-! ### Specification -/

/-- The access mode in the lowest two bits of a flag word, as open(2) has it; 3 is not a mode of Go's, Linux takes it as "neither, for ioctl". -/
inductive Access where
  | rdonly | wronly | rdwr | three
deriving DecidableEq

def access (flag : Flag) : Access :=
  match flag.toNat % 4 with
  | 0 => .rdonly
  | 1 => .wronly
  | 2 => .rdwr
  | _ => .three

/-- Bits of the word that ask for a change: create (6), truncate (9), append (10). -/
def asksChange (flag : Flag) : Bool := flag.getLsbD 6 || flag.getLsbD 9 || flag.getLsbD 10

/-! ### Proofs -/

theorem and_pow (flag : Flag) (i : Nat) (hi : i < 64) : (flag &&& BitVec.ofNat 64 (2 ^ i) = 0#64) ↔ flag.getLsbD i = false := by
  constructor
  · intro h
    have := congrArg (fun v => BitVec.getLsbD v i) h
    simp only [BitVec.getLsbD_and, BitVec.getLsbD_ofNat, Nat.testBit_two_pow_self, hi, decide_true, Bool.true_and, Bool.and_true] at this
    simpa using this
  · intro h
    apply BitVec.eq_of_getLsbD_eq
    intro j hj
    simp only [BitVec.getLsbD_and, BitVec.getLsbD_ofNat, hj, decide_true, Bool.true_and, Nat.testBit_two_pow]
    by_cases e : i = j
    · subst e; simp [h]
    · simp [e]

theorem access_bits (flag : Flag) : access flag =
    if flag.getLsbD 0 then (if flag.getLsbD 1 then .three else .wronly) else (if flag.getLsbD 1 then .rdwr else .rdonly) := by
  have b0 : flag.getLsbD 0 = (flag.toNat % 2 != 0) := by
    show flag.toNat.testBit 0 = _
    rw [Nat.testBit_zero]
    have : flag.toNat % 2 = 0 ∨ flag.toNat % 2 = 1 := by omega
    rcases this with h | h <;> rw [h] <;> rfl
  have b1 : flag.getLsbD 1 = (flag.toNat / 2 % 2 != 0) := by
    show flag.toNat.testBit 1 = _
    rw [Nat.testBit_succ, Nat.testBit_zero]
    have : flag.toNat / 2 % 2 = 0 ∨ flag.toNat / 2 % 2 = 1 := by omega
    rcases this with h | h <;> rw [h] <;> rfl
  rw [b0, b1]
  unfold access
  have h : flag.toNat % 4 = (flag.toNat % 2) + 2 * (flag.toNat / 2 % 2) := by omega
  rw [h]
  have h0 : flag.toNat % 2 < 2 := Nat.mod_lt _ (by omega)
  have h1 : flag.toNat / 2 % 2 < 2 := Nat.mod_lt _ (by omega)
  generalize flag.toNat % 2 = a at *
  generalize flag.toNat / 2 % 2 = b at *
  have ha : a = 0 ∨ a = 1 := by omega
  have hb : b = 0 ∨ b = 1 := by omega
  rcases ha with rfl | rfl <;> rcases hb with rfl | rfl <;> rfl

theorem writable_bits (flag : Flag) : writable flag = (flag.getLsbD 0 || flag.getLsbD 1) := by
  have h0 := and_pow flag 0 (by omega)
  have h1 := and_pow flag 1 (by omega)
  rw [Bool.eq_iff_iff]
  unfold writable
  rw [bne_iff_ne, Bool.or_eq_true]
  have key : flag &&& (oWRONLY ||| oRDWR) = 0#64 ↔ (flag &&& BitVec.ofNat 64 (2 ^ 0) = 0#64 ∧ flag &&& BitVec.ofNat 64 (2 ^ 1) = 0#64) := by
    rw [BitVec.and_or_distrib_left, BitVec.or_eq_zero_iff]
    rfl
  rw [ne_eq, key, h0, h1]
  cases flag.getLsbD 0 <;> cases flag.getLsbD 1 <;> simp

/-- **C39, write requests.** A flag word is classified as a write exactly when its access mode is not "read only" or it asks to create, truncate or append. -/
theorem C39_writeOp (flag : Flag) : writeOp flag = true ↔ access flag ≠ .rdonly ∨ asksChange flag = true := by
  have h0 := and_pow flag 0 (by omega)
  have h1 := and_pow flag 1 (by omega)
  have h6 := and_pow flag 6 (by omega)
  have h9 := and_pow flag 9 (by omega)
  have h10 := and_pow flag 10 (by omega)
  unfold writeOp
  rw [bne_iff_ne, access_bits]
  have key : flag &&& (oWRONLY ||| oRDWR ||| oAPPEND ||| oCREATE ||| oTRUNC) = 0#64 ↔
      (flag &&& BitVec.ofNat 64 (2 ^ 0) = 0#64 ∧ flag &&& BitVec.ofNat 64 (2 ^ 1) = 0#64 ∧ flag &&& BitVec.ofNat 64 (2 ^ 10) = 0#64 ∧
       flag &&& BitVec.ofNat 64 (2 ^ 6) = 0#64 ∧ flag &&& BitVec.ofNat 64 (2 ^ 9) = 0#64) := by
    simp only [BitVec.and_or_distrib_left, BitVec.or_eq_zero_iff, and_assoc]
    exact Iff.rfl
  rw [ne_eq, key, h0, h1, h6, h9, h10]
  unfold asksChange
  cases flag.getLsbD 0 <;> cases flag.getLsbD 1 <;> cases flag.getLsbD 6 <;> cases flag.getLsbD 9 <;> cases flag.getLsbD 10 <;> simp

/-- **C39, access mode.** The predicates agree with the access mode: reading is allowed unless it is write-only, writing unless it is read-only, and each
named predicate is its mode. -/
theorem C39_access (flag : Flag) :
    (readable flag = true ↔ access flag ≠ .wronly) ∧ (writable flag = true ↔ access flag ≠ .rdonly) ∧
    (readOnly flag = true ↔ access flag = .rdonly) ∧ (writeOnly flag = true ↔ access flag = .wronly) ∧
    (readWrite flag = true ↔ access flag = .rdwr ∨ access flag = .three) := by
  have h0 : (flag &&& oWRONLY = 0#64) ↔ flag.getLsbD 0 = false := and_pow flag 0 (by omega)
  have h1 : (flag &&& oRDWR = 0#64) ↔ flag.getLsbD 1 = false := and_pow flag 1 (by omega)
  have hw : writeOnly flag = (flag.getLsbD 0 && !flag.getLsbD 1) := by
    rw [Bool.eq_iff_iff]; unfold writeOnly
    rw [Bool.and_eq_true, bne_iff_ne, beq_iff_eq, ne_eq, h0, h1]
    cases flag.getLsbD 0 <;> cases flag.getLsbD 1 <;> simp
  have hr : readOnly flag = (!flag.getLsbD 1 && !flag.getLsbD 0) := by
    rw [Bool.eq_iff_iff]; unfold readOnly
    rw [Bool.and_eq_true, beq_iff_eq, beq_iff_eq, h0, h1]
    cases flag.getLsbD 0 <;> cases flag.getLsbD 1 <;> simp
  have hwr := writable_bits flag
  unfold readWrite readable
  rw [hw, hr, hwr, access_bits]
  cases flag.getLsbD 0 <;> cases flag.getLsbD 1 <;> simp

/-- **C39.** What is not a write request can only be opened for reading: no predicate calls it writable. -/
theorem C39_not_writeOp (flag : Flag) (h : writeOp flag = false) : readOnly flag = true ∧ writable flag = false ∧ readable flag = true ∧ asksChange flag = false := by
  have hn : ¬ (access flag ≠ .rdonly ∨ asksChange flag = true) := by rw [← C39_writeOp, h]; simp
  rw [not_or] at hn
  have ha : access flag = .rdonly := by
    apply Classical.byContradiction
    exact hn.1
  obtain ⟨h1, h2, h3, h4, h5⟩ := C39_access flag
  refine ⟨h3.2 ha, ?_, h1.2 (by rw [ha]; simp), by simpa using hn.2⟩
  cases hw : writable flag with
  | false => rfl
  | true => exact absurd ha (h2.1 hw)

example : writeOp 0#64 = false ∧ writeOp 0x80000#64 = false ∧ writeOp 0x42#64 = true ∧ writeOp 0x400#64 = true := by decide

end Verif.Vroot
