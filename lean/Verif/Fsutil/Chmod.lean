/-
Model of /repo/fsutil/chmod_mask.go and property C30. Modes are `fs.FileMode` values, 32 bits.
-/
namespace Verif.Fsutil

abbrev Mode := BitVec 32

/-- io/fs `ModePerm`. -/
def modePerm : Mode := 0x1ff#32
/-- io/fs `ModeDir`. -/
def modeDir : Mode := 0x80000000#32
/-- io/fs `ModeAppend`, `ModeExclusive`, `ModeTemporary`. -/
def modeAppend : Mode := 0x40000000#32
def modeExclusive : Mode := 0x20000000#32
def modeTemporary : Mode := 0x10000000#32
/-- io/fs `ModeSetuid`, `ModeSetgid`, `ModeSticky`. -/
def modeSetuid : Mode := 0x800000#32
def modeSetgid : Mode := 0x400000#32
def modeSticky : Mode := 0x100000#32

/-- chmod_mask.go 10 -/
def chmodMaskPlan9 : Mode := modePerm ||| modeAppend ||| modeExclusive ||| modeTemporary
/-- chmod_mask.go 11 -/
def chmodMaskUnix : Mode := modePerm ||| modeSetuid ||| modeSetgid ||| modeSticky

/-- chmod_mask.go 22-24 `MaskChmodModePlan9` -/
def maskPlan9 (mode : Mode) : Mode := mode &&& chmodMaskPlan9
/-- chmod_mask.go 27-29 `MaskChmodModeUnix`, the mask of this platform (chmod_mask_unix.go) -/
def maskUnix (mode : Mode) : Mode := mode &&& chmodMaskUnix

/-- io/fs `FileMode.IsDir` -/
def isDir (mode : Mode) : Bool := mode &&& modeDir != 0#32

/-- chmod_mask.go 34-46 `MaskChmodModeWindows` -/
def maskWindows (mode : Mode) : Mode :=
  let writable : Bool := 0x80#32 &&& mode != 0#32
  if isDir mode && writable then mode ||| modePerm
  else if isDir mode && !writable then (mode &&& ~~~modePerm) ||| 0x16d#32
  else if !isDir mode && writable then (mode &&& ~~~modePerm) ||| 0x1b6#32
  else (mode &&& ~~~modePerm) ||| 0x124#32

/-! ### specification -/

/-- Bit `i` of a mode: 0-8 are rwxrwxrwx from the right, the flags are numbered as in io/fs. -/
def bit (m : Mode) (i : Nat) : Bool := m.getLsbD i

/-- What `chmod` can set on Unix: permissions, setuid (23), setgid (22), sticky (20). -/
def unixBit (i : Nat) : Bool := i < 9 || i = 23 || i = 22 || i = 20
/-- What `chmod` can set on Plan 9: permissions, append (30), exclusive (29), temporary (28). -/
def plan9Bit (i : Nat) : Bool := i < 9 || i = 30 || i = 29 || i = 28

/-- The permission bits of a Windows file: everybody reads; everybody writes iff the owner may; directories are searchable. -/
def windowsPerm (dir writable : Bool) (i : Nat) : Bool :=
  if i % 3 = 2 then true else if i % 3 = 1 then writable else dir

theorem bit_ge (m : Mode) {i : Nat} (h : ¬ i < 32) : bit m i = false := BitVec.getLsbD_of_ge m i (by omega)

/-- C30 (Unix): exactly the bits the platform supports are kept, nothing is added. -/
theorem C30_unix (m : Mode) (i : Nat) : bit (maskUnix m) i = (bit m i && unixBit i) := by
  by_cases h : i < 32
  · unfold bit maskUnix
    rw [BitVec.getLsbD_and]
    have : ∀ k : Fin 32, chmodMaskUnix.getLsbD k = unixBit k := by decide
    rw [this ⟨i, h⟩]
  · rw [bit_ge _ h, bit_ge _ h]; rfl

/-- C30 (Plan 9). -/
theorem C30_plan9 (m : Mode) (i : Nat) : bit (maskPlan9 m) i = (bit m i && plan9Bit i) := by
  by_cases h : i < 32
  · unfold bit maskPlan9
    rw [BitVec.getLsbD_and]
    have : ∀ k : Fin 32, chmodMaskPlan9.getLsbD k = plan9Bit k := by decide
    rw [this ⟨i, h⟩]
  · rw [bit_ge _ h, bit_ge _ h]; rfl

theorem test_bit (m : Mode) (p : Nat) (hp : p < 32) (mask : Mode) (hm : ∀ k : Fin 32, mask.getLsbD k = decide (k.val = p)) :
    (m &&& mask != 0#32) = m.getLsbD p := by
  cases hb : m.getLsbD p with
  | true =>
    rw [bne_iff_ne]
    intro h
    have := congrArg (fun v : Mode => v.getLsbD p) h
    simp only [BitVec.getLsbD_and, hb] at this
    rw [hm ⟨p, hp⟩] at this
    simp at this
  | false =>
    rw [bne_eq_false_iff_eq]
    apply BitVec.eq_of_getLsbD_eq
    intro i hi
    rw [BitVec.getLsbD_and, hm ⟨i, hi⟩]
    by_cases h : i = p
    · subst h; simp [hb]
    · simp [h]

theorem isDir_bit (m : Mode) : isDir m = bit m 31 := test_bit m 31 (by omega) modeDir (by decide)
theorem writable_bit (m : Mode) : (0x80#32 &&& m != 0#32) = bit m 7 := by
  rw [BitVec.and_comm]; exact test_bit m 7 (by omega) _ (by decide)

/-- C30 (Windows): every flag is kept; the permission bits become the uniform pattern of the owner's write bit. -/
theorem C30_windows (m : Mode) (i : Nat) :
    bit (maskWindows m) i = if i < 9 then windowsPerm (bit m 31) (bit m 7) i else bit m i := by
  by_cases h : i < 32
  · unfold maskWindows
    simp only [isDir_bit, writable_bit]
    have hl : ∀ (pat : Mode), bit ((m &&& ~~~modePerm) ||| pat) i = ((bit m i && !decide (i < 9)) || pat.getLsbD i) := by
      intro pat
      unfold bit
      rw [BitVec.getLsbD_or, BitVec.getLsbD_and, BitVec.getLsbD_not]
      have : ∀ k : Fin 32, modePerm.getLsbD k = decide (k.val < 9) := by decide
      rw [this ⟨i, h⟩]
      simp [h]
    have ho : bit (m ||| modePerm) i = (bit m i || decide (i < 9)) := by
      unfold bit
      rw [BitVec.getLsbD_or]
      have : ∀ k : Fin 32, modePerm.getLsbD k = decide (k.val < 9) := by decide
      rw [this ⟨i, h⟩]
    have pats : ∀ k : Fin 32, (0x16d#32).getLsbD k = (decide (k.val < 9) && windowsPerm true false k) ∧
        (0x1b6#32).getLsbD k = (decide (k.val < 9) && windowsPerm false true k) ∧
        (0x124#32).getLsbD k = (decide (k.val < 9) && windowsPerm false false k) ∧
        (k.val < 9 → windowsPerm true true k = true) := by decide
    obtain ⟨p1, p2, p3, p4⟩ := pats ⟨i, h⟩
    simp only at p1 p2 p3 p4
    cases hd : bit m 31 <;> cases hw : bit m 7 <;> by_cases h9 : i < 9 <;> simp [hl, ho, p1, p2, p3, h9, p4]
  · rw [bit_ge _ h, bit_ge _ h, if_neg (by omega)]

theorem mode_ext {a b : Mode} (h : ∀ i, bit a i = bit b i) : a = b := BitVec.eq_of_getLsbD_eq (fun i _ => h i)

/-- C30: masking a masked mode changes nothing, on any platform. -/
theorem C30_idempotent (m : Mode) : maskUnix (maskUnix m) = maskUnix m ∧ maskPlan9 (maskPlan9 m) = maskPlan9 m ∧
    maskWindows (maskWindows m) = maskWindows m := by
  refine ⟨mode_ext fun i => ?_, mode_ext fun i => ?_, mode_ext fun i => ?_⟩
  · simp only [C30_unix, Bool.and_assoc, Bool.and_self]
  · simp only [C30_plan9, Bool.and_assoc, Bool.and_self]
  · rw [C30_windows]
    have h31 : bit (maskWindows m) 31 = bit m 31 := by rw [C30_windows, if_neg (by omega)]
    have h7 : bit (maskWindows m) 7 = bit m 7 := by rw [C30_windows, if_pos (by omega)]; rfl
    rw [h31, h7]
    split
    · rename_i h; rw [C30_windows, if_pos h]
    · rfl

/-- C30: on Unix nothing is lost by masking a mode that only has supported bits. -/
theorem C30_unix_keeps (m : Mode) (h : ∀ i, bit m i = true → unixBit i = true) : maskUnix m = m := by
  apply mode_ext; intro i
  rw [C30_unix]
  cases hb : bit m i with
  | false => rfl
  | true => simp [h i hb]

/-- non-vacuity: a setuid 0755 directory keeps everything but the directory flag; a Windows mask does add bits. -/
example : maskUnix 0x808001ed#32 = 0x8001ed#32 ∧ maskWindows 0x80#32 = 0x1b6#32 ∧ maskUnix 0x8001ed#32 = 0x8001ed#32 := by decide

end Verif.Fsutil
