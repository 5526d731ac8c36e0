import Verif.Fsutil.PushProps
import Verif.Fsutil.PullPower
/-
C141: pushes to a filesystem that loses power.

resumable_fs.go asks for no flush: `Append` (213-274) and `Commit` (282-309) never call `Sync`, and the filesystem they are written for (`fsSinkFsys` 96-101, files 90-93) has no such
method. So a loss of power at the sink may take back what a push has written. Two kinds of filesystems are told apart: those that lose only the end of a file
(bytes reach the disk in the order they were written, and a name is moved only after the bytes of the file; `EndsLost` in PullPower.lean), and all others.

Simplifications: as in PullModel.lean.
-/
namespace Verif.Fsutil.Pull
open Verif.Prog

/-! ### Specification -/

/-- The disks of a sink that is pushed to, whose pushes are killed, and that loses power, any number of times in any order. -/
inductive PushHistory (S : Bytes) (d0 : Disk) : Disk → Prop
  | start : PushHistory S d0 d0
  | killed {d e info lcl t} : PushHistory S d0 d → Reads S lcl → t ∈ crashes (push e info S.length lcl) d → PushHistory S d0 t
  | returned {d e info lcl} : PushHistory S d0 d → Reads S lcl → PushHistory S d0 (final (push e info S.length lcl) d)
  | lost {d d'} : PushHistory S d0 d → EndsLost d d' → PushHistory S d0 d'

/-! ### Filesystems that lose only the end of files -/

theorem pushHistory_prefix {S : Bytes} (hS : S ≠ []) {d0 d : Disk} (h0 : d0.target = none ∧ d0.part = none) (h : PushHistory S d0 d) : PrefixOf S d := by
  induction h with
  | start => exact ⟨(fun p hp => by rw [h0.2] at hp; cases hp), Or.inl h0.1⟩
  | killed _ hl ht ih => exact ((push_prefix hS _ _ _ hl) _ ih).1 _ ht
  | returned _ hl ih => exact ((push_prefix hS _ _ _ hl) _ ih).2.1
  | lost _ hs ih => exact endsLost_prefix ih hs

/-- **C141** On a filesystem that loses only the end of files: whatever was pushed, killed and lost, in any order, the sink's partial is a beginning of the file, what is committed is the
file, and a push that returns nil leaves the file there.
Missing from C141: an empty file (as at C27), other filesystems (`C141_counterexample_part`, `C141_counterexample_committed`), and that what was committed is still there after a loss
(`C141_counterexample_gone`). -/
theorem C141_history_partial {S : Bytes} (hS : S ≠ []) {d0 d : Disk} (h0 : d0.target = none ∧ d0.part = none) (h : PushHistory S d0 d) :
    ((∀ p, d.part = some p → p <+: S) ∧ (d.target = none ∨ d.target = some S)) ∧
    ∀ e info lcl, Reads S lcl → result (push e info S.length lcl) d = .ok () → (final (push e info S.length lcl) d).target = some S :=
  ⟨pushHistory_prefix hS h0 h, fun e info lcl hl hok => ((push_prefix hS e info lcl hl) d (pushHistory_prefix hS h0 h)).2.2 hok⟩

/-- **C141** And after any such history one push during which nothing fails commits the file. -/
theorem C141_recovers_partial {S : Bytes} (hS : S ≠ []) {d0 d : Disk} (h0 : d0.target = none ∧ d0.part = none) (h : PushHistory S d0 d)
    (e : Env) (info : Info) (hi : info.size = none ∨ info.size = some S.length) (lcl : Nat → List Bytes × End) (hl : Reads S lcl)
    (hf : NoFault e S.length) (hend : ∀ off, (lcl off).2 = .eof) :
    result (push e info S.length lcl) d = .ok () ∧ (final (push e info S.length lcl) d).target = some S :=
  push_converges hS (pushHistory_prefix hS h0 h) e info hi lcl hl hf (hend _)

/-! ### Every filesystem -/

theorem pushOffset_le (d : Disk) (etag : Str) (size : Nat) : pushOffset d etag size ≤ size := by
  unfold pushOffset
  split
  · exact Nat.zero_le _
  · split
    · exact Nat.zero_le _
    · rename_i h
      omega

theorem base_length (d : Disk) (etag : Str) (size : Nat) : (base d (pushOffset d etag size)).length = pushOffset d etag size := by
  unfold base
  split
  · rename_i h; rw [h]; rfl
  · rename_i h
    rcases fits_pushOffset d etag size with h1 | ⟨p, hp, h1⟩
    · exact absurd h1 h
    · rw [hp]; exact h1.symm

/-- What a push has committed after it began on the disk `d`: nothing, or the first `k` bytes of the partial that was found, all of them, followed by the file from `k` on; `k` is 0 if the push
started over. -/
def Patched (S : Bytes) (d : Disk) (target : Option Bytes) : Prop :=
  target = none ∨ ∃ t k, target = some t ∧ t.length = S.length ∧ k ≤ S.length ∧ t.drop k = S.drop k ∧ (k = 0 ∨ ∃ p, d.part = some p ∧ p.length = k ∧ t.take k = p)

theorem pushing_patched {S : Bytes} (hS : S ≠ []) {e : Env} {etag : Str} {lcl : Nat → List Bytes × End} {d d' : Disk} (hl : Reads S lcl) (hd : d.target = none)
    (h : Pushing e etag S.length lcl d d') : Patched S d d'.target := by
  have hle := pushOffset_le d etag S.length
  have hbl := base_length d etag S.length
  cases h with
  | same => exact Or.inl hd
  | append _ h => exact Or.inl (by rw [h.1]; exact hd)
  | appended _ hend h1 _ =>
    rw [(hl _).2 hend] at h1
    refine Or.inr ⟨_, pushOffset d etag S.length, h1, ?_, hle, ?_, ?_⟩
    · rw [List.length_append, hbl, List.length_drop]; omega
    · exact List.drop_left' hbl
    · rcases fits_pushOffset d etag S.length with h0 | ⟨p, hp, h0⟩
      · exact Or.inl h0
      · by_cases hz : pushOffset d etag S.length = 0
        · exact Or.inl hz
        · refine Or.inr ⟨p, hp, h0.symm, ?_⟩
          rw [List.take_left' hbl]
          unfold base
          rw [if_neg hz, hp]
          rfl
  | @complete _ p h0 hp h1 _ =>
    have hlen : p.length = S.length := by
      have hpos : 0 < S.length := List.length_pos_iff.2 hS
      unfold pushOffset at h0
      rw [hp] at h0
      simp only at h0
      split at h0
      · omega
      · exact h0
    exact Or.inr ⟨p, S.length, h1, hlen, Nat.le_refl _, by rw [List.drop_of_length_le (by omega), List.drop_of_length_le (by omega)],
      Or.inr ⟨p, hp, hlen, List.take_of_length_le (by omega)⟩⟩

/-- **C141** On every filesystem, whatever a loss has made of the partial and the sidecar: a committed file is never touched; and when a push returns nil, or is killed, what it has committed has the
length of the file, and consists of the partial it found (or nothing) followed by the rest of the file. So it can only be wrong where the partial was. -/
theorem C141_patched_partial {S : Bytes} (hS : S ≠ []) (d : Disk) (e : Env) (info : Info) (lcl : Nat → List Bytes × End) (hl : Reads S lcl) :
    (d.target ≠ none → crashes (push e info S.length lcl) d = [] ∧ final (push e info S.length lcl) d = d) ∧
    (d.target = none → (∀ t ∈ crashes (push e info S.length lcl) d, Patched S d t.target) ∧ Patched S d (final (push e info S.length lcl) d).target ∧
      (result (push e info S.length lcl) d = .ok () → (final (push e info S.length lcl) d).target ≠ none)) := by
  constructor
  · intro ht
    obtain ⟨t, ht⟩ := Option.ne_none_iff_exists'.1 ht
    have h := (holds_push_existing e info S.length lcl d t ht) d rfl
    refine ⟨List.eq_nil_iff_forall_not_mem.2 (fun x hx => h.1 x hx), h.2⟩
  · intro ht
    have h := (holds_push e info S.length lcl d ht) d rfl
    exact ⟨fun t hm => pushing_patched hS hl ht (h.1 t hm), pushing_patched hS hl ht h.2.1, h.2.2.1⟩

/-- **C141** A push that returns nil and found no partial, or one of another version (by the ETags), or one longer than the file, has committed the file, on every filesystem. -/
theorem C141_restarted {S : Bytes} (hS : S ≠ []) (d : Disk) (ht : d.target = none) (e : Env) (info : Info) (lcl : Nat → List Bytes × End) (hl : Reads S lcl)
    (hp : d.part = none ∨ (∃ p, d.part = some p ∧ S.length < p.length) ∨ (sideTag d ≠ [] ∧ info.etag ≠ [] ∧ sideTag d ≠ info.etag))
    (hok : result (push e info S.length lcl) d = .ok ()) : (final (push e info S.length lcl) d).target = some S := by
  have h := (holds_push e info S.length lcl d ht) d rfl
  have h0 : pushOffset d info.etag S.length = 0 := by
    unfold pushOffset
    rcases hp with hp | ⟨p, hp, hlt⟩ | hp
    · rw [hp]
    · rw [hp]; simp only; rw [if_pos (Or.inl hlt)]
    · split
      · rfl
      · rw [if_pos (Or.inr hp)]
  have hne := h.2.2.1 hok
  have hpos : 0 < S.length := List.length_pos_iff.2 hS
  generalize hD : (push e info S.length lcl d).2.1 = D at h hne
  have hfin : final (push e info S.length lcl) d = D := hD
  rw [hfin]
  rcases h.2.1 with _ | ⟨_, h⟩ | ⟨_, hend, h1, _⟩ | ⟨h2, _⟩
  · exact absurd ht hne
  · exact absurd (by rw [h.1]; exact ht) hne
  · rw [h1, (hl _).2 hend, h0]
    simp [base]
  · omega

/-! ### Non-vacuity and failures -/

/-- A push killed after two bytes, a loss that leaves one of them, a push that commits, a loss that undoes the rename and loses a byte, and a push. -/
example : ∃ d, PushHistory [1, 2, 3] ⟨none, none, none⟩ d ∧ d = ⟨none, some [1, 2], none⟩ ∧
    (final (push quietEnv ⟨['a'], some 3⟩ 3 (demoLocal [1, 2, 3] 9)) d).target = some [1, 2, 3] := by
  refine ⟨_, ?_, rfl, by decide⟩
  have h1 : PushHistory [1, 2, 3] ⟨none, none, none⟩ (final (push quietEnv ⟨['a'], none⟩ 3 (demoLocal [1, 2, 3] 2)) ⟨none, none, none⟩) :=
    .returned .start (demo_reads _ _)
  have h2 : PushHistory [1, 2, 3] ⟨none, none, none⟩ ⟨none, some [1], some ['z']⟩ := .lost h1 ⟨Or.inl rfl, by
    intro p' hp'; cases hp'
    exact ⟨[1, 2], Or.inl (by decide), by decide⟩⟩
  have h3 : PushHistory [1, 2, 3] ⟨none, none, none⟩ (final (push quietEnv ⟨['a'], none⟩ 3 (demoLocal [1, 2, 3] 9)) ⟨none, some [1], some ['z']⟩) :=
    .returned h2 (demo_reads _ _)
  exact .lost h3 ⟨Or.inl rfl, by
    intro p' hp'; cases hp'
    exact ⟨[1, 2, 3], Or.inr (by decide), by decide⟩⟩

example : ∀ off, (demoLocal [1, 2, 3] 9 off).2 = .eof := by
  intro off
  unfold demoLocal
  simp only
  rw [if_pos (by show 3 ≤ off + 9; omega)]

example : result (push quietEnv ⟨['a'], some 3⟩ 3 (demoLocal [1, 2, 3] 9)) ⟨none, some [9, 9], some ['b']⟩ = .ok () := rfl

/-- **C141** fails where a file's length reaches the disk before its bytes: the first push sent two bytes and was interrupted; after the loss the part file has its length but zeros in it. The next
push resumes behind them and returns nil; the ETag in the sidecar is the right one. -/
theorem C141_counterexample_part :
    let d1 := final (push quietEnv ⟨['a'], some 3⟩ 3 (demoLocal [1, 2, 3] 2)) ⟨none, none, none⟩
    d1 = ⟨none, some [1, 2], some ['a']⟩ ∧
    (result (push quietEnv ⟨['a'], some 3⟩ 3 (demoLocal [1, 2, 3] 9)) { d1 with part := some [0, 0] }).toOption = some () ∧
    (final (push quietEnv ⟨['a'], some 3⟩ 3 (demoLocal [1, 2, 3] 9)) { d1 with part := some [0, 0] }).target = some [0, 0, 3] := by decide

/-- **C141** fails where the rename reaches the disk before the bytes: the push returned nil, after the loss the committed file is empty, and the sink reports it as complete, so every further push
returns nil and sends nothing. -/
theorem C141_counterexample_committed :
    let d1 := final (push quietEnv ⟨['a'], some 3⟩ 3 (demoLocal [1, 2, 3] 9)) ⟨none, none, none⟩
    d1 = ⟨some [1, 2, 3], none, none⟩ ∧
    (result (push quietEnv ⟨['a'], some 3⟩ 3 (demoLocal [1, 2, 3] 9)) { d1 with target := some [] }).toOption = some () ∧
    (final (push quietEnv ⟨['a'], some 3⟩ 3 (demoLocal [1, 2, 3] 9)) { d1 with target := some [] }).target = some [] := by decide

/-- What a push that returned nil has committed may be gone after a loss, also where only the end of files is lost: nothing was flushed. -/
theorem C141_counterexample_gone : ∃ d, PushHistory [1, 2, 3] ⟨none, none, none⟩ d ∧ d.target = some [1, 2, 3] ∧
    ∃ d', EndsLost d d' ∧ d' = ⟨none, none, none⟩ :=
  ⟨_, .returned (e := quietEnv) (info := ⟨['a'], some 3⟩) (lcl := demoLocal [1, 2, 3] 9) .start (demo_reads _ _), by decide,
    ⟨none, none, none⟩, ⟨Or.inl rfl, by intro p hp; cases hp⟩, rfl⟩

end Verif.Fsutil.Pull
