import Verif.Synth.DirPage
/-
C50: rewinding and closing an open directory, /repo/vroot/synthfs/handle_dir.go 34-47 and 75-141.
-/
namespace Verif.Synth.DirSeek
open Verif Verif.Synth.DirPage

/-! ### Model -/

/-- handle_dir.go 17-25 `dirHandle`, without its node: what the node lists comes with each call. -/
structure Handle where
  closed : Bool
  cursor : Nat
deriving DecidableEq

/-- io: the three values of `whence` that mean something, and every other. -/
inductive Whence where
  | start | current | fromEnd | other
deriving DecidableEq

inductive Op where
  | read (n : Int)
  | seek (offset : Int) (w : Whence)
  | close
deriving DecidableEq

inductive Ans (α : Type) where
  | page (p : Page α)
  | refused
  | done (position : Nat)
deriving DecidableEq

/-- handle_dir.go 77-112 `Seek`; `len` is the number of entries at the time of the call. The error texts are left out. -/
def seek (h : Handle) (len : Nat) (offset : Int) (w : Whence) : Handle × Option Nat :=
  match w with
  | .start => if offset < 0 then (h, none) else ({ h with cursor := 0 }, some 0)
  | .current => if offset ≠ 0 then (h, none) else (h, some 0)
  | .fromEnd => if 0 < offset then (h, none) else ({ h with cursor := len }, some 0)
  | .other => (h, none)

/-- handle_dir.go 34-47 `Close`, 77-112 `Seek`, 118-141 `readEntries` with the check for a closed handle. The count of open handles is in OpenGuard.lean. -/
def step {α : Type} (all : List α) (h : Handle) : Op → Handle × Ans α
  | .read n => if h.closed then (h, .refused) else ({ h with cursor := (readEntries all h.cursor n).2 }, .page (readEntries all h.cursor n).1)
  | .seek offset w => ((seek h all.length offset w).1, match (seek h all.length offset w).2 with | some p => .done p | none => .refused)
  | .close => ({ h with closed := true }, .done 0)

/-- Calls one after the other, each with what the directory lists at that moment. -/
def run {α : Type} : Handle → List (List α × Op) → Handle × List (Ans α)
  | h, [] => (h, [])
  | h, (all, o) :: rest => ((run (step all h o).1 rest).1, (step all h o).2 :: (run (step all h o).1 rest).2)

/-- A handle as Open returns it. -/
def fresh : Handle := ⟨false, 0⟩

/-! ### Specification -/

/-- What a reader of a directory that does not change should see: `rest` is what is still to come. -/
structure Reader (α : Type) where
  isOpen : Bool
  rest : List α

/-- One call, as the documentation of `Seek` has it: a rewind starts the listing again, going to the end leaves nothing to come, nothing else moves. -/
def Reader.call {α : Type} (all : List α) (r : Reader α) : Op → Reader α × Ans α
  | .close => (⟨false, r.rest⟩, .done 0)
  | .read n => if r.isOpen then (⟨true, if n ≤ 0 then [] else r.rest.drop n.toNat⟩, .page (shouldAnswer r.rest n)) else (r, .refused)
  | .seek offset .start => if 0 ≤ offset then (⟨r.isOpen, all⟩, .done 0) else (r, .refused)
  | .seek offset .current => if offset = 0 then (r, .done 0) else (r, .refused)
  | .seek offset .fromEnd => if offset ≤ 0 then (⟨r.isOpen, []⟩, .done 0) else (r, .refused)
  | .seek _ .other => (r, .refused)

def Reader.calls {α : Type} (all : List α) : Reader α → List Op → List (Ans α)
  | _, [] => []
  | r, o :: rest => (r.call all o).2 :: Reader.calls all (r.call all o).1 rest

/-- Batch sizes for which no sum overflows. -/
def SaneOps (len : Nat) (ops : List Op) : Prop := ∀ n, Op.read n ∈ ops → (len : Int) + n ≤ maxInt64 ∧ -maxInt64 ≤ n

/-! ### Lemmas -/

theorem take_len {α : Type} {all : List α} {c : Nat} (h : c ≤ all.length) : (all.take c).length = c := by simp; omega

theorem run_append {α : Type} : ∀ (a b : List (List α × Op)) (h : Handle), run h (a ++ b) = ((run (run h a).1 b).1, (run h a).2 ++ (run (run h a).1 b).2) := by
  intro a
  induction a with
  | nil => intro b h; rfl
  | cons x a ih => intro b h; obtain ⟨l, o⟩ := x; simp only [List.cons_append, run, ih]

theorem read_step {α : Type} {all : List α} {c : Nat} (hc : c ≤ all.length) {n : Int} (h1 : (all.length : Int) + n ≤ maxInt64) (h2 : -maxInt64 ≤ n) :
    (readEntries all c n).1 = shouldAnswer (all.drop c) n ∧ (readEntries all c n).2 ≤ all.length ∧
    all.drop (readEntries all c n).2 = if n ≤ 0 then [] else (all.drop c).drop n.toNat := by
  have := read_answer (all := all) (D := all.take c) (R := all.drop c) (List.take_append_drop _ _).symm h1 h2
  rw [take_len hc] at this
  refine ⟨this.1, ?_, ?_⟩
  · rw [this.2]
    have hl : (all.drop c).length = all.length - c := List.length_drop
    unfold shouldAnswer
    split
    · simp only [Page.items]; omega
    · split
      · simp only [Page.items, List.length_nil]; omega
      · simp only [Page.items, List.length_take]; omega
  · rw [this.2]
    have hl : (all.drop c).length = all.length - c := List.length_drop
    unfold shouldAnswer
    split
    · simp only [Page.items]
      exact List.drop_of_length_le (by omega)
    · split
      · rename_i he
        rw [he]
        simp only [Page.items, List.length_nil, Nat.add_zero, he, List.drop_nil]
      · simp only [Page.items, List.length_take]
        rw [List.drop_drop]
        by_cases hn : n.toNat ≤ (all.drop c).length
        · rw [Nat.min_eq_left hn]
        · rw [Nat.min_eq_right (by omega), List.drop_of_length_le (by omega), List.drop_of_length_le (by omega)]

theorem follows {α : Type} (all : List α) : ∀ (ops : List Op) (h : Handle), SaneOps all.length ops → h.cursor ≤ all.length →
    (run h (ops.map fun o => (all, o))).2 = Reader.calls all ⟨!h.closed, all.drop h.cursor⟩ ops := by
  intro ops
  induction ops with
  | nil => intro h _ _; rfl
  | cons o ops ih =>
    intro h hs hc
    have hs' : SaneOps all.length ops := fun n hn => hs n (List.mem_cons_of_mem _ hn)
    obtain ⟨cl, c⟩ := h
    simp only at hc
    simp only [List.map_cons, run, Reader.calls]
    cases o with
    | close =>
      simp only [step, Reader.call]
      rw [ih ⟨true, c⟩ hs' hc]
      rfl
    | read n =>
      have hn := hs n (List.mem_cons_self ..)
      obtain ⟨e1, e2, e3⟩ := read_step hc hn.1 hn.2
      cases cl with
      | true =>
        simp only [step, Reader.call, if_true]
        rw [ih ⟨true, c⟩ hs' hc]
        rfl
      | false =>
        simp only [step, Reader.call, Bool.not_false, if_true, if_neg Bool.false_ne_true]
        rw [ih ⟨false, _⟩ hs' e2, e1, e3]
        rfl
    | seek offset w =>
      cases w with
      | start =>
        by_cases ho : offset < 0
        · simp only [step, seek, Reader.call, if_pos ho, if_neg (show ¬0 ≤ offset by omega)]
          rw [ih ⟨cl, c⟩ hs' hc]
        · simp only [step, seek, Reader.call, if_neg ho, if_pos (show 0 ≤ offset by omega)]
          rw [ih ⟨cl, 0⟩ hs' (Nat.zero_le _)]
          rfl
      | current =>
        by_cases ho : offset = 0
        · simp only [step, seek, Reader.call, ho, if_true, ne_eq, not_true, if_false]
          rw [ih ⟨cl, c⟩ hs' hc]
        · simp only [step, seek, Reader.call, ho, ne_eq, not_false_eq_true, if_true, if_false]
          rw [ih ⟨cl, c⟩ hs' hc]
      | fromEnd =>
        by_cases ho : 0 < offset
        · simp only [step, seek, Reader.call, if_pos ho, if_neg (show ¬offset ≤ 0 by omega)]
          rw [ih ⟨cl, c⟩ hs' hc]
        · simp only [step, seek, Reader.call, if_neg ho, if_pos (show offset ≤ 0 by omega)]
          rw [ih ⟨cl, all.length⟩ hs' (Nat.le_refl _)]
          simp only [List.drop_length]
      | other =>
        simp only [step, seek, Reader.call]
        rw [ih ⟨cl, c⟩ hs' hc]

/-! ### Property C50 -/

/-- **C50** (rewinding an unchanged directory). Every sequence of ReadDir, Seek and Close on a handle is answered as a reader would expect: pages go on where the last one
ended, a rewind starts again at the first entry, going to the end leaves nothing, a refused Seek moves nothing, and a closed handle lists nothing.
Missing from C50: huge batch sizes (`SaneOps`). -/
theorem C50_seek_partial {α : Type} (all : List α) (ops : List Op) (hs : SaneOps all.length ops) :
    (run fresh (ops.map fun o => (all, o))).2 = Reader.calls all ⟨true, all⟩ ops :=
  follows all ops fresh hs (Nat.zero_le _)

/-- The reads of a history, and the answers of an open handle to them. -/
theorem reads_only {α : Type} : ∀ (hist : List (List α × Int)) (c : Nat),
    (run ⟨false, c⟩ (hist.map fun x => (x.1, Op.read x.2))).2 = (pages c hist).1.map Ans.page := by
  intro hist
  induction hist with
  | nil => intro c; rfl
  | cons x hist ih =>
    intro c
    obtain ⟨l, n⟩ := x
    simp only [List.map_cons, run, step, pages, if_neg Bool.false_ne_true]
    rw [ih]

theorem open_stays {α : Type} : ∀ (before : List (List α × Op)) (h : Handle), h.closed = false → (∀ x ∈ before, x.2 ≠ .close) → (run h before).1.closed = false := by
  intro before
  induction before with
  | nil => intro h hc _; exact hc
  | cons x before ih =>
    intro h hc hno
    obtain ⟨l, o⟩ := x
    refine ih _ ?_ (fun y hy => hno y (List.mem_cons_of_mem _ hy))
    cases o with
    | close => exact absurd rfl (hno _ (List.mem_cons_self ..))
    | read n => simp only [step]; split <;> exact hc
    | seek offset w =>
      cases w <;> simp only [step, seek]
      · split <;> exact hc
      · split <;> exact hc
      · split <;> exact hc
      · exact hc

/-- **C50** (rewind). Whatever was done with an open handle and however the directory changed meanwhile, after a Seek to the start the reads are answered as by a handle
opened then. -/
theorem C50_rewind {α : Type} (before : List (List α × Op)) (hno : ∀ x ∈ before, x.2 ≠ .close) (now : List α) (offset : Int) (ho : 0 ≤ offset) (hist : List (List α × Int)) :
    (run fresh (before ++ (now, .seek offset .start) :: hist.map fun x => (x.1, Op.read x.2))).2 =
      (run fresh before).2 ++ .done 0 :: (run fresh (hist.map fun x => (x.1, Op.read x.2))).2 := by
  rw [run_append]
  have hopen := open_stays before fresh rfl hno
  simp only [run, step, seek, if_neg (show ¬offset < 0 by omega)]
  rw [hopen, show fresh = (⟨false, 0⟩ : Handle) from rfl, reads_only]

/-- **C50** (going to the end). After a Seek to the end, an open handle delivers exactly the entries added since, the directory keeping those it had. -/
theorem C50_end_partial {α : Type} (before : List (List α × Op)) (hno : ∀ x ∈ before, x.2 ≠ .close) (now added : List α) (offset : Int) (ho : offset ≤ 0) (n : Int)
    (h1 : ((now ++ added).length : Int) + n ≤ maxInt64) (h2 : -maxInt64 ≤ n) :
    (run fresh (before ++ [(now, .seek offset .fromEnd), (now ++ added, .read n)])).2 = (run fresh before).2 ++ [.done 0, .page (shouldAnswer added n)] := by
  rw [run_append]
  have hopen := open_stays before fresh rfl hno
  have := read_step (all := now ++ added) (c := now.length) (by simp) h1 h2
  simp only [run, step, seek, if_neg (show ¬0 < offset by omega), hopen, if_neg Bool.false_ne_true]
  rw [this.1]
  simp

/-- **C50** (closed). Once closed, however it was used before and is used after, a handle delivers no entry. -/
theorem C50_closed {α : Type} (before after : List (List α × Op)) (l : List α) :
    ∀ a ∈ (run (run fresh (before ++ [(l, .close)])).1 after).2, ∀ p, a ≠ .page p := by
  have hcl : (run fresh (before ++ [(l, Op.close)])).1.closed = true := by rw [run_append]; rfl
  have key : ∀ (after : List (List α × Op)) (h : Handle), h.closed = true → ∀ a ∈ (run h after).2, ∀ p, a ≠ .page p := by
    intro after
    induction after with
    | nil => intro h _ a ha; cases ha
    | cons x after ih =>
      intro h hc a ha
      obtain ⟨l, o⟩ := x
      have hstep : (step l h o).1.closed = true ∧ ∀ p, (step l h o).2 ≠ .page p := by
        cases o with
        | close => exact ⟨rfl, fun p e => by cases e⟩
        | read n => simp only [step, if_pos hc]; exact ⟨hc, fun p e => by cases e⟩
        | seek offset w =>
          cases w <;> simp only [step, seek]
          · split
            · exact ⟨hc, fun p e => by cases e⟩
            · exact ⟨hc, fun p e => by cases e⟩
          · split
            · exact ⟨hc, fun p e => by cases e⟩
            · exact ⟨hc, fun p e => by cases e⟩
          · split
            · exact ⟨hc, fun p e => by cases e⟩
            · exact ⟨hc, fun p e => by cases e⟩
          · exact ⟨hc, fun p e => by cases e⟩
      rcases List.mem_cons.1 ha with rfl | ha
      · exact hstep.2
      · exact ih _ hstep.1 a ha
  exact key after _ hcl

/-- Two pages, a rewind, a page, the end, a refused move, a close: a case of `C50_seek_partial`. -/
example : (run fresh ([Op.read 2, .seek 0 .start, .read 1, .seek 3 .current, .read 1, .seek 0 .fromEnd, .read 1, .close, .read 1].map fun o => ([10, 11, 12], o))).2 =
    [.page (.entries [10, 11]), .done 0, .page (.entries [10]), .refused, .page (.entries [11]), .done 0, .page .eof, .done 0, .refused] := by decide

example : SaneOps 3 [Op.read 2, .seek 0 .start, .read 1, .close] := by
  intro n hn
  simp at hn
  rcases hn with rfl | rfl <;> simp [maxInt64]

/-- A Seek to a position is not one: to go to entry 2 is answered without an error and goes to entry 0; and asking for the position always answers 0. -/
theorem C50_note_seek_position :
    (run fresh ([Op.seek 2 .start, .read 1, .seek 0 .current].map fun o => ([10, 11, 12], o))).2 = [.done 0, .page (.entries [10]), .done 0] := by decide

end Verif.Synth.DirSeek
