import Verif.Common.Bytes
import Verif.Common.Str
/-
C140: the wrapper that records calls, /repo/aferofs/observable.go 13-69 and the methods generated for it
(/repo/aferofs/observable.observablefs.generate.go, observable.observablefile.generate.go: each one records the call, makes it, records the answer).
Used by several goroutines at once.

The filesystem below is any function of a state and of the memory of the program (buffers are passed by reference); one call of it is one step.
Simplifications: an answer is a number; timestamps are left out (they are taken under the mutex, line 28-31, so they are in the order of the
entries if the clock does not go back). `beforeEach` and `afterEach` return nil (46-54, 61-69), so the early returns of the generated
methods are never taken.
-/
namespace Verif.Afero.Observable

/-- The memory of the program: the contents of its buffers. -/
abbrev Mem := Nat → Bytes

/-- An argument: a value, or a buffer. -/
inductive Arg where
  | val (n : Nat) | buf (addr : Nat)
  deriving DecidableEq, Repr

/-- A call: on the filesystem, or on a file that was opened. -/
structure Call where
  file : Option Nat
  method : Str
  args : List Arg
  deriving DecidableEq, Repr

/-- What lies below. -/
abbrev Inner (σ : Type) := Call → σ × Mem → (σ × Mem) × Nat

/-- observable.go 13-19 `ObservableFsHistory` -/
structure Entry where
  isFsys : Bool
  isBefore : Bool
  method : Str
  args : List Arg
  deriving DecidableEq, Repr

/-- Where a goroutine is in a call. -/
inductive Phase where
  | idle | entered (c : Call) | answered (c : Call) (r : Nat)
  deriving DecidableEq, Repr

/-- What happened, for the statements only. -/
inductive Ev where
  | before (i : Nat) (c : Call) | effect (i : Nat) (c : Call) (r : Nat) | after (i : Nat) (c : Call) (r : Nat) | wrote (addr : Nat) (b : Bytes)
  deriving DecidableEq, Repr

structure World (σ : Type) where
  below : σ
  mem : Mem
  history : List Entry
  at_ : Nat → Phase
  trace : List Ev

/-- observable.go 27-37 `recordOp`: under the mutex. The slice of arguments is copied, the buffers in it are not. -/
def recordOp (isFsys isBefore : Bool) (method : Str) (args : List Arg) (h : List Entry) : List Entry := h ++ [⟨isFsys, isBefore, method, args⟩]

def setAt (f : Nat → Phase) (i : Nat) (p : Phase) : Nat → Phase := fun j => if j = i then p else f j

/-- What may happen next: goroutine `i` goes on (with this call, if it is in none), or the program writes to one of its buffers. -/
inductive Move where
  | go (i : Nat) (c : Call) | write (addr : Nat) (b : Bytes)

/-- One step of a generated method (observable.observablefile.generate.go 8-19 and the like): `beforeEach`, the call, `afterEach`. -/
def step {σ : Type} (inner : Inner σ) : Move → World σ → World σ
  | .go i c, w => match w.at_ i with
    | .idle => { w with history := recordOp c.file.isNone true c.method c.args w.history, at_ := setAt w.at_ i (.entered c),
                        trace := w.trace ++ [.before i c] }
    | .entered c => let a := inner c (w.below, w.mem)
      { w with below := a.1.1, mem := a.1.2, at_ := setAt w.at_ i (.answered c a.2), trace := w.trace ++ [.effect i c a.2] }
    | .answered c r => { w with history := recordOp c.file.isNone false c.method [.val r] w.history, at_ := setAt w.at_ i .idle,
                                trace := w.trace ++ [.after i c r] }
  | .write addr b, w => { w with mem := fun a => if a = addr then b else w.mem a, trace := w.trace ++ [.wrote addr b] }

def run {σ : Type} (inner : Inner σ) : List Move → World σ → World σ
  | [], w => w
  | m :: ms, w => run inner ms (step inner m w)

/-- Before the first call. -/
def begin_ {σ : Type} (s : σ) (m : Mem) : World σ := ⟨s, m, [], fun _ => .idle, []⟩

/-! ### specification -/

/-- The goroutine an event belongs to. -/
def Ev.who : Ev → Option Nat
  | .before i _ | .effect i _ _ | .after i _ _ => some i
  | .wrote _ _ => none

/-- The entry an event should leave in the history. -/
def Ev.entry : Ev → Option Entry
  | .before _ c => some ⟨c.file.isNone, true, c.method, c.args⟩
  | .after _ c r => some ⟨c.file.isNone, false, c.method, [.val r]⟩
  | _ => none

/-- The same calls made directly on what lies below, in the order in which they took effect; `none` if an answer is another one. -/
def direct {σ : Type} (inner : Inner σ) : List Ev → σ × Mem → Option (σ × Mem)
  | [], s => some s
  | .effect _ c r :: es, s => if (inner c s).2 = r then direct inner es (inner c s).1 else none
  | .wrote addr b :: es, s => direct inner es (s.1, fun a => if a = addr then b else s.2 a)
  | _ :: es, s => direct inner es s

/-- The last event of goroutine `i`. -/
def lastOf (i : Nat) (t : List Ev) : Option Ev := (t.filter (fun e => e.who = some i)).getLast?

theorem lastOf_append_self {i : Nat} {t : List Ev} {e : Ev} (h : e.who = some i) : lastOf i (t ++ [e]) = some e := by
  simp [lastOf, List.filter_append, h]

theorem lastOf_append_other {i : Nat} {t : List Ev} {e : Ev} (h : e.who ≠ some i) : lastOf i (t ++ [e]) = lastOf i t := by
  simp [lastOf, List.filter_append, h]

theorem direct_append {σ : Type} (inner : Inner σ) : ∀ (t u : List Ev) (s : σ × Mem),
    direct inner (t ++ u) s = (direct inner t s).bind (direct inner u) := by
  intro t
  induction t with
  | nil => intro u s; rfl
  | cons e t ih =>
    intro u s
    cases e with
    | effect i c r =>
      show (if _ then _ else _) = Option.bind (if _ then _ else _) _
      split
      · exact ih _ _
      · rfl
    | before i c => exact ih _ _
    | after i c r => exact ih _ _
    | wrote a b => exact ih _ _

/-- The order of the events of each goroutine, at the end of the trace. -/
def Next (t : List Ev) : Ev → Prop
  | .before i _ => lastOf i t = none ∨ ∃ c r, lastOf i t = some (.after i c r)
  | .effect i c _ => lastOf i t = some (.before i c)
  | .after i c r => lastOf i t = some (.effect i c r)
  | .wrote _ _ => True

/-- What the phase of a goroutine says about its last event. -/
def Fits (i : Nat) (t : List Ev) : Phase → Prop
  | .idle => lastOf i t = none ∨ ∃ c r, lastOf i t = some (.after i c r)
  | .entered c => lastOf i t = some (.before i c)
  | .answered c r => lastOf i t = some (.effect i c r)

structure Inv {σ : Type} (inner : Inner σ) (s : σ) (m : Mem) (w : World σ) : Prop where
  hist : w.history = w.trace.filterMap Ev.entry
  state : direct inner w.trace (s, m) = some (w.below, w.mem)
  order : ∀ t e u, w.trace = t ++ e :: u → Next t e
  phase : ∀ i, Fits i w.trace (w.at_ i)

theorem order_snoc {tr : List Ev} {e : Ev} (h : ∀ t x u, tr = t ++ x :: u → Next t x) (he : Next tr e) :
    ∀ t x u, tr ++ [e] = t ++ x :: u → Next t x := by
  intro t x u htr
  rcases List.eq_nil_or_concat u with rfl | ⟨u', y, rfl⟩
  · obtain ⟨h1, h2⟩ := List.append_inj' htr rfl
    cases h2; rw [← h1]; exact he
  · rw [List.concat_eq_append] at htr
    have : tr ++ [e] = (t ++ x :: u') ++ [y] := by rw [htr]; simp
    obtain ⟨h1, _⟩ := List.append_inj' this rfl
    exact h t x u' h1

theorem phase_snoc {tr : List Ev} {at_ : Nat → Phase} {i : Nat} {e : Ev} {p : Phase} (h : ∀ j, Fits j tr (at_ j)) (hw : e.who = some i)
    (hp : Fits i (tr ++ [e]) p) : ∀ j, Fits j (tr ++ [e]) (setAt at_ i p j) := by
  intro j
  by_cases hj : j = i
  · subst hj
    simpa [setAt] using hp
  · have := h j
    simp only [setAt, if_neg hj]
    have hl : lastOf j (tr ++ [e]) = lastOf j tr := lastOf_append_other (by rw [hw]; simpa using fun h => hj h.symm)
    unfold Fits at this ⊢
    rw [hl]; exact this

theorem inv_step {σ : Type} {inner : Inner σ} {s : σ} {m : Mem} {w : World σ} (h : Inv inner s m w) (mv : Move) : Inv inner s m (step inner mv w) := by
  cases mv with
  | go i c =>
    have hph := h.phase i
    simp only [step]
    split
    · rename_i hp
      rw [hp] at hph
      refine ⟨?_, ?_, order_snoc h.order hph, phase_snoc h.phase rfl (lastOf_append_self rfl)⟩
      · simp [recordOp, h.hist, List.filterMap_append, Ev.entry]
      · rw [direct_append, h.state]; rfl
    · rename_i c' hp
      rw [hp] at hph
      refine ⟨?_, ?_, order_snoc h.order hph, phase_snoc h.phase rfl (lastOf_append_self rfl)⟩
      · simp [h.hist, List.filterMap_append, Ev.entry]
      · rw [direct_append, h.state]
        simp [direct]
    · rename_i c' r hp
      rw [hp] at hph
      refine ⟨?_, ?_, order_snoc h.order hph, phase_snoc h.phase rfl (Or.inr ⟨c', r, lastOf_append_self rfl⟩)⟩
      · simp [recordOp, h.hist, List.filterMap_append, Ev.entry]
      · rw [direct_append, h.state]; rfl
  | write a b =>
    refine ⟨?_, ?_, order_snoc h.order trivial, ?_⟩
    · simp [step, h.hist, List.filterMap_append, Ev.entry]
    · rw [step, direct_append, h.state]; rfl
    · intro j
      have := h.phase j
      have hl : lastOf j (w.trace ++ [.wrote a b]) = lastOf j w.trace := lastOf_append_other (by simp [Ev.who])
      show Fits j (w.trace ++ [.wrote a b]) (w.at_ j)
      unfold Fits at this ⊢
      rw [hl]; exact this

theorem inv_run {σ : Type} {inner : Inner σ} {s : σ} {m : Mem} : ∀ (ms : List Move) (w : World σ), Inv inner s m w → Inv inner s m (run inner ms w)
  | [], _, h => h
  | mv :: ms, _, h => inv_run ms _ (inv_step h mv)

theorem inv_begin {σ : Type} (inner : Inner σ) (s : σ) (m : Mem) : Inv inner s m (begin_ s m) :=
  ⟨rfl, rfl, fun t e u h => (by cases t <;> cases h), fun _ => Or.inl rfl⟩

/-- **C140** The wrapper changes nothing: for every filesystem, program and schedule, what lies below, the memory and every answer are those of
the same calls made directly, in the order in which they took effect. -/
theorem C140_transparent {σ : Type} (inner : Inner σ) (s : σ) (m : Mem) (ms : List Move) :
    direct inner (run inner ms (begin_ s m)).trace (s, m) = some ((run inner ms (begin_ s m)).below, (run inner ms (begin_ s m)).mem) :=
  (inv_run ms _ (inv_begin inner s m)).state

/-- **C140** The history has exactly one entry for every beginning and one for every end of a call, in the order in which they happened.
Missing from C140: the entry does not say which file (`C140_counterexample_which_file`) and which goroutine (`C140_counterexample_whose`) it
belongs to, and shows the bytes that are in the buffer later (`C140_counterexample_buffers`). -/
theorem C140_complete_partial {σ : Type} (inner : Inner σ) (s : σ) (m : Mem) (ms : List Move) :
    (run inner ms (begin_ s m)).history = (run inner ms (begin_ s m)).trace.filterMap Ev.entry :=
  (inv_run ms _ (inv_begin inner s m)).hist

theorem lastOf_split {i : Nat} {e : Ev} : ∀ {t : List Ev}, lastOf i t = some e →
    ∃ a b, t = a ++ e :: b ∧ ∀ x ∈ b, x.who ≠ some i := by
  intro t h
  have key : ∀ (n : Nat) (t : List Ev), t.length = n → lastOf i t = some e → ∃ a b, t = a ++ e :: b ∧ ∀ x ∈ b, x.who ≠ some i := by
    intro n
    induction n with
    | zero => intro t ht h; cases t with
      | nil => cases h
      | cons _ _ => cases ht
    | succ n ih =>
      intro t ht h
      rcases List.eq_nil_or_concat t with rfl | ⟨t', y, rfl⟩
      · cases ht
      · rw [List.concat_eq_append] at h ht ⊢
        by_cases hy : y.who = some i
        · rw [lastOf_append_self hy] at h
          cases h
          exact ⟨t', [], rfl, fun x hx => (by cases hx)⟩
        · rw [lastOf_append_other hy] at h
          obtain ⟨a, b, hab, hb⟩ := ih t' (by simpa using ht) h
          refine ⟨a, b ++ [y], by rw [hab]; simp, fun x hx => ?_⟩
          rcases List.mem_append.1 hx with hx | hx
          · exact hb x hx
          · simp only [List.mem_singleton] at hx; rw [hx]; exact hy
  exact key _ t rfl h

/-- **C140** Every call takes effect between its two entries, whatever the other goroutines do: before the end of a call is recorded it took
effect, with the answer recorded, and before that its beginning was recorded; the same goroutine did nothing in between. So a call whose end is
recorded before the beginning of another one took effect before it. -/
theorem C140_bracketed {σ : Type} (inner : Inner σ) (s : σ) (m : Mem) (ms : List Move) (i : Nat) (c : Call) (r : Nat) (t u : List Ev)
    (h : (run inner ms (begin_ s m)).trace = t ++ .after i c r :: u) :
    ∃ t1 t2 t3, t = t1 ++ .before i c :: t2 ++ .effect i c r :: t3 ∧ ∀ x ∈ t2 ++ t3, x.who ≠ some i := by
  have hi := (inv_run ms _ (inv_begin inner s m)).order
  obtain ⟨a, t3, hat, h3⟩ := lastOf_split (hi t _ u h)
  have he := hi a (.effect i c r) (t3 ++ .after i c r :: u) (by rw [h, hat]; simp)
  obtain ⟨t1, t2, hab, h2⟩ := lastOf_split he
  refine ⟨t1, t2, t3, by rw [hat, hab], fun x hx => ?_⟩
  rcases List.mem_append.1 hx with hx | hx
  · exact h2 x hx
  · exact h3 x hx

/-! ### what the history does not say -/

/-- A filesystem of two files of one number each: `Write` of a number, `Read` into a buffer. -/
def twoFiles : Inner (Nat × Nat) := fun c s => match c.file, c.args with
  | some 0, [.val n] => (((n, s.1.2), s.2), 1)
  | some 1, [.val n] => (((s.1.1, n), s.2), 1)
  | some 0, [.buf a] => ((s.1, fun b => if b = a then [UInt8.ofNat s.1.1] else s.2 b), 1)
  | _, _ => (s, 0)

/-- What an entry of the history shows of its buffers when it is looked at now. -/
def Entry.shown (mem : Mem) (e : Entry) : List Bytes := e.args.filterMap (fun a => match a with | .buf p => some (mem p) | .val _ => none)

/-- **C140 fails** for the question which file was meant: an entry of a file's method does not say which file it was. Two programs leave the same
history and different contents. -/
theorem C140_counterexample_which_file :
    ∃ (ms ms' : List Move), (run twoFiles ms (begin_ (0, 0) fun _ => [])).history = (run twoFiles ms' (begin_ (0, 0) fun _ => [])).history ∧
      (run twoFiles ms (begin_ (0, 0) fun _ => [])).below = (7, 0) ∧ (run twoFiles ms' (begin_ (0, 0) fun _ => [])).below = (0, 7) := by
  let w (f : Nat) : Call := ⟨some f, ['W'], [.val 7]⟩
  exact ⟨[.go 0 (w 0), .go 0 (w 0), .go 0 (w 0)], [.go 0 (w 1), .go 0 (w 1), .go 0 (w 1)], by decide, by decide, by decide⟩

/-- **C140 fails** for two calls at once: an entry does not say whose call it belongs to. Two calls of the same method overlap; the history is the same
whichever of them got which answer. -/
theorem C140_counterexample_whose :
    ∃ (inner : Inner Nat) (ms ms' : List Move), (run inner ms (begin_ 0 fun _ => [])).history = (run inner ms' (begin_ 0 fun _ => [])).history ∧
      Ev.after 0 ⟨none, [], []⟩ 0 ∈ (run inner ms (begin_ 0 fun _ => [])).trace ∧
      Ev.after 1 ⟨none, [], []⟩ 0 ∈ (run inner ms' (begin_ 0 fun _ => [])).trace ∧
      Ev.after 1 ⟨none, [], []⟩ 1 ∈ (run inner ms (begin_ 0 fun _ => [])).trace ∧
      Ev.after 0 ⟨none, [], []⟩ 1 ∈ (run inner ms' (begin_ 0 fun _ => [])).trace := by
  let c : Call := ⟨none, [], []⟩
  exact ⟨fun _ s => ((s.1 + 1, s.2), s.1), [.go 0 c, .go 1 c, .go 0 c, .go 1 c, .go 0 c, .go 1 c],
    [.go 0 c, .go 1 c, .go 1 c, .go 0 c, .go 1 c, .go 0 c], by decide, by decide, by decide, by decide, by decide⟩

/-- **C140 fails** for the bytes: an entry keeps the caller's buffer, not a copy. Recorded as passed with `[1]`, the entry shows something else once
the buffer is used again. -/
theorem C140_counterexample_buffers :
    ∃ (ms : List Move) (e : Entry) (m0 : Mem), let w0 := begin_ (5, 0) m0; let w1 := run twoFiles (ms.take 1) w0; let w2 := run twoFiles ms w0
      w1.history = [e] ∧ e.shown w1.mem = [[1]] ∧ e ∈ w2.history ∧ e.shown w2.mem = [[5]] := by
  let c : Call := ⟨some 0, ['R'], [.buf 3]⟩
  exact ⟨[.go 0 c, .go 0 c, .go 0 c], ⟨false, true, ['R'], [.buf 3]⟩, fun _ => [1], by decide, by decide, by decide, by decide⟩

/-- The hypotheses are met: two goroutines, their calls overlapping. -/
example : ∃ ms : List Move, (run twoFiles ms (begin_ (0, 0) fun _ => [])).trace =
    [.before 0 ⟨some 0, ['W'], [.val 7]⟩, .before 1 ⟨some 1, ['W'], [.val 8]⟩, .effect 1 ⟨some 1, ['W'], [.val 8]⟩ 1] ++
      .effect 0 ⟨some 0, ['W'], [.val 7]⟩ 1 :: [.after 0 ⟨some 0, ['W'], [.val 7]⟩ 1] := by
  let c : Call := ⟨some 0, ['W'], [.val 7]⟩
  let d : Call := ⟨some 1, ['W'], [.val 8]⟩
  exact ⟨[.go 0 c, .go 1 d, .go 1 d, .go 0 c, .go 0 c], by decide⟩

end Verif.Afero.Observable
