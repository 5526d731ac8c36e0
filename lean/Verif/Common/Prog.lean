/-
Programs acting on a state, with an error result and with crash points: the states a program goes through, in order. Used where a property
speaks about what is left behind when the process dies or an operation fails in the middle.
-/
namespace Verif

/-- From a start state: the states passed through (after every effect), the final state, and the result. -/
def Prog (σ ε α : Type) := σ → List σ × σ × Except ε α

namespace Prog
variable {σ ε α β : Type}

def pure (a : α) : Prog σ ε α := fun s => ([], s, .ok a)

def bind (m : Prog σ ε α) (f : α → Prog σ ε β) : Prog σ ε β := fun s =>
  match m s with
  | (t, s1, .error e) => (t, s1, .error e)
  | (t, s1, .ok a) => let r := f a s1; (t ++ r.1, r.2.1, r.2.2)

instance : Monad (Prog σ ε) where
  pure := pure
  bind := bind

/-- Return an error. -/
def fail (e : ε) : Prog σ ε α := fun s => ([], s, .error e)

/-- The state, as the program sees it now. -/
def get : Prog σ ε σ := fun s => ([], s, .ok s)

/-- An effect: one atomic change of the state. -/
def modify (f : σ → σ) : Prog σ ε Unit := fun s => ([f s], f s, .ok ())

/-- Run `m` and continue whatever it returned (a Go error value that is inspected rather than returned). -/
def attempt (m : Prog σ ε α) : Prog σ ε (Except ε α) := fun s =>
  let r := m s
  (r.1, r.2.1, .ok r.2.2)

/-- Crash points of a run. -/
def crashes (m : Prog σ ε α) (s : σ) : List σ := (m s).1
/-- The state left by a run. -/
def final (m : Prog σ ε α) (s : σ) : σ := (m s).2.1
/-- The result of a run. -/
def result (m : Prog σ ε α) (s : σ) : Except ε α := (m s).2.2

/-- Hoare triple with an invariant for the crash points. -/
def Holds (I : σ → Prop) (P : σ → Prop) (m : Prog σ ε α) (Q : Except ε α → σ → Prop) : Prop :=
  ∀ s, P s → (∀ t ∈ (m s).1, I t) ∧ Q (m s).2.2 (m s).2.1

theorem Holds.pure {I P : σ → Prop} {Q : Except ε α → σ → Prop} {a : α} (h : ∀ s, P s → Q (.ok a) s) :
    Holds I P (Pure.pure a : Prog σ ε α) Q := fun s hs => ⟨(by intro t ht; cases ht), h s hs⟩

theorem Holds.fail {I P : σ → Prop} {Q : Except ε α → σ → Prop} {e : ε} (h : ∀ s, P s → Q (.error e) s) :
    Holds I P (Prog.fail e : Prog σ ε α) Q := fun s hs => ⟨(by intro t ht; cases ht), h s hs⟩

theorem Holds.get {I P : σ → Prop} {Q : Except ε σ → σ → Prop} (h : ∀ s, P s → Q (.ok s) s) :
    Holds I P (Prog.get : Prog σ ε σ) Q := fun s hs => ⟨(by intro t ht; cases ht), h s hs⟩

theorem Holds.modify {I P : σ → Prop} {Q : Except ε Unit → σ → Prop} {f : σ → σ} (hI : ∀ s, P s → I (f s))
    (h : ∀ s, P s → Q (.ok ()) (f s)) : Holds I P (Prog.modify f : Prog σ ε Unit) Q := fun s hs =>
  ⟨by intro t ht
      simp only [Prog.modify, List.mem_cons, List.not_mem_nil, or_false] at ht
      rw [ht]; exact hI s hs, h s hs⟩

theorem Holds.bind {I P : σ → Prop} {m : Prog σ ε α} {f : α → Prog σ ε β} {Q : Except ε β → σ → Prop}
    (R : Except ε α → σ → Prop) (hm : Holds I P m R) (hf : ∀ a, Holds I (R (.ok a)) (f a) Q)
    (he : ∀ e s, R (.error e) s → Q (.error e) s) : Holds I P (m >>= f) Q := by
  intro s hs
  show (∀ t ∈ (Prog.bind m f s).1, I t) ∧ Q (Prog.bind m f s).2.2 (Prog.bind m f s).2.1
  obtain ⟨h1, h2⟩ := hm s hs
  unfold Prog.bind
  rcases hms : m s with ⟨t, s1, r⟩
  rw [hms] at h1 h2
  cases r with
  | error e => exact ⟨h1, he e s1 h2⟩
  | ok a =>
    obtain ⟨h3, h4⟩ := hf a s1 h2
    refine ⟨?_, h4⟩
    intro x hx
    rcases List.mem_append.1 hx with hx | hx
    · exact h1 x hx
    · exact h3 x hx

theorem Holds.attempt {I P : σ → Prop} {m : Prog σ ε α} {Q : Except ε (Except ε α) → σ → Prop}
    (h : Holds I P m (fun r s => Q (.ok r) s)) : Holds I P (Prog.attempt m) Q := fun s hs => h s hs

theorem Holds.weaken {I I' P P' : σ → Prop} {m : Prog σ ε α} {Q Q' : Except ε α → σ → Prop}
    (h : Holds I' P' m Q') (hP : ∀ s, P s → P' s) (hI : ∀ s, I' s → I s) (hQ : ∀ r s, Q' r s → Q r s) : Holds I P m Q :=
  fun s hs => ⟨fun t ht => hI t ((h s (hP s hs)).1 t ht), hQ _ _ (h s (hP s hs)).2⟩

theorem Holds.ite {I P : σ → Prop} {c : Prop} [Decidable c] {m n : Prog σ ε α} {Q : Except ε α → σ → Prop}
    (h1 : c → Holds I P m Q) (h2 : ¬ c → Holds I P n Q) : Holds I P (if c then m else n) Q := by
  by_cases h : c
  · rw [if_pos h]; exact h1 h
  · rw [if_neg h]; exact h2 h

/-- Use the start state as a logical variable. -/
theorem Holds.fix {I P : σ → Prop} {m : Prog σ ε α} {Q : Except ε α → σ → Prop}
    (h : ∀ s0, P s0 → Holds I (fun s => s = s0) m Q) : Holds I P m Q := fun s hs => h s hs s rfl

/-- The states in which a process that runs one program after another can be found: before the first, at a crash point of one of them, or
after one of them returned. -/
inductive Reach (progs : Prog σ ε α → Prop) (s0 : σ) : σ → Prop
  | start : Reach progs s0 s0
  | crash {s m t} : Reach progs s0 s → progs m → t ∈ crashes m s → Reach progs s0 t
  | done {s m} : Reach progs s0 s → progs m → Reach progs s0 (final m s)

theorem Reach.inv {progs : Prog σ ε α → Prop} {s0 s : σ} {I : σ → Prop} (h : Reach progs s0 s) (h0 : I s0)
    (hp : ∀ m, progs m → Holds I I m (fun _ => I)) : I s := by
  induction h with
  | start => exact h0
  | crash _ hm ht ih => exact (hp _ hm _ ih).1 _ ht
  | done _ hm ih => exact (hp _ hm _ ih).2

end Prog
end Verif
