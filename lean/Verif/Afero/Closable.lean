/-
C95: the wrapper that refuses calls on a file after Close, /repo/aferofs/internal/closable/file.go 24-37 and the methods in
file.closable[t].generate.go (each calls `beforeEach`, then the method of the file below). Used by several goroutines at once.
`Name` (24-28 of the generated file) calls the file below in any case and is left out.
-/
namespace Verif.Afero.Closable

/-! ### Model -/

inductive Call where
  | close
  | use
  deriving DecidableEq

inductive Ev where
  | passed (i : Nat) (c : Call)     -- a call found the file open
  | refused (i : Nat) (c : Call)    -- a call returned fs.ErrClosed
  | inner (i : Nat) (c : Call)      -- the call on the file below, which then returns
  deriving DecidableEq

/-- A goroutine: its calls to come, and the call that it is in, with whether it is past 31-35. -/
structure Thread where
  todo : List Call
  at_ : Option (Call × Bool)
  deriving DecidableEq

structure State where
  closed : Bool
  threads : List Thread
  log : List Ev
  deriving DecidableEq

/-- A step of goroutine `i`: 25-30 the look at `closed` under the read lock; 31-35 for Close, setting it under the write lock; then the call
on the file below. -/
def step (s : State) (i : Nat) : State :=
  match s.threads[i]? with
  | none => s
  | some t => match t.at_, t.todo with
    | none, [] => s
    | none, c :: rest =>
      if s.closed then { s with threads := s.threads.set i ⟨rest, none⟩, log := s.log ++ [.refused i c] }
      else { s with threads := s.threads.set i ⟨rest, some (c, decide (c ≠ .close))⟩, log := s.log ++ [.passed i c] }
    | some (c, false), rest => { s with closed := true, threads := s.threads.set i ⟨rest, some (c, true)⟩ }
    | some (c, true), rest => { s with threads := s.threads.set i ⟨rest, none⟩, log := s.log ++ [.inner i c] }

def run (s : State) : List Nat → State
  | [] => s
  | i :: rest => run (step s i) rest

/-- A new wrapper, and the calls that each goroutine will make. -/
def start (jobs : List (List Call)) : State := ⟨false, jobs.map (⟨·, none⟩), []⟩

/-! ### Specification -/

/-- Close has returned. -/
def Closed (log : List Ev) : Prop := ∃ i, Ev.inner i .close ∈ log
/-- Close has been called. -/
def Closing (log : List Ev) : Prop := ∃ i, Ev.passed i .close ∈ log

/-- How often the file below was closed. -/
def closes : List Ev → Nat
  | [] => 0
  | .inner _ .close :: l => closes l + 1
  | _ :: l => closes l

/-! ### Lemmas -/

theorem closes_append (l r : List Ev) : closes (l ++ r) = closes l + closes r := by
  induction l with
  | nil => simp [closes]
  | cons e l ih =>
    cases e with
    | passed i c => simpa [closes] using ih
    | refused i c => simpa [closes] using ih
    | inner i c => cases c <;> simp [closes, ih] <;> omega

structure Inv (s : State) : Prop where
  marked : Closed s.log → s.closed = true
  between : ∀ t ∈ s.threads, t.at_ = some (.close, true) → s.closed = true
  use : ∀ t ∈ s.threads, t.at_ ≠ some (.use, false)
  began : s.closed = true → Closing s.log
  pending : ∀ t ∈ s.threads, ∀ b, t.at_ = some (.close, b) → Closing s.log
  late : ∀ pre i c post, s.log = pre ++ .passed i c :: post → ¬ Closed pre
  early : ∀ pre i c post, s.log = pre ++ .refused i c :: post → Closing pre

theorem inv_start (jobs : List (List Call)) : Inv (start jobs) := by
  have hat : ∀ t ∈ (start jobs).threads, t.at_ = none := by
    intro t ht
    simp only [start, List.mem_map] at ht
    obtain ⟨j, _, rfl⟩ := ht
    rfl
  refine ⟨?_, ?_, ?_, ?_, ?_, ?_, ?_⟩
  · rintro ⟨i, h⟩; cases h
  · intro t ht h; rw [hat t ht] at h; cases h
  · intro t ht h; rw [hat t ht] at h; cases h
  · intro h; cases h
  · intro t ht b h; rw [hat t ht] at h; cases h
  · intro pre i c post h; simp [start] at h
  · intro pre i c post h; simp [start] at h

/-- An event at a position of `l ++ [e]` is in `l`, or is `e`. -/
theorem split_snoc {α : Type} {l pre post : List α} {e x : α} (h : l ++ [e] = pre ++ x :: post) : (∃ post', l = pre ++ x :: post') ∨ (pre = l ∧ x = e) := by
  rcases List.eq_nil_or_concat post with rfl | ⟨q, y, rfl⟩
  · right
    have := List.append_inj' h (by simp)
    exact ⟨this.1.symm, by simpa using this.2.symm⟩
  · left
    rw [show pre ++ x :: q.concat y = (pre ++ x :: q) ++ [y] by simp] at h
    exact ⟨q, (List.append_inj' h (by simp)).1⟩

theorem inv_step {s : State} (h : Inv s) (i : Nat) : Inv (step s i) := by
  unfold step
  cases hi : s.threads[i]? with
  | none => exact h
  | some t =>
    have hm : t ∈ s.threads := List.mem_of_getElem? hi
    obtain ⟨todo, at_⟩ := t
    have upd : ∀ (x : Thread) (P : Thread → Prop), (∀ t ∈ s.threads, P t) → P x → ∀ t ∈ s.threads.set i x, P t := by
      intro x P h1 h2 t ht
      rcases List.mem_or_eq_of_mem_set ht with hm | hm
      · exact h1 t hm
      · subst hm; exact h2
    have more : ∀ e, Closing s.log → Closing (s.log ++ [e]) := fun e ⟨j, hj⟩ => ⟨j, by simp [hj]⟩
    match at_, todo, hm with
    | none, [], _ => exact h
    | none, c :: rest, hm =>
      simp only
      cases hc : s.closed with
      | true =>
        simp only [if_true]
        refine ⟨fun _ => rfl, fun _ _ _ => rfl, upd _ _ h.use (by simp), fun _ => more _ (h.began hc), ?_, ?_, ?_⟩
        · exact upd ⟨rest, none⟩ (fun t => ∀ b, t.at_ = some (.close, b) → Closing (s.log ++ [.refused i c])) (fun t ht b hb => more _ (h.pending t ht b hb)) (by simp)
        · intro pre j d post e
          rcases split_snoc e with ⟨post', e'⟩ | ⟨_, e'⟩
          · exact h.late pre j d post' e'
          · cases e'
        · intro pre j d post e
          rcases split_snoc e with ⟨post', e'⟩ | ⟨e', _⟩
          · exact h.early pre j d post' e'
          · rw [e']; exact h.began hc
      | false =>
        simp only [Bool.false_eq_true, if_false]
        have hno : ¬ Closed s.log := fun hcl => by rw [h.marked hcl] at hc; cases hc
        have hno' : ¬ Closed (s.log ++ [.passed i c]) := by
          rintro ⟨j, hj⟩
          simp only [List.mem_append, List.mem_singleton, reduceCtorEq, or_false] at hj
          exact hno ⟨j, hj⟩
        refine ⟨fun hcl => absurd hcl hno', ?_, ?_, ?_, ?_, ?_, ?_⟩
        · refine upd _ (fun t => t.at_ = some (.close, true) → false = true) (fun t ht e => by rw [h.between t ht e] at hc; cases hc) ?_
          intro e
          cases c <;> simp at e
        · refine upd _ (fun t => t.at_ ≠ some (.use, false)) h.use ?_
          cases c <;> simp
        · intro hh; cases hh
        · refine upd _ (fun t => ∀ b, t.at_ = some (.close, b) → Closing (s.log ++ [.passed i c])) (fun t ht b hb => more _ (h.pending t ht b hb)) ?_
          intro b hb
          simp only [Option.some.injEq, Prod.mk.injEq] at hb
          exact ⟨i, by rw [hb.1]; simp⟩
        · intro pre j d post e
          rcases split_snoc e with ⟨post', e'⟩ | ⟨e', _⟩
          · exact h.late pre j d post' e'
          · rw [e']; exact hno
        · intro pre j d post e
          rcases split_snoc e with ⟨post', e'⟩ | ⟨_, e'⟩
          · exact h.early pre j d post' e'
          · cases e'
    | some (c, false), rest, hm =>
      simp only
      have hcl : c = .close := by
        cases c with
        | close => rfl
        | use => exact absurd rfl (h.use _ hm)
      subst hcl
      have hcg := h.pending _ hm false rfl
      refine ⟨fun _ => rfl, fun _ _ _ => rfl, upd _ _ h.use (by simp), fun _ => hcg, ?_, h.late, h.early⟩
      exact upd _ (fun t => ∀ b, t.at_ = some (.close, b) → Closing s.log) h.pending (fun _ _ => hcg)
    | some (c, true), rest, hm =>
      simp only
      refine ⟨?_, ?_, upd _ _ h.use (by simp), fun hc => more _ (h.began hc), ?_, ?_, ?_⟩
      · rintro ⟨j, hj⟩
        simp only [List.mem_append, List.mem_singleton, Ev.inner.injEq] at hj
        rcases hj with hj | ⟨_, e⟩
        · exact h.marked ⟨j, hj⟩
        · subst e; exact h.between _ hm rfl
      · exact upd _ (fun t => t.at_ = some (.close, true) → s.closed = true) h.between (by simp)
      · exact upd ⟨rest, none⟩ (fun t => ∀ b, t.at_ = some (.close, b) → Closing (s.log ++ [.inner i c])) (fun t ht b hb => more _ (h.pending t ht b hb)) (by simp)
      · intro pre j d post e
        rcases split_snoc e with ⟨post', e'⟩ | ⟨_, e'⟩
        · exact h.late pre j d post' e'
        · cases e'
      · intro pre j d post e
        rcases split_snoc e with ⟨post', e'⟩ | ⟨_, e'⟩
        · exact h.early pre j d post' e'
        · cases e'

theorem inv_run (sched : List Nat) : ∀ {s : State}, Inv s → Inv (run s sched) := by
  induction sched with
  | nil => intro s h; exact h
  | cons i rest ih => intro s h; exact ih (inv_step h i)

/-! ### C95 -/

/-- **C95** (late calls). Under every schedule, a call that looks at the file after a Close has returned is refused: no call passes. -/
theorem C95_refused_after_close (jobs : List (List Call)) (sched : List Nat) (pre : List Ev) (i : Nat) (c : Call) (post : List Ev)
    (h : (run (start jobs) sched).log = pre ++ .passed i c :: post) : ¬ Closed pre :=
  (inv_run sched (inv_start jobs)).late pre i c post h

/-- **C95** (early calls). A call is refused only if some goroutine has called Close before. -/
theorem C95_refused_only_after_close (jobs : List (List Call)) (sched : List Nat) (pre : List Ev) (i : Nat) (c : Call) (post : List Ev)
    (h : (run (start jobs) sched).log = pre ++ .refused i c :: post) : Closing pre :=
  (inv_run sched (inv_start jobs)).early pre i c post h

/-- What holds if only goroutine `k` closes. -/
structure One (k : Nat) (s : State) : Prop where
  inv : Inv s
  others : ∀ i t, i ≠ k → s.threads[i]? = some t → Call.close ∉ t.todo ∧ ∀ b, t.at_ ≠ some (.close, b)
  most : closes s.log ≤ 1
  pending : ∀ t b, s.threads[k]? = some t → t.at_ = some (.close, b) → closes s.log = 0

theorem closes_pos {l : List Ev} (h : closes l ≠ 0) : Closed l := by
  induction l with
  | nil => exact absurd rfl h
  | cons e l ih =>
    have more : closes l ≠ 0 → Closed (e :: l) := fun h => let ⟨i, hi⟩ := ih h; ⟨i, by simp [hi]⟩
    cases e with
    | passed i c => exact more h
    | refused i c => exact more h
    | inner i c =>
      cases c with
      | close => exact ⟨i, by simp⟩
      | use => exact more h

theorem one_step {k : Nat} {s : State} (h : One k s) (i : Nat) : One k (step s i) := by
  have hinv := inv_step h.inv i
  unfold step at hinv ⊢
  cases hi : s.threads[i]? with
  | none => exact h
  | some t =>
    rw [hi] at hinv
    obtain ⟨todo, at_⟩ := t
    have hlt : i < s.threads.length := by
      rw [List.getElem?_eq_some_iff] at hi
      exact hi.1
    have get : ∀ (x : Thread) j, (s.threads.set i x)[j]? = if i = j then some x else s.threads[j]? := by
      intro x j
      rw [List.getElem?_set]
      split
      · rfl
      · rfl
    have others : ∀ (x : Thread), (i ≠ k → Call.close ∉ x.todo ∧ ∀ b, x.at_ ≠ some (.close, b)) →
        ∀ j t, j ≠ k → (s.threads.set i x)[j]? = some t → Call.close ∉ t.todo ∧ ∀ b, t.at_ ≠ some (.close, b) := by
      intro x hx j t hj hg
      rw [get] at hg
      split at hg
      · rename_i e; subst e; cases hg; exact hx hj
      · exact h.others j t hj hg
    match at_, todo, hi with
    | none, [], _ => exact h
    | none, c :: rest, hi =>
      simp only at hinv ⊢
      have hoth : i ≠ k → Call.close ∉ rest ∧ c ≠ .close := by
        intro e
        have := (h.others i _ e hi).1
        simp only [List.mem_cons, not_or] at this
        exact ⟨this.2, fun e => this.1 e.symm⟩
      cases hc : s.closed with
      | true =>
        simp only [hc, if_true] at hinv ⊢
        refine ⟨hinv, others _ (fun e => ⟨(hoth e).1, by simp⟩), by rw [closes_append]; simpa [closes] using h.most, ?_⟩
        intro t b hg ht
        rw [closes_append]
        rw [get] at hg
        split at hg
        · cases hg; cases ht
        · simpa [closes] using h.pending t b hg ht
      | false =>
        simp only [hc, Bool.false_eq_true, if_false] at hinv ⊢
        have h0 : closes s.log = 0 := by
          by_cases e : closes s.log = 0
          · exact e
          · have := h.inv.marked (closes_pos e); rw [hc] at this; cases this
        refine ⟨hinv, others _ (fun e => ⟨(hoth e).1, ?_⟩), by rw [closes_append]; simp [closes, h0], ?_⟩
        · intro b hb
          simp only [Option.some.injEq, Prod.mk.injEq] at hb
          exact (hoth e).2 hb.1
        · intro t b _ _
          rw [closes_append]; simp [closes, h0]
    | some (c, false), rest, hi =>
      simp only at hinv ⊢
      refine ⟨hinv, others _ (fun e => ⟨(h.others i _ e hi).1, ?_⟩), h.most, ?_⟩
      · intro b hb
        simp only [Option.some.injEq, Prod.mk.injEq] at hb
        exact (h.others i _ e hi).2 false (by simp [hb.1])
      · intro t b hg ht
        rw [get] at hg
        split at hg
        · rename_i e
          cases hg
          simp only [Option.some.injEq, Prod.mk.injEq] at ht
          exact h.pending _ false (e ▸ hi) (by simp [ht.1])
        · exact h.pending t b hg ht
    | some (c, true), rest, hi =>
      simp only at hinv ⊢
      cases c with
      | use =>
        refine ⟨hinv, others _ (fun e => ⟨(h.others i _ e hi).1, by simp⟩), by rw [closes_append]; simpa [closes] using h.most, ?_⟩
        intro t b hg ht
        rw [closes_append]
        rw [get] at hg
        split at hg
        · cases hg; cases ht
        · simpa [closes] using h.pending t b hg ht
      | close =>
        have hik : i = k := by
          by_cases e : i = k
          · exact e
          · exact absurd rfl ((h.others i _ e hi).2 true)
        have h0 := h.pending _ true (hik ▸ hi) rfl
        refine ⟨hinv, others _ (fun e => absurd hik e), by rw [closes_append]; simp [closes, h0], ?_⟩
        intro t b hg ht
        rw [get, if_pos hik] at hg
        cases hg; cases ht

theorem one_run (sched : List Nat) : ∀ {k : Nat} {s : State}, One k s → One k (run s sched) := by
  induction sched with
  | nil => intro k s h; exact h
  | cons i rest ih => intro k s h; exact ih (one_step h i)

/-- **C95** (closed once) partial: if only one goroutine calls Close, however often, then the file below is closed at most once.
Missing: Close called by several goroutines at once, where it is false. -/
theorem C95_closed_once_partial (jobs : List (List Call)) (k : Nat) (hk : ∀ i j, i ≠ k → jobs[i]? = some j → Call.close ∉ j) (sched : List Nat) :
    closes (run (start jobs) sched).log ≤ 1 := by
  refine (one_run sched (k := k) ⟨inv_start jobs, ?_, by simp [start, closes], ?_⟩).most
  · intro i t hi ht
    simp only [start, List.getElem?_map, Option.map_eq_some_iff] at ht
    obtain ⟨j, hj, rfl⟩ := ht
    exact ⟨hk i j hi hj, by simp⟩
  · intro t b ht hb
    rfl

/-- One goroutine uses the file, one closes it twice: the use is served, the close reaches the file once, the second one is refused, a later use too. -/
example : (run (start [[.use, .use], [.close, .close]]) [0, 0, 1, 1, 1, 1, 0]).log
    = [.passed 0 .use, .inner 0 .use, .passed 1 .close, .inner 1 .close, .refused 1 .close, .refused 0 .use] := by decide

/-- Two goroutines call Close at the same time: both find the file open, and it is closed twice. -/
theorem C95_counterexample_twice : closes (run (start [[.close], [.close]]) [0, 1, 0, 0, 1, 1]).log = 2 := by decide

/-- A call that found the file open may reach it after Close has returned. -/
theorem C95_counterexample_use_after_close : (run (start [[.use], [.close]]) [0, 1, 1, 1, 0]).log
    = [.passed 0 .use, .passed 1 .close, .inner 1 .close, .inner 0 .use] := by decide

end Verif.Afero.Closable
