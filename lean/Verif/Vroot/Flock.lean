/-
Locks on open files: /repo/vroot/osfs/lock_unix.go, with the levels of /repo/fsutil/lock.go (C115).

The code turns a level into an argument of flock(2) and calls it again as long as the call was interrupted. What flock(2) does is taken from its manual: a lock belongs to an open file, a call for another
level first gives up the old one, then waits until no other open file has a lock in the way; a signal can end the waiting at any moment; other failures leave the file without a lock or with the old one.
All handles here are handles on the same file. `errno` stands for every error other than EINTR.
-/
namespace Verif.Vroot.Flock

/-- fsutil/lock.go 8-13. -/
abbrev Level := Int
def lockShared : Level := 1
def lockExclusive : Level := 2

/-- Arguments of flock(2). -/
inductive How where
  | sh | ex | un
  deriving DecidableEq, Repr

inductive Err where
  | einval | errno (n : Nat)
  deriving DecidableEq, Repr

/-- lock_unix.go 23-34 `Lock`: the argument, or the refusal. -/
def how (level : Level) : Except Err How :=
  if level = lockShared then .ok .sh
  else if level = lockExclusive then .ok .ex
  else .error .einval

/-- What a call of flock(2) comes back with. -/
inductive Sys where
  | ok | eintr | errno (n : Nat)
  deriving DecidableEq, Repr

/-- A handle: the lock the kernel keeps for it; the call under way; and what its user was told last: the level of the last successful `Lock`, none since `Unlock` or another `Lock` was called. -/
structure H where
  kernel : Option How
  call : Option How
  told : Option Level
  /-- The level asked for by the call under way. -/
  asked : Option Level
  last : Option (Except Err Unit)

abbrev S := Nat → H

def init : S := fun _ => ⟨none, none, none, none, none⟩

def set (s : S) (i : Nat) (h : H) : S := fun j => if j = i then h else s j

/-- Whether no other handle (of the `n` there are) has a lock in the way. -/
def clear (n : Nat) (s : S) (i : Nat) (w : How) : Bool := (List.range n).all fun j => j = i || (match w, (s j).kernel with
  | _, none => true
  | .sh, some .sh => true
  | _, _ => false)

inductive Ev where
  /-- A goroutine calls `Lock` or `Unlock` on handle `i`. -/
  | lock (i : Nat) (level : Level)
  | unlock (i : Nat)
  /-- The kernel gives up the old lock of a handle whose call is for another level. -/
  | drop (i : Nat)
  /-- The call of flock(2) of handle `i` comes back, if it can. -/
  | back (i : Nat) (r : Sys)

/-- lock_unix.go 41-50 `flock`, 37-39 `Unlock`: what is done when the call comes back. Interrupted calls are made again. -/
def back (n : Nat) (s : S) (i : Nat) (w : How) : Sys → S
  | .eintr => s
  | .errno e => set s i { s i with call := none, asked := none, last := some (.error (.errno e)) }
  | .ok => match w with
    | .un => set s i ⟨none, none, none, none, some (.ok ())⟩
    | w => if clear n s i w then set s i ⟨some w, none, (s i).asked, none, some (.ok ())⟩ else s

/-- One event; those that cannot happen change nothing. -/
def step (n : Nat) (s : S) : Ev → S
  | .lock i level => if i < n ∧ (s i).call = none then match how level with
      | .ok w => set s i { s i with call := some w, told := none, asked := some level, last := none }
      | .error e => set s i { s i with last := some (.error e) }
    else s
  | .unlock i => if i < n ∧ (s i).call = none then set s i { s i with call := some .un, told := none, asked := none, last := none } else s
  | .drop i => match (s i).call with
    | some w => if (s i).kernel ≠ some w then set s i { s i with kernel := none } else s
    | none => s
  | .back i r => match (s i).call with
    | some w => back n s i w r
    | none => s

def run (n : Nat) (s : S) (es : List Ev) : S := es.foldl (step n) s

/-! ## Proofs -/

structure Inv (n : Nat) (s : S) : Prop where
  /-- Locks kept by the kernel do not conflict. -/
  apart : ∀ i j, i ≠ j → (s i).kernel = some .ex → (s j).kernel = none
  /-- What users were told is what the kernel keeps. -/
  told : ∀ i l, (s i).told = some l → how l = .ok .sh ∧ (s i).kernel = some .sh ∨ how l = .ok .ex ∧ (s i).kernel = some .ex
  idle : ∀ i, (s i).call ≠ none → (s i).told = none
  asked : ∀ i w, (s i).call = some w → w ≠ .un → ∃ l, (s i).asked = some l ∧ how l = .ok w
  noUn : ∀ i, (s i).kernel ≠ some .un
  few : ∀ i, n ≤ i → (s i).kernel = none ∧ (s i).call = none

theorem set_self (s : S) (i : Nat) (h : H) : set s i h i = h := if_pos rfl
theorem set_ne (s : S) {i j : Nat} (h : H) (hj : j ≠ i) : set s i h j = s j := if_neg hj

theorem how_ne_un {l : Level} : how l ≠ .ok .un := by
  unfold how
  split
  · simp
  · split <;> simp

/-- Changing a handle without giving it a lock it did not have. -/
theorem Inv.change {n : Nat} {s : S} (h : Inv n s) (i : Nat) (x : H) (hk : x.kernel = (s i).kernel ∨ x.kernel = none)
    (ht : x.told = none ∨ (x.told = (s i).told ∧ x.kernel = (s i).kernel)) (hidle : x.call ≠ none → x.told = none) (hasked : ∀ w, x.call = some w → w ≠ .un → ∃ l, x.asked = some l ∧ how l = .ok w)
    (hfew : n ≤ i → x.call = none) : Inv n (set s i x) := by
  have hkey : ∀ j w, (set s i x j).kernel = some w → (s j).kernel = some w := by
    intro j w hj
    by_cases he : j = i
    · subst he
      rw [set_self] at hj
      rcases hk with hk | hk
      · rw [← hk]
        exact hj
      · rw [hk] at hj
        cases hj
    · rwa [set_ne s x he] at hj
  have hnone : ∀ j, (s j).kernel = none → (set s i x j).kernel = none := by
    intro j hj
    cases hs : (set s i x j).kernel with
    | none => rfl
    | some w =>
      rw [hkey j w hs] at hj
      cases hj
  refine ⟨fun a b hab ha => hnone b (h.apart a b hab (hkey a .ex ha)), ?_, ?_, ?_, fun a ha => h.noUn a (hkey a .un ha), ?_⟩
  · intro a l ha
    by_cases he : a = i
    · subst he
      rw [set_self] at ha ⊢
      rcases ht with ht | ⟨ht, hk'⟩
      · rw [ht] at ha
        cases ha
      · rw [ht] at ha
        rw [hk']
        exact h.told a l ha
    · rw [set_ne s x he] at ha ⊢
      exact h.told a l ha
  · intro a ha
    by_cases he : a = i
    · subst he
      rw [set_self] at ha ⊢
      exact hidle ha
    · rw [set_ne s x he] at ha ⊢
      exact h.idle a ha
  · intro a w ha hw
    by_cases he : a = i
    · subst he
      rw [set_self] at ha ⊢
      exact hasked w ha hw
    · rw [set_ne s x he] at ha ⊢
      exact h.asked a w ha hw
  · intro a ha
    refine ⟨hnone a (h.few a ha).1, ?_⟩
    by_cases he : a = i
    · subst he
      rw [set_self]
      exact hfew ha
    · rw [set_ne s x he]
      exact (h.few a ha).2

theorem clear_iff {n : Nat} {s : S} {i : Nat} {w : How} (h : clear n s i w = true) (j : Nat) (hj : j < n) (hne : j ≠ i) : (s j).kernel = none ∨ (w = .sh ∧ (s j).kernel = some .sh) := by
  have := List.all_eq_true.mp h j (List.mem_range.mpr hj)
  rw [Bool.or_eq_true] at this
  rcases this with this | this
  · exact absurd (of_decide_eq_true this) hne
  · cases hk : (s j).kernel with
    | none => exact Or.inl rfl
    | some v =>
      rw [hk] at this
      cases w <;> cases v <;> first | (cases this; done) | exact Or.inr ⟨rfl, rfl⟩

theorem inv_step {n : Nat} {s : S} (h : Inv n s) (e : Ev) : Inv n (step n s e) := by
  cases e with
  | lock i level =>
    unfold step
    simp only
    split
    · rename_i hi
      split
      · rename_i w hw
        exact h.change i _ (Or.inl rfl) (Or.inl rfl) (fun _ => rfl) (fun v hv _ => by
          cases hv
          exact ⟨level, rfl, hw⟩) (fun hn => absurd hi.1 (Nat.not_lt.mpr hn))
      · exact h.change i _ (Or.inl rfl) (Or.inr ⟨rfl, rfl⟩) (h.idle i) (h.asked i) (fun hn => (h.few i hn).2)
    · exact h
  | unlock i =>
    unfold step
    simp only
    split
    · rename_i hi
      exact h.change i _ (Or.inl rfl) (Or.inl rfl) (fun _ => rfl) (fun v hv hne => by
        cases hv
        exact absurd rfl hne) (fun hn => absurd hi.1 (Nat.not_lt.mpr hn))
    · exact h
  | drop i =>
    unfold step
    simp only
    split
    · rename_i w hw
      split
      · exact h.change i _ (Or.inr rfl) (Or.inl (h.idle i (by rw [hw]; simp))) (h.idle i) (h.asked i) (fun hn => (h.few i hn).2)
      · exact h
    · exact h
  | back i r =>
    unfold step
    simp only
    split
    · rename_i w hw
      cases r with
      | eintr => exact h
      | errno e =>
        exact h.change i _ (Or.inl rfl) (Or.inl (h.idle i (by rw [hw]; simp))) (fun hc => absurd rfl hc) (fun v hv => by cases hv) (fun _ => rfl)
      | ok =>
        have hgrant : w ≠ .un → Inv n (if clear n s i w then set s i ⟨some w, none, (s i).asked, none, some (.ok ())⟩ else s) := by
          intro hun
          split
          · rename_i hc
            have hin : i < n := by
              refine Nat.lt_of_not_le fun hle => ?_
              rw [(h.few i hle).2] at hw
              cases hw
            have others : ∀ j, j ≠ i → (s j).kernel = none ∨ (w = .sh ∧ (s j).kernel = some .sh) := by
              intro j hj
              by_cases hjn : j < n
              · exact clear_iff hc j hjn hj
              · exact Or.inl (h.few j (Nat.le_of_not_lt hjn)).1
            obtain ⟨l, hl, hlw⟩ := h.asked i w hw hun
            refine ⟨?_, ?_, ?_, ?_, ?_, ?_⟩
            · intro a b hab ha
              by_cases hai : a = i
              · subst hai
                rw [set_self] at ha
                rw [set_ne s _ (Ne.symm hab)]
                cases ha
                rcases others b (Ne.symm hab) with h' | ⟨h', _⟩
                · exact h'
                · cases h'
              · rw [set_ne s _ hai] at ha
                rcases others a hai with h' | ⟨_, h'⟩
                · rw [h'] at ha
                  cases ha
                · rw [h'] at ha
                  cases ha
            · intro a l' ha
              by_cases hai : a = i
              · subst hai
                rw [set_self] at ha ⊢
                rw [show (⟨some w, none, (s a).asked, none, some (.ok ())⟩ : H).told = (s a).asked from rfl, hl] at ha
                cases ha
                cases w with
                | sh => exact Or.inl ⟨hlw, rfl⟩
                | ex => exact Or.inr ⟨hlw, rfl⟩
                | un => exact absurd rfl hun
              · rw [set_ne s _ hai] at ha ⊢
                exact h.told a l' ha
            · intro a ha
              by_cases hai : a = i
              · subst hai
                rw [set_self] at ha
                exact absurd rfl ha
              · rw [set_ne s _ hai] at ha ⊢
                exact h.idle a ha
            · intro a v ha
              by_cases hai : a = i
              · subst hai
                rw [set_self] at ha
                cases ha
              · rw [set_ne s _ hai] at ha ⊢
                exact h.asked a v ha
            · intro a ha
              by_cases hai : a = i
              · subst hai
                rw [set_self] at ha
                injection ha with ha
                exact hun ha
              · rw [set_ne s _ hai] at ha
                exact h.noUn a ha
            · intro a ha
              have : a ≠ i := fun he => by omega
              rw [set_ne s _ this]
              exact h.few a ha
          · exact h
        cases w with
        | un => exact h.change i _ (Or.inr rfl) (Or.inl rfl) (fun hc => absurd rfl hc) (fun v hv => by cases hv) (fun _ => rfl)
        | sh => exact hgrant (by simp)
        | ex => exact hgrant (by simp)
    · exact h

theorem inv_init (n : Nat) : Inv n init :=
  ⟨fun _ _ _ _ => rfl, (fun i l h => by cases h), fun _ _ => rfl, (fun i w h => by cases h), (fun i h => by cases h), fun _ _ => ⟨rfl, rfl⟩⟩

theorem inv_run {n : Nat} (es : List Ev) {s : S} (h : Inv n s) : Inv n (run n s es) := by
  induction es generalizing s with
  | nil => exact h
  | cons e es ih => exact ih (inv_step h e)

/-! ## C115 -/

/-- **C115** (exclusion). Whatever any number of handles on a file do, in whatever order and however their calls are interrupted or fail: while one was told that it holds the exclusive lock, and has not called
`Lock` or `Unlock` since, no other one was told that it holds any lock. -/
theorem C115_exclusive (n : Nat) (es : List Ev) (i j : Nat) (hij : i ≠ j) (hi : (run n init es i).told = some lockExclusive) : (run n init es j).told = none := by
  have h := inv_run (n := n) es (inv_init n)
  have hk : (run n init es i).kernel = some .ex := by
    rcases h.told i _ hi with ⟨h1, _⟩ | ⟨_, h2⟩
    · exact absurd h1 (by simp [how, lockExclusive, lockShared])
    · exact h2
  cases ht : (run n init es j).told with
  | none => rfl
  | some l =>
    have := h.apart i j hij hk
    rcases h.told j l ht with ⟨_, h2⟩ | ⟨_, h2⟩ <;> rw [this] at h2 <;> cases h2

/-- **C115** (levels). Users are told of the two levels only; any other is refused at once, and a lock held is kept. -/
theorem C115_levels (n : Nat) (es : List Ev) (i : Nat) : (∀ l, (run n init es i).told = some l → l = lockShared ∨ l = lockExclusive) ∧
    ∀ l, l ≠ lockShared → l ≠ lockExclusive → i < n → (run n init es i).call = none →
      let s' := step n (run n init es) (.lock i l)
      (s' i).last = some (.error .einval) ∧ (s' i).told = (run n init es i).told ∧ (s' i).kernel = (run n init es i).kernel := by
  have h := inv_run (n := n) es (inv_init n)
  constructor
  · intro l hl
    have hne : ∀ w, how l = .ok w → l = lockShared ∨ l = lockExclusive := by
      intro w hw
      unfold how at hw
      split at hw
      · exact Or.inl ‹_›
      · split at hw
        · exact Or.inr ‹_›
        · cases hw
    rcases h.told i l hl with ⟨h1, _⟩ | ⟨h1, _⟩
    · exact hne _ h1
    · exact hne _ h1
  · intro l h1 h2 hi hc
    simp only [step]
    rw [if_pos ⟨hi, hc⟩]
    unfold how
    rw [if_neg h1, if_neg h2]
    simp only [set_self]
    exact ⟨trivial, trivial, trivial⟩

/-- **C115** (shared). A call for the shared level comes back while every other handle has the shared lock or none, one for the exclusive level while none has any, and then its user has been told so. -/
theorem C115_granted (n : Nat) (es : List Ev) (i : Nat) (l : Level) (hi : i < n) (hc : (run n init es i).call = none)
    (hfree : ∀ j, j ≠ i → (run n init es j).kernel = none ∨ (l = lockShared ∧ (run n init es j).kernel = some .sh)) (hl : l = lockShared ∨ l = lockExclusive) :
    let s' := run n init (es ++ [.lock i l, .back i .ok])
    (s' i).told = some l ∧ (s' i).last = some (.ok ()) := by
  have hok : ∃ w, how l = .ok w ∧ w ≠ .un ∧ (l = lockShared → w = .sh) := by
    rcases hl with rfl | rfl
    · exact ⟨.sh, rfl, by simp, fun _ => rfl⟩
    · exact ⟨.ex, rfl, by simp, fun h => absurd h (by decide)⟩
  obtain ⟨w, hw, hun, hsh⟩ := hok
  simp only [run, List.foldl_append, List.foldl_cons, List.foldl_nil]
  change let s := run n init es; _
  intro s
  have hs1 : step n s (.lock i l) = set s i { s i with call := some w, told := none, asked := some l, last := none } := by
    simp only [step]
    rw [if_pos ⟨hi, hc⟩, hw]
  have hcl : clear n (step n s (.lock i l)) i w = true := by
    unfold clear
    rw [List.all_eq_true]
    intro j _
    by_cases hj : j = i
    · simp [hj]
    · rw [Bool.or_eq_true]
      right
      rw [hs1, set_ne _ _ hj]
      rcases hfree j hj with h' | ⟨h1, h2⟩
      · rw [show (s j).kernel = none from h']
      · rw [show (s j).kernel = some .sh from h2, hsh h1]
  have hstep : step n (step n s (.lock i l)) (.back i .ok) = set (step n s (.lock i l)) i ⟨some w, none, some l, none, some (.ok ())⟩ := by
    have hcall : (step n s (.lock i l) i).call = some w := by rw [hs1, set_self]
    have hask : (step n s (.lock i l) i).asked = some l := by rw [hs1, set_self]
    show (match (step n s (.lock i l) i).call with
      | some w => back n (step n s (.lock i l)) i w .ok
      | none => _) = _
    rw [hcall]
    unfold back
    simp only
    cases w with
    | un => exact absurd rfl hun
    | sh => simp only [hcl, if_true, hask]
    | ex => simp only [hcl, if_true, hask]
  show (step n (step n s (.lock i l)) (.back i .ok) i).told = some l ∧ (step n (step n s (.lock i l)) (.back i .ok) i).last = _
  rw [hstep, set_self]
  exact ⟨rfl, rfl⟩

/-- **C115** (interrupts). However often the waiting of a call is interrupted, nothing is different afterwards: no user sees it. -/
theorem C115_interrupts (n : Nat) (s : S) (i k : Nat) (es : List Ev) : run n s (List.replicate k (.back i .eintr) ++ es) = run n s es := by
  induction k with
  | zero => rfl
  | succ k ih =>
    rw [List.replicate_succ, List.cons_append]
    show run n (step n s (.back i .eintr)) _ = _
    have : step n s (.back i .eintr) = s := by
      simp only [step]
      split <;> rfl
    rw [this, ih]

/-- **C115** (release). `Unlock` releases whatever was held. -/
theorem C115_unlock (n : Nat) (es : List Ev) (i : Nat) (hi : i < n) (hc : (run n init es i).call = none) :
    let s' := run n init (es ++ [.unlock i, .back i .ok])
    (s' i).kernel = none ∧ (s' i).told = none ∧ (s' i).last = some (.ok ()) := by
  simp only [run, List.foldl_append, List.foldl_cons, List.foldl_nil]
  change let s := run n init es; _
  intro s
  have hs1 : step n s (.unlock i) = set s i { s i with call := some .un, told := none, asked := none, last := none } := by
    simp only [step]
    rw [if_pos ⟨hi, hc⟩]
  have hstep : step n (step n s (.unlock i)) (.back i .ok) = set (step n s (.unlock i)) i ⟨none, none, none, none, some (.ok ())⟩ := by
    have hcall : (step n s (.unlock i) i).call = some .un := by rw [hs1, set_self]
    show (match (step n s (.unlock i) i).call with
      | some w => back n (step n s (.unlock i)) i w .ok
      | none => _) = _
    rw [hcall]
    rfl
  show (step n (step n s (.unlock i)) (.back i .ok) i).kernel = none ∧ (step n (step n s (.unlock i)) (.back i .ok) i).told = none ∧ (step n (step n s (.unlock i)) (.back i .ok) i).last = _
  rw [hstep, set_self]
  exact ⟨rfl, rfl, rfl⟩

/-- A conversion is not atomic: between shared and exclusive another handle can hold the exclusive lock, as the documentation warns. -/
theorem C115_note_conversion : ∃ es es', (run 2 init es 0).told = some lockShared ∧ (run 2 init (es ++ [.lock 0 lockExclusive] ++ es') 1).told = some lockExclusive ∧
    (run 2 init (es ++ [.lock 0 lockExclusive] ++ es' ++ [.unlock 1, .back 1 .ok, .back 0 .ok]) 0).told = some lockExclusive :=
  ⟨[.lock 0 lockShared, .back 0 .ok], [.drop 0, .lock 1 lockExclusive, .back 1 .ok], by decide, by decide, by decide⟩

/-- Two share, a third waits for both, interrupted meanwhile. -/
example : let s := run 3 init [.lock 0 1, .lock 1 1, .back 1 .ok, .back 0 .ok, .lock 2 2, .back 2 .ok, .back 2 .eintr, .unlock 0, .back 0 .ok, .back 2 .ok]
    ((s 0).told, (s 1).told, (s 2).told, (s 2).call) = (none, some 1, none, some .ex) ∧
    (run 3 s [.unlock 1, .back 1 .ok, .back 2 .ok] 2).told = some 2 := by decide

end Verif.Vroot.Flock
