import Verif.Locks.Props
/-
Calls on one tree or one overlay at once (C107): why the models of vroot/synthfs and of overlayfs, whose calls are single steps, describe what goroutines see.

A call is a program that reads and writes the shared state (the tree of synthfs/tree.go 17-30 `state`; the layers and masks of overlayfs/state.go 38-43 `overlayState`) in as many small steps as it likes, between
`Lock` and `Unlock` or `RLock` and `RUnlock`. What the small steps are is left open. Handles have state of their own (positions), which is not part of it.
-/
namespace Verif.Locks.Atomic
open Verif Verif.Locks

variable {S R : Type}

/-- What a goroutine does in a call: read the state, replace it, lock, unlock, return. -/
inductive P (S R : Type) where
  | ret (x : R)
  | get (k : S → P S R)
  | put (s : S) (k : P S R)
  | lock (m : Mode) (k : P S R)
  | unlock (k : P S R)

/-- What is done under the lock. -/
inductive Body (S R : Type) where
  | ret (x : R)
  | get (k : S → Body S R)
  | put (s : S) (k : Body S R)

/-- Unlocks at the end (`defer`). -/
def Body.code : Body S R → P S R
  | .ret x => .unlock (.ret x)
  | .get k => .get fun s => (k s).code
  | .put s k => .put s k.code

/-- A call under one lock, like synthfs/inspect.go 12-21 or overlayfs/mkdir.go 21-60. -/
def underLock (m : Mode) (b : Body S R) : P S R := .lock m b.code

/-- Writes nothing. -/
def Body.Reads : Body S R → Prop
  | .ret _ => True
  | .get k => ∀ s, (k s).Reads
  | .put _ _ => False

/-- A call returned: which, what, when it was made and when it returned. -/
structure Done (S R : Type) where
  call : P S R
  res : R
  made : Nat
  back : Nat

/-- A goroutine. -/
structure G (S R : Type) where
  todo : List (P S R)
  /-- The call being made, what is left of it, and when it was made. -/
  cur : Option (P S R × P S R × Nat)
  held : Option Mode
  done : List (Done S R)

structure St (S R : Type) where
  s : S
  gs : List (G S R)

def nobody (gs : List (G S R)) : Bool := gs.all fun g => g.held = none
def noWriter (gs : List (G S R)) : Bool := gs.all fun g => g.held ≠ some .w

/-- `Lock` needs everyone out, `RLock` only writers. -/
def grants (gs : List (G S R)) : Mode → Bool
  | .w => nobody gs
  | .r => noWriter gs

/-- Goroutine `i` takes a step at time `n`. A lock that cannot be had is tried again. (That a writer that waits keeps new readers out only makes for fewer schedules.) -/
def step (st : St S R) (n i : Nat) : St S R :=
  match st.gs[i]? with
  | none => st
  | some g => match g.cur with
    | none => match g.todo with
      | [] => st
      | c :: r => ⟨st.s, st.gs.set i ⟨r, some (c, c, n), g.held, g.done⟩⟩
    | some (c, .ret x, a) => ⟨st.s, st.gs.set i ⟨g.todo, none, g.held, g.done ++ [⟨c, x, a, n⟩]⟩⟩
    | some (c, .get k, a) => ⟨st.s, st.gs.set i ⟨g.todo, some (c, k st.s, a), g.held, g.done⟩⟩
    | some (c, .put s k, a) => ⟨s, st.gs.set i ⟨g.todo, some (c, k, a), g.held, g.done⟩⟩
    | some (c, .lock m k, a) =>
      if grants st.gs m then ⟨st.s, st.gs.set i ⟨g.todo, some (c, k, a), some m, g.done⟩⟩ else st
    | some (c, .unlock k, a) => ⟨st.s, st.gs.set i ⟨g.todo, some (c, k, a), none, g.done⟩⟩

def start (s : S) (scripts : List (List (P S R))) : St S R := ⟨s, scripts.map fun cs => ⟨cs, none, none, []⟩⟩

def run (f : Nat → Nat) (st : St S R) : Nat → St S R
  | 0 => st
  | n + 1 => step (run f st n) n (f n)

/-! ## One after the other -/

/-- What a call does alone. -/
def P.alone : P S R → S → S × R
  | .ret x, s => (s, x)
  | .get k, s => (k s).alone s
  | .put s' k, _ => k.alone s'
  | .lock _ k, s => k.alone s
  | .unlock k, s => k.alone s

/-- A call taking effect at a moment. -/
structure Entry (S R : Type) where
  time : Nat
  who : Nat
  call : P S R
  res : R

/-- The calls made one after the other, each alone, from the first state to the last, give these results. -/
def Replays : S → List (Entry S R) → S → Prop
  | s, [], s' => s = s'
  | s, e :: l, s' => (e.call.alone s).2 = e.res ∧ Replays (e.call.alone s).1 l s'

/-- The moments of calls are within them, and give what they returned. -/
def Within : List (Entry S R) → List (Done S R) → Prop
  | [], [] => True
  | e :: l, d :: ds => (e.call = d.call ∧ e.res = d.res ∧ d.made < e.time ∧ e.time < d.back) ∧ Within l ds
  | _, _ => False

/-! ## Proof -/

theorem replays_append {s s' : S} {l : List (Entry S R)} {e : Entry S R} (h : Replays s l s') (he : (e.call.alone s').2 = e.res) : Replays s (l ++ [e]) (e.call.alone s').1 := by
  induction l generalizing s with
  | nil =>
    have h : s = s' := h
    subst h
    exact ⟨he, rfl⟩
  | cons a l ih => exact ⟨h.1, ih h.2⟩

theorem within_append {l : List (Entry S R)} {ds : List (Done S R)} {e : Entry S R} {d : Done S R} (h : Within l ds) (he : e.call = d.call ∧ e.res = d.res ∧ d.made < e.time ∧ e.time < d.back) :
    Within (l ++ [e]) (ds ++ [d]) := by
  induction l generalizing ds with
  | nil =>
    cases ds with
    | nil => exact ⟨he, trivial⟩
    | cons d' ds => exact absurd h (by simp [Within])
  | cons a l ih =>
    cases ds with
    | nil => exact absurd h (by simp [Within])
    | cons d' ds => exact ⟨h.1, ih h.2⟩

/-- A call as the theorem wants it. -/
def Locked (c : P S R) : Prop := ∃ m b, c = underLock m b ∧ (m = .r → b.Reads)

/-- The moments: when a call unlocks. -/
def moment (st : St S R) (n i : Nat) : List (Entry S R) :=
  match st.gs[i]? with
  | some ⟨_, some (c, .unlock (.ret x), _), _, _⟩ => [⟨n, i, c, x⟩]
  | _ => []

def moments (f : Nat → Nat) (st : St S R) : Nat → List (Entry S R)
  | 0 => []
  | n + 1 => moments f st n ++ moment (run f st n) n (f n)

/-- A goroutine at time `n`; `base` is the state without the writer's changes, `L` are the moments of its calls. -/
def Good (base s : S) (n : Nat) (L : List (Entry S R)) (g : G S R) : Prop :=
  (∀ c ∈ g.todo, Locked c) ∧
  match g.cur with
  | none => g.held = none ∧ Within L g.done
  | some (c, p, a) => a < n ∧
    ((g.held = none ∧ p = c ∧ Locked c ∧ Within L g.done) ∨
     (∃ m b, g.held = some m ∧ p = Body.code b ∧ (m = .r → b.Reads) ∧ c.alone base = p.alone s ∧ Within L g.done) ∨
     (∃ x L' e, g.held = none ∧ p = .ret x ∧ L = L' ++ [e] ∧ Within L' g.done ∧ e.call = c ∧ e.res = x ∧ a < e.time ∧ e.time < n))

structure Ok (s0 : S) (st : St S R) (n : Nat) (lin : List (Entry S R)) (base : S) : Prop where
  replays : Replays s0 lin base
  times : lin.Pairwise (fun e e' => e.time < e'.time)
  past : ∀ e ∈ lin, e.time < n
  same : noWriter st.gs = true → st.s = base
  single : ∀ (i j : Nat) (g g' : G S R), st.gs[i]? = some g → st.gs[j]? = some g' → g.held = some .w → g'.held ≠ none → i = j
  good : ∀ (i : Nat) (g : G S R), st.gs[i]? = some g → Good base st.s n (lin.filter (·.who = i)) g

theorem good_later {base s : S} {n : Nat} {L : List (Entry S R)} {g : G S R} (h : Good base s n L g) : Good base s (n + 1) L g := by
  refine ⟨h.1, ?_⟩
  have h2 := h.2
  split
  · rename_i hc
    rw [hc] at h2
    exact h2
  · rename_i c p a hc
    rw [hc] at h2
    refine ⟨Nat.lt_succ_of_lt h2.1, ?_⟩
    rcases h2.2 with h | h | ⟨x, L', e, h1, h3, h4, h5, h6, h7, h8, h9⟩
    · exact Or.inl h
    · exact Or.inr (Or.inl h)
    · exact Or.inr (Or.inr ⟨x, L', e, h1, h3, h4, h5, h6, h7, h8, Nat.lt_succ_of_lt h9⟩)

/-- A goroutine outside the lock does not care about the state. -/
theorem good_outside {base s base' s' : S} {n : Nat} {L : List (Entry S R)} {g : G S R} (h : Good base s n L g) (hh : g.held = none) : Good base' s' n L g := by
  refine ⟨h.1, ?_⟩
  have h2 := h.2
  split
  · rename_i hc
    rw [hc] at h2
    exact h2
  · rename_i c p a hc
    rw [hc] at h2
    refine ⟨h2.1, ?_⟩
    rcases h2.2 with h | ⟨m, b, h, _⟩ | h
    · exact Or.inl h
    · rw [hh] at h; cases h
    · exact Or.inr (Or.inr h)

theorem noWriter_iff (gs : List (G S R)) : noWriter gs = true ↔ ∀ g ∈ gs, g.held ≠ some .w := by
  simp [noWriter, List.all_eq_true]

theorem nobody_iff (gs : List (G S R)) : nobody gs = true ↔ ∀ g ∈ gs, g.held = none := by
  simp [nobody, List.all_eq_true]

theorem get_set {gs : List (G S R)} {i j : Nat} {g0 g g' : G S R} (hi : gs[i]? = some g0) (h : (gs.set i g')[j]? = some g) : (j = i ∧ g = g') ∨ (j ≠ i ∧ gs[j]? = some g) := by
  by_cases hij : i = j
  · subst hij
    rw [List.getElem?_set_self (List.getElem?_eq_some_iff.mp hi).1] at h
    injection h with h
    exact Or.inl ⟨rfl, h.symm⟩
  · rw [List.getElem?_set_ne hij] at h
    exact Or.inr ⟨fun e => hij e.symm, h⟩

/-- A step that keeps the lock as it is, and the state. -/
theorem ok_quiet {s0 : S} {st : St S R} {n : Nat} {lin : List (Entry S R)} {base : S} (h : Ok s0 st n lin base) (i : Nat) (g g' : G S R) (hi : st.gs[i]? = some g) (hh : g'.held = g.held)
    (hg : Good base st.s (n + 1) (lin.filter (·.who = i)) g') : Ok s0 ⟨st.s, st.gs.set i g'⟩ (n + 1) lin base := by
  have held : ∀ (j : Nat) (x : G S R), (st.gs.set i g')[j]? = some x → ∃ y, st.gs[j]? = some y ∧ x.held = y.held := by
    intro j x hx
    rcases get_set hi hx with ⟨rfl, rfl⟩ | ⟨_, hx⟩
    · exact ⟨g, hi, hh⟩
    · exact ⟨x, hx, rfl⟩
  refine ⟨h.replays, h.times, fun e he => Nat.lt_succ_of_lt (h.past e he), ?_, ?_, ?_⟩
  · intro hn
    refine h.same ((noWriter_iff _).mpr ?_)
    intro x hx
    obtain ⟨j, hj⟩ := List.getElem?_of_mem hx
    by_cases hij : i = j
    · subst hij
      rw [hi] at hj
      injection hj with hj
      subst hj
      rw [← hh]
      exact (noWriter_iff _).mp hn g' (List.mem_of_getElem? (List.getElem?_set_self (List.getElem?_eq_some_iff.mp hi).1))
    · exact (noWriter_iff _).mp hn x (List.mem_of_getElem? (by rw [List.getElem?_set_ne hij]; exact hj))
  · intro a b ga gb ha hb h1 h2
    obtain ⟨ya, hya, ea⟩ := held a ga ha
    obtain ⟨yb, hyb, eb⟩ := held b gb hb
    exact h.single a b ya yb hya hyb (by rw [← ea]; exact h1) (by rw [← eb]; exact h2)
  · intro j x hx
    rcases get_set hi hx with ⟨rfl, rfl⟩ | ⟨_, hx⟩
    · exact hg
    · exact good_later (h.good j x hx)

theorem ok_idle {s0 : S} {st : St S R} {n : Nat} {lin : List (Entry S R)} {base : S} (h : Ok s0 st n lin base) : Ok s0 st (n + 1) lin base :=
  ⟨h.replays, h.times, fun e he => Nat.lt_succ_of_lt (h.past e he), h.same, h.single, fun j x hx => good_later (h.good j x hx)⟩

theorem moment_none {st : St S R} {n i : Nat} (h : ∀ g c x a, st.gs[i]? = some g → g.cur ≠ some (c, .unlock (.ret x), a)) : moment st n i = [] := by
  unfold moment
  split
  · rename_i hg
    exact absurd rfl (h _ _ _ _ hg)
  · rfl

theorem step_ok {s0 : S} {st : St S R} {n : Nat} {lin : List (Entry S R)} {base : S} (h : Ok s0 st n lin base) (i : Nat) :
    ∃ base', Ok s0 (step st n i) (n + 1) (lin ++ moment st n i) base' := by
  cases hi : st.gs[i]? with
  | none =>
    refine ⟨base, ?_⟩
    rw [moment_none (by intro g c x a hg; rw [hi] at hg; cases hg), List.append_nil]
    have : step st n i = st := by unfold step; rw [hi]
    rw [this]
    exact ok_idle h
  | some g =>
    have hg := h.good i g hi
    obtain ⟨htodo, hcur⟩ := hg
    cases hc : g.cur with
    | none =>
      rw [hc] at hcur
      have hm : moment st n i = [] := moment_none (by intro g' c x a hg' hh; rw [hi] at hg'; injection hg' with hg'; subst hg'; rw [hc] at hh; cases hh)
      rw [hm, List.append_nil]
      cases ht : g.todo with
      | nil =>
        have : step st n i = st := by unfold step; rw [hi]; simp only [hc, ht]
        rw [this]
        exact ⟨base, ok_idle h⟩
      | cons c r =>
        have : step st n i = ⟨st.s, st.gs.set i ⟨r, some (c, c, n), g.held, g.done⟩⟩ := by unfold step; rw [hi]; simp only [hc, ht]
        rw [this]
        refine ⟨base, ok_quiet h i g _ hi rfl ⟨fun c' hc' => htodo c' (by rw [ht]; exact List.mem_cons_of_mem _ hc'), Nat.lt_succ_self _, Or.inl ⟨hcur.1, rfl, ?_, hcur.2⟩⟩⟩
        exact htodo c (by rw [ht]; exact List.mem_cons_self)
    | some cp =>
      obtain ⟨c, p, a⟩ := cp
      rw [hc] at hcur
      obtain ⟨ha, hcur⟩ := hcur
      rcases hcur with ⟨hheld, rfl, hL, hw⟩ | ⟨m, b, hheld, rfl, hr, hal, hw⟩ | ⟨x, L', e, hheld, rfl, hLe, hw, he1, he2, he3, he4⟩
      · -- before the lock
        have hL0 := hL
        obtain ⟨m, b, hcb, hr⟩ := hL
        have hm : moment st n i = [] := moment_none (by
          intro g' c' x a' hg' hh
          rw [hi] at hg'
          injection hg' with hg'
          subst hg'
          rw [hc, hcb] at hh
          cases hh)
        rw [hm, List.append_nil]
        by_cases hfree : grants st.gs m = true
        · have hs : step st n i = ⟨st.s, st.gs.set i ⟨g.todo, some (p, b.code, a), some m, g.done⟩⟩ := by
            unfold step
            rw [hi]
            simp only [hc]
            rw [hcb]
            simp only [underLock]
            rw [if_pos hfree]
          rw [hs]
          have hnw : noWriter st.gs = true := by
            cases m with
            | r => exact hfree
            | w =>
              refine (noWriter_iff _).mpr ?_
              intro x hx
              rw [(nobody_iff _).mp hfree x hx]
              exact fun h => by cases h
          have hbase := h.same hnw
          refine ⟨base, h.replays, h.times, fun e he => Nat.lt_succ_of_lt (h.past e he), fun _ => hbase, ?_, ?_⟩
          · intro j k gj gk hj hk h1 h2
            rcases get_set hi hj with ⟨rfl, rfl⟩ | ⟨hne, hj⟩
            · rcases get_set hi hk with ⟨rfl, _⟩ | ⟨hne', hk'⟩
              · rfl
              · have h1 : some m = some Mode.w := h1
                injection h1 with h1
                subst h1
                exact absurd ((nobody_iff _).mp hfree gk (List.mem_of_getElem? hk')) h2
            · exact absurd h1 ((noWriter_iff _).mp hnw gj (List.mem_of_getElem? hj))
          · intro j x hx
            rcases get_set hi hx with ⟨rfl, rfl⟩ | ⟨_, hx⟩
            · refine ⟨htodo, Nat.lt_succ_of_lt ha, Or.inr (Or.inl ⟨m, b, rfl, rfl, hr, ?_, hw⟩)⟩
              rw [hcb, hbase]
              rfl
            · exact good_later (h.good j x hx)
        · have hs : step st n i = st := by
            unfold step
            rw [hi]
            simp only [hc]
            rw [hcb]
            simp only [underLock]
            rw [if_neg hfree]
          rw [hs]
          exact ⟨base, ok_idle h⟩
      · -- under the lock
        cases b with
        | get k =>
          have hm : moment st n i = [] := moment_none (by
            intro g' c' x a' hg' hh
            rw [hi] at hg'
            injection hg' with hg'
            subst hg'
            rw [hc] at hh
            simp [Body.code] at hh)
          rw [hm, List.append_nil]
          have hs : step st n i = ⟨st.s, st.gs.set i ⟨g.todo, some (c, (k st.s).code, a), g.held, g.done⟩⟩ := by
            unfold step
            rw [hi]
            simp only [hc, Body.code]
          rw [hs]
          exact ⟨base, ok_quiet h i g _ hi rfl ⟨htodo, Nat.lt_succ_of_lt ha, Or.inr (Or.inl ⟨m, k st.s, hheld, rfl, fun e => hr e st.s, hal, hw⟩)⟩⟩
        | put s' k =>
          have hmw : m = .w := by
            cases m with
            | w => rfl
            | r => exact absurd (hr rfl) (by simp [Body.Reads])
          subst hmw
          have hm : moment st n i = [] := moment_none (by
            intro g' c' x a' hg' hh
            rw [hi] at hg'
            injection hg' with hg'
            subst hg'
            rw [hc] at hh
            simp [Body.code] at hh)
          rw [hm, List.append_nil]
          have hs : step st n i = ⟨s', st.gs.set i ⟨g.todo, some (c, k.code, a), g.held, g.done⟩⟩ := by
            unfold step
            rw [hi]
            simp only [hc, Body.code]
          rw [hs]
          refine ⟨base, h.replays, h.times, fun e he => Nat.lt_succ_of_lt (h.past e he), ?_, ?_, ?_⟩
          · intro hn
            have := (noWriter_iff _).mp hn ⟨g.todo, some (c, k.code, a), g.held, g.done⟩ (List.mem_of_getElem? (List.getElem?_set_self (List.getElem?_eq_some_iff.mp hi).1))
            exact absurd hheld this
          · intro j j' gj gk hj hk h1 h2
            have old : ∀ (x : Nat) (gx : G S R), (st.gs.set i ⟨g.todo, some (c, k.code, a), g.held, g.done⟩)[x]? = some gx → ∃ y, st.gs[x]? = some y ∧ gx.held = y.held := by
              intro x gx hx
              rcases get_set hi hx with ⟨rfl, rfl⟩ | ⟨_, hx⟩
              · exact ⟨g, hi, rfl⟩
              · exact ⟨gx, hx, rfl⟩
            obtain ⟨y, hy, ey⟩ := old j gj hj
            obtain ⟨z, hz, ez⟩ := old j' gk hk
            exact h.single j j' y z hy hz (by rw [← ey]; exact h1) (by rw [← ez]; exact h2)
          · intro j x hx
            rcases get_set hi hx with ⟨rfl, rfl⟩ | ⟨hne, hx⟩
            · exact ⟨htodo, Nat.lt_succ_of_lt ha, Or.inr (Or.inl ⟨.w, k, hheld, rfl, fun e => (by cases e), hal, hw⟩)⟩
            · refine good_later (good_outside (h.good j x hx) ?_)
              apply Classical.byContradiction
              intro hx'
              exact hne (h.single i j g x hi hx hheld hx').symm
        | ret x =>
          have hm : moment st n i = [⟨n, i, c, x⟩] := by
            unfold moment
            rw [hi]
            obtain ⟨td, cu, he, dn⟩ := g
            simp only at hc
            subst hc
            rfl
          rw [hm]
          have hs : step st n i = ⟨st.s, st.gs.set i ⟨g.todo, some (c, .ret x, a), none, g.done⟩⟩ := by
            unfold step
            rw [hi]
            simp only [hc, Body.code]
          rw [hs]
          have hal : c.alone base = (st.s, x) := hal
          have hother : ∀ (j : Nat) (y : G S R), j ≠ i → st.gs[j]? = some y → y.held ≠ some .w := by
            intro j y hne hy hyw
            exact hne (h.single j i y g hy hi hyw (by rw [hheld]; exact fun h => by cases h))
          have hread : m = .r → st.s = base := by
            intro hmr
            subst hmr
            refine h.same ((noWriter_iff _).mpr ?_)
            intro y hy
            obtain ⟨j, hj⟩ := List.getElem?_of_mem hy
            by_cases hji : j = i
            · subst hji
              rw [hi] at hj
              injection hj with hj
              subst hj
              rw [hheld]
              exact fun h => by cases h
            · exact hother j y hji hj
          refine ⟨st.s, ?_, ?_, ?_, fun _ => rfl, ?_, ?_⟩
          · have := replays_append (e := ⟨n, i, c, x⟩) h.replays (by rw [hal])
            rw [show (Entry.mk n i c x).call = c from rfl, hal] at this
            exact this
          · refine List.pairwise_append.mpr ⟨h.times, List.pairwise_singleton _ _, ?_⟩
            intro e he e' he'
            rw [List.mem_singleton.mp he']
            exact h.past e he
          · intro e he
            rcases List.mem_append.mp he with he | he
            · exact Nat.lt_succ_of_lt (h.past e he)
            · rw [List.mem_singleton.mp he]
              exact Nat.lt_succ_self _
          · intro j k gj gk hj hk h1 h2
            rcases get_set hi hj with ⟨rfl, rfl⟩ | ⟨hne, hj⟩
            · cases h1
            · exact absurd h1 (hother j gj hne hj)
          · intro j y hy
            rw [List.filter_append]
            rcases get_set hi hy with ⟨rfl, rfl⟩ | ⟨hne, hy⟩
            · refine ⟨htodo, Nat.lt_succ_of_lt ha, Or.inr (Or.inr ⟨x, _, ⟨n, j, c, x⟩, rfl, rfl, ?_, hw, rfl, rfl, ha, Nat.lt_succ_self _⟩)⟩
              simp
            · have hf : ([⟨n, i, c, x⟩] : List (Entry S R)).filter (fun e => decide (e.who = j)) = [] := by
                simp [Ne.symm hne]
              rw [hf, List.append_nil]
              have hgood := good_later (h.good j y hy)
              by_cases hyh : y.held = none
              · exact good_outside hgood hyh
              · have hmr : m = .r := by
                  cases m with
                  | r => rfl
                  | w => exact absurd (h.single i j g y hi hy hheld hyh) (Ne.symm hne)
                rw [hread hmr]
                rw [hread hmr] at hgood
                exact hgood
      · -- after it
        have hm : moment st n i = [] := moment_none (by
          intro g' c' x a' hg' hh
          rw [hi] at hg'
          injection hg' with hg'
          subst hg'
          rw [hc] at hh
          cases hh)
        rw [hm, List.append_nil]
        have hs : step st n i = ⟨st.s, st.gs.set i ⟨g.todo, none, g.held, g.done ++ [⟨c, x, a, n⟩]⟩⟩ := by
          unfold step
          rw [hi]
          simp only [hc]
        rw [hs]
        refine ⟨base, ok_quiet h i g _ hi rfl ⟨htodo, hheld, ?_⟩⟩
        rw [hLe]
        exact within_append hw ⟨he1, he2, he3, he4⟩

theorem run_ok (s : S) (scripts : List (List (P S R))) (hl : ∀ cs ∈ scripts, ∀ c ∈ cs, Locked c) (f : Nat → Nat) :
    ∀ n, ∃ base, Ok s (run f (start s scripts) n) n (moments f (start s scripts) n) base := by
  intro n
  induction n with
  | zero =>
    refine ⟨s, rfl, List.Pairwise.nil, (fun e he => by cases he), fun _ => rfl, ?_, ?_⟩
    · intro i j g g' hi hj h1 h2
      simp only [run, start, List.getElem?_map, Option.map_eq_some_iff] at hi
      obtain ⟨cs, _, rfl⟩ := hi
      cases h1
    · intro i g hi
      simp only [run, start, List.getElem?_map, Option.map_eq_some_iff] at hi
      obtain ⟨cs, hcs, rfl⟩ := hi
      exact ⟨fun c hc => hl cs (List.mem_of_getElem? hcs) c hc, rfl, trivial⟩
  | succ n ih =>
    obtain ⟨base, ih⟩ := ih
    exact step_ok ih (f n)

/-- The calls of a goroutine are those of its script, in order. -/
theorem run_script (s : S) (scripts : List (List (P S R))) (f : Nat → Nat) (n i : Nat) (g : G S R) (hg : (run f (start s scripts) n).gs[i]? = some g) :
    scripts[i]? = some (g.done.map (·.call) ++ (g.cur.map (·.1)).toList ++ g.todo) := by
  induction n generalizing i g with
  | zero =>
    simp only [run, start, List.getElem?_map, Option.map_eq_some_iff] at hg
    obtain ⟨cs, hcs, rfl⟩ := hg
    simpa using hcs
  | succ n ih =>
    have key : ∀ (g0 g' : G S R), (run f (start s scripts) n).gs[f n]? = some g0 →
        (g'.done.map (·.call) ++ (g'.cur.map (·.1)).toList ++ g'.todo) = (g0.done.map (·.call) ++ (g0.cur.map (·.1)).toList ++ g0.todo) →
        ((run f (start s scripts) n).gs.set (f n) g')[i]? = some g → scripts[i]? = some (g.done.map (·.call) ++ (g.cur.map (·.1)).toList ++ g.todo) := by
      intro g0 g' h0 he hset
      rcases get_set h0 hset with ⟨rfl, rfl⟩ | ⟨_, h⟩
      · rw [he]
        exact ih _ _ h0
      · exact ih _ _ h
    have hg : (step (run f (start s scripts) n) n (f n)).gs[i]? = some g := hg
    unfold step at hg
    split at hg
    · exact ih _ _ hg
    · rename_i g0 h0
      split at hg
      · rename_i hc
        split at hg
        · exact ih _ _ hg
        · rename_i c r ht
          exact key g0 _ h0 (by simp [hc, ht]) hg
      · rename_i c x a hc
        exact key g0 _ h0 (by simp [hc]) hg
      · rename_i c k a hc
        exact key g0 _ h0 (by simp [hc]) hg
      · rename_i c s' k a hc
        exact key g0 _ h0 (by simp [hc]) hg
      · rename_i c m k a hc
        split at hg
        · exact key g0 _ h0 (by simp [hc]) hg
        · exact ih _ _ hg
      · rename_i c k a hc
        exact key g0 _ h0 (by simp [hc]) hg

/-- **C107.** Goroutines make calls on one tree or overlay, each call under its lock, those under `RLock` without changing anything, interleaved in any way. There are moments, one for each call that has
returned (and perhaps one for the call each goroutine is in), lying within the calls, such that making the calls one after the other in the order of these moments, each alone, gives every call the
result it returned, and gives the state in which they leave the tree or overlay. -/
theorem C107_moments_partial (s : S) (scripts : List (List (P S R))) (hl : ∀ cs ∈ scripts, ∀ c ∈ cs, Locked c) (f : Nat → Nat) (n : Nat) :
    ∃ lin s', Replays s lin s' ∧ lin.Pairwise (fun e e' => e.time < e'.time) ∧
      (noWriter (run f (start s scripts) n).gs = true → (run f (start s scripts) n).s = s') ∧
      ∀ (i : Nat) (g : G S R), (run f (start s scripts) n).gs[i]? = some g →
        ∃ L extra, lin.filter (·.who = i) = L ++ extra ∧ extra.length ≤ 1 ∧ (g.cur.isNone → extra = []) ∧ Within L g.done ∧
          ∃ rest, scripts[i]? = some (g.done.map (·.call) ++ rest) := by
  obtain ⟨base, h⟩ := run_ok s scripts hl f n
  refine ⟨_, base, h.replays, h.times, h.same, ?_⟩
  intro i g hg
  have hs := run_script s scripts f n i g hg
  have hgood := h.good i g hg
  have rest : ∃ rest, scripts[i]? = some (g.done.map (·.call) ++ rest) := ⟨_, by rw [hs, List.append_assoc]⟩
  obtain ⟨_, hcur⟩ := hgood
  cases hc : g.cur with
  | none =>
    rw [hc] at hcur
    exact ⟨_, [], (List.append_nil _).symm, Nat.zero_le _, fun _ => rfl, hcur.2, rest⟩
  | some cp =>
    obtain ⟨c, p, a⟩ := cp
    rw [hc] at hcur
    rcases hcur.2 with ⟨_, _, _, hw⟩ | ⟨_, _, _, _, _, _, hw⟩ | ⟨x, L', e, _, _, hLe, hw, _⟩
    · exact ⟨_, [], (List.append_nil _).symm, Nat.zero_le _, (fun h => by cases h), hw, rest⟩
    · exact ⟨_, [], (List.append_nil _).symm, Nat.zero_le _, (fun h => by cases h), hw, rest⟩
    · exact ⟨L', [e], hLe, Nat.le_refl _, (fun h => by cases h), hw, rest⟩

/-! ## Which calls are like that -/

/-- How often a call locks the tree (of synthfs) or the state (of an overlay) it is made on. -/
def Call.locks (l : Lock) (c : Call) : Nat := c.code.ops.count (.acq l .r) + c.code.ops.count (.acq l .w)

def Code.locks (l : Lock) (c : Code) : Nat := c.ops.count (.acq l .r) + c.ops.count (.acq l .w)

theorem locks_done (l : Lock) : Code.locks l .done = 0 := rfl

theorem locks_lock (l l' : Lock) (m : Mode) (a b : Code) : Code.locks l (.lock l' m a b) = (if l' = l then 1 else 0) + Code.locks l a + Code.locks l b := by
  unfold Code.locks
  simp only [Code.ops, List.count_cons, List.count_append]
  by_cases h : l' = l
  · subst h
    cases m <;> simp <;> omega
  · cases m <;> simp [h] <;> omega

theorem locks_seq (l : Lock) (a b : Code) : Code.locks l (a.seq b) = Code.locks l a + Code.locks l b := by
  induction a with
  | done => simp [Code.seq, locks_done]
  | lock l' m x y _ ih =>
    simp only [Code.seq, locks_lock, ih]
    omega

theorem locks_under (l l' : Lock) (m : Mode) (a : Code) : Code.locks l (under l' m a) = (if l' = l then 1 else 0) + Code.locks l a := by
  unfold under
  rw [locks_lock, locks_done, Nat.add_zero]

theorem locks_above {c : Code} : ∀ {k : Nat} {l : Lock}, c.Above k → l.rank < k → Code.locks l c = 0 := by
  induction c with
  | done => intro _ _ _ _; rfl
  | lock l' m' inner rest ih1 ih2 =>
    intro k l h hl
    have hne : l' ≠ l := by
      intro he
      subst he
      have := h.1
      omega
    rw [locks_lock, if_neg hne, ih1 h.2.1 (by have := h.1; omega), ih2 h.2.2 hl]

/-- The filesystem a call is made on. -/
def fsOf : Call → Fs
  | .inspect t _ | .change t _ | .addFile t _ _ | .openFile t _ _ _ | .closeFile t _ _ _ | .useFile t _ _ | .closeDir t _ _ | .readDir t _ _ => t
  | .oInspect t _ | .oOpen t _ | .oOpenWrite t _ | .oChange t _ _ | .oCloseFile t _ _ | .oCloseDir t _ _ | .oDirStat t _ _ | .oReadDir t _ _ _ | .oDirChange t _ _ _ _ => t
  | .tarDir t _ _ | .tarRead t _ _ | .tarUse t _ _ | .sftpDir t _ _ | .lane t _ => t

/-- `Chmod` and `Chown` of an open directory of an overlay: they lock twice. -/
def isDirChange : Call → Bool
  | .oDirChange .. => true
  | _ => false

set_option linter.unusedSimpArgs false in
/-- **C107** (one lock). Every call locks the tree it is made on at most once, and the overlay it is made on at most once, except `Chmod` and `Chown` of an open directory of an overlay. -/
theorem C107_once (c : Call) (h : c.Ok) (l : Lock) (hl : l = (fsOf c).l .tree ∨ l = (fsOf c).l .ostate) (hd : isDirChange c = false) : Call.locks l c ≤ 1 := by
  show Code.locks l c.code ≤ 1
  have T : ∀ {v : Code} {t : Fs} {k : Kind}, v.Above (16 * t.lvl + 7) → k.place < 7 → Code.locks ⟨t, k⟩ v = 0 := by
    intro v t k hv hk
    exact locks_above hv (by simp only [Lock.rank]; omega)
  have O : ∀ {v : Code} {t : Fs} {k : Kind}, v.Above (16 * (t.lvl + 1)) → k.place < 16 → Code.locks ⟨t, k⟩ v = 0 := by
    intro v t k hv hk
    exact locks_above hv (by simp only [Lock.rank]; omega)
  have p1 : Kind.tree.place < 7 := by decide
  have p2 : Kind.ostate.place < 7 := by decide
  have q1 : Kind.tree.place < 16 := by decide
  have q2 : Kind.ostate.place < 16 := by decide
  cases c with
  | oDirChange o n a b c => cases hd
  | inspect t v => rcases hl with rfl | rfl <;> simp [fsOf, Call.code, locks_under, locks_seq, locks_done, T h p1, T h p2, Fs.l]
  | change t v => rcases hl with rfl | rfl <;> simp [fsOf, Call.code, locks_under, locks_seq, locks_done, T h p1, T h p2, Fs.l]
  | addFile t ask v => rcases hl with rfl | rfl <;> simp [fsOf, Call.code, locks_under, locks_seq, locks_done, T h.1 p1, T h.1 p2, T h.2 p1, T h.2 p2, Fs.l]
  | openFile t n v tr =>
    cases tr with
    | none => rcases hl with rfl | rfl <;> simp [fsOf, Call.code, locks_under, locks_seq, locks_done, T h.1 p1, T h.1 p2, Fs.l]
    | some x =>
      obtain ⟨c, failed⟩ := x
      obtain ⟨h2, rfl⟩ := h.2 c failed rfl
      rcases hl with rfl | rfl <;> simp [fsOf, Call.code, locks_under, locks_seq, locks_done, T h.1 p1, T h.1 p2, T h2 p1, T h2 p2, Fs.l]
  | closeFile t n again v => cases again <;> rcases hl with rfl | rfl <;> simp [fsOf, Call.code, locks_under, locks_seq, locks_done, T h p1, T h p2, Fs.l]
  | useFile t n v => rcases hl with rfl | rfl <;> simp [fsOf, Call.code, locks_under, locks_seq, locks_done, T h p1, T h p2, Fs.l]
  | closeDir t n again => cases again <;> rcases hl with rfl | rfl <;> simp [fsOf, Call.code, locks_under, locks_seq, locks_done, Fs.l]
  | readDir t n look => cases look <;> rcases hl with rfl | rfl <;> simp [fsOf, Call.code, locks_under, locks_seq, locks_done, Fs.l]
  | oInspect t v => rcases hl with rfl | rfl <;> simp [fsOf, Call.code, locks_under, locks_seq, locks_done, O h q1, O h q2, Fs.l]
  | oOpen t v => rcases hl with rfl | rfl <;> simp [fsOf, Call.code, locks_under, locks_seq, locks_done, O h q1, O h q2, Fs.l]
  | oOpenWrite t v => rcases hl with rfl | rfl <;> simp [fsOf, Call.code, locks_under, locks_seq, locks_done, O h q1, O h q2, Fs.l]
  | oChange t count v => cases count <;> rcases hl with rfl | rfl <;> simp [fsOf, Call.code, locks_under, locks_seq, locks_done, O h q1, O h q2, Fs.l]
  | oCloseFile t n v => rcases hl with rfl | rfl <;> simp [fsOf, Call.code, locks_under, locks_seq, locks_done, O h q1, O h q2, Fs.l]
  | oCloseDir t n v => rcases hl with rfl | rfl <;> simp [fsOf, Call.code, locks_under, locks_seq, locks_done, O h q1, O h q2, Fs.l]
  | oDirStat t n v => rcases hl with rfl | rfl <;> simp [fsOf, Call.code, locks_under, locks_seq, locks_done, O h q1, O h q2, Fs.l]
  | oReadDir t n load v =>
    cases load with
    | none => rcases hl with rfl | rfl <;> simp [fsOf, Call.code, locks_under, locks_seq, locks_done, O h.2 q1, O h.2 q2, Fs.l]
    | some w => rcases hl with rfl | rfl <;> simp [fsOf, Call.code, locks_under, locks_seq, locks_done, O h.2 q1, O h.2 q2, O (h.1 w rfl) q1, O (h.1 w rfl) q2, Fs.l]
  | tarDir t n twice => cases twice <;> rcases hl with rfl | rfl <;> simp [fsOf, Call.code, locks_under, locks_seq, locks_done, Fs.l]
  | tarRead t n v => rcases hl with rfl | rfl <;> simp [fsOf, Call.code, locks_under, locks_seq, locks_done, O h q1, O h q2, Fs.l]
  | tarUse t n v => rcases hl with rfl | rfl <;> simp [fsOf, Call.code, locks_under, locks_seq, locks_done, O h q1, O h q2, Fs.l]
  | sftpDir t n v => rcases hl with rfl | rfl <;> simp [fsOf, Call.code, locks_under, locks_seq, locks_done, O h q1, O h q2, Fs.l]
  | lane t v => rcases hl with rfl | rfl <;> simp [fsOf, Call.code, locks_under, locks_seq, locks_done, O h q1, O h q2, Fs.l]

/-! ## What does not hold -/

/-- Two files of a directory, by their permission bits. -/
abbrev Modes := Nat × Nat

/-- synthfs/chmod.go: `Chmod` of the first and of the second file, in small steps. -/
def chmod1 (m : Nat) : P Modes Modes := underLock .w (.get fun s => .put (m, s.2) (.ret (0, 0)))
def chmod2 (m : Nat) : P Modes Modes := underLock .w (.get fun s => .put (s.1, m) (.ret (0, 0)))

/-- synthfs/handle_dir.go 121-158 `readEntries` and `ReadDir`: the entries are listed under the lock (`h.st.mu.RUnlock` at the end of `readEntries`); their metadata is read one by one afterwards. -/
def readDir : P Modes Modes := .lock .r (.get fun _ => .unlock (.get fun s => .get fun s' => .ret (s.1, s'.2)))

/-- Goroutine 0 lists while goroutine 1 changes the first file and then the second. -/
def race : St Modes Modes := start (0, 0) [[readDir], [chmod1 1, chmod2 1]]

/-- The listing reads the first file before both changes and the second after them. -/
def raceSchedule (n : Nat) : Nat := if n < 5 then 0 else if n < 17 then 1 else 0

/-- **C107** does not hold for `ReadDir` and `Readdir` of a synthetic directory: a listing can show the second of two changes without the first, which at no moment was so. -/
theorem C107_counterexample_readdir :
    (((run raceSchedule race 20).gs[0]?).map (fun g => g.done.map (·.res))) = some [(0, 1)] ∧
    (((run raceSchedule race 20).gs[1]?).map (fun g => g.done.map (·.res))) = some [(0, 0), (0, 0)] ∧
    ∀ k, (readDir.alone (([chmod1 1, chmod2 1].take k).foldl (fun s c => (c.alone s).1) (0, 0))).2 ≠ (0, 1) := by
  refine ⟨by decide, by decide, ?_⟩
  intro k
  match k with
  | 0 => decide
  | 1 => decide
  | k + 2 =>
    rw [List.take_of_length_le (by simp)]
    decide

/-- The repair: the metadata is read under the lock. -/
def readDirLocked : P Modes Modes := underLock .r (.get fun s => .get fun s' => .ret (s.1, s'.2))

/-- The calls of the example, with the repair, meet the hypothesis of C107. -/
example : ∀ cs ∈ [[readDirLocked], [chmod1 1, chmod2 1]], ∀ c ∈ cs, Locked c := by
  intro cs hcs c hc
  simp only [List.mem_cons, List.not_mem_nil, or_false] at hcs
  rcases hcs with rfl | rfl <;> simp only [List.mem_cons, List.not_mem_nil, or_false] at hc
  · subst hc
    exact ⟨.r, _, rfl, fun _ s s' => trivial⟩
  · rcases hc with rfl | rfl
    · exact ⟨.w, _, rfl, fun h => by cases h⟩
    · exact ⟨.w, _, rfl, fun h => by cases h⟩

/-- And it does return something in between when it runs in between. -/
example : (((run (fun n => if n < 6 then 1 else if n < 12 then 0 else 1) (start (0, 0) [[readDirLocked], [chmod1 1, chmod2 1]]) 20).gs[0]?).map (fun g => g.done.map (fun d => (d.res, d.made, d.back)))) =
    some [((1, 0), 6, 11)] := by decide

end Verif.Locks.Atomic
