import Verif.Locks.Model
/-
Calls never wait for each other for good (C106).
-/
namespace Verif.Locks
open Verif

/-! ## Locking in order -/

/-- The place of a lock among those of its filesystem. -/
def Kind.place : Kind → Nat
  | .mdir _ => 0
  | .ostate => 1
  | .once _ => 2
  | .tracker => 3
  | .handle _ => 4
  | .tree => 5
  | .young _ => 6
  | .mem _ => 7
  | .buf _ => 8
  | .tdir _ => 9
  | .tfile _ => 9
  | .tread _ => 10
  | .sdir _ => 9
  | .lane => 9

/-- The place of a lock among all. -/
def Lock.rank (l : Lock) : Nat := 16 * l.fs.lvl + l.kind.place

/-- A goroutine that holds `held` locks upwards, unlocks what it holds, and holds nothing in the end. -/
def Ordered : List (Lock × Mode) → List Op → Prop
  | held, [] => held = []
  | held, .acq l m :: r => (∀ h ∈ held, h.1.rank < l.rank) ∧ Ordered ((l, m) :: held) r
  | held, .rel l m :: r => (l, m) ∈ held ∧ Ordered (held.erase (l, m)) r

def Inv (s : Sys) : Prop := ∀ t ∈ s, Ordered t.held t.todo

def Thread.weight (t : Thread) : Nat := 2 * t.todo.length + (if t.pending then 0 else 1)
def weight (s : Sys) : Nat := (s.map Thread.weight).sum

theorem weight_set (s : Sys) (i : Nat) (t t' : Thread) (hi : s[i]? = some t) : weight (s.set i t') + t.weight = weight s + t'.weight := by
  induction s generalizing i with
  | nil => cases hi
  | cons a s ih =>
    cases i with
    | zero =>
      injection hi with hi
      subst hi
      simp only [weight, List.set_cons_zero, List.map_cons, List.sum_cons]
      omega
    | succ i =>
      have := ih i (by simpa using hi)
      simp only [weight, List.set_cons_succ, List.map_cons, List.sum_cons] at this ⊢
      omega

/-- An attempt either does nothing or uses something up. -/
theorem step_weight (s : Sys) (i : Nat) (b : Bool) : step s i b = s ∨ weight (step s i b) < weight s := by
  unfold step
  split
  · exact Or.inl rfl
  · rename_i t ht
    split
    · exact Or.inl rfl
    · rename_i l m r hd
      right
      have := weight_set s i t ⟨r, t.held.erase (l, m), false⟩ ht
      simp only [Thread.weight, hd, List.length_cons, Bool.false_eq_true, if_false] at this
      split at this <;> omega
    · rename_i l r hd
      split
      · rename_i hp
        split
        · right
          have := weight_set s i t ⟨r, (l, .w) :: t.held, false⟩ ht
          simp only [Thread.weight, hd, hp, List.length_cons, Bool.false_eq_true, if_false, if_true] at this
          omega
        · exact Or.inl rfl
      · rename_i hp
        right
        have := weight_set s i t ⟨t.todo, t.held, true⟩ ht
        simp only [Thread.weight, hp, if_true, Bool.false_eq_true, if_false] at this
        omega
    · rename_i l r hd
      split
      · right
        have := weight_set s i t ⟨r, (l, .r) :: t.held, false⟩ ht
        simp only [Thread.weight, hd, List.length_cons, Bool.false_eq_true, if_false] at this
        split at this <;> omega
      · exact Or.inl rfl

theorem mem_set {s : Sys} {i : Nat} {t' x : Thread} (h : x ∈ s.set i t') : x ∈ s ∨ x = t' := List.mem_or_eq_of_mem_set h

theorem step_inv (s : Sys) (i : Nat) (b : Bool) (h : Inv s) : Inv (step s i b) := by
  unfold step
  split
  · exact h
  · rename_i t ht
    have hm : t ∈ s := List.mem_of_getElem? ht
    have hT := h t hm
    split
    · exact h
    · rename_i l m r hd
      rw [hd] at hT
      intro x hx
      rcases mem_set hx with hx | rfl
      · exact h x hx
      · exact hT.2
    · rename_i l r hd
      split
      · split
        · rw [hd] at hT
          intro x hx
          rcases mem_set hx with hx | rfl
          · exact h x hx
          · exact hT.2
        · exact h
      · intro x hx
        rcases mem_set hx with hx | rfl
        · exact h x hx
        · exact hT
    · rename_i l r hd
      split
      · rw [hd] at hT
        intro x hx
        rcases mem_set hx with hx | rfl
        · exact h x hx
        · exact hT.2
      · exact h

/-! ## Someone can go on -/

theorem free_iff (s : Sys) (l : Lock) : free s l = true ↔ ∀ t ∈ s, ∀ h ∈ t.held, h.1 ≠ l := by
  simp [free, List.all_eq_true]

theorem noWriter_of_free {s : Sys} {l : Lock} (h : free s l = true) : noWriter s l = true := by
  rw [free_iff] at h
  simp only [noWriter, List.all_eq_true]
  intro t ht x hx
  have := h t ht x hx
  simp only [ne_eq, decide_eq_true_eq]
  intro he
  exact this (by rw [he])

/-- Going on, whatever the runtime decides. -/
def Goes (s : Sys) (i : Nat) : Prop := ∀ b, weight (step s i b) < weight s

theorem goes_rel {s : Sys} {i : Nat} {t : Thread} {l : Lock} {m : Mode} {r : List Op} (ht : s[i]? = some t) (hd : t.todo = .rel l m :: r) : Goes s i := by
  intro b
  rcases step_weight s i b with h | h
  · exfalso
    have hw := weight_set s i t ⟨r, t.held.erase (l, m), false⟩ ht
    have hs : step s i b = s.set i ⟨r, t.held.erase (l, m), false⟩ := by unfold step; rw [ht]; simp only [hd]
    rw [hs] at h
    rw [h] at hw
    simp only [Thread.weight, hd, List.length_cons, Bool.false_eq_true, if_false] at hw
    split at hw <;> omega
  · exact h

theorem goes_write {s : Sys} {i : Nat} {t : Thread} {l : Lock} {r : List Op} (ht : s[i]? = some t) (hd : t.todo = .acq l .w :: r) (hf : free s l = true) : Goes s i := by
  intro b
  rcases step_weight s i b with h | h
  · exfalso
    cases hp : t.pending with
    | true =>
      have hw := weight_set s i t ⟨r, (l, .w) :: t.held, false⟩ ht
      have hs : step s i b = s.set i ⟨r, (l, .w) :: t.held, false⟩ := by unfold step; rw [ht]; simp only [hd, hp, hf, if_true]
      rw [hs] at h
      rw [h] at hw
      simp only [Thread.weight, hd, hp, List.length_cons, Bool.false_eq_true, if_false, if_true] at hw
      omega
    | false =>
      have hw := weight_set s i t ⟨t.todo, t.held, true⟩ ht
      have hs : step s i b = s.set i ⟨t.todo, t.held, true⟩ := by
        unfold step; rw [ht]; simp only [hd, hp, Bool.false_eq_true, if_false]
      rw [hs] at h
      rw [h] at hw
      simp only [Thread.weight, hp, Bool.false_eq_true, if_false, if_true] at hw
      omega
  · exact h

theorem goes_read {s : Sys} {i : Nat} {t : Thread} {l : Lock} {r : List Op} (ht : s[i]? = some t) (hd : t.todo = .acq l .r :: r) (hf : free s l = true) (hn : noPending s l = true) :
    Goes s i := by
  intro b
  rcases step_weight s i b with h | h
  · exfalso
    have hw := weight_set s i t ⟨r, (l, .r) :: t.held, false⟩ ht
    have hs : step s i b = s.set i ⟨r, (l, .r) :: t.held, false⟩ := by
      unfold step; rw [ht]; simp only [hd, noWriter_of_free hf, hn, Bool.or_true, Bool.and_self, if_true]
    rw [hs] at h
    rw [h] at hw
    simp only [Thread.weight, hd, List.length_cons, Bool.false_eq_true, if_false] at hw
    split at hw <;> omega
  · exact h

/-- If nobody holds the lock someone wants, someone can go on. -/
theorem goes_free {s : Sys} {i : Nat} {t : Thread} {l : Lock} {m : Mode} {r : List Op} (ht : s[i]? = some t) (hd : t.todo = .acq l m :: r) (hf : free s l = true) :
    ∃ j, Goes s j := by
  cases m with
  | w => exact ⟨i, goes_write ht hd hf⟩
  | r =>
    cases hn : noPending s l with
    | true => exact ⟨i, goes_read ht hd hf hn⟩
    | false =>
      have : ∃ t' ∈ s, t'.todo.head? = some (.acq l .w) := by
        apply Classical.byContradiction
        intro hno
        have : noPending s l = true := by
          simp only [noPending, List.all_eq_true]
          intro t' ht'
          simp only [Bool.not_eq_true', Bool.and_eq_false_iff, decide_eq_false_iff_not]
          exact Or.inr (fun hh => hno ⟨t', ht', hh⟩)
        rw [this] at hn
        cases hn
      obtain ⟨t', ht', hh⟩ := this
      obtain ⟨j, hj, hjt⟩ := List.getElem_of_mem ht'
      have hj' : s[j]? = some t' := by rw [List.getElem?_eq_getElem hj, hjt]
      cases htd : t'.todo with
      | nil => rw [htd] at hh; cases hh
      | cons o r' =>
        rw [htd] at hh
        injection hh with hh
        subst hh
        exact ⟨j, goes_write hj' htd hf⟩

theorem exists_max (L : List Lock) (h : L ≠ []) : ∃ x ∈ L, ∀ y ∈ L, y.rank ≤ x.rank := by
  induction L with
  | nil => exact absurd rfl h
  | cons a L ih =>
    by_cases hL : L = []
    · subst hL
      exact ⟨a, by simp, by simp⟩
    · obtain ⟨x, hx, hmax⟩ := ih hL
      by_cases hax : x.rank ≤ a.rank
      · refine ⟨a, by simp, ?_⟩
        intro y hy
        rcases List.mem_cons.mp hy with rfl | hy
        · exact Nat.le_refl _
        · exact Nat.le_trans (hmax y hy) hax
      · refine ⟨x, by simp [hx], ?_⟩
        intro y hy
        rcases List.mem_cons.mp hy with rfl | hy
        · omega
        · exact hmax y hy

theorem someone_goes (s : Sys) (h : Inv s) (hu : ¬ finished s) : ∃ i, Goes s i := by
  by_cases hheld : (s.flatMap fun t => t.held.map (·.1)) = []
  · have hfree : ∀ l, free s l = true := by
      intro l
      rw [free_iff]
      intro t ht x hx
      have : x.1 ∈ s.flatMap fun t => t.held.map (·.1) := List.mem_flatMap.mpr ⟨t, ht, List.mem_map.mpr ⟨x, hx, rfl⟩⟩
      rw [hheld] at this
      cases this
    have : ∃ t ∈ s, t.todo ≠ [] := by
      apply Classical.byContradiction
      intro hno
      exact hu (fun t ht => Classical.byContradiction fun hh => hno ⟨t, ht, hh⟩)
    obtain ⟨t, ht, hd⟩ := this
    obtain ⟨i, hi, hit⟩ := List.getElem_of_mem ht
    have hi' : s[i]? = some t := by rw [List.getElem?_eq_getElem hi, hit]
    cases htd : t.todo with
    | nil => exact absurd htd hd
    | cons o r =>
      cases o with
      | rel l m => exact ⟨i, goes_rel hi' htd⟩
      | acq l m => exact goes_free hi' htd (hfree l)
  · obtain ⟨x, hx, hmax⟩ := exists_max _ hheld
    obtain ⟨t, ht, hx⟩ := List.mem_flatMap.mp hx
    obtain ⟨e, he, rfl⟩ := List.mem_map.mp hx
    obtain ⟨i, hi, hit⟩ := List.getElem_of_mem ht
    have hi' : s[i]? = some t := by rw [List.getElem?_eq_getElem hi, hit]
    have hO := h t ht
    cases htd : t.todo with
    | nil =>
      rw [htd] at hO
      have hO : t.held = [] := hO
      rw [hO] at he
      cases he
    | cons o r =>
      rw [htd] at hO
      cases o with
      | rel l m => exact ⟨i, goes_rel hi' htd⟩
      | acq l m =>
        refine goes_free hi' htd ?_
        rw [free_iff]
        intro t' ht' e' he' heq
        have h1 := hmax e'.1 (List.mem_flatMap.mpr ⟨t', ht', List.mem_map.mpr ⟨e', he', rfl⟩⟩)
        have h2 := hO.1 e he
        rw [heq] at h1
        omega

/-! ## Everyone gets through -/

theorem run_inv {s : Sys} (h : Inv s) (f : Nat → Nat × Bool) : ∀ n, Inv (run f s n) := by
  intro n
  induction n with
  | zero => exact h
  | succ n ih => exact step_inv _ _ _ ih

theorem run_mono (f : Nat → Nat × Bool) (s : Sys) (n : Nat) : ∀ k, run f s (n + k) = run f s n ∨ weight (run f s (n + k)) < weight (run f s n) := by
  intro k
  induction k with
  | zero => exact Or.inl rfl
  | succ k ih =>
    show step (run f s (n + k)) (f (n + k)).1 (f (n + k)).2 = _ ∨ weight (step (run f s (n + k)) (f (n + k)).1 (f (n + k)).2) < _
    have h2 := step_weight (run f s (n + k)) (f (n + k)).1 (f (n + k)).2
    rcases ih with ih | ih
    · rw [ih] at h2 ⊢
      exact h2
    · right
      rcases h2 with h2 | h2
      · rw [h2]; exact ih
      · exact Nat.lt_trans h2 ih

theorem step_length (s : Sys) (i : Nat) (b : Bool) : (step s i b).length = s.length := by
  unfold step
  repeat' split
  all_goals first | rfl | exact List.length_set

theorem run_length (f : Nat → Nat × Bool) (s : Sys) : ∀ n, (run f s n).length = s.length := by
  intro n
  induction n with
  | zero => rfl
  | succ n ih => exact (step_length _ _ _).trans ih

theorem goes_lt {s : Sys} {i : Nat} (h : Goes s i) : i < s.length := by
  apply Classical.byContradiction
  intro hi
  have := h true
  unfold step at this
  rw [List.getElem?_eq_none (by omega)] at this
  exact absurd this (Nat.lt_irrefl _)

theorem all_finish {s : Sys} (h : Inv s) (f : Nat → Nat × Bool) (hf : ∀ i, i < s.length → ∀ n, ∃ m, n ≤ m ∧ (f m).1 = i) : ∃ n, finished (run f s n) := by
  have key : ∀ M n, weight (run f s n) ≤ M → ∃ n, finished (run f s n) := by
    intro M
    induction M with
    | zero =>
      intro n hn
      by_cases hfin : finished (run f s n)
      · exact ⟨n, hfin⟩
      · obtain ⟨i, hi⟩ := someone_goes _ (run_inv h f n) hfin
        have := hi true
        omega
    | succ M ih =>
      intro n hn
      by_cases hfin : finished (run f s n)
      · exact ⟨n, hfin⟩
      · obtain ⟨i, hi⟩ := someone_goes _ (run_inv h f n) hfin
        obtain ⟨m, hm, hfm⟩ := hf i (by rw [← run_length f s n]; exact goes_lt hi) n
        obtain ⟨k, rfl⟩ := Nat.exists_eq_add_of_le hm
        refine ih (n + k + 1) ?_
        show weight (step (run f s (n + k)) (f (n + k)).1 (f (n + k)).2) ≤ M
        rcases run_mono f s n k with he | hlt
        · rw [he, hfm]
          have := hi (f (n + k)).2
          omega
        · rcases step_weight (run f s (n + k)) (f (n + k)).1 (f (n + k)).2 with h2 | h2
          · rw [h2]; omega
          · omega
  exact key _ 0 (Nat.le_refl _)

/-! ## Code that locks upwards -/

/-- Everything locked is at `k` or above, and what is locked while something is held is above that. -/
def Code.Above (k : Nat) : Code → Prop
  | .done => True
  | .lock l _ inner rest => k ≤ l.rank ∧ inner.Above (l.rank + 1) ∧ rest.Above k

theorem above_mono {c : Code} : ∀ {k k' : Nat}, k' ≤ k → c.Above k → c.Above k' := by
  induction c with
  | done => intro _ _ _ _; trivial
  | lock l m inner rest _ ih => intro k k' hk h; exact ⟨Nat.le_trans hk h.1, h.2.1, ih hk h.2.2⟩

theorem above_seq {c c' : Code} {k : Nat} (h : c.Above k) (h' : c'.Above k) : (c.seq c').Above k := by
  induction c with
  | done => exact h'
  | lock l m inner rest _ ih => exact ⟨h.1, h.2.1, ih h.2.2⟩

theorem above_under {l : Lock} {m : Mode} {c : Code} {k : Nat} (hk : k ≤ l.rank) (h : c.Above (l.rank + 1)) : (under l m c).Above k := ⟨hk, h, trivial⟩

theorem ordered_code : ∀ (c : Code) (k : Nat) (held : List (Lock × Mode)) (r : List Op), c.Above k → (∀ h ∈ held, h.1.rank < k) → Ordered held r → Ordered held (c.ops ++ r) := by
  intro c
  induction c with
  | done => intro _ _ _ _ _ h; exact h
  | lock l m inner rest ih1 ih2 =>
    intro k held r h hh hr
    show Ordered held (.acq l m :: ((inner.ops ++ .rel l m :: rest.ops) ++ r))
    refine ⟨fun x hx => Nat.lt_of_lt_of_le (hh x hx) h.1, ?_⟩
    rw [List.append_assoc]
    refine ih1 (l.rank + 1) _ _ h.2.1 ?_ ?_
    · intro x hx
      rcases List.mem_cons.mp hx with rfl | hx
      · exact Nat.lt_succ_self _
      · have := hh x hx; have := h.1; omega
    · show Ordered ((l, m) :: held) (.rel l m :: (rest.ops ++ r))
      refine ⟨by simp, ?_⟩
      rw [List.erase_cons_head]
      exact ih2 k held r h.2.2 hh hr

theorem ordered_calls (cs : List Code) (h : ∀ c ∈ cs, c.Above 0) : Ordered [] ((cs.map Code.ops).flatten) := by
  induction cs with
  | nil => rfl
  | cons c cs ih =>
    rw [List.map_cons, List.flatten_cons]
    exact ordered_code c 0 [] _ (h c (by simp)) (by simp) (ih (fun x hx => h x (by simp [hx])))

/-! ## The calls of the library -/

/-- What a call calls into locks only filesystems further down the stack, or, for views of a synthetic tree, files in memory; and no view fails to truncate. -/
def Call.Ok : Call → Prop
  | .inspect t v => v.Above (16 * t.lvl + 7)
  | .change t v => v.Above (16 * t.lvl + 7)
  | .addFile t ask v => ask.Above (16 * t.lvl + 7) ∧ v.Above (16 * t.lvl + 7)
  | .openFile t _ v tr => v.Above (16 * t.lvl + 7) ∧ ∀ c failed, tr = some (c, failed) → c.Above (16 * t.lvl + 7) ∧ failed = false
  | .closeFile t _ _ v => v.Above (16 * t.lvl + 7)
  | .useFile t _ v => v.Above (16 * t.lvl + 7)
  | .closeDir _ _ _ => True
  | .readDir _ _ _ => True
  | .oInspect o v => v.Above (16 * (o.lvl + 1))
  | .oOpen o v => v.Above (16 * (o.lvl + 1))
  | .oOpenWrite o v => v.Above (16 * (o.lvl + 1))
  | .oChange o _ v => v.Above (16 * (o.lvl + 1))
  | .oCloseFile o _ v => v.Above (16 * (o.lvl + 1))
  | .oCloseDir o _ v => v.Above (16 * (o.lvl + 1))
  | .oDirStat o _ v => v.Above (16 * (o.lvl + 1))
  | .oReadDir o _ load v => (∀ c, load = some c → c.Above (16 * (o.lvl + 1))) ∧ v.Above (16 * (o.lvl + 1))
  | .oDirChange o _ a b c => a.Above (16 * (o.lvl + 1)) ∧ b.Above (16 * (o.lvl + 1)) ∧ c.Above (16 * (o.lvl + 1))
  | .tarDir _ _ _ => True
  | .tarRead t _ v => v.Above (16 * (t.lvl + 1))
  | .tarUse t _ v => v.Above (16 * (t.lvl + 1))
  | .sftpDir t _ v => v.Above (16 * (t.lvl + 1))
  | .lane t v => v.Above (16 * (t.lvl + 1))

theorem call_above (c : Call) (h : c.Ok) : c.code.Above 0 := by
  have U : ∀ {l : Lock} {m : Mode} {c : Code} {k : Nat}, k ≤ l.rank → c.Above (l.rank + 1) → (under l m c).Above k := fun a b => above_under a b
  have D : ∀ {k}, Code.done.Above k := trivial
  cases c with
  | inspect t v => exact U (Nat.zero_le _) (above_mono (by simp only [Lock.rank, Fs.l, Kind.place]; omega) h)
  | change t v => exact U (Nat.zero_le _) (above_mono (by simp only [Lock.rank, Fs.l, Kind.place]; omega) h)
  | addFile t ask v =>
    exact above_seq (above_mono (Nat.zero_le _) h.1) (U (Nat.zero_le _) (above_mono (by simp only [Lock.rank, Fs.l, Kind.place]; omega) h.2))
  | openFile t n v tr =>
    cases tr with
    | none => exact U (Nat.zero_le _) (above_mono (by simp only [Lock.rank, Fs.l, Kind.place]; omega) h.1)
    | some x =>
      obtain ⟨c, failed⟩ := x
      obtain ⟨h2, rfl⟩ := h.2 c failed rfl
      refine U (Nat.zero_le _) (above_seq (above_mono (by simp only [Lock.rank, Fs.l, Kind.place]; omega) h.1) (above_seq (U (by simp only [Lock.rank, Fs.l, Kind.place]; omega) D) ?_))
      exact above_seq (above_mono (by simp only [Lock.rank, Fs.l, Kind.place]; omega) h2) D
  | closeFile t n again v =>
    refine U (Nat.zero_le _) ?_
    split
    · exact D
    · exact above_seq (U (by simp only [Lock.rank, Fs.l, Kind.place]; omega) D) (above_mono (by simp only [Lock.rank, Fs.l, Kind.place]; omega) h)
  | useFile t n v => exact above_seq (U (Nat.zero_le _) D) (above_mono (Nat.zero_le _) h)
  | closeDir t n again =>
    refine U (Nat.zero_le _) ?_
    split
    · exact D
    · exact U (by simp only [Lock.rank, Fs.l, Kind.place]; omega) D
  | readDir t n look =>
    refine U (Nat.zero_le _) ?_
    split
    · exact U (by simp only [Lock.rank, Fs.l, Kind.place]; omega) D
    · exact D
  | oInspect o v => exact U (Nat.zero_le _) (above_mono (by simp only [Lock.rank, Fs.l, Kind.place]; omega) h)
  | oOpen o v =>
    exact U (Nat.zero_le _) (above_seq (above_mono (by simp only [Lock.rank, Fs.l, Kind.place]; omega) h) (U (by simp only [Lock.rank, Fs.l, Kind.place]; omega) D))
  | oOpenWrite o v =>
    exact U (Nat.zero_le _) (above_seq (above_mono (by simp only [Lock.rank, Fs.l, Kind.place]; omega) h) (U (by simp only [Lock.rank, Fs.l, Kind.place]; omega) D))
  | oChange o count v =>
    have hv : v.Above ((o.l .ostate).rank + 1) := above_mono (by simp only [Lock.rank, Fs.l, Kind.place]; omega) h
    refine U (Nat.zero_le _) ?_
    split
    · exact above_seq (U (by simp only [Lock.rank, Fs.l, Kind.place]; omega) D) hv
    · exact hv
  | oCloseFile o n v => exact above_seq (above_mono (Nat.zero_le _) h) (U (Nat.zero_le _) (U (by simp only [Lock.rank, Fs.l, Kind.place]; omega) D))
  | oCloseDir o n v =>
    exact above_seq (U (Nat.zero_le _) (above_mono (by simp only [Lock.rank, Fs.l, Kind.place]; omega) h)) (U (Nat.zero_le _) (U (by simp only [Lock.rank, Fs.l, Kind.place]; omega) D))
  | oDirStat o n v => exact U (Nat.zero_le _) (above_mono (by simp only [Lock.rank, Fs.l, Kind.place]; omega) h)
  | oReadDir o n load v =>
    have hv : v.Above ((o.l (.mdir n)).rank + 1) := above_mono (by simp only [Lock.rank, Fs.l, Kind.place]; omega) h.2
    refine U (Nat.zero_le _) ?_
    cases load with
    | none => exact hv
    | some w => exact above_seq (U (by simp only [Lock.rank, Fs.l, Kind.place]; omega) (above_mono (by simp only [Lock.rank, Fs.l, Kind.place]; omega) (h.1 w rfl))) hv
  | oDirChange o n a b c =>
    exact U (Nat.zero_le _) (above_seq (U (by simp only [Lock.rank, Fs.l, Kind.place]; omega) (above_mono (by simp only [Lock.rank, Fs.l, Kind.place]; omega) h.1))
      (above_seq (U (by simp only [Lock.rank, Fs.l, Kind.place]; omega) (above_mono (by simp only [Lock.rank, Fs.l, Kind.place]; omega) h.2.1))
        (above_mono (by simp only [Lock.rank, Fs.l, Kind.place]; omega) h.2.2)))
  | tarDir t n twice =>
    refine above_seq (U (Nat.zero_le _) D) ?_
    split
    · exact U (Nat.zero_le _) D
    · exact D
  | tarRead t n v => exact above_seq (U (Nat.zero_le _) D) (U (Nat.zero_le _) (above_mono (by simp only [Lock.rank, Fs.l, Kind.place]; omega) h))
  | tarUse t n v => exact above_seq (U (Nat.zero_le _) D) (above_mono (Nat.zero_le _) h)
  | sftpDir t n v => exact above_seq (U (Nat.zero_le _) (above_mono (by simp only [Lock.rank, Fs.l, Kind.place]; omega) h)) (U (Nat.zero_le _) D)
  | lane t v => exact U (Nat.zero_le _) (above_mono (by simp only [Lock.rank, Fs.l, Kind.place]; omega) h)

theorem start_inv (gs : List (List Call)) (hok : ∀ cs ∈ gs, ∀ c ∈ cs, c.Ok) : Inv (start (gs.map (·.map Call.code))) := by
  intro t ht
  simp only [start, List.map_map, List.mem_map, Function.comp] at ht
  obtain ⟨cs, hcs, rfl⟩ := ht
  refine ordered_calls _ ?_
  intro c hc
  obtain ⟨x, hx, rfl⟩ := List.mem_map.mp hc
  exact call_above x (hok cs hcs x hx)

/-- **C106.** Goroutines make any calls on any filesystems and handles, one after the other. If the code called into locks only further down, and no view fails to truncate what it was opened to
truncate, then every call of every goroutine returns, however they are scheduled, provided no goroutine is held back for good. -/
theorem C106_returns_partial (gs : List (List Call)) (hok : ∀ cs ∈ gs, ∀ c ∈ cs, c.Ok) (f : Nat → Nat × Bool)
    (hf : ∀ i, i < gs.length → ∀ n, ∃ m, n ≤ m ∧ (f m).1 = i) : ∃ n, finished (run f (start (gs.map (·.map Call.code))) n) := by
  exact all_finish (start_inv gs hok) f (by simpa [start] using hf)

/-- **C106** (no deadlock). However unfairly the goroutines were scheduled so far, if some call has not returned yet then some goroutine can go on at once. -/
theorem C106_never_stuck_partial (gs : List (List Call)) (hok : ∀ cs ∈ gs, ∀ c ∈ cs, c.Ok) (f : Nat → Nat × Bool) (n : Nat)
    (hu : ¬ finished (run f (start (gs.map (·.map Call.code))) n)) :
    ∃ i, ∀ b, step (run f (start (gs.map (·.map Call.code))) n) i b ≠ run f (start (gs.map (·.map Call.code))) n := by
  obtain ⟨i, hi⟩ := someone_goes _ (run_inv (start_inv gs hok) f n) hu
  refine ⟨i, fun b h => ?_⟩
  have := hi b
  rw [h] at this
  exact Nat.lt_irrefl _ this

/-! ## Who holds a lock -/

/-- **C106** (exclusion). While a goroutine holds a lock for writing no other holds it at all: what is done under the lock of a tree or of an overlay is one step for everyone else. -/
theorem C106_excludes (gs : List (List Code)) (f : Nat → Nat × Bool) (n : Nat) (i j : Nat) (ti tj : Thread) (l : Lock) (m : Mode)
    (hi : (run f (start gs) n)[i]? = some ti) (hj : (run f (start gs) n)[j]? = some tj) (hw : (l, Mode.w) ∈ ti.held) (hm : (l, m) ∈ tj.held) : i = j := by
  have key : ∀ n, ∀ (i j : Nat) (ti tj : Thread) (l : Lock) (m : Mode), (run f (start gs) n)[i]? = some ti → (run f (start gs) n)[j]? = some tj → (l, Mode.w) ∈ ti.held → (l, m) ∈ tj.held → i = j := by
    intro n
    induction n with
    | zero =>
      intro i j ti tj l m hi _ hw _
      simp only [run, start, List.getElem?_map, Option.map_eq_some_iff] at hi
      obtain ⟨cs, _, rfl⟩ := hi
      cases hw
    | succ n ih =>
      intro i j ti tj l m
      show (step (run f (start gs) n) (f n).1 (f n).2)[i]? = _ → (step (run f (start gs) n) (f n).1 (f n).2)[j]? = _ → _
      generalize run f (start gs) n = s at ih ⊢
      -- a goroutine that only loses locks
      have lose : ∀ (k : Nat) (t t' : Thread), s[k]? = some t → (∀ h ∈ t'.held, h ∈ t.held) → (s.set k t')[i]? = some ti → (s.set k t')[j]? = some tj → (l, Mode.w) ∈ ti.held →
          (l, m) ∈ tj.held → i = j := by
        intro k t t' hk hsub h1 h2 h3 h4
        have old : ∀ (x : Nat) (tx : Thread) (h : Lock × Mode), (s.set k t')[x]? = some tx → h ∈ tx.held → ∃ ty, s[x]? = some ty ∧ h ∈ ty.held := by
          intro x tx h hx hh
          by_cases hkx : k = x
          · subst hkx
            rw [List.getElem?_set_self (List.getElem?_eq_some_iff.mp hk).1] at hx
            injection hx with hx
            subst hx
            exact ⟨t, hk, hsub _ hh⟩
          · rw [List.getElem?_set_ne hkx] at hx
            exact ⟨tx, hx, hh⟩
        obtain ⟨a, ha, ha'⟩ := old i ti _ h1 h3
        obtain ⟨b, hb, hb'⟩ := old j tj _ h2 h4
        exact ih i j a b l m ha hb ha' hb'
      -- a goroutine that gains a lock
      have gain : ∀ (k : Nat) (t : Thread) (r : List Op) (l' : Lock) (m' : Mode), s[k]? = some t → (∀ t'' ∈ s, ∀ h ∈ t''.held, h.1 = l' → m' = .r ∧ h.2 = .r) →
          (s.set k ⟨r, (l', m') :: t.held, false⟩)[i]? = some ti → (s.set k ⟨r, (l', m') :: t.held, false⟩)[j]? = some tj → (l, Mode.w) ∈ ti.held → (l, m) ∈ tj.held → i = j := by
        intro k t r l' m' hk hno h1 h2 h3 h4
        have old : ∀ (x : Nat) (tx : Thread) (h : Lock × Mode), (s.set k ⟨r, (l', m') :: t.held, false⟩)[x]? = some tx → h ∈ tx.held →
            (∃ ty, s[x]? = some ty ∧ h ∈ ty.held) ∨ (x = k ∧ h = (l', m')) := by
          intro x tx h hx hh
          by_cases hkx : k = x
          · subst hkx
            rw [List.getElem?_set_self (List.getElem?_eq_some_iff.mp hk).1] at hx
            injection hx with hx
            subst hx
            rcases List.mem_cons.mp hh with rfl | hh
            · exact Or.inr ⟨rfl, rfl⟩
            · exact Or.inl ⟨t, hk, hh⟩
          · rw [List.getElem?_set_ne hkx] at hx
            exact Or.inl ⟨tx, hx, hh⟩
        rcases old i ti _ h1 h3 with ⟨a, ha, ha'⟩ | ⟨rfl, hl⟩
        · rcases old j tj _ h2 h4 with ⟨b, hb, hb'⟩ | ⟨rfl, hl⟩
          · exact ih i j a b l m ha hb ha' hb'
          · injection hl with hl1 hl2
            have := (hno a (List.mem_of_getElem? ha) _ ha' hl1).2
            cases this
        · injection hl with hl1 hl2
          rcases old j tj _ h2 h4 with ⟨b, hb, hb'⟩ | ⟨rfl, _⟩
          · have := (hno b (List.mem_of_getElem? hb) _ hb' hl1).1
            rw [← hl2] at this
            cases this
          · rfl
      unfold step
      split
      · intro h1 h2; exact ih i j ti tj l m h1 h2
      · rename_i t ht
        split
        · intro h1 h2; exact ih i j ti tj l m h1 h2
        · rename_i l' m' r hd
          exact lose _ t _ ht (fun h hh => List.mem_of_mem_erase hh)
        · rename_i l' r hd
          split
          · split
            · rename_i hfree
              rw [free_iff] at hfree
              exact gain _ t r l' .w ht (fun t'' ht'' h hh he => absurd he (hfree t'' ht'' h hh))
            · intro h1 h2; exact ih i j ti tj l m h1 h2
          · exact lose _ t _ ht (fun h hh => hh)
        · rename_i l' r hd
          split
          · rename_i hc
            have hnw : noWriter s l' = true := by
              rw [Bool.and_eq_true] at hc
              exact hc.1
            simp only [noWriter, List.all_eq_true, ne_eq, decide_eq_true_eq] at hnw
            refine gain _ t r l' .r ht ?_
            intro t'' ht'' h hh he
            refine ⟨rfl, ?_⟩
            obtain ⟨hl, hm⟩ := h
            cases hm with
            | r => rfl
            | w =>
              have he : hl = l' := he
              subst he
              exact absurd rfl (hnw t'' ht'' _ hh)
          · intro h1 h2; exact ih i j ti tj l m h1 h2
  exact key n i j ti tj l m hi hj hw hm

/-! ## What does not hold -/

/-- The filesystem of the examples. -/
def t0 : Fs := ⟨0, 0⟩

/-- States that no attempt leads out of. -/
theorem trapped (S : List Sys) (k : Nat) (hlen : ∀ s ∈ S, s.length = k) (hstep : ∀ s ∈ S, ∀ i, i < k → step s i false ∈ S ∧ step s i true ∈ S) (f : Nat → Nat × Bool) (s : Sys) (hs : s ∈ S) :
    ∀ n, run f s n ∈ S := by
  intro n
  induction n with
  | zero => exact hs
  | succ n ih =>
    show step (run f s n) _ _ ∈ S
    by_cases hi : (f n).1 < k
    · cases (f n).2 with
      | true => exact (hstep _ ih _ hi).2
      | false => exact (hstep _ ih _ hi).1
    · unfold step
      rw [List.getElem?_eq_none (by rw [hlen _ ih]; omega)]
      exact ih

/-- The states of one goroutine alone, up to `n`. -/
def alone (c : Code) (n : Nat) : List Sys := (List.range n).map fun k => run (fun _ => (0, false)) (start [[c]]) k

def busy (s : Sys) : Bool := s.any fun t => ! t.todo.isEmpty

theorem not_finished_of_busy {s : Sys} (h : busy s = true) : ¬ finished s := by
  intro hf
  simp only [busy, List.any_eq_true] at h
  obtain ⟨t, ht, h⟩ := h
  rw [hf t ht] at h
  cases h

theorem alone_stuck (c : Code) (k : Nat) (h0 : start [[c]] ∈ alone c k) (h : ∀ s ∈ alone c k, s.length = 1 ∧ busy s = true ∧ step s 0 false ∈ alone c k ∧ step s 0 true ∈ alone c k)
    (f : Nat → Nat × Bool) (n : Nat) : ¬ finished (run f (start [[c]]) n) := by
  have := trapped (alone c k) 1 (fun s hs => (h s hs).1) (fun s hs i hi => by
    have : i = 0 := by omega
    subst this
    exact (h s hs).2.2) f _ h0 n
  exact not_finished_of_busy (h _ this).2.1

/-- **C106** does not hold: `OpenFile` with `O_TRUNC`, when the view was opened but cannot be truncated, closes the new handle while it holds the lock of the tree, which `Close` takes again. The call
never returns, however long it is run. -/
theorem C106_counterexample_truncate (f : Nat → Nat × Bool) (n : Nat) :
    ¬ finished (run f (start [[(Call.openFile t0 0 .done (some (.done, true))).code]]) n) :=
  alone_stuck _ 9 (by decide) (by decide) f n

/-- Nor does any later call on that tree: when the first goroutine has come that far, nothing moves any more. -/
theorem C106_counterexample_truncate_all (f : Nat → Nat × Bool) (n : Nat) :
    ¬ finished (run f (run (fun _ => (0, false)) (start [[(Call.openFile t0 0 .done (some (.done, true))).code], [(Call.inspect t0 .done).code]]) 9) n) ∧
    (run f (run (fun _ => (0, false)) (start [[(Call.openFile t0 0 .done (some (.done, true))).code], [(Call.inspect t0 .done).code]]) 9) n)[1]? =
      some (goroutine [(Call.inspect t0 .done).code]) := by
  have := trapped [run (fun _ => (0, false)) (start [[(Call.openFile t0 0 .done (some (.done, true))).code], [(Call.inspect t0 .done).code]]) 9] 2 (by decide) (by decide) f _
    (List.mem_singleton.mpr rfl) n
  rw [List.mem_singleton.mp this]
  exact ⟨not_finished_of_busy (by decide), by decide⟩

/-- **C106** needs views that do not come back to the tree: an `fs.FS` of the tree itself, mounted in it, is asked to open a file while the tree is locked (the same for the callbacks of `AddFS`). -/
theorem C106_counterexample_reenter (f : Nat → Nat × Bool) (n : Nat) :
    ¬ finished (run f (start [[(Call.openFile t0 0 (Call.inspect t0 .done).code none).code]]) n) :=
  alone_stuck _ 3 (by decide) (by decide) f n

/-- Also for reading: `Stat` of a file below such a view locks the tree for reading twice, and never returns when another goroutine asks for writing in between. -/
theorem C106_counterexample_reread :
    ∃ f : Nat → Nat × Bool, (∀ i, i < 2 → ∀ n, ∃ m, n ≤ m ∧ (f m).1 = i) ∧
      ∀ n, ¬ finished (run f (start [[(Call.inspect t0 (Call.inspect t0 .done).code).code], [(Call.change t0 .done).code]]) n) := by
  refine ⟨fun n => (n % 2, false), ?_, ?_⟩
  · intro i hi n
    refine ⟨2 * n + i, by omega, ?_⟩
    show (2 * n + i) % 2 = i
    omega
  · have key : ∀ n, run (fun n => (n % 2, false)) (start [[(Call.inspect t0 (Call.inspect t0 .done).code).code], [(Call.change t0 .done).code]]) (n + 2) =
        run (fun n => (n % 2, false)) (start [[(Call.inspect t0 (Call.inspect t0 .done).code).code], [(Call.change t0 .done).code]]) 2 := by
      intro n
      induction n with
      | zero => rfl
      | succ n ih =>
        show step (run _ _ (n + 2)) ((n + 2) % 2) false = _
        rw [ih]
        rcases Nat.mod_two_eq_zero_or_one (n + 2) with h | h <;> rw [h] <;> decide
    intro n
    match n with
    | 0 => exact not_finished_of_busy (by decide)
    | 1 => exact not_finished_of_busy (by decide)
    | n + 2 => rw [key n]; exact not_finished_of_busy (by decide)

/-! ## Instances -/

/-- An overlay (level 0) whose upper layer is a synthetic tree (level 1). -/
def ov : Fs := ⟨0, 0⟩
def up : Fs := ⟨1, 0⟩

/-- Opening a file in the overlay opens it in the layer; removing a directory counts handles and asks the layer; reading a directory lists the layer; writing the file goes to memory. -/
def work : List (List Call) :=
  [[.oOpenWrite ov (Call.openFile up 1 (memReadAt up 5) (some (memWriteAt up 5, false))).code, .useFile up 1 (memWrite up 2 5 true), .oCloseFile ov 3 (Call.closeFile up 1 false .done).code],
   [.oChange ov true (Call.change up .done).code, .oDirChange ov 4 (Call.change up .done).code (Call.openFile up 6 .done none).code (Call.closeDir up 6 false).code],
   [.oReadDir ov 4 (some (Call.readDir up 6 true).code) (Call.inspect up .done).code, .oCloseDir ov 4 (Call.closeDir up 6 false).code]]

/-- The calls of the example meet the hypotheses of C106. -/
example : ∀ cs ∈ work, ∀ c ∈ cs, c.Ok := by
  intro cs hcs c hc
  simp only [work, List.mem_cons, List.not_mem_nil, or_false] at hcs
  rcases hcs with rfl | rfl | rfl <;> simp only [List.mem_cons, List.not_mem_nil, or_false] at hc
  · rcases hc with rfl | rfl | rfl <;>
      simp [Call.Ok, Call.code, under, Code.seq, Code.Above, Lock.rank, Kind.place, Fs.l, ov, up, memReadAt, memWriteAt, memWrite]
  · rcases hc with rfl | rfl <;>
      simp [Call.Ok, Call.code, under, Code.Above, Lock.rank, Kind.place, Fs.l, ov, up]
  · rcases hc with rfl | rfl <;>
      simp [Call.Ok, Call.code, under, Code.Above, Lock.rank, Kind.place, Fs.l, ov, up]

/-- They get into each other's way: after the first two attempts of each goroutine the first holds the overlay, the second waits for it, and so does the third, which holds its directory handle. -/
example : let s := run (fun n => (n / 2 % 3, false)) (start (work.map (·.map Call.code))) 6
    (s.map fun t => (t.held.length, t.pending)) = [(1, false), (0, true), (1, false)] := by decide

/-- Taking turns, all three are through after 201 attempts. -/
example : ∀ t ∈ run (fun n => (n % 3, false)) (start (work.map (·.map Call.code))) 201, t.todo = [] := by decide +kernel

end Verif.Locks
