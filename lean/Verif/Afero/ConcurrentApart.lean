import Verif.Afero.ConcurrentProps
/-
Concurrent calls on a synthetic filesystem of aferofs: goroutines that work beneath separate directories do not notice each other (C105).
-/
namespace Verif.Afero.Concurrent
open Verif

/-! ## Programs that keep to a region -/

/-- The program changes and lists only directories in `R`; outside it looks up only entries of `σ`. -/
def Within (o : Nat) (R : Id → Prop) (σ : Id → Str → Option Id) : P → Prop
  | .done _ => True
  | .crash => True
  | .lookup d n k => (R d ∧ Within o R σ (k none) ∧ ∀ x, R x → Within o R σ (k (some x))) ∨ ∃ x, σ d n = some x ∧ Within o R σ (k (some x))
  | .add d _ x k => R d ∧ R x ∧ Within o R σ k
  | .remove d _ k => R d ∧ Within o R σ k
  | .len d k => R d ∧ ∀ m, Within o R σ (k m)
  | .names d k => R d ∧ ∀ ns, Within o R σ (k ns)
  | .list d k => R d ∧ ∀ ns, Within o R σ (k ns)
  | .close _ k => Within o R σ k
  | .fresh _ k => ∀ x : Id, x.owner = o → Within o R σ (k x)

variable {o : Nat} {R : Id → Prop} {σ : Id → Str → Option Id}

/-- From `d` the path leads along `σ` into `R`. -/
def Enters (R : Id → Prop) (σ : Id → Str → Option Id) : Id → List Str → Prop
  | d, [] => R d
  | d, c :: r => R d ∨ ∃ y, σ d c = some y ∧ Enters R σ y r

/-- From `d` the path leads along `σ` into `R` before its last element. -/
def Inside (R : Id → Prop) (σ : Id → Str → Option Id) : Id → List Str → Prop
  | d, c :: c' :: r => R d ∨ ∃ y, σ d c = some y ∧ Inside R σ y (c' :: r)
  | d, _ => R d

theorem inside_of_in : ∀ (p : List Str) {d : Id}, R d → Inside R σ d p := by
  intro p d h
  match p with
  | [] => exact h
  | [_] => exact h
  | _ :: _ :: _ => exact Or.inl h

theorem enters_of_in : ∀ (p : List Str) {d : Id}, R d → Enters R σ d p := by
  intro p d h
  match p with
  | [] => exact h
  | _ :: _ => exact Or.inl h

theorem within_findParent : ∀ (p : List Str) (d : Id) (k : Except Err Id → P), Inside R σ d p → (∀ e, Within o R σ (k (.error e))) → (∀ x, R x → Within o R σ (k (.ok x))) →
    Within o R σ (findParent d p k) := by
  intro p
  induction p with
  | nil => intro d k hp _ h; exact h _ hp
  | cons c r ih =>
    intro d k hp he h
    cases r with
    | nil => exact h _ hp
    | cons c' r =>
      have hsome : ∀ x : Id, Inside R σ x (c' :: r) → Within o R σ (if x.isDir = true then findParent x (c' :: r) k else k (.error .notdir)) := by
        intro x hx
        split
        · exact ih x k hx he h
        · exact he _
      rcases hp with hp | ⟨y, hy, hp⟩
      · exact Or.inl ⟨hp, he _, fun x hx => hsome x (inside_of_in _ hx)⟩
      · exact Or.inr ⟨y, hy, hsome y hp⟩

/-- A lookup of the last element: in the region, or the entry of the region itself. -/
theorem within_parent : ∀ (p : List Str) (d : Id) (k : Except Err Id → P), Enters R σ d p → (∀ e, Within o R σ (k (.error e))) →
    (∀ x, (R x ∨ ∃ b y, p.getLast? = some b ∧ σ x b = some y ∧ R y) → Within o R σ (k (.ok x))) → Within o R σ (findParent d p k) := by
  intro p
  induction p with
  | nil => intro d k hp _ h; exact h _ (Or.inl hp)
  | cons c r ih =>
    intro d k hp he h
    cases r with
    | nil =>
      refine h _ ?_
      rcases hp with hp | ⟨y, hy, hp⟩
      · exact Or.inl hp
      · exact Or.inr ⟨c, y, rfl, hy, hp⟩
    | cons c' r =>
      have hsome : ∀ x : Id, Enters R σ x (c' :: r) → Within o R σ (if x.isDir = true then findParent x (c' :: r) k else k (.error .notdir)) := by
        intro x hx
        split
        · refine ih x k hx he ?_
          intro z hz
          refine h z ?_
          rcases hz with hz | ⟨b, y, hb, hy, hr⟩
          · exact Or.inl hz
          · exact Or.inr ⟨b, y, by simpa using hb, hy, hr⟩
        · exact he _
      rcases hp with hp | ⟨y, hy, hp⟩
      · exact Or.inl ⟨hp, he _, fun x hx => hsome x (enters_of_in _ hx)⟩
      · exact Or.inr ⟨y, hy, hsome y hp⟩

theorem within_find (p : List Str) (k : Except Err Id → P) (hp : Enters R σ root p) (he : ∀ e, Within o R σ (k (.error e))) (h : ∀ x, R x → Within o R σ (k (.ok x))) :
    Within o R σ (find p k) := by
  refine within_parent p root _ hp (fun e => he e) ?_
  intro x hx
  simp only
  cases hb : p.getLast? with
  | none =>
    rcases hx with hx | ⟨b, y, hb', _⟩
    · exact h _ hx
    · rw [hb] at hb'; cases hb'
  | some b =>
    rcases hx with hx | ⟨b', y, hb', hy, hr⟩
    · exact Or.inl ⟨hx, he _, fun x hx => h x hx⟩
    · rw [hb] at hb'
      injection hb' with hb'
      subst hb'
      exact Or.inr ⟨y, hy, h y hr⟩

theorem within_mkdirAll (ho : ∀ x : Id, x.owner = o → R x) : ∀ (p : List Str) (d : Id) (k : Res → P), Enters R σ d p → (∀ r, Within o R σ (k r)) → Within o R σ (mkdirAll d p k) := by
  intro p
  induction p with
  | nil => intro d k _ h; exact h _
  | cons c r ih =>
    intro d k hp h
    have hsome : ∀ x : Id, Enters R σ x r → Within o R σ (if x.isDir = true then mkdirAll x r k else k (.err .notdir)) := by
      intro x hx
      split
      · exact ih x k hx h
      · exact h _
    rcases hp with hp | ⟨y, hy, hp⟩
    · exact Or.inl ⟨hp, fun x hx => ⟨hp, ho x hx, ih x k (enters_of_in _ (ho x hx)) h⟩, fun x hx => hsome x (enters_of_in _ hx)⟩
    · exact Or.inr ⟨y, hy, hsome y hp⟩

theorem within_removeFromParent {d : Id} {b : Str} {k : Option Err → P} (hd : R d) (h : ∀ r, Within o R σ (k r)) : Within o R σ (removeFromParent d b k) := by
  refine Or.inl ⟨hd, h _, ?_⟩
  intro x hx
  simp only
  split
  · refine ⟨hx, fun m => ?_⟩
    simp only
    split
    · exact h _
    · exact ⟨hd, h _⟩
  · exact ⟨hd, h _⟩

theorem within_removeAllFrom : ∀ (f : Nat) (d : Id) (b : Str) (k : Res → P), R d → (∀ r, Within o R σ (k r)) → Within o R σ (removeAllFrom f d b k) := by
  intro f
  induction f with
  | zero => intro d b k _ _; exact trivial
  | succ f ih =>
    intro d b k hd h
    refine within_removeFromParent hd ?_
    intro r
    cases r with
    | none => exact h _
    | some e =>
      cases e with
      | notempty =>
        refine Or.inl ⟨hd, trivial, ?_⟩
        intro x hx
        simp only
        split
        · refine ⟨hx, fun ns => ?_⟩
          simp only
          induction ns with
          | nil => exact h _
          | cons c ns ihn =>
            refine ih x c _ hx ?_
            intro r
            split
            · exact ihn
            · exact h _
        · exact trivial
      | _ => exact h _

/-- Every path of the call is beneath the path `D`; `Stat`, `MkdirAll` and reading may name `D` itself. -/
def Call.Beneath (D : List Str) : Call → Prop
  | .stat p => ∃ q, p = D ++ q
  | .readNames p => ∃ q, p = D ++ q
  | .mkdirAll p => ∃ q, p = D ++ q
  | .mkdir p => ∃ q, p = D ++ q ∧ q ≠ []
  | .openFile p _ _ _ => ∃ q, p = D ++ q ∧ q ≠ []
  | .remove p => ∃ q, p = D ++ q ∧ q ≠ []
  | .removeAll _ p => ∃ q, p = D ++ q ∧ q ≠ []
  | .rename p p' => (∃ q, p = D ++ q ∧ q ≠ []) ∧ ∃ q, p' = D ++ q ∧ q ≠ []

/-- `σ` leads from `d` along `D` into `R`. -/
def Along (R : Id → Prop) (σ : Id → Str → Option Id) : Id → List Str → Prop
  | d, [] => R d
  | d, c :: r => ∃ y, σ d c = some y ∧ Along R σ y r

theorem enters_along : ∀ (D q : List Str) {d : Id}, Along R σ d D → Enters R σ d (D ++ q) := by
  intro D q
  induction D with
  | nil => intro d h; exact enters_of_in _ h
  | cons c r ih => intro d h; obtain ⟨y, hy, h⟩ := h; exact Or.inr ⟨y, hy, ih h⟩

theorem inside_along : ∀ (D q : List Str) {d : Id}, q ≠ [] → Along R σ d D → Inside R σ d (D ++ q) := by
  intro D q
  induction D with
  | nil => intro d _ h; exact inside_of_in _ h
  | cons c r ih =>
    intro d hq h
    obtain ⟨y, hy, h⟩ := h
    have := ih hq h
    cases hr : r ++ q with
    | nil => exact absurd (List.append_eq_nil_iff.mp hr).2 hq
    | cons c' r' =>
      rw [hr] at this
      rw [List.cons_append, hr]
      exact Or.inr ⟨y, hy, this⟩

theorem within_call (ho : ∀ x : Id, x.owner = o → R x) {D : List Str} (hD : Along R σ root D) (c : Call) (hc : c.Beneath D) (k : Res → P) (h : ∀ r, Within o R σ (k r)) :
    Within o R σ (c.prog k) := by
  cases c with
  | stat p =>
    obtain ⟨q, rfl⟩ := hc
    simp only [Call.prog, Concurrent.stat]
    exact within_find _ _ (enters_along D q hD) (fun e => h _) (fun x _ => h _)
  | readNames p =>
    obtain ⟨q, rfl⟩ := hc
    simp only [Call.prog, Concurrent.readNames]
    refine within_find _ _ (enters_along D q hD) (fun e => h _) (fun x hx => ?_)
    simp only
    split
    · exact ⟨hx, fun ns => h _⟩
    · exact h _
  | mkdir p =>
    obtain ⟨q, rfl, hq⟩ := hc
    simp only [Call.prog, Concurrent.mkdir]
    rw [List.dropLast_append_of_ne_nil hq]
    refine within_find _ _ (enters_along D q.dropLast hD) (fun e => h _) (fun x hx => ?_)
    simp only
    split
    · exact h _
    · split
      · exact h _
      · exact Or.inl ⟨hx, fun y hy => ⟨hx, ho y hy, h _⟩, fun y _ => h _⟩
  | mkdirAll p =>
    obtain ⟨q, rfl⟩ := hc
    exact within_mkdirAll ho _ root k (enters_along D q hD) h
  | openFile p cr ex w =>
    obtain ⟨q, rfl, hq⟩ := hc
    refine within_findParent _ root _ (inside_along D q hq hD) (fun e => h _) (fun x hx => ?_)
    simp only
    split
    · exact h _
    · refine Or.inl ⟨hx, ?_, fun y _ => ?_⟩
      · simp only
        split
        · exact h _
        · exact fun y hy => ⟨hx, ho y hy, h _⟩
      · simp only
        split
        · exact h _
        · split <;> exact h _
  | remove p =>
    obtain ⟨q, rfl, hq⟩ := hc
    refine within_findParent _ root _ (inside_along D q hq hD) (fun e => h _) (fun x hx => ?_)
    simp only
    split
    · exact h _
    · exact within_removeFromParent hx (fun r => by cases r <;> exact h _)
  | removeAll f p =>
    obtain ⟨q, rfl, hq⟩ := hc
    simp only [Call.prog, Concurrent.removeAll]
    split
    · exact h _
    · rename_i b hb
      have hk : ∀ r : Option Err, Within o R σ (match r with
          | none => k .ok
          | some .noent => k .ok
          | some _ => findParent root (D ++ q) fun
            | .error e => k (.err e)
            | .ok d => removeAllFrom f d b k) := by
        intro r
        split
        · exact h _
        · exact h _
        · exact within_findParent _ root _ (inside_along D q hq hD) (fun e => h _) (fun x hx => within_removeAllFrom f x b k hx h)
      refine within_findParent _ root _ (inside_along D q hq hD) (fun e => hk (some e)) (fun x hx => ?_)
      simp only
      split
      · exact hk (some .perm)
      · exact within_removeFromParent hx hk
  | rename p p' =>
    obtain ⟨⟨q, rfl, hq⟩, q', rfl, hq'⟩ := hc
    simp only [Call.prog, Concurrent.rename]
    split
    · exact h _
    · split
      · split
        · exact h _
        · refine within_findParent _ root _ (inside_along D q hq hD) (fun e => h _) (fun od hod => ?_)
          refine Or.inl ⟨hod, h _, fun x hx => ?_⟩
          refine within_findParent _ root _ (inside_along D q' hq' hD) (fun e => h _) (fun nd hnd => ?_)
          refine Or.inl ⟨hnd, ⟨hod, hnd, hx, h _⟩, fun y hy => ?_⟩
          simp only
          split
          · exact h _
          · split
            · exact h _
            · split
              · refine ⟨hy, fun m => ?_⟩
                simp only
                split
                · exact h _
                · exact ⟨hod, hnd, hx, h _⟩
              · exact ⟨hod, hnd, hx, h _⟩
      · exact h _

theorem within_script (ho : ∀ x : Id, x.owner = o → R x) {D : List Str} (hD : Along R σ root D) : ∀ (cs : List Call) (acc : List Res), (∀ c ∈ cs, c.Beneath D) →
    Within o R σ (script cs acc) := by
  intro cs
  induction cs with
  | nil => intro _ _; exact trivial
  | cons c cs ih => intro acc hc; exact within_call ho hD c (hc c (List.mem_cons_self ..)) _ (fun r => ih _ (fun x hx => hc x (List.mem_cons_of_mem _ hx)))

/-! ## Steps of others are not seen -/

/-- The entries of directories of `R` are in `R`; the entries of `σ` are there. -/
def Holds (R : Id → Prop) (σ : Id → Str → Option Id) (h : Heap) : Prop :=
  (∀ d n x, R d → h.lookup d n = some x → R x) ∧ ∀ d n x, σ d n = some x → h.lookup d n = some x

theorem lookup_congr {h h' : Heap} {d : Id} (he : h d = h' d) (n : Str) : h.lookup d n = h'.lookup d n := by
  unfold Heap.lookup; rw [he]

/-- A step within the region: it keeps to it. -/
theorem within_step {h : Heap} (i : Nat) (ho : o = i + 1) (hσR : ∀ d n x, σ d n = some x → ¬ R d) (hh : Holds R σ h) (t : Thread) (ht : Within o R σ t.prog) :
    Within o R σ (step i h t).2.prog ∧ Holds R σ (step i h t).1 ∧ ∀ d, ¬ R d → (step i h t).1 d = h d := by
  obtain ⟨p, m⟩ := t
  unfold step
  cases p with
  | done rs => exact ⟨ht, hh, fun _ _ => rfl⟩
  | crash => exact ⟨ht, hh, fun _ _ => rfl⟩
  | lookup d n k =>
    refine ⟨?_, hh, fun _ _ => rfl⟩
    rcases ht with ⟨hd, hn, hs⟩ | ⟨x, hx, hw⟩
    · simp only
      cases hl : h.lookup d n with
      | none => exact hn
      | some x => exact hs x (hh.1 d n x hd hl)
    · simp only
      rw [hh.2 d n x hx]
      exact hw
  | add d n x k =>
    obtain ⟨hd, hx, hw⟩ := ht
    refine ⟨hw, ⟨?_, ?_⟩, ?_⟩
    · intro d' n' x' hd' hl
      simp only at hl
      rw [lookup_add] at hl
      split at hl
      · injection hl with hl; subst hl; exact hx
      · exact hh.1 d' n' x' hd' hl
    · intro d' n' x' hs
      simp only
      rw [lookup_add, if_neg]
      · exact hh.2 d' n' x' hs
      · rintro ⟨rfl, _⟩; exact hσR _ _ _ hs hd
    · intro d' hd'
      simp only [Heap.add]
      rw [if_neg]
      rintro rfl; exact hd' hd
  | remove d n k =>
    obtain ⟨hd, hw⟩ := ht
    refine ⟨hw, ⟨?_, ?_⟩, ?_⟩
    · intro d' n' x' hd' hl
      simp only at hl
      rw [lookup_remove] at hl
      split at hl
      · cases hl
      · exact hh.1 d' n' x' hd' hl
    · intro d' n' x' hs
      simp only
      rw [lookup_remove, if_neg]
      · exact hh.2 d' n' x' hs
      · rintro ⟨rfl, _⟩; exact hσR _ _ _ hs hd
    · intro d' hd'
      simp only [Heap.remove]
      rw [if_neg]
      rintro rfl; exact hd' hd
  | len d k => exact ⟨ht.2 _, hh, fun _ _ => rfl⟩
  | names d k => exact ⟨ht.2 _, hh, fun _ _ => rfl⟩
  | list d k => exact ⟨ht.2 _, hh, fun _ _ => rfl⟩
  | close d k => exact ⟨ht, hh, fun _ _ => rfl⟩
  | fresh b k => exact ⟨ht _ ho.symm, hh, fun _ _ => rfl⟩

/-- On two heaps that agree on the region, a step within it does the same. -/
theorem within_same {h h' : Heap} (i : Nat) (hh : Holds R σ h) (hh' : Holds R σ h') (he : ∀ d, R d → h d = h' d) (t : Thread) (ht : Within o R σ t.prog) :
    (step i h t).2 = (step i h' t).2 ∧ ∀ d, R d → (step i h t).1 d = (step i h' t).1 d := by
  obtain ⟨p, m⟩ := t
  unfold step
  cases p with
  | done rs => exact ⟨rfl, he⟩
  | crash => exact ⟨rfl, he⟩
  | lookup d n k =>
    refine ⟨?_, he⟩
    rcases ht with ⟨hd, _, _⟩ | ⟨x, hx, _⟩
    · simp only
      rw [lookup_congr (he d hd)]
    · simp only
      rw [hh.2 d n x hx, hh'.2 d n x hx]
  | add d n x k =>
    refine ⟨rfl, ?_⟩
    intro d' hd'
    simp only [Heap.add]
    split
    · rename_i hdd; subst hdd; rw [he _ hd']
    · exact he d' hd'
  | remove d n k =>
    refine ⟨rfl, ?_⟩
    intro d' hd'
    simp only [Heap.remove]
    split
    · rename_i hdd; subst hdd; rw [he _ hd']
    · exact he d' hd'
  | len d k => refine ⟨?_, he⟩; simp only; rw [he d ht.1]
  | names d k => refine ⟨?_, he⟩; simp only; rw [he d ht.1]
  | list d k => refine ⟨?_, he⟩; simp only; rw [he d ht.1]
  | close d k => exact ⟨rfl, he⟩
  | fresh b k => exact ⟨rfl, he⟩

/-- Goroutines that keep to regions apart from each other: each does what it would do alone. -/
theorem apart_run (R : Nat → Id → Prop) (σ : Id → Str → Option Id) (hR : ∀ i j d, R i d → R j d → i = j) (hσR : ∀ i d n x, σ d n = some x → ¬ R i d) (i : Nat) :
    ∀ (sched : List Nat) (s s' : Sys), (∀ j t, s.threads[j]? = some t → Within (j + 1) (R j) σ t.prog) → (∀ j, Holds (R j) σ s.heap) → Holds (R i) σ s'.heap →
      s.threads[i]? = s'.threads[i]? → (∀ d, R i d → s.heap d = s'.heap d) →
      (s.run sched).threads[i]? = (s'.run (sched.filter (· = i))).threads[i]? ∧ ∀ d, R i d → (s.run sched).heap d = (s'.run (sched.filter (· = i))).heap d := by
  intro sched
  induction sched with
  | nil => intro s s' _ _ _ h1 h2; exact ⟨h1, h2⟩
  | cons j r ih =>
    intro s s' hw hh hh' h1 h2
    -- the step of j in the first system
    have hstep : (∀ j' t, (s.step j).threads[j']? = some t → Within (j' + 1) (R j') σ t.prog) ∧ (∀ j', Holds (R j') σ (s.step j).heap) ∧ (∀ d, ¬ R j d → (s.step j).heap d = s.heap d) ∧
        (∀ j', j' ≠ j → (s.step j).threads[j']? = s.threads[j']?) := by
      unfold Sys.step
      cases ht : s.threads[j]? with
      | none => exact ⟨hw, hh, fun _ _ => rfl, fun _ _ => rfl⟩
      | some t =>
        obtain ⟨a1, a2, a3⟩ := within_step (h := s.heap) j rfl (hσR j) (hh j) t (hw j t ht)
        refine ⟨?_, ?_, a3, ?_⟩
        · intro j' t' ht'
          by_cases hj : j = j'
          · subst hj
            simp only at ht'
            rw [List.getElem?_set_self (List.getElem?_eq_some_iff.mp ht).1] at ht'
            injection ht' with ht'
            subst ht'
            exact a1
          · simp only at ht'
            rw [List.getElem?_set_ne hj] at ht'
            exact hw j' t' ht'
        · intro j'
          by_cases hj : j = j'
          · subst hj; exact a2
          · refine ⟨?_, ?_⟩
            · intro d n x hd hl
              have : ¬ R j d := fun hjd => hj (hR _ _ _ hjd hd)
              simp only at hl
              rw [lookup_congr (a3 d this)] at hl
              exact (hh j').1 d n x hd hl
            · intro d n x hs
              simp only
              rw [lookup_congr (a3 d (hσR j d n x hs))]
              exact (hh j').2 d n x hs
        · intro j' hj'
          simp only
          rw [List.getElem?_set_ne (Ne.symm hj')]
    obtain ⟨b1, b2, b3, b4⟩ := hstep
    by_cases hji : j = i
    · subst hji
      rw [List.filter_cons_of_pos (by simp)]
      show ((s.step j).run r).threads[j]? = ((s'.step j).run _).threads[j]? ∧ _
      have hsame : Holds (R j) σ (s'.step j).heap ∧ (s.step j).threads[j]? = (s'.step j).threads[j]? ∧ ∀ d, R j d → (s.step j).heap d = (s'.step j).heap d := by
        unfold Sys.step
        rw [← h1]
        cases ht : s.threads[j]? with
        | none => exact ⟨hh', h1, h2⟩
        | some t =>
          have ht' : s'.threads[j]? = some t := by rw [← h1]; exact ht
          obtain ⟨c1, c2⟩ := within_same (h := s.heap) (h' := s'.heap) j (hh j) hh' h2 t (hw j t ht)
          obtain ⟨_, a2, _⟩ := within_step (h := s'.heap) j rfl (hσR j) hh' t (hw j t ht)
          refine ⟨a2, ?_, c2⟩
          simp only
          rw [List.getElem?_set_self (List.getElem?_eq_some_iff.mp ht).1, List.getElem?_set_self (List.getElem?_eq_some_iff.mp ht').1, c1]
      exact ih _ _ b1 b2 hsame.1 hsame.2.1 hsame.2.2
    · rw [List.filter_cons_of_neg (by simpa using hji)]
      refine ih _ _ b1 b2 hh' ?_ ?_
      · rw [b4 i (Ne.symm hji)]; exact h1
      · intro d hd
        rw [b3 d (fun hjd => hji (hR _ _ _ hjd hd))]
        exact h2 d hd

/-! ## Trees -/

/-- Looking up the elements of the path one after the other, from `d`, ends at `x`. -/
def Path (h : Heap) : Id → List Str → Id → Prop
  | d, [], x => x = d
  | d, c :: r, x => ∃ y, h.lookup d c = some y ∧ Path h y r x

/-- Every entry is in one place, the root in none; what is there was there before the goroutines, and entries not made yet hold nothing. -/
structure Tree (h : Heap) : Prop where
  once : ∀ d n d' n' x, h.lookup d n = some x → h.lookup d' n' = some x → d = d' ∧ n = n'
  top : ∀ d n, h.lookup d n ≠ some root
  old : ∀ d n x, h.lookup d n = some x → x.owner = 0
  unmade : ∀ d n, d.owner ≠ 0 → h.lookup d n = none

theorem path_append {h : Heap} : ∀ (p q : List Str) (d x : Id), Path h d (p ++ q) x ↔ ∃ y, Path h d p y ∧ Path h y q x := by
  intro p
  induction p with
  | nil => intro q d x; exact ⟨fun hh => ⟨d, rfl, hh⟩, fun ⟨y, h1, h2⟩ => by have h1 : y = d := h1; subst h1; exact h2⟩
  | cons c r ih =>
    intro q d x
    constructor
    · rintro ⟨y, hy, hp⟩
      obtain ⟨z, hz, hq⟩ := (ih q y x).mp hp
      exact ⟨z, ⟨y, hy, hz⟩, hq⟩
    · rintro ⟨z, ⟨y, hy, hz⟩, hq⟩
      exact ⟨y, hy, (ih q y x).mpr ⟨z, hz, hq⟩⟩

theorem path_last {h : Heap} (p : List Str) (c : Str) (d x : Id) : Path h d (p ++ [c]) x ↔ ∃ y, Path h d p y ∧ h.lookup y c = some x := by
  rw [path_append]
  constructor
  · rintro ⟨y, h1, z, h2, h3⟩
    have h3 : x = z := h3
    subst h3
    exact ⟨y, h1, h2⟩
  · rintro ⟨y, h1, h2⟩
    exact ⟨y, h1, x, h2, rfl⟩

/-- In a tree a path is told by its end. -/
theorem path_unique {h : Heap} (ht : Tree h) : ∀ (m : Nat) (p q : List Str) (x : Id), p.length = m → Path h root p x → Path h root q x → p = q := by
  intro m
  induction m with
  | zero =>
    intro p q x hm hp hq
    have : p = [] := List.length_eq_zero_iff.mp hm
    subst this
    have hp : x = root := hp
    subst hp
    rcases List.eq_nil_or_concat q with rfl | ⟨q', c, rfl⟩
    · rfl
    · rw [List.concat_eq_append] at hq
      obtain ⟨y, _, hl⟩ := (path_last q' c root root).mp hq
      exact absurd hl (ht.top _ _)
  | succ m ih =>
    intro p q x hm hp hq
    rcases List.eq_nil_or_concat p with rfl | ⟨p', c, rfl⟩
    · cases hm
    · rw [List.concat_eq_append] at hp hm ⊢
      obtain ⟨y, hy, hl⟩ := (path_last p' c root x).mp hp
      rcases List.eq_nil_or_concat q with rfl | ⟨q', c', rfl⟩
      · have hq : x = root := hq
        subst hq
        exact absurd hl (ht.top _ _)
      · rw [List.concat_eq_append] at hq ⊢
        obtain ⟨y', hy', hl'⟩ := (path_last q' c' root x).mp hq
        obtain ⟨rfl, rfl⟩ := ht.once _ _ _ _ _ hl hl'
        rw [ih p' q' y (by simpa using hm) hy hy']

theorem path_owner {h : Heap} (ht : Tree h) {p : List Str} {x : Id} (hp : Path h root p x) : x.owner = 0 := by
  rcases List.eq_nil_or_concat p with rfl | ⟨p', c, rfl⟩
  · have hp : x = root := hp
    subst hp; rfl
  · rw [List.concat_eq_append] at hp
    obtain ⟨y, _, hl⟩ := (path_last p' c root x).mp hp
    exact ht.old _ _ _ hl

/-- What goroutine `i` of `m` works on: everything that was beneath its path at first, and everything it makes. -/
def Region (h : Heap) (D : Nat → List Str) (m i : Nat) (d : Id) : Prop := i < m ∧ (d.owner = i + 1 ∨ ∃ q, Path h root (D i ++ q) d)

theorem region_apart {h : Heap} (ht : Tree h) {D : Nat → List Str} {m : Nat} (hD : ∀ i j, i < m → j < m → i ≠ j → ¬ D i <+: D j) (i j : Nat) (d : Id)
    (hi : Region h D m i d) (hj : Region h D m j d) : i = j := by
  obtain ⟨him, hi⟩ := hi
  obtain ⟨hjm, hj⟩ := hj
  rcases hi with hi | ⟨q, hq⟩ <;> rcases hj with hj | ⟨q', hq'⟩
  · omega
  · have := path_owner ht hq'; omega
  · have := path_owner ht hq; omega
  · have he := path_unique ht _ _ _ _ rfl hq hq'
    apply Classical.byContradiction
    intro hij
    have h1 : D i <+: D i ++ q := List.prefix_append _ _
    have h2 : D j <+: D i ++ q := by rw [he]; exact List.prefix_append _ _
    rcases Nat.le_total (D i).length (D j).length with hl | hl
    · exact hD i j him hjm hij (List.prefix_of_prefix_length_le h1 h2 hl)
    · exact hD j i hjm him (Ne.symm hij) (List.prefix_of_prefix_length_le h2 h1 hl)

/-- **C105** (apart). Let the filesystem be a tree, and let the goroutines work beneath directories none of which lies in another, `D i` the path of that of goroutine `i`. Under
every schedule each goroutine reports what it reports when the others do not run at all, and leaves behind, beneath its directory, what it leaves then. -/
theorem C105_apart (h : Heap) (ht : Tree h) (scripts : List (List Call)) (D : Nat → List Str) (hD : ∀ i j, i < scripts.length → j < scripts.length → i ≠ j → ¬ D i <+: D j)
    (hex : ∀ i, i < scripts.length → ∃ x, Path h root (D i) x) (hc : ∀ (i : Nat) (cs : List Call), scripts[i]? = some cs → ∀ c ∈ cs, c.Beneath (D i)) (sched : List Nat) (i : Nat) (hi : i < scripts.length) :
    let s := (start h scripts).run sched
    let alone := (start h scripts).run (sched.filter (· = i))
    s.result i = alone.result i ∧ s.crashed i = alone.crashed i ∧
    ∀ d, (d.owner = i + 1 ∨ ∃ q, Path h root (D i ++ q) d) → s.heap d = alone.heap d := by
  classical
  -- the entries on the way to the directories
  let σ : Id → Str → Option Id := fun d n => if ∃ j p r, j < scripts.length ∧ D j = p ++ n :: r ∧ Path h root p d then h.lookup d n else none
  have hσ : ∀ d n x, σ d n = some x → h.lookup d n = some x ∧ ∃ j p r, j < scripts.length ∧ D j = p ++ n :: r ∧ Path h root p d := by
    intro d n x hs
    simp only [σ] at hs
    split at hs
    · rename_i hj
      exact ⟨hs, hj⟩
    · cases hs
  have hσR : ∀ j d n x, σ d n = some x → ¬ Region h D scripts.length j d := by
    intro j d n x hs hr
    obtain ⟨_, j', p, r, hjl, hj', hp⟩ := hσ d n x hs
    obtain ⟨hjm, hr⟩ := hr
    rcases hr with hr | ⟨q, hq⟩
    · have := path_owner ht hp; omega
    · have he := path_unique ht _ _ _ _ rfl hp hq
      have hpre : D j <+: D j' := ⟨q ++ n :: r, by rw [hj', he]; simp⟩
      by_cases hjj : j = j'
      · subst hjj
        have := congrArg List.length hj'
        have h2 := congrArg List.length he
        simp at this h2
        omega
      · exact hD j j' hjm hjl hjj hpre
  have hholds : ∀ j, Holds (Region h D scripts.length j) σ h := by
    intro j
    refine ⟨?_, fun d n x hs => (hσ d n x hs).1⟩
    intro d n x hd hl
    obtain ⟨hjm, hd⟩ := hd
    rcases hd with hd | ⟨q, hq⟩
    · rw [ht.unmade d n (by omega)] at hl; cases hl
    · refine ⟨hjm, Or.inr ⟨q ++ [n], ?_⟩⟩
      rw [← List.append_assoc, path_last]
      exact ⟨d, hq, hl⟩
  have halong : ∀ j, j < scripts.length → Along (Region h D scripts.length j) σ root (D j) := by
    intro j hj
    obtain ⟨x, hx⟩ := hex j hj
    have key : ∀ (r p : List Str) (d : Id), D j = p ++ r → Path h root p d → Path h d r x → Along (Region h D scripts.length j) σ d r := by
      intro r
      induction r with
      | nil =>
        intro p d hp h1 h2
        refine ⟨hj, Or.inr ⟨[], ?_⟩⟩
        rw [hp, List.append_nil, List.append_nil]
        exact h1
      | cons c r ih =>
        intro p d hp h1 h2
        obtain ⟨y, hy, h2⟩ := h2
        refine ⟨y, ?_, ih (p ++ [c]) y (by rw [hp]; simp) ((path_last p c root y).mpr ⟨d, h1, hy⟩) h2⟩
        simp only [σ]
        rw [if_pos ⟨j, p, r, hj, hp, h1⟩]
        exact hy
    exact key (D j) [] root rfl rfl hx
  obtain ⟨h1, h2⟩ := apart_run (Region h D scripts.length) σ (region_apart ht hD) hσR i sched (start h scripts) (start h scripts) (by
    intro j t htj
    simp only [start, List.getElem?_map, Option.map_eq_some_iff] at htj
    obtain ⟨cs, hcs, rfl⟩ := htj
    have hj := (List.getElem?_eq_some_iff.mp hcs).1
    exact within_script (fun x hx => ⟨hj, Or.inl hx⟩) (halong j hj) cs [] (hc j cs hcs)) hholds (hholds i) rfl (fun _ _ => rfl)
  refine ⟨?_, ?_, fun d hd => h2 d ⟨hi, hd⟩⟩
  · unfold Sys.result; rw [h1]
  · unfold Sys.crashed; rw [h1]

theorem two_lookup (d : Id) (n : Str) (x : Id) (h : two.lookup d n = some x) : d = root ∧ ((n = a ∧ x = dirA) ∨ (n = b ∧ x = dirB)) := by
  unfold Heap.lookup two at h
  split at h
  · rename_i hd
    refine ⟨hd, ?_⟩
    simp only [List.find?_cons] at h
    split at h
    · rename_i hn; left; exact ⟨(by simpa using hn : a = n).symm, by simpa using h.symm⟩
    · split at h
      · rename_i hn; right; exact ⟨(by simpa using hn : b = n).symm, by simpa using h.symm⟩
      · cases h
  · cases h

/-- Two directories, a goroutine beneath each. -/
example : Tree two ∧ (¬ [a] <+: [b]) ∧ (∃ x, Path two root [a] x) ∧ (∃ x, Path two root [b] x) ∧
    (Call.removeAll 5 [a, c]).Beneath [a] ∧ (Call.rename [b, a] [b, c]).Beneath [b] ∧
    ((start two [[.mkdirAll [a, b, c], .removeAll 5 [a, b], .stat [a, b]], [.openFile [b, a] true true true, .rename [b, a] [b, c]]]).run
      [0, 1, 0, 1, 0, 1, 0, 1, 0, 0, 1, 1, 0, 0, 1, 1, 0, 0, 1, 1, 0, 0, 0, 0, 0, 0, 0, 0, 0, 0, 0, 0]).result 0 = some [.ok, .ok, .found ⟨1, 0, true⟩] := by
  refine ⟨⟨?_, ?_, ?_, ?_⟩, by decide, ⟨dirA, dirA, by decide, rfl⟩, ⟨dirB, dirB, by decide, rfl⟩, ⟨[c], rfl, by simp⟩, ⟨⟨[a], rfl, by simp⟩, ⟨[c], rfl, by simp⟩⟩, by decide +kernel⟩
  · intro d n d' n' x h1 h2
    obtain ⟨d1, e1⟩ := two_lookup d n x h1
    obtain ⟨d2, e2⟩ := two_lookup d' n' x h2
    refine ⟨d1.trans d2.symm, ?_⟩
    rcases e1 with ⟨n1, x1⟩ | ⟨n1, x1⟩ <;> rcases e2 with ⟨n2, x2⟩ | ⟨n2, x2⟩ <;> first | exact n1.trans n2.symm | exact absurd (x1.symm.trans x2) (by decide)
  · intro d n h
    obtain ⟨_, h⟩ := two_lookup d n root h
    rcases h with ⟨_, h⟩ | ⟨_, h⟩ <;> exact absurd h (by decide)
  · intro d n x h
    obtain ⟨_, h⟩ := two_lookup d n x h
    rcases h with ⟨_, rfl⟩ | ⟨_, rfl⟩ <;> rfl
  · intro d n h
    cases hl : two.lookup d n with
    | none => rfl
    | some x => exact absurd (by rw [(two_lookup d n x hl).1]; rfl) h

end Verif.Afero.Concurrent
