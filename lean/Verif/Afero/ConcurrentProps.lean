import Verif.Afero.Concurrent
/-
Concurrent calls on a synthetic filesystem of aferofs: what holds under every schedule (C105). What does not is in Concurrent.lean.
-/
namespace Verif.Afero.Concurrent
open Verif

/-! ## Lists of entries -/

theorem lookup_add (h : Heap) (d : Id) (n : Str) (x : Id) (d' : Id) (n' : Str) :
    (h.add d n x).lookup d' n' = if d' = d ∧ n' = n then some x else h.lookup d' n' := by
  unfold Heap.lookup Heap.add
  by_cases hd : d' = d
  · subst hd
    simp only [if_true, true_and]
    rw [List.find?_append]
    by_cases hn : n' = n
    · subst hn
      have : ((h d').filter (fun e => e.1 ≠ n')).find? (fun e => e.1 = n') = none := by
        rw [List.find?_eq_none]
        intro e he
        simpa using (List.mem_filter.mp he).2
      rw [this]
      simp
    · rw [if_neg hn]
      have : ((h d').filter (fun e => e.1 ≠ n)).find? (fun e => e.1 = n') = (h d').find? (fun e => e.1 = n') := by
        rw [List.find?_filter]
        congr 1
        funext e
        by_cases he : e.1 = n'
        · simp [he, hn]
        · simp [he]
      rw [this]
      have hs : List.find? (fun e : Str × Id => decide (e.1 = n')) [(n, x)] = none := by
        rw [List.find?_eq_none]
        intro e he
        rw [List.mem_singleton.mp he]
        simpa using fun h => hn h.symm
      rw [hs, Option.or_none]
  · simp [hd]

theorem lookup_remove (h : Heap) (d : Id) (n : Str) (d' : Id) (n' : Str) :
    (h.remove d n).lookup d' n' = if d' = d ∧ n' = n then none else h.lookup d' n' := by
  unfold Heap.lookup Heap.remove
  by_cases hd : d' = d
  · subst hd
    simp only [if_true, true_and]
    by_cases hn : n' = n
    · subst hn
      have : ((h d').filter (fun e => e.1 ≠ n')).find? (fun e => e.1 = n') = none := by
        rw [List.find?_eq_none]
        intro e he
        simpa using (List.mem_filter.mp he).2
      rw [this]
      simp
    · rw [if_neg hn]
      have : ((h d').filter (fun e => e.1 ≠ n)).find? (fun e => e.1 = n') = (h d').find? (fun e => e.1 = n') := by
        rw [List.find?_filter]
        congr 1
        funext e
        by_cases he : e.1 = n'
        · simp [he, hn]
        · simp [he]
      rw [this]
  · simp [hd]

/-! ## Invariants of the heap alone -/

/-- What every step of every goroutine keeps, holds after every schedule. -/
theorem run_inv (I : Sys → Prop) (hs : ∀ s i, I s → I (s.step i)) : ∀ (sched : List Nat) (s : Sys), I s → I (s.run sched) := by
  intro sched
  induction sched with
  | nil => intro s h; exact h
  | cons i r ih => intro s h; exact ih _ (hs s i h)

/-- **C105** (structure). Whatever calls run at once, a directory never holds a name twice. -/
theorem C105_distinct (h : Heap) (hd : ∀ d, ((h d).map (·.1)).Nodup) (scripts : List (List Call)) (sched : List Nat) :
    ∀ d, ((((start h scripts).run sched).heap d).map (·.1)).Nodup := by
  refine run_inv (fun s => ∀ d, ((s.heap d).map (·.1)).Nodup) ?_ sched (start h scripts) hd
  intro s i hI
  unfold Sys.step
  split
  · exact hI
  · rename_i t ht
    have hf : ∀ d n, (((s.heap d).filter (fun e => e.1 ≠ n)).map (·.1)).Nodup := by
      intro d n
      exact (hI d).sublist (List.Sublist.map _ List.filter_sublist)
    intro d
    simp only
    unfold Concurrent.step
    cases t.prog with
    | add d' n x k =>
      simp only [Heap.add]
      split
      · rw [List.map_append, List.nodup_append]
        refine ⟨hf d' n, by simp, ?_⟩
        intro y hy z hz
        obtain ⟨e, he, rfl⟩ := List.mem_map.mp hy
        have hz : z = n := by simpa using hz
        subst hz
        simpa using (List.mem_filter.mp he).2
      · exact hI d
    | remove d' n k =>
      simp only [Heap.remove]
      split
      · exact hf d' n
      · exact hI d
    | _ => exact hI d

/-! ## Bindings that stay -/

/-- The program never touches a binding of `σ`, as long as it finds them; and what it reports satisfies `Q`. -/
def Spares (σ : Id → Str → Option Id) (Q : List Res → Prop) : P → Prop
  | .done rs => Q rs
  | .crash => True
  | .lookup d n k => (∀ x, σ d n = some x → Spares σ Q (k (some x))) ∧ (σ d n = none → ∀ r, Spares σ Q (k r))
  | .add d n _ k => σ d n = none ∧ Spares σ Q k
  | .remove d n k => σ d n = none ∧ Spares σ Q k
  | .len _ k => ∀ m, Spares σ Q (k m)
  | .names _ k => ∀ ns, Spares σ Q (k ns)
  | .list _ k => ∀ ns, Spares σ Q (k ns)
  | .close _ k => Spares σ Q k
  | .fresh _ k => ∀ x, Spares σ Q (k x)

theorem spares_step {σ : Id → Str → Option Id} {Q : List Res → Prop} {h : Heap} (hσ : ∀ d n x, σ d n = some x → h.lookup d n = some x) (i : Nat) (t : Thread)
    (ht : Spares σ Q t.prog) : (∀ d n x, σ d n = some x → (step i h t).1.lookup d n = some x) ∧ Spares σ Q (step i h t).2.prog := by
  unfold step
  obtain ⟨p, m⟩ := t
  cases p with
  | done rs => exact ⟨hσ, ht⟩
  | crash => exact ⟨hσ, ht⟩
  | lookup d n k =>
    refine ⟨hσ, ?_⟩
    cases hs : σ d n with
    | none => exact ht.2 hs _
    | some x => simp only; rw [hσ d n x hs]; exact ht.1 x hs
  | add d n x k =>
    refine ⟨?_, ht.2⟩
    intro d' n' x' hs
    rw [lookup_add]
    split
    · rename_i he; obtain ⟨rfl, rfl⟩ := he; rw [ht.1] at hs; cases hs
    · exact hσ d' n' x' hs
  | remove d n k =>
    refine ⟨?_, ht.2⟩
    intro d' n' x' hs
    rw [lookup_remove]
    split
    · rename_i he; obtain ⟨rfl, rfl⟩ := he; rw [ht.1] at hs; cases hs
    · exact hσ d' n' x' hs
  | len d k => exact ⟨hσ, ht _⟩
  | names d k => exact ⟨hσ, ht _⟩
  | list d k => exact ⟨hσ, ht _⟩
  | close d k => exact ⟨hσ, ht⟩
  | fresh b k => exact ⟨hσ, ht _⟩

theorem spares_run {σ : Id → Str → Option Id} {Q : Nat → List Res → Prop} (s : Sys) (sched : List Nat) (hσ : ∀ d n x, σ d n = some x → s.heap.lookup d n = some x)
    (ht : ∀ i t, s.threads[i]? = some t → Spares σ (Q i) t.prog) :
    (∀ d n x, σ d n = some x → (s.run sched).heap.lookup d n = some x) ∧ ∀ i rs, (s.run sched).result i = some rs → Q i rs := by
  have hinv := run_inv (fun s => (∀ d n x, σ d n = some x → s.heap.lookup d n = some x) ∧ ∀ i t, s.threads[i]? = some t → Spares σ (Q i) t.prog) (by
    intro s i hI
    unfold Sys.step
    split
    · exact hI
    · rename_i t hti
      obtain ⟨h1, h2⟩ := spares_step hI.1 i t (hI.2 i t hti)
      refine ⟨h1, ?_⟩
      intro j t' hj
      by_cases hij : i = j
      · subst hij
        rw [List.getElem?_set_self (List.getElem?_eq_some_iff.mp hti).1] at hj
        injection hj with hj
        subst hj
        exact h2
      · rw [List.getElem?_set_ne hij] at hj
        exact hI.2 j t' hj) sched s ⟨hσ, ht⟩
  refine ⟨hinv.1, ?_⟩
  intro i rs hr
  unfold Sys.result at hr
  split at hr
  · rename_i rs' m heq
    injection hr with hr
    subst hr
    exact hinv.2 i _ heq
  · cases hr

variable {σ : Id → Str → Option Id} {Q : List Res → Prop}

theorem spares_lookup {d : Id} {n : Str} {k : Option Id → P} (h : ∀ r, Spares σ Q (k r)) : Spares σ Q (.lookup d n k) := ⟨fun _ _ => h _, fun _ r => h r⟩

theorem spares_findParent : ∀ (p : List Str) (d : Id) (k : Except Err Id → P), (∀ r, Spares σ Q (k r)) → Spares σ Q (findParent d p k) := by
  intro p
  induction p with
  | nil => intro d k h; exact h _
  | cons c r ih =>
    intro d k h
    cases r with
    | nil => exact h _
    | cons c' r =>
      refine spares_lookup ?_
      intro x
      cases x with
      | none => exact h _
      | some x =>
        simp only
        split
        · exact ih x k h
        · exact h _

theorem spares_find (p : List Str) (k : Except Err Id → P) (h : ∀ r, Spares σ Q (k r)) : Spares σ Q (find p k) := by
  refine spares_findParent p root _ ?_
  intro r
  cases r with
  | error e => exact h _
  | ok d =>
    simp only
    cases p.getLast? with
    | none => exact h _
    | some b =>
      refine spares_lookup ?_
      intro x
      cases x <;> exact h _

theorem spares_mkdirAll : ∀ (p : List Str) (d : Id) (k : Res → P), (∀ r, Spares σ Q (k r)) → Spares σ Q (mkdirAll d p k) := by
  intro p
  induction p with
  | nil => intro d k h; exact h _
  | cons c r ih =>
    intro d k h
    have hsome : ∀ x : Id, Spares σ Q (if x.isDir = true then mkdirAll x r k else k (.err .notdir)) := by
      intro x
      split
      · exact ih x k h
      · exact h _
    refine ⟨fun x _ => hsome x, fun hn y => ?_⟩
    cases y with
    | none => exact fun x => ⟨hn, ih x k h⟩
    | some x => exact hsome x

theorem spares_removeFromParent (d : Id) (b : Str) (k : Option Err → P) (hb : ∀ d, σ d b = none) (h : ∀ r, Spares σ Q (k r)) : Spares σ Q (removeFromParent d b k) := by
  refine spares_lookup ?_
  intro x
  cases x with
  | none => exact h _
  | some x =>
    simp only
    split
    · intro m
      simp only
      split
      · exact h _
      · exact ⟨hb d, h _⟩
    · exact ⟨hb d, h _⟩

/-- The call takes away no entry of a name in `S`. -/
def Call.Leaves (S : Str → Prop) : Call → Prop
  | .remove p => ∀ b, p.getLast? = some b → ¬ S b
  | .removeAll _ _ => False
  | .rename o _ => ∀ b, o.getLast? = some b → ¬ S b
  | _ => True

theorem spares_call (S : Str → Prop) (hS : ∀ d n, ¬ S n → σ d n = none) (c : Call) (hc : c.Leaves S) (k : Res → P) (h : ∀ r, Spares σ Q (k r)) : Spares σ Q (c.prog k) := by
  cases c with
  | stat p =>
    simp only [Call.prog, Concurrent.stat]
    exact spares_find p _ (fun r => by cases r <;> exact h _)
  | readNames p =>
    simp only [Call.prog, Concurrent.readNames]
    refine spares_find p _ (fun r => ?_)
    cases r with
    | error e => exact h _
    | ok x =>
      simp only
      split
      · exact fun ns => h _
      · exact h _
  | mkdir p =>
    simp only [Call.prog, Concurrent.mkdir]
    refine spares_find _ _ (fun r => ?_)
    cases r with
    | error e => exact h _
    | ok d =>
      simp only
      split
      · exact h _
      · cases p.getLast? with
        | none => exact h _
        | some b =>
          refine ⟨fun x _ => h _, fun hn y => ?_⟩
          cases y with
          | none => exact fun x => ⟨hn, h _⟩
          | some x => exact h _
  | mkdirAll p => exact spares_mkdirAll p root k h
  | openFile p cr ex w =>
    refine spares_findParent p root _ (fun r => ?_)
    cases r with
    | error e => exact h _
    | ok d =>
      simp only
      cases p.getLast? with
      | none => exact h _
      | some b =>
        have hsome : ∀ x : Id, Spares σ Q (if ex = true then k (.err .exist) else if (x.isDir && w) = true then k (.err .isdir) else k (.found x)) := by
          intro x
          split
          · exact h _
          · split <;> exact h _
        refine ⟨fun x _ => hsome x, fun hn y => ?_⟩
        cases y with
        | some x => exact hsome x
        | none =>
          simp only
          split
          · exact h _
          · exact fun x => ⟨hn, h _⟩
  | remove p =>
    refine spares_findParent p root _ (fun r => ?_)
    cases r with
    | error e => exact h _
    | ok d =>
      simp only
      cases hb : p.getLast? with
      | none => exact h _
      | some b => exact spares_removeFromParent d b _ (fun d => hS d b (hc b hb)) (fun r => by cases r <;> exact h _)
  | removeAll f p => exact hc.elim
  | rename o n =>
    simp only [Call.prog, rename]
    split
    · exact h _
    · split
      · rename_i b b' hb hb'
        have hnb : ∀ d, σ d b = none := fun d => hS d b (hc b hb)
        split
        · exact h _
        · refine spares_findParent o root _ (fun r => ?_)
          cases r with
          | error e => exact h _
          | ok od =>
            refine spares_lookup (fun x => ?_)
            cases x with
            | none => exact h _
            | some x =>
              refine spares_findParent n root _ (fun r => ?_)
              cases r with
              | error e => exact h _
              | ok nd =>
                refine spares_lookup (fun y => ?_)
                cases y with
                | none => exact ⟨hnb od, hnb nd, h _⟩
                | some y =>
                  simp only
                  split
                  · exact h _
                  · split
                    · exact h _
                    · split
                      · intro m
                        simp only
                        split
                        · exact h _
                        · exact ⟨hnb od, hnb nd, h _⟩
                      · exact ⟨hnb od, hnb nd, h _⟩
      · exact h _

/-- The path leads to the entry, through directories. -/
def Leads (h : Heap) (d : Id) : List Str → Id → Prop
  | [], x => x = d
  | c :: r, x => ∃ y, h.lookup d c = some y ∧ (r ≠ [] → y.isDir = true) ∧ Leads h y r x

/-- What a call must report about an entry that is at its path all the time. -/
def Call.Sees (h : Heap) (S : Str → Prop) (c : Call) (r : Res) : Prop :=
  match c with
  | .stat p => ∀ x, (∀ e ∈ p, S e) → Leads h root p x → r = .found x
  | .mkdir p => ∀ x, (∀ e ∈ p, S e) → Leads h root p x → r = .err .exist
  | .mkdirAll p => ∀ x, (∀ e ∈ p, S e) → Leads h root p x → x.isDir = true → r = .ok
  | .openFile p _ ex w => ∀ x, p ≠ [] → (∀ e ∈ p, S e) → Leads h root p x → r = if ex then .err .exist else if x.isDir && w then .err .isdir else .found x
  | _ => True

theorem sees_findParent {h : Heap} {S : Str → Prop} (hσ : ∀ d n x, S n → h.lookup d n = some x → σ d n = some x) :
    ∀ (p : List Str) (d : Id) (x : Id) (k : Except Err Id → P) (b : Str), (∀ e ∈ p, S e) → Leads h d p x → p.getLast? = some b →
      (∀ d', h.lookup d' b = some x → Spares σ Q (k (.ok d'))) → Spares σ Q (findParent d p k) := by
  intro p
  induction p with
  | nil => intro d x k b _ _ hb; cases hb
  | cons c r ih =>
    intro d x k b hS hl hb hk
    obtain ⟨y, h1, h2, h3⟩ := hl
    cases r with
    | nil =>
      injection hb with hb
      subst hb
      have h3 : x = y := h3
      subst h3
      exact hk d h1
    | cons c' r =>
      have hs := hσ d c y (hS c (List.mem_cons_self ..)) h1
      refine ⟨?_, fun hn => by rw [hs] at hn; cases hn⟩
      intro z hz
      rw [hs] at hz
      injection hz with hz
      subst hz
      simp only
      rw [if_pos (h2 (by simp))]
      exact ih y x k b (fun e he => hS e (List.mem_cons_of_mem _ he)) h3 (by simpa using hb) hk

theorem sees_found {h : Heap} {S : Str → Prop} (hσ : ∀ d n x, S n → h.lookup d n = some x → σ d n = some x) {d x : Id} {b : Str} {k : Option Id → P} (hb : S b)
    (hl : h.lookup d b = some x) (hk : Spares σ Q (k (some x))) : Spares σ Q (.lookup d b k) := by
  have hs := hσ d b x hb hl
  refine ⟨?_, fun hn => by rw [hs] at hn; cases hn⟩
  intro z hz
  rw [hs] at hz
  injection hz with hz
  subst hz
  exact hk

theorem sees_find {h : Heap} {S : Str → Prop} (hσ : ∀ d n x, S n → h.lookup d n = some x → σ d n = some x) (p : List Str) (x : Id) (k : Except Err Id → P)
    (hS : ∀ e ∈ p, S e) (hl : Leads h root p x) (hk : Spares σ Q (k (.ok x))) : Spares σ Q (find p k) := by
  unfold find
  cases hb : p.getLast? with
  | none =>
    have hp : p = [] := by simpa using hb
    subst hp
    have hl : x = root := hl
    subst hl
    exact hk
  | some b =>
    refine sees_findParent hσ p root x _ b hS hl hb ?_
    intro d' hd
    exact sees_found hσ (hS b (List.mem_of_getLast? hb)) hd hk

theorem sees_mkdirAll {h : Heap} {S : Str → Prop} (hσ : ∀ d n x, S n → h.lookup d n = some x → σ d n = some x) : ∀ (p : List Str) (d x : Id) (k : Res → P),
    (∀ e ∈ p, S e) → Leads h d p x → x.isDir = true → Spares σ Q (k .ok) → Spares σ Q (mkdirAll d p k) := by
  intro p
  induction p with
  | nil => intro d x k _ _ _ hk; exact hk
  | cons c r ih =>
    intro d x k hS hl hx hk
    obtain ⟨y, h1, h2, h3⟩ := hl
    refine sees_found hσ (hS c (List.mem_cons_self ..)) h1 ?_
    simp only
    have hy : y.isDir = true := by
      cases r with
      | nil => have h3 : x = y := h3; subst h3; exact hx
      | cons c' r => exact h2 (by simp)
    rw [if_pos hy]
    exact ih y x k (fun e he => hS e (List.mem_cons_of_mem _ he)) h3 hx hk

theorem leads_dropLast {h : Heap} : ∀ {p : List Str} {d x : Id} {b : Str}, p.getLast? = some b → Leads h d p x →
    ∃ y, Leads h d p.dropLast y ∧ h.lookup y b = some x ∧ (p.dropLast ≠ [] → y.isDir = true) := by
  intro p
  induction p with
  | nil => intro d x b hb; cases hb
  | cons c r ih =>
    intro d x b hb hl
    obtain ⟨y, h1, h2, h3⟩ := hl
    cases r with
    | nil =>
      injection hb with hb
      subst hb
      have h3 : x = y := h3
      subst h3
      exact ⟨d, rfl, h1, by simp⟩
    | cons c' r =>
      obtain ⟨z, hz, hzl, hzd⟩ := ih (b := b) (by simpa using hb) h3
      refine ⟨z, ?_, hzl, fun _ => ?_⟩
      · rw [List.dropLast_cons_cons]
        exact ⟨y, h1, fun _ => h2 (by simp), hz⟩
      · by_cases hr : (c' :: r).dropLast = []
        · rw [hr] at hz
          have hz : z = y := hz
          subst hz
          exact h2 (by simp)
        · exact hzd hr

theorem leads_unique {h : Heap} : ∀ {p : List Str} {d x y : Id}, Leads h d p x → Leads h d p y → x = y := by
  intro p
  induction p with
  | nil => intro d x y h1 h2; have h1 : x = d := h1; have h2 : y = d := h2; rw [h1, h2]
  | cons c r ih =>
    intro d x y h1 h2
    obtain ⟨a, ha, _, h1⟩ := h1
    obtain ⟨b, hb, _, h2⟩ := h2
    rw [ha] at hb
    injection hb with hb
    subst hb
    exact ih h1 h2

theorem sees_call {h : Heap} {S : Str → Prop} (hσ : ∀ d n x, S n → h.lookup d n = some x → σ d n = some x) (hS : ∀ d n, ¬ S n → σ d n = none) (c : Call) (hc : c.Leaves S)
    (k : Res → P) (hk : ∀ r, c.Sees h S r → Spares σ Q (k r)) : Spares σ Q (c.prog k) := by
  by_cases hall : ∀ r, c.Sees h S r
  · exact spares_call S hS c hc k (fun r => hk r (hall r))
  · cases c with
    | stat p =>
      have : ∃ x, (∀ e ∈ p, S e) ∧ Leads h root p x := by
        apply Classical.byContradiction
        intro hn
        exact hall (fun r x h1 h2 => absurd ⟨x, h1, h2⟩ hn)
      obtain ⟨x, h1, h2⟩ := this
      simp only [Call.prog, Concurrent.stat]
      refine sees_find hσ p x _ h1 h2 (hk _ ?_)
      intro y _ hy
      rw [leads_unique h2 hy]
    | mkdir p =>
      have : ∃ x, (∀ e ∈ p, S e) ∧ Leads h root p x := by
        apply Classical.byContradiction
        intro hn
        exact hall (fun r x h1 h2 => absurd ⟨x, h1, h2⟩ hn)
      obtain ⟨x, h1, h2⟩ := this
      simp only [Call.prog, Concurrent.mkdir]
      have hfin : Spares σ Q (k (.err .exist)) := hk _ (fun _ _ _ => rfl)
      cases hb : p.getLast? with
      | none =>
        have hp : p = [] := by simpa using hb
        subst hp
        exact hfin
      | some b =>
        obtain ⟨y, hy, hyl, hyd⟩ := leads_dropLast hb h2
        refine sees_find hσ p.dropLast y _ (fun e he => h1 e (List.dropLast_subset p he)) hy ?_
        have hyd : y.isDir = true := by
          by_cases hp : p.dropLast = []
          · rw [hp] at hy
            have hy : y = root := hy
            rw [hy]; rfl
          · exact hyd hp
        simp only
        rw [if_neg (by rw [hyd]; simp)]
        exact sees_found hσ (h1 b (List.mem_of_getLast? hb)) hyl hfin
    | mkdirAll p =>
      have : ∃ x, (∀ e ∈ p, S e) ∧ Leads h root p x ∧ x.isDir = true := by
        apply Classical.byContradiction
        intro hn
        exact hall (fun r x h1 h2 h3 => absurd ⟨x, h1, h2, h3⟩ hn)
      obtain ⟨x, h1, h2, h3⟩ := this
      exact sees_mkdirAll hσ p root x k h1 h2 h3 (hk _ (fun _ _ _ _ => rfl))
    | openFile p cr ex w =>
      have : ∃ x, p ≠ [] ∧ (∀ e ∈ p, S e) ∧ Leads h root p x := by
        apply Classical.byContradiction
        intro hn
        exact hall (fun r x h0 h1 h2 => absurd ⟨x, h0, h1, h2⟩ hn)
      obtain ⟨x, h0, h1, h2⟩ := this
      simp only [Call.prog, Concurrent.openFile]
      cases hb : p.getLast? with
      | none => exact absurd (by simpa using hb) h0
      | some b =>
        refine sees_findParent hσ p root x _ b h1 h2 hb ?_
        intro d' hd
        refine sees_found hσ (h1 b (List.mem_of_getLast? hb)) hd ?_
        have hr := hk (if ex = true then Res.err .exist else if (x.isDir && w) = true then Res.err .isdir else Res.found x) (by
          intro y _ _ hy
          rw [leads_unique h2 hy])
        simp only
        split
        · rename_i hex; rw [if_pos hex] at hr; exact hr
        · rename_i hex
          rw [if_neg hex] at hr
          split
          · rename_i hw; rw [if_pos hw] at hr; exact hr
          · rename_i hw; rw [if_neg hw] at hr; exact hr
    | remove p => exact absurd (fun r => trivial) hall
    | removeAll f p => exact absurd (fun r => trivial) hall
    | rename o n => exact absurd (fun r => trivial) hall
    | readNames p => exact absurd (fun r => trivial) hall

/-- Each result is what the call must report. -/
def AllSee (h : Heap) (S : Str → Prop) (cs : List Call) (rs : List Res) : Prop :=
  ∀ (j : Nat) (c : Call) (r : Res), cs[j]? = some c → rs[j]? = some r → c.Sees h S r

theorem sees_script {h : Heap} {S : Str → Prop} (hσ : ∀ d n x, S n → h.lookup d n = some x → σ d n = some x) (hS : ∀ d n, ¬ S n → σ d n = none) :
    ∀ (cs pre : List Call) (acc : List Res), (∀ c ∈ cs, c.Leaves S) → pre.length = acc.length → AllSee h S pre acc →
      Spares σ (fun rs => rs.length = (pre ++ cs).length ∧ AllSee h S (pre ++ cs) rs) (script cs acc) := by
  intro cs
  induction cs with
  | nil => intro pre acc _ hlen hacc; rw [List.append_nil]; exact ⟨hlen.symm, hacc⟩
  | cons c cs ih =>
    intro pre acc hl hlen hacc
    simp only [script]
    refine sees_call hσ hS c (hl c (List.mem_cons_self ..)) _ ?_
    intro r hr
    have := ih (pre ++ [c]) (acc ++ [r]) (fun x hx => hl x (List.mem_cons_of_mem _ hx)) (by simp [hlen]) (by
      intro j c' r' hc' hr'
      rcases Nat.lt_or_ge j pre.length with hj | hj
      · rw [List.getElem?_append_left hj] at hc'
        rw [List.getElem?_append_left (by omega)] at hr'
        exact hacc j c' r' hc' hr'
      · rw [List.getElem?_append_right hj] at hc'
        rw [List.getElem?_append_right (by omega)] at hr'
        have hj0 : j - pre.length = 0 := by
          cases hjj : j - pre.length with
          | zero => rfl
          | succ m => rw [hjj] at hc'; simp at hc'
        rw [hj0] at hc'
        rw [show j - acc.length = 0 by omega] at hr'
        simp at hc' hr'
        subst hc'
        subst hr'
        exact hr)
    rw [List.append_assoc, List.singleton_append] at this
    exact this

/-- **C105** (entries nobody takes away). Let `S` be names that no call running removes or renames, and no `RemoveAll` be running. Under every schedule an entry of such a name
stays the entry it was; and every call asked about a path of such names finds at every moment what was there: `Stat` and `OpenFile` the entry itself, `Mkdir` and exclusive
creation that it exists, `MkdirAll` nothing to do. -/
theorem C105_stays (h : Heap) (scripts : List (List Call)) (S : Str → Prop) (hl : ∀ cs ∈ scripts, ∀ c ∈ cs, c.Leaves S) (sched : List Nat) :
    (∀ d n x, S n → h.lookup d n = some x → ((start h scripts).run sched).heap.lookup d n = some x) ∧
    ∀ i cs rs, scripts[i]? = some cs → ((start h scripts).run sched).result i = some rs → rs.length = cs.length ∧ AllSee h S cs rs := by
  classical
  let σ : Id → Str → Option Id := fun d n => if S n then h.lookup d n else none
  have hσ : ∀ d n x, S n → h.lookup d n = some x → σ d n = some x := by
    intro d n x hn hx
    simp only [σ]
    rw [if_pos hn]; exact hx
  have hS : ∀ d n, ¬ S n → σ d n = none := by
    intro d n hn
    simp only [σ]
    rw [if_neg hn]
  have hbase : ∀ d n x, σ d n = some x → (start h scripts).heap.lookup d n = some x := by
    intro d n x hx
    simp only [σ] at hx
    split at hx
    · exact hx
    · cases hx
  obtain ⟨h1, h2⟩ := spares_run (σ := σ) (Q := fun i rs => ∀ cs, scripts[i]? = some cs → rs.length = cs.length ∧ AllSee h S cs rs) (start h scripts) sched hbase (by
    intro i t ht
    simp only [start, List.getElem?_map, Option.map_eq_some_iff] at ht
    obtain ⟨cs, hcs, rfl⟩ := ht
    have := sees_script hσ hS cs [] [] (hl cs (List.mem_of_getElem? hcs)) rfl (fun j c r hc => by cases hc)
    simp only [List.nil_append] at this
    refine cast (congrArg (fun Q => Spares σ Q (script cs [])) ?_) this
    funext rs
    apply propext
    constructor
    · intro hh cs' hcs'
      rw [hcs] at hcs'
      injection hcs' with hcs'
      subst hcs'
      exact hh
    · intro hh; exact hh cs hcs)
  exact ⟨fun d n x hn hx => h1 d n x (hσ d n x hn hx), fun i cs rs hcs hr => h2 i rs hr cs hcs⟩

/-- `a` is not removed while another goroutine removes `b` and makes it again. -/
example : (∀ cs ∈ [[Call.stat [a], .mkdirAll [a, c], .mkdir [a]], [.remove [b], .mkdir [b], .rename [b] [a, b]]], ∀ c ∈ cs, c.Leaves (· = a)) ∧
    ((start two [[Call.stat [a], .mkdirAll [a, c], .mkdir [a]], [.remove [b], .mkdir [b], .rename [b] [a, b]]]).run
      [0, 1, 1, 0, 0, 1, 1, 0, 1, 1, 1, 0, 1, 0, 1, 1, 1, 0, 0]).result 0 = some [.found dirA, .ok, .err .exist] := by
  refine ⟨?_, by decide +kernel⟩
  intro cs hcs c hc
  simp only [List.mem_cons, List.not_mem_nil, or_false] at hcs
  rcases hcs with rfl | rfl
  · simp only [List.mem_cons, List.not_mem_nil, or_false] at hc
    rcases hc with rfl | rfl | rfl <;> exact trivial
  · simp only [List.mem_cons, List.not_mem_nil, or_false] at hc
    rcases hc with rfl | rfl | rfl
    · intro x hx; injection hx with hx; subst hx; decide
    · exact trivial
    · intro x hx; injection hx with hx; subst hx; decide

/-! ## Every call comes to an end -/

/-- **C105** (progress). No call waits for another: a goroutine that is run again and again gets through, whatever the others do. -/
theorem C105_finishes (f : Nat → Nat) (i : Nat) (hf : ∀ m, ∃ m', m ≤ m' ∧ f m' = i) (s : Sys) (t : Thread) (ht : s.threads[i]? = some t) :
    ∃ m, (s.run ((List.range m).map f)).result i ≠ none ∨ (s.run ((List.range m).map f)).crashed i = true := by
  have hother : ∀ (s : Sys) (j : Nat), j ≠ i → (s.step j).threads[i]? = s.threads[i]? := by
    intro s j hj
    unfold Sys.step
    split
    · rfl
    · simp only; rw [List.getElem?_set_ne hj]
  have hrun : ∀ (l1 l2 : List Nat) (s : Sys), s.run (l1 ++ l2) = (s.run l1).run l2 := by
    intro l1
    induction l1 with
    | nil => intro l2 s; rfl
    | cons j l1 ih => intro l2 s; exact ih l2 (s.step j)
  have hskip : ∀ (l : List Nat) (s : Sys), (∀ j ∈ l, j ≠ i) → (s.run l).threads[i]? = s.threads[i]? := by
    intro l
    induction l with
    | nil => intro s _; rfl
    | cons j l ih =>
      intro s hl
      rw [show s.run (j :: l) = (s.step j).run l from rfl, ih (s.step j) (fun x hx => hl x (List.mem_cons_of_mem _ hx)), hother s j (hl j (List.mem_cons_self ..))]
  have key : ∀ (p : P) (m0 made : Nat), (s.run ((List.range m0).map f)).threads[i]? = some ⟨p, made⟩ →
      ∃ m, (s.run ((List.range m).map f)).result i ≠ none ∨ (s.run ((List.range m).map f)).crashed i = true := by
    have hnext : ∀ (p : P) (m0 made : Nat), (s.run ((List.range m0).map f)).threads[i]? = some ⟨p, made⟩ →
        ∃ m h, (s.run ((List.range m).map f)).threads[i]? = some (Concurrent.step i h ⟨p, made⟩).2 := by
      intro p m0 made hp
      have hex : ∃ m', m0 ≤ m' ∧ f m' = i ∧ ∀ m, m0 ≤ m → m < m' → f m ≠ i := by
        obtain ⟨m', h1, h2⟩ := hf m0
        induction m' using Nat.strongRecOn with
        | ind m' ih =>
          by_cases hh : ∃ m, m0 ≤ m ∧ m < m' ∧ f m = i
          · obtain ⟨m, a1, a2, a3⟩ := hh
            exact ih m a2 a1 a3
          · exact ⟨m', h1, h2, fun m a1 a2 a3 => hh ⟨m, a1, a2, a3⟩⟩
      obtain ⟨m', h1, h2, h3⟩ := hex
      have hsplit : (List.range m').map f = (List.range m0).map f ++ ((List.range (m' - m0)).map (fun x => f (m0 + x))) := by
        have : m' = m0 + (m' - m0) := by omega
        conv => lhs; rw [this]
        rw [List.range_add, List.map_append, List.map_map]
        rfl
      have hpre : (s.run ((List.range m').map f)).threads[i]? = some ⟨p, made⟩ := by
        rw [hsplit, hrun, hskip]
        · exact hp
        · intro j hj
          obtain ⟨x, hx, rfl⟩ := List.mem_map.mp hj
          have := List.mem_range.mp hx
          exact h3 _ (by omega) (by omega)
      refine ⟨m' + 1, (s.run ((List.range m').map f)).heap, ?_⟩
      rw [List.range_succ, List.map_append, hrun]
      simp only [List.map_cons, List.map_nil, h2]
      show (Sys.step _ i).threads[i]? = _
      unfold Sys.step
      rw [hpre]
      simp only
      rw [List.getElem?_set_self (List.getElem?_eq_some_iff.mp hpre).1]
    intro p
    induction p with
    | done rs => intro m0 made hp; exact ⟨m0, Or.inl (by unfold Sys.result; rw [hp]; simp)⟩
    | crash => intro m0 made hp; exact ⟨m0, Or.inr (by unfold Sys.crashed; rw [hp])⟩
    | lookup d n k ih => intro m0 made hp; obtain ⟨m, h, hm⟩ := hnext _ _ _ hp; exact ih _ m _ hm
    | add d n x k ih => intro m0 made hp; obtain ⟨m, h, hm⟩ := hnext _ _ _ hp; exact ih m _ hm
    | remove d n k ih => intro m0 made hp; obtain ⟨m, h, hm⟩ := hnext _ _ _ hp; exact ih m _ hm
    | len d k ih => intro m0 made hp; obtain ⟨m, h, hm⟩ := hnext _ _ _ hp; exact ih _ m _ hm
    | names d k ih => intro m0 made hp; obtain ⟨m, h, hm⟩ := hnext _ _ _ hp; exact ih _ m _ hm
    | list d k ih => intro m0 made hp; obtain ⟨m, h, hm⟩ := hnext _ _ _ hp; exact ih _ m _ hm
    | close d k ih => intro m0 made hp; obtain ⟨m, h, hm⟩ := hnext _ _ _ hp; exact ih m _ hm
    | fresh b k ih => intro m0 made hp; obtain ⟨m, h, hm⟩ := hnext _ _ _ hp; exact ih _ m _ hm
  obtain ⟨p, made⟩ := t
  exact key p 0 made ht

/-- Goroutines run in turn: each is run again and again. -/
example (i : Nat) (hi : i < 2) (m : Nat) : ∃ m', m ≤ m' ∧ (fun x => x % 2) m' = i := ⟨2 * m + i, by omega, by simp only; omega⟩

end Verif.Afero.Concurrent
