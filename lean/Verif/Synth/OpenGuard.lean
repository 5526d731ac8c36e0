import Verif.Synth.Effects
/-
C127: a synthetic tree that refuses to remove what is open (Option.DisableOpenFileRemoval). Code: /repo/vroot/synthfs/open.go, remove.go 10-33,
handle.go 45-58, handle_dir.go 34-47, over the tree of Tree.lean. Every call runs under the lock of the tree, and Close counts under it.
-/
namespace Verif.Synth.Tree
open Verif.Path

/-! ## Model -/

namespace Guard

/-- The tree with the roots opened on it, `metadata.refCount` of every node (node.go 36; nodes are never given out twice, so that a new one has count 0), and the handles given
out so far: the node each is on, and whether it has been closed. -/
structure G where
  world : World
  refs : Id → Nat
  handles : List (Id × Bool)

/-- A new filesystem -/
def init : G := ⟨World.init, fun _ => 0, []⟩

inductive GErr where
  | tree (e : Err)
  | badf
  | view
deriving DecidableEq

/-- Arguments of `OpenFile`, and how the allocator and the view answer: `write` is `openflag.WriteOp`, `trunc` is O_TRUNC with write access. -/
structure Open where
  name : Str
  creat : Bool
  excl : Bool
  write : Bool
  trunc : Bool
  mode : Nat
  allocOk : Bool
  viewOk : Bool
  truncOk : Bool

/-- A handle is given out: open.go 61-62, 92-99. -/
def G.give (g : G) (n : Id) : G := { g with refs := fun m => if m = n then g.refs m + 1 else g.refs m, handles := g.handles ++ [(n, false)] }

/-- handle.go 45-58, handle_dir.go 34-47 `Close` -/
def G.close (g : G) (i : Nat) : G := match g.handles[i]? with
  | some (n, false) => { g with refs := fun m => if m = n then g.refs m - 1 else g.refs m, handles := g.handles.set i (n, true) }
  | _ => g

/-- open.go 52-82: what is there is opened. Where truncating fails the handle is closed again and given to nobody (open.go 72-75); it stays in the list, closed. -/
def openExisting (g : G) (b : Id) (o : Open) : G × Except GErr Nat :=
  match resolve g.world.st b b o.name true with
  | .error e => (g, .error (.tree e))
  | .ok r => match g.world.st.nodes[r.node]? with
    | some (.dir _) => if o.write then (g, .error .badf) else (g.give r.node, .ok g.handles.length)
    | some (.file ..) =>
      if o.viewOk = false then (g, .error .view)
      else if o.trunc = true ∧ o.truncOk = false then ((g.give r.node).close g.handles.length, .error .view)
      else (g.give r.node, .ok g.handles.length)
    | _ => (g, .error .badf)

/-- open.go 20-83 `OpenFile`. The entry is made before its view is opened (open.go 48-49), and stays when that fails. -/
def openFile (g : G) (b : Id) (o : Open) : G × Except GErr Nat :=
  if o.creat then match resolveParent g.world.st b b o.name with
    | .error e => (g, .error (.tree e))
    | .ok (parent, base) => match g.world.st.lookup parent base with
      | some _ => if o.excl then (g, .error (.tree .exist)) else openExisting g b o
      | none =>
        if o.allocOk = false then (g, .error .view)
        else
          let g1 : G := { g with world := ⟨(create g.world.st b o.name o.mode).1, g.world.roots⟩ }
          if o.viewOk = false then (g1, .error .view) else (g1.give g.world.st.nodes.length, .ok g.handles.length)
  else openExisting g b o

/-- remove.go 12-23: whether the entry is held open, and that matters. -/
def held (disabled : Bool) (g : G) (b : Id) (name : Str) : Bool := disabled && match resolveParent g.world.st b b name with
  | .error _ => false
  | .ok (parent, base) => match g.world.st.lookup parent base with
    | none => false
    | some t => decide (0 < g.refs t)

/-- remove.go 10-33 `Remove` -/
def removeOn (disabled : Bool) (g : G) (b : Id) (name : Str) : G × Option Err :=
  let r := remove g.world.st b name (held disabled g b name)
  ({ g with world := ⟨r.1, g.world.roots⟩ }, r.2)

/-- What clients do. Every other call is that of Tree.lean and looks at no count. -/
inductive Op where
  | remove (r : Nat) (name : Str)
  | openFile (r : Nat) (o : Open)
  | close (i : Nat)
  | other (r : Nat) (c : Call) (h : ∀ n b, c ≠ .remove n b)

def step (disabled : Bool) (g : G) : Op → G
  | .remove r name => match g.world.roots[r]? with
    | none => g
    | some b => (removeOn disabled g b name).1
  | .openFile r o => match g.world.roots[r]? with
    | none => g
    | some b => (openFile g b o).1
  | .close i => g.close i
  | .other r c _ => { g with world := g.world.step r c }

def run (disabled : Bool) (g : G) : List Op → G
  | [] => g
  | o :: os => run disabled (step disabled g o) os

end Guard
open Guard

/-! ## Specification -/

/-- Somebody has a handle on this node open. -/
def IsOpen (g : G) (t : Id) : Prop := ∃ i : Nat, g.handles[i]? = some (t, false)

/-! ## Proofs -/

/-- The counts are right. -/
def Counted (g : G) : Prop := ∀ n, g.refs n = g.handles.countP (fun h => h.1 = n && !h.2)

theorem counted_give {g : G} (h : Counted g) (n : Id) : Counted (g.give n) := by
  intro m
  unfold G.give
  simp only [List.countP_append, List.countP_singleton]
  rw [h m]
  by_cases hm : m = n
  · subst hm; simp
  · rw [if_neg hm]
    simp [Ne.symm hm]

theorem countP_set {p : Id × Bool → Bool} : ∀ (l : List (Id × Bool)) (i : Nat) (x y : Id × Bool), l[i]? = some x →
    (l.set i y).countP p + (if p x then 1 else 0) = l.countP p + if p y then 1 else 0
  | [], i, x, y, h => by simp at h
  | a :: l, 0, x, y, h => by
    simp only [List.getElem?_cons_zero, Option.some.injEq] at h
    subst h
    simp only [List.set_cons_zero, List.countP_cons]
    omega
  | a :: l, i + 1, x, y, h => by
    simp only [List.getElem?_cons_succ] at h
    have := countP_set (p := p) l i x y h
    simp only [List.set_cons_succ, List.countP_cons]
    omega

theorem counted_close {g : G} (h : Counted g) (i : Nat) : Counted (g.close i) := by
  unfold G.close
  split
  next n hn =>
    intro m
    simp only
    have key := countP_set (p := fun h => h.1 = m && !h.2) g.handles i (n, false) (n, true) hn
    simp only [Bool.not_true, Bool.and_false, Bool.false_eq_true, if_false, Nat.add_zero, Bool.not_false, Bool.and_true, decide_eq_true_eq] at key
    rw [h m]
    by_cases hm : m = n
    · subst hm; rw [if_pos rfl] at key ⊢; omega
    · rw [if_neg hm]; rw [if_neg (Ne.symm hm)] at key; omega
  · exact h

theorem counted_world {g : G} (h : Counted g) (w : World) : Counted { g with world := w } := h

theorem counted_existing {g : G} (h : Counted g) (b : Id) (o : Open) : Counted (openExisting g b o).1 := by
  unfold openExisting
  split
  · exact h
  · split
    · split
      · exact h
      · exact counted_give h _
    · split
      · exact h
      · split
        · exact counted_close (counted_give h _) _
        · exact counted_give h _
    · exact h

theorem counted_open {g : G} (h : Counted g) (b : Id) (o : Open) : Counted (Guard.openFile g b o).1 := by
  unfold Guard.openFile
  split
  · split
    · exact h
    · split
      · split
        · exact h
        · exact counted_existing h b o
      · split
        · exact h
        · simp only
          split
          · exact counted_world h _
          · exact counted_give (counted_world h _) _
  · exact counted_existing h b o

theorem counted_step (dis : Bool) {g : G} (h : Counted g) (o : Op) : Counted (step dis g o) := by
  cases o with
  | remove r name => simp only [step]; split <;> exact h
  | openFile r o =>
    simp only [step]
    split
    · exact h
    · exact counted_open h _ o
  | close i => exact counted_close h i
  | other r c hc => exact h

theorem counted_run (dis : Bool) : ∀ (os : List Op) {g : G}, Counted g → Counted (run dis g os)
  | [], _, h => h
  | o :: os, _, h => counted_run dis os (counted_step dis h o)

theorem give_world (g : G) (n : Id) : (g.give n).world = g.world := rfl
theorem close_world (g : G) (i : Nat) : (g.close i).world = g.world := by
  unfold G.close; split <;> rfl

theorem existing_world (g : G) (b : Id) (o : Open) : (openExisting g b o).1.world = g.world := by
  unfold openExisting
  split
  · rfl
  · split
    · split <;> rfl
    · split
      · rfl
      · split
        · rw [close_world]; rfl
        · rfl
    · rfl

/-- Every operation is no call or one call on the tree. -/
theorem step_world (dis : Bool) (g : G) (o : Op) : (step dis g o).world = g.world ∨ ∃ r c, (step dis g o).world = g.world.step r c := by
  cases o with
  | remove r name =>
    simp only [step]
    split
    · exact .inl rfl
    next b hb =>
      refine .inr ⟨r, .remove name (held dis g b name), ?_⟩
      unfold World.step
      rw [hb]
      rfl
  | openFile r o =>
    simp only [step]
    split
    · exact .inl rfl
    next b hb =>
      unfold Guard.openFile
      split
      · split
        · exact .inl rfl
        · split
          · split
            · exact .inl rfl
            · exact .inl (existing_world g b o)
          · split
            · exact .inl rfl
            · refine .inr ⟨r, .create o.name o.mode, ?_⟩
              unfold World.step
              rw [hb]
              simp only
              split <;> rfl
      · exact .inl (existing_world g b o)
  | close i => exact .inl (close_world g i)
  | other r c hc => exact .inr ⟨r, c, rfl⟩

theorem World.run_append : ∀ (w : World) (as bs : List (Nat × Call)), w.run (as ++ bs) = (w.run as).run bs
  | _, [], _ => rfl
  | w, (r, c) :: as, bs => World.run_append (w.step r c) as bs

theorem run_world (dis : Bool) : ∀ (os : List Op) (g : G) (hist : List (Nat × Call)), g.world = after hist → ∃ hist', (run dis g os).world = after hist'
  | [], _, hist, h => ⟨hist, h⟩
  | o :: os, g, hist, h => by
    rcases step_world dis g o with e | ⟨r, c, e⟩
    · exact run_world dis os _ hist (e.trans h)
    · refine run_world dis os _ (hist ++ [(r, c)]) ?_
      rw [e, h]
      unfold after
      rw [World.run_append]
      rfl

theorem refs_pos {g : G} (h : Counted g) (t : Id) : 0 < g.refs t ↔ IsOpen g t := by
  rw [h t, List.countP_pos_iff]
  constructor
  · rintro ⟨⟨n, c⟩, hm, hp⟩
    simp only [Bool.and_eq_true, decide_eq_true_eq, Bool.not_eq_true'] at hp
    obtain ⟨rfl, rfl⟩ := hp
    exact List.getElem?_of_mem hm
  · rintro ⟨i, hi⟩
    exact ⟨(t, false), List.mem_of_getElem? hi, by simp⟩

theorem reached (dis : Bool) (os : List Op) : Counted (run dis init os) ∧ ∃ hist, (run dis init os).world = after hist :=
  ⟨counted_run dis os (fun _ => rfl), run_world dis os init [] rfl⟩

theorem held_iff {g : G} (hc : Counted g) {hist : List (Nat × Call)} (hw : g.world = after hist) {b : Id} (hb : b ∈ g.world.roots) {name : Str} {d t : Id} {k : Str}
    (hp : Place g.world.st b name d k) (ht : g.world.st.lookup d k = some t) (dis : Bool) : held dis g b name = true ↔ dis = true ∧ IsOpen g t := by
  have hg := good_after hist (b := b) (by rw [← hw]; exact hb)
  rw [← hw] at hg
  unfold held
  rw [(resolveParent_iff hg.1 hg.2 name d k).2 hp]
  simp only
  rw [ht]
  simp only [Bool.and_eq_true, decide_eq_true_eq, refs_pos hc]

/-- **C127, Remove.** After any history of calls through any roots, with failing allocators and views, of an entry that is a file, a link or an empty directory: where removal of
open entries is disabled and a handle on it is open, `Remove` answers with the sharing violation and changes nothing; otherwise it removes the entry and nothing else. -/
theorem C127_remove (dis : Bool) (os : List Op) (b : Id) (hb : b ∈ (run dis init os).world.roots) (name : Str) (d t : Id) (k : Str)
    (hp : Place (run dis init os).world.st b name d k) (ht : (run dis init os).world.st.lookup d k = some t) (he : (run dis init os).world.st.entries t = []) :
    (dis = true ∧ IsOpen (run dis init os) t → removeOn dis (run dis init os) b name = (run dis init os, some .sharing)) ∧
    (¬ (dis = true ∧ IsOpen (run dis init os) t) → ∃ g, removeOn dis (run dis init os) b name = (g, none) ∧
      Removes (run dis init os).world.st g.world.st d k t ∧ g.handles = (run dis init os).handles) := by
  obtain ⟨hc, hist, hw⟩ := reached dis os
  generalize run dis init os = g at *
  have hh := held_iff hc hw hb hp ht dis
  have key := C77_remove hist b (by rw [← hw]; exact hb) name (held dis g b name)
  rw [← hw] at key
  obtain ⟨_, k1, k2⟩ := key.2.2 d k t hp ht
  constructor
  · intro h
    have := k1 he (hh.2 h)
    unfold removeOn
    rw [this]
  · intro h
    obtain ⟨s', h1, h2, _⟩ := k2 he (by rw [← Bool.not_eq_true]; exact fun hx => h (hh.1 hx))
    refine ⟨{ g with world := ⟨s', g.world.roots⟩ }, ?_, h2, rfl⟩
    unfold removeOn
    rw [h1]

/-- **C127, open entries stay.** Where removal of open entries is disabled, no `Remove`, by whatever name and through whatever root, takes away an entry on which a handle is open. -/
theorem C127_stays (os : List Op) (b : Id) (hb : b ∈ (run true init os).world.roots) (name : Str) (d t : Id) (k : Str)
    (ht : (run true init os).world.st.lookup d k = some t) (ho : IsOpen (run true init os) t) :
    (removeOn true (run true init os) b name).1.world.st.lookup d k = some t := by
  obtain ⟨hc, hist, hw⟩ := reached true os
  generalize run true init os = g at *
  have key := C77_remove hist b (by rw [← hw]; exact hb) name (held true g b name)
  rw [← hw] at key
  obtain ⟨k0, k1, k2⟩ := key
  show (remove g.world.st b name (held true g b name)).1.lookup d k = some t
  by_cases hpl : ∃ d k, Place g.world.st b name d k
  · obtain ⟨d', k', hp⟩ := hpl
    cases hl : g.world.st.lookup d' k' with
    | none => rw [k1 d' k' hp hl]; exact ht
    | some t' =>
      obtain ⟨a1, a2, a3⟩ := k2 d' k' t' hp hl
      by_cases he : g.world.st.entries t' = []
      · cases hh : held true g b name with
        | true => rw [hh] at a2; rw [a2 he rfl]; exact ht
        | false =>
          rw [hh] at a3
          obtain ⟨s', h1, h2, _⟩ := a3 he rfl
          rw [h1]
          have hne : ¬ (d = d' ∧ k = k') := by
            rintro ⟨rfl, rfl⟩
            rw [hl] at ht
            cases ht
            rw [(held_iff hc hw hb hp hl true).2 ⟨rfl, ho⟩] at hh
            cases hh
          rw [h2.rest.entries d k hne]
          exact ht
      · rw [a1 he]; exact ht
  · rw [(k0 hpl).1]; exact ht

/-- What a call to open may do to the handles: when it succeeds, the number it answers is a new handle, open, on what the name leads to or on the entry made for it; when it fails, nothing is open
that was not. -/
structure Handles (g : G) (b : Id) (name : Str) (r : G × Except GErr Nat) : Prop where
  ok : ∀ i, r.2 = .ok i → i = g.handles.length ∧ ∃ t, r.1.handles = g.handles ++ [(t, false)] ∧ 
    (LeadsTo g.world.st b name t ∨ ∃ d k, Place g.world.st b name d k ∧ g.world.st.lookup d k = none ∧ r.1.world.st.lookup d k = some t)
  error : ∀ e, r.2 = .error e → ∀ t, IsOpen r.1 t ↔ IsOpen g t

theorem isOpen_give_close (g : G) (n t : Id) : IsOpen ((g.give n).close g.handles.length) t ↔ IsOpen g t := by
  have hx : (g.give n).handles[g.handles.length]? = some (n, false) := by
    show (g.handles ++ [(n, false)])[g.handles.length]? = _
    simp
  unfold G.close
  rw [hx]
  simp only
  have hs : (g.give n).handles.set g.handles.length (n, true) = g.handles ++ [(n, true)] := by
    show (g.handles ++ [(n, false)]).set g.handles.length (n, true) = _
    simp
  unfold IsOpen
  simp only [hs]
  constructor
  · rintro ⟨i, hi⟩
    by_cases hlt : i < g.handles.length
    · exact ⟨i, by rwa [List.getElem?_append_left hlt] at hi⟩
    · rw [List.getElem?_append_right (by omega)] at hi
      cases hj : i - g.handles.length with
      | zero => rw [hj] at hi; simp at hi
      | succ j => rw [hj] at hi; simp at hi
  · rintro ⟨i, hi⟩
    have hlt : i < g.handles.length := by
      rcases Nat.lt_or_ge i g.handles.length with h | h
      · exact h
      · rw [List.getElem?_eq_none h] at hi; cases hi
    exact ⟨i, by rw [List.getElem?_append_left hlt]; exact hi⟩

theorem handles_existing {g : G} (hg : Good g.world.st) {b : Id} (hb : g.world.st.isDir b) (o : Open) : Handles g b o.name (openExisting g b o) := by
  unfold openExisting
  cases hr : resolve g.world.st b b o.name true with
  | error e => exact ⟨(fun i h => by cases h), fun _ _ _ => Iff.rfl⟩
  | ok r =>
    have hm : LeadsTo g.world.st b o.name r.node := (resolve_iff hg hb o.name r.node).1 ⟨r, hr, rfl⟩
    have given : Handles g b o.name (g.give r.node, .ok g.handles.length) :=
      ⟨(fun i h => by cases h; exact ⟨rfl, r.node, rfl, .inl hm⟩), (fun e h => by cases h)⟩
    have fails : ∀ e, Handles g b o.name (g, .error e) := fun e => ⟨(fun i h => by cases h), fun _ _ _ => Iff.rfl⟩
    simp only
    split
    · split
      · exact fails _
      · exact given
    · split
      · exact fails _
      · split
        · exact ⟨(fun i h => by cases h), fun _ _ t => isOpen_give_close g r.node t⟩
        · exact given
    · exact fails _

/-- **C127, handles.** After any history, opening gives a new open handle, on what the name leads to or on the file made, or fails and leaves open exactly what was open. -/
theorem C127_open (dis : Bool) (os : List Op) (b : Id) (hb : b ∈ (run dis init os).world.roots) (o : Open) :
    Handles (run dis init os) b o.name (Guard.openFile (run dis init os) b o) := by
  obtain ⟨hc, hist, hw⟩ := reached dis os
  generalize run dis init os = g at *
  have hg := good_after hist (b := b) (by rw [← hw]; exact hb)
  have ho := C77_open hist b (by rw [← hw]; exact hb) o.name o.excl o.write o.mode
  rw [← hw] at hg ho
  unfold Guard.openFile
  split
  · cases hr : resolveParent g.world.st b b o.name with
    | error e => exact ⟨(fun i h => by cases h), fun _ _ _ => Iff.rfl⟩
    | ok p =>
      obtain ⟨p, k⟩ := p
      simp only
      cases hl : g.world.st.lookup p k with
      | some c =>
        simp only
        split
        · exact ⟨(fun i h => by cases h), fun _ _ _ => Iff.rfl⟩
        · exact handles_existing hg.1 hg.2 o
      | none =>
        simp only
        have hp := (resolveParent_iff hg.1 hg.2 o.name p k).1 hr
        split
        · exact ⟨(fun i h => by cases h), fun _ _ _ => Iff.rfl⟩
        · split
          · exact ⟨(fun i h => by cases h), fun _ _ _ => Iff.rfl⟩
          · refine ⟨fun i h => ?_, (fun e h => by cases h)⟩
            cases h
            refine ⟨rfl, g.world.st.nodes.length, rfl, .inr ⟨p, k, hp, hl, ?_⟩⟩
            obtain ⟨s', c, h1, h2, _⟩ := ho.2.2.2 p k hp hl
            have : Tree.openFile g.world.st b o.name true o.excl o.write o.mode = ((create g.world.st b o.name o.mode).1, .ok g.world.st.nodes.length) := by
              unfold Tree.openFile
              simp only [if_true]
              rw [hr]
              simp only
              rw [hl]
            rw [this] at h1
            injection h1 with h1 h3
            injection h3 with h3
            show (create g.world.st b o.name o.mode).1.lookup p k = _
            rw [h1, h3]
            exact h2
  · exact handles_existing hg.1 hg.2 o

/-- **C127, Close.** Closing a handle closes that one and no other, and closing it again does nothing. -/
theorem C127_close (g : G) (i j : Nat) : ((g.close i).handles[j]? = if j = i then (g.handles[i]?).map (fun h => (h.1, true)) else g.handles[j]?) ∧
    ((g.close i).close i).handles = (g.close i).handles ∧ (g.close i).world = g.world := by
  have h1 : ∀ j, (g.close i).handles[j]? = if j = i then (g.handles[i]?).map (fun h => (h.1, true)) else g.handles[j]? := by
    intro j
    unfold G.close
    split
    next n hn =>
      simp only [List.getElem?_set]
      by_cases hj : j = i
      · subst hj
        have hlt : j < g.handles.length := by
          rcases Nat.lt_or_ge j g.handles.length with h | h
          · exact h
          · rw [List.getElem?_eq_none h] at hn; cases hn
        rw [if_pos rfl, if_pos hlt, if_pos rfl, hn]
        rfl
      · rw [if_neg (Ne.symm hj), if_neg hj]
    next hn =>
      by_cases hj : j = i
      · subst hj
        rw [if_pos rfl]
        cases hx : g.handles[j]? with
        | none => rfl
        | some x =>
          obtain ⟨n, c⟩ := x
          cases c with
          | true => rfl
          | false => exact absurd hx (hn n)
      · rw [if_neg hj]
  refine ⟨h1 j, ?_, close_world g i⟩
  have : ∀ g' : G, (∀ n, g'.handles[i]? ≠ some (n, false)) → (g'.close i).handles = g'.handles := by
    intro g' h
    unfold G.close
    split
    next n hn => exact absurd hn (h n)
    · rfl
  refine this _ fun n hn => ?_
  have h2 := h1 i
  rw [hn, if_pos rfl] at h2
  cases hx : g.handles[i]? with
  | none => rw [hx] at h2; cases h2
  | some x => rw [hx] at h2; cases h2

/-! ## Concrete cases -/

/-- Open for reading and writing, created if missing. -/
def rw_ (name : Str) : Open := ⟨name, true, false, true, false, 0, true, true, true⟩

/-- f is opened twice, moved to g, and closed once: it cannot be removed; closed twice, it can. -/
def sampleOps : List Op := [.openFile 0 (rw_ ['f']), .openFile 0 (rw_ ['f']), .other 0 (.rename ['f'] ['g']) (by intros; simp), .close 0, .close 0]

example : (run true init sampleOps).handles = [(1, true), (1, false)] ∧ (run true init sampleOps).world.st.lookup 0 ['g'] = some 1 ∧
    (run true init sampleOps).world.st.entries 1 = [] ∧ resolveParent (run true init sampleOps).world.st 0 0 ['g'] = .ok (0, ['g']) ∧ 0 ∈ (run true init sampleOps).world.roots ∧
    (removeOn true (run true init sampleOps) 0 ['g']).2 = some .sharing ∧ (removeOn true (run true init (sampleOps ++ [.close 1])) 0 ['g']).2 = none ∧
    (removeOn false (run false init sampleOps) 0 ['g']).2 = none := by decide +kernel

/-- **C127** (note). Only `Remove` looks: an open file is taken away by `RemoveAll`, by a rename over it and by `AddFile`, even where removal of open entries is disabled. -/
theorem C127_note_others : IsOpen (run true init [.openFile 0 (rw_ ['f'])]) 1 ∧ (run true init [.openFile 0 (rw_ ['f'])]).world.st.lookup 0 ['f'] = some 1 ∧
    (removeAll 9 (run true init [.openFile 0 (rw_ ['f'])]).world.st 0 ['f']).1.lookup 0 ['f'] = none ∧
    (rename (create (run true init [.openFile 0 (rw_ ['f'])]).world.st 0 ['g'] 0).1 0 ['g'] ['f']).1.lookup 0 ['f'] = some 2 ∧
    (addFile mergeOverwrite (run true init [.openFile 0 (rw_ ['f'])]).world.st 0 ['f'] 0 7).1.lookup 0 ['f'] = some 2 :=
  ⟨⟨0, by decide +kernel⟩, by decide +kernel, by decide +kernel, by decide +kernel, by decide +kernel⟩

/-- **C127** (note). Handles are counted by name: a file open under one of its two names can be removed under the other, which closes the view both share (C78). -/
theorem C127_note_hard_link : let g := run true init [.openFile 0 (rw_ ['f']), .other 0 (.link ['f'] ['g']) (by intros; simp)]
    g.handles = [(1, false)] ∧ (removeOn true g 0 ['g']).2 = none ∧ (removeOn true g 0 ['g']).1.world.st.closed = [0] := by decide +kernel

/-- **C77** fails where a view cannot be opened: `OpenFile` with O_CREATE answers with the error of the view and leaves a new file in the tree. -/
theorem C77_counterexample_failed_open : (Guard.openFile init 0 { rw_ ['f'] with viewOk := false }).2 = .error .view ∧ init.world.st.lookup 0 ['f'] = none ∧
    (Guard.openFile init 0 { rw_ ['f'] with viewOk := false }).1.world.st.lookup 0 ['f'] = some 1 := by decide +kernel

end Verif.Synth.Tree
