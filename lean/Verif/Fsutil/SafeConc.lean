import Verif.Fsutil.TempProps
/-
C119: safe writes made at the same time (/repo/fsutil/safe_write.go 57-223, open_random.go 28-119), by any number of goroutines or processes, on one filesystem.

A disk gives names to objects; an object is what an inode number stands for, and consists of pieces: the bytes of a file, or what was put below a directory. Every call on the filesystem takes effect at
once, with one of its results; the calls of the writers come in any order, and a writer may stop for good at any point (a crash). Which random names come up is left open. Names are cleaned paths. Left
out: destinations below another destination, or below a temporary; hooks that change something (they must not, safe_write.go 46-50).
-/
namespace Verif.Fsutil.SafeConc

structure Disk (β : Type) where
  name : Str → Option Nat
  data : Nat → List β
  /-- the next inode number -/
  next : Nat

/-- One call of `Write`, `Copy` or `CopyFs`: where to, the names its policy may come up with, what is to be written (`dir`: the entries below a directory, put there by path), the option. -/
structure Writer (β : Type) where
  dst : Str
  temp : Str → Prop
  pieces : List β
  dir : Bool
  ignoreCloseErr : Bool

/-- Where a call is that has its temporary. `filling` has the pieces that are still to be written; the hooks before and after belong to it. -/
inductive Stage (β : Type) where
  | opening | filling (rest : List β) | closing | renaming | removing

/-- Where a call is: looking for a name (after `n` taken ones), working on its temporary (with its name and inode number), or back. `left` is a temporary that it could not or did not remove. -/
inductive Phase (β : Type) where
  | creating (n : Nat)
  | busy (t : Str) (i : Nat) (st : Stage β)
  | done (ok : Bool) (left : Option Str)

/-- What happens next in a call: it tries a name, its next call on the filesystem (or a hook) succeeds or fails, or `n` pieces are written. -/
inductive Act where
  | attempt (t : Str) | ok | fail | put (n : Nat)

def setName (f : Str → Option Nat) (p : Str) (v : Option Nat) : Str → Option Nat := fun q => if q = p then v else f q
def setData {β : Type} (f : Nat → List β) (i : Nat) (v : List β) : Nat → List β := fun j => if j = i then v else f j

open Classical in
/-- The next step of a call: open_random.go 97-118 with 36-45 and 65-70 (an exclusive creation; `MkdirRandom` opens what it made), safe_write.go 183-222, and 174-181 on an error (`Close` has no effect
on the disk). The last component says that the destination got its new content. What cannot happen changes nothing. -/
noncomputable def act {β : Type} (w : Writer β) (ph : Phase β) (a : Act) (d : Disk β) : Phase β × Disk β × Bool :=
  match ph, a with
  | .creating _, .fail => (.done false none, d, false)
  | .creating n, .attempt t =>
    if w.temp t then
      match d.name t with
      | some _ => (if n + 1 < 10000 then .creating (n + 1) else .done false none, d, false)
      | none => (.busy t d.next (if w.dir then .opening else .filling w.pieces),
          { name := setName d.name t (some d.next), data := setData d.data d.next [], next := d.next + 1 }, false)
    else (ph, d, false)
  | .busy t i .opening, .ok =>
    match d.name t with
    | some _ => (.busy t i (.filling w.pieces), d, false)
    | none => (.done false (some t), d, false)
  | .busy t _ .opening, .fail => (.done false (some t), d, false)
  | .busy t i (.filling rest), .put n =>
    if w.dir then
      match d.name t with
      | some j => (.busy t i (.filling (rest.drop n)), { d with data := setData d.data j (d.data j ++ rest.take n) }, false)
      | none => (.busy t i .removing, d, false)
    else (.busy t i (.filling (rest.drop n)), { d with data := setData d.data i (d.data i ++ rest.take n) }, false)
  | .busy t i (.filling []), .ok => (.busy t i .closing, d, false)
  | .busy t i (.filling _), .fail => (.busy t i .removing, d, false)
  | .busy t i .closing, .ok => (.busy t i .renaming, d, false)
  | .busy t i .closing, .fail => (.busy t i (if w.ignoreCloseErr then .renaming else .removing), d, false)
  | .busy t i .renaming, .ok =>
    match d.name t with
    | some j => (.done true none, { d with name := setName (setName d.name w.dst (some j)) t none }, true)
    | none => (.busy t i .removing, d, false)
  | .busy t i .renaming, .fail => (.busy t i .removing, d, false)
  | .busy t _ .removing, .ok => (.done false none, { d with name := setName d.name t none }, false)
  | .busy t _ .removing, .fail => (.done false (some t), d, false)
  | ph, _ => (ph, d, false)

/-- A step of the whole: a step of a call, or somebody removes a temporary (a sweep with `WalkFunc`, safe_write.go 301-328, 408-468). -/
inductive Ev where
  | step (k : Nat) (a : Act)
  | sweep (t : Str)

structure State (β : Type) where
  disk : Disk β
  ph : Nat → Phase β
  /-- the calls that put their content in place, the last one first -/
  published : List Nat
  /-- the names of the temporaries made, the last one first -/
  made : List Str
  swept : Bool

def setPh {β : Type} (f : Nat → Phase β) (k : Nat) (v : Phase β) : Nat → Phase β := fun j => if j = k then v else f j

/-- The name a step creates. -/
def created {β : Type} : Phase β → Phase β → List Str
  | .creating _, .busy t _ _ => [t]
  | _, _ => []

open Classical in
noncomputable def step {β : Type} (W : Nat → Writer β) (s : State β) : Ev → State β
  | .step k a =>
    let r := act (W k) (s.ph k) a s.disk
    { disk := r.2.1, ph := setPh s.ph k r.1, published := if r.2.2 then k :: s.published else s.published,
      made := created (s.ph k) r.1 ++ s.made, swept := s.swept }
  | .sweep t =>
    if ∃ k, (W k).temp t then { s with disk := { s.disk with name := setName s.disk.name t none }, swept := true } else s

noncomputable def run {β : Type} (W : Nat → Writer β) (s : State β) : List Ev → State β
  | [] => s
  | e :: rest => run W (step W s e) rest

/-- Before any of the calls. -/
def start {β : Type} (d : Disk β) : State β := { disk := d, ph := fun _ => .creating 0, published := [], made := [], swept := false }

/-! ### what is to be shown -/

/-- The content at a name. -/
def content {β : Type} (d : Disk β) (p : Str) : Option (List β) := (d.name p).map d.data

/-- What a name that is no temporary is to hold: what the last call with this destination wrote, all of it; what was there before, if there is none. -/
def expected {β : Type} (W : Nat → Writer β) (d0 : Disk β) : List Nat → Str → Option (List β)
  | [], p => content d0 p
  | k :: older, p => if (W k).dst = p then some (W k).pieces else expected W d0 older p

/-- No destination has a name that could be one of a temporary. -/
def Apart {β : Type} (W : Nat → Writer β) : Prop := ∀ k j, ¬ (W j).temp (W k).dst

/-- Inode numbers in use are below the next one. -/
def Disk.WF {β : Type} (d : Disk β) : Prop := ∀ p i, d.name p = some i → i < d.next

/-- If temporaries are removed meanwhile, no name comes up twice. -/
def Fresh {β : Type} (s : State β) : Prop := s.swept = true → s.made.Nodup

/-! ### the invariant -/

def Filled {β : Type} (w : Writer β) (c : List β) : Stage β → Prop
  | .opening => c = []
  | .filling rest => c ++ rest = w.pieces
  | .closing => c = w.pieces
  | .renaming => c = w.pieces
  | .removing => True

structure Inv {β : Type} (W : Nat → Writer β) (d0 : Disk β) (s : State β) : Prop where
  wf : s.disk.WF
  /-- the temporary of a call is its own -/
  own : ∀ k t i st, s.ph k = .busy t i st → (W k).temp t ∧ t ∈ s.made ∧ d0.next ≤ i ∧ i < s.disk.next ∧
    (s.disk.name t = some i ∨ (s.disk.name t = none ∧ s.swept = true)) ∧ (∀ p, s.disk.name p = some i → p = t) ∧ Filled (W k) (s.disk.data i) st
  two : ∀ k t i st k' t' i' st', s.ph k = .busy t i st → s.ph k' = .busy t' i' st' → k ≠ k' → t ≠ t' ∧ i ≠ i'
  old : d0.next ≤ s.disk.next ∧ ∀ i, i < d0.next → s.disk.data i = d0.data i
  names : ∀ p, (∀ k, ¬ (W k).temp p) → content s.disk p = expected W d0 s.published p

theorem setName_self (f : Str → Option Nat) (p : Str) (v : Option Nat) : setName f p v p = v := by simp [setName]
theorem setName_ne (f : Str → Option Nat) {p q : Str} (v : Option Nat) (h : q ≠ p) : setName f p v q = f q := by simp [setName, h]
theorem setData_self {β : Type} (f : Nat → List β) (i : Nat) (v : List β) : setData f i v i = v := by simp [setData]
theorem setData_ne {β : Type} (f : Nat → List β) {i j : Nat} (v : List β) (h : j ≠ i) : setData f i v j = f j := by simp [setData, h]

theorem inv_start {β : Type} (W : Nat → Writer β) (d0 : Disk β) (h : d0.WF) : Inv W d0 (start d0) where
  wf := h
  own := by intro k t i st hk; cases hk
  two := by intro k t i st k' t' i' st' hk; cases hk
  old := ⟨Nat.le_refl _, fun _ _ => rfl⟩
  names := fun _ _ => rfl

theorem setPh_self {β : Type} (f : Nat → Phase β) (k : Nat) (v : Phase β) : setPh f k v k = v := by simp [setPh]
theorem setPh_ne {β : Type} (f : Nat → Phase β) {k j : Nat} (v : Phase β) (h : j ≠ k) : setPh f k v j = f j := by simp [setPh, h]

theorem setPh_busy {β : Type} {f : Nat → Phase β} {k : Nat} {v : Phase β} {j : Nat} {t : Str} {i : Nat} {st : Stage β} (h : setPh f k v j = .busy t i st) :
    (j = k ∧ v = .busy t i st) ∨ (j ≠ k ∧ f j = .busy t i st) := by
  by_cases hj : j = k
  · subst hj; rw [setPh_self] at h; exact Or.inl ⟨rfl, h⟩
  · rw [setPh_ne _ _ hj] at h; exact Or.inr ⟨hj, h⟩

/-- The call goes back, or goes on with the same temporary; the disk is as before. -/
theorem Inv.same {β : Type} {W : Nat → Writer β} {d0 : Disk β} {s : State β} (h : Inv W d0 s) (k : Nat) (v : Phase β)
    (hv : ∀ t i st, v = .busy t i st → ∃ st', s.ph k = .busy t i st' ∧ (Filled (W k) (s.disk.data i) st' → Filled (W k) (s.disk.data i) st)) :
    Inv W d0 { s with ph := setPh s.ph k v } where
  wf := h.wf
  own := by
    intro j t i st hj
    rcases setPh_busy hj with ⟨rfl, hv'⟩ | ⟨_, hj'⟩
    · obtain ⟨st', h1, h2⟩ := hv t i st hv'
      obtain ⟨a, b, c, d, e, f, g⟩ := h.own _ t i st' h1
      exact ⟨a, b, c, d, e, f, h2 g⟩
    · exact h.own _ t i st hj'
  two := by
    intro j t i st j' t' i' st' hj hj' hne
    rcases setPh_busy hj with ⟨rfl, hv1⟩ | ⟨_, h1⟩ <;> rcases setPh_busy hj' with ⟨rfl, hv2⟩ | ⟨_, h2⟩
    · exact absurd rfl hne
    · obtain ⟨st1, h1, _⟩ := hv _ _ _ hv1
      exact h.two _ _ _ _ _ _ _ _ h1 h2 hne
    · obtain ⟨st2, h2, _⟩ := hv _ _ _ hv2
      exact h.two _ _ _ _ _ _ _ _ h1 h2 hne
    · exact h.two _ _ _ _ _ _ _ _ h1 h2 hne
  old := h.old
  names := h.names

theorem Inv.create {β : Type} {W : Nat → Writer β} {d0 : Disk β} {s : State β} (h : Inv W d0 s) (k : Nat) (t : Str) (st : Stage β) (ht : (W k).temp t) (hn : s.disk.name t = none)
    (hfr : s.swept = true → t ∉ s.made) (hst : Filled (W k) [] st) (hk : ∀ t i st, s.ph k ≠ .busy t i st) :
    Inv W d0 { s with disk := { name := setName s.disk.name t (some s.disk.next), data := setData s.disk.data s.disk.next [], next := s.disk.next + 1 },
                      ph := setPh s.ph k (.busy t s.disk.next st), made := t :: s.made } := by
  have hne : ∀ j u i st', s.ph j = .busy u i st' → u ≠ t := by
    intro j u i st' hj e
    subst e
    obtain ⟨_, hm, _, _, hnm, _, _⟩ := h.own j u i st' hj
    rcases hnm with hnm | ⟨_, hs⟩
    · rw [hn] at hnm; cases hnm
    · exact hfr hs hm
  refine ⟨?_, ?_, ?_, ?_, ?_⟩
  · intro p i hp
    change setName _ _ _ p = some i at hp
    show i < s.disk.next + 1
    by_cases hpt : p = t
    · subst hpt; rw [setName_self] at hp; cases hp; omega
    · rw [setName_ne _ _ hpt] at hp; have := h.wf p i hp; omega
  · intro j u i st' hj
    rcases setPh_busy hj with ⟨rfl, hv⟩ | ⟨hjk, hj⟩
    · cases hv
      refine ⟨ht, List.mem_cons_self, h.old.1, Nat.lt_succ_self _, Or.inl (setName_self _ _ _), ?_, ?_⟩
      · intro p hp
        change setName _ _ _ p = some _ at hp
        refine Classical.byContradiction fun hpt => ?_
        rw [setName_ne _ _ hpt] at hp
        exact absurd (h.wf _ _ hp) (Nat.lt_irrefl _)
      · show Filled _ (setData _ _ _ _) _
        rw [setData_self]; exact hst
    · obtain ⟨a, b, c, d, e, f, g⟩ := h.own j u i st' hj
      refine ⟨a, List.mem_cons_of_mem _ b, c, Nat.lt_succ_of_lt d, ?_, ?_, ?_⟩
      · show setName _ _ _ u = _ ∨ setName _ _ _ u = _ ∧ _
        rw [setName_ne _ _ (hne _ _ _ _ hj)]; exact e
      · intro p hp
        change setName _ _ _ p = some _ at hp
        by_cases hpt : p = t
        · subst hpt; rw [setName_self] at hp; cases hp; omega
        · rw [setName_ne _ _ hpt] at hp; exact f p hp
      · show Filled _ (setData _ _ _ _) _
        rw [setData_ne _ _ (by omega)]; exact g
  · intro j u i st1 j' u' i' st2 hj hj' hjj
    rcases setPh_busy hj with ⟨rfl, hv1⟩ | ⟨_, h1⟩ <;> rcases setPh_busy hj' with ⟨rfl, hv2⟩ | ⟨_, h2⟩
    · exact absurd rfl hjj
    · cases hv1
      refine ⟨fun e => hne _ _ _ _ h2 e.symm, ?_⟩
      have := (h.own _ _ _ _ h2).2.2.2.1
      omega
    · cases hv2
      refine ⟨hne _ _ _ _ h1, ?_⟩
      have := (h.own _ _ _ _ h1).2.2.2.1
      omega
    · exact h.two _ _ _ _ _ _ _ _ h1 h2 hjj
  · refine ⟨Nat.le_succ_of_le h.old.1, fun i hi => ?_⟩
    show setData _ _ _ i = _
    have := h.old.1
    rw [setData_ne _ _ (by omega)]; exact h.old.2 i hi
  · intro p hp
    have hpt : p ≠ t := fun e => hp k (e ▸ ht)
    show (setName _ _ _ p).map (setData _ _ _) = _
    rw [setName_ne _ _ hpt, ← h.names p hp]
    unfold content
    cases hq : s.disk.name p with
    | none => rfl
    | some i =>
      have := h.wf p i hq
      simp only [Option.map_some]
      rw [setData_ne _ _ (by omega)]

theorem Inv.write {β : Type} {W : Nat → Writer β} {d0 : Disk β} {s : State β} (h : Inv W d0 s) (k : Nat) {t : Str} {i : Nat} {rest : List β}
    (hk : s.ph k = .busy t i (.filling rest)) (n : Nat) :
    Inv W d0 { s with disk := { s.disk with data := setData s.disk.data i (s.disk.data i ++ rest.take n) }, ph := setPh s.ph k (.busy t i (.filling (rest.drop n))) } := by
  obtain ⟨a, b, c, d, e, f, g⟩ := h.own _ _ _ _ hk
  refine ⟨h.wf, ?_, ?_, ⟨h.old.1, ?_⟩, ?_⟩
  · intro j u i' st' hj
    rcases setPh_busy hj with ⟨rfl, hv⟩ | ⟨hjk, hj⟩
    · cases hv
      refine ⟨a, b, c, d, e, f, ?_⟩
      show setData _ _ _ _ ++ _ = _
      rw [setData_self, List.append_assoc, List.take_append_drop]; exact g
    · obtain ⟨a', b', c', d', e', f', g'⟩ := h.own j u i' st' hj
      refine ⟨a', b', c', d', e', f', ?_⟩
      show Filled _ (setData _ _ _ _) _
      rw [setData_ne _ _ (h.two _ _ _ _ _ _ _ _ hj hk hjk).2]; exact g'
  · intro j u i1 st1 j' u' i2 st2 hj hj' hjj
    rcases setPh_busy hj with ⟨rfl, hv1⟩ | ⟨_, h1⟩ <;> rcases setPh_busy hj' with ⟨rfl, hv2⟩ | ⟨_, h2⟩
    · exact absurd rfl hjj
    · cases hv1; exact h.two _ _ _ _ _ _ _ _ hk h2 hjj
    · cases hv2; exact h.two _ _ _ _ _ _ _ _ h1 hk hjj
    · exact h.two _ _ _ _ _ _ _ _ h1 h2 hjj
  · intro j hj
    show setData _ _ _ j = _
    rw [setData_ne _ _ (by omega)]; exact h.old.2 j hj
  · intro p hp
    show (s.disk.name p).map (setData _ _ _) = _
    rw [← h.names p hp]
    unfold content
    cases hq : s.disk.name p with
    | none => rfl
    | some j =>
      simp only [Option.map_some]
      rw [setData_ne _ _ (fun e' => hp k (by rw [f p (e' ▸ hq)]; exact a))]

/-- A temporary loses its name. -/
theorem Inv.unname {β : Type} {W : Nat → Writer β} {d0 : Disk β} {s : State β} (h : Inv W d0 s) (t : Str) (ht : ∃ k, (W k).temp t) (b : Bool) (hb : s.swept = true → b = true)
    (hown : ∀ j i st, s.ph j = .busy t i st → b = true) : Inv W d0 { s with disk := { s.disk with name := setName s.disk.name t none }, swept := b } := by
  refine ⟨?_, ?_, h.two, h.old, ?_⟩
  · intro p i hp
    change setName _ _ _ p = some i at hp
    by_cases hpt : p = t
    · subst hpt; rw [setName_self] at hp; cases hp
    · rw [setName_ne _ _ hpt] at hp; exact h.wf p i hp
  · intro j u i st hj
    obtain ⟨a, b', c, d, e, f, g⟩ := h.own j u i st hj
    refine ⟨a, b', c, d, ?_, ?_, g⟩
    · show setName _ _ _ u = _ ∨ setName _ _ _ u = _ ∧ _
      by_cases hut : u = t
      · subst hut; rw [setName_self]; exact Or.inr ⟨rfl, hown j i st hj⟩
      · rw [setName_ne _ _ hut]; exact e.imp id (fun ⟨x, y⟩ => ⟨x, hb y⟩)
    · intro p hp
      change setName _ _ _ p = some _ at hp
      by_cases hpt : p = t
      · subst hpt; rw [setName_self] at hp; cases hp
      · rw [setName_ne _ _ hpt] at hp; exact f p hp
  · intro p hp
    obtain ⟨k, hk⟩ := ht
    have hpt : p ≠ t := fun e => hp k (e ▸ hk)
    show (setName _ _ _ p).map _ = _
    rw [setName_ne _ _ hpt]; exact h.names p hp

theorem Inv.publish {β : Type} {W : Nat → Writer β} (hW : Apart W) {d0 : Disk β} {s : State β} (h : Inv W d0 s) (k : Nat) {t : Str} {i : Nat}
    (hk : s.ph k = .busy t i .renaming) (hn : s.disk.name t = some i) (left : Option Str) :
    Inv W d0 { s with disk := { s.disk with name := setName (setName s.disk.name (W k).dst (some i)) t none }, ph := setPh s.ph k (.done true left), published := k :: s.published } := by
  obtain ⟨a, b, c, d, e, f, g⟩ := h.own _ _ _ _ hk
  have hdt : (W k).dst ≠ t := fun e' => hW k k (e' ▸ a)
  refine ⟨?_, ?_, ?_, h.old, ?_⟩
  · intro p j hp
    change setName (setName _ _ _) _ _ p = some j at hp
    by_cases hpt : p = t
    · subst hpt; rw [setName_self] at hp; cases hp
    · rw [setName_ne _ _ hpt] at hp
      by_cases hpd : p = (W k).dst
      · subst hpd; rw [setName_self] at hp; cases hp; exact d
      · rw [setName_ne _ _ hpd] at hp; exact h.wf p j hp
  · intro j u i' st hj
    rcases setPh_busy hj with ⟨rfl, hv⟩ | ⟨hjk, hj⟩
    · cases hv
    · obtain ⟨a', b', c', d', e', f', g'⟩ := h.own j u i' st hj
      have h2 := h.two _ _ _ _ _ _ _ _ hj hk hjk
      refine ⟨a', b', c', d', ?_, ?_, g'⟩
      · show setName (setName _ _ _) _ _ u = _ ∨ setName (setName _ _ _) _ _ u = _ ∧ _
        rw [setName_ne _ _ h2.1, setName_ne _ _ (fun (e2 : u = (W k).dst) => hW k j (e2 ▸ a'))]; exact e'
      · intro p hp
        change setName (setName _ _ _) _ _ p = some _ at hp
        by_cases hpt : p = t
        · subst hpt; rw [setName_self] at hp; cases hp
        · rw [setName_ne _ _ hpt] at hp
          by_cases hpd : p = (W k).dst
          · subst hpd; rw [setName_self] at hp; cases hp; exact absurd rfl h2.2
          · rw [setName_ne _ _ hpd] at hp; exact f' p hp
  · intro j u i1 st1 j' u' i2 st2 hj hj' hjj
    rcases setPh_busy hj with ⟨rfl, hv1⟩ | ⟨_, h1⟩ <;> rcases setPh_busy hj' with ⟨rfl, hv2⟩ | ⟨_, h2⟩
    · exact absurd rfl hjj
    · cases hv1
    · cases hv2
    · exact h.two _ _ _ _ _ _ _ _ h1 h2 hjj
  · intro p hp
    have hpt : p ≠ t := fun e' => hp k (e' ▸ a)
    show (setName (setName _ _ _) _ _ p).map _ = _
    rw [setName_ne _ _ hpt]
    unfold expected
    by_cases hpd : p = (W k).dst
    · subst hpd
      rw [setName_self, if_pos rfl]
      simp only [Option.map_some]
      exact congrArg some g
    · rw [setName_ne _ _ hpd, if_neg (fun e' => hpd e'.symm)]; exact h.names p hp

theorem inv_step {β : Type} {W : Nat → Writer β} (hW : Apart W) {d0 : Disk β} {s : State β} (h : Inv W d0 s) (e : Ev) (hfr : Fresh (step W s e)) : Inv W d0 (step W s e) := by
  cases e with
  | sweep t =>
    simp only [step]
    split
    · rename_i hc
      exact h.unname t hc true (fun _ => rfl) (fun _ _ _ _ => rfl)
    · exact h
  | step k a =>
    have keep : Inv W d0 { s with ph := setPh s.ph k (s.ph k) } := h.same k _ (fun t i st hv => ⟨st, hv, id⟩)
    have back : ∀ ok left, Inv W d0 { s with ph := setPh s.ph k (.done ok left) } := fun ok left => h.same k _ (fun t i st hv => by cases hv)
    have again : ∀ n, Inv W d0 { s with ph := setPh s.ph k (.creating n) } := fun n => h.same k _ (fun t i st hv => by cases hv)
    have go : ∀ {t i st} st', s.ph k = .busy t i st → (Filled (W k) (s.disk.data i) st → Filled (W k) (s.disk.data i) st') →
        Inv W d0 { s with ph := setPh s.ph k (.busy t i st') } := fun st' hst hf => h.same k _ (fun t i st hv => by cases hv; exact ⟨_, hst, hf⟩)
    rcases hph : s.ph k with n | ⟨t, i, st⟩ | ⟨ok, left⟩
    · rw [hph] at keep
      rcases a with t | _ | _ | m
      · simp only [step, hph, act] at hfr ⊢
        by_cases ht : (W k).temp t
        · simp only [if_pos ht] at hfr ⊢
          cases hn : s.disk.name t with
          | some j =>
            simp only []
            by_cases hlim : n + 1 < 10000
            · simp only [if_pos hlim, created]; exact again _
            · simp only [if_neg hlim, created]; exact back _ _
          | none =>
            rw [hn] at hfr
            simp only [created] at hfr ⊢
            refine h.create k t _ ht hn (fun hs => (List.nodup_cons.1 (hfr hs)).1) ?_ (by rw [hph]; intro _ _ _ hc; cases hc)
            by_cases hd : (W k).dir = true
            · rw [if_pos hd]; rfl
            · rw [if_neg hd]; exact List.nil_append _
        · simp only [if_neg ht]; exact keep
      · simp only [step, hph, act, created]; exact keep
      · simp only [step, hph, act, created]; exact back _ _
      · simp only [step, hph, act, created]; exact keep
    · rw [hph] at keep
      obtain ⟨oa, ob, oc, od, oe, of, og⟩ := h.own _ _ _ _ hph
      have hother : ∀ j i' st', s.ph j = .busy t i' st' → j ≠ k → False := fun j i' st' hj hjk => (h.two _ _ _ _ _ _ _ _ hj hph hjk).1 rfl
      rcases st with _ | rest | _ | _ | _ <;> rcases a with t' | _ | _ | m <;> (try simp only [step, hph, act, created]) <;> first | exact keep | skip
      · cases hn : s.disk.name t with
        | some j => simp only []; exact go _ hph (fun hf => by have hf' : s.disk.data i = [] := hf; show _ ++ _ = _; rw [hf']; rfl)
        | none => simp only []; exact back _ _
      · exact back _ _
      · cases rest with
        | nil => simp only []; exact go _ hph (fun hf => (List.append_nil _).symm.trans hf)
        | cons x r => simp only []; exact keep
      · exact go _ hph (fun _ => trivial)
      · by_cases hd : (W k).dir = true
        · simp only [if_pos hd]
          rcases oe with oe | ⟨oe, _⟩
          · rw [oe]; exact h.write k hph m
          · rw [oe]; exact go _ hph (fun _ => trivial)
        · simp only [if_neg hd]; exact h.write k hph m
      · exact go _ hph (fun hf => hf)
      · by_cases hi : (W k).ignoreCloseErr = true
        · simp only [if_pos hi]; exact go _ hph (fun hf => hf)
        · simp only [if_neg hi]; exact go _ hph (fun _ => trivial)
      · rcases oe with oe | ⟨oe, _⟩
        · rw [oe]; exact h.publish hW k hph oe none
        · rw [oe]; exact go _ hph (fun _ => trivial)
      · exact go _ hph (fun _ => trivial)
      · refine (back false none).unname t ⟨k, oa⟩ s.swept id ?_
        intro j i' st' hj
        rcases setPh_busy hj with ⟨rfl, hv⟩ | ⟨hjk, hj⟩
        · cases hv
        · exact (hother _ _ _ hj hjk).elim
      · exact back _ _
    · rw [hph] at keep
      rcases a with t' | _ | _ | m <;> simp only [step, hph, act, created] <;> exact keep

theorem swept_step {β : Type} (W : Nat → Writer β) (s : State β) (e : Ev) : (s.swept = true → (step W s e).swept = true) ∧ s.made <:+ (step W s e).made := by
  cases e with
  | step k a => exact ⟨id, List.suffix_append _ _⟩
  | sweep t =>
    simp only [step]
    split
    · exact ⟨fun _ => rfl, List.suffix_refl _⟩
    · exact ⟨id, List.suffix_refl _⟩

theorem swept_run {β : Type} (W : Nat → Writer β) : ∀ (es : List Ev) (s : State β), (s.swept = true → (run W s es).swept = true) ∧ s.made <:+ (run W s es).made
  | [], _ => ⟨id, List.suffix_refl _⟩
  | e :: rest, s => ⟨fun h => (swept_run W rest _).1 ((swept_step W s e).1 h), (swept_step W s e).2.trans (swept_run W rest _).2⟩

theorem Fresh.before {β : Type} {W : Nat → Writer β} {es : List Ev} {s : State β} (h : Fresh (run W s es)) : Fresh s :=
  fun hs => (h ((swept_run W es s).1 hs)).sublist (swept_run W es s).2.sublist

theorem inv_run {β : Type} {W : Nat → Writer β} (hW : Apart W) {d0 : Disk β} : ∀ (es : List Ev) (s : State β), Inv W d0 s → Fresh (run W s es) → Inv W d0 (run W s es)
  | [], _, h, _ => h
  | e :: rest, _, h, hf => inv_run hW rest _ (inv_step hW h e (Fresh.before (es := rest) hf)) hf

end Verif.Fsutil.SafeConc
