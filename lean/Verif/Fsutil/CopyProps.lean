import Verif.Fsutil.CopyModel
/-
C32: copying a filesystem reproduces it.
-/
namespace Verif.Fsutil.Copy
open Verif.Path Verif.Prog

/-! ### specification -/

mutual
/-- The entry of the tree at a path. -/
def Node.find : Node → List Str → Option Ent
  | .mk ent _, [] => some ent
  | .mk (.dir _) kids, c :: p => kids.find c p
  | .mk _ _, _ :: _ => none
def Kids.find : Kids → Str → List Str → Option Ent
  | .nil, _, _ => none
  | .cons name n rest, c, p => if name = c then n.find p else rest.find c p
end

def Kids.names : Kids → List Str
  | .nil => []
  | .cons name _ rest => name :: rest.names

mutual
/-- Names are proper and, in a directory, distinct. -/
def Node.WF : Node → Prop
  | .mk _ kids => kids.WF
def Kids.WF : Kids → Prop
  | .nil => True
  | .cons name n rest => IsName name ∧ name ∉ rest.names ∧ n.WF ∧ rest.WF
end

/-- Only directories contain something. -/
def Ent.below {α : Type} : Ent → List α → List α
  | .dir _, l => l
  | _, _ => []

mutual
/-- The entries of the tree with their paths, directories before what they contain. -/
def Node.entries (p : List Str) : Node → List (List Str × Ent)
  | .mk ent kids => (p, ent) :: ent.below (kids.entries p)
def Kids.entries (p : List Str) : Kids → List (List Str × Ent)
  | .nil => []
  | .cons name n rest => n.entries (p ++ [name]) ++ rest.entries p
end

/-- What the copy of an entry is: a directory has the masked mode, a file the content and the masked mode as the destination creates it, a link the
target. Links are left out when one side does not support them, other types always. -/
def copyOf (e : Env) : Ent → Option DEnt
  | .dir m => some (.dir (e.mask m))
  | .file m b => some (.file (e.umask (e.mask m)) b)
  | .link t => if e.links then some (.link t) else none
  | .other => none

/-- The destination with the copy of one entry. -/
def put (e : Env) (R : List Str) (d : Disk) (x : List Str × Ent) : Disk :=
  match copyOf e x.2 with
  | none => d
  | some v => d.set (R ++ x.1) v

/-- The destination with the copies of some entries. -/
def putAll (e : Env) (R : List Str) (d : Disk) (l : List (List Str × Ent)) : Disk := l.foldl (put e R) d

/-- One entry is being copied: the directory is there with the mode of its creation, or the file with the beginning of its content. -/
def Unfinished (e : Env) (R : List Str) (d : Disk) (x : List Str × Ent) (d' : Disk) : Prop :=
  match x.2 with
  | .dir _ => d' = d.set (R ++ x.1) (.dir (e.umask modePerm))
  | .file m b => ∃ c, c <+: b ∧ d' = d.set (R ++ x.1) (.file (e.umask (e.mask m)) c)
  | _ => False

/-- The first entries are copied, and perhaps the next one is unfinished. -/
def Begun (e : Env) (R : List Str) (d : Disk) (l : List (List Str × Ent)) (d' : Disk) : Prop :=
  ∃ l1 l2, l = l1 ++ l2 ∧ (d' = putAll e R d l1 ∨ ∃ x l3, l2 = x :: l3 ∧ Unfinished e R (putAll e R d l1) x d')

def isDirAt (d : Disk) (k : List Str) : Prop := ∃ m, d k = some (.dir m)

/-- The place `R/p` is free: nothing there or below, in an existing directory. -/
def Free (R : List Str) (d : Disk) (p : List Str) : Prop :=
  isDirAt d (R ++ p).dropLast ∧ ∀ q, p <+: q → d (R ++ q) = none

/-- The place of the whole copy: free, or an empty directory. -/
def Ready (R : List Str) (d : Disk) : Prop :=
  (Free R d [] ∨ isDirAt d R) ∧ ∀ q, q ≠ [] → d (R ++ q) = none

/-- The error comes from a call that failed, or a write that did. -/
def Blamed (e : Env) (er : Err) : Prop := (∃ op, er = .io op ∧ e.fail op = true) ∨ ∃ p i n, er = .write p ∧ e.wr p i = some n

/-! ### helpers -/

theorem putAll_append (e : Env) (R : List Str) (d : Disk) (a b : List (List Str × Ent)) : putAll e R d (a ++ b) = putAll e R (putAll e R d a) b := by
  simp [putAll]

theorem begun_left {e : Env} {R : List Str} {d d' : Disk} {a b : List (List Str × Ent)} (h : Begun e R d a d') : Begun e R d (a ++ b) d' := by
  obtain ⟨l1, l2, rfl, h⟩ := h
  refine ⟨l1, l2 ++ b, by simp, ?_⟩
  rcases h with h | ⟨x, l3, rfl, h⟩
  · exact Or.inl h
  · exact Or.inr ⟨x, l3 ++ b, by simp, h⟩

theorem begun_right {e : Env} {R : List Str} {d d' : Disk} {a b : List (List Str × Ent)} (h : Begun e R (putAll e R d a) b d') :
    Begun e R d (a ++ b) d' := by
  obtain ⟨l1, l2, rfl, h⟩ := h
  refine ⟨a ++ l1, l2, by simp, ?_⟩
  rw [putAll_append]
  exact h

theorem begun_all (e : Env) (R : List Str) (d : Disk) (l : List (List Str × Ent)) : Begun e R d l (putAll e R d l) := ⟨l, [], by simp, Or.inl rfl⟩

theorem begun_none (e : Env) (R : List Str) (d : Disk) (l : List (List Str × Ent)) : Begun e R d l d := ⟨[], l, rfl, Or.inl rfl⟩

theorem set_other {d : Disk} {k k' : List Str} {v : DEnt} (h : k' ≠ k) : (d.set k v) k' = d k' := by simp [Disk.set, h]

theorem set_self {d : Disk} {k : List Str} {v : DEnt} : (d.set k v) k = some v := by simp [Disk.set]

theorem set_set {d : Disk} {k : List Str} {v w : DEnt} : (d.set k v).set k w = d.set k w := by
  funext x; simp only [Disk.set]; split <;> rfl

theorem putAll_other {e : Env} {R k : List Str} : ∀ {l : List (List Str × Ent)} {d : Disk}, (∀ x ∈ l, R ++ x.1 ≠ k) → putAll e R d l k = d k := by
  intro l
  induction l with
  | nil => intro d _; rfl
  | cons x l ih =>
    intro d h
    show putAll e R (put e R d x) l k = d k
    rw [ih (fun y hy => h y (by simp [hy]))]
    unfold put
    rcases copyOf e x.2 with _ | v
    · rfl
    · exact set_other (fun h' => h x (by simp) h'.symm)

mutual
theorem Node.entries_below (p : List Str) : ∀ n : Node, ∀ x ∈ n.entries p, p <+: x.1
  | .mk ent kids => by
    intro x hx
    simp only [Node.entries, List.mem_cons] at hx
    rcases hx with rfl | hx
    · exact List.prefix_refl _
    · cases ent with
      | dir m =>
        obtain ⟨c, hc⟩ := Kids.entries_below p kids x hx
        exact (List.prefix_append p [c]).trans hc.2
      | file _ _ => cases hx
      | link _ => cases hx
      | other => cases hx
theorem Kids.entries_below (p : List Str) : ∀ ks : Kids, ∀ x ∈ ks.entries p, ∃ c, c ∈ ks.names ∧ p ++ [c] <+: x.1
  | .nil => by intro x hx; cases hx
  | .cons name n rest => by
    intro x hx
    simp only [Kids.entries, List.mem_append] at hx
    rcases hx with hx | hx
    · exact ⟨name, by simp [Kids.names], Node.entries_below _ n x hx⟩
    · obtain ⟨c, h1, h2⟩ := Kids.entries_below p rest x hx
      exact ⟨c, by simp [Kids.names, h1], h2⟩
end

theorem prefix_snoc_inj {p q : List Str} {a b : Str} (h1 : p ++ [a] <+: q) (h2 : p ++ [b] <+: q) : a = b := by
  have h := List.prefix_of_prefix_length_le h1 h2 (by simp)
  have h3 := h.eq_of_length (by simp)
  simpa using h3

theorem call_holds {e : Env} {op : Op} {I : Disk → Prop} {d0 : Disk} {Q : Except Err Unit → Disk → Prop} (h1 : Q (.ok ()) d0) (h2 : Blamed e (.io op) → Q (.error (.io op)) d0) :
    Holds I (fun d => d = d0) (call e op) Q := by
  unfold call
  split
  · rename_i hf
    exact .fail (by rintro s rfl; exact h2 (Or.inl ⟨op, rfl, hf⟩))
  · exact .pure (by rintro s rfl; exact h1)

/-! ### one entry -/

theorem needParent_holds {I : Disk → Prop} {d0 : Disk} {k : List Str} (h : isDirAt d0 k.dropLast) :
    Holds I (fun d => d = d0) (needParent k) (fun r d => r = .ok () ∧ d = d0) := by
  obtain ⟨m, hm⟩ := h
  intro s hs
  subst hs
  have : needParent k s = ([], s, .ok ()) := by
    unfold needParent
    show Prog.bind Prog.get _ s = _
    simp only [Prog.bind, Prog.get, hm]
    rfl
  rw [this]
  exact ⟨by simp, rfl, rfl⟩

/-- The crash points and the result of copying one entry. -/
def EntryI (e : Env) (R : List Str) (d0 : Disk) (x : List Str × Ent) (d : Disk) : Prop := Begun e R d0 [x] d
def EntryQ (e : Env) (R : List Str) (d0 : Disk) (x : List Str × Ent) (r : Except Err Unit) (d : Disk) : Prop :=
  Begun e R d0 [x] d ∧ (r = .ok () → d = putAll e R d0 [x]) ∧ ∀ er, r = .error er → Blamed e er

theorem get_holds {I : Disk → Prop} {d0 : Disk} : Holds I (fun d => d = d0) (Prog.get : P Disk) (fun r d => r = .ok d0 ∧ d = d0) :=
  .get (by rintro s rfl; exact ⟨rfl, rfl⟩)

theorem mkdir_holds {e : Env} {I : Disk → Prop} {p : Str} {perm : Nat} {d0 : Disk} (hp : d0 (comps p) = none → isDirAt d0 (comps p).dropLast)
    (hI : d0 (comps p) = none → I (d0.set (comps p) (.dir (e.umask perm)))) :
    Holds I (fun d => d = d0) (mkdir e p perm) (fun r d =>
      (r = .ok () ∧ d0 (comps p) = none ∧ d = d0.set (comps p) (.dir (e.umask perm))) ∨ (r = .error .exist ∧ d0 (comps p) ≠ none ∧ d = d0) ∨
      (∃ er, r = .error er ∧ er ≠ .exist ∧ Blamed e er ∧ d = d0)) := by
  unfold mkdir
  refine .bind (fun r d => (r = .ok () ∨ ∃ op, r = .error (.io op) ∧ Blamed e (.io op)) ∧ d = d0) (call_holds ⟨Or.inl rfl, rfl⟩ (fun hb => ⟨Or.inr ⟨_, rfl, hb⟩, rfl⟩)) (fun _ => ?_) ?_
  · refine .weaken (P' := fun d => d = d0) ?_ (fun s h => h.2) (fun _ h => h) (fun _ _ h => h)
    refine .bind _ get_holds (fun a => ?_) (by rintro er s ⟨h, _⟩; cases h)
    intro s hs
    obtain ⟨h1, h2⟩ := hs
    cases h1
    subst h2
    rcases hk : s (comps p) with _ | v
    · simp only
      obtain ⟨h3, h4⟩ := (Holds.bind (I := I) (P := fun d => d = s) (m := needParent (comps p))
        (f := fun _ => Prog.modify (fun d => d.set (comps p) (.dir (e.umask perm)))) (Q := fun r d => r = .ok () ∧ d = s.set (comps p) (.dir (e.umask perm)))
        _ (needParent_holds (hp hk)) (fun _ => .modify (by rintro s ⟨_, rfl⟩; exact hI hk) (by rintro s ⟨_, rfl⟩; exact ⟨rfl, rfl⟩))
        (by rintro er s ⟨h, _⟩; cases h)) s rfl
      exact ⟨h3, Or.inl ⟨h4.1, trivial, h4.2⟩⟩
    · simp only
      exact ⟨(by intro t ht; cases ht), Or.inr (Or.inl ⟨rfl, by simp, rfl⟩)⟩
  · rintro er s ⟨h | ⟨op, h, hb⟩, rfl⟩
    · cases h
    · exact Or.inr (Or.inr ⟨_, h, by simp, hb, rfl⟩)

theorem chmod_holds {e : Env} {I : Disk → Prop} {p : Str} {mode m0 : Nat} {d0 : Disk} (hd : d0 (comps p) = some (.dir m0))
    (hI : I (d0.set (comps p) (.dir mode))) :
    Holds I (fun d => d = d0) (chmod e p mode) (fun r d => (r = .ok () ∧ d = d0.set (comps p) (.dir mode)) ∨ ∃ er, r = .error er ∧ Blamed e er ∧ d = d0) := by
  unfold chmod
  refine .bind (fun r d => (r = .ok () ∨ ∃ op, r = .error (.io op) ∧ Blamed e (.io op)) ∧ d = d0) (call_holds ⟨Or.inl rfl, rfl⟩ (fun hb => ⟨Or.inr ⟨_, rfl, hb⟩, rfl⟩)) (fun _ => ?_) ?_
  · refine .weaken (P' := fun d => d = d0) ?_ (fun s h => h.2) (fun _ h => h) (fun _ _ h => h)
    refine .bind _ get_holds (fun a => ?_) (by rintro er s ⟨h, _⟩; cases h)
    intro s hs
    obtain ⟨h1, h2⟩ := hs
    cases h1
    subst h2
    simp only [hd]
    refine ⟨?_, Or.inl ⟨rfl, rfl⟩⟩
    intro t ht
    simp only [Prog.modify, List.mem_cons, List.not_mem_nil, or_false] at ht
    rw [ht]; exact hI
  · rintro er s ⟨h | ⟨op, h, hb⟩, rfl⟩
    · cases h
    · exact Or.inr ⟨_, h, hb, rfl⟩

theorem create_holds {e : Env} {I : Disk → Prop} {p : Str} {perm : Nat} {d0 : Disk} (hf : d0 (comps p) = none) (hp : isDirAt d0 (comps p).dropLast)
    (hI : I (d0.set (comps p) (.file (e.umask perm) []))) :
    Holds I (fun d => d = d0) (openDst e p perm) (fun r d =>
      (r = .ok () ∧ d = d0.set (comps p) (.file (e.umask perm) [])) ∨ ∃ er, r = .error er ∧ Blamed e er ∧ d = d0) := by
  unfold openDst
  refine .bind (fun r d => (r = .ok () ∨ ∃ op, r = .error (.io op) ∧ Blamed e (.io op)) ∧ d = d0) (call_holds ⟨Or.inl rfl, rfl⟩ (fun hb => ⟨Or.inr ⟨_, rfl, hb⟩, rfl⟩)) (fun _ => ?_) ?_
  · refine .weaken (P' := fun d => d = d0) ?_ (fun s h => h.2) (fun _ h => h) (fun _ _ h => h)
    refine .bind _ get_holds (fun a => ?_) (by rintro er s ⟨h, _⟩; cases h)
    intro s hs
    obtain ⟨h1, h2⟩ := hs
    cases h1
    subst h2
    simp only [hf]
    obtain ⟨h3, h4⟩ := (Holds.bind (I := I) (P := fun d => d = s) (m := needParent (comps p))
      (f := fun _ => Prog.modify (fun d => d.set (comps p) (.file (e.umask perm) []))) (Q := fun r d => r = .ok () ∧ d = s.set (comps p) (.file (e.umask perm) []))
      _ (needParent_holds hp) (fun _ => .modify (by rintro s ⟨_, rfl⟩; exact hI) (by rintro s ⟨_, rfl⟩; exact ⟨rfl, rfl⟩))
      (by rintro er s ⟨h, _⟩; cases h)) s rfl
    exact ⟨h3, Or.inl h4⟩
  · rintro er s ⟨h | ⟨op, h, hb⟩, rfl⟩
    · cases h
    · exact Or.inr ⟨_, h, hb, rfl⟩

theorem symlink_holds {e : Env} {I : Disk → Prop} {p t : Str} {d0 : Disk} (hf : d0 (comps p) = none) (hp : isDirAt d0 (comps p).dropLast)
    (hI : I (d0.set (comps p) (.link t))) :
    Holds I (fun d => d = d0) (symlink e t p) (fun r d => (r = .ok () ∧ d = d0.set (comps p) (.link t)) ∨ ∃ er, r = .error er ∧ Blamed e er ∧ d = d0) := by
  unfold symlink
  refine .bind (fun r d => (r = .ok () ∨ ∃ op, r = .error (.io op) ∧ Blamed e (.io op)) ∧ d = d0) (call_holds ⟨Or.inl rfl, rfl⟩ (fun hb => ⟨Or.inr ⟨_, rfl, hb⟩, rfl⟩)) (fun _ => ?_) ?_
  · refine .weaken (P' := fun d => d = d0) ?_ (fun s h => h.2) (fun _ h => h) (fun _ _ h => h)
    refine .bind _ get_holds (fun a => ?_) (by rintro er s ⟨h, _⟩; cases h)
    intro s hs
    obtain ⟨h1, h2⟩ := hs
    cases h1
    subst h2
    simp only [hf]
    obtain ⟨h3, h4⟩ := (Holds.bind (I := I) (P := fun d => d = s) (m := needParent (comps p))
      (f := fun _ => Prog.modify (fun d => d.set (comps p) (.link t))) (Q := fun r d => r = .ok () ∧ d = s.set (comps p) (.link t))
      _ (needParent_holds hp) (fun _ => .modify (by rintro s ⟨_, rfl⟩; exact hI) (by rintro s ⟨_, rfl⟩; exact ⟨rfl, rfl⟩))
      (by rintro er s ⟨h, _⟩; cases h)) s rfl
    exact ⟨h3, Or.inl h4⟩
  · rintro er s ⟨h | ⟨op, h, hb⟩, rfl⟩
    · cases h
    · exact Or.inr ⟨_, h, hb, rfl⟩

theorem pieces_flatten : ∀ (ns : List Nat) (b : Bytes), (pieces ns b).flatten = b
  | [], b => by simp [pieces]
  | n :: ns, b => by simp [pieces, pieces_flatten ns]

theorem append_set {d : Disk} {k : List Str} {m : Nat} {b bs : Bytes} : (d.set k (.file m b)).append k bs = d.set k (.file m (b ++ bs)) := by
  unfold Disk.append
  rw [set_self]
  exact set_set

theorem copyBytes_holds {e : Env} {src : Str} {k : List Str} {m : Nat} {d0 : Disk} (ps : List Bytes) : ∀ (i : Nat) (c all : Bytes), c ++ ps.flatten = all →
    Holds (fun d => ∃ c', c' <+: all ∧ d = d0.set k (.file m c')) (fun d => d = d0.set k (.file m c)) (copyBytes e src k i ps)
      (fun r d => (∃ c', c' <+: all ∧ d = d0.set k (.file m c')) ∧ (r = .ok () → d = d0.set k (.file m all)) ∧ ∀ er, r = .error er → Blamed e er) := by
  induction ps with
  | nil =>
    intro i c all h
    simp only [List.flatten_nil, List.append_nil] at h
    subst h
    unfold copyBytes
    exact .pure (by rintro s rfl; exact ⟨⟨c, List.prefix_refl _, rfl⟩, fun _ => rfl, fun er h => by cases h⟩)
  | cons b rest ih =>
    intro i c all h
    simp only [List.flatten_cons] at h
    unfold copyBytes
    refine .bind (fun r d => d = d0.set k (.file m c) ∧ ∀ er, r = .error er → Blamed e er) (call_holds ⟨rfl, fun er h => by cases h⟩ (fun hb => ⟨rfl, fun er h => by cases h; exact hb⟩)) (fun _ => ?_) ?_
    · split
      · rename_i n hwr
        have hpre : c ++ b.take n <+: all := by
          rw [← h]
          exact (List.prefix_append_right_inj c).2 ((List.take_prefix n b).trans (List.prefix_append _ _))
        refine .bind (fun r d => r = .ok () ∧ d = d0.set k (.file m (c ++ b.take n))) (.modify ?_ ?_) (fun _ => .fail ?_) ?_
        · rintro s ⟨rfl, _⟩; exact ⟨_, hpre, append_set⟩
        · rintro s ⟨rfl, _⟩; exact ⟨rfl, append_set⟩
        · rintro s ⟨_, rfl⟩; exact ⟨⟨_, hpre, rfl⟩, (fun h => by cases h), fun er h => by cases h; exact Or.inr ⟨_, _, _, rfl, hwr⟩⟩
        · rintro er s ⟨h, _⟩; cases h
      · have hpre : c ++ b <+: all := by
          rw [← h]
          exact (List.prefix_append_right_inj c).2 (List.prefix_append _ _)
        refine .bind (fun r d => r = .ok () ∧ d = d0.set k (.file m (c ++ b))) (.modify ?_ ?_)
          (fun _ => (ih (i + 1) (c ++ b) all (by rw [← h]; simp)).weaken (fun _ h => h.2) (fun _ h => h) (fun _ _ h => h)) ?_
        · rintro s ⟨rfl, _⟩; exact ⟨_, hpre, append_set⟩
        · rintro s ⟨rfl, _⟩; exact ⟨rfl, append_set⟩
        · rintro er s ⟨h, _⟩; cases h
    · rintro er s ⟨rfl, hb⟩
      exact ⟨⟨c, ⟨_, h⟩, rfl⟩, (fun h => by cases h), hb⟩

/-- Copying one entry to a free place (or, for a directory, onto a directory). -/
theorem copyEntry_holds {e : Env} {R p : List Str} {dst src : Str} {ent : Ent} {d0 : Disk} (hk : comps dst = R ++ p)
    (hfree : (d0 (R ++ p) = none ∧ isDirAt d0 (R ++ p).dropLast) ∨ (isDirAt d0 (R ++ p) ∧ ∃ m, ent = .dir m)) :
    Holds (EntryI e R d0 (p, ent)) (fun d => d = d0) (copyEntry e dst src ent) (EntryQ e R d0 (p, ent)) := by
  have hnone : Begun e R d0 [(p, ent)] d0 := begun_none ..
  have hall : Begun e R d0 [(p, ent)] (putAll e R d0 [(p, ent)]) := begun_all ..
  have hun : ∀ d, Unfinished e R d0 (p, ent) d → Begun e R d0 [(p, ent)] d := fun d h => ⟨[], _, rfl, Or.inr ⟨_, [], rfl, h⟩⟩
  cases ent with
  | dir m =>
    have hput : putAll e R d0 [(p, .dir m)] = d0.set (R ++ p) (.dir (e.mask m)) := rfl
    unfold copyEntry
    refine .bind (fun r d => (r = .ok () → (∃ m0, d (R ++ p) = some (.dir m0)) ∧ d.set (R ++ p) (.dir (e.mask m)) = d0.set (R ++ p) (.dir (e.mask m))) ∧
      Begun e R d0 [(p, .dir m)] d ∧ ∀ er, r = .error er → Blamed e er) ?_ (fun _ => ?_) ?_
    · unfold mkdirOrExist
      refine .bind (fun r d => ∃ r', r = .ok r' ∧ ((r' = .ok () ∧ d0 (comps dst) = none ∧ d = d0.set (comps dst) (.dir (e.umask modePerm))) ∨
          (r' = .error .exist ∧ d0 (comps dst) ≠ none ∧ d = d0) ∨ (∃ er, r' = .error er ∧ er ≠ .exist ∧ Blamed e er ∧ d = d0)))
        (.attempt ((mkdir_holds ?_ ?_).weaken (fun _ h => h) (fun _ h => h) (fun r d h => ⟨r, rfl, h⟩))) (fun r' => ?_) ?_
      · intro hn
        rw [hk] at hn ⊢
        rcases hfree with h | ⟨⟨m1, h⟩, _⟩
        · exact h.2
        · rw [hn] at h; cases h
      · intro _
        rw [hk]
        exact hun _ rfl
      · intro s hs
        obtain ⟨r'', h1, h2⟩ := hs
        cases h1
        rcases h2 with ⟨rfl, hn, rfl⟩ | ⟨rfl, hn, rfl⟩ | ⟨er, rfl, hne, hb, rfl⟩
        · rw [hk]
          exact ⟨(by intro t ht; cases ht), fun _ => ⟨⟨_, set_self⟩, set_set⟩, hun _ rfl, fun er h => by cases h⟩
        · refine ⟨(by intro t ht; cases ht), fun _ => ⟨?_, rfl⟩, hnone, fun er h => by cases h⟩
          rw [hk] at hn
          rcases hfree with h | ⟨h, _⟩
          · exact absurd h.1 hn
          · exact h
        · cases er with
          | exist => exact absurd rfl hne
          | _ => exact ⟨(by intro t ht; cases ht), (fun h => by cases h), hnone, fun er h => by cases h; exact hb⟩
      · rintro er s ⟨r', h, _⟩; cases h
    · refine .fix (fun s0 hs0 => ?_)
      obtain ⟨h1, hb, _⟩ := hs0
      obtain ⟨⟨m0, h2⟩, h3⟩ := h1 rfl
      refine (chmod_holds (m0 := m0) (by rw [hk]; exact h2) ?_).weaken (fun _ h => h) (fun _ h => h) ?_
      · rw [hk, h3]; exact hall
      · rintro r d (⟨rfl, rfl⟩ | ⟨er, rfl, hbl, rfl⟩)
        · rw [hk, h3]; exact ⟨hall, (fun _ => rfl), fun er h => by cases h⟩
        · exact ⟨hb, (fun h => by cases h), fun er h => by cases h; exact hbl⟩
    · rintro er s ⟨_, h, hb⟩
      exact ⟨h, (fun h => by cases h), hb⟩
  | file m b =>
    obtain ⟨h1, h2⟩ : d0 (R ++ p) = none ∧ isDirAt d0 (R ++ p).dropLast := by
      rcases hfree with h | ⟨_, _, h⟩
      · exact h
      · cases h
    unfold copyEntry
    refine .bind (fun r d => d = d0 ∧ ∀ er, r = .error er → Blamed e er) (call_holds ⟨rfl, fun er h => by cases h⟩ (fun hb => ⟨rfl, fun er h => by cases h; exact hb⟩)) (fun _ => ?_)
      (by rintro er s ⟨rfl, hb⟩; exact ⟨hnone, (fun h => by cases h), hb⟩)
    refine .weaken (P' := fun d => d = d0) ?_ (fun _ h => h.1) (fun _ h => h) (fun _ _ h => h)
    refine .bind _ (create_holds (by rw [hk]; exact h1) (by rw [hk]; exact h2) ?_) (fun _ => ?_) ?_
    · rw [hk]; exact hun _ ⟨[], List.nil_prefix, rfl⟩
    · refine .weaken (copyBytes_holds (d0 := d0) (m := e.umask (e.mask m)) _ 0 [] b (by rw [List.nil_append, pieces_flatten])) ?_ ?_ ?_
      · rintro s (⟨_, h⟩ | ⟨er, h, _⟩)
        · exact h
        · cases h
      · rintro s ⟨c, hc, rfl⟩
        rw [hk]
        exact hun _ ⟨c, hc, rfl⟩
      · rintro r s ⟨⟨c, hc, rfl⟩, hok⟩
        rw [hk] at hok ⊢
        exact ⟨hun _ ⟨c, hc, rfl⟩, hok⟩
    · rintro er s (⟨h, _⟩ | ⟨er', h, hb, rfl⟩)
      · cases h
      · exact ⟨hnone, (fun h => by cases h), fun er h' => by cases h; cases h'; exact hb⟩
  | link t =>
    obtain ⟨h1, h2⟩ : d0 (R ++ p) = none ∧ isDirAt d0 (R ++ p).dropLast := by
      rcases hfree with h | ⟨_, _, h⟩
      · exact h
      · cases h
    by_cases hl : e.links = true
    · simp only [copyEntry, hl, if_true]
      have hput : putAll e R d0 [(p, .link t)] = d0.set (R ++ p) (.link t) := by simp [putAll, put, copyOf, hl]
      refine .bind (fun r d => d = d0 ∧ ∀ er, r = .error er → Blamed e er) (call_holds ⟨rfl, fun er h => by cases h⟩ (fun hb => ⟨rfl, fun er h => by cases h; exact hb⟩)) (fun _ => ?_)
        (by rintro er s ⟨rfl, hb⟩; exact ⟨hnone, (fun h => by cases h), hb⟩)
      refine .weaken (P' := fun d => d = d0) ?_ (fun _ h => h.1) (fun _ h => h) (fun _ _ h => h)
      refine (symlink_holds (by rw [hk]; exact h1) (by rw [hk]; exact h2) ?_).weaken (fun _ h => h) (fun _ h => h) ?_
      · rw [hk, ← hput]; exact hall
      · rintro r d (⟨rfl, rfl⟩ | ⟨er, rfl, hb, rfl⟩)
        · rw [hk, ← hput]; exact ⟨hall, (fun _ => rfl), fun er h => by cases h⟩
        · exact ⟨hnone, (fun h => by cases h), fun er h => by cases h; exact hb⟩
    · simp only [copyEntry, hl]
      have hput : putAll e R d0 [(p, .link t)] = d0 := by simp [putAll, put, copyOf, hl]
      exact .pure (by rintro s rfl; exact ⟨hnone, (fun _ => hput.symm), fun er h => by cases h⟩)
  | other =>
    unfold copyEntry
    exact .pure (by rintro s rfl; exact ⟨hnone, (fun _ => rfl), fun er h => by cases h⟩)

/-! ### the walk -/

theorem comps_dst {root s : Str} (hs : s ≠ []) (habs : isAbs s = false) (hn : ∀ c ∈ comps s, IsName c) :
    comps (join2 root s) = comps root ++ comps s := by
  unfold join2
  by_cases hr : root = []
  · subst hr
    rw [if_neg (by simp [hs]), if_pos rfl, comps_clean, comps_nil, List.nil_append]
  · rw [if_neg (by simp [hr]), if_neg hr, if_neg hs, comps_clean, comps_join root s hr hn habs]

/-- What is known of the path string of a walk. -/
def PathOf (s : Str) (p : List Str) : Prop := s ≠ [] ∧ isAbs s = false ∧ comps s = p ∧ ∀ c ∈ p, IsName c

theorem pathOf_join {s : Str} {p : List Str} {c : Str} (h : PathOf s p) (hc : IsName c) : PathOf (join2 s c) (p ++ [c]) := by
  obtain ⟨h1, h2, h3, h4⟩ := h
  refine ⟨?_, ?_, ?_, ?_⟩
  · rw [join2, if_neg (by simp [h1]), if_neg h1, if_neg hc.1.1]; exact clean_ne_nil _
  · rw [join2_name h1 hc, isAbs_render ((comps_normal s).snoc hc), h2]
  · rw [comps_join2 h1 hc, h3]
  · intro x hx
    rcases List.mem_append.1 hx with h | h
    · exact h4 x h
    · simp only [List.mem_cons, List.not_mem_nil, or_false] at h; subst h; exact hc

theorem visit_holds {e : Env} {root s : Str} {p : List Str} {ent : Ent} {d0 : Disk} (hp : PathOf s p)
    (hfree : (d0 (comps root ++ p) = none ∧ isDirAt d0 (comps root ++ p).dropLast) ∨ (isDirAt d0 (comps root ++ p) ∧ ∃ m, ent = .dir m)) :
    Holds (EntryI e (comps root) d0 (p, ent)) (fun d => d = d0) (visit e root s ent) (EntryQ e (comps root) d0 (p, ent)) := by
  unfold visit
  refine .bind (fun r d => d = d0 ∧ ∀ er, r = .error er → Blamed e er) (call_holds ⟨rfl, fun er h => by cases h⟩ (fun hb => ⟨rfl, fun er h => by cases h; exact hb⟩)) (fun _ => ?_)
    (by rintro er s ⟨rfl, hb⟩; exact ⟨begun_none .., (fun h => by cases h), hb⟩)
  refine .weaken (P' := fun d => d = d0) ?_ (fun _ h => h.1) (fun _ h => h) (fun _ _ h => h)
  exact copyEntry_holds (by rw [comps_dst hp.1 hp.2.1 (by rw [hp.2.2.1]; exact hp.2.2.2), hp.2.2.1]) hfree

/-- The crash points and the result of a walk. -/
def WalkQ (e : Env) (R : List Str) (d0 : Disk) (l : List (List Str × Ent)) (r : Except Err Unit) (d : Disk) : Prop :=
  Begun e R d0 l d ∧ (r = .ok () → d = putAll e R d0 l) ∧ ∀ er, r = .error er → Blamed e er

mutual
theorem walkNode_holds {e : Env} (hig : ∀ er, e.ignore er = false) {root : Str} : ∀ (n : Node) (s : Str) (p : List Str) (d0 : Disk), n.WF → PathOf s p →
    ((d0 (comps root ++ p) = none ∧ isDirAt d0 (comps root ++ p).dropLast) ∨ (isDirAt d0 (comps root ++ p) ∧ ∃ m k, n = .mk (.dir m) k)) →
    (∀ q, p <+: q → q ≠ p → d0 (comps root ++ q) = none) →
    Holds (Begun e (comps root) d0 (n.entries p)) (fun d => d = d0) (walkNode e root s n) (WalkQ e (comps root) d0 (n.entries p))
  | .mk ent kids, s, p, d0, hwf, hp, hfree, hbelow => by
    unfold walkNode
    have hv := visit_holds (e := e) (root := root) (ent := ent) (d0 := d0) hp (by
      rcases hfree with h | ⟨h, m, k, hk⟩
      · exact Or.inl h
      · cases hk; exact Or.inr ⟨h, m, rfl⟩)
    have hent : (Node.mk ent kids).entries p = [(p, ent)] ++ ent.below (kids.entries p) := by rw [Node.entries]; rfl
    rw [hent]
    refine .bind (fun r d => EntryQ e (comps root) d0 (p, ent) r d) (hv.weaken (fun _ h => h) (fun _ h => begun_left h) (fun _ _ h => h)) (fun _ => ?_) ?_
    · refine .fix (fun d1 hd1 => ?_)
      have hd1' := hd1.2.1 rfl
      subst hd1'
      cases ent with
      | dir m =>
        simp only
        refine .ite (fun hf => ?_) (fun _ => ?_)
        · refine .bind (fun r d => r = .error (.io (.readDir s)) ∧ d = putAll e (comps root) d0 [(p, .dir m)]) ?_ (fun _ => ?_) ?_
          · unfold walkErr
            rw [hig]
            exact .fail (by rintro s rfl; exact ⟨rfl, rfl⟩)
          · intro s hs; cases hs.1
          · rintro er s ⟨h, rfl⟩
            exact ⟨begun_left (begun_all ..), (fun h => by cases h), fun er h' => by cases h; cases h'; exact Or.inl ⟨_, rfl, hf⟩⟩
        · have hk := walkKids_holds hig (root := root) kids s p (putAll e (comps root) d0 [(p, .dir m)]) hwf hp ⟨_, set_self⟩ (by
            intro c _ q hq
            have hne : q ≠ p := by
              rintro rfl
              have := hq.length_le
              simp at this
              omega
            rw [putAll_other (by simpa using fun h : comps root ++ p = comps root ++ q => hne (List.append_cancel_left h).symm)]
            exact hbelow q ((List.prefix_append p [c]).trans hq) hne)
          refine hk.weaken (fun _ h => h) (fun _ h => begun_right h) (fun r d h => ⟨begun_right h.1, (fun hr => ?_), h.2.2⟩)
          rw [putAll_append]; exact h.2.1 hr
      | file m b => exact .pure (by rintro s rfl; exact ⟨begun_all .., (fun _ => rfl), fun er h => by cases h⟩)
      | link t => exact .pure (by rintro s rfl; exact ⟨begun_all .., (fun _ => rfl), fun er h => by cases h⟩)
      | other => exact .pure (by rintro s rfl; exact ⟨begun_all .., (fun _ => rfl), fun er h => by cases h⟩)
    · rintro er s ⟨h, _, hb⟩
      exact ⟨begun_left h, (fun h => by cases h), hb⟩
theorem walkKids_holds {e : Env} (hig : ∀ er, e.ignore er = false) {root : Str} : ∀ (ks : Kids) (s : Str) (p : List Str) (d0 : Disk), ks.WF → PathOf s p →
    isDirAt d0 (comps root ++ p) → (∀ c ∈ ks.names, ∀ q, p ++ [c] <+: q → d0 (comps root ++ q) = none) →
    Holds (Begun e (comps root) d0 (ks.entries p)) (fun d => d = d0) (walkKids e root s none ks) (WalkQ e (comps root) d0 (ks.entries p))
  | .nil, s, p, d0, _, _, _, _ => by
    unfold walkKids
    exact .pure (by rintro s rfl; exact ⟨begun_none .., (fun _ => rfl), fun er h => by cases h⟩)
  | .cons name n rest, s, p, d0, hwf, hp, hdir, hbelow => by
    obtain ⟨hname, hnot, hn, hrest⟩ := hwf
    unfold walkKids
    rw [Kids.entries]
    have hnode := walkNode_holds hig (root := root) n (join2 s name) (p ++ [name]) d0 hn (pathOf_join hp hname)
      (Or.inl ⟨hbelow name (by simp [Kids.names]) _ (List.prefix_refl _), by
        rw [← List.append_assoc, List.dropLast_concat]; exact hdir⟩)
      (fun q hq _ => hbelow name (by simp [Kids.names]) q hq)
    refine .bind _ (hnode.weaken (fun _ h => h) (fun _ h => begun_left h) (fun _ _ h => h)) (fun _ => ?_) ?_
    · refine .fix (fun d1 hd1 => ?_)
      have hd1' := hd1.2.1 rfl
      subst hd1'
      have hkids := walkKids_holds hig (root := root) rest s p (putAll e (comps root) d0 (n.entries (p ++ [name]))) hrest hp (by
          obtain ⟨m, hm⟩ := hdir
          refine ⟨m, ?_⟩
          rw [putAll_other]
          · exact hm
          · intro x hx h
            have h1 := List.append_cancel_left h
            have h2 := (Node.entries_below _ n x hx).length_le
            rw [h1] at h2
            simp at h2
            omega) (by
          intro c hc q hq
          rw [putAll_other]
          · exact hbelow c (by simp [Kids.names, hc]) q hq
          · intro x hx h
            have h1 := List.append_cancel_left h
            have h2 := Node.entries_below _ n x hx
            rw [h1] at h2
            have := prefix_snoc_inj h2 hq
            subst this
            exact hnot hc)
      refine hkids.weaken (fun _ h => h) (fun _ h => begun_right h) (fun r d h => ⟨begun_right h.1, (fun hr => ?_), h.2.2⟩)
      rw [putAll_append]; exact h.2.1 hr
    · rintro er s ⟨h, _, hb⟩
      exact ⟨begun_left h, (fun h => by cases h), hb⟩
end

/-- The value of the copy at a place: the copy of the entry there, or what was there. -/
def valueAt (e : Env) (o : Option Ent) (old : Option DEnt) : Option DEnt :=
  match o with
  | none => old
  | some ent => match copyOf e ent with
    | none => old
    | some v => some v

theorem put_self {e : Env} {R p : List Str} {d : Disk} {ent : Ent} : put e R d (p, ent) (R ++ p) = valueAt e (some ent) (d (R ++ p)) := by
  unfold put valueAt
  simp only
  rcases copyOf e ent with _ | v
  · rfl
  · exact set_self

mutual
theorem Node.putAll_find {e : Env} {R : List Str} : ∀ (n : Node) (p q : List Str) (d : Disk), n.WF →
    putAll e R d (n.entries p) (R ++ (p ++ q)) = valueAt e (n.find q) (d (R ++ (p ++ q)))
  | .mk ent kids, p, q, d, hwf => by
    rw [Node.entries]
    show putAll e R (put e R d (p, ent)) (ent.below (kids.entries p)) _ = _
    cases q with
    | nil =>
      rw [List.append_nil, putAll_other, put_self]
      · rw [Node.find]
      · intro x hx h
        have h1 := List.append_cancel_left h
        cases ent with
        | dir m =>
          obtain ⟨c, _, h2⟩ := Kids.entries_below p kids x hx
          have h2 := h2.length_le
          rw [h1] at h2
          simp at h2
          omega
        | file _ _ => cases hx
        | link _ => cases hx
        | other => cases hx
    | cons c q =>
      have hput : put e R d (p, ent) (R ++ (p ++ c :: q)) = d (R ++ (p ++ c :: q)) := by
        have := putAll_other (e := e) (R := R) (k := R ++ (p ++ c :: q)) (l := [(p, ent)]) (d := d) (by
          intro x hx h
          simp only [List.mem_cons, List.not_mem_nil, or_false] at hx
          subst hx
          have := congrArg List.length (List.append_cancel_left h)
          simp at this)
        exact this
      cases ent with
      | dir m =>
        rw [Node.find]
        show putAll e R (put e R d (p, .dir m)) (kids.entries p) _ = _
        rw [Kids.putAll_find kids p c q _ hwf, hput]
      | file m b => rw [Node.find]; exact hput; simp
      | link t => rw [Node.find]; exact hput; simp
      | other => rw [Node.find]; exact hput; simp
theorem Kids.putAll_find {e : Env} {R : List Str} : ∀ (ks : Kids) (p : List Str) (c : Str) (q : List Str) (d : Disk), ks.WF →
    putAll e R d (ks.entries p) (R ++ (p ++ c :: q)) = valueAt e (ks.find c q) (d (R ++ (p ++ c :: q)))
  | .nil, p, c, q, d, _ => by rw [Kids.find]; rfl
  | .cons name n rest, p, c, q, d, hwf => by
    obtain ⟨_, hnot, hn, hrest⟩ := hwf
    rw [Kids.entries, putAll_append, Kids.putAll_find rest p c q _ hrest, Kids.find]
    by_cases hc : name = c
    · subst hc
      rw [if_pos rfl]
      have hr : rest.find name q = none := by
        have key : ∀ ks : Kids, name ∉ ks.names → ks.find name q = none := by
          intro ks
          induction ks using Kids.rec (motive_1 := fun _ => True) with
          | mk => trivial
          | nil => intro _; rw [Kids.find]
          | cons n' _ r _ ih =>
            intro h
            simp only [Kids.names, List.mem_cons, not_or] at h
            rw [Kids.find, if_neg (fun h' => h.1 h'.symm), ih h.2]
        exact key rest hnot
      rw [hr]
      have := Node.putAll_find (e := e) (R := R) n (p ++ [name]) q d hn
      rw [List.append_assoc, List.singleton_append] at this
      exact this
    · rw [if_neg hc]
      congr 1
      refine putAll_other ?_
      intro x hx h
      have h1 := List.append_cancel_left h
      have h2 := Node.entries_below _ n x hx
      rw [h1] at h2
      exact hc (prefix_snoc_inj (p := p) (q := p ++ c :: q) h2 (by simp))
end

/-! ### C32 -/

theorem copyAll_holds {e : Env} (hig : ∀ er, e.ignore er = false) {root : Str} {m : Nat} {kids : Kids} {d0 : Disk} (hwf : (Node.mk (.dir m) kids).WF)
    (hr : Ready (comps root) d0) :
    Holds (Begun e (comps root) d0 ((Node.mk (.dir m) kids).entries [])) (fun d => d = d0) (copyAll e root (.mk (.dir m) kids))
      (WalkQ e (comps root) d0 ((Node.mk (.dir m) kids).entries [])) := by
  unfold copyAll
  refine .ite (fun hf => ?_) (fun _ => ?_)
  · unfold walkErr
    rw [hig]
    exact .fail (by rintro s rfl; exact ⟨begun_none .., (fun h => by cases h), fun er h => by cases h; exact Or.inl ⟨_, rfl, hf⟩⟩)
  · refine walkNode_holds hig _ dot [] d0 hwf ⟨by decide, by decide, by decide, by simp⟩ ?_ ?_
    · rw [List.append_nil]
      rcases hr.1 with h | h
      · have h1 := h.1
        have h2 := h.2 [] (List.prefix_refl _)
        rw [List.append_nil] at h1 h2
        exact Or.inl ⟨h2, h1⟩
      · exact Or.inr ⟨h, m, kids, rfl⟩
    · intro q _ hq
      exact hr.2 q hq

/-- **C32** When the copy succeeds, every entry of the source has its copy under the root of the destination, nothing else is there, and nothing outside has
changed. -/
theorem C32_reproduces (e : Env) (hig : ∀ er, e.ignore er = false) (root : Str) (m : Nat) (kids : Kids) (hwf : (Node.mk (.dir m) kids).WF) (d : Disk)
    (hr : Ready (comps root) d) (hok : result (copyAll e root (.mk (.dir m) kids)) d = .ok ()) :
    (∀ p, final (copyAll e root (.mk (.dir m) kids)) d (comps root ++ p) = ((Node.mk (.dir m) kids).find p).bind (copyOf e)) ∧
    (∀ k, ¬ comps root <+: k → final (copyAll e root (.mk (.dir m) kids)) d k = d k) := by
  have h := ((copyAll_holds hig hwf hr) d rfl).2.2.1 hok
  unfold final
  rw [h]
  refine ⟨?_, ?_⟩
  · intro p
    have := Node.putAll_find (e := e) (R := comps root) (.mk (.dir m) kids) [] p d hwf
    rw [List.nil_append] at this
    rw [this]
    cases p with
    | nil => rw [Node.find]; rfl
    | cons c p =>
      rw [hr.2 (c :: p) (by simp)]
      rcases (Node.mk (.dir m) kids).find (c :: p) with _ | ent
      · rfl
      · show (match copyOf e ent with | none => none | some v => some v) = copyOf e ent
        rcases copyOf e ent with _ | v <;> rfl
  · intro k hk
    refine putAll_other ?_
    rintro x hx rfl
    exact hk (List.prefix_append _ _)

/-- **C32** Whatever fails, and wherever the process dies: the copied entries are the first ones of the walk, complete, and at most the next one is
unfinished (a directory before its mode is set, or a file with the beginning of its content). -/
theorem C32_prefix (e : Env) (hig : ∀ er, e.ignore er = false) (root : Str) (m : Nat) (kids : Kids) (hwf : (Node.mk (.dir m) kids).WF) (d : Disk)
    (hr : Ready (comps root) d) :
    (∀ t ∈ crashes (copyAll e root (.mk (.dir m) kids)) d, Begun e (comps root) d ((Node.mk (.dir m) kids).entries []) t) ∧
    Begun e (comps root) d ((Node.mk (.dir m) kids).entries []) (final (copyAll e root (.mk (.dir m) kids)) d) := by
  obtain ⟨h1, h2⟩ := (copyAll_holds hig hwf hr) d rfl
  exact ⟨h1, h2.1⟩

/-- **C32** The copy fails only when some call failed. -/
theorem C32_succeeds (e : Env) (hig : ∀ er, e.ignore er = false) (hf : ∀ op, e.fail op = false) (hw : ∀ p i, e.wr p i = none) (root : Str) (m : Nat)
    (kids : Kids) (hwf : (Node.mk (.dir m) kids).WF) (d : Disk) (hr : Ready (comps root) d) :
    result (copyAll e root (.mk (.dir m) kids)) d = .ok () := by
  have h := ((copyAll_holds (e := e) hig hwf hr) d rfl).2.2.2
  unfold result
  rcases hres : (copyAll e root (.mk (.dir m) kids) d).2.2 with er | u
  · rw [hres] at h
    rcases h er rfl with ⟨op, _, h⟩ | ⟨p, i, n, _, h⟩
    · rw [hf] at h; cases h
    · rw [hw] at h; cases h
  · rfl

/-! ### the hypotheses are met -/

/-- A directory with a file "f", a directory "s" with a link "l" in it, and a device. -/
def demoSrc : Node := .mk (.dir 493) (.cons ['f'] (.mk (.file 420 [1, 2, 3]) .nil)
  (.cons ['s'] (.mk (.dir 448) (.cons ['l'] (.mk (.link ['x']) .nil) .nil)) (.cons ['d'] (.mk .other .nil) .nil)))

def demoEnv : Env where
  fail := fun _ => false
  cuts := fun _ => [1]
  wr := fun _ _ => none
  listed := fun _ => 0
  mask := id
  umask := id
  ignore := fun _ => false
  links := true

/-- An empty destination. -/
def emptyDisk : Disk := fun k => if k = [] then some (.dir 511) else none

theorem demoSrc_wf : demoSrc.WF := by
  simp only [demoSrc, Node.WF, Kids.WF, Kids.names, and_true, true_and]
  decide

theorem emptyDisk_ready : Ready (comps ['o', 'u', 't']) emptyDisk := by
  have hc : comps ['o', 'u', 't'] = [['o', 'u', 't']] := by decide
  rw [hc]
  refine ⟨Or.inl ⟨⟨511, rfl⟩, ?_⟩, ?_⟩
  · intro q _; simp [emptyDisk]
  · intro q _; simp [emptyDisk]

example : result (copyAll demoEnv ['o', 'u', 't'] demoSrc) emptyDisk = .ok () :=
  C32_succeeds demoEnv (fun _ => rfl) (fun _ => rfl) (fun _ _ => rfl) _ _ _ demoSrc_wf _ emptyDisk_ready

example : final (copyAll demoEnv ['o', 'u', 't'] demoSrc) emptyDisk [['o', 'u', 't'], ['f']] = some (.file 420 [1, 2, 3]) := by
  rw [show [['o', 'u', 't'], ['f']] = comps ['o', 'u', 't'] ++ [['f']] by decide]
  exact (C32_reproduces demoEnv (fun _ => rfl) _ _ _ demoSrc_wf _ emptyDisk_ready
    (C32_succeeds demoEnv (fun _ => rfl) (fun _ => rfl) (fun _ _ => rfl) _ _ _ demoSrc_wf _ emptyDisk_ready)).1 [['f']]

/-- A second write that fails after one byte leaves the first piece and that byte. -/
example : final (copyAll { demoEnv with wr := fun _ i => if i = 1 then some 1 else none } ['o', 'u', 't'] demoSrc) emptyDisk [['o', 'u', 't'], ['f']] =
    some (.file 420 [1, 2]) := by decide +kernel

/-- The modes of files that exist in the destination are not changed: the destination must be empty for **C32**. -/
theorem C32_counterexample_existing_file_mode :
    let d : Disk := fun k => if k = [] then some (.dir 511) else if k = [['f']] then some (.file 384 []) else none
    result (copyAll demoEnv dot (.mk (.dir 493) (.cons ['f'] (.mk (.file 420 [1]) .nil) .nil))) d = .ok () ∧
    final (copyAll demoEnv dot (.mk (.dir 493) (.cons ['f'] (.mk (.file 420 [1]) .nil) .nil))) d [['f']] = some (.file 384 [1]) := by
  refine ⟨by rfl, by rfl⟩

end Verif.Fsutil.Copy
