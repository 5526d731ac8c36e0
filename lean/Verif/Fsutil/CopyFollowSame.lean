import Verif.Fsutil.CopyFollow
/-
C118: a copy by an ordinary user, to a destination that follows symlinks. When no symlink is on the way and the directories let their owner write and search,
the copy goes through the same states as that of `CopyModel`, so that what C32, C69 and C70 say of that one holds of this one.
-/
namespace Verif.Fsutil.Copy
open Verif.Path Verif.Prog

/-! ### specification -/

/-- Whatever exists is in a directory. -/
def Tree (d : Disk) : Prop := ∀ k c, d (k ++ [c]) ≠ none → isDirAt d k

/-- The mode lets the owner search and change the directory. -/
def View.useable (v : View) (m : Nat) : Prop := v.search m = true ∧ v.write m = true

/-- On the way is no link, the directories are useable, and what the copy makes of them is. -/
structure Open (v : View) (A : List Str → Prop) (d : Disk) : Prop where
  tree : Tree d
  links : ∀ k, A k → NoLink d k
  dirs : ∀ k m, A k → d k = some (.dir m) → v.useable m

/-! ### the two programs run alike -/

/-- Both succeed, or both fail, and an existing entry is the reason of both or of none. -/
def Alike {α β : Type} (V : α → β → Prop) : Except Err α → Except Err β → Prop
  | .ok a, .ok b => V a b
  | .error x, .error y => x = .exist ↔ y = .exist
  | _, _ => False

/-- From a state of `Pre`, the same states and a like result; at the end `Post`. -/
def Sim {α β : Type} (Pre Post : Disk → Prop) (V : α → β → Prop) (m : P α) (m' : P β) : Prop :=
  ∀ d, Pre d → (m' d).1 = (m d).1 ∧ (m' d).2.1 = (m d).2.1 ∧ Alike V (m d).2.2 (m' d).2.2 ∧ Post (m d).2.1

section
variable {α β α' β' : Type} {Pre Mid Post : Disk → Prop} {V : α → β → Prop} {W : α' → β' → Prop}

theorem bind_run {α β : Type} (m : P α) (f : α → P β) (d : Disk) : (m >>= f) d = Prog.bind m f d := rfl

theorem sim_bind {m : P α} {m' : P β} {f : α → P α'} {f' : β → P β'} (h : Sim Pre Mid V m m') (hf : ∀ a b, V a b → Sim Mid Post W (f a) (f' b))
    (hmid : ∀ d, Mid d → Post d) : Sim Pre Post W (m >>= f) (m' >>= f') := by
  intro d hd
  obtain ⟨h1, h2, h3, h4⟩ := h d hd
  rw [bind_run, bind_run]
  unfold Prog.bind
  rcases hm : m d with ⟨t, s, r⟩
  rcases hm' : m' d with ⟨t', s', r'⟩
  rw [hm, hm'] at h1 h2 h3
  rw [hm] at h4
  simp only at h1 h2 h3 h4
  subst h1 h2
  cases r with
  | error x =>
    cases r' with
    | error y => exact ⟨rfl, rfl, h3, hmid _ h4⟩
    | ok b => exact h3.elim
  | ok a =>
    cases r' with
    | error y => exact h3.elim
    | ok b =>
      obtain ⟨g1, g2, g3, g4⟩ := hf a b h3 s' h4
      exact ⟨by simp only [g1], g2, g3, g4⟩

theorem sim_pure {a : α} {b : β} (h : V a b) (hp : ∀ d, Pre d → Post d) : Sim Pre Post V (Pure.pure a) (Pure.pure b) :=
  fun d hd => ⟨rfl, rfl, h, hp d hd⟩

theorem sim_fail {x y : Err} (h : x = .exist ↔ y = .exist) (hp : ∀ d, Pre d → Post d) : Sim Pre Post V (Prog.fail x) (Prog.fail y) :=
  fun d hd => ⟨rfl, rfl, h, hp d hd⟩

theorem sim_call {e : Env} {op : Op} : Sim Pre Pre (fun _ _ => True) (call e op) (call e op) := by
  unfold call
  split
  · exact sim_fail Iff.rfl fun _ h => h
  · exact sim_pure trivial fun _ h => h

theorem sim_attempt {m : P α} {m' : P β} (h : Sim Pre Post V m m') : Sim Pre Post (Alike V) (Prog.attempt m) (Prog.attempt m') := by
  intro d hd
  obtain ⟨h1, h2, h3, h4⟩ := h d hd
  exact ⟨h1, h2, h3, h4⟩

theorem sim_modify {f : Disk → Disk} (h : ∀ d, Pre d → Post (f d)) : Sim Pre Post (fun _ _ => True) (Prog.modify f : P Unit) (Prog.modify f : P Unit) :=
  fun d hd => ⟨rfl, rfl, trivial, h d hd⟩

theorem sim_weaken {Pre' Post' : Disk → Prop} {m : P α} {m' : P β} (h : Sim Pre' Post' V m m') (h1 : ∀ d, Pre d → Pre' d) (h2 : ∀ d, Post' d → Post d) :
    Sim Pre Post V m m' := fun d hd => by
  obtain ⟨a, b, c, g⟩ := h d (h1 d hd)
  exact ⟨a, b, c, h2 _ g⟩

theorem sim_fix {m : P α} {m' : P β} (h : ∀ d, Pre d → Sim (fun s => s = d) Post V m m') : Sim Pre Post V m m' := fun d hd => h d hd d rfl

/-- What the first program does to the state may be used. -/
theorem sim_frame {m : P α} {m' : P β} {I Post' : Disk → Prop} (h : Sim Pre Post V m m') (hf : Holds I Pre m (fun _ => Post')) :
    Sim Pre (fun d => Post d ∧ Post' d) V m m' := fun d hd => by
  obtain ⟨a, b, c, g⟩ := h d hd
  exact ⟨a, b, c, g, (hf d hd).2⟩
end

/-! ### trees -/

theorem tree_above {d : Disk} (h : Tree d) {k : List Str} (hk : d k ≠ none) : ∀ q, q <+: k → q ≠ k → isDirAt d q := by
  rintro q ⟨t, rfl⟩ hne
  induction t generalizing q with
  | nil => simp at hne
  | cons x t ih =>
    have hqx : d (q ++ [x]) ≠ none := by
      cases t with
      | nil => exact hk
      | cons y t =>
        obtain ⟨m, hm⟩ := ih (q ++ [x]) (by simpa using hk) (by simp)
        rw [hm]; simp
    exact h q x hqx

theorem tree_set {d : Disk} (h : Tree d) {k : List Str} {x : DEnt} (hdir : isDirAt d k → ∃ m, x = .dir m)
    (hnew : d k = none → isDirAt d k.dropLast) : Tree (d.set k x) := by
  intro k' c hne
  have hdirAt : isDirAt d k' → isDirAt (d.set k x) k' := by
    intro hd
    by_cases hk : k' = k
    · subst hk
      obtain ⟨m, rfl⟩ := hdir hd
      exact ⟨m, set_self⟩
    · obtain ⟨m, hm⟩ := hd
      exact ⟨m, by rw [set_other hk]; exact hm⟩
  by_cases hk : k' ++ [c] = k
  · subst hk
    apply hdirAt
    by_cases hn : d (k' ++ [c]) = none
    · have := hnew hn
      rwa [List.dropLast_concat] at this
    · exact h k' c hn
  · rw [set_other hk] at hne
    exact hdirAt (h k' c hne)

section
variable {v : View} {A : List Str → Prop} {e : Env}

theorem Open.set {d : Disk} (h : Open v A d) {k : List Str} {x : DEnt} (hdir : isDirAt d k → ∃ m, x = .dir m)
    (hnew : d k = none → isDirAt d k.dropLast) (hl : A k → ∀ t, x ≠ .link t) (hm : ∀ m, x = .dir m → v.useable m) : Open v A (d.set k x) where
  tree := tree_set h.tree hdir hnew
  links k' hA t := by
    by_cases hk : k' = k
    · subst hk; rw [set_self]; intro h; cases h; exact hl hA t rfl
    · rw [set_other hk]; exact h.links k' hA t
  dirs k' m hA hd := by
    by_cases hk : k' = k
    · subst hk; rw [set_self] at hd; cases hd; exact hm m rfl
    · rw [set_other hk] at hd; exact h.dirs k' m hA hd

/-- A way in `A` leads to its place; or something above is missing, and then nothing is at the place and it has no directory. -/
theorem real_open {d : Disk} (h : Open v A d) {last : Bool} {k : List Str} (hw : Way A last k) :
    real v d last v.lim [] k = .ok k ∨
      ∃ er, real v d last v.lim [] k = .error er ∧ er ≠ .exist ∧ d k = none ∧ ¬ isDirAt d k.dropLast := by
  rcases real_clear (v := v) (last := last) (k := k) (hw.clear (fun k _ hA => h.links k hA)) v.lim with h1 | ⟨er, h1, h2, q, hq, hne, hbad⟩
  · exact Or.inl h1
  · right
    have hqd : ¬ isDirAt d q := by
      rintro ⟨m, hm⟩
      exact hbad ⟨m, hm, (h.dirs q m (hw.above q hq hne) hm).1⟩
    refine ⟨er, h1, h2, ?_, ?_⟩
    · rcases hk : d k with _ | x
      · rfl
      · exact absurd (tree_above h.tree (by rw [hk]; simp) q hq hne) hqd
    · intro hpar
      by_cases hqp : q = k.dropLast
      · subst hqp; exact hqd hpar
      · obtain ⟨m, hm⟩ := hpar
        exact hqd (tree_above h.tree (by rw [hm]; simp) q (prefix_dropLast hq hne) hqp)

theorem call_run (op : Op) (d : Disk) : call e op d = if e.fail op then ([], d, .error (.io op)) else ([], d, .ok ()) := by
  unfold call; split <;> rfl

theorem needParent_not {d : Disk} {k : List Str} (h : ¬ isDirAt d k.dropLast) :
    needParent k d = ([], d, .error .notDir) ∨ needParent k d = ([], d, .error .notExist) := by
  unfold needParent
  rw [bind_run]
  unfold Prog.bind Prog.get
  rcases hp : d k.dropLast with _ | m | ⟨m, b⟩ | t
  · right; simp only [hp]; rfl
  · exact absurd ⟨m, hp⟩ h
  · left; simp only [hp]; rfl
  · left; simp only [hp]; rfl

theorem resolve_run (last : Bool) (p : Str) (d : Disk) : resolve v last p d = match real v d last v.lim [] (comps p) with
    | .ok k => ([], d, .ok k)
    | .error er => ([], d, .error er) := by
  unfold resolve
  rw [bind_run]
  unfold Prog.bind Prog.get
  simp only
  split <;> rename_i h <;> simp only [h] <;> rfl

/-- Reading the state, and going on with it. -/
theorem sim_get {α β : Type} {Pre Post : Disk → Prop} {V : α → β → Prop} {f : Disk → P α} {f' : Disk → P β}
    (h : ∀ d, Pre d → Sim (fun s => s = d) Post V (f d) (f' d)) : Sim Pre Post V (Prog.get >>= f) (Prog.get >>= f') := by
  intro d hd
  have := h d hd d rfl
  rw [bind_run, bind_run]
  unfold Prog.bind Prog.get
  simpa using this

/-- The program of `CopyModel` reads the state, the other one resolves the path first. -/
theorem sim_resolve {α β : Type} {Post : Disk → Prop} {V : α → β → Prop} {last : Bool} {p : Str} {f : Disk → P α} {f' : List Str → Disk → P β}
    (hw : Way A last (comps p)) (hok : ∀ d, Open v A d → Sim (fun s => s = d) Post V (f d) (f' (comps p) d))
    (hbad : ∀ d, Open v A d → d (comps p) = none → ¬ isDirAt d (comps p).dropLast → ∃ x, x ≠ .exist ∧ f d d = ([], d, .error x))
    (hpost : ∀ d, Open v A d → Post d) :
    Sim (Open v A) Post V (Prog.get >>= f) (resolve v last p >>= fun k => Prog.get >>= f' k) := by
  intro d hd
  rw [bind_run, bind_run]
  have hres := resolve_run (v := v) last p d
  rcases real_open hd hw with h | ⟨er, h1, h2, h3, h4⟩
  · rw [h] at hres
    simp only at hres
    have := hok d hd d rfl
    have hl : Prog.bind (Prog.get) f d = f d d := by unfold Prog.bind Prog.get; simp
    have hr : Prog.bind (resolve v last p) (fun k => Prog.get >>= f' k) d = f' (comps p) d d := by
      unfold Prog.bind; rw [hres]; simp only [bind_run]; unfold Prog.bind Prog.get; simp
    rw [hl, hr]
    exact this
  · rw [h1] at hres
    simp only at hres
    obtain ⟨x, hx, hf⟩ := hbad d hd h3 h4
    have hl : Prog.bind (Prog.get) f d = ([], d, .error x) := by unfold Prog.bind Prog.get; simp [hf]
    have hr : Prog.bind (resolve v last p) (fun k => Prog.get >>= f' k) d = ([], d, .error er) := by unfold Prog.bind; rw [hres]
    rw [hl, hr]
    exact ⟨rfl, rfl, by simp [Alike, hx, h2], hpost d hd⟩

theorem fails_needParent {α : Type} {d : Disk} {k : List Str} {g : Unit → P α} (h : ¬ isDirAt d k.dropLast) :
    ∃ x, x ≠ .exist ∧ (needParent k >>= g) d = ([], d, .error x) := by
  rcases needParent_not h with h | h
  · exact ⟨.notDir, by simp, by rw [bind_run]; unfold Prog.bind; rw [h]⟩
  · exact ⟨.notExist, by simp, by rw [bind_run]; unfold Prog.bind; rw [h]⟩

/-- A new entry is made. -/
theorem sim_create {α β : Type} {Post : Disk → Prop} {V : α → β → Prop} {d : Disk} (hd : Open v A d) {k : List Str} (hw : Way A false k) (hn : d k = none) {g : P α} {g' : P β}
    (hg : isDirAt d k.dropLast → Sim (fun s => s = d) Post V g g') (hpost : Post d) :
    Sim (fun s => s = d) Post V (needParent k >>= fun _ => g) (mayCreate v k >>= fun _ => g') := by
  refine sim_bind (Mid := fun s => s = d ∧ isDirAt d k.dropLast ∨ s = d ∧ ¬ isDirAt d k.dropLast) (V := fun _ _ => isDirAt d k.dropLast) ?_ ?_ ?_
  · rintro s rfl
    by_cases hp : isDirAt s k.dropLast
    · obtain ⟨m, hm⟩ := hp
      have hne : k ≠ [] := by rintro rfl; rw [List.dropLast_nil, hn] at hm; cases hm
      have hwr : v.write m = true := (hd.dirs k.dropLast m (hw.above _ (dropLast_prefix k) (by
        intro h
        have := congrArg List.length h
        rw [List.length_dropLast] at this
        have := List.length_pos_iff.2 hne
        omega)) hm).2
      have h1 : needParent k s = ([], s, .ok ()) := by
        unfold needParent; rw [bind_run]; unfold Prog.bind Prog.get; simp only [hm]; rfl
      have h2 : mayCreate v k s = ([], s, .ok ()) := by
        unfold mayCreate; rw [bind_run]; unfold Prog.bind Prog.get; simp only [hm, hwr]; rfl
      rw [h1, h2]
      exact ⟨rfl, rfl, ⟨m, hm⟩, Or.inl ⟨rfl, m, hm⟩⟩
    · rcases hx : s k.dropLast with _ | m | ⟨m, b⟩ | t
      · have h1 : needParent k s = ([], s, .error .notExist) := by
          unfold needParent; rw [bind_run]; unfold Prog.bind Prog.get; simp only [hx]; rfl
        have h2 : mayCreate v k s = ([], s, .error .notExist) := by
          unfold mayCreate; rw [bind_run]; unfold Prog.bind Prog.get; simp only [hx]; rfl
        rw [h1, h2]; exact ⟨rfl, rfl, Iff.rfl, Or.inr ⟨rfl, hp⟩⟩
      · exact absurd ⟨m, hx⟩ hp
      · have h1 : needParent k s = ([], s, .error .notDir) := by
          unfold needParent; rw [bind_run]; unfold Prog.bind Prog.get; simp only [hx]; rfl
        have h2 : mayCreate v k s = ([], s, .error .notDir) := by
          unfold mayCreate; rw [bind_run]; unfold Prog.bind Prog.get; simp only [hx]; rfl
        rw [h1, h2]; exact ⟨rfl, rfl, Iff.rfl, Or.inr ⟨rfl, hp⟩⟩
      · have h1 : needParent k s = ([], s, .error .notDir) := by
          unfold needParent; rw [bind_run]; unfold Prog.bind Prog.get; simp only [hx]; rfl
        have h2 : mayCreate v k s = ([], s, .error .notDir) := by
          unfold mayCreate; rw [bind_run]; unfold Prog.bind Prog.get; simp only [hx]; rfl
        rw [h1, h2]; exact ⟨rfl, rfl, Iff.rfl, Or.inr ⟨rfl, hp⟩⟩
  · intro _ _ hp
    exact sim_weaken (hg hp) (by rintro s (⟨rfl, _⟩ | ⟨rfl, _⟩) <;> rfl) (fun _ h => h)
  · rintro s (⟨rfl, _⟩ | ⟨rfl, _⟩) <;> exact hpost

abbrev Any {α β : Type} : α → β → Prop := fun _ _ => True

theorem sim_mkdir {p : Str} (hum : v.useable (e.umask modePerm)) (hw : Way A true (comps p)) :
    Sim (Open v A) (Open v A) Any (mkdir e p modePerm) (mkdirF v e p modePerm) := by
  unfold mkdir mkdirF
  refine sim_bind sim_call (fun _ _ _ => ?_) (fun _ h => h)
  refine sim_resolve hw.weak ?_ ?_ (fun _ h => h)
  · intro d hd
    rcases hk : d (comps p) with _ | x
    · simp only
      refine sim_create hd hw.weak hk (fun hpar => sim_modify ?_) hd
      rintro s rfl
      refine hd.set ?_ (fun _ => hpar) (by simp) ?_
      · rintro ⟨m, hm⟩; rw [hk] at hm; cases hm
      · rintro m h; cases h; exact hum
    · simp only
      exact sim_fail Iff.rfl (by rintro s rfl; exact hd)
  · intro d hd hk hpar
    simp only [hk]
    exact fails_needParent hpar

theorem sim_chmod {p : Str} {mode : Nat} (hm : v.useable mode) (hw : Way A true (comps p)) :
    Sim (Open v A) (Open v A) Any (chmod e p mode) (chmodF v e p mode) := by
  unfold chmod chmodF
  refine sim_bind sim_call (fun _ _ _ => ?_) (fun _ h => h)
  refine sim_resolve hw ?_ ?_ (fun _ h => h)
  · intro d hd
    rcases hk : d (comps p) with _ | m | ⟨m, b⟩ | t
    · simp only; exact sim_fail Iff.rfl (by rintro s rfl; exact hd)
    · simp only
      refine sim_modify ?_
      rintro s rfl
      exact hd.set (fun _ => ⟨_, rfl⟩) (by rw [hk]; simp) (by simp) (by rintro m h; cases h; exact hm)
    · simp only
      refine sim_modify ?_
      rintro s rfl
      exact hd.set (by rintro ⟨m, hm⟩; rw [hk] at hm; cases hm) (by rw [hk]; simp) (by simp) (by simp)
    · exact absurd hk (hd.links _ (hw.self rfl) t)
  · intro d hd hk hpar
    simp only [hk]
    exact ⟨.notExist, by simp, rfl⟩

/-- The user may write a file that is at the place. -/
def Writable (v : View) (k : List Str) (d : Disk) : Prop := ∀ m b, d k = some (.file m b) → v.write m = true

theorem sim_resolve_and {α β : Type} {Post Extra : Disk → Prop} {V : α → β → Prop} {last : Bool} {p : Str} {f : Disk → P α} {f' : List Str → Disk → P β}
    (hw : Way A last (comps p)) (hok : ∀ d, Open v A d → Extra d → Sim (fun s => s = d) Post V (f d) (f' (comps p) d))
    (hbad : ∀ d, Open v A d → d (comps p) = none → ¬ isDirAt d (comps p).dropLast → ∃ x, x ≠ .exist ∧ f d d = ([], d, .error x))
    (hpost : ∀ d, Open v A d → Post d) :
    Sim (fun d => Open v A d ∧ Extra d) Post V (Prog.get >>= f) (resolve v last p >>= fun k => Prog.get >>= f' k) := by
  intro d hd
  rw [bind_run, bind_run]
  have hres := resolve_run (v := v) last p d
  rcases real_open hd.1 hw with h | ⟨er, h1, h2, h3, h4⟩
  · rw [h] at hres
    simp only at hres
    have := hok d hd.1 hd.2 d rfl
    have hl : Prog.bind (Prog.get) f d = f d d := by unfold Prog.bind Prog.get; simp
    have hr : Prog.bind (resolve v last p) (fun k => Prog.get >>= f' k) d = f' (comps p) d d := by
      unfold Prog.bind; rw [hres]; simp only [bind_run]; unfold Prog.bind Prog.get; simp
    rw [hl, hr]
    exact this
  · rw [h1] at hres
    simp only at hres
    obtain ⟨x, hx, hf⟩ := hbad d hd.1 h3 h4
    have hl : Prog.bind (Prog.get) f d = ([], d, .error x) := by unfold Prog.bind Prog.get; simp [hf]
    have hr : Prog.bind (resolve v last p) (fun k => Prog.get >>= f' k) d = ([], d, .error er) := by unfold Prog.bind; rw [hres]
    rw [hl, hr]
    exact ⟨rfl, rfl, by simp [Alike, hx, h2], hpost d hd.1⟩

theorem sim_openDst {p : Str} {perm : Nat} (hw : Way A true (comps p)) :
    Sim (fun d => Open v A d ∧ Writable v (comps p) d) (Open v A) (fun _ k => k = comps p) (openDst e p perm) (openDstF v e p perm) := by
  unfold openDst openDstF
  refine sim_bind (Mid := fun d => Open v A d ∧ Writable v (comps p) d) sim_call (fun _ _ _ => ?_) (fun _ h => h.1)
  refine sim_resolve_and hw ?_ ?_ (fun _ h => h)
  · intro d hd hwr
    rcases hk : d (comps p) with _ | m | ⟨m, b⟩ | t
    · simp only
      refine sim_create hd hw.weak hk (fun hpar => ?_) hd
      rintro s rfl
      refine ⟨rfl, rfl, rfl, ?_⟩
      refine hd.set ?_ (fun _ => hpar) (by simp) (by simp)
      rintro ⟨m, hm⟩; rw [hk] at hm; cases hm
    · simp only
      exact sim_fail (by simp) (by rintro s rfl; exact hd)
    · simp only [hwr m b hk, if_true]
      rintro s rfl
      refine ⟨rfl, rfl, rfl, ?_⟩
      exact hd.set (by rintro ⟨m, hm⟩; rw [hk] at hm; cases hm) (by rw [hk]; simp) (by simp) (by simp)
    · exact absurd hk (hd.links _ (hw.self rfl) t)
  · intro d hd hk hpar
    simp only [hk]
    exact fails_needParent hpar

theorem sim_symlink {t p : Str} (hw : Way A false (comps p)) (hA : ¬ A (comps p)) :
    Sim (Open v A) (Open v A) Any (symlink e t p) (symlinkF v e t p) := by
  unfold symlink symlinkF
  refine sim_bind sim_call (fun _ _ _ => ?_) (fun _ h => h)
  refine sim_resolve hw ?_ ?_ (fun _ h => h)
  · intro d hd
    rcases hk : d (comps p) with _ | x
    · simp only
      refine sim_create hd hw hk (fun hpar => sim_modify ?_) hd
      rintro s rfl
      refine hd.set ?_ (fun _ => hpar) (fun h => absurd h hA) (by simp)
      rintro ⟨m, hm⟩; rw [hk] at hm; cases hm
    · simp only
      exact sim_fail Iff.rfl (by rintro s rfl; exact hd)
  · intro d hd hk hpar
    simp only [hk]
    exact fails_needParent hpar

theorem Open.append {d : Disk} (h : Open v A d) {k : List Str} {bs : Bytes} : Open v A (d.append k bs) := by
  unfold Disk.append
  split
  · rename_i m b hk
    exact h.set (by rintro ⟨m, hm⟩; rw [hk] at hm; cases hm) (by rw [hk]; simp) (by simp) (by simp)
  · exact h

/-- A program is like itself. -/
theorem sim_self {m : P Unit} (h : Keeps (Open v A) m) : Sim (Open v A) (Open v A) Any m m := by
  intro d hd
  refine ⟨rfl, rfl, ?_, (h d hd).2⟩
  cases (m d).2.2 with
  | ok a => exact trivial
  | error x => exact Iff.rfl

theorem open_copyBytes {src : Str} {k : List Str} : ∀ (ps : List Bytes) (i : Nat), Keeps (Open v A) (copyBytes e src k i ps)
  | [], i => by unfold copyBytes; exact keeps_pure
  | b :: rest, i => by
    unfold copyBytes
    refine keeps_bind keeps_call (fun _ => ?_)
    split
    · exact keeps_bind (keeps_modify fun d h => h.append) (fun _ => keeps_fail)
    · exact keeps_bind (keeps_modify fun d h => h.append) (fun _ => open_copyBytes rest (i + 1))

theorem sim_mkdirOrExist {p : Str} (hum : v.useable (e.umask modePerm)) (hw : Way A true (comps p)) :
    Sim (Open v A) (Open v A) Any (mkdirOrExist e p) (mkdirOrExistF v e p) := by
  unfold mkdirOrExist mkdirOrExistF
  refine sim_bind (sim_attempt (sim_mkdir hum hw)) ?_ (fun _ h => h)
  rintro (x | a) (y | b) h
  · by_cases hx : x = .exist
    · have hy := h.1 hx
      subst hx hy
      exact sim_pure trivial fun _ h => h
    · have hy : y ≠ .exist := fun hy => hx (h.2 hy)
      cases x <;> first | exact absurd rfl hx | (cases y <;> first | exact absurd rfl hy | exact sim_fail (by simp) fun _ h => h)
  · exact h.elim
  · exact h.elim
  · exact sim_pure trivial fun _ h => h

/-- What an entry needs to be copied to a place. -/
structure Good (v : View) (e : Env) (A : List Str → Prop) (ent : Ent) (k : List Str) : Prop where
  fine : Fine A ent k
  mode : ∀ m, ent = .dir m → v.useable (e.mask m)

/-- A file that is overwritten may be. -/
def Over (v : View) (ent : Ent) (k : List Str) (d : Disk) : Prop := ∀ m b, ent = .file m b → Writable v k d

theorem sim_copyEntry {dst src : Str} (hum : v.useable (e.umask modePerm)) : ∀ (ent : Ent), Good v e A ent (comps dst) →
    Sim (fun d => Open v A d ∧ Over v ent (comps dst) d) (Open v A) Any (copyEntry e dst src ent) (copyEntryF v e dst src ent)
  | .dir m, hf => by
    have hw : Way A true (comps dst) := ⟨hf.fine.way.names, hf.fine.way.above, fun _ => hf.fine.dir m rfl⟩
    unfold copyEntry copyEntryF
    exact sim_weaken (sim_bind (sim_mkdirOrExist hum hw) (fun _ _ _ => sim_chmod (hf.mode m rfl) hw) (fun _ h => h)) (fun _ h => h.1) (fun _ h => h)
  | .file m b, hf => by
    have hw : Way A true (comps dst) := ⟨hf.fine.way.names, hf.fine.way.above, fun _ => hf.fine.file m b rfl⟩
    unfold copyEntry copyEntryF
    refine sim_weaken (Pre' := fun d => Open v A d ∧ Writable v (comps dst) d) (Post' := Open v A) ?_ (fun _ h => ⟨h.1, h.2 m b rfl⟩) (fun _ h => h)
    refine sim_bind sim_call (fun _ _ _ => ?_) (fun _ h => h.1)
    refine sim_bind (sim_openDst hw) ?_ (fun _ h => h)
    rintro _ _ rfl
    exact sim_self (open_copyBytes _ _)
  | .link t, hf => by
    simp only [copyEntry, copyEntryF]
    refine sim_weaken (Pre' := Open v A) (Post' := Open v A) ?_ (fun _ h => h.1) (fun _ h => h)
    split
    · exact sim_bind sim_call (fun _ _ _ => sim_symlink hf.fine.way (hf.fine.link t rfl)) (fun _ h => h)
    · exact sim_pure trivial fun _ h => h
  | .other, _ => by unfold copyEntry copyEntryF; exact sim_pure trivial fun _ h => h.1

theorem sim_visit {root s : Str} {p : List Str} {ent : Ent} (hum : v.useable (e.umask modePerm)) (hp : PathOf s p) (hf : Good v e A ent (comps root ++ p)) :
    Sim (fun d => Open v A d ∧ Over v ent (comps root ++ p) d) (Open v A) Any (visit e root s ent) (visitF v e root s ent) := by
  unfold visit visitF
  have : comps (join2 root s) = comps root ++ p := by
    rw [comps_dst hp.1 hp.2.1 (by rw [hp.2.2.1]; exact hp.2.2.2), hp.2.2.1]
  refine sim_bind sim_call (fun _ _ _ => ?_) (fun _ h => h.1)
  have h := sim_copyEntry (A := A) (dst := join2 root s) (src := s) hum ent (by rw [this]; exact hf)
  rwa [this] at h

theorem sim_walkErr {er : Err} {Pre : Disk → Prop} : Sim Pre Pre Any (walkErr e er) (walkErr e er) := by
  unfold walkErr
  split
  · exact sim_pure trivial fun _ h => h
  · exact sim_fail Iff.rfl fun _ h => h

/-- Every file of a list may be written over. -/
def Overs (v : View) (R : List Str) (l : List (List Str × Ent)) (d : Disk) : Prop := ∀ x ∈ l, Over v x.2 (R ++ x.1) d

theorem Overs.within {R : List Str} {l : List (List Str × Ent)} {K : List Str → Prop} {d d' : Disk} (h : Overs v R l d) (hw : Within K d d')
    (hK : ∀ x ∈ l, ¬ K (R ++ x.1)) : Overs v R l d' := by
  intro x hx m b he m' b' hd
  rw [hw _ (hK x hx)] at hd
  exact h x hx m b he m' b' hd

mutual
theorem sim_walkNode {root : Str} (hum : v.useable (e.umask modePerm)) : ∀ (n : Node) (s : Str) (p : List Str), n.WF → PathOf s p →
    (∀ x ∈ n.entries p, Good v e A x.2 (comps root ++ x.1)) →
    Sim (fun d => Open v A d ∧ Overs v (comps root) (n.entries p) d) (Open v A) Any (walkNode e root s n) (walkNodeF v e root s n)
  | .mk ent kids, s, p, hwf, hp, hk => by
    have hdist := Node.entries_distinct p (.mk ent kids) hwf
    refine sim_fix (fun d hd => ?_)
    unfold walkNode walkNodeF
    have h0 := hk (p, ent) (by simp [Node.entries])
    have hvis : Sim (fun s => s = d) (fun d' => Open v A d' ∧ Within (fun k => k = comps root ++ p) d d') Any (visit e root s ent) (visitF v e root s ent) := by
      refine sim_frame (I := fun _ => True) (sim_weaken (sim_visit hum hp h0) ?_ (fun _ h => h)) ?_
      · rintro s rfl
        exact ⟨hd.1, hd.2 (p, ent) (by simp [Node.entries])⟩
      · refine .weaken (keeps_visit (K := fun k => k = comps root ++ p) (d0 := d) hp rfl) ?_ (fun _ _ => trivial) (fun _ _ h => h)
        rintro s rfl; exact Within.refl
    refine sim_bind hvis (fun _ _ _ => ?_) (fun _ h => h.1)
    cases ent with
    | dir m =>
      have hk' : ∀ x ∈ kids.entries p, Good v e A x.2 (comps root ++ x.1) := fun x hx => hk x (by simp [Node.entries, Ent.below, hx])
      have hpre : ∀ d', (Open v A d' ∧ Within (fun k => k = comps root ++ p) d d') → Open v A d' ∧ Overs v (comps root) (kids.entries p) d' := by
        rintro d' ⟨h1, h2⟩
        refine ⟨h1, Overs.within (fun x hx => hd.2 x (by simp [Node.entries, Ent.below, hx])) h2 ?_⟩
        intro x hx h
        rw [Node.entries, List.pairwise_cons] at hdist
        exact hdist.1 x hx (List.append_cancel_left h).symm
      simp only
      split
      · refine sim_bind sim_walkErr (fun _ _ _ => ?_) (fun _ h => h.1)
        exact sim_weaken (sim_walkKids hum kids s p _ hwf hp hk') hpre (fun _ h => h)
      · exact sim_weaken (sim_walkKids hum kids s p _ hwf hp hk') hpre (fun _ h => h)
    | file _ _ => exact sim_pure trivial fun _ h => h.1
    | link _ => exact sim_pure trivial fun _ h => h.1
    | other => exact sim_pure trivial fun _ h => h.1
theorem sim_walkKids {root : Str} (hum : v.useable (e.umask modePerm)) : ∀ (ks : Kids) (s : Str) (p : List Str) (lim : Option Nat), ks.WF → PathOf s p →
    (∀ x ∈ ks.entries p, Good v e A x.2 (comps root ++ x.1)) →
    Sim (fun d => Open v A d ∧ Overs v (comps root) (ks.entries p) d) (Open v A) Any (walkKids e root s lim ks) (walkKidsF v e root s lim ks)
  | .nil, s, p, lim, _, _, _ => by
    cases lim <;> (unfold walkKids walkKidsF; exact sim_pure trivial fun _ h => h.1)
  | .cons name n rest, s, p, lim, hwf, hp, hk => by
    have hdist := Kids.entries_distinct p (.cons name n rest) hwf
    rw [Kids.entries, List.pairwise_append] at hdist
    obtain ⟨hname, _, hn, hrest⟩ := hwf
    have h1 : ∀ lim', Sim (fun d => Open v A d ∧ Overs v (comps root) ((Kids.cons name n rest).entries p) d) (Open v A) Any
        (do walkNode e root (join2 s name) n; walkKids e root s lim' rest) (do walkNodeF v e root (join2 s name) n; walkKidsF v e root s lim' rest) := by
      intro lim'
      refine sim_fix (fun d hd => ?_)
      let K : List Str → Prop := fun k => ∃ x ∈ n.entries (p ++ [name]), k = comps root ++ x.1
      have hnode : Sim (fun s => s = d) (fun d' => Open v A d' ∧ Within K d d') Any (walkNode e root (join2 s name) n) (walkNodeF v e root (join2 s name) n) := by
        refine sim_frame (I := fun _ => True) (sim_weaken (sim_walkNode hum n (join2 s name) (p ++ [name]) hn (pathOf_join hp hname)
          (fun x hx => hk x (by simp [Kids.entries, hx]))) ?_ (fun _ h => h)) ?_
        · rintro s rfl
          exact ⟨hd.1, fun x hx => hd.2 x (by simp [Kids.entries, hx])⟩
        · refine .weaken (keeps_walkNode (K := K) (d0 := d) n (join2 s name) (p ++ [name]) hn (pathOf_join hp hname) (fun x hx => ⟨x, hx, rfl⟩)) ?_
            (fun _ _ => trivial) (fun _ _ h => h)
          rintro s rfl; exact Within.refl
      refine sim_bind hnode (fun _ _ _ => ?_) (fun _ h => h.1)
      refine sim_weaken (sim_walkKids hum rest s p lim' hrest hp (fun x hx => hk x (by simp [Kids.entries, hx]))) ?_ (fun _ h => h)
      rintro d' ⟨g1, g2⟩
      refine ⟨g1, Overs.within (fun x hx => hd.2 x (by simp [Kids.entries, hx])) g2 ?_⟩
      rintro x hx ⟨y, hy, h⟩
      exact hdist.2.2 y hy x hx (List.append_cancel_left h).symm
    match lim with
    | none => simp only [walkKids, walkKidsF]; exact h1 _
    | some 0 => simp only [walkKids, walkKidsF]; exact sim_pure trivial fun _ h => h.1
    | some (n + 1) => simp only [walkKids, walkKidsF]; exact h1 _
end
end

/-- What a user needs to copy a source to a place: below the root no name is "..", no symlink is on the way, the directories on it and those the copy makes
let their owner search and write, and so do files that are overwritten. -/
structure Ordinary (v : View) (e : Env) (R : List Str) (n : Node) (d : Disk) : Prop where
  root : ∀ c ∈ R, c ≠ dotdot
  dest : Open v (OnWay R n) d
  made : v.useable (e.umask modePerm)
  modes : ∀ p m, n.find p = some (.dir m) → v.useable (e.mask m)
  files : ∀ p m b, n.find p = some (.file m b) → Writable v (R ++ p) d

/-- The copy by such a user is the one of `CopyModel`. -/
theorem copyAllF_same {v : View} {e : Env} {root : Str} {n : Node} (hwf : n.WF) {d : Disk} (h : Ordinary v e (comps root) n d) :
    crashes (copyAllF v e root n) d = crashes (copyAll e root n) d ∧ final (copyAllF v e root n) d = final (copyAll e root n) d ∧
    (result (copyAllF v e root n) d = .ok () ↔ result (copyAll e root n) d = .ok ()) := by
  have hs : Sim (fun d => Open v (OnWay (comps root) n) d ∧ Overs v (comps root) (n.entries []) d) (Open v (OnWay (comps root) n)) Any
      (copyAll e root n) (copyAllF v e root n) := by
    unfold copyAll copyAllF
    split
    · exact sim_weaken sim_walkErr (fun _ h => h.1) (fun _ h => h)
    · refine sim_walkNode h.made n dot [] hwf ⟨by decide, by decide, by decide, by simp⟩ ?_
      intro x hx
      obtain ⟨q, h1, h2⟩ := Node.entries_find [] n hwf x hx
      rw [List.nil_append] at h1
      rw [h1]
      exact ⟨fine_of_find hwf h.root h2, fun m hm => h.modes q m (by rw [h2, hm])⟩
  obtain ⟨h1, h2, h3, _⟩ := hs d ⟨h.dest, by
    intro x hx m b he
    obtain ⟨q, g1, g2⟩ := Node.entries_find [] n hwf x hx
    rw [List.nil_append] at g1
    rw [g1]
    exact h.files q m b (by rw [g2, he])⟩
  refine ⟨h1, h2, ?_⟩
  unfold result
  cases hr : (copyAll e root n d).2.2 <;> cases hr' : (copyAllF v e root n d).2.2 <;> rw [hr, hr'] at h3 <;> simp_all [Alike]

/-! ### CopyPath -/

section
variable {v : View} {A : List Str → Prop} {e : Env} {src : Node} {root : Str}

theorem sim_makeDir {dd : Str} (hum : v.useable (e.umask modePerm)) (hw : dd ≠ dot → Way A true (comps dd))
    (hm : ∀ r ent, relTo root dd = some r → r ≠ dot → srcStat src r = some ent → v.useable (e.mask (modeOf ent))) :
    Sim (Open v A) (Open v A) Any (makeDir e src root dd) (makeDirF v e src root dd) := by
  unfold makeDir makeDirF
  by_cases hd : dd = dot
  · rw [if_pos hd, if_pos hd]; exact sim_pure trivial fun _ h => h
  · rw [if_neg hd, if_neg hd]
    refine sim_bind (sim_mkdirOrExist hum (hw hd)) (fun _ _ _ => ?_) (fun _ h => h)
    rcases hr : relTo root dd with _ | r
    · exact sim_pure trivial fun _ h => h
    · simp only
      by_cases hrd : r = dot
      · rw [if_pos hrd, if_pos hrd]; exact sim_pure trivial fun _ h => h
      · rw [if_neg hrd, if_neg hrd]
        refine sim_bind sim_call (fun _ _ _ => ?_) (fun _ h => h)
        rcases hs : srcStat src r with _ | ent
        · exact sim_fail Iff.rfl fun _ h => h
        · exact sim_chmod (hm r ent hr hrd hs) (hw hd)

theorem sim_makeDirs (hum : v.useable (e.umask modePerm)) : ∀ (ds : List Str), (∀ dd ∈ ds, dd ≠ dot → Way A true (comps dd)) →
    (∀ dd ∈ ds, ∀ r ent, relTo root dd = some r → r ≠ dot → srcStat src r = some ent → v.useable (e.mask (modeOf ent))) →
    Sim (Open v A) (Open v A) Any (makeDirs e src root ds) (makeDirsF v e src root ds)
  | [], _, _ => by unfold makeDirs makeDirsF; exact sim_pure trivial fun _ h => h
  | dd :: ds, h, h' => by
    unfold makeDirs makeDirsF
    exact sim_bind (sim_makeDir hum (h dd (by simp)) (h' dd (by simp)))
      (fun _ _ _ => sim_makeDirs hum ds (fun x hx => h x (by simp [hx])) (fun x hx => h' x (by simp [hx]))) (fun _ h => h)

theorem sim_copyEntries (hum : v.useable (e.umask modePerm)) : ∀ (l : List (Str × Ent)), (∀ x ∈ l, Good v e A x.2 (comps (join2 root x.1))) →
    (l.map (fun x => comps (join2 root x.1))).Nodup →
    Sim (fun d => Open v A d ∧ ∀ x ∈ l, Over v x.2 (comps (join2 root x.1)) d) (Open v A) Any (copyEntries e root l) (copyEntriesF v e root l)
  | [], _, _ => by unfold copyEntries copyEntriesF; exact sim_pure trivial fun _ h => h.1
  | x :: xs, h, hnd => by
    refine sim_fix (fun d hd => ?_)
    unfold copyEntries copyEntriesF
    rw [List.map_cons, List.nodup_cons] at hnd
    have h1 : Sim (fun s => s = d) (fun d' => Open v A d' ∧ Within (fun k => k = comps (join2 root x.1)) d d') Any
        (copyEntry e (join2 root x.1) x.1 x.2) (copyEntryF v e (join2 root x.1) x.1 x.2) := by
      refine sim_frame (I := fun _ => True) (sim_weaken (sim_copyEntry hum x.2 (h x (by simp))) ?_ (fun _ h => h)) ?_
      · rintro s rfl; exact ⟨hd.1, hd.2 x (by simp)⟩
      · refine .weaken (keeps_copyEntry (K := fun k => k = comps (join2 root x.1)) (d0 := d) rfl x.2) ?_ (fun _ _ => trivial) (fun _ _ h => h)
        rintro s rfl; exact Within.refl
    refine sim_bind h1 (fun _ _ _ => ?_) (fun _ h => h.1)
    refine sim_weaken (sim_copyEntries hum xs (fun y hy => h y (by simp [hy])) hnd.2) ?_ (fun _ h => h)
    rintro d' ⟨g1, g2⟩
    refine ⟨g1, fun y hy m b he m' b' hd' => ?_⟩
    rw [g2 _ (fun hk => hnd.1 (hk ▸ List.mem_map_of_mem (f := fun x => comps (join2 root x.1)) hy))] at hd'
    exact hd.2 y (by simp [hy]) m b he m' b' hd'
end

/-- The mode `CopyPath` gives a directory is that of a directory between the root and a named entry. -/
theorem dirs_modes {src : Node} {root : Str} {paths : List Str} {l : List (Str × Ent)} (habs : isAbs (clean root) = false)
    (hmap : l.map Prod.fst = paths.map clean) (hfound : ∀ x ∈ l, Found src x) {dd : Str}
    (hdd : dd ∈ Tarfs.sortKeys (l.flatMap (fun x => parents (clean root) x.1)).eraseDups) {r : Str} {ent : Ent}
    (hr : relTo (clean root) dd = some r) (hrd : r ≠ dot) (hs : srcStat src r = some ent) :
    ∃ p ∈ paths, ∃ q m, q <+: comps p ∧ src.find q = some (.dir m) ∧ ent = .dir m := by
  obtain ⟨x, hx, hm⟩ := mem_dirs.1 hdd
  obtain ⟨E, hE, hpre, rfl⟩ := (mem_parents habs (hfound x hx).1 (clean_ne_nil root)).1 hm
  have hpre' := hpre.trans (dropLast_prefix _)
  have hN := normal_append (R := comps (clean root)) (by have := comps_normal (clean root); rwa [habs] at this) (hfound x hx).1.2.2
  have hNE := normal_prefix hN hpre'
  have : x.1 ∈ paths.map clean := by rw [← hmap]; exact List.mem_map_of_mem hx
  obtain ⟨p, hp, he⟩ := List.mem_map.1 this
  have hc : comps x.1 = comps p := by rw [← he, comps_clean]
  rcases prefix_append_cases hpre' with ⟨q, hq⟩ | ⟨q, hqn, hqp, rfl⟩
  · exfalso
    by_cases hqn : q = []
    · subst hqn
      rw [List.append_nil] at hq
      have := relTo_below (root := clean root) (q := []) (by rw [← hq]; simpa using hNE)
      rw [List.append_nil, ← hq, hr] at this
      exact hrd (Option.some.inj this)
    · rcases relTo_above hq.symm hqn hNE with h | ⟨r', h, _, hv⟩
      · rw [h] at hr; cases hr
      · rw [h] at hr; cases hr
        unfold srcStat at hs
        rw [hv] at hs
        cases hs
  · rw [relTo_below hNE] at hr
    cases hr
    have hs' := (srcStat_some hs).2
    have hNq : Normal false q := .names (fun c hc' => (hfound x hx).1.2.2 c (hqp.subset hc'))
    rw [comps_render hNq] at hs'
    have hprop : q ≠ comps x.1 := by
      rintro rfl
      exact (proper_of_dropLast hE hpre).2 rfl
    obtain ⟨t, ht⟩ := hqp
    cases t with
    | nil => rw [List.append_nil] at ht; exact absurd ht hprop
    | cons c t =>
      have hf := (hfound x hx).2
      rw [← ht] at hf
      obtain ⟨m, hm⟩ := Node.find_above src q c t hf
      refine ⟨p, hp, q, m, by rw [← hc, ← ht]; exact List.prefix_append _ _, hm, ?_⟩
      rw [hm] at hs'
      exact (Option.some.inj hs').symm

/-- As `Ordinary`, for named entries; each is named once. -/
structure OrdinaryTo (v : View) (e : Env) (R : List Str) (src : Node) (paths : List Str) (d : Disk) : Prop where
  root : ∀ c ∈ R, c ≠ dotdot
  dest : Open v (OnWayTo R src paths) d
  made : v.useable (e.umask modePerm)
  modes : ∀ p ∈ paths, ∀ q m, q <+: comps p → src.find q = some (.dir m) → v.useable (e.mask m)
  files : ∀ p ∈ paths, ∀ m b, src.find (comps p) = some (.file m b) → Writable v (R ++ comps p) d
  once : (paths.map comps).Nodup

theorem copyPathF_same {v : View} {e : Env} {src : Node} {root : Str} {paths : List Str} {d : Disk} (h : OrdinaryTo v e (comps root) src paths d) :
    crashes (copyPathF v e src root paths) d = crashes (copyPath e src root paths) d ∧
    final (copyPathF v e src root paths) d = final (copyPath e src root paths) d ∧
    (result (copyPathF v e src root paths) d = .ok () ↔ result (copyPath e src root paths) d = .ok ()) := by
  have hs : Sim (fun s => s = d) (Open v (OnWayTo (comps root) src paths)) Any (copyPath e src root paths) (copyPathF v e src root paths) := by
    unfold copyPath copyPathF
    simp only
    by_cases habs : isAbs (clean root) = true
    · rw [if_pos habs, if_pos habs]; exact sim_fail Iff.rfl (by rintro s rfl; exact h.dest)
    · rw [if_neg habs, if_neg habs]
      have habs : isAbs (clean root) = false := by simpa using habs
      -- what the first loop found
      have hg : Sim (fun s => s = d) (fun s => s = d) (fun l l' => l = l' ∧ l.map Prod.fst = paths.map clean ∧ ∀ x ∈ l, Found src x)
          (gather e src paths) (gather e src paths) := by
        rintro s rfl
        have h := (gather_holds (e := e) (src := src) (I := fun _ => True) (d0 := s) paths s rfl).2
        refine ⟨rfl, rfl, ?_, h.1⟩
        rcases hr : (gather e src paths s).2.2 with x | l
        · exact Iff.rfl
        · exact ⟨rfl, h.2 l hr⟩
      refine sim_bind hg ?_ (by rintro s rfl; exact h.dest)
      rintro l _ ⟨rfl, hmap, hfound⟩
      have hnames : ∀ {p : Str}, p ∈ paths → ∀ c ∈ comps p, c ≠ dotdot := by
        intro p hp c hc
        have : clean p ∈ l.map Prod.fst := by rw [hmap]; exact List.mem_map_of_mem hp
        obtain ⟨x, hx, he⟩ := List.mem_map.1 this
        exact isName_dotdot ((hfound x hx).1.2.2 c (by rw [he, comps_clean]; exact hc))
      let K : List Str → Prop := fun k => ∃ dd ∈ Tarfs.sortKeys (l.flatMap (fun x => parents (clean root) x.1)).eraseDups, k = comps dd
      have hdirs : Sim (fun s => s = d) (fun d' => Open v (OnWayTo (comps root) src paths) d' ∧ Within K d d') Any
          (makeDirs e src (clean root) (Tarfs.sortKeys (l.flatMap (fun x => parents (clean root) x.1)).eraseDups))
          (makeDirsF v e src (clean root) (Tarfs.sortKeys (l.flatMap (fun x => parents (clean root) x.1)).eraseDups)) := by
        refine sim_frame (I := fun _ => True) (sim_weaken (sim_makeDirs (A := OnWayTo (comps root) src paths) h.made _ ?_ ?_) (by rintro s rfl; exact h.dest) (fun _ h => h)) ?_
        · intro dd hdd _
          obtain ⟨p, hp, ent, hf, hE, hpre⟩ := dirs_places habs hmap hfound hdd
          exact way_dir h.root hp hf (hnames hp) hE hpre
        · intro dd hdd r ent hr hrd hs
          obtain ⟨p, hp, q, m, hq, hf, rfl⟩ := dirs_modes habs hmap hfound hdd hr hrd hs
          exact h.modes p hp q m hq hf
        · refine .weaken (keeps_makeDirs (K := K) (d0 := d) _ (fun dd hdd _ => ⟨dd, hdd, rfl⟩)) ?_ (fun _ _ => trivial) (fun _ _ h => h)
          rintro s rfl; exact Within.refl
      refine sim_bind hdirs (fun _ _ _ => ?_) (fun _ h => h.1)
      refine sim_weaken (sim_copyEntries (A := OnWayTo (comps root) src paths) h.made l ?_ ?_) ?_ (fun _ h => h)
      · intro x hx
        obtain ⟨p, hp, hc, hf, hj⟩ := entries_places (root := root) hmap hfound hx
        rw [hj]
        exact ⟨fine_path h.root hp hf (hnames hp), fun m hm => h.modes p hp _ m (List.prefix_refl _) (by rw [hf, hm])⟩
      · have : l.map (fun x => comps (join2 (clean root) x.1)) = (paths.map comps).map (fun q => comps root ++ q) := by
          have h1 : l.map (fun x => comps (join2 (clean root) x.1)) = (l.map Prod.fst).map (fun s => comps root ++ comps s) := by
            rw [List.map_map]
            apply List.map_congr_left
            intro x hx
            obtain ⟨p, hp, hc, hf, hj⟩ := entries_places (root := root) hmap hfound hx
            simp only [Function.comp, hj, hc]
          rw [h1, hmap, List.map_map, List.map_map]
          apply List.map_congr_left
          intro s _
          simp only [Function.comp, comps_clean]
        rw [this]
        exact List.Pairwise.map _ (fun a b hab hh => hab (List.append_cancel_left hh)) h.once
      · rintro d' ⟨g1, g2⟩
        refine ⟨g1, fun x hx m b he m' b' hd' => ?_⟩
        obtain ⟨p, hp, hc, hf, hj⟩ := entries_places (root := root) hmap hfound hx
        rw [hj] at hd'
        rw [g2] at hd'
        · exact h.files p hp m b (by rw [hf, he]) m' b' hd'
        · rintro ⟨dd, hdd, hk⟩
          obtain ⟨p', hp', ent, hf', hE, hpre⟩ := dirs_places habs hmap hfound hdd
          rw [← hk] at hE hpre
          obtain ⟨h1, h2⟩ := proper_of_dropLast hE hpre
          have h3 : comps p <+: comps p' := (List.prefix_append_right_inj (comps root)).1 h1
          obtain ⟨t, ht⟩ := h3
          cases t with
          | nil => rw [List.append_nil] at ht; exact h2 (by rw [ht])
          | cons c t =>
            rw [← ht] at hf'
            obtain ⟨m, hm⟩ := Node.find_above src _ c t hf'
            rw [hm, he] at hf
            cases hf
  obtain ⟨h1, h2, h3, _⟩ := hs d rfl
  refine ⟨h1, h2, ?_⟩
  unfold result
  cases hr : (copyPath e src root paths d).2.2 <;> cases hr' : (copyPathF v e src root paths d).2.2 <;> rw [hr, hr'] at h3 <;> simp_all [Alike]

end Verif.Fsutil.Copy
