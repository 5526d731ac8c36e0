import Verif.Fsutil.CopyProps
/-
C69: copying onto a destination that already holds something. `C32` is about an empty destination; here the destination is arbitrary.
-/
namespace Verif.Fsutil.Copy
open Verif.Path Verif.Prog

/-! ### specification -/

/-- Only the places of `K` changed. -/
def Within (K : List Str → Prop) (d0 d : Disk) : Prop := ∀ k, ¬ K k → d k = d0 k

/-- The place of a source path in the destination. -/
def Named (R : List Str) (n : Node) (k : List Str) : Prop := ∃ p ent, n.find p = some ent ∧ k = R ++ p

/-- What stands at a place after an entry was copied to it, when `old` stood there: a directory gets the masked mode, a file gets the content and, if it
is new, the masked mode, a link is made. Links that one side does not support and other types change nothing. -/
def Placed (e : Env) (ent : Ent) (old new : Option DEnt) : Prop :=
  match ent with
  | .dir m => new = some (.dir (e.mask m))
  | .file m b => (∀ m' b', old = some (.file m' b') → new = some (.file m' b)) ∧ (old = none → new = some (.file (e.umask (e.mask m)) b))
  | .link t => if e.links then old = none ∧ new = some (.link t) else new = old
  | .other => new = old

/-! ### only the named places change -/

theorem Within.refl {K : List Str → Prop} {d : Disk} : Within K d d := fun _ _ => rfl

theorem Within.set {K : List Str → Prop} {d0 d : Disk} {k : List Str} {v : DEnt} (hk : K k) (h : Within K d0 d) : Within K d0 (d.set k v) := by
  intro k' hk'
  rw [set_other (by rintro rfl; exact hk' hk)]
  exact h k' hk'

theorem Within.append {K : List Str → Prop} {d0 d : Disk} {k : List Str} {bs : Bytes} (hk : K k) (h : Within K d0 d) : Within K d0 (d.append k bs) := by
  unfold Disk.append
  split
  · exact h.set hk
  · exact h

/-- `I` is kept by every step. -/
def Keeps {α : Type} (I : Disk → Prop) (m : P α) : Prop := Holds I I m (fun _ => I)

theorem keeps_call {I : Disk → Prop} {e : Env} {op : Op} : Keeps I (call e op) := by
  unfold call
  exact .ite (fun _ => .fail fun _ h => h) (fun _ => .pure fun _ h => h)

theorem keeps_bind {α β : Type} {I : Disk → Prop} {m : P α} {f : α → P β} (h1 : Keeps I m) (h2 : ∀ a, Keeps I (f a)) : Keeps I (m >>= f) :=
  .bind (fun _ => I) h1 h2 (fun _ _ h => h)

theorem keeps_get {I : Disk → Prop} : Keeps I (Prog.get : P Disk) := .get fun _ h => h
theorem keeps_fail {α : Type} {I : Disk → Prop} {er : Err} : Keeps I (Prog.fail er : P α) := .fail fun _ h => h
theorem keeps_pure {α : Type} {I : Disk → Prop} {a : α} : Keeps I (Pure.pure a : P α) := .pure fun _ h => h
theorem keeps_modify {I : Disk → Prop} {f : Disk → Disk} (h : ∀ d, I d → I (f d)) : Keeps I (Prog.modify f : P Unit) := .modify h h

theorem keeps_needParent {I : Disk → Prop} {k : List Str} : Keeps I (needParent k) := by
  unfold needParent
  refine keeps_bind keeps_get (fun d => ?_)
  split
  · exact keeps_pure
  · exact keeps_fail
  · exact keeps_fail

section
variable {K : List Str → Prop} {d0 : Disk} {e : Env}

theorem keeps_mkdir {p : Str} {perm : Nat} (hk : K (comps p)) : Keeps (Within K d0) (mkdir e p perm) := by
  unfold mkdir
  refine keeps_bind keeps_call (fun _ => keeps_bind keeps_get (fun d => ?_))
  split
  · exact keeps_fail
  · exact keeps_bind keeps_needParent (fun _ => keeps_modify fun d h => h.set hk)

theorem keeps_chmod {p : Str} {mode : Nat} (hk : K (comps p)) : Keeps (Within K d0) (chmod e p mode) := by
  unfold chmod
  refine keeps_bind keeps_call (fun _ => keeps_bind keeps_get (fun d => ?_))
  split
  · exact keeps_fail
  · exact keeps_modify fun d h => h.set hk
  · exact keeps_modify fun d h => h.set hk
  · exact keeps_fail

theorem keeps_openDst {p : Str} {perm : Nat} (hk : K (comps p)) : Keeps (Within K d0) (openDst e p perm) := by
  unfold openDst
  refine keeps_bind keeps_call (fun _ => keeps_bind keeps_get (fun d => ?_))
  split
  · exact keeps_bind keeps_needParent (fun _ => keeps_modify fun d h => h.set hk)
  · exact keeps_modify fun d h => h.set hk
  · exact keeps_fail
  · exact keeps_fail

theorem keeps_symlink {t p : Str} (hk : K (comps p)) : Keeps (Within K d0) (symlink e t p) := by
  unfold symlink
  refine keeps_bind keeps_call (fun _ => keeps_bind keeps_get (fun d => ?_))
  split
  · exact keeps_fail
  · exact keeps_bind keeps_needParent (fun _ => keeps_modify fun d h => h.set hk)

theorem keeps_copyBytes {src : Str} {k : List Str} (hk : K k) : ∀ (ps : List Bytes) (i : Nat), Keeps (Within K d0) (copyBytes e src k i ps)
  | [], i => by unfold copyBytes; exact keeps_pure
  | b :: rest, i => by
    unfold copyBytes
    refine keeps_bind keeps_call (fun _ => ?_)
    split
    · exact keeps_bind (keeps_modify fun d h => h.append hk) (fun _ => keeps_fail)
    · exact keeps_bind (keeps_modify fun d h => h.append hk) (fun _ => keeps_copyBytes hk rest (i + 1))

theorem keeps_copyEntry {dst src : Str} (hk : K (comps dst)) : ∀ (ent : Ent), Keeps (Within K d0) (copyEntry e dst src ent)
  | .dir m => by
    unfold copyEntry mkdirOrExist
    refine keeps_bind (keeps_bind (.attempt (keeps_mkdir hk)) (fun r => ?_)) (fun _ => keeps_chmod hk)
    split
    · exact keeps_pure
    · exact keeps_fail
    · exact keeps_pure
  | .file m b => by
    unfold copyEntry
    exact keeps_bind keeps_call (fun _ => keeps_bind (keeps_openDst hk) (fun _ => keeps_copyBytes hk _ _))
  | .link t => by
    simp only [copyEntry]
    split
    · exact keeps_bind keeps_call (fun _ => keeps_symlink hk)
    · exact keeps_pure
  | .other => by unfold copyEntry; exact keeps_pure

theorem keeps_visit {root s : Str} {p : List Str} {ent : Ent} (hp : PathOf s p) (hk : K (comps root ++ p)) :
    Keeps (Within K d0) (visit e root s ent) := by
  unfold visit
  refine keeps_bind keeps_call (fun _ => keeps_copyEntry ?_ ent)
  rw [comps_dst hp.1 hp.2.1 (by rw [hp.2.2.1]; exact hp.2.2.2), hp.2.2.1]
  exact hk

theorem keeps_walkErr {I : Disk → Prop} {er : Err} : Keeps I (walkErr e er) := by
  unfold walkErr
  exact .ite (fun _ => keeps_pure) (fun _ => keeps_fail)

mutual
theorem keeps_walkNode {root : Str} : ∀ (n : Node) (s : Str) (p : List Str), n.WF → PathOf s p →
    (∀ x ∈ n.entries p, K (comps root ++ x.1)) → Keeps (Within K d0) (walkNode e root s n)
  | .mk ent kids, s, p, hwf, hp, hk => by
    unfold walkNode
    refine keeps_bind (keeps_visit hp (hk (p, ent) (by simp [Node.entries]))) (fun _ => ?_)
    cases ent with
    | dir m =>
      have hk' : ∀ x ∈ kids.entries p, K (comps root ++ x.1) := fun x hx => hk x (by simp [Node.entries, Ent.below, hx])
      exact .ite (fun _ => keeps_bind keeps_walkErr (fun _ => keeps_walkKids kids s p _ hwf hp hk')) (fun _ => keeps_walkKids kids s p _ hwf hp hk')
    | file _ _ => exact keeps_pure
    | link _ => exact keeps_pure
    | other => exact keeps_pure
theorem keeps_walkKids {root : Str} : ∀ (ks : Kids) (s : Str) (p : List Str) (lim : Option Nat), ks.WF → PathOf s p →
    (∀ x ∈ ks.entries p, K (comps root ++ x.1)) → Keeps (Within K d0) (walkKids e root s lim ks)
  | .nil, s, p, lim, _, _, _ => by
    cases lim <;> (unfold walkKids; exact keeps_pure)
  | .cons name n rest, s, p, lim, hwf, hp, hk => by
    obtain ⟨hname, _, hn, hrest⟩ := hwf
    have h1 : ∀ lim', Keeps (Within K d0) (do walkNode e root (join2 s name) n; walkKids e root s lim' rest) := fun lim' =>
      keeps_bind (keeps_walkNode n (join2 s name) (p ++ [name]) hn (pathOf_join hp hname) (fun x hx => hk x (by simp [Kids.entries, hx])))
        (fun _ => keeps_walkKids rest s p lim' hrest hp (fun x hx => hk x (by simp [Kids.entries, hx])))
    match lim with
    | none => simp only [walkKids]; exact h1 _
    | some 0 => simp only [walkKids]; exact keeps_pure
    | some (n + 1) => simp only [walkKids]; exact h1 _
end
end

mutual
theorem Node.entries_find (p : List Str) : ∀ n : Node, n.WF → ∀ x ∈ n.entries p, ∃ q, x.1 = p ++ q ∧ n.find q = some x.2
  | .mk ent kids, hwf, x, hx => by
    simp only [Node.entries, List.mem_cons] at hx
    rcases hx with rfl | hx
    · exact ⟨[], by simp, by rw [Node.find]⟩
    · cases ent with
      | dir m =>
        obtain ⟨c, q, h1, h2⟩ := Kids.entries_find p kids hwf x hx
        exact ⟨c :: q, h1, by rw [Node.find]; exact h2⟩
      | file _ _ => cases hx
      | link _ => cases hx
      | other => cases hx
theorem Kids.entries_find (p : List Str) : ∀ ks : Kids, ks.WF → ∀ x ∈ ks.entries p, ∃ c q, x.1 = p ++ c :: q ∧ ks.find c q = some x.2
  | .nil, _, x, hx => by cases hx
  | .cons name n rest, hwf, x, hx => by
    obtain ⟨_, hnot, hn, hrest⟩ := hwf
    simp only [Kids.entries, List.mem_append] at hx
    rcases hx with hx | hx
    · obtain ⟨q, h1, h2⟩ := Node.entries_find (p ++ [name]) n hn x hx
      exact ⟨name, q, by rw [h1]; simp, by rw [Kids.find, if_pos rfl]; exact h2⟩
    · obtain ⟨c, q, h1, h2⟩ := Kids.entries_find p rest hrest x hx
      obtain ⟨c', hc', hpre⟩ := Kids.entries_below p rest x hx
      have hcc : c' = c := by
        rw [h1] at hpre
        exact prefix_snoc_inj hpre (by simp)
      subst hcc
      exact ⟨c', q, h1, by rw [Kids.find, if_neg (by rintro rfl; exact hnot hc')]; exact h2⟩
end

/-- **C69** Whatever the destination holds, whatever fails, whichever errors are ignored, and wherever the process dies: a place that no entry of the source
names is as it was.
Missing from **C69**: the calls of this destination do not follow symlinks; for one whose calls do, see `C69_follow_only_named_partial` and the
counterexamples there. -/
theorem C69_only_named_partial (e : Env) (root : Str) (n : Node) (hwf : n.WF) (d : Disk) :
    (∀ t ∈ crashes (copyAll e root n) d, Within (Named (comps root) n) d t) ∧ Within (Named (comps root) n) d (final (copyAll e root n) d) := by
  have h : Keeps (Within (Named (comps root) n) d) (copyAll e root n) := by
    unfold copyAll
    refine .ite (fun _ => keeps_walkErr) (fun _ => ?_)
    refine keeps_walkNode n dot [] hwf ⟨by decide, by decide, by decide, by simp⟩ ?_
    intro x hx
    obtain ⟨q, h1, h2⟩ := Node.entries_find [] n hwf x hx
    exact ⟨q, x.2, h2, by rw [h1]; rfl⟩
  exact h d Within.refl

/-! ### what a successful copy leaves -/

/-- The new value at the place of an entry after its copy succeeded: as `Placed`, but a directory copied onto a file changes the mode of the file. -/
def over (e : Env) (ent : Ent) (old : Option DEnt) : Option DEnt :=
  match ent with
  | .dir m => match old with
    | some (.file _ b) => some (.file (e.mask m) b)
    | _ => some (.dir (e.mask m))
  | .file m b => match old with
    | some (.file m' _) => some (.file m' b)
    | _ => some (.file (e.umask (e.mask m)) b)
  | .link t => if e.links then some (.link t) else old
  | .other => old

def upd (d : Disk) (k : List Str) (v : Option DEnt) : Disk := fun k' => if k' = k then v else d k'

theorem upd_other {d : Disk} {k k' : List Str} {v : Option DEnt} (h : k' ≠ k) : upd d k v k' = d k' := by simp [upd, h]
theorem upd_self {d : Disk} {k : List Str} {v : Option DEnt} : upd d k v k = v := by simp [upd]
theorem upd_same {d : Disk} {k : List Str} : upd d k (d k) = d := by funext x; simp only [upd]; split <;> simp [*]
theorem set_eq_upd {d : Disk} {k : List Str} {v : DEnt} : d.set k v = upd d k (some v) := rfl

def overAll (e : Env) (R : List Str) (d : Disk) (l : List (List Str × Ent)) : Disk := l.foldl (fun d x => upd d (R ++ x.1) (over e x.2 (d (R ++ x.1)))) d

theorem overAll_append (e : Env) (R : List Str) (d : Disk) (a b : List (List Str × Ent)) : overAll e R d (a ++ b) = overAll e R (overAll e R d a) b := by
  simp [overAll]

/-- On success the state is `f d0`. -/
def Gives (m : P Unit) (d0 d1 : Disk) : Prop := result m d0 = .ok () → final m d0 = d1

theorem run_bind_ok {α β : Type} {m : P α} {f : α → P β} {d : Disk} {b : β} (h : result (m >>= f) d = .ok b) :
    ∃ a, result m d = .ok a ∧ result (f a) (final m d) = .ok b ∧ final (m >>= f) d = final (f a) (final m d) := by
  have hb : (m >>= f) d = Prog.bind m f d := rfl
  unfold result final at *
  rw [hb] at h ⊢
  unfold Prog.bind at h ⊢
  rcases hm : m d with ⟨t, s1, r⟩
  rw [hm] at h
  cases r with
  | error er => cases h
  | ok a => exact ⟨a, rfl, h, rfl⟩

theorem call_ok {e : Env} {op : Op} {d : Disk} {u : Unit} (_ : result (call e op) d = .ok u) : final (call e op) d = d := by
  unfold call
  split <;> rfl

theorem get_ok {d a : Disk} (h : result (Prog.get : P Disk) d = .ok a) : a = d := by cases h; rfl
theorem get_final {d : Disk} : final (Prog.get : P Disk) d = d := rfl

theorem needParent_final {k : List Str} {d : Disk} : final (needParent k) d = d := by
  unfold needParent final
  show (Prog.bind Prog.get _ d).2.1 = d
  unfold Prog.bind Prog.get
  simp only
  rcases d k.dropLast with _ | ⟨_ | _ | _⟩ <;> rfl

theorem parent_modify {k : List Str} {f : Disk → Disk} {d : Disk} (h : result (do needParent k; Prog.modify f : P Unit) d = .ok ()) :
    final (do needParent k; Prog.modify f : P Unit) d = f d := by
  obtain ⟨_, _, _, h3⟩ := run_bind_ok h
  rw [h3, needParent_final]
  rfl

theorem mkdir_result {e : Env} {p : Str} {perm : Nat} {d : Disk} :
    (result (mkdir e p perm) d = .ok () → d (comps p) = none ∧ final (mkdir e p perm) d = d.set (comps p) (.dir (e.umask perm))) ∧
    (result (mkdir e p perm) d = .error .exist → d (comps p) ≠ none ∧ final (mkdir e p perm) d = d) := by
  have hrun : mkdir e p perm d = if e.fail (.mkdir p) then ([], d, .error (.io (.mkdir p))) else
      match d (comps p) with
      | some _ => ([], d, .error .exist)
      | none => (do needParent (comps p); Prog.modify (fun d => d.set (comps p) (.dir (e.umask perm))) : P Unit) d := by
    cases hf : e.fail (.mkdir p)
    · cases hd : d (comps p) <;> simp [mkdir, call, hf, hd, Bind.bind, Prog.bind, Prog.get, Pure.pure, Prog.pure, Prog.fail]
    · simp [mkdir, call, hf, Bind.bind, Prog.bind, Prog.fail]
  unfold result final
  rw [hrun]
  split
  · exact ⟨fun h => (by cases h), fun h => (by cases h)⟩
  · split
    · rename_i v hv
      rw [hv]
      exact ⟨fun h => (by cases h), fun _ => ⟨by simp, rfl⟩⟩
    · rename_i hv
      refine ⟨fun h => ⟨hv, parent_modify h⟩, fun h => ?_⟩
      exfalso
      have : ∀ k (f : Disk → Disk), ((do needParent k; Prog.modify f : P Unit) d).2.2 ≠ .error .exist := by
        intro k f
        rcases hd : d k.dropLast with _ | ⟨_ | _ | _⟩ <;>
          simp [needParent, hd, Bind.bind, Prog.bind, Prog.get, Pure.pure, Prog.pure, Prog.fail, Prog.modify]
      exact this _ _ h

theorem chmod_gives {e : Env} {p : Str} {mode : Nat} {d : Disk} (h : result (chmod e p mode) d = .ok ()) :
    (∃ m, d (comps p) = some (.dir m) ∧ final (chmod e p mode) d = d.set (comps p) (.dir mode)) ∨
    (∃ m b, d (comps p) = some (.file m b) ∧ final (chmod e p mode) d = d.set (comps p) (.file mode b)) := by
  unfold chmod at h ⊢
  obtain ⟨_, h1, h2, h3⟩ := run_bind_ok h
  rw [call_ok h1] at h2 h3
  obtain ⟨a, h4, h5, h6⟩ := run_bind_ok h2
  cases get_ok h4
  rw [get_final] at h5 h6
  rw [h3, h6]
  split at h5
  · cases h5
  · rename_i m hm; left; exact ⟨m, hm, rfl⟩
  · rename_i m b hm; right; exact ⟨m, b, hm, rfl⟩
  · cases h5

theorem openDst_gives {e : Env} {p : Str} {perm : Nat} {d : Disk} (h : result (openDst e p perm) d = .ok ()) :
    (d (comps p) = none ∧ final (openDst e p perm) d = d.set (comps p) (.file (e.umask perm) [])) ∨
    (∃ m b, d (comps p) = some (.file m b) ∧ final (openDst e p perm) d = d.set (comps p) (.file m [])) := by
  unfold openDst at h ⊢
  obtain ⟨_, h1, h2, h3⟩ := run_bind_ok h
  rw [call_ok h1] at h2 h3
  obtain ⟨a, h4, h5, h6⟩ := run_bind_ok h2
  cases get_ok h4
  rw [get_final] at h5 h6
  rw [h3, h6]
  split at h5
  · rename_i hm; left; refine ⟨hm, ?_⟩; exact parent_modify h5
  · rename_i m b hm; right; exact ⟨m, b, hm, rfl⟩
  · cases h5
  · cases h5

theorem symlink_gives {e : Env} {t p : Str} {d : Disk} (h : result (symlink e t p) d = .ok ()) :
    d (comps p) = none ∧ final (symlink e t p) d = d.set (comps p) (.link t) := by
  unfold symlink at h ⊢
  obtain ⟨_, h1, h2, h3⟩ := run_bind_ok h
  rw [call_ok h1] at h2 h3
  obtain ⟨a, h4, h5, h6⟩ := run_bind_ok h2
  cases get_ok h4
  rw [get_final] at h5 h6
  rw [h3, h6]
  split at h5
  · cases h5
  · rename_i hm; refine ⟨hm, ?_⟩; exact parent_modify h5

theorem copyBytes_gives {e : Env} {src : Str} {k : List Str} {m : Nat} {d0 : Disk} : ∀ (ps : List Bytes) (i : Nat) (c : Bytes),
    Gives (copyBytes e src k i ps) (d0.set k (.file m c)) (d0.set k (.file m (c ++ ps.flatten))) := by
  intro ps i c h
  have := (copyBytes_holds (e := e) (src := src) (k := k) (m := m) (d0 := d0) ps i c _ rfl _ rfl).2.2.1
  exact this h

/-- What a successful copy of one entry has found and done. -/
theorem copyEntry_gives {e : Env} {dst src : Str} {ent : Ent} {d : Disk} (h : result (copyEntry e dst src ent) d = .ok ()) :
    final (copyEntry e dst src ent) d = upd d (comps dst) (over e ent (d (comps dst))) ∧
    (∀ t, ent = .link t → e.links = true → d (comps dst) = none) := by
  cases ent with
  | dir m =>
    refine ⟨?_, fun t ht => by cases ht⟩
    unfold copyEntry at h ⊢
    obtain ⟨_, h1, h2, h3⟩ := run_bind_ok h
    rw [h3]
    have key : final (mkdirOrExist e dst) d = d ∧ d (comps dst) ≠ none ∨
        d (comps dst) = none ∧ final (mkdirOrExist e dst) d = d.set (comps dst) (.dir (e.umask modePerm)) := by
      unfold mkdirOrExist at h1 ⊢
      obtain ⟨r, h4, h5, h6⟩ := run_bind_ok h1
      have hr : r = result (mkdir e dst modePerm) d := by
        unfold result Prog.attempt at h4
        cases h4; rfl
      have hf : final (Prog.attempt (mkdir e dst modePerm)) d = final (mkdir e dst modePerm) d := rfl
      rw [h6, hf]
      split at h5
      · left
        obtain ⟨h7, h8⟩ := mkdir_result.2 hr.symm
        exact ⟨h8, h7⟩
      · cases h5
      · right
        exact mkdir_result.1 hr.symm
    rcases key with ⟨k1, k2⟩ | ⟨k1, k2⟩
    · rw [k1] at h2 ⊢
      rcases chmod_gives h2 with ⟨m', h4, h5⟩ | ⟨m', b, h4, h5⟩
      · rw [h5, h4]; rfl
      · rw [h5, h4]; rfl
    · rw [k2] at h2 ⊢
      rcases chmod_gives h2 with ⟨m', h4, h5⟩ | ⟨m', b, h4, h5⟩
      · rw [h5, k1, set_set]; rfl
      · rw [set_self] at h4; cases h4
  | file m b =>
    refine ⟨?_, fun t ht => by cases ht⟩
    unfold copyEntry at h ⊢
    obtain ⟨_, h1, h2, h3⟩ := run_bind_ok h
    rw [call_ok h1] at h2 h3
    obtain ⟨_, h4, h5, h6⟩ := run_bind_ok h2
    rw [h3, h6]
    rcases openDst_gives h4 with ⟨k1, k2⟩ | ⟨m', b', k1, k2⟩
    · rw [k2] at h5 ⊢
      rw [copyBytes_gives _ _ _ h5, k1, pieces_flatten]; rfl
    · rw [k2] at h5 ⊢
      rw [copyBytes_gives _ _ _ h5, k1, pieces_flatten]; rfl
  | link t =>
    by_cases hl : e.links = true
    · simp only [copyEntry, hl, if_true] at h ⊢
      obtain ⟨_, h1, h2, h3⟩ := run_bind_ok h
      rw [call_ok h1] at h2 h3
      obtain ⟨h4, h5⟩ := symlink_gives h2
      refine ⟨?_, fun _ _ _ => h4⟩
      rw [h3, h5]
      simp only [over, hl, if_true]
      rfl
    · refine ⟨?_, fun _ _ h' => absurd h' hl⟩
      simp only [copyEntry, hl, over]
      exact upd_same.symm
  | other =>
    refine ⟨?_, fun t ht => by cases ht⟩
    unfold copyEntry
    exact upd_same.symm

/-- No link of the source has something at its place. -/
def LinksFree (e : Env) (R : List Str) (d : Disk) (l : List (List Str × Ent)) : Prop :=
  ∀ l1 x l2 t, l = l1 ++ x :: l2 → x.2 = .link t → e.links = true → overAll e R d l1 (R ++ x.1) = none

theorem linksFree_append {e : Env} {R : List Str} {d : Disk} {a b : List (List Str × Ent)} (h1 : LinksFree e R d a) (h2 : LinksFree e R (overAll e R d a) b) :
    LinksFree e R d (a ++ b) := by
  intro l1 x l2 t h hx hl
  rcases List.append_eq_append_iff.1 h with ⟨c, hc1, hc2⟩ | ⟨c, hc1, hc2⟩
  · rw [hc1, overAll_append]
    exact h2 c x l2 t hc2 hx hl
  · cases c with
    | nil =>
      simp only [List.append_nil] at hc1
      subst hc1
      exact h2 [] x l2 t (by simpa using hc2.symm) hx hl
    | cons y c =>
      simp only [List.cons_append, List.cons.injEq] at hc2
      obtain ⟨rfl, _⟩ := hc2
      exact h1 l1 x c t hc1 hx hl

theorem visit_gives {e : Env} {root s : Str} {p : List Str} {ent : Ent} {d : Disk} (hp : PathOf s p) (h : result (visit e root s ent) d = .ok ()) :
    final (visit e root s ent) d = overAll e (comps root) d [(p, ent)] ∧ LinksFree e (comps root) d [(p, ent)] := by
  unfold visit at h ⊢
  obtain ⟨_, h1, h2, h3⟩ := run_bind_ok h
  rw [call_ok h1] at h2 h3
  have hk : comps (join2 root s) = comps root ++ p := by
    rw [comps_dst hp.1 hp.2.1 (by rw [hp.2.2.1]; exact hp.2.2.2), hp.2.2.1]
  obtain ⟨h4, h5⟩ := copyEntry_gives h2
  rw [hk] at h4 h5
  refine ⟨by rw [h3, h4]; rfl, ?_⟩
  intro l1 x l2 t he hx hl
  cases l1 with
  | nil =>
    simp only [List.nil_append, List.cons.injEq] at he
    obtain ⟨rfl, _⟩ := he
    exact h5 t hx hl
  | cons _ l1 =>
    have := congrArg List.length he
    simp at this

mutual
theorem walkNode_gives {e : Env} (hig : ∀ er, e.ignore er = false) {root : Str} : ∀ (n : Node) (s : Str) (p : List Str) (d : Disk), n.WF → PathOf s p →
    result (walkNode e root s n) d = .ok () →
    final (walkNode e root s n) d = overAll e (comps root) d (n.entries p) ∧ LinksFree e (comps root) d (n.entries p)
  | .mk ent kids, s, p, d, hwf, hp, h => by
    unfold walkNode at h ⊢
    have hent : (Node.mk ent kids).entries p = [(p, ent)] ++ ent.below (kids.entries p) := by rw [Node.entries]; rfl
    rw [hent, overAll_append]
    obtain ⟨_, h1, h2, h3⟩ := run_bind_ok h
    obtain ⟨h4, h5⟩ := visit_gives hp h1
    rw [h4] at h2 h3
    rw [h3]
    cases ent with
    | dir m =>
      simp only at h2 ⊢
      by_cases hf : e.fail (.readDir s) = true
      · rw [if_pos hf] at h2
        obtain ⟨_, h6, _⟩ := run_bind_ok h2
        unfold walkErr at h6
        rw [hig] at h6
        cases h6
      · rw [if_neg hf] at h2 ⊢
        obtain ⟨h6, h7⟩ := walkKids_gives hig kids s p _ hwf hp h2
        exact ⟨h6, linksFree_append h5 h7⟩
    | file m b => exact ⟨rfl, by simpa [Ent.below] using h5⟩
    | link t => exact ⟨rfl, by simpa [Ent.below] using h5⟩
    | other => exact ⟨rfl, by simpa [Ent.below] using h5⟩
theorem walkKids_gives {e : Env} (hig : ∀ er, e.ignore er = false) {root : Str} : ∀ (ks : Kids) (s : Str) (p : List Str) (d : Disk), ks.WF → PathOf s p →
    result (walkKids e root s none ks) d = .ok () →
    final (walkKids e root s none ks) d = overAll e (comps root) d (ks.entries p) ∧ LinksFree e (comps root) d (ks.entries p)
  | .nil, s, p, d, _, _, h => by
    unfold walkKids
    refine ⟨rfl, ?_⟩
    intro l1 x l2 t he
    cases l1 <;> cases he
  | .cons name n rest, s, p, d, hwf, hp, h => by
    obtain ⟨hname, hnot, hn, hrest⟩ := hwf
    unfold walkKids at h ⊢
    rw [Kids.entries, overAll_append]
    obtain ⟨_, h1, h2, h3⟩ := run_bind_ok h
    obtain ⟨h4, h5⟩ := walkNode_gives hig n (join2 s name) (p ++ [name]) d hn (pathOf_join hp hname) h1
    rw [h4] at h2 h3
    obtain ⟨h6, h7⟩ := walkKids_gives hig rest s p _ hrest hp h2
    exact ⟨by rw [h3]; exact h6, linksFree_append h5 h7⟩
end

theorem overAll_other {e : Env} {R k : List Str} : ∀ {l : List (List Str × Ent)} {d : Disk}, (∀ x ∈ l, R ++ x.1 ≠ k) → overAll e R d l k = d k := by
  intro l
  induction l with
  | nil => intro d _; rfl
  | cons x l ih =>
    intro d h
    show overAll e R (upd d (R ++ x.1) _) l k = d k
    rw [ih (fun y hy => h y (by simp [hy])), upd_other (fun h' => h x (by simp) h'.symm)]

mutual
theorem Node.entries_distinct (p : List Str) : ∀ n : Node, n.WF → (n.entries p).Pairwise (fun x y => x.1 ≠ y.1)
  | .mk ent kids, hwf => by
    rw [Node.entries, List.pairwise_cons]
    cases ent with
    | dir m =>
      refine ⟨?_, Kids.entries_distinct p kids hwf⟩
      intro y hy h
      obtain ⟨c, _, h2⟩ := Kids.entries_below p kids y hy
      have := h2.length_le
      rw [← h] at this
      simp at this
      omega
    | file _ _ => exact ⟨fun y hy => (by cases hy), List.Pairwise.nil⟩
    | link _ => exact ⟨fun y hy => (by cases hy), List.Pairwise.nil⟩
    | other => exact ⟨fun y hy => (by cases hy), List.Pairwise.nil⟩
theorem Kids.entries_distinct (p : List Str) : ∀ ks : Kids, ks.WF → (ks.entries p).Pairwise (fun x y => x.1 ≠ y.1)
  | .nil, _ => .nil
  | .cons name n rest, hwf => by
    obtain ⟨_, hnot, hn, hrest⟩ := hwf
    rw [Kids.entries, List.pairwise_append]
    refine ⟨Node.entries_distinct _ n hn, Kids.entries_distinct p rest hrest, ?_⟩
    intro x hx y hy h
    have h1 := Node.entries_below _ n x hx
    obtain ⟨c, hc, h2⟩ := Kids.entries_below p rest y hy
    rw [h] at h1
    have := prefix_snoc_inj h1 h2
    subst this
    exact hnot hc
end

theorem Node.find_entries (p : List Str) (n : Node) {q : List Str} {ent : Ent} (h : n.find q = some ent) : (p ++ q, ent) ∈ n.entries p := by
  have key : ∀ (k : Nat), (∀ (n : Node) (p q : List Str), q.length ≤ k → n.find q = some ent → (p ++ q, ent) ∈ n.entries p) := by
    intro k
    induction k with
    | zero =>
      intro n p q hq h
      have : q = [] := by cases q with | nil => rfl | cons _ _ => simp at hq
      subst this
      rcases n with ⟨en, kids⟩
      rw [Node.find] at h
      cases h
      simp [Node.entries]
    | succ k ih =>
      intro n p q hq h
      rcases n with ⟨en, kids⟩
      cases q with
      | nil =>
        rw [Node.find] at h
        cases h
        simp [Node.entries]
      | cons c q =>
        cases en with
        | dir m =>
          rw [Node.find] at h
          rw [Node.entries]
          refine List.mem_cons_of_mem _ ?_
          show _ ∈ kids.entries p
          have hk : ∀ ks : Kids, ks.find c q = some ent → (p ++ c :: q, ent) ∈ ks.entries p := by
            intro ks
            induction ks using Kids.rec (motive_1 := fun _ => True) with
            | mk => trivial
            | nil => intro h; rw [Kids.find] at h; cases h
            | cons name n' rest _ ih2 =>
              intro h'
              rw [Kids.find] at h'
              rw [Kids.entries]
              by_cases hc : name = c
              · rw [if_pos hc] at h'
                have := ih n' (p ++ [name]) q (by simpa using hq) h'
                rw [hc] at this ⊢
                exact List.mem_append_left _ (by simpa using this)
              · rw [if_neg hc] at h'
                exact List.mem_append_right _ (ih2 h')
          exact hk kids h
        | file _ _ => simp [Node.find] at h
        | link _ => simp [Node.find] at h
        | other => simp [Node.find] at h
  exact key q.length n p q (Nat.le_refl _) h

/-- **C69** When the copy succeeds onto any destination, and no file of the destination stands where the source has a directory: every directory of the
source is there with the masked mode, every file of the source has the source's content (and the mode it had, if it existed), every link was free and is
made; what the source does not name is as it was.
Missing from **C69**: a file in the place of a directory, see the counterexample. -/
theorem C69_overwrites_partial (e : Env) (hig : ∀ er, e.ignore er = false) (root : Str) (n : Node) (hwf : n.WF) (d : Disk)
    (hclash : ∀ p m, n.find p = some (.dir m) → ∀ m' b, d (comps root ++ p) ≠ some (.file m' b))
    (hok : result (copyAll e root n) d = .ok ()) :
    (∀ p ent, n.find p = some ent → Placed e ent (d (comps root ++ p)) (final (copyAll e root n) d (comps root ++ p))) ∧
    (∀ k, ¬ Named (comps root) n k → final (copyAll e root n) d k = d k) := by
  refine ⟨?_, (C69_only_named_partial e root n hwf d).2⟩
  have h0 : result (walkNode e root dot n) d = .ok () ∧ final (copyAll e root n) d = final (walkNode e root dot n) d := by
    unfold copyAll at hok ⊢
    by_cases hf : e.fail .statRoot = true
    · rw [if_pos hf] at hok
      unfold walkErr at hok
      rw [hig] at hok
      cases hok
    · rw [if_neg hf] at hok ⊢
      exact ⟨hok, rfl⟩
  obtain ⟨h1, h2⟩ := walkNode_gives hig n dot [] d hwf ⟨by decide, by decide, by decide, by simp⟩ h0.1
  rw [h0.2, h1]
  intro p ent hf
  have hmem := Node.find_entries [] n hf
  rw [List.nil_append] at hmem
  obtain ⟨l1, l2, hl⟩ := List.append_of_mem hmem
  have hdist := Node.entries_distinct [] n hwf
  rw [hl, List.pairwise_append, List.pairwise_cons] at hdist
  have hfirst : overAll e (comps root) d l1 (comps root ++ p) = d (comps root ++ p) := by
    refine overAll_other ?_
    intro x hx h
    exact hdist.2.2 x hx (p, ent) (by simp) (List.append_cancel_left h)
  have hval : overAll e (comps root) d (n.entries []) (comps root ++ p) = over e ent (d (comps root ++ p)) := by
    rw [hl, overAll_append]
    show overAll e (comps root) (upd _ _ _) l2 _ = _
    rw [overAll_other, upd_self, hfirst]
    intro x hx h
    exact hdist.2.1.1 x hx (List.append_cancel_left h).symm
  rw [hval]
  cases ent with
  | dir m =>
    show over e (.dir m) _ = some (.dir (e.mask m))
    have := hclash p m hf
    unfold over
    rcases hd : d (comps root ++ p) with _ | ⟨_ | _ | _⟩
    · rfl
    · rfl
    · exact absurd hd (this _ _)
    · rfl
  | file m b =>
    refine ⟨?_, ?_⟩
    · intro m' b' h; rw [h]; rfl
    · intro h; rw [h]; rfl
  | link t =>
    show if e.links = true then _ else _
    by_cases hl' : e.links = true
    · rw [if_pos hl']
      have := h2 l1 (p, .link t) l2 t hl rfl hl'
      rw [hfirst] at this
      exact ⟨this, by simp [over, hl']⟩
    · rw [if_neg hl']
      simp [over, hl']
  | other => rfl

/-! ### the hypotheses are met, and the counterexample -/

/-- A destination with an older file "f", a file "other" and a directory "s". -/
def olderDisk : Disk := fun k =>
  if k = [] then some (.dir 511) else if k = [['f']] then some (.file 384 [9, 9, 9, 9, 9]) else if k = [['o']] then some (.file 420 [7])
  else if k = [['s']] then some (.dir 511) else none

example : result (copyAll demoEnv dot demoSrc) olderDisk = .ok () ∧ final (copyAll demoEnv dot demoSrc) olderDisk [['f']] = some (.file 384 [1, 2, 3]) ∧
    final (copyAll demoEnv dot demoSrc) olderDisk [['o']] = some (.file 420 [7]) ∧ final (copyAll demoEnv dot demoSrc) olderDisk [['s']] = some (.dir 448) := by
  refine ⟨by rfl, by rfl, by rfl, by rfl⟩

/-- A failing copy (the link exists) leaves what the source does not name. -/
example : result (copyAll demoEnv dot demoSrc) (olderDisk.set [['s'], ['l']] (.link ['y'])) = .error .exist ∧
    final (copyAll demoEnv dot demoSrc) (olderDisk.set [['s'], ['l']] (.link ['y'])) [['s'], ['l']] = some (.link ['y']) := by
  refine ⟨by rfl, by rfl⟩

/-- An empty directory copied onto a file: the copy succeeds, the file stays a file and gets the mode of the directory. -/
theorem C69_counterexample_dir_onto_file :
    let src : Node := .mk (.dir 493) (.cons ['f'] (.mk (.dir 448) .nil) .nil)
    result (copyAll demoEnv dot src) olderDisk = .ok () ∧ final (copyAll demoEnv dot src) olderDisk [['f']] = some (.file 448 [9, 9, 9, 9, 9]) := by
  refine ⟨by rfl, by rfl⟩

end Verif.Fsutil.Copy
