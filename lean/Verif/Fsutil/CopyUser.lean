import Verif.Fsutil.CopyFollowSame
/-
C69, C70, C118: what a copy leaves in a destination that follows symlinks and denies access.
-/
namespace Verif.Fsutil.Copy
open Verif.Path Verif.Prog

/-- **C69** The destination follows symlinks and denies access, and what `Ordinary` says holds of it. When the copy succeeds, and no file of the destination
stands where the source has a directory: every entry of the source is at its place, as `Placed` says, and what the source does not name is as it was.
Missing from **C69**: symlinks on the way, and a file in the place of a directory; see the counterexamples. -/
theorem C69_follow_overwrites_partial (v : View) (e : Env) (hig : ∀ er, e.ignore er = false) (root : Str) (n : Node) (hwf : n.WF) (d : Disk)
    (ho : Ordinary v e (comps root) n d)
    (hclash : ∀ p m, n.find p = some (.dir m) → ∀ m' b, d (comps root ++ p) ≠ some (.file m' b))
    (hok : result (copyAllF v e root n) d = .ok ()) :
    (∀ p ent, n.find p = some ent → Placed e ent (d (comps root ++ p)) (final (copyAllF v e root n) d (comps root ++ p))) ∧
    (∀ k, ¬ Named (comps root) n k → final (copyAllF v e root n) d k = d k) := by
  obtain ⟨_, h2, h3⟩ := copyAllF_same hwf ho
  rw [h2]
  exact C69_overwrites_partial e hig root n hwf d hclash (h3.1 hok)

/-- **C70** As `C70_copies_partial`, for a destination that follows symlinks and denies access, if what `OrdinaryTo` says holds.
Missing from **C70**: as there, and symlinks on the way. -/
theorem C70_follow_copies_partial (v : View) (e : Env) (src : Node) (root : Str) (paths : List Str) (d : Disk)
    (ho : OrdinaryTo v e (comps root) src paths d) (hsrc : ∃ m, src.find [] = some (.dir m))
    (hclash : ∀ q m, src.find q = some (.dir m) → ∀ m' b, d (comps root ++ q) ≠ some (.file m' b))
    (hok : result (copyPathF v e src root paths) d = .ok ()) :
    ∀ p ∈ paths,
      (∃ ent, src.find (comps p) = some ent ∧
        Placed e ent (d (comps root ++ comps p)) (final (copyPathF v e src root paths) d (comps root ++ comps p))) ∧
      ∀ q, q ≠ [] → q <+: comps p → q ≠ comps p →
        ∃ m, src.find q = some (.dir m) ∧ final (copyPathF v e src root paths) d (comps root ++ q) = some (.dir (e.mask m)) := by
  obtain ⟨_, h2, h3⟩ := copyPathF_same ho
  rw [h2]
  exact C70_copies_partial e src root paths d hsrc hclash (h3.1 hok)

/-- **C118** A user copies a tree into an empty place of a destination, no call fails for another reason, no symlink is on the way, and the directories on it
are the user's to use. If every directory of the source lets its owner write and search (after masking), the copy succeeds; every entry of the source has its
copy, nothing else is there, and nothing outside has changed. The modes of files do not matter.
Missing from **C118**: a source with a directory that does not let its owner write, see the counterexample. -/
theorem C118_copyAll_partial (v : View) (e : Env) (hig : ∀ er, e.ignore er = false) (hf : ∀ op, e.fail op = false) (hw : ∀ p i, e.wr p i = none)
    (root : Str) (hR : ∀ c ∈ comps root, c ≠ dotdot) (m : Nat) (kids : Kids) (hwf : (Node.mk (.dir m) kids).WF) (d : Disk)
    (hr : Ready (comps root) d) (htree : Tree d)
    (hway : ∀ k, k <+: comps root → NoLink d k ∧ ∀ m, d k = some (.dir m) → v.useable m)
    (hum : v.useable (e.umask modePerm))
    (hmodes : ∀ p m', (Node.mk (.dir m) kids).find p = some (.dir m') → v.useable (e.mask m')) :
    result (copyAllF v e root (.mk (.dir m) kids)) d = .ok () ∧
    (∀ p, final (copyAllF v e root (.mk (.dir m) kids)) d (comps root ++ p) = ((Node.mk (.dir m) kids).find p).bind (copyOf e)) ∧
    (∀ k, ¬ comps root <+: k → final (copyAllF v e root (.mk (.dir m) kids)) d k = d k) := by
  have ho : Ordinary v e (comps root) (.mk (.dir m) kids) d := by
    have hk : ∀ k, OnWay (comps root) (.mk (.dir m) kids) k → k <+: comps root ∨ d k = none := by
      rintro k ⟨p, ent, _, hpre, _⟩
      rcases prefix_append_cases hpre with h | ⟨q, hq, _, rfl⟩
      · exact Or.inl h
      · exact Or.inr (hr.2 q hq)
    refine ⟨hR, ⟨htree, ?_, ?_⟩, hum, hmodes, ?_⟩
    · intro k hA t
      rcases hk k hA with h | h
      · exact (hway k h).1 t
      · rw [h]; simp
    · intro k m' hA hd
      rcases hk k hA with h | h
      · exact (hway k h).2 m' hd
      · rw [h] at hd; cases hd
    · intro p m' b hp m'' b' hd
      cases p with
      | nil => rw [Node.find] at hp; cases hp
      | cons c p => rw [hr.2 (c :: p) (by simp)] at hd; cases hd
  obtain ⟨_, h2, h3⟩ := copyAllF_same hwf ho
  have hok := C32_succeeds e hig hf hw root m kids hwf d hr
  have := C32_reproduces e hig root m kids hwf d hr hok
  exact ⟨h3.2 hok, by rw [h2]; exact this.1, by rw [h2]; exact this.2⟩

/-- **C118** The same for `CopyPath`: it succeeds if the directories above the named entries let their owner write and search, and the entries fit.
Missing from **C118**: as above. -/
theorem C118_copyPath_partial (v : View) (e : Env) (hf : ∀ op, e.fail op = false) (hw : ∀ p i, e.wr p i = none) (src : Node) (root : Str)
    (paths : List Str) (d : Disk) (ho : OrdinaryTo v e (comps root) src paths d)
    (habs : isAbs root = false) (hR : comps root = [] ∨ ∃ r, IsName r ∧ comps root = [r])
    (hpaths : ∀ p ∈ paths, isAbs p = false ∧ (∀ c ∈ comps p, IsName c) ∧ src.find (comps p) ≠ none)
    (h0 : isDirAt d [])
    (habove : ∀ p ∈ paths, ∀ k, k <+: comps root ++ comps p → k ≠ comps root ++ comps p → d k = none ∨ isDirAt d k)
    (hfit : ∀ p ∈ paths, ∀ ent, src.find (comps p) = some ent → Fits ent (d (comps root ++ comps p))) :
    result (copyPathF v e src root paths) d = .ok () :=
  (copyPathF_same ho).2.2.2 (C70_succeeds e hf hw src root paths d habs hR hpaths ho.once h0 habove hfit)

/-! ### the hypotheses are met, and the counterexample -/

/-- An ordinary user copies into the empty destination; the file of the source is read-only. -/
def lockedFileSrc : Node := .mk (.dir 493) (.cons ['f'] (.mk (.file 292 [1, 2, 3]) .nil) (.cons ['s'] (.mk (.dir 448) (.cons ['l'] (.mk (.link ['x']) .nil) .nil)) .nil))

theorem lockedFileSrc_wf : lockedFileSrc.WF := by
  simp only [lockedFileSrc, Node.WF, Kids.WF, Kids.names, and_true, true_and]
  decide

theorem lockedFileSrc_modes : ∀ p m', lockedFileSrc.find p = some (.dir m') → userView.useable (demoEnv.mask m') := by
  intro p m' h
  have := Node.find_entries [] lockedFileSrc h
  simp [lockedFileSrc, Node.entries, Kids.entries, Ent.below] at this
  rcases this with ⟨_, rfl⟩ | ⟨_, rfl⟩
  · exact ⟨by decide, by decide⟩
  · exact ⟨by decide, by decide⟩

theorem emptyDisk_tree : Tree emptyDisk := by
  intro k c h
  simp [emptyDisk] at h

example : result (copyAllF userView demoEnv dot lockedFileSrc) emptyDisk = .ok () ∧
    final (copyAllF userView demoEnv dot lockedFileSrc) emptyDisk [['f']] = some (.file 292 [1, 2, 3]) := by
  have hc : comps dot = [] := by decide
  obtain ⟨h1, h2, _⟩ := C118_copyAll_partial userView demoEnv (fun _ => rfl) (fun _ => rfl) (fun _ _ => rfl) dot (by decide) _ _ lockedFileSrc_wf emptyDisk
    (by rw [hc]; exact ⟨Or.inr ⟨511, rfl⟩, fun q hq => by simp [emptyDisk, hq]⟩) emptyDisk_tree
    (by
      intro k hk
      rw [hc] at hk
      obtain rfl := List.prefix_nil.1 hk
      exact ⟨fun t h => by simp [emptyDisk] at h, fun m h => by simp [emptyDisk] at h; subst h; exact ⟨by decide, by decide⟩⟩)
    ⟨by decide, by decide⟩ lockedFileSrc_modes
  refine ⟨h1, ?_⟩
  have := h2 [['f']]
  rw [hc, List.nil_append] at this
  exact this

/-- The hypotheses of the second part are met by the file "f" of that source. -/
example : result (copyPathF userView demoEnv lockedFileSrc dot [['f'], ['s', '/', 'l']]) emptyDisk = .ok () ∧
    final (copyPathF userView demoEnv lockedFileSrc dot [['f'], ['s', '/', 'l']]) emptyDisk [['s'], ['l']] = some (.link ['x']) := by
  have hc : comps dot = [] := by decide
  have ho : OrdinaryTo userView demoEnv (comps dot) lockedFileSrc [['f'], ['s', '/', 'l']] emptyDisk := by
    refine ⟨by decide, ⟨emptyDisk_tree, ?_, ?_⟩, ⟨by decide, by decide⟩, fun p _ q m _ h => lockedFileSrc_modes q m h, ?_, by decide⟩
    · intro k _ t; unfold emptyDisk; split <;> simp
    · intro k m _ h
      unfold emptyDisk at h
      split at h
      · cases h; exact ⟨by decide, by decide⟩
      · cases h
    · intro p _ m b _ m' b' h
      unfold emptyDisk at h
      split at h <;> cases h
  refine ⟨C118_copyPath_partial userView demoEnv (fun _ => rfl) (fun _ _ => rfl) _ _ _ _ ho rfl (Or.inl hc) ?_ ⟨511, rfl⟩ ?_ ?_, by decide +kernel⟩
  · intro p hp
    simp only [List.mem_cons, List.not_mem_nil, or_false] at hp
    rcases hp with rfl | rfl
    · exact ⟨rfl, by decide, by decide⟩
    · exact ⟨rfl, by decide, by decide⟩
  · intro p _ k _ _
    unfold emptyDisk
    by_cases hk : k = []
    · exact Or.inr ⟨511, by simp [hk]⟩
    · exact Or.inl (by simp [hk])
  · intro p hp ent he
    simp only [List.mem_cons, List.not_mem_nil, or_false] at hp
    rcases hp with rfl | rfl
    · have : ent = .file 292 [1, 2, 3] := by
        have h : lockedFileSrc.find (comps ['f']) = some (.file 292 [1, 2, 3]) := by decide
        rw [h] at he; exact (Option.some.inj he).symm
      subst this
      have h2 : comps ['f'] = [['f']] := by decide
      simp [Fits, hc, h2, emptyDisk]
    · have : ent = .link ['x'] := by
        have h : lockedFileSrc.find (comps ['s', '/', 'l']) = some (.link ['x']) := by decide
        rw [h] at he; exact (Option.some.inj he).symm
      subst this
      have h2 : comps ['s', '/', 'l'] = [['s'], ['l']] := by decide
      simp [Fits, hc, h2, emptyDisk]

/-- **C118** fails for a directory that its owner may not write, with a file in it: the directory gets its mode before the file is made, which is then denied.
The superuser's copy of the same source succeeds. -/
theorem C118_counterexample_readonly_dir :
    let src : Node := .mk (.dir 493) (.cons ['s'] (.mk (.dir 365) (.cons ['f'] (.mk (.file 420 [1]) .nil) .nil)) .nil)
    result (copyAllF userView demoEnv dot src) emptyDisk = .error .denied ∧
    final (copyAllF userView demoEnv dot src) emptyDisk [['s']] = some (.dir 365) ∧
    final (copyAllF userView demoEnv dot src) emptyDisk [['s'], ['f']] = none ∧
    result (copyPathF userView demoEnv src dot [['s', '/', 'f']]) emptyDisk = .error .denied ∧
    result (copyAllF rootView demoEnv dot src) emptyDisk = .ok () := by
  refine ⟨by rfl, by decide +kernel, by decide +kernel, by rfl, by rfl⟩

end Verif.Fsutil.Copy
