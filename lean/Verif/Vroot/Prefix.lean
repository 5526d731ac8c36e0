import Verif.Common.PathWalk
import Verif.Vroot.WrapModel
/-
Model of /repo/vroot/pathprefix.go, and properties C40 and C41.
-/
namespace Verif.Vroot
open Verif.Path

/-! ## Model -/

/-- pathprefix.go 29-42 `NewPathPrefixFs`: the prefix kept (the check that it names a directory is the wrapped filesystem's); none when refused. -/
def newPrefix (given : Str) : Option Str := if given = [] then none else some (clean given)

/-- pathprefix.go 44-53 `resolvePath` (osfs/fs.go 60-75 is the same function). -/
def prefixPath (pre p : Str) : Option Str :=
  let p := clean p
  if p = dot then some pre
  else if isLocal p = false then none
  else some (join2 pre p)

/-- The common shape of the methods: resolve one path, fail, or go on with it. -/
def onPath (pre p : Str) (k : Str → Except Errno FsCall) : Except Errno FsCall :=
  match prefixPath pre p with
  | none => .error .perm
  | some p' => k p'

/-- pathprefix.go 55-220: the call passed to the wrapped filesystem, or the error. `OpenRoot` is not a method of `Fs`. -/
def prefixCall (pre : Str) (c : FsCall) : Except Errno FsCall :=
  match c with
  | .chmod n m => onPath pre n (fun p => .ok (.chmod p m))
  | .chown n u g => onPath pre n (fun p => .ok (.chown p u g))
  | .chtimes n a m => onPath pre n (fun p => .ok (.chtimes p a m))
  | .close => .ok .close
  | .create n => onPath pre n (fun p => .ok (.create p))
  | .lchown n u g => onPath pre n (fun p => .ok (.lchown p u g))
  | .link o n => onPath pre o (fun o' => onPath pre n (fun p => .ok (.link o' p)))
  | .lstat n => onPath pre n (fun p => .ok (.lstat p))
  | .mkdir n m => onPath pre n (fun p => .ok (.mkdir p m))
  | .mkdirAll n m => onPath pre n (fun p => .ok (.mkdirAll p m))
  | .name => .ok .name
  | .open_ n => onPath pre n (fun p => .ok (.open_ p))
  | .openFile n f m => onPath pre n (fun p => .ok (.openFile p f m))
  | .openRoot _ => .error .notSupported
  | .readLink n => onPath pre n (fun p => .ok (.readLink p))
  | .remove n => onPath pre n (fun p => .ok (.remove p))
  | .removeAll n => if clean n = dot then .error .inval else onPath pre n (fun p => .ok (.removeAll p))
  | .rename o n => onPath pre o (fun o' => onPath pre n (fun p => .ok (.rename o' p)))
  | .stat n => onPath pre n (fun p => .ok (.stat p))
  | .symlink o n => onPath pre n (fun p => .ok (.symlink o p))

/-! ## Specification -/

/-- The names a call holds that are paths of the filesystem (a symbolic link's target is data). -/
def FsCall.paths : FsCall → List Str
  | .chmod n _ | .chown n _ _ | .chtimes n _ _ | .create n | .lchown n _ _ | .lstat n | .mkdir n _ | .mkdirAll n _ | .open_ n | .openFile n _ _ => [n]
  | .openRoot n | .readLink n | .remove n | .removeAll n | .stat n => [n]
  | .link o n | .rename o n => [o, n]
  | .symlink _ n => [n]
  | .close | .name => []

/-- The same call with other paths. -/
def FsCall.mapPaths (f : Str → Str) : FsCall → FsCall
  | .chmod n m => .chmod (f n) m
  | .chown n u g => .chown (f n) u g
  | .chtimes n a m => .chtimes (f n) a m
  | .close => .close
  | .create n => .create (f n)
  | .lchown n u g => .lchown (f n) u g
  | .link o n => .link (f o) (f n)
  | .lstat n => .lstat (f n)
  | .mkdir n m => .mkdir (f n) m
  | .mkdirAll n m => .mkdirAll (f n) m
  | .name => .name
  | .open_ n => .open_ (f n)
  | .openFile n fl m => .openFile (f n) fl m
  | .openRoot n => .openRoot (f n)
  | .readLink n => .readLink (f n)
  | .remove n => .remove (f n)
  | .removeAll n => .removeAll (f n)
  | .rename o n => .rename (f o) (f n)
  | .stat n => .stat (f n)
  | .symlink o n => .symlink o (f n)

/-- The path of the place `ns` below the prefix. -/
def below (pre : Str) (ns : List Str) : Str := render (isAbs pre) (comps pre ++ ns)

/-! ## Proofs -/

theorem normal_append {r : Bool} {cs ns : List Str} (h : Normal r cs) (hn : ∀ c ∈ ns, IsName c) : Normal r (cs ++ ns) := by
  induction ns generalizing cs with
  | nil => rw [List.append_nil]; exact h
  | cons a rest ih =>
    have := ih (h.snoc (hn a List.mem_cons_self)) (fun c hc => hn c (List.mem_cons_of_mem _ hc))
    rwa [List.append_assoc] at this

theorem below_normal (pre : Str) {ns : List Str} (hn : ∀ c ∈ ns, IsName c) : Normal (isAbs pre) (comps pre ++ ns) :=
  normal_append (comps_normal pre) hn

theorem prefixPath_eq {pre : Str} (hpre : clean pre = pre) (p : Str) : prefixPath pre p = (placeOf p).map (below pre) := by
  unfold prefixPath
  simp only
  have hne : pre ≠ [] := by rw [← hpre]; exact clean_ne_nil _
  by_cases h1 : clean p = dot
  · rw [if_pos h1, (clean_eq_dot_iff p).1 h1]
    show some pre = some (render (isAbs pre) (comps pre ++ []))
    rw [List.append_nil]
    exact congrArg some hpre.symm
  · rw [if_neg h1]
    by_cases h2 : isLocal (clean p) = false
    · rw [if_pos h2]
      cases hp : placeOf p with
      | none => rfl
      | some ns =>
        have := (isLocal_clean_iff p).2 (by rw [hp]; simp)
        rw [h2] at this; cases this
    · rw [if_neg h2]
      have h3 : isLocal (clean p) = true := by cases h : isLocal (clean p) <;> simp_all
      have h4 := (isLocal_clean_iff p).1 h3
      cases hp : placeOf p with
      | none => exact absurd hp h4
      | some ns =>
        obtain ⟨ha, hc, hn⟩ := placeOf_some hp
        have : join2 pre (clean p) = clean (pre ++ slash :: clean p) := by
          unfold join2
          rw [if_neg (fun h => hne h.1), if_neg hne, if_neg (clean_ne_nil _)]
        rw [this]
        show some (render (isAbs (pre ++ slash :: clean p)) (comps (pre ++ slash :: clean p))) = some (below pre ns)
        rw [isAbs_append hne, comps_join pre (clean p) hne (by rw [comps_clean, hc]; exact hn) (by rw [isAbs_clean]; exact ha), comps_clean, hc]
        rfl

theorem onPath_ok {pre p : Str} (hcl : clean pre = pre) {k : Str → Except Errno FsCall} {c' : FsCall} (h : onPath pre p k = .ok c') :
    ∃ ns, placeOf p = some ns ∧ k (below pre ns) = .ok c' := by
  unfold onPath at h
  rw [prefixPath_eq hcl] at h
  cases hp : placeOf p with
  | none => rw [hp] at h; cases h
  | some ns => rw [hp] at h; exact ⟨ns, rfl, h⟩

theorem newPrefix_clean {given pre : Str} (hpre : newPrefix given = some pre) : clean pre = pre := by
  unfold newPrefix at hpre
  split at hpre
  · cases hpre
  · cases hpre; exact clean_clean _

/-- **C40, confinement.** For every prefix and every call: when the view passes a call on, it is the same call, every path in it leads somewhere below the base,
and the path passed is the prefix followed by the elements of that place. -/
theorem C40_forwarded (given pre : Str) (hpre : newPrefix given = some pre) (c c' : FsCall) (h : prefixCall pre c = .ok c') :
    (∀ n ∈ c.paths, ∃ ns, placeOf n = some ns) ∧ c' = c.mapPaths (fun n => below pre ((placeOf n).getD [])) := by
  have hcl := newPrefix_clean hpre
  cases c <;> simp only [prefixCall] at h
  case close => cases h; simp [FsCall.paths, FsCall.mapPaths]
  case name => cases h; simp [FsCall.paths, FsCall.mapPaths]
  case openRoot => cases h
  case link o n =>
    obtain ⟨os, ho, h⟩ := onPath_ok hcl h
    obtain ⟨ns, hn, h⟩ := onPath_ok hcl h
    cases h
    simp [FsCall.paths, FsCall.mapPaths, ho, hn]
  case rename o n =>
    obtain ⟨os, ho, h⟩ := onPath_ok hcl h
    obtain ⟨ns, hn, h⟩ := onPath_ok hcl h
    cases h
    simp [FsCall.paths, FsCall.mapPaths, ho, hn]
  case removeAll n =>
    split at h
    · cases h
    · obtain ⟨ns, hn, h⟩ := onPath_ok hcl h
      cases h
      simp [FsCall.paths, FsCall.mapPaths, hn]
  all_goals
    obtain ⟨ns, hn, h⟩ := onPath_ok hcl h
    cases h
    simp [FsCall.paths, FsCall.mapPaths, hn]

/-- **C40, refusal.** A call with a path that is absolute or steps above the base is refused (nothing reaches the wrapped filesystem). -/
theorem C40_refused (given pre : Str) (hpre : newPrefix given = some pre) (c : FsCall) (n : Str) (hn : n ∈ c.paths) (hl : placeOf n = none) :
    ∃ e, prefixCall pre c = .error e := by
  cases h : prefixCall pre c with
  | error e => exact ⟨e, rfl⟩
  | ok c' =>
    obtain ⟨ns, hns⟩ := (C40_forwarded given pre hpre c c' h).1 n hn
    rw [hl] at hns; cases hns

/-- **C40, nothing else is refused,** except removing the base with `RemoveAll`. -/
theorem C40_accepted (given pre : Str) (hpre : newPrefix given = some pre) (c : FsCall) (hin : ∀ n ∈ c.paths, placeOf n ≠ none)
    (hroot : ∀ n, c ≠ .openRoot n) (hall : ∀ n, c = .removeAll n → placeOf n ≠ some []) : ∃ c', prefixCall pre c = .ok c' := by
  have hcl := newPrefix_clean hpre
  have key : ∀ p k, placeOf p ≠ none → ∃ p', onPath pre p k = k p' := by
    intro p k hp
    unfold onPath
    rw [prefixPath_eq hcl]
    cases h : placeOf p with
    | none => exact absurd h hp
    | some ns => exact ⟨_, rfl⟩
  cases c <;> simp only [prefixCall]
  case close => exact ⟨_, rfl⟩
  case name => exact ⟨_, rfl⟩
  case openRoot n => exact absurd rfl (hroot n)
  case link o n =>
    obtain ⟨o', h1⟩ := key o (fun o' => onPath pre n (fun p => .ok (.link o' p))) (hin o (by simp [FsCall.paths]))
    obtain ⟨n', h2⟩ := key n (fun p => .ok (.link o' p)) (hin n (by simp [FsCall.paths]))
    rw [h1, h2]; exact ⟨_, rfl⟩
  case rename o n =>
    obtain ⟨o', h1⟩ := key o (fun o' => onPath pre n (fun p => .ok (.rename o' p))) (hin o (by simp [FsCall.paths]))
    obtain ⟨n', h2⟩ := key n (fun p => .ok (.rename o' p)) (hin n (by simp [FsCall.paths]))
    rw [h1, h2]; exact ⟨_, rfl⟩
  case removeAll n =>
    rw [if_neg (fun h => hall n rfl ((clean_eq_dot_iff n).1 h))]
    obtain ⟨n', h2⟩ := key n (fun p => .ok (.removeAll p)) (hin n (by simp [FsCall.paths]))
    rw [h2]; exact ⟨_, rfl⟩
  all_goals
    obtain ⟨n', h2⟩ := key _ _ (hin _ (by simp only [FsCall.paths]; exact List.mem_cons_self))
    rw [h2]; exact ⟨_, rfl⟩

/-- **C40, one path per place.** Different places have different paths, and all are the prefix or strictly longer. -/
theorem C40_injective (pre : Str) (a b : List Str) (ha : ∀ c ∈ a, IsName c) (hb : ∀ c ∈ b, IsName c) (h : below pre a = below pre b) : a = b :=
  List.append_cancel_left (render_inj (below_normal pre ha) (below_normal pre hb) h)

/-- Views of views: prefixing twice is prefixing once with the place of the second prefix below the first. -/
theorem C40_nested (given pre : Str) (hpre : newPrefix given = some pre) (given2 pre2 : Str) (hpre2 : newPrefix given2 = some pre2) (ns2 : List Str)
    (h2 : placeOf given2 = some ns2) (p : Str) :
    (prefixPath pre2 p).bind (prefixPath pre) = (placeOf p).map (fun ns => below pre (ns2 ++ ns)) := by
  have hcl := newPrefix_clean hpre
  have hcl2 := newPrefix_clean hpre2
  have e2 : pre2 = clean given2 := by
    unfold newPrefix at hpre2
    split at hpre2
    · cases hpre2
    · cases hpre2; rfl
  obtain ⟨ha2, hc2, hn2⟩ := placeOf_some h2
  rw [prefixPath_eq hcl2]
  cases hp : placeOf p with
  | none => rfl
  | some ns =>
    obtain ⟨_, _, hn⟩ := placeOf_some hp
    show prefixPath pre (below pre2 ns) = some (below pre (ns2 ++ ns))
    rw [prefixPath_eq hcl]
    have hN := below_normal pre2 hn
    have : placeOf (below pre2 ns) = some (ns2 ++ ns) := by
      rw [placeOf_iff]
      have hc : comps pre2 = ns2 := by rw [e2, comps_clean, hc2]
      have ha : isAbs pre2 = false := by rw [e2, isAbs_clean, ha2]
      refine ⟨?_, ?_, ?_⟩
      · unfold below; rw [isAbs_render hN, ha]
      · unfold below; rw [comps_render hN, hc]
      · intro c hc
        rcases List.mem_append.1 hc with hc | hc
        · exact hn2 c hc
        · exact hn c hc
    rw [this]; rfl

/-- A prefix "base/" and the name "a/../b": "base/b" is passed. -/
example : newPrefix ['s', '/'] = some ['s'] ∧ prefixCall ['s'] (.stat ['a', '/', '.', '.', '/', 'b']) = .ok (.stat ['s', '/', 'b']) ∧
    prefixCall ['s'] (.rename ['b'] ['.', '.', '/', 's']) = .error .perm := ⟨by decide, rfl, rfl⟩

/-! ## C41 -/

/-- **C41 (partial), `RemoveAll`.** It is refused for every spelling of the base. -/
theorem C41_removeAll_partial (given pre : Str) (_hpre : newPrefix given = some pre) (n : Str) (h : placeOf n = some []) :
    prefixCall pre (.removeAll n) = .error .inval := by
  unfold prefixCall
  simp only
  rw [if_pos ((clean_eq_dot_iff n).2 h)]

/-- **C41 (partial), only the base reaches the base.** `Remove` and `Rename` get the path of the base only for names of the base. -/
theorem C41_only_base_partial (given pre : Str) (hpre : newPrefix given = some pre) (n : Str) :
    (prefixCall pre (.remove n) = .ok (.remove pre) → placeOf n = some []) ∧
    (∀ m p, prefixCall pre (.rename n m) = .ok (.rename pre p) → placeOf n = some []) ∧
    (∀ m p, prefixCall pre (.rename m n) = .ok (.rename p pre) → placeOf n = some []) := by
  have hcl := newPrefix_clean hpre
  have key : ∀ n, (∃ ns, placeOf n = some ns) → below pre ((placeOf n).getD []) = pre → placeOf n = some [] := by
    rintro n ⟨ns, hn⟩ h
    rw [hn] at h ⊢
    have hnn := (placeOf_some hn).2.2
    have : below pre ns = below pre [] := by
      rw [show below pre [] = pre from by unfold below; rw [List.append_nil]; exact hcl]
      exact h
    rw [C40_injective pre ns [] hnn (by simp) this]
  refine ⟨?_, ?_, ?_⟩
  · intro h
    obtain ⟨h1, h2⟩ := C40_forwarded given pre hpre _ _ h
    simp [FsCall.paths] at h1
    simp [FsCall.mapPaths] at h2
    exact key n h1 h2.symm
  · intro m p h
    obtain ⟨h1, h2⟩ := C40_forwarded given pre hpre _ _ h
    simp [FsCall.mapPaths] at h2
    exact key n (h1 n (by simp [FsCall.paths])) h2.1.symm
  · intro m p h
    obtain ⟨h1, h2⟩ := C40_forwarded given pre hpre _ _ h
    simp [FsCall.mapPaths] at h2
    exact key n (h1 n (by simp [FsCall.paths])) h2.2.symm

/-- **C41 does not hold for `Remove` and `Rename`:** for every prefix they pass the base directory itself to the wrapped filesystem. -/
theorem C41_counterexample_remove_base (given pre : Str) (hpre : newPrefix given = some pre) :
    prefixCall pre (.remove dot) = .ok (.remove pre) ∧ prefixCall pre (.rename dot ['x']) = .ok (.rename pre (below pre [['x']])) := by
  have hcl := newPrefix_clean hpre
  have h1 : placeOf dot = some [] := by decide
  have h2 : placeOf ['x'] = some [['x']] := by decide
  have hb : below pre [] = pre := by unfold below; rw [List.append_nil]; exact hcl
  constructor
  · simp [prefixCall, onPath, prefixPath_eq hcl, h1, hb]
  · simp [prefixCall, onPath, prefixPath_eq hcl, h1, h2, hb]

example : newPrefix ['s'] = some ['s'] ∧ prefixCall ['s'] (.removeAll ['a', '/', '.', '.']) = .error .inval := ⟨by decide, rfl⟩

end Verif.Vroot
