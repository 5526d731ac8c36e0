import Verif.Fsutil.SafeProps
/-
C18 and C19 when a hook, the writer function or a call on the filesystem panics (or ends the goroutine with `runtime.Goexit`): /repo/fsutil/safe_write.go 159-223.
-/
namespace Verif.Fsutil.Safe

/-- How the calls before `Close` end: all returned nil, one returned an error, one panicked. -/
inductive Stop where
  | fine | failed (e : Ev) | panicked (e : Ev)
  deriving DecidableEq, Repr

/-- The calls before `Close`, in order (safe_write.go 183-210). `pa` says which call panics, made on which disk; what it did to the disk until then is done. -/
def runStepsP (pa : Ev → Disk → Bool) : List (Ev × Act) → St → St × Stop
  | [], st => (st, .fine)
  | x :: rest, st =>
    let r := runAct x.1 x.2 st
    if pa x.1 st.disk then (r.1, .panicked x.1)
    else if r.2 then runStepsP pa rest r.1 else (r.1, .failed x.1)

/-- safe_write.go 174-181: the deferred function looks at the variable `err`. -/
def deferred (c : Cfg) (err closed : Bool) (st : St) : St := if err then cleanup c closed st else st

/-- How `safeOperation` ends. -/
inductive Result where
  | returned (e : Option Ev) | panicked (e : Ev)
  deriving DecidableEq, Repr

/-- safe_write.go 159-223 `safeOperation`. While a call panics, `err` still has what the call before it returned, which was nil. -/
def safeOperationP (c : Cfg) (pa : Ev → Disk → Bool) (st : St) : St × Result :=
  match runStepsP pa (steps c) st with
  | (s, .panicked e) => (deferred c false false s, .panicked e)
  | (s, .failed e) => (deferred c true false s, .returned (some e))
  | (s, .fine) => ((finish c s).1, .returned (finish c s).2)

theorem runStepsP_none {pa : Ev → Disk → Bool} (hpa : ∀ e d, pa e d = false) : ∀ (ss : List (Ev × Act)) (st : St),
    runStepsP pa ss st = ((runSteps ss st).1, match (runSteps ss st).2 with | none => .fine | some e => .failed e)
  | [], _ => rfl
  | x :: rest, st => by
    simp only [runStepsP, runSteps, hpa, Bool.false_eq_true, if_false]
    split
    · exact runStepsP_none hpa rest _
    · rfl

/-- Without a panic this is the model of C18 to C20. -/
theorem safeOperationP_none (c : Cfg) {pa : Ev → Disk → Bool} (hpa : ∀ e d, pa e d = false) (st : St) :
    safeOperationP c pa st = ((safeOperation c st).1, .returned (safeOperation c st).2) := by
  unfold safeOperationP
  rw [runStepsP_none hpa, safeOperation_eq]
  rcases runSteps (steps c) st with ⟨s, _ | e⟩ <;> rfl

theorem runStepsP_quiet {t : Path} {d0 : Disk} (pa : Ev → Disk → Bool) : ∀ (ss : List (Ev × Act)), (∀ x ∈ ss, Confined t x.2) → ∀ (st : St), Quiet t d0 st → Quiet t d0 (runStepsP pa ss st).1
  | [], _, _, h => h
  | x :: ss, hx, st, h => by
    simp only [runStepsP]
    have h1 := h.act (hx x (by simp)) x.1
    split
    · exact h1
    · split
      · exact runStepsP_quiet pa ss (fun y hy => hx y (by simp [hy])) _ h1
      · exact h1

theorem runStepsP_log (pa : Ev → Disk → Bool) : ∀ (ss : List (Ev × Act)) (st : St), ∀ y ∈ (runStepsP pa ss st).1.log, y ∈ st.log ∨ ∃ x ∈ ss, y.1 = x.1
  | [], _, _, h => Or.inl h
  | x :: ss, st, y, h => by
    have hr : ∀ y ∈ (runAct x.1 x.2 st).1.log, y ∈ st.log ∨ y.1 = x.1 := by
      intro y hy
      simp only [runAct, List.mem_append, List.mem_singleton] at hy
      rcases hy with hy | hy
      · exact Or.inl hy
      · exact Or.inr (by rw [hy])
    simp only [runStepsP] at h
    split at h
    · exact (hr y h).imp id (fun h => ⟨x, by simp, h⟩)
    · split at h
      · rcases runStepsP_log pa ss _ y h with h | ⟨x', hx', h⟩
        · exact (hr y h).imp id (fun h => ⟨x, by simp, h⟩)
        · exact Or.inr ⟨x', by simp [hx'], h⟩
      · exact (hr y h).imp id (fun h => ⟨x, by simp, h⟩)

/-- **C18** A safe write in which something panics changes nothing outside its temporary, at any moment: the target keeps its content. -/
theorem C18_panic (c : Cfg) (wf : WF c) (pa : Ev → Disk → Bool) (st : St) (htr : ∀ d ∈ st.trace, ∀ q, ¬ c.temp <+: q → d q = st.disk q) (e : Ev)
    (h : (safeOperationP c pa st).2 = .panicked e) :
    ∀ d ∈ (safeOperationP c pa st).1.disk :: (safeOperationP c pa st).1.trace, (∀ q, ¬ c.temp <+: q → d q = st.disk q) ∧ sub c.target d = sub c.target st.disk := by
  have q1 := runStepsP_quiet pa (steps c) (t := c.temp) (d0 := st.disk) (fun x hx => wf.prep x.2 (by rw [← steps_snd]; exact List.mem_map_of_mem hx)) st ⟨fun _ _ => rfl, htr⟩
  unfold safeOperationP at h ⊢
  generalize runStepsP pa (steps c) st = x at q1 h ⊢
  rcases x with ⟨s, _ | e' | e'⟩
  · cases h
  · cases h
  · have key : ∀ d ∈ s.disk :: s.trace, ∀ q, ¬ c.temp <+: q → d q = st.disk q := by
      intro d hd
      rcases List.mem_cons.1 hd with rfl | hd
      · exact q1.disk
      · exact q1.trace d hd
    intro d hd
    exact ⟨key d hd, sub_eq_of wf.apart (key d hd)⟩

/-- **C19** fails for every panic: the temporary is neither closed nor removed. -/
theorem C19_counterexample_panic (c : Cfg) (pa : Ev → Disk → Bool) (d0 : Disk) (e : Ev) (h : (safeOperationP c pa { disk := d0, trace := [], log := [] }).2 = .panicked e) :
    ∀ x ∈ (safeOperationP c pa { disk := d0, trace := [], log := [] }).1.log, x.1 ≠ .close ∧ x.1 ≠ .removeAll := by
  have hl := runStepsP_log pa (steps c) { disk := d0, trace := [], log := [] }
  unfold safeOperationP at h ⊢
  generalize runStepsP pa (steps c) { disk := d0, trace := [], log := [] } = x at hl h ⊢
  rcases x with ⟨s, _ | e' | e'⟩
  · cases h
  · cases h
  · intro x hx
    rcases hl x hx with hc | ⟨y, hy, he⟩
    · cases hc
    · have := steps_hook c y hy
      rw [he]
      exact ⟨this.1, this.2.2⟩

/-- A case: the hook panics, the temporary stays. -/
example : let r := safeOperationP (exCfg true true (fun _ => (9, true))) (fun e _ => e = .optPre 0) { disk := fun q => if q = [['t']] then some (.file 420 []) else none, trace := [], log := [] }
    r.2 = .panicked (.optPre 0) ∧ r.1.disk [['t']] = some (.file 420 []) ∧ r.1.log = [(.optPre 0, true)] := by
  decide +kernel

end Verif.Fsutil.Safe
