import Verif.Fsutil.SafeModel
import Verif.Fsutil.TempProps
import Verif.Fsutil.CopyOver
/-
Properties C18 (atomicity), C19 (cleanup) and C20 (hook order) of safe writes.
-/
namespace Verif.Fsutil.Safe

/-! ### specification -/

/-- The action only touches what is at or below `t` (the documented duty of hooks and the nature of the operations). -/
def Confined (t : Path) (a : Act) : Prop :=
  ∀ d x, x ∈ (a d).1 ++ [(a d).2.1] → ∀ q, ¬ t <+: q → x q = d q

/-- The paths are not nested. -/
def Apart (p q : Path) : Prop := ¬ p <+: q ∧ ¬ q <+: p

/-- The disk after all of the actions succeeded in order, `none` if one fails. -/
def complete : List Act → Disk → Option Disk
  | [], d => some d
  | a :: rest, d => if (a d).2.2 then complete rest (a d).2.1 else none

/-- Everything that prepares the new content, in order. -/
def prep (c : Cfg) : List Act := c.optPre ++ c.argPre ++ [c.op] ++ c.argPost ++ c.optPost

/-- The configuration respects the rules: everything works on the temporary, which is not nested with the target. -/
structure WF (c : Cfg) : Prop where
  prep : ∀ a ∈ prep c, Confined c.temp a
  removeAll : Confined c.temp c.removeAll
  removes : ∀ d, (c.removeAll d).2.2 = true → ∀ q, c.temp <+: q → (c.removeAll d).2.1 q = none
  apart : Apart c.temp c.target

/-- The order in which an undisturbed run makes its calls. -/
def plan (c : Cfg) : List Ev :=
  (List.range c.optPre.length).map .optPre ++ (List.range c.argPre.length).map .argPre ++ [.operation] ++
    (List.range c.argPost.length).map .argPost ++ (List.range c.optPost.length).map .optPost ++ [.close, .rename]

/-- What a call is. -/
def actOf (c : Cfg) : Ev → Option Act
  | .optPre i => c.optPre[i]?
  | .argPre i => c.argPre[i]?
  | .operation => some c.op
  | .argPost i => c.argPost[i]?
  | .optPost i => c.optPost[i]?
  | .close => some (closeAct c.closeOk)
  | .rename => some (renameAct c.temp c.target c.renameOk)
  | .removeAll => some c.removeAll

/-- Running the calls of `l` one after the other from `d`, with the outcomes noted in `l`, goes through the disks `tr` and ends in `d'`. -/
def Ran (c : Cfg) : Disk → List (Ev × Bool) → List Disk → Disk → Prop
  | d, [], tr, d' => tr = [] ∧ d' = d
  | d, x :: l, tr, d' => ∃ a tr', actOf c x.1 = some a ∧ (a d).2.2 = x.2 ∧ tr = (a d).1 ++ [(a d).2.1] ++ tr' ∧ Ran c (a d).2.1 l tr' d'

/-! ### proofs -/

theorem sub_eq_of {t p : Path} (h : Apart t p) {d d' : Disk} (hd : ∀ q, ¬ t <+: q → d' q = d q) : sub p d' = sub p d := by
  funext q
  apply hd
  intro hp
  -- t is a prefix of p ++ q, so one of t and p is a prefix of the other
  rcases Nat.le_total t.length p.length with hl | hl
  · exact h.1 (List.prefix_of_prefix_length_le hp (List.prefix_append p q) hl)
  · exact h.2 (List.prefix_of_prefix_length_le (List.prefix_append p q) hp hl)

/-- Progress of a run that only touched the temporary. -/
structure Quiet (t : Path) (d0 : Disk) (st : St) : Prop where
  disk : ∀ q, ¬ t <+: q → st.disk q = d0 q
  trace : ∀ d ∈ st.trace, ∀ q, ¬ t <+: q → d q = d0 q

theorem Quiet.act {t : Path} {d0 : Disk} {st : St} (h : Quiet t d0 st) {a : Act} (ha : Confined t a) (ev : Ev) : Quiet t d0 (runAct ev a st).1 := by
  have key : ∀ x, x ∈ (a st.disk).1 ++ [(a st.disk).2.1] → ∀ q, ¬ t <+: q → x q = d0 q :=
    fun x hx q hq => by rw [ha st.disk x hx q hq, h.disk q hq]
  constructor
  · exact key (a st.disk).2.1 (by simp)
  · intro d hd
    simp only [runAct, List.append_assoc] at hd
    rcases List.mem_append.1 hd with hd | hd
    · exact h.trace d hd
    · exact key d hd

theorem closeAct_confined (t : Path) (ok : Bool) : Confined t (closeAct ok) := by
  intro d x hx q _
  simp [closeAct] at hx
  rw [hx]

theorem complete_append (as bs : List Act) (d : Disk) : complete (as ++ bs) d = (complete as d).bind (complete bs) := by
  induction as generalizing d with
  | nil => rfl
  | cons a rest ih =>
    simp only [List.cons_append, complete]
    split
    · exact ih _
    · rfl

/-- The calls before `Close`, in order. -/
def runSteps : List (Ev × Act) → St → St × Option Ev
  | [], st => (st, none)
  | x :: rest, st =>
    let r := runAct x.1 x.2 st
    if r.2 then runSteps rest r.1 else (r.1, some x.1)

def tagged (tag : Nat → Ev) : Nat → List Act → List (Ev × Act)
  | _, [] => []
  | i, a :: as => (tag i, a) :: tagged tag (i + 1) as

def steps (c : Cfg) : List (Ev × Act) :=
  tagged .optPre 0 c.optPre ++ tagged .argPre 0 c.argPre ++ [(.operation, c.op)] ++ tagged .argPost 0 c.argPost ++ tagged .optPost 0 c.optPost

theorem runHooks_eq (tag : Nat → Ev) : ∀ (as : List Act) (i : Nat) (st : St), runHooks tag i as st = runSteps (tagged tag i as) st
  | [], _, _ => rfl
  | a :: as, i, st => by
    simp only [runHooks, tagged, runSteps]
    rw [runHooks_eq tag as (i + 1)]

theorem runSteps_append : ∀ (as bs : List (Ev × Act)) (st : St), runSteps (as ++ bs) st =
    match runSteps as st with
    | (s, some e) => (s, some e)
    | (s, none) => runSteps bs s
  | [], _, _ => rfl
  | a :: as, bs, st => by
    simp only [List.cons_append, runSteps]
    split
    · exact runSteps_append as bs _
    · rfl

theorem safeOperation_eq (c : Cfg) (st : St) : safeOperation c st =
    match runSteps (steps c) st with
    | (s, some e) => (cleanup c false s, some e)
    | (s, none) => finish c s := by
  unfold safeOperation steps
  simp only [runSteps_append, runHooks_eq]
  rcases runSteps (tagged Ev.optPre 0 c.optPre) st with ⟨s1, _ | e⟩
  · simp only
    rcases runSteps (tagged Ev.argPre 0 c.argPre) s1 with ⟨s2, _ | e⟩
    · simp only [runSteps]
      rcases runAct .operation c.op s2 with ⟨s3, _ | _⟩
      · rfl
      · simp only [if_true]
        rcases runSteps (tagged Ev.argPost 0 c.argPost) s3 with ⟨s4, _ | e⟩
        · simp only
          rcases runSteps (tagged Ev.optPost 0 c.optPost) s4 with ⟨s5, _ | e⟩ <;> rfl
        · rfl
    · rfl
  · rfl

theorem tagged_fst (tag : Nat → Ev) : ∀ (as : List Act) (i : Nat), (tagged tag i as).map Prod.fst = (List.range' i as.length).map tag
  | [], _ => rfl
  | a :: as, i => by simp only [tagged, List.map_cons, List.length_cons, List.range'_succ, tagged_fst tag as (i + 1)]

theorem tagged_snd (tag : Nat → Ev) : ∀ (as : List Act) (i : Nat), (tagged tag i as).map Prod.snd = as
  | [], _ => rfl
  | a :: as, i => by simp only [tagged, List.map_cons, tagged_snd tag as (i + 1)]

theorem tagged_mem (tag : Nat → Ev) : ∀ (as : List Act) (i : Nat) (x : Ev × Act), x ∈ tagged tag i as → ∃ j, x.1 = tag (i + j) ∧ as[j]? = some x.2
  | a :: as, i, x, h => by
    simp only [tagged, List.mem_cons] at h
    rcases h with rfl | h
    · exact ⟨0, rfl, rfl⟩
    · obtain ⟨j, h1, h2⟩ := tagged_mem tag as (i + 1) x h
      exact ⟨j + 1, by rw [h1]; congr 1; omega, by simpa using h2⟩

theorem steps_fst (c : Cfg) : (steps c).map Prod.fst ++ [.close, .rename] = plan c := by
  simp [steps, plan, tagged_fst, List.range_eq_range']

theorem steps_snd (c : Cfg) : (steps c).map Prod.snd = prep c := by
  simp [steps, prep, tagged_snd]

theorem steps_act (c : Cfg) : ∀ x ∈ steps c, actOf c x.1 = some x.2 := by
  intro x hx
  simp only [steps, List.mem_append, List.mem_singleton] at hx
  rcases hx with (((h | h) | h) | h) | h
  · obtain ⟨j, h1, h2⟩ := tagged_mem _ _ _ _ h; rw [h1, Nat.zero_add]; exact h2
  · obtain ⟨j, h1, h2⟩ := tagged_mem _ _ _ _ h; rw [h1, Nat.zero_add]; exact h2
  · rw [h]; rfl
  · obtain ⟨j, h1, h2⟩ := tagged_mem _ _ _ _ h; rw [h1, Nat.zero_add]; exact h2
  · obtain ⟨j, h1, h2⟩ := tagged_mem _ _ _ _ h; rw [h1, Nat.zero_add]; exact h2

theorem steps_hook (c : Cfg) : ∀ x ∈ steps c, x.1 ≠ .close ∧ x.1 ≠ .rename ∧ x.1 ≠ .removeAll := by
  intro x hx
  simp only [steps, List.mem_append, List.mem_singleton] at hx
  rcases hx with (((h | h) | h) | h) | h
  · obtain ⟨j, h1, h2⟩ := tagged_mem _ _ _ _ h; rw [h1]; simp
  · obtain ⟨j, h1, h2⟩ := tagged_mem _ _ _ _ h; rw [h1]; simp
  · rw [h]; simp
  · obtain ⟨j, h1, h2⟩ := tagged_mem _ _ _ _ h; rw [h1]; simp
  · obtain ⟨j, h1, h2⟩ := tagged_mem _ _ _ _ h; rw [h1]; simp

theorem map_tagged (ss : List (Ev × Act)) : (ss.map (fun x : Ev × Act => (x.1, true))).map Prod.fst = ss.map Prod.fst := by
  rw [List.map_map]; rfl

/-- The state `st'` is reached from `st` by the calls `l`. -/
def Reach (c : Cfg) (st : St) (l : List (Ev × Bool)) (st' : St) : Prop :=
  st'.log = st.log ++ l ∧ ∃ tr, st'.trace = st.trace ++ tr ∧ Ran c st.disk l tr st'.disk

theorem Reach.refl {c : Cfg} {st : St} : Reach c st [] st := ⟨by simp, [], by simp, rfl, rfl⟩

theorem ran_append {c : Cfg} : ∀ {l1 l2 : List (Ev × Bool)} {d d1 d2 : Disk} {t1 t2 : List Disk}, Ran c d l1 t1 d1 → Ran c d1 l2 t2 d2 → Ran c d (l1 ++ l2) (t1 ++ t2) d2
  | [], l2, d, d1, d2, t1, t2, h1, h2 => by obtain ⟨rfl, rfl⟩ := h1; simpa using h2
  | x :: l1, l2, d, d1, d2, t1, t2, h1, h2 => by
    obtain ⟨a, tr', ha, hb, rfl, hr⟩ := h1
    exact ⟨a, tr' ++ t2, ha, hb, by simp, ran_append hr h2⟩

theorem Reach.act {c : Cfg} {st st' : St} {l : List (Ev × Bool)} (h : Reach c st l st') {ev : Ev} {a : Act} (ha : actOf c ev = some a) :
    Reach c st (l ++ [(ev, (runAct ev a st').2)]) (runAct ev a st').1 := by
  obtain ⟨h1, tr, h2, h3⟩ := h
  refine ⟨by simp [runAct, h1], tr ++ ((a st'.disk).1 ++ [(a st'.disk).2.1]), by simp [runAct, h2], ran_append h3 ?_⟩
  exact ⟨a, [], ha, rfl, by simp, rfl, rfl⟩

theorem runSteps_reach {c : Cfg} {st0 : St} : ∀ (ss : List (Ev × Act)), (∀ x ∈ ss, actOf c x.1 = some x.2) → ∀ (st : St) (l : List (Ev × Bool)), Reach c st0 l st →
    ((runSteps ss st).2 = none ∧ Reach c st0 (l ++ ss.map (fun x => (x.1, true))) (runSteps ss st).1) ∨
    ∃ e ss1 a ss2, (runSteps ss st).2 = some e ∧ ss = ss1 ++ (e, a) :: ss2 ∧
      Reach c st0 (l ++ ss1.map (fun x => (x.1, true)) ++ [(e, false)]) (runSteps ss st).1
  | [], _, st, l, h => Or.inl ⟨rfl, by simpa [runSteps] using h⟩
  | x :: ss, hx, st, l, h => by
    have h1 := h.act (hx x (by simp))
    simp only [runSteps]
    cases hr : (runAct x.1 x.2 st).2 with
    | false =>
      rw [hr] at h1
      exact Or.inr ⟨x.1, [], x.2, ss, rfl, rfl, by simpa using h1⟩
    | true =>
      rw [hr] at h1
      rcases runSteps_reach ss (fun y hy => hx y (by simp [hy])) _ _ h1 with ⟨h2, h3⟩ | ⟨e, ss1, a, ss2, h2, h3, h4⟩
      · exact Or.inl ⟨h2, by simpa using h3⟩
      · exact Or.inr ⟨e, x :: ss1, a, ss2, h2, by rw [h3]; rfl, by simpa using h4⟩

theorem runSteps_quiet {t : Path} {d0 : Disk} : ∀ (ss : List (Ev × Act)), (∀ x ∈ ss, Confined t x.2) → ∀ (st : St), Quiet t d0 st → Quiet t d0 (runSteps ss st).1
  | [], _, _, h => h
  | x :: ss, hx, st, h => by
    simp only [runSteps]
    have h1 := h.act (hx x (by simp)) x.1
    split
    · exact runSteps_quiet ss (fun y hy => hx y (by simp [hy])) _ h1
    · exact h1

theorem runSteps_complete : ∀ (ss : List (Ev × Act)) (st : St),
    ((runSteps ss st).2 = none → complete (ss.map Prod.snd) st.disk = some (runSteps ss st).1.disk) ∧
    ((runSteps ss st).2 ≠ none → complete (ss.map Prod.snd) st.disk = none)
  | [], st => ⟨fun _ => rfl, fun h => absurd rfl h⟩
  | x :: ss, st => by
    simp only [runSteps, List.map_cons, complete]
    by_cases h : (runAct x.1 x.2 st).2 = true
    · have h' : (x.2 st.disk).2.2 = true := h
      rw [if_pos h, if_pos h']
      exact runSteps_complete ss (runAct x.1 x.2 st).1
    · have h' : ¬ (x.2 st.disk).2.2 = true := h
      rw [if_neg h, if_neg h']
      exact ⟨fun h => (by cases h), fun _ => rfl⟩

/-- Everything about a run, in one statement. -/
structure RunSpec (c : Cfg) (st : St) (r : St × Option Ev) : Prop where
  /-- success: the content was prepared, only then renamed -/
  ok : r.2 = none → ∃ dp, complete (prep c) st.disk = some dp ∧ dp c.temp ≠ none ∧ (∀ q, ¬ c.temp <+: q → dp q = st.disk q) ∧
    r.1.disk = moved c.temp c.target dp ∧
    (∀ d ∈ r.1.trace, (∀ q, ¬ c.temp <+: q → d q = st.disk q) ∨ d = moved c.temp c.target dp)
  /-- failure: only the temporary was touched -/
  err : r.2 ≠ none → ∃ dl, Quiet c.temp st.disk dl ∧ r.1.disk = (c.removeAll dl.disk).2.1 ∧ Quiet c.temp st.disk r.1

theorem cleanup_quiet {c : Cfg} (wf : WF c) {d0 : Disk} (closed : Bool) {st : St} (hq : Quiet c.temp d0 st) :
    ∃ dl, Quiet c.temp d0 dl ∧ (cleanup c closed st).disk = (c.removeAll dl.disk).2.1 ∧ Quiet c.temp d0 (cleanup c closed st) := by
  unfold cleanup
  cases closed with
  | true => exact ⟨st, hq, rfl, hq.act wf.removeAll _⟩
  | false =>
    have hq1 := hq.act (closeAct_confined c.temp c.closeOk) .close
    exact ⟨_, hq1, rfl, hq1.act wf.removeAll _⟩

theorem renameAct_ok {temp target : Path} {ok : Bool} {d : Disk} (h : ok = true ∧ d temp ≠ none) : renameAct temp target ok d = ([], moved temp target d, true) := by
  unfold renameAct; rw [if_pos h]

theorem renameAct_fail {temp target : Path} {ok : Bool} {d : Disk} (h : ¬ (ok = true ∧ d temp ≠ none)) : renameAct temp target ok d = ([], d, false) := by
  unfold renameAct; rw [if_neg h]

theorem safeOperation_spec (c : Cfg) (wf : WF c) (st : St) (htr : ∀ d ∈ st.trace, ∀ q, ¬ c.temp <+: q → d q = st.disk q) :
    RunSpec c st (safeOperation c st) := by
  have q0 : Quiet c.temp st.disk st := ⟨fun _ _ => rfl, htr⟩
  have q1 := runSteps_quiet (steps c) (t := c.temp) (d0 := st.disk) (fun x hx => wf.prep x.2 (by rw [← steps_snd]; exact List.mem_map_of_mem hx)) st q0
  have hc := runSteps_complete (steps c) st
  rw [steps_snd] at hc
  rw [safeOperation_eq]
  generalize runSteps (steps c) st = x at q1 hc ⊢
  rcases x with ⟨s, _ | e⟩
  · have hcomp := hc.1 rfl
    simp only at hcomp q1 ⊢
    unfold finish
    simp only
    have q2 := q1.act (closeAct_confined c.temp c.closeOk) .close
    by_cases hcl : (!c.closeOk && !c.ignoreCloseErr) = true
    · rw [if_pos hcl]
      exact ⟨fun h => (by cases h), fun _ => cleanup_quiet wf true q2⟩
    · rw [if_neg hcl]
      by_cases hr : c.renameOk = true ∧ s.disk c.temp ≠ none
      · have hren := renameAct_ok (temp := c.temp) (target := c.target) hr
        rw [if_pos (by simp only [runAct, closeAct, hren])]
        simp only [runAct, closeAct, hren]
        refine ⟨fun _ => ⟨s.disk, hcomp, hr.2, q1.disk, rfl, ?_⟩, fun h => absurd rfl h⟩
        intro d hd
        simp only [List.append_nil, List.append_assoc, List.mem_append, List.mem_cons, List.not_mem_nil, or_false] at hd
        rcases hd with hd | hd | hd
        · exact Or.inl (q1.trace d hd)
        · exact Or.inl (by rw [hd]; exact q1.disk)
        · exact Or.inr hd
      · have hren := renameAct_fail (temp := c.temp) (target := c.target) hr
        rw [if_neg (by simp only [runAct, closeAct, hren]; simp)]
        refine ⟨fun h => (by cases h), fun _ => cleanup_quiet wf true ?_⟩
        have q3 : Quiet c.temp st.disk (runAct .rename (closeAct false) (runAct .close (closeAct c.closeOk) s).1).1 := q2.act (closeAct_confined _ _) _
        simp only [runAct, closeAct, hren] at q3 ⊢
        exact ⟨q3.disk, q3.trace⟩
  · exact ⟨fun h => (by cases h), fun _ => cleanup_quiet wf false q1⟩

theorem moved_target {temp target : Path} (d : Disk) : sub target (moved temp target d) = sub temp d := by
  funext q
  unfold sub moved
  rw [if_pos (List.prefix_append _ _)]
  simp

/-! ### C20 -/

/-- **C20** The calls of a run, hooks and operation and closing and renaming, are made in the planned order, each at most once (`C20_plan`), and really
made (`Ran`: the disks and outcomes are those of the hooks themselves). After a call that failed no further call of the plan is made, unless it is the `Close` whose
error is to be ignored; only closing and removing the temporary follow. The call returns nil exactly when the whole plan was run and nothing failed but
an ignored `Close`; otherwise it returns the error of the last call of the plan that was made, which failed. The handle is closed once. -/
theorem C20_order (c : Cfg) (st : St) :
    ∃ l clean tr, (safeOperation c st).1.log = st.log ++ l ++ clean ∧ (safeOperation c st).1.trace = st.trace ++ tr ∧
      Ran c st.disk (l ++ clean) tr (safeOperation c st).1.disk ∧
      l.map Prod.fst <+: plan c ∧
      (∀ l1 e l2, l = l1 ++ (e, false) :: l2 → l2 = [] ∨ (e = .close ∧ c.ignoreCloseErr = true)) ∧
      (∀ x ∈ clean, x.1 = .close ∨ x.1 = .removeAll) ∧
      ((safeOperation c st).2 = none ↔ l.map Prod.fst = plan c ∧ ∀ x ∈ l, x.2 = false → x.1 = .close ∧ c.ignoreCloseErr = true) ∧
      ((safeOperation c st).2 = none → clean = []) ∧
      (∀ e, (safeOperation c st).2 = some e → l.getLast? = some (e, false)) ∧
      ((l ++ clean).map Prod.fst).count .close = 1 := by
  rw [safeOperation_eq]
  have hzero : ∀ ss : List (Ev × Act), (∀ x ∈ ss, x ∈ steps c) → (ss.map Prod.fst).count .close = 0 := by
    intro ss hss
    rw [List.count_eq_zero]
    intro hm
    obtain ⟨x, hx, he⟩ := List.mem_map.1 hm
    exact (steps_hook c x (hss x hx)).1 he
  have htrue : ∀ (ss : List (Ev × Act)) (l1 l2 rest : List (Ev × Bool)) (e : Ev), ss.map (fun x => (x.1, true)) ++ rest = l1 ++ (e, false) :: l2 →
      ∃ l1', rest = l1' ++ (e, false) :: l2 := by
    intro ss l1 l2 rest e h
    rcases List.append_eq_append_iff.1 h with ⟨k, h1, h2⟩ | ⟨k, h1, h2⟩
    · exact ⟨k, h2⟩
    · cases k with
      | nil => exact ⟨[], by simpa using h2.symm⟩
      | cons y k =>
        simp only [List.cons_append, List.cons.injEq] at h2
        have : (e, false) ∈ ss.map (fun x => (x.1, true)) := by rw [h1, h2.1]; simp
        simp at this
  rcases runSteps_reach (steps c) (steps_act c) st [] Reach.refl with ⟨h1, h2⟩ | ⟨e, ss1, a, ss2, h1, h2, h3⟩
  · rcases hrun : runSteps (steps c) st with ⟨s, r⟩
    rw [hrun] at h1 h2
    simp only at h1 h2
    subst h1
    simp only [List.nil_append] at h2 ⊢
    unfold finish
    simp only
    have h3 := h2.act (ev := .close) (a := closeAct c.closeOk) rfl
    have hc : (runAct .close (closeAct c.closeOk) s).2 = c.closeOk := rfl
    rw [hc] at h3
    by_cases hcl : (!c.closeOk && !c.ignoreCloseErr) = true
    · rw [if_pos hcl]
      simp only [Bool.and_eq_true, Bool.not_eq_true'] at hcl
      have h4 := h3.act (ev := .removeAll) (a := c.removeAll) rfl
      obtain ⟨b, hb⟩ : ∃ b, (runAct .removeAll c.removeAll (runAct .close (closeAct c.closeOk) s).1).2 = b := ⟨_, rfl⟩
      rw [hb] at h4
      obtain ⟨hl, tr, ht, hr⟩ := h4
      rw [hcl.1] at hl ht hr
      unfold cleanup
      simp only [if_true]
      rw [hcl.1]
      refine ⟨(steps c).map (fun x => (x.1, true)) ++ [(.close, false)], [(.removeAll, b)], tr, by rw [hl]; simp, ht, by simpa using hr, ?_, ?_, by simp, ?_, by simp,
        by simp, ?_⟩
      · rw [← steps_fst, List.map_append, map_tagged]; exact ⟨[.rename], by simp⟩
      · intro l1 e l2 h
        obtain ⟨l1', h⟩ := htrue _ _ _ _ _ h
        rcases l1' with _ | ⟨_, l1'⟩ <;> simp at h
        exact Or.inl h.2
      · simp only [reduceCtorEq, false_iff, not_and]
        intro hp
        rw [← steps_fst] at hp
        have := congrArg List.length hp
        simp at this
      · have := hzero (steps c) (fun _ h => h)
        simp only [List.map_append, map_tagged, List.count_append]
        rw [this]
        rfl
    · rw [if_neg hcl]
      have hcl : c.closeOk = true ∨ c.ignoreCloseErr = true := by
        cases h1 : c.closeOk <;> cases h2 : c.ignoreCloseErr <;> simp_all
      have h4 := h3.act (ev := .rename) (a := renameAct c.temp c.target c.renameOk) rfl
      cases hren : (runAct .rename (renameAct c.temp c.target c.renameOk) (runAct .close (closeAct c.closeOk) s).1).2 with
      | true =>
        rw [hren] at h4
        rw [if_pos rfl]
        obtain ⟨hl, tr, ht, hr⟩ := h4
        refine ⟨(steps c).map (fun x => (x.1, true)) ++ [(.close, c.closeOk), (.rename, true)], [], tr, by rw [hl]; simp, ht, by simpa using hr, ?_, ?_, by simp, ?_, by simp,
          by simp, ?_⟩
        · rw [← steps_fst, List.map_append, map_tagged]; exact List.prefix_refl _
        · intro l1 e l2 h
          obtain ⟨l1', h⟩ := htrue _ _ _ _ _ h
          rcases l1' with _ | ⟨_, _ | ⟨_, l1'⟩⟩ <;> simp at h
          right
          rcases hcl with h' | h'
          · rw [h'] at h; simp at h
          · exact ⟨h.1.1.symm, h'⟩
        · simp only [true_iff]
          refine ⟨by rw [← steps_fst, List.map_append, map_tagged]; rfl, ?_⟩
          intro x hx hf
          simp only [List.mem_append, List.mem_map, List.mem_cons, List.not_mem_nil, or_false] at hx
          rcases hx with ⟨y, _, rfl⟩ | rfl | rfl
          · cases hf
          · refine ⟨rfl, ?_⟩
            rcases hcl with h' | h'
            · rw [h'] at hf; cases hf
            · exact h'
          · cases hf
        · have := hzero (steps c) (fun _ h => h)
          simp only [List.map_append, map_tagged, List.count_append]
          rw [this]
          rfl
      | false =>
        rw [hren] at h4
        rw [if_neg (by simp)]
        have h5 := h4.act (ev := .removeAll) (a := c.removeAll) rfl
        obtain ⟨b, hb⟩ : ∃ b, (runAct .removeAll c.removeAll (runAct .rename (renameAct c.temp c.target c.renameOk) (runAct .close (closeAct c.closeOk) s).1).1).2 = b := ⟨_, rfl⟩
        rw [hb] at h5
        obtain ⟨hl, tr, ht, hr⟩ := h5
        unfold cleanup
        simp only [if_true]
        refine ⟨(steps c).map (fun x => (x.1, true)) ++ [(.close, c.closeOk), (.rename, false)], [(.removeAll, b)], tr, by rw [hl]; simp, ht, by simpa using hr, ?_, ?_,
          by simp, ?_, by simp, by simp, ?_⟩
        · rw [← steps_fst, List.map_append, map_tagged]; exact List.prefix_refl _
        · intro l1 e l2 h
          obtain ⟨l1', h⟩ := htrue _ _ _ _ _ h
          rcases l1' with _ | ⟨_, _ | ⟨_, l1'⟩⟩ <;> simp at h
          · right
            rcases hcl with h' | h'
            · rw [h'] at h; simp at h
            · exact ⟨h.1.1.symm, h'⟩
          · exact Or.inl h.2.2
        · simp only [reduceCtorEq, false_iff, not_and]
          intro _ h
          have := (h (.rename, false) (by simp) rfl).1
          cases this
        · have := hzero (steps c) (fun _ h => h)
          simp only [List.map_append, map_tagged, List.count_append]
          rw [this]
          rfl
  · rcases hrun : runSteps (steps c) st with ⟨s, r⟩
    rw [hrun] at h1 h3
    simp only at h1 h3
    subst h1
    simp only [List.nil_append] at h3 ⊢
    unfold cleanup
    simp only [Bool.false_eq_true, if_false]
    have h4 := h3.act (ev := .close) (a := closeAct c.closeOk) rfl
    have hc : (runAct .close (closeAct c.closeOk) s).2 = c.closeOk := rfl
    rw [hc] at h4
    have h5 := h4.act (ev := .removeAll) (a := c.removeAll) rfl
    obtain ⟨b, hb⟩ : ∃ b, (runAct .removeAll c.removeAll (runAct .close (closeAct c.closeOk) s).1).2 = b := ⟨_, rfl⟩
    rw [hb] at h5
    obtain ⟨hl, tr, ht, hr⟩ := h5
    have hin : (e, a) ∈ steps c := by rw [h2]; simp
    refine ⟨ss1.map (fun x => (x.1, true)) ++ [(e, false)], [(.close, c.closeOk), (.removeAll, b)], tr, by rw [hl]; simp, ht, by simpa using hr, ?_, ?_, by simp, ?_, by simp,
      by simp, ?_⟩
    · rw [← steps_fst, h2, List.map_append, map_tagged]
      exact ⟨ss2.map Prod.fst ++ [.close, .rename], by simp⟩
    · intro l1 e' l2 h
      obtain ⟨l1', h⟩ := htrue _ _ _ _ _ h
      rcases l1' with _ | ⟨_, l1'⟩ <;> simp at h
      exact Or.inl h.2
    · simp only [reduceCtorEq, false_iff, not_and]
      intro _ h
      exact (steps_hook c _ hin).1 (h (e, false) (by simp) rfl).1
    · have := hzero ss1 (fun x h => by rw [h2]; simp [h])
      simp only [List.map_append, map_tagged, List.count_append]
      have h6 : ([(e, false)].map Prod.fst).count .close = 0 := by
        rw [List.count_eq_zero]
        intro hm
        simp at hm
        exact (steps_hook c _ hin).1 hm.symm
      rw [this, h6]
      rfl

/-- C20: no step of the plan occurs twice, and publication comes after every hook and after the content. -/
theorem C20_plan (c : Cfg) : (plan c).Nodup ∧
    ∃ before, plan c = before ++ [.close, .rename] ∧ (∀ e ∈ before, e ≠ .rename ∧ e ≠ .close) ∧ .operation ∈ before ∧
      (∀ i, Ev.optPre i ∈ before ↔ i < c.optPre.length) ∧ (∀ i, Ev.argPre i ∈ before ↔ i < c.argPre.length) ∧
      (∀ i, Ev.argPost i ∈ before ↔ i < c.argPost.length) ∧ (∀ i, Ev.optPost i ∈ before ↔ i < c.optPost.length) := by
  constructor
  · have hmap : ∀ (f : Nat → Ev) (n : Nat), (∀ i j, f i = f j → i = j) → ((List.range n).map f).Nodup := by
      intro f n hf
      rw [List.Nodup, List.pairwise_map]
      exact List.Pairwise.imp (fun h e => h (hf _ _ e)) (List.nodup_range (n := n))
    unfold plan
    simp only [List.nodup_append]
    refine ⟨⟨⟨⟨⟨hmap _ _ (by simp), hmap _ _ (by simp), ?_⟩, by simp, ?_⟩, hmap _ _ (by simp), ?_⟩, hmap _ _ (by simp), ?_⟩, by simp, ?_⟩
    all_goals
      intro a ha b hb hab
      subst hab
      simp only [List.mem_append, List.mem_map, List.mem_cons, List.not_mem_nil, or_false] at ha hb
      first
        | (subst hb; simp at ha)
        | (rcases hb with hb | hb <;> subst hb <;> simp at ha)
        | (obtain ⟨j, _, rfl⟩ := hb; simp at ha)
  · refine ⟨_, rfl, ?_, by simp, ?_, ?_, ?_, ?_⟩
    · intro e he
      simp at he
      rcases he with h | h | h | h | h
      all_goals first | (obtain ⟨i, _, rfl⟩ := h; simp) | (rw [h]; simp)
    all_goals intro i; simp

/-! ### C18 -/

/-- **C18** At every crash point, and whatever call fails, the target holds its old content or the completely prepared new content; the call returns nil exactly when
the new content was put in place, and then nothing else changed and the temporary is gone. `st` is a state in which only the temporary was touched so far.
Missing from **C18**: `WF` asks that the temporary lies apart from the target, see `C18_counterexample_temp_is_target`. -/
theorem C18_atomic_partial (c : Cfg) (wf : WF c) (st : St) (htr : ∀ d ∈ st.trace, ∀ q, ¬ c.temp <+: q → d q = st.disk q) :
    (∀ d ∈ (safeOperation c st).1.trace, sub c.target d = sub c.target st.disk ∨
      ∃ dp, complete (prep c) st.disk = some dp ∧ sub c.target d = sub c.temp dp) ∧
    ((safeOperation c st).2 = none → ∃ dp, complete (prep c) st.disk = some dp ∧ sub c.target (safeOperation c st).1.disk = sub c.temp dp ∧
      (∀ q, c.temp <+: q → (safeOperation c st).1.disk q = none) ∧
      (∀ q, ¬ c.temp <+: q → ¬ c.target <+: q → (safeOperation c st).1.disk q = st.disk q)) ∧
    ((safeOperation c st).2 ≠ none → sub c.target (safeOperation c st).1.disk = sub c.target st.disk ∧
      ∀ d ∈ (safeOperation c st).1.trace, sub c.target d = sub c.target st.disk) := by
  have spec := safeOperation_spec c wf st htr
  refine ⟨?_, ?_, ?_⟩
  · by_cases he : (safeOperation c st).2 = none
    · obtain ⟨dp, h1, _, _, _, h2⟩ := spec.ok he
      intro d hd
      rcases h2 d hd with h | h
      · left; exact sub_eq_of wf.apart h
      · right; exact ⟨dp, h1, by rw [h]; exact moved_target dp⟩
    · obtain ⟨_, _, _, q⟩ := spec.err he
      intro d hd
      left; exact sub_eq_of wf.apart (q.trace d hd)
  · intro he
    obtain ⟨dp, h1, _, h3, h2, _⟩ := spec.ok he
    refine ⟨dp, h1, by rw [h2]; exact moved_target dp, ?_, ?_⟩
    · intro q hq
      rw [h2]
      unfold moved
      rw [if_neg, if_pos hq]
      intro hp
      rcases Nat.le_total c.temp.length c.target.length with hl | hl
      · exact wf.apart.1 (List.prefix_of_prefix_length_le hq hp hl)
      · exact wf.apart.2 (List.prefix_of_prefix_length_le hp hq hl)
    · intro q h4 h5
      rw [h2]
      unfold moved
      rw [if_neg h5, if_neg h4, h3 q h4]
  · intro hne
    obtain ⟨_, _, _, q⟩ := spec.err hne
    exact ⟨sub_eq_of wf.apart q.disk, fun d hd => sub_eq_of wf.apart (q.trace d hd)⟩

/-- **C18** The call does succeed when everything it calls does: the preparation ends with something under the temporary's name, closing succeeds or is to be ignored, and
the rename succeeds. -/
theorem C18_succeeds (c : Cfg) (st : St) (dp : Disk) (h : complete (prep c) st.disk = some dp) (ht : dp c.temp ≠ none)
    (hc : c.closeOk = true ∨ c.ignoreCloseErr = true) (hr : c.renameOk = true) : (safeOperation c st).2 = none := by
  have hs := runSteps_complete (steps c) st
  rw [steps_snd] at hs
  rw [safeOperation_eq]
  rcases hrun : runSteps (steps c) st with ⟨s, _ | e⟩
  · rw [hrun] at hs
    have := hs.1 rfl
    rw [h] at this
    simp only [Option.some.injEq] at this
    subst this
    simp only
    unfold finish
    simp only
    rw [if_neg (by rcases hc with hc | hc <;> simp [hc])]
    have hren := renameAct_ok (temp := c.temp) (target := c.target) (d := s.disk) ⟨hr, ht⟩
    rw [if_pos (by simp only [runAct, closeAct, hren])]
  · rw [hrun] at hs
    have := hs.2 (by simp)
    rw [h] at this
    cases this

/-! ### making the temporary -/

/-- The attempt opens a name that was free and makes nothing but the entry; otherwise nothing changes. -/
structure TryOK (v : Ent) (try_ : Att → Disk → Disk × Try) (a : Att) : Prop where
  opened : ∀ d, (try_ a d).2 = .opened → d a.path = none ∧ (try_ a d).1 = Copy.Disk.set d a.path v
  other : ∀ d, (try_ a d).2 ≠ .opened → (try_ a d).1 = d

theorem createTry_ok (mode : Nat) (a : Att) : TryOK (.file mode []) (createTry mode) a := by
  constructor
  · intro d h
    unfold createTry at h ⊢
    split at h
    · cases h
    · rename_i h1
      split at h
      · cases h
      · rename_i h2
        rw [if_neg h1, if_neg h2]
        exact ⟨by simpa using h2, rfl⟩
  · intro d h
    unfold createTry at h ⊢
    split
    · rfl
    · rename_i h1
      split
      · rfl
      · rename_i h2
        rw [if_neg h1, if_neg h2] at h
        exact absurd rfl h

theorem mkdirTry_ok (mode : Nat) (a : Att) (ho : a.openOk = true) : TryOK (.dir mode) (mkdirTry mode) a := by
  constructor
  · intro d h
    unfold mkdirTry at h ⊢
    split at h
    · cases h
    · rename_i h1
      split at h
      · cases h
      · rename_i h2
        rw [if_neg h1, if_neg h2]
        exact ⟨by simpa using h2, by simp [ho]⟩
  · intro d h
    unfold mkdirTry at h ⊢
    split
    · rfl
    · rename_i h1
      split
      · rfl
      · rename_i h2
        rw [if_neg h1, if_neg h2] at h
        simp [ho] at h

theorem openLoop_spec {v : Ent} {try_ : Att → Disk → Disk × Try} : ∀ (atts : List Att), (∀ a ∈ atts, TryOK v try_ a) → ∀ (d : Disk),
    ((openLoop try_ atts d).2 = none → (openLoop try_ atts d).1 = d) ∧
    (∀ t, (openLoop try_ atts d).2 = some t → (∃ a ∈ atts, a.path = t) ∧ d t = none ∧ (openLoop try_ atts d).1 = Copy.Disk.set d t v)
  | [], _, d => ⟨fun _ => rfl, fun t h => (by cases h)⟩
  | a :: atts, h, d => by
    have ha := h a (by simp)
    unfold openLoop
    rcases htry : try_ a d with ⟨d1, r⟩
    cases r with
    | opened =>
      have := ha.opened d (by rw [htry])
      rw [htry] at this
      refine ⟨fun h => (by cases h), ?_⟩
      intro t ht
      simp only [Option.some.injEq] at ht
      subst ht
      exact ⟨⟨a, by simp, rfl⟩, this.1, this.2⟩
    | taken =>
      have h1 := ha.other d (by rw [htry]; simp)
      rw [htry] at h1
      simp only at h1 ⊢
      subst h1
      obtain ⟨h2, h3⟩ := openLoop_spec atts (fun x hx => h x (by simp [hx])) d1
      refine ⟨h2, fun t ht => ?_⟩
      obtain ⟨⟨b, hb, hbt⟩, h4⟩ := h3 t ht
      exact ⟨⟨b, by simp [hb], hbt⟩, h4⟩
    | failed =>
      have h1 := ha.other d (by rw [htry]; simp)
      rw [htry] at h1
      exact ⟨fun _ => h1, fun t ht => (by cases ht)⟩

theorem set_confined {t : Path} {v : Ent} {d : Disk} : ∀ q, ¬ t <+: q → Copy.Disk.set d t v q = d q := by
  intro q hq
  unfold Copy.Disk.set
  rw [if_neg]
  rintro rfl
  exact hq (List.prefix_refl _)

theorem start_trace {t : Path} {v : Ent} {d0 : Disk} : ∀ d ∈ [d0, Copy.Disk.set d0 t v], ∀ q, ¬ t <+: q → d q = Copy.Disk.set d0 t v q := by
  intro d hd q hq
  simp only [List.mem_cons, List.not_mem_nil, or_false] at hd
  rcases hd with rfl | rfl
  · exact (set_confined q hq).symm
  · rfl

/-- An action that leaves the disk alone, such as `SyncHook`. -/
def Passive (a : Act) : Prop := ∀ d, (a d).1 = [] ∧ (a d).2.1 = d

theorem Passive.confined {a : Act} (h : Passive a) (t : Path) : Confined t a := by
  intro d x hx q _
  rw [(h d).1, (h d).2] at hx
  simp at hx; rw [hx]

theorem appendFile_other (t : Path) (bs : Bytes) (d : Disk) (q : Path) (h : q ≠ t) : appendFile t bs d q = d q := by
  unfold appendFile; rw [if_neg h]

theorem copyLoop_confined (t : Path) (ending : End) (w : Nat → Nat × Bool) : ∀ (chunks : List Bytes) (i : Nat), Confined t (copyLoop t ending w i chunks) := by
  intro chunks
  induction chunks with
  | nil => intro i d x hx q _; simp [copyLoop] at hx; rw [hx]
  | cons c rest ih =>
    intro i d x hx q hq
    unfold copyLoop at hx
    split at hx
    · exact ih i d x hx q hq
    · have hne : q ≠ t := by rintro rfl; exact hq (List.prefix_refl _)
      simp only at hx
      split at hx
      · simp at hx; rw [hx]; exact appendFile_other _ _ _ _ hne
      · split at hx
        · simp at hx; rw [hx]; exact appendFile_other _ _ _ _ hne
        · simp only [List.cons_append] at hx
          rcases List.mem_cons.1 hx with rfl | hx
          · exact appendFile_other _ _ _ _ hne
          · rw [ih (i + 1) _ x hx q hq]; exact appendFile_other _ _ _ _ hne

/-- A copy that succeeds has written every byte the reader gave, and the reader ended with EOF. -/
theorem copyLoop_ok (t : Path) (ending : End) (w : Nat → Nat × Bool) (m : Nat) : ∀ (chunks : List Bytes) (i : Nat) (d : Disk) (pre : Bytes),
    d t = some (.file m pre) → (copyLoop t ending w i chunks d).2.2 = true →
    ending = .eof ∧ (copyLoop t ending w i chunks d).2.1 t = some (.file m (pre ++ chunks.flatten)) := by
  intro chunks
  induction chunks with
  | nil => intro i d pre hd h; simp [copyLoop] at h ⊢; exact ⟨h, hd⟩
  | cons c rest ih =>
    intro i d pre hd h
    unfold copyLoop at h ⊢
    by_cases hc : c = []
    · rw [if_pos hc] at h ⊢
      rw [hc]; simpa using ih i d pre hd h
    · rw [if_neg hc] at h ⊢
      simp only at h ⊢
      by_cases hw : (!(w i).2) = true
      · rw [if_pos hw] at h; cases h
      · rw [if_neg hw] at h ⊢
        by_cases hn : min (w i).1 c.length ≠ c.length
        · rw [if_pos hn] at h; cases h
        · rw [if_neg hn] at h ⊢
          simp only at h ⊢
          have hn : min (w i).1 c.length = c.length := by simpa using hn
          rw [hn, List.take_length] at h ⊢
          have := ih (i + 1) (appendFile t c d) (pre ++ c) (by unfold appendFile; rw [if_pos rfl, hd]) h
          simpa using this

/-- A copy whose reader ends with EOF and whose writes take everything succeeds. -/
theorem copyLoop_succeeds (t : Path) (w : Nat → Nat × Bool) (B : Nat) : ∀ (chunks : List Bytes), (∀ c ∈ chunks, c.length ≤ B) → (∀ i, (w i).2 = true ∧ B ≤ (w i).1) →
    ∀ (i : Nat) (d : Disk), (copyLoop t .eof w i chunks d).2.2 = true := by
  intro chunks
  induction chunks with
  | nil => intro _ _ i d; rfl
  | cons c rest ih =>
    intro hb hw i d
    unfold copyLoop
    split
    · exact ih (fun x hx => hb x (by simp [hx])) hw i d
    · have h1 := hb c (by simp)
      have h2 := hw i
      simp only
      rw [if_neg (by simp [h2.1]), if_neg (by simp; omega)]
      exact ih (fun x hx => hb x (by simp [hx])) hw (i + 1) _

theorem complete_passive {as : List Act} (h : ∀ a ∈ as, Passive a) (d d' : Disk) (hc : complete as d = some d') : d' = d := by
  induction as generalizing d with
  | nil => simp [complete] at hc; exact hc.symm
  | cons a rest ih =>
    simp only [complete] at hc
    split at hc
    · rw [(h a List.mem_cons_self d).2] at hc
      exact ih (fun x hx => h x (List.mem_cons_of_mem _ hx)) d hc
    · cases hc

/-- The configuration of a `Copy` with hooks that do not touch the disk. -/
structure CopyCfg (c : Cfg) (chunks : List Bytes) (ending : End) (w : Nat → Nat × Bool) : Prop where
  op : c.op = copyLoop c.temp ending w 0 chunks
  quiet : ∀ a ∈ c.optPre ++ c.argPre ++ c.argPost ++ c.optPost, Passive a
  removeAll : Confined c.temp c.removeAll
  removes : ∀ d, (c.removeAll d).2.2 = true → ∀ q, c.temp <+: q → (c.removeAll d).2.1 q = none
  apart : Apart c.temp c.target

/-- The configuration of a `CopyFs` with hooks that do not touch the disk. -/
structure TreeCfg (c : Cfg) (e : Copy.Env) (tempPath : Str) (src : Copy.Node) : Prop where
  path : Verif.Path.comps tempPath = c.temp
  op : c.op = copyTree e tempPath src
  quiet : ∀ a ∈ c.optPre ++ c.argPre ++ c.argPost ++ c.optPost, Passive a
  removeAll : Confined c.temp c.removeAll
  removes : ∀ d, (c.removeAll d).2.2 = true → ∀ q, c.temp <+: q → (c.removeAll d).2.1 q = none
  apart : Apart c.temp c.target

theorem wf_of_passive {c : Cfg} (hop : Confined c.temp c.op) (hquiet : ∀ a ∈ c.optPre ++ c.argPre ++ c.argPost ++ c.optPost, Passive a)
    (h1 : Confined c.temp c.removeAll) (h2 : ∀ d, (c.removeAll d).2.2 = true → ∀ q, c.temp <+: q → (c.removeAll d).2.1 q = none) (h3 : Apart c.temp c.target) : WF c := by
  refine ⟨?_, h1, h2, h3⟩
  intro a ha
  simp only [prep, List.mem_append, List.mem_singleton] at ha
  rcases ha with (((ha | ha) | ha) | ha) | ha
  · exact (hquiet a (by simp [ha])).confined _
  · exact (hquiet a (by simp [ha])).confined _
  · rw [ha]; exact hop
  · exact (hquiet a (by simp [ha])).confined _
  · exact (hquiet a (by simp [ha])).confined _

theorem CopyCfg.wf {c : Cfg} {chunks : List Bytes} {ending : End} {w : Nat → Nat × Bool} (h : CopyCfg c chunks ending w) : WF c :=
  wf_of_passive (by rw [h.op]; exact copyLoop_confined _ _ _ _ _) h.quiet h.removeAll h.removes h.apart

theorem copyTree_confined (e : Copy.Env) (p : Str) (src : Copy.Node) (hwf : src.WF) : Confined (Verif.Path.comps p) (copyTree e p src) := by
  intro d x hx q hq
  obtain ⟨h1, h2⟩ := Copy.C69_only_named_partial e p src hwf d
  have hn : ¬ Copy.Named (Verif.Path.comps p) src q := by
    rintro ⟨r, _, _, rfl⟩
    exact hq (List.prefix_append _ _)
  rcases List.mem_append.1 hx with hx | hx
  · exact h1 x hx q hn
  · simp only [List.mem_singleton] at hx
    rw [hx]; exact h2 q hn

theorem TreeCfg.wf {c : Cfg} {e : Copy.Env} {p : Str} {src : Copy.Node} (h : TreeCfg c e p src) (hwf : src.WF) : WF c :=
  wf_of_passive (by rw [h.op, ← h.path]; exact copyTree_confined e p src hwf) h.quiet h.removeAll h.removes h.apart

/-- With passive hooks the prepared disk is what the operation left. -/
theorem prep_passive {c : Cfg} (hquiet : ∀ a ∈ c.optPre ++ c.argPre ++ c.argPost ++ c.optPost, Passive a) {d dp : Disk} (h : complete (prep c) d = some dp) :
    (c.op d).2.2 = true ∧ dp = (c.op d).2.1 := by
  unfold prep at h
  rw [List.append_assoc, List.append_assoc, complete_append] at h
  cases h1 : complete (c.optPre ++ c.argPre) d with
  | none => rw [h1] at h; cases h
  | some x =>
    rw [h1] at h
    have hx := complete_passive (fun a ha => hquiet a (by simp at ha ⊢; rcases ha with h | h <;> simp [h])) _ _ h1
    subst hx
    simp only [Option.bind_some] at h
    rw [complete_append] at h
    cases h2 : complete [c.op] x with
    | none => rw [h2] at h; cases h
    | some y =>
      rw [h2] at h
      simp only [Option.bind_some] at h
      have hy := complete_passive (fun a ha => hquiet a (by simp at ha ⊢; rcases ha with h | h <;> simp [h])) _ _ h
      subst hy
      simp only [complete] at h2
      split at h2
      · rename_i hok
        exact ⟨hok, by simpa using h2.symm⟩
      · cases h2

/-- The disk is a tree at `t`: nothing lies beneath a missing entry. -/
def TreeAt (d : Disk) (t : Path) : Prop := d t = none → ∀ q, t <+: q → d q = none

/-- **C18** for `Copy`: from any disk, whatever names the random attempts try, at every crash point the target's content is the old one or exactly the reader's bytes,
complete; nil is returned only in the second case, only when the reader ended with EOF, and then the rest of the disk is as before.
Missing from **C18**: as for `C18_atomic_partial`. -/
theorem C18_copy_partial (mode : Nat) (atts : List Att) (target : Path) (cfg : Path → Cfg) (chunks : List Bytes) (ending : End) (w : Nat → Nat × Bool)
    (hc : ∀ a ∈ atts, CopyCfg (cfg a.path) chunks ending w ∧ (cfg a.path).temp = a.path ∧ (cfg a.path).target = target)
    (d0 : Disk) (htree : ∀ a ∈ atts, TreeAt d0 a.path) :
    let r := safeRun (createTry mode) atts cfg d0
    (∀ d ∈ r.1.trace, d target = d0 target ∨ d target = some (.file mode chunks.flatten)) ∧
    (r.2 = none → ending = .eof ∧ r.1.disk target = some (.file mode chunks.flatten) ∧ ∀ q, ¬ target <+: q → r.1.disk q = d0 q) ∧
    (r.2 ≠ none → r.1.disk target = d0 target) := by
  intro r
  obtain ⟨hl1, hl2⟩ := openLoop_spec atts (fun a _ => createTry_ok mode a) d0
  show (∀ d ∈ (safeRun (createTry mode) atts cfg d0).1.trace, _) ∧ ((safeRun (createTry mode) atts cfg d0).2 = none → _) ∧
    ((safeRun (createTry mode) atts cfg d0).2 ≠ none → _)
  simp only [show r = safeRun (createTry mode) atts cfg d0 from rfl]
  unfold safeRun
  rcases hopen : openLoop (createTry mode) atts d0 with ⟨d1, _ | t⟩
  · rw [hopen] at hl1
    have := hl1 rfl
    simp only at this
    subst this
    refine ⟨?_, fun h => (by cases h), fun _ => rfl⟩
    intro d hd
    simp at hd
    rw [hd]; exact Or.inl rfl
  · rw [hopen] at hl2
    obtain ⟨⟨a, ha, rfl⟩, hfree, hd1⟩ := hl2 _ rfl
    simp only at hd1
    subst hd1
    obtain ⟨hcfg, htemp, htarget⟩ := hc a ha
    simp only
    generalize cfg a.path = C at hcfg htemp htarget ⊢
    have htree := htree a ha hfree
    rw [← htemp] at htree ⊢
    have hwf := hcfg.wf
    have htr := start_trace (t := a.path) (v := .file mode []) (d0 := d0)
    rw [← htemp] at htr
    have at_ := C18_atomic_partial C hwf { disk := Copy.Disk.set d0 C.temp (.file mode []), trace := [d0, Copy.Disk.set d0 C.temp (.file mode [])], log := [] } htr
    rw [htarget] at at_
    have happ := hwf.apart
    rw [htarget] at happ
    have hold : sub target (Copy.Disk.set d0 C.temp (.file mode [])) = sub target d0 := sub_eq_of happ set_confined
    have hsub : ∀ (x y : Disk), sub target x = sub target y → x target = y target := by
      intro x y h; have := congrFun h []; simpa [sub] using this
    have hprep : ∀ dp, complete (prep C) (Copy.Disk.set d0 C.temp (.file mode [])) = some dp →
        ending = .eof ∧ dp C.temp = some (.file mode chunks.flatten) := by
      intro dp h
      obtain ⟨h1, h2⟩ := prep_passive hcfg.quiet h
      rw [hcfg.op] at h1 h2
      have := copyLoop_ok C.temp ending w mode chunks 0 _ [] (by simp [Copy.Disk.set]) h1
      rw [h2]
      simpa using this
    refine ⟨?_, ?_, ?_⟩
    · intro d hd
      rcases at_.1 d hd with h | ⟨dp, hdp, h⟩
      · left; exact hsub _ _ (h.trans hold)
      · right
        have := congrFun h []
        simp [sub] at this
        rw [this, (hprep dp hdp).2]
    · intro h
      have h := Option.map_eq_none_iff.1 h
      obtain ⟨dp, hdp, he, hgone, hrest⟩ := at_.2.1 h
      have := congrFun he []
      simp [sub] at this
      refine ⟨(hprep dp hdp).1, by rw [this, (hprep dp hdp).2], ?_⟩
      intro q hq
      by_cases ht : C.temp <+: q
      · rw [hgone q ht, htree q ht]
      · rw [hrest q ht hq]; exact set_confined q ht
    · intro h
      have h := fun h' => h (Option.map_eq_none_iff.2 h')
      exact hsub _ _ ((at_.2.2 h).1.trans hold)

theorem complete_total {as : List Act} (h : ∀ a ∈ as, ∀ d, (a d).2.2 = true) : ∀ (d : Disk), ∃ d', complete as d = some d' := by
  induction as with
  | nil => intro d; exact ⟨d, rfl⟩
  | cons a rest ih =>
    intro d
    simp only [complete, h a (by simp) d, if_true]
    exact ih (fun x hx => h x (by simp [hx])) _

/-- **C18** A `Copy` whose calls all succeed returns nil: the name tried is free, the reader ends with EOF, the writes take everything (`B` bounds the pieces), the hooks return nil,
closing succeeds or is to be ignored, and the rename succeeds. -/
theorem C18_copy_succeeds (mode : Nat) (a : Att) (rest : List Att) (cfg : Path → Cfg) (chunks : List Bytes) (w : Nat → Nat × Bool) (B : Nat)
    (hc : CopyCfg (cfg a.path) chunks .eof w) (htemp : (cfg a.path).temp = a.path) (d0 : Disk)
    (hcall : a.callOk = true) (hfree : d0 a.path = none) (hB : ∀ c ∈ chunks, c.length ≤ B) (hw : ∀ i, (w i).2 = true ∧ B ≤ (w i).1)
    (hhooks : ∀ h ∈ (cfg a.path).optPre ++ (cfg a.path).argPre ++ (cfg a.path).argPost ++ (cfg a.path).optPost, ∀ d, (h d).2.2 = true)
    (hclose : (cfg a.path).closeOk = true ∨ (cfg a.path).ignoreCloseErr = true) (hren : (cfg a.path).renameOk = true) :
    (safeRun (createTry mode) (a :: rest) cfg d0).2 = none := by
  have hopen : openLoop (createTry mode) (a :: rest) d0 = (Copy.Disk.set d0 a.path (.file mode []), some a.path) := by
    simp [openLoop, createTry, hcall, hfree]
  unfold safeRun
  rw [hopen]
  simp only
  have hall : ∀ x ∈ prep (cfg a.path), ∀ d, (x d).2.2 = true := by
    intro x hx d
    simp only [prep, List.mem_append, List.mem_singleton] at hx
    rcases hx with (((h | h) | h) | h) | h
    · exact hhooks x (by simp [h]) d
    · exact hhooks x (by simp [h]) d
    · rw [h, hc.op]; exact copyLoop_succeeds _ w B chunks hB hw 0 d
    · exact hhooks x (by simp [h]) d
    · exact hhooks x (by simp [h]) d
  obtain ⟨dp, hdp⟩ := complete_total hall (Copy.Disk.set d0 a.path (.file mode []))
  have hne : dp (cfg a.path).temp ≠ none := by
    obtain ⟨h1, h2⟩ := prep_passive hc.quiet hdp
    rw [hc.op] at h1 h2
    have := copyLoop_ok (cfg a.path).temp .eof w mode chunks 0 _ [] (by simp [Copy.Disk.set, htemp]) h1
    rw [h2, this.2]
    simp
  exact Option.map_eq_none_iff.2 (C18_succeeds (cfg a.path) _ dp hdp hne hclose hren)

/-- **C18** for `CopyFs`: from any disk, at every crash point the tree at the target is the old one or the complete copy of the source, every entry with its
masked mode and content (`copyOf`) and nothing else; nil is returned only in the second case, and then the rest of the disk is as before.
Missing from **C18**: as for `C18_atomic_partial`; also the options that ignore errors of the copy, and a temporary that cannot be opened (see **C19**). -/
theorem C18_copyfs_partial (mode : Nat) (atts : List Att) (target : Path) (cfg : Path → Cfg) (e : Copy.Env) (hig : ∀ er, e.ignore er = false)
    (m : Nat) (kids : Copy.Kids) (hsrc : (Copy.Node.mk (.dir m) kids).WF) (pathOf : Path → Str)
    (hc : ∀ a ∈ atts, a.openOk = true ∧ TreeCfg (cfg a.path) e (pathOf a.path) (.mk (.dir m) kids) ∧ (cfg a.path).temp = a.path ∧ (cfg a.path).target = target)
    (d0 : Disk) (htree : ∀ a ∈ atts, TreeAt d0 a.path) :
    let r := safeRun (mkdirTry mode) atts cfg d0
    (∀ d ∈ r.1.trace, (∀ q, d (target ++ q) = d0 (target ++ q)) ∨ ∀ q, d (target ++ q) = ((Copy.Node.mk (.dir m) kids).find q).bind (Copy.copyOf e)) ∧
    (r.2 = none → (∀ q, r.1.disk (target ++ q) = ((Copy.Node.mk (.dir m) kids).find q).bind (Copy.copyOf e)) ∧ ∀ q, ¬ target <+: q → r.1.disk q = d0 q) ∧
    (r.2 ≠ none → ∀ q, r.1.disk (target ++ q) = d0 (target ++ q)) := by
  intro r
  obtain ⟨hl1, hl2⟩ := openLoop_spec atts (fun a ha => mkdirTry_ok mode a (hc a ha).1) d0
  simp only [show r = safeRun (mkdirTry mode) atts cfg d0 from rfl]
  unfold safeRun
  rcases hopen : openLoop (mkdirTry mode) atts d0 with ⟨d1, _ | t⟩
  · rw [hopen] at hl1
    have := hl1 rfl
    simp only at this
    subst this
    refine ⟨?_, fun h => (by cases h), fun _ _ => rfl⟩
    intro d hd
    simp at hd
    rw [hd]; exact Or.inl fun _ => rfl
  · rw [hopen] at hl2
    obtain ⟨⟨a, ha, rfl⟩, hfree, hd1⟩ := hl2 _ rfl
    simp only at hd1
    subst hd1
    obtain ⟨_, hcfg, htemp, htarget⟩ := hc a ha
    simp only
    generalize pathOf a.path = tp at hcfg
    generalize cfg a.path = C at hcfg htemp htarget ⊢
    have htree := htree a ha hfree
    rw [← htemp] at htree ⊢
    have hwf := hcfg.wf hsrc
    have htr := start_trace (t := a.path) (v := .dir mode) (d0 := d0)
    rw [← htemp] at htr
    have at_ := C18_atomic_partial C hwf { disk := Copy.Disk.set d0 C.temp (.dir mode), trace := [d0, Copy.Disk.set d0 C.temp (.dir mode)], log := [] } htr
    rw [htarget] at at_
    have happ := hwf.apart
    rw [htarget] at happ
    have hold : sub target (Copy.Disk.set d0 C.temp (.dir mode)) = sub target d0 := sub_eq_of happ set_confined
    have hprep : ∀ dp, complete (prep C) (Copy.Disk.set d0 C.temp (.dir mode)) = some dp →
        ∀ q, sub C.temp dp q = ((Copy.Node.mk (.dir m) kids).find q).bind (Copy.copyOf e) := by
      intro dp h
      obtain ⟨h1, h2⟩ := prep_passive hcfg.quiet h
      rw [hcfg.op] at h1 h2
      have hready : Copy.Ready (Verif.Path.comps tp) (Copy.Disk.set d0 C.temp (.dir mode)) := by
        rw [hcfg.path]
        refine ⟨Or.inr ⟨mode, by simp [Copy.Disk.set]⟩, ?_⟩
        intro q hq
        unfold Copy.Disk.set
        rw [if_neg (by simpa using hq)]
        exact htree _ (List.prefix_append _ _)
      have hres : Verif.Prog.result (Copy.copyAll e tp (.mk (.dir m) kids)) (Copy.Disk.set d0 C.temp (.dir mode)) = .ok () := by
        unfold Verif.Prog.result
        unfold copyTree at h1
        simp only at h1
        rcases hx : (Copy.copyAll e tp (.mk (.dir m) kids) (Copy.Disk.set d0 C.temp (.dir mode))).2.2 with er | u
        · rw [hx] at h1; cases h1
        · rfl
      have := (Copy.C32_reproduces e hig tp m kids hsrc _ hready hres).1
      intro q
      rw [h2, ← this q, hcfg.path]
      rfl
    refine ⟨?_, ?_, ?_⟩
    · intro d hd
      rcases at_.1 d hd with h | ⟨dp, hdp, h⟩
      · left; exact fun q => congrFun (h.trans hold) q
      · right
        exact fun q => (congrFun h q).trans (hprep dp hdp q)
    · intro h
      have h := Option.map_eq_none_iff.1 h
      obtain ⟨dp, hdp, he, hgone, hrest⟩ := at_.2.1 h
      refine ⟨fun q => (congrFun he q).trans (hprep dp hdp q), ?_⟩
      intro q hq
      by_cases ht : C.temp <+: q
      · rw [hgone q ht, htree q ht]
      · rw [hrest q ht hq]; exact set_confined q ht
    · intro h
      have h := fun h' => h (Option.map_eq_none_iff.2 h')
      exact fun q => congrFun ((at_.2.2 h).1.trans hold) q

/-! ### C19 -/

/-- **C19** When a safe write fails, nothing outside the temporary names changed; and if the removal succeeds, the disk is exactly what it was before the call.
`v` is the entry made for the temporary: an empty file for `Write` and `Copy`, an empty directory for `CopyFs`. That the handle is closed once is part of `C20_order`.
Missing from **C19**: errors of the cleanup are not in the error returned, and `MkdirRandom` can leave its directory (`TryOK` excludes it), see the counterexamples. -/
theorem C19_cleanup_partial (v : Ent) (try_ : Att → Disk → Disk × Try) (atts : List Att) (htry : ∀ a ∈ atts, TryOK v try_ a) (cfg : Path → Cfg)
    (hc : ∀ a ∈ atts, WF (cfg a.path) ∧ (cfg a.path).temp = a.path) (d0 : Disk) (htree : ∀ a ∈ atts, TreeAt d0 a.path)
    (herr : (safeRun try_ atts cfg d0).2 ≠ none) :
    (∀ q, (∀ a ∈ atts, ¬ a.path <+: q) → (safeRun try_ atts cfg d0).1.disk q = d0 q) ∧
    ((∀ a ∈ atts, ∀ d, ((cfg a.path).removeAll d).2.2 = true) → (safeRun try_ atts cfg d0).1.disk = d0) := by
  obtain ⟨hl1, hl2⟩ := openLoop_spec atts htry d0
  unfold safeRun at herr ⊢
  rcases hopen : openLoop try_ atts d0 with ⟨d1, _ | t⟩
  · rw [hopen] at hl1
    have := hl1 rfl
    simp only at this
    subst this
    exact ⟨fun _ _ => rfl, fun _ => rfl⟩
  · rw [hopen] at hl2 herr
    obtain ⟨⟨a, ha, rfl⟩, hfree, hd1⟩ := hl2 _ rfl
    simp only at hd1 herr ⊢
    subst hd1
    obtain ⟨wf, htemp⟩ := hc a ha
    have hnot : ∀ q, (∀ a ∈ atts, ¬ a.path <+: q) → ¬ a.path <+: q := fun q h => h a ha
    have hrmok : (∀ a ∈ atts, ∀ d, ((cfg a.path).removeAll d).2.2 = true) → ∀ d, ((cfg a.path).removeAll d).2.2 = true := fun h => h a ha
    generalize cfg a.path = C at wf htemp herr hrmok ⊢
    have htree := htree a ha hfree
    rw [← htemp] at htree hnot herr ⊢
    have htr := start_trace (t := a.path) (v := v) (d0 := d0)
    rw [← htemp] at htr
    have spec := safeOperation_spec C wf { disk := Copy.Disk.set d0 C.temp v, trace := [d0, Copy.Disk.set d0 C.temp v], log := [] } htr
    have herr : (safeOperation C { disk := Copy.Disk.set d0 C.temp v, trace := [d0, Copy.Disk.set d0 C.temp v], log := [] }).2 ≠ none := by simpa using herr
    obtain ⟨dl, hdl, hrm, hq⟩ := spec.err herr
    refine ⟨fun q h => ?_, ?_⟩
    · have h' : ¬ C.temp <+: q := hnot q h
      exact (hq.disk q h').trans (set_confined q h')
    · intro hok
      funext q
      by_cases ht : C.temp <+: q
      · rw [hrm, wf.removes _ (hrmok hok _) q ht, htree q ht]
      · exact (hq.disk q ht).trans (set_confined q ht)

/-- **C19** fails: `MkdirRandom`, used by `CopyFs`, leaves its directory behind when the directory cannot be opened after its creation. -/
theorem C19_counterexample_mkdir_leak (cfg : Path → Cfg) :
    let r := safeRun (mkdirTry 493) [⟨[['t']], true, false⟩] cfg (fun _ => none)
    r.2 = some none ∧ r.1.disk [['t']] = some (.dir 493) := by
  exact ⟨rfl, rfl⟩

/-! ### the default policy's temporary is not nested with the target -/

open Verif.Path in
/-- For a clean target below the root whose name is at most 240 bytes, the temporary of the default policy is a sibling.
Missing from C18: longer names, see the counterexample. -/
theorem C18_random_policy_apart_partial (target : Str) (u : Nat) (hu : u < 2 ^ 32) (t : Str) (h : randomTemp target u = some t)
    (D : List Str) (b : Str) (hcs : comps target = D ++ [b]) (hclean : clean target = target) (hlen : b.length ≤ 240) :
    Apart (comps t) (comps target) := by
  obtain ⟨hs, rfl⟩ := randomTemp_eq h
  have hn := tempFile_isName hs hu
  have hnorm := comps_normal target
  rw [hcs] at hnorm
  have hb : base target = b := by
    rw [← hclean]; unfold clean; rw [hcs]
    exact base_render ((hnorm.isComp b (by simp)).1)
  have hdir : comps (randomPolicyDir target) = D := by
    unfold randomPolicyDir
    rw [show clean target = render (isAbs target) (D ++ [b]) by unfold clean; rw [hcs]]
    rw [dir_render hnorm, comps_render hnorm.init]
  have hpb : patBase target = b := by
    rw [patBase_eq, hb]
    exact (C24_prefix b 240).2.2 (by omega)
  rw [comps_join2 (policyDir_ne target) hn, hdir, hcs, hpb]
  have hne : b ++ '.' :: padded u ++ tmpExt ≠ b := by
    intro he
    have := congrArg List.length he
    simp only [List.length_append, List.length_cons] at this
    omega
  constructor
  · intro hp
    have := List.IsPrefix.eq_of_length hp (by simp)
    exact hne (by simp at this)
  · intro hp
    have := List.IsPrefix.eq_of_length hp (by simp)
    exact hne (by simp at this)

open Verif.Path in
/-- With a longer name the temporary of the default policy can be the target itself: the content then grows at the target's own path. -/
theorem C18_counterexample_temp_is_target :
    randomTemp (List.replicate 240 'a' ++ ".0000000001.tmp".toList) 1 = some (List.replicate 240 'a' ++ ".0000000001.tmp".toList) := by
  decide +kernel

/-! ### non-vacuity -/

/-- A `Copy` of "hi" then "!" with one hook, everything working. -/
def exCfg (closeOk renameOk : Bool) (w : Nat → Nat × Bool) : Cfg where
  target := [['f']]
  temp := [['t']]
  optPre := [fun d => ([], d, true)]
  argPre := []
  op := copyLoop [['t']] .eof w 0 [[104, 105], [33]]
  argPost := []
  optPost := []
  ignoreCloseErr := false
  closeOk := closeOk
  renameOk := renameOk
  removeAll := fun d => ([], (fun q => if [['t']] <+: q then none else d q), true)

example (c r : Bool) (w : Nat → Nat × Bool) : CopyCfg (exCfg c r w) [[104, 105], [33]] .eof w := by
  refine ⟨rfl, ?_, ?_, ?_, by show Apart [['t']] [['f']]; unfold Apart; decide⟩
  · intro a ha; simp [exCfg] at ha; rw [ha]; intro d; exact ⟨rfl, rfl⟩
  · intro d x hx q hq; simp [exCfg] at hx hq; rw [hx]; simp [hq]
  · intro d _ q hq; exact if_pos hq

/-- The names tried: "x", which is taken, then "t". -/
def exAtts : List Att := [⟨[['x']], true, true⟩, ⟨[['t']], true, true⟩]
def exDisk : Disk := fun q => if q = [['x']] then some (.file 420 [7]) else none

/-- It publishes "hi!"; with a failing rename, or a short write, the disk is as before. -/
example : (safeRun (createTry 420) exAtts (fun _ => exCfg true true (fun _ => (9, true))) exDisk).2 = none ∧
    (safeRun (createTry 420) exAtts (fun _ => exCfg true true (fun _ => (9, true))) exDisk).1.disk [['f']] = some (.file 420 [104, 105, 33]) ∧
    (safeRun (createTry 420) exAtts (fun _ => exCfg true true (fun _ => (9, true))) exDisk).1.disk [['x']] = some (.file 420 [7]) ∧
    (safeRun (createTry 420) exAtts (fun _ => exCfg true false (fun _ => (9, true))) exDisk).2 = some (some .rename) ∧
    (safeRun (createTry 420) exAtts (fun _ => exCfg true true (fun _ => (1, true))) exDisk).2 = some (some .operation) := by
  decide +kernel

/-- A `CopyFs` of a small tree. -/
def exTree : Cfg := { exCfg true true (fun _ => (9, true)) with op := copyTree Copy.demoEnv ['t'] Copy.demoSrc }

example : TreeCfg exTree Copy.demoEnv ['t'] Copy.demoSrc := by
  refine ⟨by decide, rfl, ?_, ?_, ?_, by show Apart [['t']] [['f']]; unfold Apart; decide⟩
  · intro a ha; simp [exTree, exCfg] at ha; rw [ha]; intro d; exact ⟨rfl, rfl⟩
  · intro d x hx q hq; simp [exTree, exCfg] at hx hq; rw [hx]; simp [hq]
  · intro d _ q hq; exact if_pos hq

example : (safeRun (mkdirTry 448) exAtts (fun _ => exTree) exDisk).2 = none ∧
    (safeRun (mkdirTry 448) exAtts (fun _ => exTree) exDisk).1.disk [['f'], ['f']] = some (.file 420 [1, 2, 3]) ∧
    (safeRun (mkdirTry 448) exAtts (fun _ => exTree) exDisk).1.disk [['t']] = none := by
  decide +kernel

/-- C19 asks for every failure in the error: here the rename and then the removal of the temporary fail, the temporary stays behind, and the
error is that of the rename alone. -/
theorem C19_counterexample_errors_dropped :
    let c : Cfg := { exCfg true false (fun _ => (9, true)) with removeAll := fun d => ([], d, false) }
    let r := safeRun (createTry 420) exAtts (fun _ => c) exDisk
    r.2 = some (some .rename) ∧ r.1.disk [['t']] = some (.file 420 [104, 105, 33]) ∧ (.removeAll, false) ∈ r.1.log := by
  decide +kernel

end Verif.Fsutil.Safe
