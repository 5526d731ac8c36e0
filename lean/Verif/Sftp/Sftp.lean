import Verif.Common.PathWalk
import Verif.Vroot.WrapModel
import Verif.Vroot.Prefix
/-
Model of /repo/vroot-adapter/sftpfs/sftpfs.go: which requests the SFTP filesystem sends; properties C65 and C67.
-/
namespace Verif.Sftp
open Verif.Path Verif.Vroot

/-! ## Model -/

/-- Requests of the SFTP client, with the paths sent. -/
inductive Req where
  | chmod (p : Str) (mode : Nat)
  | chown (p : Str) (uid gid : Int)
  | chtimes (p : Str) (atime mtime : Int)
  | link (o n : Str)
  | lstat (p : Str)
  | stat (p : Str)
  | mkdir (p : Str)
  | mkdirAll (p : Str)
  | open_ (p : Str) (flag : Flag)
  | readLink (p : Str)
  | remove (p : Str)
  | rename (o n : Str)
  | posixRename (o n : Str)
  | symlink (target p : Str)
  | readDir (p : Str)
  | seekEnd (p : Str) -- `File.Seek(0, io.SeekEnd)` on the file just opened, which asks for its size
deriving DecidableEq

/-- What the server answers. -/
inductive Ans where
  | ok
  | notExist
  | err
  | info (isDir : Bool)
  | names (l : List Str)
  | someNames (l : List Str) -- the listing failed after these names (`Client.ReadDir` returns them with the error)

/-- A server: any answer, depending on all requests so far. -/
abbrev Server := List Req → Req → Ans

/-- sftpfs.go 61-72 `isLocalSlash`. -/
def isLocalSlash (p : Str) : Bool :=
  if p = [] then false
  else if isAbs p then false
  else !(decide (p = dotdot) || (['.', '.', '/'] : Str).isPrefixOf p)

/-- sftpfs.go 43-56 `resolvePath`; the base is as given, not cleaned. -/
def resolvePath (base name : Str) : Option Str :=
  let cleaned := clean name
  if cleaned = dot then some base
  else if isLocalSlash cleaned = false then none
  else some (join2 base cleaned)

/-- sftpfs.go 304-313 `endsWithDot`. -/
def endsWithDot (name : Str) : Bool :=
  name = dot || (name.getLast? = some '.' && name.dropLast.getLast? = some slash)

/-- Send one request: the log, and the answer. -/
def send (srv : Server) (log : List Req) (r : Req) : List Req × Ans := (log ++ [r], srv log r)

def Ans.isErr : Ans → Bool
  | .notExist => true
  | .err => true
  | .someNames _ => true
  | _ => false

/-- The names returned by `Client.ReadDir`. -/
def Ans.listed : Ans → List Str
  | .names l => l
  | .someNames l => l
  | _ => []

/-- sftpfs.go 285-289: over the entries; the first error is kept. -/
def removeEach (rec : Str → List Req → Option (List Req × Bool)) (abs : Str) : List Str → List Req → Bool → Option (List Req × Bool)
  | [], log, failed => some (log, failed)
  | e :: es, log, failed => match rec (abs ++ slash :: e) log with
    | none => none
    | some (log, f) => removeEach rec abs es log (failed || f)

/-- sftpfs.go 261-299 `removeAll`: the requests, and whether it failed. `none` when the server's tree is deeper than `fuel`. -/
def removeAll (srv : Server) : (fuel : Nat) → Str → List Req → Option (List Req × Bool)
  | 0, _, _ => none
  | fuel + 1, abs, log =>
    match send srv log (.remove abs) with
    | (log, .err) =>
      match send srv log (.lstat abs) with
      | (log, .notExist) => some (log, false)
      | (log, .info true) =>
        match send srv log (.readDir abs) with
        | (log, .notExist) => some (log, false)
        | (log, a) =>
          match removeEach (removeAll srv fuel) abs a.listed log a.isErr with
          | none => none
          | some (log, failed) => match send srv log (.remove abs) with
            | (log, .err) => some (log, true)
            | (log, _) => some (log, failed)
      | (log, _) => some (log, true)
    | (log, _) => some (log, false)

def oCREATE : Flag := 0x40
def oAPPEND : Flag := 0x400

/-- The requests a method sends (sftpfs.go 75-362); `none` when `removeAll` does not end within `fuel`.  An error leaves the log as it is: nothing was sent.
Opening sends, besides the request to open, one for the size when appending (201-206) and a `Chmod` when the file may have been created (207-209). -/
def call (srv : Server) (fuel : Nat) (posixRename : Bool) (base : Str) (c : FsCall) (log : List Req) : Option (List Req × Bool) :=
  let on1 (n : Str) (k : Str → Option (List Req × Bool)) : Option (List Req × Bool) := match resolvePath base n with
    | none => some (log, true)
    | some p => k p
  let one (r : Req) : Option (List Req × Bool) := let x := send srv log r; some (x.1, x.2.isErr)
  -- send the request and, if it succeeds, a Chmod whose answer is ignored
  let thenChmod (r : Req) (p : Str) (perm : Nat) (cond : Bool) : Option (List Req × Bool) :=
    let x := send srv log r
    if x.2.isErr then some (x.1, true) else if cond && perm ≠ 0 then some ((send srv x.1 (.chmod p perm)).1, false) else some (x.1, false)
  -- the same with a request for the size in between, whose failure is the call's
  let thenSeekChmod (r : Req) (p : Str) (perm : Nat) (cond : Bool) : Option (List Req × Bool) :=
    let x := send srv log r
    if x.2.isErr then some (x.1, true) else
      let y := send srv x.1 (.seekEnd p)
      if y.2.isErr then some (y.1, true) else if cond && perm ≠ 0 then some ((send srv y.1 (.chmod p perm)).1, false) else some (y.1, false)
  match c with
  | .chmod n m => on1 n (fun p => one (.chmod p m))
  | .chown n u g => on1 n (fun p => one (.chown p u g))
  | .chtimes n a m => on1 n (fun p => one (.chtimes p a m))
  | .close => some (log, false)
  | .create n => on1 n (fun p => thenChmod (.open_ p 0x242#64) p 0o666 true)
  | .lchown n u g => on1 n (fun p => one (.chown p u g))
  | .link o n => on1 o (fun o' => on1 n (fun n' => one (.link o' n')))
  | .lstat n => on1 n (fun p => if p = base then one (.stat p) else one (.lstat p))
  | .mkdir n m => on1 n (fun p => thenChmod (.mkdir p) p m true)
  | .mkdirAll n m => on1 n (fun p => thenChmod (.mkdirAll p) p m true)
  | .name => some (log, false)
  | .open_ n => on1 n (fun p => one (.open_ p 0))
  | .openFile n f m => on1 n (fun p => if f &&& oAPPEND ≠ 0 then thenSeekChmod (.open_ p f) p m (f &&& oCREATE ≠ 0) else thenChmod (.open_ p f) p m (f &&& oCREATE ≠ 0))
  | .openRoot _ => some (log, true)
  | .readLink n => on1 n (fun p => if p = base then some (log, true) else one (.readLink p))
  | .remove n => on1 n (fun p => one (.remove p))
  | .removeAll n => if endsWithDot n then some (log, true) else on1 n (fun p => if p = base then some (log, true) else removeAll srv fuel p log)
  | .rename o n => on1 o (fun o' => on1 n (fun n' => one (if posixRename then .posixRename o' n' else .rename o' n')))
  | .stat n => on1 n (fun p => one (.stat p))
  | .symlink o n => on1 n (fun p => one (.symlink o p))

/-! ## Specification -/

/-- The paths a request asks the server to act on (a symbolic link's target is data). -/
def Req.paths : Req → List Str
  | .chmod p _ | .chown p _ _ | .chtimes p _ _ | .lstat p | .stat p | .mkdir p | .mkdirAll p | .open_ p _ | .readLink p | .remove p | .readDir p | .seekEnd p => [p]
  | .link o n | .rename o n | .posixRename o n => [o, n]
  | .symlink _ p => [p]

/-- A path at or beneath the base, element by element. -/
def Under (base p : Str) : Prop := isAbs p = isAbs base ∧ p ≠ [] ∧ ∃ ns, (∀ n ∈ ns, IsName n) ∧ comps p = comps base ++ ns

/-- A server whose directory listings hold names. -/
def HonestNames (srv : Server) : Prop := ∀ log r, ∀ n ∈ (srv log r).listed, IsName n

def AllUnder (base : Str) (log : List Req) : Prop := ∀ r ∈ log, ∀ p ∈ r.paths, Under base p

/-! ## C65 -/

theorem isLocalSlash_clean (name : Str) : isLocalSlash (clean name) = true ↔ placeOf name ≠ none := by
  unfold isLocalSlash
  rw [if_neg (clean_ne_nil _), isAbs_clean]
  cases ha : isAbs name with
  | true => simp [placeOf, ha]
  | false =>
    simp only [Bool.false_eq_true, if_false]
    have hN : Normal false (comps name) := by have := comps_normal name; rwa [ha] at this
    by_cases hc : comps name = []
    · have hcl : clean name = dot := by unfold clean render; simp [ha, hc]
      rw [hcl]
      have : placeOf name = some [] := (clean_eq_dot_iff name).1 hcl
      rw [this]
      simp; decide
    · have hcl : clean name = join (comps name) := by unfold clean render; simp [ha, hc]
      have hj := join_eq_dotdot hN
      rw [hcl]
      have hb : (decide (join (comps name) = dotdot) || (['.', '.', '/'] : Str).isPrefixOf (join (comps name))) = true ↔ (comps name).head? = some dotdot := by
        rw [← hj, Bool.or_eq_true, decide_eq_true_eq, List.isPrefixOf_iff_prefix]
        constructor
        · rintro (h | ⟨t, ht⟩)
          · exact Or.inl h
          · exact Or.inr ⟨t, ht.symm⟩
        · rintro (h | ⟨t, ht⟩)
          · exact Or.inl h
          · exact Or.inr ⟨t, ht.symm⟩
      constructor
      · intro h hp
        have hd : dotdot ∈ comps name := by
          rcases placeOf_none hp with h | h
          · rw [ha] at h; cases h
          · exact h
        have hh : (comps name).head? = some dotdot := by
          generalize comps name = cs at hN hd
          cases hN with
          | names hn => exact absurd rfl (hn _ hd).2.2
          | up _ _ => rfl
        rw [hb.2 hh] at h
        cases h
      · intro h
        cases hx : (decide (join (comps name) = dotdot) || (['.', '.', '/'] : Str).isPrefixOf (join (comps name))) with
        | false => rfl
        | true =>
          have hh := hb.1 hx
          cases hp : placeOf name with
          | none => exact absurd hp h
          | some ns =>
            obtain ⟨_, h2, h3⟩ := placeOf_some hp
            rw [h2] at hh
            have : dotdot ∈ ns := List.mem_of_mem_head? (by rw [hh]; rfl)
            exact absurd rfl (h3 _ this).2.2

/-- **C65, refusal and place.** A name is refused exactly when it is absolute or steps above the base; the path sent for any other name leads to the same place below the base. -/
theorem C65_resolve (base : Str) (hb : base ≠ []) (name : Str) :
    (resolvePath base name = none ↔ placeOf name = none) ∧
    ∀ p, resolvePath base name = some p → ∃ ns, placeOf name = some ns ∧ isAbs p = isAbs base ∧ p ≠ [] ∧ comps p = comps base ++ ns := by
  have hl := isLocalSlash_clean name
  unfold resolvePath
  simp only
  by_cases h1 : clean name = dot
  · rw [if_pos h1]
    have hp := (clean_eq_dot_iff name).1 h1
    refine ⟨by simp [hp], ?_⟩
    intro p h
    cases h
    exact ⟨[], hp, rfl, hb, by simp⟩
  · rw [if_neg h1]
    cases h2 : isLocalSlash (clean name) with
    | false =>
      simp only [if_true, true_iff]
      refine ⟨?_, by simp⟩
      cases hp : placeOf name with
      | none => rfl
      | some ns => have := hl.2 (by rw [hp]; simp); rw [h2] at this; cases this
    | true =>
      simp only [Bool.true_eq_false, if_false]
      have hne := hl.1 h2
      refine ⟨by simp [hne], ?_⟩
      intro p h
      cases hp : placeOf name with
      | none => exact absurd hp hne
      | some ns =>
        obtain ⟨ha, hc, hn⟩ := placeOf_some hp
        simp only [Option.some.injEq] at h
        subst h
        have hj : join2 base (clean name) = clean (base ++ slash :: clean name) := by
          unfold join2
          rw [if_neg (fun h => hb h.1), if_neg hb, if_neg (clean_ne_nil _)]
        refine ⟨ns, rfl, ?_, ?_, ?_⟩
        · rw [hj, isAbs_clean, isAbs_append hb]
        · rw [hj]; exact clean_ne_nil _
        · rw [hj, comps_clean, comps_join base (clean name) hb (by rw [comps_clean, hc]; exact hn) (by rw [isAbs_clean]; exact ha), comps_clean, hc]

theorem resolve_under {base name p : Str} (hb : base ≠ []) (h : resolvePath base name = some p) : Under base p := by
  obtain ⟨ns, h1, h2, h3, h4⟩ := (C65_resolve base hb name).2 p h
  exact ⟨h2, h3, ns, (placeOf_some h1).2.2, h4⟩

theorem under_child {base p e : Str} (h : Under base p) (he : IsName e) : Under base (p ++ slash :: e) := by
  obtain ⟨h1, h2, ns, h3, h4⟩ := h
  have hc : comps e = [e] := by
    have hN : Normal false [e] := .names (by intro c hc; simp at hc; subst hc; exact he)
    have := comps_render hN
    simpa [render, join] using this
  have ha : isAbs e = false := by
    cases e with
    | nil => rfl
    | cons a t =>
      have : a ≠ slash := by rintro rfl; exact he.1.2 List.mem_cons_self
      simp [isAbs, this]
  refine ⟨by rw [isAbs_append h2, h1], by simp, ns ++ [e], ?_, ?_⟩
  · intro n hn
    rcases List.mem_append.1 hn with hn | hn
    · exact h3 n hn
    · simp at hn; subst hn; exact he
  · rw [comps_join p e h2 (by rw [hc]; intro c hc; simp at hc; subst hc; exact he) ha, h4, hc, List.append_assoc]

theorem allUnder_send {base : Str} {log : List Req} (h : AllUnder base log) {r : Req} (hr : ∀ p ∈ r.paths, Under base p) : AllUnder base (log ++ [r]) := by
  intro x hx p hp
  rcases List.mem_append.1 hx with hx | hx
  · exact h x hx p hp
  · simp at hx; subst hx; exact hr p hp

theorem removeEach_under {base : Str} {rec : Str → List Req → Option (List Req × Bool)}
    (hrec : ∀ p log r, Under base p → AllUnder base log → rec p log = some r → AllUnder base r.1) (abs : Str) (hab : Under base abs) :
    ∀ (es : List Str), (∀ e ∈ es, IsName e) → ∀ log failed r, AllUnder base log → removeEach rec abs es log failed = some r → AllUnder base r.1 := by
  intro es
  induction es with
  | nil => intro _ log failed r h hr; cases hr; exact h
  | cons e rest ih =>
    intro he log failed r h hr
    unfold removeEach at hr
    split at hr
    · cases hr
    · rename_i log' f heq
      exact ih (fun x hx => he x (List.mem_cons_of_mem _ hx)) log' _ r
        (hrec _ _ _ (under_child hab (he e List.mem_cons_self)) h heq) hr

theorem removeAll_under {base : Str} {srv : Server} (hs : HonestNames srv) : ∀ fuel abs log r, Under base abs → AllUnder base log → removeAll srv fuel abs log = some r →
    AllUnder base r.1 := by
  intro fuel
  induction fuel with
  | zero => intro abs log r _ _ h; cases h
  | succ f ih =>
    intro abs log r hab hlog h
    have l1 : AllUnder base (log ++ [.remove abs]) := allUnder_send hlog (by intro p hp; simp [Req.paths] at hp; subst hp; exact hab)
    have l2 : AllUnder base (log ++ [.remove abs] ++ [.lstat abs]) := allUnder_send l1 (by intro p hp; simp [Req.paths] at hp; subst hp; exact hab)
    have l3 : AllUnder base (log ++ [.remove abs] ++ [.lstat abs] ++ [.readDir abs]) := allUnder_send l2 (by intro p hp; simp [Req.paths] at hp; subst hp; exact hab)
    unfold removeAll at h
    simp only [send] at h
    split at h
    · rename_i log1 heq1
      obtain ⟨rfl, _⟩ := Prod.mk.inj heq1
      split at h
      · rename_i log2 heq2; obtain ⟨rfl, _⟩ := Prod.mk.inj heq2; cases h; exact l2
      · rename_i log2 heq2
        obtain ⟨rfl, _⟩ := Prod.mk.inj heq2
        split at h
        · rename_i log3 heq3; obtain ⟨rfl, _⟩ := Prod.mk.inj heq3; cases h; exact l3
        · rename_i log3 a hna heq3
          obtain ⟨h31, h32⟩ := Prod.mk.inj heq3
          subst h31
          split at h
          · cases h
          · rename_i log4 failed heq4
            have l4 : AllUnder base log4 := by
              refine removeEach_under (fun p log r h1 h2 h3 => ih p log r h1 h2 h3) abs hab _ ?_ _ _ (log4, failed) l3 heq4
              intro e he
              exact hs _ _ e (by rw [h32]; exact he)
            have l5 : AllUnder base (log4 ++ [.remove abs]) := allUnder_send l4 (by intro p hp; simp [Req.paths] at hp; subst hp; exact hab)
            split at h
            · rename_i log5 heq5; obtain ⟨rfl, _⟩ := Prod.mk.inj heq5; cases h; exact l5
            · rename_i log5 _ _ heq5; obtain ⟨rfl, _⟩ := Prod.mk.inj heq5; cases h; exact l5
      · rename_i log2 _ _ _ heq2; obtain ⟨rfl, _⟩ := Prod.mk.inj heq2; cases h; exact l2
    · rename_i log1 _ _ heq1; obtain ⟨rfl, _⟩ := Prod.mk.inj heq1; cases h; exact l1

/-- **C65.** For every base, every server whose listings hold names, every call and every log: all paths in all requests sent, also those of the recursive removal, are at or
beneath the base.
Missing from C65: servers that list names with separators or "..". -/
theorem C65_confined_partial (srv : Server) (hs : HonestNames srv) (fuel : Nat) (posixRename : Bool) (base : Str) (hb : base ≠ []) (c : FsCall) (log : List Req) (hlog : AllUnder base log)
    (r : List Req × Bool) (h : call srv fuel posixRename base c log = some r) : AllUnder base r.1 := by
  have one : ∀ (q : Req), (∀ p ∈ q.paths, Under base p) → ∀ r, some ((send srv log q).1, (send srv log q).2.isErr) = some r → AllUnder base r.1 := by
    intro q hq r hr; cases hr; exact allUnder_send hlog hq
  have chm : ∀ (q : Req) (p : Str) (perm : Nat) (cond : Bool), Under base p → (∀ p ∈ q.paths, Under base p) → ∀ r,
      (if (send srv log q).2.isErr then some ((send srv log q).1, true)
        else if cond && perm ≠ 0 then some ((send srv (send srv log q).1 (.chmod p perm)).1, false) else some ((send srv log q).1, false)) = some r →
      AllUnder base r.1 := by
    intro q p perm cond hp hq r hr
    have h1 : AllUnder base (log ++ [q]) := allUnder_send hlog hq
    split at hr
    · cases hr; exact h1
    · split at hr
      · cases hr; exact allUnder_send h1 (by intro x hx; simp [Req.paths] at hx; subst hx; exact hp)
      · cases hr; exact h1
  have p1 : ∀ {n : Str} {k : Str → Option (List Req × Bool)} {r}, (match resolvePath base n with | none => some (log, true) | some p => k p) = some r →
      (∀ p, Under base p → k p = some r → AllUnder base r.1) → AllUnder base r.1 := by
    intro n k r hr hk
    split at hr
    · cases hr; exact hlog
    · rename_i p hp; exact hk p (resolve_under hb hp) hr
  have single : ∀ {p : Str} {q : Req}, Under base p → q.paths = [p] → ∀ x ∈ q.paths, Under base x := by
    intro p q hp hq x hx; rw [hq] at hx; simp at hx; subst hx; exact hp
  cases c <;> simp only [call] at h
  case close => cases h; exact hlog
  case name => cases h; exact hlog
  case openRoot => cases h; exact hlog
  case chmod => exact p1 h (fun p hp hr => one _ (single hp rfl) r hr)
  case chown => exact p1 h (fun p hp hr => one _ (single hp rfl) r hr)
  case chtimes => exact p1 h (fun p hp hr => one _ (single hp rfl) r hr)
  case lchown => exact p1 h (fun p hp hr => one _ (single hp rfl) r hr)
  case stat => exact p1 h (fun p hp hr => one _ (single hp rfl) r hr)
  case open_ => exact p1 h (fun p hp hr => one _ (single hp rfl) r hr)
  case remove => exact p1 h (fun p hp hr => one _ (single hp rfl) r hr)
  case symlink => exact p1 h (fun p hp hr => one _ (single hp rfl) r hr)
  case create => exact p1 h (fun p hp hr => chm _ p _ _ hp (single hp rfl) r hr)
  case mkdir => exact p1 h (fun p hp hr => chm _ p _ _ hp (single hp rfl) r hr)
  case mkdirAll => exact p1 h (fun p hp hr => chm _ p _ _ hp (single hp rfl) r hr)
  case openFile =>
    refine p1 h (fun p hp hr => ?_)
    split at hr
    · have h1 : ∀ f, AllUnder base (log ++ [.open_ p f]) := fun f => allUnder_send hlog (single hp rfl)
      have h2 : ∀ f, AllUnder base (log ++ [.open_ p f] ++ [.seekEnd p]) := fun f => allUnder_send (h1 f) (single hp rfl)
      split at hr
      · cases hr; exact h1 _
      · split at hr
        · cases hr; exact h2 _
        · split at hr
          · cases hr; exact allUnder_send (h2 _) (single hp rfl)
          · cases hr; exact h2 _
    · exact chm _ p _ _ hp (single hp rfl) r hr
  case lstat =>
    refine p1 h (fun p hp hr => ?_)
    split at hr
    · exact one _ (single hp rfl) r hr
    · exact one _ (single hp rfl) r hr
  case readLink =>
    refine p1 h (fun p hp hr => ?_)
    split at hr
    · cases hr; exact hlog
    · exact one _ (single hp rfl) r hr
  case removeAll =>
    split at h
    · cases h; exact hlog
    · refine p1 h (fun p hp hr => ?_)
      split at hr
      · cases hr; exact hlog
      · exact removeAll_under hs fuel p log r hp hlog hr
  case link =>
    refine p1 h (fun o ho hr => p1 hr (fun n hn hr => one _ ?_ r hr))
    intro x hx
    simp [Req.paths] at hx
    rcases hx with rfl | rfl <;> assumption
  case rename =>
    refine p1 h (fun o ho hr => p1 hr (fun n hn hr => one _ ?_ r hr))
    intro x hx
    split at hx
    all_goals
      simp [Req.paths] at hx
      rcases hx with rfl | rfl <;> assumption

/-- **C65, the base is kept by `RemoveAll`.** Every spelling of the base is refused without a request. -/
theorem C65_removeAll_base (srv : Server) (fuel : Nat) (posixRename : Bool) (base n : Str) (log : List Req) (h : placeOf n = some []) :
    call srv fuel posixRename base (.removeAll n) log = some (log, true) := by
  have hr : resolvePath base n = some base := by
    unfold resolvePath
    simp only
    rw [if_pos ((clean_eq_dot_iff n).2 h)]
  simp only [call, hr]
  split
  · rfl
  · simp

/-- A server with a directory "d" holding "f" (nothing can be removed while it is not empty). -/
def sampleServer : Server := fun log r =>
  match r with
  | .remove p => if p = ['/', 's', '/', 'd'] ∧ .remove ['/', 's', '/', 'd', '/', 'f'] ∉ log then .err else .ok
  | .lstat _ => .info true
  | .readDir _ => .names [['f']]
  | _ => .ok

example : HonestNames sampleServer := by
  intro log r n hn
  unfold sampleServer at hn
  cases r with
  | remove p =>
    simp only at hn
    split at hn <;> cases hn
  | readDir p =>
    have : n = ['f'] := by simpa [Ans.listed] using hn
    subst this; decide
  | _ => cases hn

/-- Removing "d" below "/s/": the directory is tried, listed, its entry removed, and it is removed. -/
example : call sampleServer 5 false ['/', 's', '/'] (.removeAll ['x', '/', '.', '.', '/', 'd']) [] =
    some ([.remove ['/', 's', '/', 'd'], .lstat ['/', 's', '/', 'd'], .readDir ['/', 's', '/', 'd'], .remove ['/', 's', '/', 'd', '/', 'f'], .remove ['/', 's', '/', 'd']], false) := by
  decide +kernel

/-- A server that lists "../x" makes the recursive removal ask for the removal of "/s/x" through "/s/d", which is outside "/s/d"; with two steps it leaves the base. -/
theorem C65_counterexample_hostile_names :
    ∃ srv : Server, ∃ r, call srv 5 false ['/', 's'] (.removeAll ['d']) [] = some r ∧ ¬ AllUnder ['/', 's'] r.1 := by
  refine ⟨fun log r => match r with
    | .remove p => if p = ['/', 's', '/', 'd'] ∧ log = [] then .err else .ok
    | .lstat _ => .info true
    | .readDir _ => .names [['.', '.', '/', '.', '.', '/', 'e']]
    | _ => .ok, _, rfl, ?_⟩
  intro h
  have := h (.remove ['/', 's', '/', 'd', '/', '.', '.', '/', '.', '.', '/', 'e']) (by decide +kernel) _ List.mem_cons_self
  obtain ⟨_, _, ns, _, hc⟩ := this
  have h1 : comps ['/', 's', '/', 'd', '/', '.', '.', '/', '.', '.', '/', 'e'] = [['e']] := by decide +kernel
  have h2 : comps ['/', 's'] = [['s']] := by decide +kernel
  rw [h1, h2] at hc
  simp at hc

/-! ## C67 -/

/-- The permission bits of the server's files; opening for creation and making directories give a new file some mode and leave an existing one's alone, as POSIX and the SFTP server do. -/
def applyReq (fresh : Nat) (modes : Str → Option Nat) : Req → Str → Option Nat
  | .chmod p m => fun q => if q = p ∧ modes q ≠ none then some m else modes q
  | .open_ p f => fun q => if q = p ∧ modes q = none ∧ f &&& oCREATE ≠ 0 then some fresh else modes q
  | .mkdir p => fun q => if q = p ∧ modes q = none then some fresh else modes q
  | .mkdirAll p => fun q => if q = p ∧ modes q = none then some fresh else modes q
  | .remove p => fun q => if q = p then none else modes q
  | _ => modes

def applyAll (fresh : Nat) (modes : Str → Option Nat) (log : List Req) : Str → Option Nat := log.foldl (applyReq fresh) modes

def openFn (c : FsCall) : Bool := match c with | .create _ | .open_ _ | .openFile _ _ _ | .mkdirAll _ _ => true | _ => false

/-- **C67 (partial).** Opening without the flag to create, or with permission 0, leaves the modes of existing files alone. -/
theorem C67_open_keeps_mode_partial (srv : Server) (fuel : Nat) (posixRename : Bool) (base n : Str) (f : Flag) (perm : Nat) (hf : f &&& oCREATE = 0 ∨ perm = 0)
    (fresh : Nat) (modes : Str → Option Nat) (q : Str) (m : Nat) (hq : modes q = some m) (r : List Req × Bool)
    (h : call srv fuel posixRename base (.openFile n f perm) [] = some r) : applyAll fresh modes r.1 q = some m := by
  simp only [call] at h
  split at h
  · cases h; exact hq
  · rename_i p hp
    have key : applyAll fresh modes [.open_ p f] q = some m := by
      simp [applyAll, applyReq, hq]
    have key2 : applyAll fresh modes [.open_ p f, .seekEnd p] q = some m := by
      simp [applyAll, applyReq, hq]
    have hno : ¬ ((decide (f &&& oCREATE ≠ 0) && decide (perm ≠ 0)) = true) := by
      rcases hf with hf | hf <;> simp [hf]
    split at h
    · by_cases he : (send srv [] (.open_ p f)).2.isErr = true
      · rw [if_pos he] at h; cases h; exact key
      · rw [if_neg he] at h
        split at h
        · cases h; exact key2
        · cases h; exact key2
    by_cases he : (send srv [] (.open_ p f)).2.isErr = true
    · rw [if_pos he] at h; cases h; exact key
    · rw [if_neg he] at h
      cases h; exact key

/-- **C67 does not hold:** creating (or opening for creation) an existing file changes its mode, although nothing asked for that. Here the existing private file "/s/f" becomes 0666. -/
theorem C67_counterexample_create_chmods :
    ∃ r, call (fun _ _ => .ok) 0 false ['/', 's'] (.create ['f']) [] = some r ∧
      applyAll 0o644 (fun q => if q = ['/', 's', '/', 'f'] then some 0o600 else none) r.1 ['/', 's', '/', 'f'] = some 0o666 := by
  refine ⟨_, rfl, ?_⟩
  decide +kernel

/-- Likewise `MkdirAll` of an existing directory changes its mode. -/
theorem C67_counterexample_mkdirAll_chmods :
    ∃ r, call (fun _ _ => .ok) 0 false ['/', 's'] (.mkdirAll ['d'] 0o755) [] = some r ∧
      applyAll 0o755 (fun q => if q = ['/', 's', '/', 'd'] then some 0o700 else none) r.1 ['/', 's', '/', 'd'] = some 0o755 := by
  refine ⟨_, rfl, ?_⟩
  decide +kernel

example : call (fun _ _ => .ok) 0 false ['/', 's'] (.openFile ['f'] 0x2#64 0o644) [] = some ([.open_ ['/', 's', '/', 'f'] 0x2#64], false) := by decide +kernel

end Verif.Sftp
