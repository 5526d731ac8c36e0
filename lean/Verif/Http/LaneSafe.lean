import Verif.Http.LaneProps
/-
C17, the part that needs no trust in the server: whatever the server answers and whatever other requests settle, the lane keeps to one
request and one body, is used by one call at a time, dies with the first failure, and once marked dead has somebody about to close it.
-/
namespace Verif.Http

/-- The control invariant of one call. -/
def RJ (s : Lane) (t : Nat) : RPhase → Prop
  | .idle | .unserved _ | .early _ _ _ | .planned _ | .sawAlive _ | .elsewhere _ | .wantLock _ => s.mu ≠ some (.reader t)
  | .locked _ => s.mu = some (.reader t)
  | .opening _ => s.mu = some (.reader t) ∧ s.state = .pending ∧ s.requests = 0
  | .asked _ _ _ => s.mu = some (.reader t) ∧ s.state = .pending
  | .reading _ _ => s.mu = some (.reader t) ∧ s.state = .open_
  | .served _ _ e => s.mu ≠ some (.reader t) ∧ (e ≠ none → s.state = .dead)

/-- Somebody is on the way to close the lane. -/
def Closing (s : Lane) : Prop := ∃ c, s.closers c = .wantLock ∨ s.closers c = .locked

/-- The shared control invariant. -/
structure ShJ (s : Lane) : Prop where
  nopanic : s.panicked = false
  req : s.requests ≤ 1
  unsent : s.requests = 0 ∨ s.state ≠ .pending ∨ ∃ t a w c, s.readers t = .asked a w c
  body : s.body.isSome = true ↔ s.state = .open_
  count : s.bodies = s.closes + (if s.state = .open_ then 1 else 0)
  recv : s.bodies ≤ 1 ∧ (s.state = .pending → s.bodies = 0)
  dead : s.state = .dead → s.dead = true
  closing : s.dead = true → s.state = .dead ∨ Closing s

structure InvJ (s : Lane) : Prop where
  sh : ShJ s
  readers : ∀ t, RJ s t (s.readers t)
  closers : ∀ c, s.closers c = .locked ↔ s.mu = some (.closer c)
  detached : s.dead = false → s.closers 0 = .absent

theorem RJ.frame {s s' : Lane} {i : Nat} {p : RPhase} (h : RJ s i p)
    (hmu : s'.mu = some (.reader i) ↔ s.mu = some (.reader i)) (hd : s.state = .dead → s'.state = .dead)
    (hh : s.mu = some (.reader i) → s'.state = s.state ∧ s'.requests = s.requests) : RJ s' i p := by
  cases p with
  | idle => exact fun x => h (hmu.1 x)
  | unserved a => exact fun x => h (hmu.1 x)
  | early a b c => exact fun x => h (hmu.1 x)
  | planned a => exact fun x => h (hmu.1 x)
  | sawAlive a => exact fun x => h (hmu.1 x)
  | elsewhere a => exact fun x => h (hmu.1 x)
  | wantLock a => exact fun x => h (hmu.1 x)
  | locked a => exact hmu.2 h
  | opening a =>
    obtain ⟨h1, h2, h3⟩ := h
    obtain ⟨e1, e2⟩ := hh h1
    exact ⟨hmu.2 h1, e1.trans h2, e2.trans h3⟩
  | asked a w c =>
    obtain ⟨h1, h2⟩ := h
    exact ⟨hmu.2 h1, (hh h1).1.trans h2⟩
  | reading a got =>
    obtain ⟨h1, h2⟩ := h
    exact ⟨hmu.2 h1, (hh h1).1.trans h2⟩
  | served a got e => exact ⟨fun x => h.1 (hmu.1 x), fun he => hd (h.2 he)⟩

theorem InvJ.stepR {s s' : Lane} (h : InvJ s) (t : Nat) (p : RPhase)
    (hr : s'.readers = fun i => if i = t then p else s.readers i)
    (sh : ShJ s') (ri : RJ s' t p)
    (hc : ∀ c, s'.closers c = .locked ↔ s'.mu = some (.closer c))
    (hdet : s'.dead = false → s'.closers 0 = .absent)
    (hmu : ∀ i, i ≠ t → (s'.mu = some (.reader i) ↔ s.mu = some (.reader i)))
    (hd : s.state = .dead → s'.state = .dead)
    (hh : ∀ i, i ≠ t → s.mu = some (.reader i) → s'.state = s.state ∧ s'.requests = s.requests) :
    InvJ s' := by
  refine ⟨sh, ?_, hc, hdet⟩
  intro i
  rw [hr]
  by_cases hi : i = t
  · subst hi; simp only [if_true]; exact ri
  · simp only [if_neg hi]
    exact (h.readers i).frame (hmu i hi) hd (hh i hi)

theorem InvJ.unsent_of {s : Lane} (h : InvJ s) {t : Nat} (hm : s.mu = some (.reader t))
    (hp : s.state = .pending) (hna : ∀ a w c, s.readers t ≠ .asked a w c) : s.requests = 0 := by
  rcases h.sh.unsent with h1 | h1 | ⟨u, a, w, c, h1⟩
  · exact h1
  · exact absurd hp h1
  · have := h.readers u
    rw [h1] at this
    have hmu := this.1
    rw [hm] at hmu
    simp at hmu
    subst hmu
    exact absurd h1 (hna a w c)

/-- `unsent` after a step of call `t` that is not sending. -/
theorem InvJ.unsent_keep {s : Lane} (h : InvJ s) (t : Nat) (p : RPhase) (hna : ∀ a w c, s.readers t ≠ .asked a w c) :
    s.requests = 0 ∨ s.state ≠ .pending ∨ ∃ u a w c, (if u = t then p else s.readers u) = .asked a w c := by
  rcases h.sh.unsent with h1 | h1 | ⟨u, a, w, c, h1⟩
  · exact Or.inl h1
  · exact Or.inr (Or.inl h1)
  · refine Or.inr (Or.inr ⟨u, a, w, c, ?_⟩)
    rw [if_neg]
    · exact h1
    · intro hu; subst hu; exact hna a w c h1

theorem InvJ.local_ {s : Lane} (h : InvJ s) (t : Nat) (p : RPhase)
    (hna : ∀ a w c, s.readers t ≠ .asked a w c) (ri : RJ s t p) : InvJ (s.setR t p) := by
  refine h.stepR t p rfl ?_ (ri.frame Iff.rfl (fun x => x) (fun _ => ⟨rfl, rfl⟩)) h.closers h.detached (fun _ _ => Iff.rfl) (fun x => x)
    (fun _ _ _ => ⟨rfl, rfl⟩)
  obtain ⟨a1, a2, _, a4, a5, a6, a7, a8⟩ := h.sh
  exact ⟨a1, a2, h.unsent_keep t p hna, a4, a5, a6, a7, a8⟩

theorem InvJ.finish {s : Lane} (h : InvJ s) (t : Nat) (hm : s.mu = some (.reader t))
    (s1 : Lane) (a : RArg) (g : Bytes) (e : Option HErr) (hr : s1.readers = s.readers) (hcl : s1.closers = s.closers)
    (hpan : s1.panicked = false) (hreq : s1.requests ≤ 1)
    (hb : s1.body.isSome = true ↔ s1.state = .open_) (hcount : s1.bodies = s1.closes + (if s1.state = .open_ then 1 else 0))
    (hrecv : s1.bodies ≤ 1) : InvJ ((s1.killLocked.unlock).setR t (.served a g e)) := by
  refine h.stepR t (.served a g e) ?_ ?_ ⟨by simp [Lane.setR, Lane.unlock], fun _ => rfl⟩ ?_
    (fun hx => by simp [Lane.setR, Lane.unlock, Lane.killLocked] at hx) ?_ (fun _ => rfl) ?_
  · funext i; simp [Lane.setR, Lane.unlock, Lane.killLocked, hr]
  · refine ⟨hpan, hreq, Or.inr (Or.inl (by simp [Lane.setR, Lane.unlock, Lane.killLocked])), ?_, ?_, ⟨hrecv, ?_⟩, fun _ => rfl, fun _ => Or.inl rfl⟩
    · show (if s1.state = .open_ then none else s1.body).isSome = true ↔ LaneState.dead = .open_
      by_cases ho : s1.state = .open_
      · simp [ho]
      · simp only [if_neg ho, reduceCtorEq, iff_false]
        intro hx; exact ho (hb.1 hx)
    · show s1.bodies = (if s1.state = .open_ then s1.closes + 1 else s1.closes) + 0
      rw [hcount]; split <;> omega
    · intro hx; simp [Lane.setR, Lane.unlock, Lane.killLocked] at hx
  · intro c
    show s1.closers c = .locked ↔ none = some _
    rw [hcl, h.closers c, hm]; simp
  · intro i hi
    show none = some _ ↔ _
    rw [hm]; simp; exact fun x => hi x.symm
  · intro i hi hmi; exact absurd hmi (others_free hm hi)

theorem InvJ.release {s : Lane} (h : InvJ s) (t : Nat) (hm : s.mu = some (.reader t)) (p : RPhase)
    (hna : ∀ a w c, s.readers t ≠ .asked a w c) (hp : RJ (s.unlock.setR t p) t p) : InvJ (s.unlock.setR t p) := by
  refine h.stepR t p rfl ?_ hp ?_ h.detached ?_ (fun x => x) ?_
  · obtain ⟨a1, a2, _, a4, a5, a6, a7, a8⟩ := h.sh
    exact ⟨a1, a2, h.unsent_keep t p hna, a4, a5, a6, a7, a8⟩
  · intro c
    show s.closers c = .locked ↔ none = some _
    rw [h.closers c, hm]; simp
  · intro i hi
    show none = some _ ↔ _
    rw [hm]; simp; exact fun x => hi x.symm
  · intro i hi hmi; exact absurd hmi (others_free hm hi)

theorem readTurn_invJ {v : View} {s : Lane} (h : InvJ s) (t : Nat) (a : RArg) (got : Bytes)
    (env : Env) (hph : s.readers t = .reading a got) : InvJ (readTurn v s t a got env) := by
  have hri := h.readers t
  rw [hph] at hri
  obtain ⟨hm, hst⟩ := hri
  have hsh := h.sh
  have hna : ∀ a w c, s.readers t ≠ .asked a w c := by intro a w c; rw [hph]; simp
  unfold readTurn
  simp only
  split
  · exact h.finish t hm s _ _ _ rfl rfl hsh.nopanic hsh.req hsh.body hsh.count hsh.recv.1
  · split
    · exact h.release t hm _ hna ⟨by simp [Lane.setR, Lane.unlock], fun x => absurd rfl x⟩
    · obtain ⟨⟨rest, failing⟩, hbody⟩ := Option.isSome_iff_exists.1 (hsh.body.2 hst)
      rw [hbody]
      simp only
      generalize (if ((a.k - got.length : Nat) : Int) > s.limit - s.pos then (s.limit - s.pos).toNat else a.k - got.length) = buf
      generalize min env.take buf = n
      generalize got ++ rest.take n = g'
      have fin : ∀ e, InvJ (({ s with body := some (rest.drop n, failing), pos := v.base + a.off + g'.length } : Lane).killLocked.unlock.setR t (.served a g' e)) := by
        intro e
        exact h.finish t hm { s with body := some (rest.drop n, failing), pos := v.base + a.off + g'.length } _ _ _ rfl rfl hsh.nopanic hsh.req
          (by simp [hst]) hsh.count hsh.recv.1
      split
      · exact fin _
      · split
        · split
          · exact fin _
          · split
            · exact fin _
            · exact fin _
        · refine h.stepR t _ rfl ?_ ⟨hm, hst⟩ h.closers h.detached (fun _ _ => Iff.rfl) (fun x => x) ?_
          · obtain ⟨a1, a2, _, a4, a5, a6, a7, a8⟩ := hsh
            refine ⟨a1, a2, Or.inr (Or.inl (by show s.state ≠ _; rw [hst]; simp)), ?_, a5, a6, a7, a8⟩
            show (some (rest.drop n, failing)).isSome = true ↔ s.state = .open_
            simp [hst]
          · intro i hi hmi; exact absurd hmi (others_free hm hi)

theorem readerStep_invJ (v : View) (args : Nat → Nat × Int) {s : Lane} (h : InvJ s) (t : Nat) (env : Env) :
    InvJ (readerStep v args s t env) := by
  have hri := h.readers t
  unfold readerStep
  cases hph : s.readers t with
  | idle =>
    rw [hph] at hri
    have hna : ∀ a w c, s.readers t ≠ .asked a w c := by intro a w c; rw [hph]; simp
    simp only
    split
    · exact h.local_ t _ hna hri
    · exact h.local_ t _ hna hri
  | planned a =>
    rw [hph] at hri
    have hna : ∀ a w c, s.readers t ≠ .asked a w c := by intro a w c; rw [hph]; simp
    simp only
    split
    · exact h.local_ t _ hna hri
    · exact h.local_ t _ hna hri
  | sawAlive a =>
    rw [hph] at hri
    have hna : ∀ a w c, s.readers t ≠ .asked a w c := by intro a w c; rw [hph]; simp
    simp only
    split
    · exact h.local_ t _ hna hri
    · exact h.local_ t _ hna hri
  | elsewhere a =>
    rw [hph] at hri
    have hna : ∀ a w c, s.readers t ≠ .asked a w c := by intro a w c; rw [hph]; simp
    simp only
    split
    · exact h.local_ t _ hna hri
    · rename_i hd
      have hd : s.dead = false := by simpa using hd
      have habs := h.detached hd
      have hmu0 : s.mu ≠ some (.closer 0) := by
        intro hx; have := (h.closers 0).2 hx; rw [habs] at this; simp at this
      refine h.stepR t _ rfl ?_ (by exact hri) ?_ (fun hx => by simp [Lane.setR, Lane.setC] at hx) (fun _ _ => Iff.rfl) (fun x => x)
        (fun _ _ _ => ⟨rfl, rfl⟩)
      · obtain ⟨a1, a2, _, a4, a5, a6, a7, a8⟩ := h.sh
        exact ⟨a1, a2, h.unsent_keep t _ hna, a4, a5, a6, fun _ => rfl, fun _ => Or.inr ⟨0, Or.inl (by simp [Lane.setR, Lane.setC])⟩⟩
      · intro c
        show (if c = 0 then CPhase.wantLock else s.closers c) = .locked ↔ s.mu = some (.closer c)
        by_cases hc : c = 0
        · subst hc; simp; exact hmu0
        · rw [if_neg hc]; exact h.closers c
  | wantLock a =>
    rw [hph] at hri
    have hna : ∀ a w c, s.readers t ≠ .asked a w c := by intro a w c; rw [hph]; simp
    simp only
    split
    · rename_i hmu
      refine h.stepR t _ rfl ?_ rfl ?_ h.detached ?_ (fun x => x) ?_
      · obtain ⟨a1, a2, _, a4, a5, a6, a7, a8⟩ := h.sh
        exact ⟨a1, a2, h.unsent_keep t _ hna, a4, a5, a6, a7, a8⟩
      · intro c
        show s.closers c = .locked ↔ some (Holder.reader t) = some (.closer c)
        rw [h.closers c, hmu]; simp
      · intro i hi
        show some (Holder.reader t) = some (.reader i) ↔ s.mu = _
        rw [hmu]; simp; exact fun x => hi x.symm
      · intro i hi hmi; rw [hmu] at hmi; simp at hmi
    · exact h
  | locked a =>
    rw [hph] at hri
    have hna : ∀ a w c, s.readers t ≠ .asked a w c := by intro a w c; rw [hph]; simp
    have hm : s.mu = some (.reader t) := hri
    simp only
    split
    · exact h.release t hm _ hna (by simp [RJ, Lane.setR, Lane.unlock])
    · rename_i hcond
      split
      · rename_i hp
        exact h.local_ t _ hna ⟨hm, hp, h.unsent_of hm hp hna⟩
      · rename_i hp
        have ho : s.state = .open_ := by
          cases hs : s.state with
          | pending => exact absurd hs hp
          | open_ => rfl
          | dead => exact absurd (Or.inl hs) hcond
        exact h.local_ t _ hna ⟨hm, ho⟩
  | opening a =>
    rw [hph] at hri
    obtain ⟨hm, hp, hreq⟩ := hri
    simp only
    refine h.stepR t _ rfl ?_ ⟨hm, hp⟩ h.closers h.detached (fun _ _ => Iff.rfl) (fun x => x) ?_
    · obtain ⟨a1, a2, _, a4, a5, a6, a7, a8⟩ := h.sh
      refine ⟨a1, ?_, Or.inr (Or.inr ⟨t, a, laneWantEnd v s.pinned, decide (ifRangeValue s.pinned ≠ []), by simp [Lane.setR]⟩), a4, a5, a6, a7, a8⟩
      show s.requests + 1 ≤ 1; omega
    · intro i hi hmi; exact absurd hmi (others_free hm hi)
  | asked a w c =>
    rw [hph] at hri
    obtain ⟨hm, hp⟩ := hri
    have hsh := h.sh
    have hb0 := hsh.recv.2 hp
    simp only
    cases env.resp with
    | none => exact h.finish t hm s _ _ _ rfl rfl hsh.nopanic hsh.req hsh.body hsh.count hsh.recv.1
    | some r =>
      simp only
      cases checkStream s.pinned r v.base w c with
      | mk m' res =>
        cases res with
        | error e =>
          simp only
          refine h.finish t hm { s with bodies := s.bodies + 1, pinned := m', closes := s.closes + 1 } _ _ _ rfl rfl hsh.nopanic hsh.req hsh.body ?_ ?_
          · show s.bodies + 1 = s.closes + 1 + (if s.state = .open_ then 1 else 0)
            have := hsh.count; omega
          · show s.bodies + 1 ≤ 1; omega
        | ok g =>
          simp only
          refine h.stepR t _ rfl ?_ ⟨hm, rfl⟩ h.closers h.detached (fun _ _ => Iff.rfl) (fun hx => by rw [hp] at hx; simp at hx) ?_
          · obtain ⟨a1, a2, _, a4, a5, a6, a7, a8⟩ := hsh
            refine ⟨a1, a2, Or.inr (Or.inl (by simp [Lane.setR])), by simp [Lane.setR], ?_, ⟨?_, by simp [Lane.setR]⟩, by simp [Lane.setR], fun hd => ?_⟩
            · show s.bodies + 1 = s.closes + 1
              rw [hp] at a5; simp at a5; omega
            · show s.bodies + 1 ≤ 1; omega
            · rcases a8 hd with x | x
              · rw [hp] at x; simp at x
              · exact Or.inr x
          · intro i hi hmi; exact absurd hmi (others_free hm hi)
  | reading a got => exact readTurn_invJ h t a got env hph
  | unserved a => exact h
  | served a got e => exact h
  | early x y e => exact h

theorem closerStep_invJ {s : Lane} (h : InvJ s) (c : Nat) : InvJ (closerStep s c) := by
  have hsh := h.sh
  unfold closerStep
  cases hc : s.closers c with
  | absent => exact h
  | done => exact h
  | start =>
    simp only
    refine ⟨?_, ?_, ?_, fun hx => by simp [Lane.setC] at hx⟩
    · obtain ⟨a1, a2, a3, a4, a5, a6, a7, a8⟩ := hsh
      exact ⟨a1, a2, a3, a4, a5, a6, fun _ => rfl, fun _ => Or.inr ⟨c, Or.inl (by simp [Lane.setC])⟩⟩
    · intro i; exact (h.readers i).frame Iff.rfl (fun x => x) (fun _ => ⟨rfl, rfl⟩)
    · intro d
      show (if d = c then CPhase.wantLock else s.closers d) = .locked ↔ s.mu = some (.closer d)
      by_cases hd : d = c
      · subst hd
        simp only [if_true, reduceCtorEq, false_iff]
        intro hx; have := (h.closers d).2 hx; rw [hc] at this; simp at this
      · rw [if_neg hd]; exact h.closers d
  | wantLock =>
    simp only
    split
    · rename_i hmu
      refine ⟨?_, ?_, ?_, ?_⟩
      · obtain ⟨a1, a2, a3, a4, a5, a6, a7, a8⟩ := hsh
        exact ⟨a1, a2, a3, a4, a5, a6, a7, fun _ => Or.inr ⟨c, Or.inr (by simp [Lane.setC])⟩⟩
      · intro i
        refine (h.readers i).frame ?_ (fun x => x) (fun _ => ⟨rfl, rfl⟩)
        show some (Holder.closer c) = some (.reader i) ↔ s.mu = _
        rw [hmu]; simp
      · intro d
        show (if d = c then CPhase.locked else s.closers d) = .locked ↔ some (Holder.closer c) = some (.closer d)
        by_cases hd : d = c
        · subst hd; simp
        · rw [if_neg hd, h.closers d, hmu]; simp; exact fun x => hd x.symm
      · intro hx
        have := h.detached hx
        show (if 0 = c then CPhase.locked else s.closers 0) = .absent
        by_cases hd : 0 = c
        · subst hd; rw [hc] at this; simp at this
        · rw [if_neg hd]; exact this
    · exact h
  | locked =>
    simp only
    have hmu := (h.closers c).1 hc
    refine ⟨?_, ?_, ?_, fun hx => by simp [Lane.setC, Lane.unlock, Lane.killLocked] at hx⟩
    · refine ⟨hsh.nopanic, hsh.req, Or.inr (Or.inl (by simp [Lane.setC, Lane.unlock, Lane.killLocked])), ?_, ?_, ⟨hsh.recv.1, ?_⟩, fun _ => rfl,
        fun _ => Or.inl rfl⟩
      · show (if s.state = .open_ then none else s.body).isSome = true ↔ LaneState.dead = .open_
        by_cases ho : s.state = .open_
        · simp [ho]
        · simp only [if_neg ho, reduceCtorEq, iff_false]
          intro hx; exact ho (hsh.body.1 hx)
      · show s.bodies = (if s.state = .open_ then s.closes + 1 else s.closes) + 0
        rw [hsh.count]; split <;> omega
      · intro hx; simp [Lane.setC, Lane.unlock, Lane.killLocked] at hx
    · intro i
      refine (h.readers i).frame ?_ (fun _ => rfl) ?_
      · show none = some _ ↔ s.mu = _
        rw [hmu]; simp
      · intro hx; rw [hmu] at hx; simp at hx
    · intro d
      show (if d = c then CPhase.done else s.closers d) = .locked ↔ none = some _
      by_cases hd : d = c
      · subst hd; simp
      · rw [if_neg hd, h.closers d, hmu]; simp; exact fun x => hd x.symm

theorem newLane_invJ (v : View) (m : Option ObjMeta) : InvJ (newLane v m) := by
  refine ⟨⟨rfl, by simp [newLane], Or.inl rfl, by simp [newLane], by simp [newLane], by simp [newLane], by simp [newLane], by simp [newLane]⟩, ?_, ?_, ?_⟩
  · intro t; show none ≠ some _; simp
  · intro c
    show (if c = 0 then CPhase.absent else .start) = .locked ↔ none = some _
    split <;> simp
  · intro _; rfl

theorem laneRun_invJ {v : View} {args : Nat → Nat × Int} {any : Resp → Prop} {settles : Option ObjMeta → Option ObjMeta → Prop}
    {m : Option ObjMeta} {s : Lane} (hrun : LaneRun v args any settles (newLane v m) s) : InvJ s := by
  generalize ha : newLane v m = s0 at hrun
  induction hrun with
  | refl => subst ha; exact newLane_invJ v m
  | tail _ st ih =>
    cases st with
    | reader t env h => exact readerStep_invJ v args ih t env
    | closer c => exact closerStep_invJ ih c
    | pin m' _ =>
      refine ⟨?_, ?_, ih.closers, ih.detached⟩
      · obtain ⟨a1, a2, a3, a4, a5, a6, a7, a8⟩ := ih.sh
        exact ⟨a1, a2, a3, a4, a5, a6, a7, a8⟩
      · intro i; exact (ih.readers i).frame Iff.rfl (fun x => x) (fun _ => ⟨rfl, rfl⟩)

/-- Any server, and other requests that settle anything at all. -/
abbrev AnyRun (v : View) (args : Nat → Nat × Int) : Lane → Lane → Prop := LaneRun v args (fun _ => True) (fun _ _ => True)

/-- C17: whatever the server answers, at most one request is ever sent for the lane and at most one body received; no two reads, and no
read and a closer, use the stream at once; a body is read only while it is open (never after it was closed: that would be the
panic), every body is closed once, and a lane that is dead holds none. -/
theorem C17_one_stream_exclusive (v : View) (args : Nat → Nat × Int) (m : Option ObjMeta) (s : Lane)
    (hrun : AnyRun v args (newLane v m) s) :
    s.requests ≤ 1 ∧ s.bodies ≤ 1 ∧ s.panicked = false ∧ s.closes ≤ s.bodies ∧
    (s.state = .dead → s.body = none ∧ s.closes = s.bodies) ∧
    (∀ t u, UsesStream (s.readers t) → UsesStream (s.readers u) → t = u) ∧
    (∀ t c, UsesStream (s.readers t) → s.closers c ≠ .locked) ∧
    (∀ t a got, s.readers t = .reading a got → s.state = .open_ ∧ s.body.isSome) := by
  have h := laneRun_invJ hrun
  have huse : ∀ t, UsesStream (s.readers t) → s.mu = some (.reader t) := by
    intro t ht
    have := h.readers t
    cases hp : s.readers t <;> rw [hp] at this ht <;> simp [UsesStream] at ht
    · exact this
    · exact this.1
    · exact this.1
    · exact this.1
  refine ⟨h.sh.req, h.sh.recv.1, h.sh.nopanic, ?_, ?_, ?_, ?_, ?_⟩
  · have := h.sh.count; omega
  · intro hd
    have hb : s.body = none := by
      cases hb : s.body with
      | none => rfl
      | some x =>
        have := h.sh.body.1 (by rw [hb]; rfl)
        rw [hd] at this; simp at this
    have := h.sh.count
    rw [hd] at this
    simp at this
    exact ⟨hb, this.symm⟩
  · intro t u ht hu
    have h1 := huse t ht
    rw [huse u hu] at h1
    simpa using h1.symm
  · intro t c ht hc
    have h1 := huse t ht
    rw [(h.closers c).1 hc] at h1
    simp at h1
  · intro t a got hp
    have := h.readers t
    rw [hp] at this
    exact ⟨this.2, h.sh.body.2 this.2⟩

/-- C17, after a failure (or the end, or a close): once some read was answered by the lane with an error, or a closer is through, the
lane is dead; it stays dead, sends no further request, and answers no further read — every read that was not answered before is
left to a bounded request.  Whatever the server answers. -/
theorem C17_dead_forever (v : View) (args : Nat → Nat × Int) (m : Option ObjMeta) (s s' : Lane)
    (hrun : AnyRun v args (newLane v m) s)
    (hd : (∃ t a g e, s.readers t = .served a g (some e)) ∨ s.state = .dead)
    (hrun' : AnyRun v args s s') :
    s'.state = .dead ∧ s'.requests = s.requests ∧ (∀ t a g e, s'.readers t = .served a g e → s.readers t = .served a g e) := by
  have h := laneRun_invJ hrun
  have hd : s.state = .dead := by
    rcases hd with ⟨t, a, g, e, ht⟩ | hd
    · have := h.readers t
      rw [ht] at this
      exact this.2 (by simp)
    · exact hd
  have hx : ∀ t, ¬ Drives (s.readers t) := by
    intro t ht
    have hr := h.readers t
    cases hp : s.readers t <;> rw [hp] at hr ht <;> simp [Drives] at ht
    · have := hr.2.1; rw [hd] at this; simp at this
    · have := hr.2; rw [hd] at this; simp at this
    · have := hr.2; rw [hd] at this; simp at this
  obtain ⟨h1, _, h2⟩ := dead_forever v args _ _ s s' hrun' ⟨hd, h.sh.dead hd⟩ hx
  exact ⟨h1.1, h1.2.2, h2⟩

/-- One closing goroutine that runs undisturbed from state `s`. -/
def closeUndisturbed (s : Lane) (c : Nat) : Lane := closerStep (closerStep s c) c

/-- C17, no body is leaked: as soon as the lane is marked dead (by a close, a failure, or a read elsewhere), it is either closed already
or some closing goroutine is on its way; when that goroutine is next to run and the mutex is free (or its own), two of its steps leave
no body open and every body received closed. -/
theorem C17_no_leak (v : View) (args : Nat → Nat × Int) (m : Option ObjMeta) (s : Lane)
    (hrun : AnyRun v args (newLane v m) s) (hd : s.dead = true) :
    (s.state = .dead ∧ s.body = none ∧ s.closes = s.bodies) ∨
    ∃ c, (s.closers c = .wantLock ∨ s.closers c = .locked) ∧
      ((s.mu = none ∨ s.mu = some (.closer c)) →
        (closeUndisturbed s c).state = .dead ∧ (closeUndisturbed s c).body = none ∧
        (closeUndisturbed s c).closes = (closeUndisturbed s c).bodies) := by
  have h := laneRun_invJ hrun
  rcases h.sh.closing hd with hx | ⟨c, hc⟩
  · left
    obtain ⟨_, _, _, _, g, _⟩ := C17_one_stream_exclusive v args m s hrun
    exact ⟨hx, g hx⟩
  · right
    refine ⟨c, hc, fun hmu => ?_⟩
    have hrun2 : AnyRun v args (newLane v m) (closeUndisturbed s c) := .tail (.tail hrun (.closer _ c)) (.closer _ c)
    have hdead : (closeUndisturbed s c).state = .dead := by
      rcases hc with hc | hc
      · have hm : s.mu = none := by
          rcases hmu with hm | hm
          · exact hm
          · have := (h.closers c).2 hm; rw [hc] at this; simp at this
        have e1 : closerStep s c = { s with mu := some (.closer c) }.setC c .locked := by
          unfold closerStep; rw [hc]; simp [hm]
        unfold closeUndisturbed
        rw [e1]
        unfold closerStep
        simp [Lane.setC, Lane.killLocked, Lane.unlock]
      · have e1 : closerStep s c = s.killLocked.unlock.setC c .done := by
          unfold closerStep; rw [hc]
        unfold closeUndisturbed
        rw [e1]
        unfold closerStep
        simp [Lane.setC, Lane.killLocked, Lane.unlock]
    obtain ⟨_, _, _, _, g, _⟩ := C17_one_stream_exclusive v args m _ hrun2
    exact ⟨hdead, g hdead⟩

theorem LaneRun.weaken {v : View} {args : Nat → Nat × Int} {p p' : Resp → Prop} {q q' : Option ObjMeta → Option ObjMeta → Prop} {a b : Lane}
    (hp : ∀ r, p r → p' r) (hq : ∀ x y, q x y → q' x y) (h : LaneRun v args p q a b) : LaneRun v args p' q' a b := by
  induction h with
  | refl => exact .refl _
  | tail _ st ih =>
    cases st with
    | reader t env h => exact .tail ih (.reader _ t env (fun r hr => hp r (h r hr)))
    | closer c => exact .tail ih (.closer _ c)
    | pin m' h => exact .tail ih (.pin _ m' (hq _ _ h))

/-- non-vacuity: the run of LaneProps.lean is one of these; its lane has ended with an answer of EOF, and its detached closer is on its
way to a lane that is closed already. -/
example : AnyRun ⟨1, 3⟩ exArgs (newLane ⟨1, 3⟩ none) exRun ∧ exRun.readers 1 = .served ⟨5, 2, 1⟩ [13] (some .eof) ∧
    exRun.dead = true ∧ exRun.closers 0 = .wantLock ∧ exRun.bodies = 1 ∧ exRun.closes = 1 :=
  ⟨exRun_reachable.weaken (fun _ _ => trivial) (fun _ _ _ => trivial), by decide, by decide, by decide, by decide, by decide⟩

/-- The same reads stopped while read 1 holds the open stream and read 2 has just marked the lane dead: the closer is what closes it. -/
example : let s := (exSched.take 19).foldl (fun s p => readerStep ⟨1, 3⟩ exArgs s p.1 p.2) (newLane ⟨1, 3⟩ none)
    s.dead = true ∧ s.state = .open_ ∧ s.closers 0 = .wantLock ∧ s.bodies = 1 ∧ s.closes = 0 := by decide

end Verif.Http
