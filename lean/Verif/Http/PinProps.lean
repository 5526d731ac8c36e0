import Verif.Http.PinModel
import Verif.Http.ReadProps
/-
C15: metadata pinning is write-once under every schedule.
-/
namespace Verif.Http

/-- Everything `a` states, `b` states the same. -/
def Keeps (a b : Option ObjMeta) : Prop :=
  ∀ x, a = some x → ∃ y, b = some y ∧ (x.etag ≠ [] → y.etag = x.etag) ∧ (x.lastModified ≠ [] → y.lastModified = x.lastModified) ∧
    (x.origin ≠ [] → y.origin = x.origin) ∧ (x.sizeKnown = true → y.sizeKnown = true ∧ y.size = x.size) ∧
    (x.verified = true → y.verified = true) ∧ (x.header.isSome → y.header = x.header)

/-- Everything the response states is what the description states. -/
def Settles (m : Option ObjMeta) (r : Resp) (total : Int) : Prop :=
  ∃ y, m = some y ∧ (r.etag ≠ [] → y.etag = r.etag) ∧ (r.lastModified ≠ [] → y.lastModified = r.lastModified) ∧
    (r.origin ≠ [] → y.origin = r.origin) ∧ y.sizeKnown = true ∧ y.size = total ∧ y.verified = true

def cs (s : Str) : Nat := if s = [] then 1 else 0
def cb (b : Bool) : Nat := if b then 0 else 1
def ch (o : Option Nat) : Nat := if o.isNone then 1 else 0

/-- How many of the six properties are still unstated (one more for nothing at all). -/
def unstated : Option ObjMeta → Nat
  | none => 7
  | some m => cs m.etag + cs m.lastModified + cs m.origin + cb m.sizeKnown + cb m.verified + ch m.header

theorem Keeps.refl (m : Option ObjMeta) : Keeps m m := by
  intro x hx; exact ⟨x, hx, by simp⟩

theorem Keeps.trans {a b c : Option ObjMeta} (h1 : Keeps a b) (h2 : Keeps b c) : Keeps a c := by
  intro x hx
  obtain ⟨y, hy, e1, l1, o1, s1, v1, d1⟩ := h1 x hx
  obtain ⟨z, hz, e2, l2, o2, s2, v2, d2⟩ := h2 y hy
  refine ⟨z, hz, ?_, ?_, ?_, ?_, ?_, ?_⟩
  · intro h; rw [← e1 h]; exact e2 (by rw [e1 h]; exact h)
  · intro h; rw [← l1 h]; exact l2 (by rw [l1 h]; exact h)
  · intro h; rw [← o1 h]; exact o2 (by rw [o1 h]; exact h)
  · intro h
    obtain ⟨p, q⟩ := s1 h
    obtain ⟨p2, q2⟩ := s2 p
    exact ⟨p2, q2.trans q⟩
  · intro h; exact v2 (v1 h)
  · intro h; rw [← d1 h]; exact d2 (by rw [d1 h]; exact h)

theorem Settles.mono {a b : Option ObjMeta} {r : Resp} {t : Int} (h : Settles a r t) (hk : Keeps a b) : Settles b r t := by
  obtain ⟨y, hy, e, l, o, s, z, v⟩ := h
  obtain ⟨w, hw, e2, l2, o2, s2, v2, _⟩ := hk y hy
  refine ⟨w, hw, ?_, ?_, ?_, (s2 s).1, (s2 s).2.trans z, v2 v⟩
  · intro h; rw [e2 (by rw [e h]; exact h), e h]
  · intro h; rw [l2 (by rw [l h]; exact h), l h]
  · intro h; rw [o2 (by rw [o h]; exact h), o h]

theorem completedBy_keeps (m : Option ObjMeta) (r : Resp) (t : Int) :
    Keeps m (some (completedBy m (metaFromResponse r t)).1) := by
  intro x hx
  subst hx
  refine ⟨_, rfl, ?_⟩
  simp only [completedBy, ObjMeta.completedBy, metaFromResponse]
  refine ⟨?_, ?_, ?_, ?_, ?_, ?_⟩
  · intro h; simp [h]
  · intro h; simp [h]
  · intro h; simp [h]
  · intro h; simp [h]
  · intro h; simp [h]
  · intro h; cases hh : x.header with
    | none => rw [hh] at h; simp at h
    | some _ => simp

theorem completedBy_settles (m : Option ObjMeta) (r : Resp) (t : Int) (h : mismatch m r t = false) :
    Settles (some (completedBy m (metaFromResponse r t)).1) r t := by
  refine ⟨_, rfl, ?_⟩
  cases m with
  | none => simp [completedBy, metaFromResponse]
  | some x =>
    simp only [mismatch, Bool.or_eq_false_iff, Bool.and_eq_false_iff, decide_eq_false_iff_not] at h
    obtain ⟨⟨⟨h1, h2⟩, h3⟩, h4⟩ := h
    simp only [completedBy, ObjMeta.completedBy, metaFromResponse]
    refine ⟨?_, ?_, ?_, ?_, ?_, ?_⟩
    · intro he; by_cases hx : x.etag = [] <;> simp_all
    · intro he; by_cases hx : x.lastModified = [] <;> simp_all
    · intro he; by_cases hx : x.origin = [] <;> simp_all
    · cases x.sizeKnown <;> simp
    · cases hx : x.sizeKnown <;> simp_all
    · cases x.verified <;> simp

theorem not_took (m : Option ObjMeta) (o : ObjMeta) (h : (completedBy m o).2 = false) : m = some (completedBy m o).1 := by
  cases m with
  | none => simp [completedBy] at h
  | some x =>
    obtain ⟨e, l, og, sz, sk, hd, vf⟩ := x
    simp only [completedBy, ObjMeta.completedBy, Bool.or_eq_false_iff] at h ⊢
    obtain ⟨⟨⟨⟨⟨h1, h2⟩, h3⟩, h4⟩, h5⟩, h6⟩ := h
    simp only [h1, h2, h3, h4, h5, h6]
    simp

theorem str_cost (a b : Str) : let t : Bool := a = [] ∧ b ≠ []
    cs (if t then b else a) + cb (!t) ≤ cs a := by
  by_cases h : a = [] <;> by_cases g : b = [] <;> simp [h, g, cs, cb]

theorem bool_cost (a b : Bool) : let t := !a && b
    cb (a || t) + cb (!t) ≤ cb a := by
  cases a <;> cases b <;> simp [cb]

theorem hdr_cost (a b : Option Nat) : let t := a.isNone && b.isSome
    ch (if t then b else a) + cb (!t) ≤ ch a := by
  cases a <;> cases b <;> simp [ch, cb]

theorem or6 (t1 t2 t3 t4 t5 t6 : Bool) (h : (t1 || t2 || t3 || t4 || t5 || t6) = true) :
    1 ≤ cb (!t1) + cb (!t2) + cb (!t3) + cb (!t4) + cb (!t5) + cb (!t6) := by
  revert t1 t2 t3 t4 t5 t6; decide

theorem cs_le (s : Str) : cs s ≤ 1 := by unfold cs; split <;> omega
theorem cb_le (s : Bool) : cb s ≤ 1 := by unfold cb; split <;> omega
theorem ch_le (s : Option Nat) : ch s ≤ 1 := by unfold ch; split <;> omega

theorem unstated_le (m : Option ObjMeta) : unstated m ≤ 7 := by
  cases m with
  | none => simp [unstated]
  | some o =>
    have h1 := cs_le o.etag
    have h2 := cs_le o.lastModified
    have h3 := cs_le o.origin
    have h4 := cb_le o.sizeKnown
    have h5 := cb_le o.verified
    have h6 := ch_le o.header
    simp only [unstated]; omega

theorem took_unstated (m : Option ObjMeta) (o : ObjMeta) (h : (completedBy m o).2 = true) :
    unstated (some (completedBy m o).1) < unstated m := by
  cases m with
  | none =>
    have h1 := cs_le o.etag
    have h2 := cs_le o.lastModified
    have h3 := cs_le o.origin
    have h4 := cb_le o.sizeKnown
    have h5 := cb_le o.verified
    have h6 := ch_le o.header
    simp only [completedBy, unstated]; omega
  | some x =>
    have h1 := str_cost x.etag o.etag
    have h2 := str_cost x.lastModified o.lastModified
    have h3 := str_cost x.origin o.origin
    have h4 := bool_cost x.sizeKnown o.sizeKnown
    have h5 := bool_cost x.verified o.verified
    have h6 := hdr_cost x.header o.header
    have h7 := or6 _ _ _ _ _ _ h
    exact Nat.lt_of_lt_of_le (Nat.lt_of_lt_of_le (Nat.lt_add_of_pos_right h7)
      (show _ ≤ _ + _ + _ + _ + _ + _ by
        have := Nat.add_le_add (Nat.add_le_add (Nat.add_le_add (Nat.add_le_add (Nat.add_le_add h1 h2) h3) h4) h5) h6
        simp only [unstated, completedBy, ObjMeta.completedBy]
        refine Nat.le_trans (Nat.le_of_eq ?_) this
        ac_rfl)) (Nat.le_refl _)

/-- The invariant of the interleaving. -/
structure PinInv (reqs : Nat → Resp × Int) (m0 : Option ObjMeta) (s : PinState) : Prop where
  keeps : Keeps m0 s.pinned
  ver : s.ver + unstated s.pinned ≤ unstated m0
  ok : ∀ t, s.phase t = .ok → Settles s.pinned (reqs t).1 (reqs t).2
  bad : ∀ t, s.phase t = .contradiction → mismatch s.pinned (reqs t).1 (reqs t).2 = true
  started : ∀ t k, s.phase t = .start k → k ≤ s.ver
  loaded : ∀ t k v m, s.phase t = .loaded k v m → k ≤ v ∧ v ≤ s.ver ∧ (v = s.ver → m = s.pinned) ∧ Keeps m s.pinned

theorem mismatch_mono {a b : Option ObjMeta} {r : Resp} {t : Int} (h : mismatch a r t = true) (hk : Keeps a b) :
    mismatch b r t = true := by
  cases a with
  | none => simp [mismatch] at h
  | some x =>
    obtain ⟨y, hy, e, l, o, s, _, _⟩ := hk x rfl
    subst hy
    simp only [mismatch, Bool.or_eq_true, Bool.and_eq_true, decide_eq_true_eq] at h ⊢
    rcases h with ((⟨h1, h2⟩ | ⟨h1, h2, h3⟩) | ⟨h1, h2, h3⟩) | ⟨h1, h2, h3⟩
    · left; left; left; exact ⟨(s h1).1, by rw [(s h1).2]; exact h2⟩
    · left; left; right; rw [e h2]; exact ⟨h1, h2, h3⟩
    · left; right; rw [l h2]; exact ⟨h1, h2, h3⟩
    · right; rw [o h2]; exact ⟨h1, h2, h3⟩

theorem PinInv.init (reqs : Nat → Resp × Int) (m0 : Option ObjMeta) : PinInv reqs m0 (pinInit m0) :=
  ⟨Keeps.refl _, by simp [pinInit], by simp [pinInit], by simp [pinInit], by simp [pinInit], by simp [pinInit]⟩

theorem pinStep_keeps (reqs : Nat → Resp × Int) (m0 : Option ObjMeta) (s : PinState) (t : Nat) (h : PinInv reqs m0 s) :
    PinInv reqs m0 (pinStep reqs s t) ∧ Keeps s.pinned (pinStep reqs s t).pinned := by
  unfold pinStep
  cases hp : s.phase t with
  | start k =>
    refine ⟨⟨h.keeps, h.ver, ?_, ?_, ?_, ?_⟩, Keeps.refl _⟩
    all_goals simp only
    · intro i hi; split at hi
      · simp at hi
      · exact h.ok i hi
    · intro i hi; split at hi
      · simp at hi
      · exact h.bad i hi
    · intro i k' hi; split at hi
      · simp at hi
      · exact h.started i k' hi
    · intro i k' v m hi; split at hi
      · simp at hi
        obtain ⟨rfl, rfl, rfl⟩ := hi
        exact ⟨h.started t _ hp, Nat.le_refl _, fun _ => rfl, Keeps.refl _⟩
      · exact h.loaded i k' v m hi
  | ok => exact ⟨h, Keeps.refl _⟩
  | contradiction => exact ⟨h, Keeps.refl _⟩
  | loaded k v m =>
    obtain ⟨hkv, hv, hm, hkp⟩ := h.loaded t k v m hp
    simp only
    cases hmis : mismatch m (reqs t).1 (reqs t).2 with
    | true =>
      simp only [if_true]
      refine ⟨⟨h.keeps, h.ver, ?_, ?_, ?_, ?_⟩, Keeps.refl _⟩
      all_goals simp only
      · intro i hi; split at hi
        · simp at hi
        · exact h.ok i hi
      · intro i hi; split at hi
        · rename_i he; subst he; exact mismatch_mono hmis hkp
        · exact h.bad i hi
      · intro i k' hi; split at hi
        · simp at hi
        · exact h.started i k' hi
      · intro i k' v m hi; split at hi
        · simp at hi
        · exact h.loaded i k' v m hi
    | false =>
      simp only [Bool.false_eq_true, if_false]
      have hset := completedBy_settles m (reqs t).1 (reqs t).2 hmis
      have hkc := completedBy_keeps m (reqs t).1 (reqs t).2
      cases htook : (completedBy m (metaFromResponse (reqs t).1 (reqs t).2)).2 with
      | false =>
        simp only [Bool.not_false, if_true]
        have he := not_took _ _ htook
        rw [← he] at hset
        refine ⟨⟨h.keeps, h.ver, ?_, ?_, ?_, ?_⟩, Keeps.refl _⟩
        all_goals simp only
        · intro i hi; split at hi
          · rename_i he; subst he; exact hset.mono hkp
          · exact h.ok i hi
        · intro i hi; split at hi
          · simp at hi
          · exact h.bad i hi
        · intro i k' hi; split at hi
          · simp at hi
          · exact h.started i k' hi
        · intro i k' v m hi; split at hi
          · simp at hi
          · exact h.loaded i k' v m hi
      | true =>
        simp only [Bool.not_true, Bool.false_eq_true, if_false]
        have hun := took_unstated m _ htook
        split
        · rename_i hver
          have hmp := hm hver.symm
          subst hmp
          refine ⟨⟨h.keeps.trans hkc, ?_, ?_, ?_, ?_, ?_⟩, hkc⟩
          all_goals simp only
          · have := h.ver; omega
          · intro i hi; split at hi
            · rename_i he; subst he; exact hset
            · exact (h.ok i hi).mono hkc
          · intro i hi; split at hi
            · simp at hi
            · exact mismatch_mono (h.bad i hi) hkc
          · intro i k' hi; split at hi
            · simp at hi
            · have := h.started i k' hi; omega
          · intro i k' v' m' hi; split at hi
            · simp at hi
            · obtain ⟨a, b, c, d⟩ := h.loaded i k' v' m' hi
              exact ⟨a, by omega, by omega, d.trans hkc⟩
        · rename_i hver
          refine ⟨⟨h.keeps, h.ver, ?_, ?_, ?_, ?_⟩, Keeps.refl _⟩
          all_goals simp only
          · intro i hi; split at hi
            · simp at hi
            · exact h.ok i hi
          · intro i hi; split at hi
            · simp at hi
            · exact h.bad i hi
          · intro i k' hi; split at hi
            · simp at hi; omega
            · exact h.started i k' hi
          · intro i k' v m hi; split at hi
            · simp at hi
            · exact h.loaded i k' v m hi

theorem pinRun_keeps (reqs : Nat → Resp × Int) (m0 : Option ObjMeta) (sched : List Nat) : ∀ (s : PinState), PinInv reqs m0 s →
    PinInv reqs m0 (pinRun reqs s sched) ∧ Keeps s.pinned (pinRun reqs s sched).pinned := by
  induction sched with
  | nil => intro s h; exact ⟨h, Keeps.refl _⟩
  | cons t rest ih =>
    intro s h
    obtain ⟨h1, h2⟩ := pinStep_keeps reqs m0 s t h
    obtain ⟨h3, h4⟩ := ih _ h1
    exact ⟨h3, h2.trans h4⟩

/-- C15: under every schedule, whatever the reader has pinned at some moment (`sched`) is still pinned, with the same value, at every
later moment (`sched ++ more`). -/
theorem C15_write_once (reqs : Nat → Resp × Int) (m0 : Option ObjMeta) (sched more : List Nat) :
    Keeps (pinRun reqs (pinInit m0) sched).pinned (pinRun reqs (pinInit m0) (sched ++ more)).pinned := by
  have h := (pinRun_keeps reqs m0 sched _ (PinInv.init reqs m0)).1
  have := (pinRun_keeps reqs m0 more _ h).2
  simpa [pinRun] using this

/-- C15: every call that was accepted states exactly what is pinned; hence any two accepted responses state the same complete length
and the same validators and origin wherever both state one.  A refused response contradicts what is pinned. -/
theorem C15_all_checked_against_same (reqs : Nat → Resp × Int) (m0 : Option ObjMeta) (sched : List Nat) :
    let s := pinRun reqs (pinInit m0) sched
    (∀ t, s.phase t = .ok → Settles s.pinned (reqs t).1 (reqs t).2) ∧
    (∀ t u, s.phase t = .ok → s.phase u = .ok →
      (reqs t).2 = (reqs u).2 ∧
      ((reqs t).1.etag ≠ [] → (reqs u).1.etag ≠ [] → (reqs t).1.etag = (reqs u).1.etag) ∧
      ((reqs t).1.lastModified ≠ [] → (reqs u).1.lastModified ≠ [] → (reqs t).1.lastModified = (reqs u).1.lastModified) ∧
      ((reqs t).1.origin ≠ [] → (reqs u).1.origin ≠ [] → (reqs t).1.origin = (reqs u).1.origin)) ∧
    (∀ t, s.phase t = .contradiction → ¬ Agrees s.pinned (reqs t).1 (reqs t).2) := by
  intro s
  have h : PinInv reqs m0 s := (pinRun_keeps reqs m0 sched _ (PinInv.init reqs m0)).1
  refine ⟨h.ok, ?_, fun t ht hag => by have := h.bad t ht; rw [(mismatch_iff _ _ _).2 hag] at this; simp at this⟩
  intro t u ht hu
  obtain ⟨y, hy, e1, l1, o1, _, z1, _⟩ := h.ok t ht
  obtain ⟨w, hw, e2, l2, o2, _, z2, _⟩ := h.ok u hu
  rw [hy] at hw
  cases hw
  refine ⟨by rw [← z1, ← z2], ?_, ?_, ?_⟩
  · intro a b; rw [← e1 a, ← e2 b]
  · intro a b; rw [← l1 a, ← l2 b]
  · intro a b; rw [← o1 a, ← o2 b]

/-- C15, progress: no call loses more than seven races, whatever the schedule (there are only so many properties to settle), so every
call scheduled often enough returns. -/
theorem C15_retries_bounded (reqs : Nat → Resp × Int) (m0 : Option ObjMeta) (sched : List Nat) (t k : Nat) :
    let s := pinRun reqs (pinInit m0) sched
    (s.phase t = .start k ∨ ∃ v m, s.phase t = .loaded k v m) → k ≤ 7 := by
  intro s hs
  have h : PinInv reqs m0 s := (pinRun_keeps reqs m0 sched _ (PinInv.init reqs m0)).1
  have hle := unstated_le m0
  have hv := h.ver
  rcases hs with hs | ⟨v, m, hs⟩
  · have := h.started t k hs; omega
  · have := h.loaded t k v m hs; omega

/-- non-vacuity: two racing first responses with different ETags, both loading nil; the loser retries and is refused. -/
example :
    let reqs : Nat → Resp × Int := fun t => ({ status := 206, etag := if t = 0 then ['A'] else if t = 1 then ['B'] else [], lastModified := ['d'] }, 5)
    let s := pinRun reqs (pinInit none) [0, 1, 2, 1, 0, 2, 0, 2, 0, 2]
    s.phase 1 = .ok ∧ s.phase 0 = .contradiction ∧ s.phase 2 = .ok ∧ (s.pinned.map (·.etag)) = some ['B'] := by decide

end Verif.Http
