import Verif.Http.LaneModel
import Verif.Http.PinProps
import Verif.Http.HonestProps
/-
C17: the stream lane serves sequential reads from one stream, safely, under every interleaving.
-/
namespace Verif.Http

/-- What is known about a call that reached the lane. -/
structure ArgOK (v : View) (s : Lane) (a : RArg) : Prop where
  off : 0 ≤ a.off
  pos : 0 < a.k
  le : a.k ≤ a.len
  inside : v.base + a.off + a.k ≤ v.end_
  cut : a.k < a.len → v.base + a.off + a.k = v.end_ ∨ knownSize s.pinned = some (v.base + a.off + a.k)

def WantOK (v : View) (s : Lane) (w : Int) : Prop :=
  w = v.end_ - 1 ∨ (w = -1 ∧ (v.end_ = maxInt64 ∨ ∃ z, knownSize s.pinned = some z ∧ z ≤ v.end_))

/-- The invariant of one call. -/
def RI (content : Bytes) (v : View) (s : Lane) (t : Nat) : RPhase → Prop
  | .idle | .unserved _ | .early _ _ _ => s.mu ≠ some (.reader t)
  | .planned a | .sawAlive a | .elsewhere a | .wantLock a => s.mu ≠ some (.reader t) ∧ ArgOK v s a
  | .locked a => s.mu = some (.reader t) ∧ ArgOK v s a
  | .opening a => s.mu = some (.reader t) ∧ ArgOK v s a ∧ s.state = .pending ∧ s.requests = 0 ∧ a.off = 0
  | .asked a w _ => s.mu = some (.reader t) ∧ ArgOK v s a ∧ s.state = .pending ∧ WantOK v s w ∧ a.off = 0
  | .reading a got => s.mu = some (.reader t) ∧ ArgOK v s a ∧ s.state = .open_ ∧ s.pos = v.base + a.off + got.length ∧
      got = slice content (v.base + a.off).toNat got.length ∧ got.length ≤ a.k
  | .served a got e => s.mu ≠ some (.reader t) ∧ ReadOK content v.base v.end_ a.len a.off got e

/-- The open lane. -/
structure OpenOK (content : Bytes) (v : View) (s : Lane) : Prop where
  known : knownSize s.pinned = some (content.length : Int)
  low : v.base ≤ s.pos
  pos : s.pos ≤ s.limit
  view : s.limit ≤ v.end_
  size : s.limit ≤ content.length
  tight : s.limit = v.end_ ∨ s.limit = content.length
  body : ∀ rest f, s.body = some (rest, f) → rest <+: content.drop s.pos.toNat

/-- The shared invariant. -/
structure Sh (content : Bytes) (v : View) (s : Lane) : Prop where
  nopanic : s.panicked = false
  req : s.requests ≤ 1
  unsent : s.requests = 0 ∨ s.state ≠ .pending ∨ ∃ t a w c, s.readers t = .asked a w c
  body : s.body.isSome = true ↔ s.state = .open_
  count : s.bodies = s.closes + (if s.state = .open_ then 1 else 0)
  recv : s.bodies ≤ 1 ∧ (s.state = .pending → s.bodies = 0)
  pending : s.state = .pending → s.pos = v.base
  dead : s.state = .dead → s.dead = true
  open_ : s.state = .open_ → OpenOK content v s

structure Inv (content : Bytes) (v : View) (s : Lane) : Prop where
  sh : Sh content v s
  readers : ∀ t, RI content v s t (s.readers t)
  closers : ∀ c, s.closers c = .locked ↔ s.mu = some (.closer c)
  detached : s.dead = false → s.closers 0 = .absent

theorem Keeps.known {a b : Option ObjMeta} (h : Keeps a b) {z : Int} (hz : knownSize a = some z) : knownSize b = some z := by
  cases a with
  | none => simp [knownSize] at hz
  | some x =>
    obtain ⟨y, hy, _, _, _, hs, _⟩ := h x rfl
    subst hy
    simp only [knownSize] at hz ⊢
    split at hz
    · rename_i hk
      obtain ⟨h1, h2⟩ := hs hk
      rw [if_pos h1, h2]; exact hz
    · simp at hz

theorem ArgOK.mono {v : View} {s s' : Lane} {a : RArg} (h : ArgOK v s a) (hk : Keeps s.pinned s'.pinned) : ArgOK v s' a :=
  ⟨h.off, h.pos, h.le, h.inside, fun hl => (h.cut hl).imp id hk.known⟩

theorem WantOK.mono {v : View} {s s' : Lane} {w : Int} (h : WantOK v s w) (hk : Keeps s.pinned s'.pinned) : WantOK v s' w := by
  rcases h with h | ⟨h1, h2 | ⟨z, h3, h4⟩⟩
  · exact Or.inl h
  · exact Or.inr ⟨h1, Or.inl h2⟩
  · exact Or.inr ⟨h1, Or.inr ⟨z, hk.known h3, h4⟩⟩

/-- Steps of others leave a call's invariant. -/
theorem RI.frame {content : Bytes} {v : View} {s s' : Lane} {i : Nat} {p : RPhase} (h : RI content v s i p)
    (hmu : s'.mu = some (.reader i) ↔ s.mu = some (.reader i)) (hk : Keeps s.pinned s'.pinned)
    (hh : s.mu = some (.reader i) → s'.state = s.state ∧ s'.pos = s.pos ∧ s'.requests = s.requests) : RI content v s' i p := by
  cases p with
  | idle => exact fun x => h (hmu.1 x)
  | unserved a => exact fun x => h (hmu.1 x)
  | early a b c => exact fun x => h (hmu.1 x)
  | planned a => exact ⟨fun x => h.1 (hmu.1 x), h.2.mono hk⟩
  | sawAlive a => exact ⟨fun x => h.1 (hmu.1 x), h.2.mono hk⟩
  | elsewhere a => exact ⟨fun x => h.1 (hmu.1 x), h.2.mono hk⟩
  | wantLock a => exact ⟨fun x => h.1 (hmu.1 x), h.2.mono hk⟩
  | locked a => exact ⟨hmu.2 h.1, h.2.mono hk⟩
  | opening a =>
    obtain ⟨h1, h2, h3, h4, h5⟩ := h
    obtain ⟨e1, e2, e3⟩ := hh h1
    exact ⟨hmu.2 h1, h2.mono hk, e1.trans h3, e3.trans h4, h5⟩
  | asked a w c =>
    obtain ⟨h1, h2, h3, h4, h5⟩ := h
    obtain ⟨e1, e2, e3⟩ := hh h1
    exact ⟨hmu.2 h1, h2.mono hk, e1.trans h3, h4.mono hk, h5⟩
  | reading a got =>
    obtain ⟨h1, h2, h3, h4, h5⟩ := h
    obtain ⟨e1, e2, e3⟩ := hh h1
    exact ⟨hmu.2 h1, h2.mono hk, e1.trans h3, e2.trans h4, h5⟩
  | served a got e => exact ⟨fun x => h.1 (hmu.1 x), h.2⟩

/-- Assemble the invariant after a step of call `t`. -/
theorem Inv.stepR {content : Bytes} {v : View} {s s' : Lane} (h : Inv content v s) (t : Nat) (p : RPhase)
    (hr : s'.readers = fun i => if i = t then p else s.readers i)
    (sh : Sh content v s') (ri : RI content v s' t p)
    (hc : ∀ c, s'.closers c = .locked ↔ s'.mu = some (.closer c))
    (hdet : s'.dead = false → s'.closers 0 = .absent)
    (hk : Keeps s.pinned s'.pinned)
    (hmu : ∀ i, i ≠ t → (s'.mu = some (.reader i) ↔ s.mu = some (.reader i)))
    (hh : ∀ i, i ≠ t → s.mu = some (.reader i) → s'.state = s.state ∧ s'.pos = s.pos ∧ s'.requests = s.requests) :
    Inv content v s' := by
  refine ⟨sh, ?_, hc, hdet⟩
  intro i
  rw [hr]
  by_cases hi : i = t
  · subst hi; simp only [if_true]; exact ri
  · simp only [if_neg hi]
    exact (h.readers i).frame (hmu i hi) hk (hh i hi)

/-- When call `t` holds the mutex, no other call does. -/
theorem others_free {s : Lane} {t i : Nat} (h : s.mu = some (.reader t)) (hi : i ≠ t) : s.mu ≠ some (.reader i) := by
  rw [h]; simp; exact fun x => hi x.symm

/-- No request is out unless its call is in that phase. -/
theorem unsent_of {content : Bytes} {v : View} {s : Lane} (h : Inv content v s) {t : Nat} (hm : s.mu = some (.reader t))
    (hp : s.state = .pending) (hna : ∀ a w c, s.readers t ≠ .asked a w c) : s.requests = 0 := by
  rcases h.sh.unsent with h1 | h1 | ⟨u, a, w, c, h1⟩
  · exact h1
  · exact absurd hp h1
  · have := h.readers u
    rw [h1] at this
    have hmu := this.1
    rw [hm] at hmu
    simp at hmu
    subst hmu
    exact absurd h1 (hna a w c)

/-- A local step of a call: only its phase changes. -/
theorem Inv.local_ {content : Bytes} {v : View} {s : Lane} (h : Inv content v s) (t : Nat) (p : RPhase)
    (hna : ∀ a w c, s.readers t ≠ .asked a w c) (ri : RI content v s t p) : Inv content v (s.setR t p) := by
  refine h.stepR t p rfl ?_ (ri.frame Iff.rfl (Keeps.refl _) (fun _ => ⟨rfl, rfl, rfl⟩)) h.closers h.detached (Keeps.refl _) (fun _ _ => Iff.rfl) (fun _ _ _ => ⟨rfl, rfl, rfl⟩)
  obtain ⟨a1, a2, a3, a4, a5, a6, a7, a8, a9⟩ := h.sh
  refine ⟨a1, a2, ?_, a4, a5, a6, a7, a8, fun ho => ?_⟩
  · rcases a3 with h1 | h1 | ⟨u, a, w, c, h1⟩
    · exact Or.inl h1
    · exact Or.inr (Or.inl h1)
    · refine Or.inr (Or.inr ⟨u, a, w, c, ?_⟩)
      show (if u = t then p else s.readers u) = _
      rw [if_neg]
      · exact h1
      · intro hu; subst hu; exact hna a w c h1
  · obtain ⟨b1, b2, b3, b4, b5, b6, b7⟩ := a9 ho
    exact ⟨b1, b2, b3, b4, b5, b6, b7⟩

/-- The call holding the mutex gives up the lane: `killLocked`, unlock, return. -/
theorem Inv.finish {content : Bytes} {v : View} {s : Lane} (h : Inv content v s) (t : Nat) (hm : s.mu = some (.reader t))
    (s1 : Lane) (p : RPhase) (hr : s1.readers = s.readers) (hcl : s1.closers = s.closers)
    (hk : Keeps s.pinned s1.pinned) (hpan : s1.panicked = false) (hreq : s1.requests ≤ 1)
    (hb : s1.body.isSome = true ↔ s1.state = .open_) (hcount : s1.bodies = s1.closes + (if s1.state = .open_ then 1 else 0))
    (hrecv : s1.bodies ≤ 1)
    (hp : RI content v (s1.killLocked.unlock) t p) : Inv content v ((s1.killLocked.unlock).setR t p) := by
  refine h.stepR t p ?_ ?_ (hp.frame Iff.rfl (Keeps.refl _) (fun _ => ⟨rfl, rfl, rfl⟩)) ?_ (fun hx => by simp [Lane.setR, Lane.unlock, Lane.killLocked] at hx) hk ?_ ?_
  · funext i; simp [Lane.setR, Lane.unlock, Lane.killLocked, hr]
  · refine ⟨hpan, hreq, Or.inr (Or.inl (by simp [Lane.setR, Lane.unlock, Lane.killLocked])), ?_, ?_, ⟨hrecv, ?_⟩, ?_, fun _ => rfl, ?_⟩
    · show (if s1.state = .open_ then none else s1.body).isSome = true ↔ LaneState.dead = .open_
      by_cases ho : s1.state = .open_
      · simp [ho]
      · simp only [if_neg ho, reduceCtorEq, iff_false]
        intro hx; exact ho (hb.1 hx)
    · show s1.bodies = (if s1.state = .open_ then s1.closes + 1 else s1.closes) + 0
      rw [hcount]; split <;> omega
    · intro hx; simp [Lane.setR, Lane.unlock, Lane.killLocked] at hx
    · intro hx; simp [Lane.setR, Lane.unlock, Lane.killLocked] at hx
    · intro hx; simp [Lane.setR, Lane.unlock, Lane.killLocked] at hx
  · intro c
    show s1.closers c = .locked ↔ none = some _
    rw [hcl, h.closers c, hm]; simp
  · intro i hi
    show none = some _ ↔ _
    rw [hm]; simp; exact fun x => hi x.symm
  · intro i hi hmi; exact absurd hmi (others_free hm hi)

theorem known_iff {m : Option ObjMeta} {x : ObjMeta} (h : m = some x) (hs : x.sizeKnown = true) : knownSize m = some x.size := by
  rw [h]; simp [knownSize, hs]

theorem pin_keeps {m m' : Option ObjMeta} {r : Resp} {t : Int} (h : pinOrVerify m r t = some m') : Keeps m m' := by
  unfold pinOrVerify at h
  split at h
  · simp at h
  · simp at h
    subst h
    have := completedBy_keeps m r t
    cases m with
    | none => intro x hx; simp at hx
    | some x => exact this

/-- The gate in front of the lane's response, against an honest server. -/
theorem checkStream_spec {content : Bytes} {v : View} (hv : ValidView v) (s : Lane) (hlen : 0 < v.length) (r : Resp) (hr : HonestResp content r)
    (w : Int) (c : Bool) (hw : WantOK v s w) :
    Keeps s.pinned (checkStream s.pinned r v.base w c).1 ∧
    (∀ e, (checkStream s.pinned r v.base w c).2 = .error e → e = .eof → (content.length : Int) ≤ v.base) ∧
    (∀ g, (checkStream s.pinned r v.base w c).2 = .ok g →
      knownSize (checkStream s.pinned r v.base w c).1 = some (content.length : Int) ∧ v.base < g ∧ g ≤ v.end_ ∧ g ≤ content.length ∧
      (g = v.end_ ∨ g = content.length) ∧ r.body <+: content.drop v.base.toNat) := by
  have hve := view_end v hv
  obtain ⟨hv1, hv2, hv3⟩ := hv
  unfold checkStream
  split
  · exact ⟨Keeps.refl _, by simp, by simp⟩
  · split
    · rename_i h206
      cases hp : parseContentRange r.contentRange with
      | none => exact ⟨Keeps.refl _, by simp, by simp⟩
      | some x =>
        obtain ⟨first, last, total⟩ := x
        simp only
        split
        · exact ⟨Keeps.refl _, by simp, by simp⟩
        · rename_i hgate
          cases hpin : pinOrVerify s.pinned r total with
          | none => exact ⟨Keeps.refl _, by simp, by simp⟩
          | some m' =>
            refine ⟨pin_keeps hpin, by simp, ?_⟩
            intro g hg
            simp at hg
            subst hg
            obtain ⟨ht, hbody⟩ := hr.partial_ h206 _ _ _ hp
            obtain ⟨_, hks⟩ := pin_size hpin
            have hn := parse_nonneg hp
            have hfirst : first = v.base := by
              apply Decidable.byContradiction; intro hx; exact hgate (Or.inl hx)
            have hf0 : 0 ≤ first := by omega
            rcases hn with hn | ⟨_, hn2, hn3, hn4⟩
            · omega
            · have hb := hbody hf0
              refine ⟨by rw [hks, ht], by omega, ?_, by omega, ?_, ?_⟩
              · rcases hw with hw | ⟨hw, hmax | ⟨z, hz, hzle⟩⟩
                · omega
                · omega
                · have := (pin_keeps hpin).known hz
                  rw [hks] at this
                  simp at this
                  omega
              · rcases hw with hw | ⟨hw, hw2⟩
                · omega
                · clear hw2; omega
              · rw [← hfirst]
                exact hb.trans (List.take_prefix _ _)
    · split
      · rename_i h416
        unfold streamUnsatisfied
        cases hp : parseContentRange r.contentRange with
        | none => exact ⟨Keeps.refl _, by simp, by simp⟩
        | some x =>
          obtain ⟨first, last, total⟩ := x
          simp only
          split
          · exact ⟨Keeps.refl _, by simp, by simp⟩
          · cases hpin : pinOrVerify s.pinned r total with
            | none => exact ⟨Keeps.refl _, by simp, by simp⟩
            | some m' =>
              simp only
              have ht := hr.refused h416 _ _ _ hp
              split
              · exact ⟨pin_keeps hpin, by simp, by simp⟩
              · refine ⟨pin_keeps hpin, ?_, by simp⟩
                intro e he he2; omega
      · split
        · rename_i h200
          split
          · rename_i hem
            have hc := hr.empty h200 hem.1 ((emptyEntity_iff r).1 hem.2)
            cases hpin : pinOrVerify s.pinned r 0 with
            | none => exact ⟨Keeps.refl _, by simp, by simp⟩
            | some m' =>
              refine ⟨pin_keeps hpin, ?_, by simp⟩
              intro e he he2; subst hc; simp; omega
          · split
            · exact ⟨Keeps.refl _, by simp, by simp⟩
            · exact ⟨Keeps.refl _, by simp, by simp⟩
        · exact ⟨Keeps.refl _, by simp, by simp⟩

/-- One turn of the reading loop. -/
theorem readTurn_inv {content : Bytes} {v : View} (hv : ValidView v) {s : Lane} (h : Inv content v s) (t : Nat) (a : RArg) (got : Bytes)
    (env : Env) (hph : s.readers t = .reading a got) : Inv content v (readTurn v s t a got env) := by
  have hri := h.readers t
  rw [hph] at hri
  obtain ⟨hm, ha, hst, hpos, hgot, hgk⟩ := hri
  obtain ⟨o1, o2, o3, o4, o5, o6, o7⟩ := h.sh.open_ hst
  have hsh := h.sh
  have hoff := ha.off
  have hkp := ha.pos
  have hle := ha.le
  have hins := ha.inside
  have hbase := hv.1
  have hna : ∀ a w c, s.readers t ≠ .asked a w c := by intro a w c; rw [hph]; simp
  unfold readTurn
  simp only
  split
  · -- the limit is reached
    rename_i hrem
    apply h.finish t hm s _ rfl rfl (Keeps.refl _) hsh.nopanic hsh.req hsh.body hsh.count hsh.recv.1
    refine ⟨by simp [Lane.killLocked, Lane.unlock], ?_⟩
    refine ⟨fun x => by omega, fun _ => ⟨hgot, by omega, fun _ => by omega, by simp, fun _ => by omega⟩⟩
  · rename_i hrem
    split
    · -- the buffer is full
      rename_i hfull
      refine h.stepR t _ rfl ?_ ?_ ?_ h.detached (Keeps.refl _) ?_ ?_
      · obtain ⟨a1, a2, a3, a4, a5, a6, a7, a8, a9⟩ := hsh
        refine ⟨a1, a2, Or.inr (Or.inl (by show s.state ≠ _; rw [hst]; simp)), a4, a5, a6, a7, a8, fun ho => ?_⟩
        exact ⟨o1, o2, o3, o4, o5, o6, o7⟩
      · refine ⟨by simp [Lane.setR, Lane.unlock], ?_⟩
        refine ⟨fun x => by omega, fun _ => ⟨hgot, by omega, fun _ => by omega, ?_, by simp⟩⟩
        intro _
        rw [hfull]
        rcases Nat.lt_or_ge a.k a.len with hlt | hge
        · exfalso
          rcases ha.cut hlt with hc | hc
          · omega
          · rw [o1] at hc; simp at hc; omega
        · omega
      · intro c
        show s.closers c = .locked ↔ none = some _
        rw [h.closers c, hm]; simp
      · intro i hi
        show none = some _ ↔ _
        rw [hm]; simp; exact fun x => hi x.symm
      · intro i hi hmi; exact absurd hmi (others_free hm hi)
    · rename_i hnfull
      obtain ⟨⟨rest, failing⟩, hbody⟩ := Option.isSome_iff_exists.1 (hsh.body.2 hst)
      rw [hbody]
      simp only
      have hpre := o7 rest failing hbody
      -- the bytes handed over
      generalize hbuf : (if ((a.k - got.length : Nat) : Int) > s.limit - s.pos then (s.limit - s.pos).toNat else a.k - got.length) = buf
      have hbuf1 : buf ≤ a.k - got.length ∧ (buf : Int) ≤ s.limit - s.pos := by rw [← hbuf]; split <;> omega
      generalize hn : min env.take buf = n
      have hn1 : n ≤ buf := by omega
      have hrl : (rest.take n).length ≤ n := by simp; omega
      have hread : rest.take n = slice content s.pos.toNat (rest.take n).length := by
        have h1 : rest.take n <+: content.drop s.pos.toNat := (List.take_prefix _ _).trans hpre
        exact List.prefix_iff_eq_take.1 h1
      have hrest' : rest.drop n <+: content.drop (s.pos.toNat + (rest.take n).length) := by
        obtain ⟨suf, hsuf⟩ := hpre
        rw [← List.drop_drop, ← hsuf]
        rcases Nat.lt_or_ge n rest.length with hlt | hge
        · have : (rest.take n).length = n := by simp; omega
          rw [this, List.drop_append_of_le_length (by omega)]
          exact List.prefix_append _ _
        · have : rest.drop n = [] := List.drop_eq_nil_of_le hge
          rw [this]; exact List.nil_prefix
      have hgot' : got ++ rest.take n = slice content (v.base + a.off).toNat (got ++ rest.take n).length := by
        have e1 : s.pos.toNat = (v.base + a.off).toNat + got.length := by omega
        rw [e1] at hread
        rw [List.length_append, ← slice_add, ← hread, ← hgot]
      have hlen' : (got ++ rest.take n).length ≤ a.k := by rw [List.length_append]; omega
      have hpos' : (v.base + a.off + ((got ++ rest.take n).length : Int)) = s.pos + (rest.take n).length := by
        rw [List.length_append]; omega
      have hposl : v.base + a.off + ((got ++ rest.take n).length : Int) ≤ s.limit := by omega
      generalize hg : got ++ rest.take n = g' at *
      have fin : ∀ e : HErr, (e = .eof → s.limit ≤ v.base + a.off + g'.length) →
          Inv content v (({ s with body := some (rest.drop n, failing), pos := v.base + a.off + g'.length } : Lane).killLocked.unlock.setR t (.served a g' (some e))) := by
        intro e he
        apply h.finish t hm { s with body := some (rest.drop n, failing), pos := v.base + a.off + g'.length } _ rfl rfl (Keeps.refl _) hsh.nopanic hsh.req
        · simp [hst]
        · exact hsh.count
        · exact hsh.recv.1
        · refine ⟨by simp [Lane.killLocked, Lane.unlock], ?_⟩
          refine ⟨fun x => by omega, fun _ => ⟨hgot', by omega, fun _ => by omega, by simp, ?_⟩⟩
          intro hx
          simp at hx
          have := he hx
          omega
      split
      · exact fin _ (by simp)
      · split
        · split
          · exact fin _ (by simp)
          · split
            · rename_i hge
              exact fin _ (fun _ => hge)
            · exact fin _ (by simp)
        · refine h.stepR t _ rfl ?_ ?_ h.closers h.detached (Keeps.refl _) (fun _ _ => Iff.rfl) ?_
          · obtain ⟨a1, a2, a3, a4, a5, a6, a7, a8, a9⟩ := hsh
            refine ⟨a1, a2, Or.inr (Or.inl (by show s.state ≠ _; rw [hst]; simp)), ?_, a5, a6, ?_, a8, fun ho => ?_⟩
            · show (some (rest.drop n, failing)).isSome = true ↔ s.state = .open_
              simp [hst]
            · intro hx
              have : s.state = .pending := hx
              rw [hst] at this; simp at this
            · refine ⟨o1, ?_, hposl, o4, o5, o6, ?_⟩
              · show v.base ≤ v.base + a.off + g'.length
                omega
              · intro rest2 f2 h2
                have h2' : (rest.drop n, failing) = (rest2, f2) := by simpa [Lane.setR] using h2
                simp at h2'
                obtain ⟨rfl, rfl⟩ := h2'
                show rest.drop n <+: content.drop (v.base + a.off + g'.length).toNat
                have : (v.base + a.off + (g'.length : Int)).toNat = s.pos.toNat + (rest.take n).length := by omega
                rw [this]
                exact hrest'
          · exact ⟨hm, ha.mono (Keeps.refl _), hst, rfl, hgot', hlen'⟩
          · intro i hi hmi; exact absurd hmi (others_free hm hi)

theorem readerStep_inv {content : Bytes} {v : View} (hv : ValidView v) (hlen : 0 < v.length) (args : Nat → Nat × Int)
    (hargs : ∀ t, (args t).2 ≤ maxInt64) {s : Lane} (h : Inv content v s) (t : Nat) (env : Env)
    (henv : ∀ r, env.resp = some r → HonestResp content r) : Inv content v (readerStep v args s t env) := by
  have hri := h.readers t
  unfold readerStep
  cases hph : s.readers t with
  | idle =>
    rw [hph] at hri
    have hna : ∀ a w c, s.readers t ≠ .asked a w c := by intro a w c; rw [hph]; simp
    simp only
    rcases readPlan_spec v hv s.pinned (args t).1 (args t).2 (hargs t) with ⟨_, hp⟩ | ⟨_, _, hp⟩ | ⟨_, _, hp⟩ |
      ⟨h0, hlt, hz, k, hp, hk0, hkl, hke, hkz, hcut⟩
    · rw [hp]; exact h.local_ t _ hna hri
    · rw [hp]; exact h.local_ t _ hna hri
    · rw [hp]; exact h.local_ t _ hna hri
    · rw [hp]; exact h.local_ t _ hna ⟨hri, h0, hk0, hkl, hke, hcut⟩
  | planned a =>
    rw [hph] at hri
    have hna : ∀ a w c, s.readers t ≠ .asked a w c := by intro a w c; rw [hph]; simp
    simp only
    split
    · exact h.local_ t _ hna hri.1
    · exact h.local_ t _ hna hri
  | sawAlive a =>
    rw [hph] at hri
    have hna : ∀ a w c, s.readers t ≠ .asked a w c := by intro a w c; rw [hph]; simp
    simp only
    split
    · exact h.local_ t _ hna hri
    · exact h.local_ t _ hna hri
  | elsewhere a =>
    rw [hph] at hri
    have hna : ∀ a w c, s.readers t ≠ .asked a w c := by intro a w c; rw [hph]; simp
    simp only
    split
    · exact h.local_ t _ hna hri.1
    · rename_i hd
      have hd : s.dead = false := by simpa using hd
      have habs := h.detached hd
      have hmu0 : s.mu ≠ some (.closer 0) := by
        intro hx; have := (h.closers 0).2 hx; rw [habs] at this; simp at this
      refine h.stepR t _ rfl ?_ (by exact hri.1) ?_ (fun hx => by simp [Lane.setR, Lane.setC] at hx) (Keeps.refl _) (fun _ _ => Iff.rfl)
        (fun _ _ _ => ⟨rfl, rfl, rfl⟩)
      · obtain ⟨a1, a2, a3, a4, a5, a6, a7, a8, a9⟩ := h.sh
        refine ⟨a1, a2, ?_, a4, a5, a6, a7, fun _ => rfl, fun ho => ?_⟩
        · rcases a3 with h1 | h1 | ⟨u, b, w, c, h1⟩
          · exact Or.inl h1
          · exact Or.inr (Or.inl h1)
          · refine Or.inr (Or.inr ⟨u, b, w, c, ?_⟩)
            show (if u = t then _ else s.readers u) = _
            rw [if_neg]
            · exact h1
            · intro hu; subst hu; exact hna b w c h1
        · obtain ⟨b1, b2, b3, b4, b5, b6, b7⟩ := a9 ho
          exact ⟨b1, b2, b3, b4, b5, b6, b7⟩
      · intro c
        show (if c = 0 then CPhase.wantLock else s.closers c) = .locked ↔ s.mu = some (.closer c)
        by_cases hc : c = 0
        · subst hc; simp; exact hmu0
        · rw [if_neg hc]; exact h.closers c
  | wantLock a =>
    rw [hph] at hri
    have hna : ∀ a w c, s.readers t ≠ .asked a w c := by intro a w c; rw [hph]; simp
    simp only
    split
    · rename_i hmu
      refine h.stepR t _ rfl ?_ ⟨rfl, hri.2.mono (Keeps.refl _)⟩ ?_ h.detached (Keeps.refl _) ?_ ?_
      · obtain ⟨a1, a2, a3, a4, a5, a6, a7, a8, a9⟩ := h.sh
        refine ⟨a1, a2, ?_, a4, a5, a6, a7, a8, fun ho => ?_⟩
        · rcases a3 with h1 | h1 | ⟨u, b, w, c, h1⟩
          · exact Or.inl h1
          · exact Or.inr (Or.inl h1)
          · have := h.readers u
            rw [h1] at this
            have := this.1
            rw [hmu] at this; simp at this
        · obtain ⟨b1, b2, b3, b4, b5, b6, b7⟩ := a9 ho
          exact ⟨b1, b2, b3, b4, b5, b6, b7⟩
      · intro c
        show s.closers c = .locked ↔ some (Holder.reader t) = some (.closer c)
        rw [h.closers c, hmu]; simp
      · intro i hi
        show some (Holder.reader t) = some (.reader i) ↔ s.mu = _
        rw [hmu]; simp; exact fun x => hi x.symm
      · intro i hi hmi; rw [hmu] at hmi; simp at hmi
    · exact h
  | locked a =>
    rw [hph] at hri
    have hna : ∀ a w c, s.readers t ≠ .asked a w c := by intro a w c; rw [hph]; simp
    obtain ⟨hm, ha⟩ := hri
    simp only
    split
    · refine h.stepR t _ rfl ?_ (by simp [RI, Lane.setR, Lane.unlock]) ?_ h.detached (Keeps.refl _) ?_ ?_
      · obtain ⟨a1, a2, a3, a4, a5, a6, a7, a8, a9⟩ := h.sh
        refine ⟨a1, a2, ?_, a4, a5, a6, a7, a8, fun ho => ?_⟩
        · by_cases hp : s.state = .pending
          · left; show s.requests = 0; exact unsent_of h hm hp hna
          · right; left; exact hp
        · obtain ⟨b1, b2, b3, b4, b5, b6, b7⟩ := a9 ho
          exact ⟨b1, b2, b3, b4, b5, b6, b7⟩
      · intro c
        show s.closers c = .locked ↔ none = some _
        rw [h.closers c, hm]; simp
      · intro i hi
        show none = some _ ↔ _
        rw [hm]; simp; exact fun x => hi x.symm
      · intro i hi hmi; exact absurd hmi (others_free hm hi)
    · rename_i hcond
      split
      · rename_i hp
        refine h.local_ t _ hna ⟨hm, ha, hp, unsent_of h hm hp hna, ?_⟩
        have := h.sh.pending hp
        have hpos : s.pos = v.base + a.off := by
          apply Decidable.byContradiction; intro hx; exact hcond (Or.inr (Or.inr hx))
        omega
      · rename_i hp
        have ho : s.state = .open_ := by
          cases hs : s.state with
          | pending => exact absurd hs hp
          | open_ => rfl
          | dead => exact absurd (Or.inl hs) hcond
        have hpos : s.pos = v.base + a.off := by
          apply Decidable.byContradiction; intro hx; exact hcond (Or.inr (Or.inr hx))
        refine h.local_ t _ hna ⟨hm, ha, ho, by simpa using hpos, by simp, by simp⟩
  | opening a =>
    rw [hph] at hri
    obtain ⟨hm, ha, hp, hreq, ho0⟩ := hri
    simp only
    refine h.stepR t _ rfl ?_ ?_ h.closers h.detached (Keeps.refl _) (fun _ _ => Iff.rfl) ?_
    · obtain ⟨a1, a2, a3, a4, a5, a6, a7, a8, a9⟩ := h.sh
      refine ⟨a1, ?_, Or.inr (Or.inr ⟨t, a, laneWantEnd v s.pinned, decide (ifRangeValue s.pinned ≠ []), by simp [Lane.setR]⟩), a4, a5, a6, a7, a8, fun ho => ?_⟩
      · show s.requests + 1 ≤ 1; omega
      · have : s.state = .open_ := ho
        rw [hp] at this; simp at this
    · refine ⟨hm, ha.mono (Keeps.refl _), hp, ?_, ho0⟩
      unfold laneWantEnd
      split
      · cases hk : knownSize s.pinned with
        | none => exact Or.inl rfl
        | some z =>
          simp only
          split
          · exact Or.inl rfl
          · right; exact ⟨rfl, Or.inr ⟨z, hk, by omega⟩⟩
      · rename_i hx
        right; exact ⟨rfl, Or.inl (Decidable.not_not.1 hx)⟩
    · intro i hi hmi; exact absurd hmi (others_free hm hi)
  | asked a w c =>
    rw [hph] at hri
    obtain ⟨hm, ha, hp, hw, ho0⟩ := hri
    have hsh := h.sh
    have hoff := ha.off
    have hbd : s.body.isSome = false := by
      cases hb : s.body.isSome with
      | false => rfl
      | true => have := hsh.body.1 hb; rw [hp] at this; simp at this
    have hb0 := hsh.recv.2 hp
    simp only
    cases hresp : env.resp with
    | none =>
      simp only
      apply h.finish t hm s _ rfl rfl (Keeps.refl _) hsh.nopanic hsh.req hsh.body hsh.count hsh.recv.1
      refine ⟨by simp [Lane.killLocked, Lane.unlock], fun x => by omega, fun _ => ⟨by simp, by simp, by simp, by simp, by simp⟩⟩
    | some r =>
      simp only
      obtain ⟨hk, hE, hO⟩ := checkStream_spec hv s hlen r (henv r hresp) w c hw
      cases hcs : checkStream s.pinned r v.base w c with
      | mk m' res =>
        rw [hcs] at hk hE hO
        cases res with
        | error e =>
          simp only
          refine h.finish t hm { s with bodies := s.bodies + 1, pinned := m', closes := s.closes + 1 } _ rfl rfl hk hsh.nopanic hsh.req hsh.body ?_ ?_ ?_
          · show s.bodies + 1 = s.closes + 1 + (if s.state = .open_ then 1 else 0)
            have := hsh.count; omega
          · show s.bodies + 1 ≤ 1; omega
          · refine ⟨by simp [Lane.killLocked, Lane.unlock], fun x => by omega, fun _ => ⟨by simp, by simp, by simp, by simp, ?_⟩⟩
            intro hx
            simp at hx
            have := hE e rfl hx
            right; simp; omega
        | ok g =>
          simp only
          obtain ⟨g1, g2, g3, g4, g5, g6⟩ := hO g rfl
          refine h.stepR t _ rfl ?_ ?_ h.closers h.detached hk (fun _ _ => Iff.rfl) ?_
          · obtain ⟨a1, a2, a3, a4, a5, a6, a7, a8, a9⟩ := hsh
            refine ⟨a1, a2, Or.inr (Or.inl (by simp [Lane.setR])), by simp [Lane.setR], ?_, ⟨?_, by simp [Lane.setR]⟩, by simp [Lane.setR], by simp [Lane.setR], fun _ => ?_⟩
            · show s.bodies + 1 = s.closes + 1
              rw [hp] at a5; simp at a5; omega
            · show s.bodies + 1 ≤ 1; omega
            · refine ⟨g1, Int.le_refl _, by show v.base ≤ g; omega, g3, g4, g5, ?_⟩
              intro rest f hbf
              have : (r.body, r.bodyErr) = (rest, f) := by simpa [Lane.setR] using hbf
              simp at this
              obtain ⟨rfl, rfl⟩ := this
              exact g6
          · refine ⟨hm, ha.mono hk, rfl, ?_, by simp, by simp⟩
            show v.base = v.base + a.off + _
            simp; omega
          · intro i hi hmi; exact absurd hmi (others_free hm hi)
  | reading a got => exact readTurn_inv hv h t a got env hph
  | unserved a => exact h
  | served a got e => exact h
  | early x y e => exact h

theorem closerStep_inv {content : Bytes} {v : View} {s : Lane} (h : Inv content v s) (c : Nat) : Inv content v (closerStep s c) := by
  have hsh := h.sh
  unfold closerStep
  cases hc : s.closers c with
  | absent => exact h
  | done => exact h
  | start =>
    simp only
    refine ⟨?_, ?_, ?_, fun hx => by simp [Lane.setC] at hx⟩
    · obtain ⟨a1, a2, a3, a4, a5, a6, a7, a8, a9⟩ := hsh
      refine ⟨a1, a2, a3, a4, a5, a6, a7, fun _ => rfl, fun ho => ?_⟩
      obtain ⟨b1, b2, b3, b4, b5, b6, b7⟩ := a9 ho
      exact ⟨b1, b2, b3, b4, b5, b6, b7⟩
    · intro i; exact (h.readers i).frame Iff.rfl (Keeps.refl _) (fun _ => ⟨rfl, rfl, rfl⟩)
    · intro d
      show (if d = c then CPhase.wantLock else s.closers d) = .locked ↔ s.mu = some (.closer d)
      by_cases hd : d = c
      · subst hd
        simp only [if_true, reduceCtorEq, false_iff]
        intro hx; have := (h.closers d).2 hx; rw [hc] at this; simp at this
      · rw [if_neg hd]; exact h.closers d
  | wantLock =>
    simp only
    split
    · rename_i hmu
      refine ⟨?_, ?_, ?_, ?_⟩
      · obtain ⟨a1, a2, a3, a4, a5, a6, a7, a8, a9⟩ := hsh
        refine ⟨a1, a2, a3, a4, a5, a6, a7, a8, fun ho => ?_⟩
        obtain ⟨b1, b2, b3, b4, b5, b6, b7⟩ := a9 ho
        exact ⟨b1, b2, b3, b4, b5, b6, b7⟩
      · intro i
        refine (h.readers i).frame ?_ (Keeps.refl _) (fun _ => ⟨rfl, rfl, rfl⟩)
        show some (Holder.closer c) = some (.reader i) ↔ s.mu = _
        rw [hmu]; simp
      · intro d
        show (if d = c then CPhase.locked else s.closers d) = .locked ↔ some (Holder.closer c) = some (.closer d)
        by_cases hd : d = c
        · subst hd; simp
        · rw [if_neg hd, h.closers d, hmu]; simp; exact fun x => hd x.symm
      · intro hx
        have := h.detached hx
        show (if 0 = c then CPhase.locked else s.closers 0) = .absent
        by_cases hd : 0 = c
        · subst hd; rw [hc] at this; simp at this
        · rw [if_neg hd]; exact this
    · exact h
  | locked =>
    simp only
    have hmu := (h.closers c).1 hc
    refine ⟨?_, ?_, ?_, fun hx => by simp [Lane.setC, Lane.unlock, Lane.killLocked] at hx⟩
    · refine ⟨hsh.nopanic, hsh.req, Or.inr (Or.inl (by simp [Lane.setC, Lane.unlock, Lane.killLocked])), ?_, ?_, ⟨hsh.recv.1, ?_⟩, ?_, fun _ => rfl, ?_⟩
      · show (if s.state = .open_ then none else s.body).isSome = true ↔ LaneState.dead = .open_
        by_cases ho : s.state = .open_
        · simp [ho]
        · simp only [if_neg ho, reduceCtorEq, iff_false]
          intro hx; exact ho (hsh.body.1 hx)
      · show s.bodies = (if s.state = .open_ then s.closes + 1 else s.closes) + 0
        rw [hsh.count]; split <;> omega
      · intro hx; simp [Lane.setC, Lane.unlock, Lane.killLocked] at hx
      · intro hx; simp [Lane.setC, Lane.unlock, Lane.killLocked] at hx
      · intro hx; simp [Lane.setC, Lane.unlock, Lane.killLocked] at hx
    · intro i
      refine (h.readers i).frame ?_ (Keeps.refl _) ?_
      · show none = some _ ↔ s.mu = _
        rw [hmu]; simp
      · intro hx; rw [hmu] at hx; simp at hx
    · intro d
      show (if d = c then CPhase.done else s.closers d) = .locked ↔ none = some _
      by_cases hd : d = c
      · subst hd; simp
      · rw [if_neg hd, h.closers d, hmu]; simp; exact fun x => hd x.symm

theorem newLane_inv (content : Bytes) (v : View) (m : Option ObjMeta) : Inv content v (newLane v m) := by
  refine ⟨⟨rfl, by simp [newLane], Or.inl rfl, by simp [newLane], by simp [newLane], by simp [newLane], fun _ => rfl, by simp [newLane], by simp [newLane]⟩, ?_, ?_, ?_⟩
  · intro t; show none ≠ some _; simp
  · intro c
    show (if c = 0 then CPhase.absent else .start) = .locked ↔ none = some _
    split <;> simp
  · intro _; rfl

theorem laneRun_inv {content : Bytes} {v : View} (hv : ValidView v) (hlen : 0 < v.length) (args : Nat → Nat × Int)
    (hargs : ∀ t, (args t).2 ≤ maxInt64) {m : Option ObjMeta} {s : Lane}
    (hrun : LaneRun v args (HonestResp content) Keeps (newLane v m) s) : Inv content v s := by
  generalize ha : newLane v m = s0 at hrun
  induction hrun with
  | refl => subst ha; exact newLane_inv content v m
  | tail _ st ih =>
    cases st with
    | reader t env h => exact readerStep_inv hv hlen args hargs ih t env h
    | closer c => exact closerStep_inv ih c
    | pin m' hk =>
      refine ⟨?_, ?_, ih.closers, ih.detached⟩
      · obtain ⟨a1, a2, a3, a4, a5, a6, a7, a8, a9⟩ := ih.sh
        refine ⟨a1, a2, a3, a4, a5, a6, a7, a8, fun ho => ?_⟩
        obtain ⟨b1, b2, b3, b4, b5, b6, b7⟩ := a9 ho
        exact ⟨hk.known b1, b2, b3, b4, b5, b6, b7⟩
      · intro i; exact (ih.readers i).frame Iff.rfl hk (fun _ => ⟨rfl, rfl, rfl⟩)

/-- C17: under every interleaving of any number of reads, closes and other requests on a reader over a non-empty section, with a server
that tells the truth about `content`: every read the lane answered satisfies the specification of a read of the section
(the same `ReadOK` that bounded reads satisfy, C14). -/
theorem C17_served_reads_exact (content : Bytes) (v : View) (hv : ValidView v) (hlen : 0 < v.length) (args : Nat → Nat × Int)
    (hargs : ∀ t, (args t).2 ≤ maxInt64) (m : Option ObjMeta) (s : Lane)
    (hrun : LaneRun v args (HonestResp content) Keeps (newLane v m) s) (t : Nat) (a : RArg) (got : Bytes) (e : Option HErr)
    (h : s.readers t = .served a got e) : ReadOK content v.base v.end_ a.len a.off got e := by
  have := (laneRun_inv hv hlen args hargs hrun).readers t
  rw [h] at this
  exact this.2

/-- Call `t` is between taking the mutex and returning. -/
def UsesStream : RPhase → Prop
  | .locked _ | .opening _ | .asked _ _ _ | .reading _ _ => True
  | _ => False

/-- The phases in which a call drives the request or the body. -/
def Drives : RPhase → Prop
  | .opening _ | .asked _ _ _ | .reading _ _ => True
  | _ => False

theorem dead_forever (v : View) (args : Nat → Nat × Int) (honest : Resp → Prop) (settles : Option ObjMeta → Option ObjMeta → Prop) (s s' : Lane)
    (h : LaneRun v args honest settles s s') (hd : s.state = .dead ∧ s.dead = true) (hx : ∀ t, ¬ Drives (s.readers t)) :
    (s'.state = .dead ∧ s'.dead = true ∧ s'.requests = s.requests) ∧ (∀ t, ¬ Drives (s'.readers t)) ∧
    (∀ t a g e, s'.readers t = .served a g e → s.readers t = .served a g e) := by
  induction h with
  | refl => exact ⟨⟨hd.1, hd.2, rfl⟩, hx, fun _ _ _ _ h => h⟩
  | @tail b c _ st ih =>
    obtain ⟨⟨i1, i2, i3⟩, i4, i5⟩ := ih
    have upd : ∀ (x : Lane) (t : Nat) (p : RPhase), x.readers = b.readers → ¬ Drives p → (∀ a g e, p ≠ .served a g e) →
        (∀ i, ¬ Drives ((x.setR t p).readers i)) ∧ (∀ i a g e, (x.setR t p).readers i = .served a g e → s.readers i = .served a g e) := by
      intro x t p hxb hp hs
      constructor
      · intro i hi
        by_cases hit : i = t
        · subst hit; simp [Lane.setR] at hi; exact hp hi
        · simp [Lane.setR, hit, hxb] at hi; exact i4 i hi
      · intro i a g e hi
        by_cases hit : i = t
        · subst hit; simp [Lane.setR] at hi; exact absurd hi (hs a g e)
        · simp [Lane.setR, hit, hxb] at hi; exact i5 i a g e hi
    cases st with
    | pin m' _ => exact ⟨⟨i1, i2, i3⟩, i4, i5⟩
    | closer c =>
      unfold closerStep
      split
      · exact ⟨⟨i1, i2, i3⟩, i4, i5⟩
      · exact ⟨⟨i1, rfl, i3⟩, i4, i5⟩
      · split
        · exact ⟨⟨i1, i2, i3⟩, i4, i5⟩
        · exact ⟨⟨i1, i2, i3⟩, i4, i5⟩
      · exact ⟨⟨rfl, rfl, i3⟩, i4, i5⟩
      · exact ⟨⟨i1, i2, i3⟩, i4, i5⟩
    | reader t env _ =>
      unfold readerStep
      split
      · split
        · exact ⟨⟨i1, i2, i3⟩, upd _ _ _ rfl (by simp [Drives]) (by simp)⟩
        · exact ⟨⟨i1, i2, i3⟩, upd _ _ _ rfl (by simp [Drives]) (by simp)⟩
      · split
        · exact ⟨⟨i1, i2, i3⟩, upd _ _ _ rfl (by simp [Drives]) (by simp)⟩
        · exact ⟨⟨i1, i2, i3⟩, upd _ _ _ rfl (by simp [Drives]) (by simp)⟩
      · split
        · exact ⟨⟨i1, i2, i3⟩, upd _ _ _ rfl (by simp [Drives]) (by simp)⟩
        · exact ⟨⟨i1, i2, i3⟩, upd _ _ _ rfl (by simp [Drives]) (by simp)⟩
      · rw [if_pos i2]
        exact ⟨⟨i1, i2, i3⟩, upd _ _ _ rfl (by simp [Drives]) (by simp)⟩
      · split
        · exact ⟨⟨i1, i2, i3⟩, upd _ _ _ rfl (by simp [Drives]) (by simp)⟩
        · exact ⟨⟨i1, i2, i3⟩, i4, i5⟩
      · rw [if_pos (Or.inl i1)]
        exact ⟨⟨i1, i2, i3⟩, upd _ _ _ rfl (by simp [Drives]) (by simp)⟩
      · rename_i hp; exact absurd (by rw [hp]; trivial) (i4 t)
      · rename_i hp; exact absurd (by rw [hp]; trivial) (i4 t)
      · rename_i hp; exact absurd (by rw [hp]; trivial) (i4 t)
      · exact ⟨⟨i1, i2, i3⟩, i4, i5⟩
      · exact ⟨⟨i1, i2, i3⟩, i4, i5⟩
      · exact ⟨⟨i1, i2, i3⟩, i4, i5⟩

/-! non-vacuity of C17: three reads of a section `[1, 4)` of a five byte object.  Read 0 opens the stream and is answered from it in two
pieces, read 1 continues, read 2 comes out of order while read 1 holds the mutex and is left to a bounded request; the detached
closer then finds the lane finished. -/
section Example
def exContent : Bytes := [10, 11, 12, 13, 14]
def exArgs : Nat → Nat × Int := fun t => if t = 0 then (2, 0) else if t = 1 then (5, 2) else (1, 0)
def exResp : Resp := serve exContent "A".toList 3 1
def exSched : List (Nat × Env) :=
  [(0, {}), (0, {}), (0, {}), (0, {}), (0, {}), (0, {}), (0, { resp := some exResp }), (0, { take := 1 }), (0, { take := 9 }), (0, {}),
   (1, {}), (1, {}), (1, {}), (1, {}), (1, {}), (2, {}), (2, {}), (2, {}), (2, {}), (1, { take := 9, sayEnd := true })]
def exRun : Lane := exSched.foldl (fun s p => readerStep ⟨1, 3⟩ exArgs s p.1 p.2) (newLane ⟨1, 3⟩ none)

example : exRun.readers 0 = .served ⟨2, 0, 2⟩ [11, 12] none ∧ exRun.readers 1 = .served ⟨5, 2, 1⟩ [13] (some .eof) ∧
    exRun.readers 2 = .unserved ⟨1, 0, 1⟩ ∧ exRun.requests = 1 ∧ exRun.closers 0 = .wantLock ∧ exRun.state = .dead := by decide

theorem exRun_reachable : LaneRun ⟨1, 3⟩ exArgs (HonestResp exContent) Keeps (newLane ⟨1, 3⟩ none) exRun := by
  have key : ∀ (l : List (Nat × Env)) (s0 s : Lane), (∀ p ∈ l, ∀ r, p.2.resp = some r → HonestResp exContent r) →
      LaneRun ⟨1, 3⟩ exArgs (HonestResp exContent) Keeps s0 s →
      LaneRun ⟨1, 3⟩ exArgs (HonestResp exContent) Keeps s0 (l.foldl (fun s p => readerStep ⟨1, 3⟩ exArgs s p.1 p.2) s) := by
    intro l
    induction l with
    | nil => intro s0 s _ h; exact h
    | cons p rest ih =>
      intro s0 s hp h
      exact ih s0 _ (fun q hq => hp q (List.mem_cons_of_mem _ hq)) (.tail h (.reader s p.1 p.2 (hp p List.mem_cons_self)))
  apply key _ _ _ _ (.refl _)
  intro p hp r hr
  have : r = exResp := by
    simp [exSched] at hp
    rcases hp with rfl | rfl | rfl | rfl | rfl | rfl | rfl | rfl | rfl | rfl | rfl | rfl | rfl | rfl | rfl | rfl | rfl | rfl | rfl | rfl <;> simp at hr
    exact hr.symm
  rw [this]
  exact serve_honest exContent (by decide) _ 3 1 (by decide)
end Example

/-- **C17** At the end of the object: the server refuses the range and says how long the object is, in agreement with what is known of it. If the read
began at or behind the end it gets no bytes and io.EOF; if it began before the end, the refusal is a contradiction and the read says that the
object changed. In both cases the lane is given up and the mutex is free. -/
theorem C17_at_end (v : View) (args : Nat → Nat × Int) (s : Lane) (t : Nat) (env : Env) (a : RArg) (wantEnd : Int) (conditional : Bool) (r : Resp)
    (last total : Int) (m' : ObjMeta) (hph : s.readers t = .asked a wantEnd conditional) (hr : env.resp = some r) (h416 : r.status = 416)
    (henc : encodingOk r = true) (hcr : parseContentRange r.contentRange = some (-1, last, total)) (hpin : pinOrVerify s.pinned r total = some m') :
    (total ≤ v.base → (readerStep v args s t env).readers t = .served a [] (some .eof)) ∧
    (v.base < total → (readerStep v args s t env).readers t = .served a [] (some .objectChanged)) ∧
    (readerStep v args s t env).mu = none ∧ (readerStep v args s t env).dead = true ∧ (readerStep v args s t env).pinned = some m' := by
  have hc : checkStream s.pinned r v.base wantEnd conditional = (some m', .error (if v.base < total then .objectChanged else .eof)) := by
    unfold checkStream streamUnsatisfied
    rw [henc, hcr]
    simp only [h416, hpin]
    split
    · simp_all
    · by_cases hlt : v.base < total <;> simp [hlt]
  have hstep : readerStep v args s t env = (({ s with bodies := s.bodies + 1, pinned := some m', closes := s.closes + 1 } : Lane).killLocked.unlock).setR t
      (.served a [] (some (if v.base < total then .objectChanged else .eof))) := by
    unfold readerStep
    rw [hph]
    simp only [hr, hc]
  rw [hstep]
  refine ⟨fun h => ?_, fun h => ?_, rfl, rfl, rfl⟩
  · rw [if_neg (by omega)]; simp [Lane.setR]
  · rw [if_pos h]; simp [Lane.setR]

/-- The hypotheses are met: a section that begins at the end of a five byte object, unknown so far. -/
example : ∃ (s : Lane) (r : Resp) (m' : ObjMeta), s.readers 0 = .asked ⟨1, 0, 1⟩ (-1) false ∧ r.status = 416 ∧ encodingOk r = true ∧
    parseContentRange r.contentRange = some (-1, -1, 5) ∧ pinOrVerify s.pinned r 5 = some (some m') ∧
    (readerStep ⟨5, maxInt64 - 5⟩ (fun _ => (1, 0)) s 0 { resp := some r }).readers 0 = .served ⟨1, 0, 1⟩ [] (some .eof) :=
  ⟨(newLane ⟨5, maxInt64 - 5⟩ none).setR 0 (.asked ⟨1, 0, 1⟩ (-1) false), { status := 416, contentRange := "bytes */5".toList }, _, rfl, rfl, by decide,
    by decide, rfl, by decide⟩

end Verif.Http
