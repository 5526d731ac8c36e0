import Verif.Fsutil.CopyFollowModel
import Verif.Fsutil.CopyPathOk
/-
C69, C70 (and C32) over a destination that follows symlinks and denies access: what a copy changes, and when it is the copy of `CopyModel`.
-/
namespace Verif.Fsutil.Copy
open Verif.Path Verif.Prog

/-! ### specification -/

/-- No symlink is at the place. -/
def NoLink (d : Disk) (k : List Str) : Prop := ∀ t, d k ≠ some (.link t)

/-- The places on the way to the copies of a source: those above the place of an entry, and those of the directories and files themselves. -/
def OnWay (R : List Str) (n : Node) (k : List Str) : Prop :=
  ∃ p ent, n.find p = some ent ∧ k <+: R ++ p ∧ (k = R ++ p → (∃ m, ent = .dir m) ∨ ∃ m b, ent = .file m b)

/-! ### ways without links -/

theorem scan_clear {v : View} {d : Disk} {last : Bool} : ∀ (cs here : List Str), (∀ c ∈ cs, c ≠ dotdot) →
    (∀ q, q ≠ [] → q <+: cs → (q ≠ cs ∨ last = true) → NoLink d (here ++ q)) →
    scan v d last here cs = .place (here ++ cs) ∨
      ∃ er, scan v d last here cs = .err er ∧ er ≠ .exist ∧ ∃ q, q <+: cs ∧ q ≠ cs ∧ ¬ ∃ m, d (here ++ q) = some (.dir m) ∧ v.search m = true
  | [], here, _, _ => by left; simp [scan]
  | c :: cs, here, hn, hl => by
    have hc : c ≠ dotdot := hn c (by simp)
    have bad : (¬ ∃ m, d here = some (.dir m) ∧ v.search m = true) →
        ∃ q, q <+: c :: cs ∧ q ≠ c :: cs ∧ ¬ ∃ m, d (here ++ q) = some (.dir m) ∧ v.search m = true :=
      fun h => ⟨[], by simp, by simp, by simpa using h⟩
    rcases hd : d here with _ | m | ⟨m, b⟩ | t
    · right; exact ⟨.notExist, by simp [scan, hd], by simp, bad (by simp [hd])⟩
    · by_cases hs : v.search m = false
      · right; exact ⟨.denied, by simp [scan, hd, hs], by simp, bad (by simp [hd, hs])⟩
      · have key := scan_clear (v := v) (d := d) (last := last) cs (here ++ [c]) (fun x hx => hn x (by simp [hx]))
          (fun q hq hp hlast => by
            have := hl (c :: q) (by simp) (by simpa using hp) (by
              rcases hlast with h | h
              · exact Or.inl (by simpa using h)
              · exact Or.inr h)
            simpa using this)
        have hgo : scan v d last here (c :: cs) = scan v d last (here ++ [c]) cs ∨
            (cs = [] ∧ scan v d last here (c :: cs) = .place (here ++ [c])) := by
          by_cases hcs : cs = [] ∧ last = false
          · right
            refine ⟨hcs.1, ?_⟩
            obtain ⟨rfl, rfl⟩ := hcs
            rcases hx : d (here ++ [c]) with _ | m' | ⟨m', b'⟩ | t' <;> simp [scan, hd, hs, hc, hx]
          · left
            have hnl := hl [c] (by simp) (by simp) (by
              by_cases h : cs = []
              · right; simpa [h] using hcs
              · left; simpa using Ne.symm h)
            rcases hx : d (here ++ [c]) with _ | m' | ⟨m', b'⟩ | t'
            · simp [scan, hd, hs, hc, hx]
            · simp [scan, hd, hs, hc, hx]
            · simp [scan, hd, hs, hc, hx]
            · exact absurd hx (hnl t')
        rcases hgo with hgo | ⟨rfl, hgo⟩
        · rw [hgo]
          rcases key with h | ⟨er, h1, h2, q, h3, h4, h5⟩
          · left; rw [h]; simp
          · right
            exact ⟨er, h1, h2, c :: q, by simpa using h3, by simpa using h4, by simpa using h5⟩
        · left; exact hgo
    · right; exact ⟨.notDir, by simp [scan, hd], by simp, bad (by simp [hd])⟩
    · right; exact ⟨.notDir, by simp [scan, hd], by simp, bad (by simp [hd])⟩

/-- The names of a place, and no link on the way to it. -/
structure Clear (d : Disk) (last : Bool) (k : List Str) : Prop where
  names : ∀ c ∈ k, c ≠ dotdot
  above : ∀ q, q ≠ [] → q <+: k → q ≠ k → NoLink d q
  self : last = true → k ≠ [] → NoLink d k

theorem real_clear {v : View} {d : Disk} {last : Bool} {k : List Str} (h : Clear d last k) (n : Nat) :
    real v d last n [] k = .ok k ∨
      ∃ er, real v d last n [] k = .error er ∧ er ≠ .exist ∧ ∃ q, q <+: k ∧ q ≠ k ∧ ¬ ∃ m, d q = some (.dir m) ∧ v.search m = true := by
  have := scan_clear (v := v) (d := d) (last := last) k [] h.names (by
    intro q hq hp hl
    by_cases hk : q = k
    · subst hk
      exact h.self (by simpa using hl) hq
    · exact h.above q hq hp hk)
  rcases this with h1 | ⟨er, h1, h2, h3⟩
  · left
    cases n <;> simp [real, h1]
  · right
    refine ⟨er, ?_, h2, by simpa using h3⟩
    cases n <;> simp [real, h1]

/-! ### only the named places change -/

section
variable {A K : List Str → Prop} {d0 : Disk} {v : View} {e : Env}

/-- Only places of `K` changed, and no link is at a place of `A`. -/
def Safe (A K : List Str → Prop) (d0 d : Disk) : Prop := Within K d0 d ∧ ∀ k, k ≠ [] → A k → NoLink d k

/-- A place whose way is in `A`. -/
structure Way (A : List Str → Prop) (last : Bool) (k : List Str) : Prop where
  names : ∀ c ∈ k, c ≠ dotdot
  above : ∀ q, q <+: k → q ≠ k → A q
  self : last = true → A k

theorem Way.clear {last : Bool} {k : List Str} (h : Way A last k) {d : Disk} (hd : ∀ k, k ≠ [] → A k → NoLink d k) : Clear d last k :=
  ⟨h.names, fun q hq hp hk => hd q hq (h.above q hp hk), fun hl hk => hd k hk (h.self hl)⟩

theorem Way.weak {k : List Str} (h : Way A true k) : Way A false k := ⟨h.names, h.above, by simp⟩

theorem noLink_set {d : Disk} {k : List Str} {x : DEnt} (hx : ∀ t, x ≠ .link t) (hd : ∀ k, k ≠ [] → A k → NoLink d k) :
    ∀ k', k' ≠ [] → A k' → NoLink (d.set k x) k' := by
  intro k' hn hA t
  by_cases h : k' = k
  · subst h; rw [set_self]; intro h; cases h; exact hx t rfl
  · rw [set_other h]; exact hd k' hn hA t

theorem noLink_set_other {d : Disk} {k : List Str} {x : DEnt} (hk : ¬ A k) (hd : ∀ k, k ≠ [] → A k → NoLink d k) :
    ∀ k', k' ≠ [] → A k' → NoLink (d.set k x) k' := by
  intro k' hn hA t
  by_cases h : k' = k
  · subst h; exact absurd hA hk
  · rw [set_other h]; exact hd k' hn hA t

theorem Safe.set {d : Disk} {k : List Str} {x : DEnt} (hK : K k) (hx : ∀ t, x ≠ .link t) (h : Safe A K d0 d) : Safe A K d0 (d.set k x) :=
  ⟨h.1.set hK, noLink_set hx h.2⟩

theorem Safe.append {d : Disk} {k : List Str} {bs : Bytes} (hK : K k) (h : Safe A K d0 d) : Safe A K d0 (d.append k bs) := by
  unfold Disk.append
  split
  · exact h.set hK (by simp)
  · exact h

theorem resolve_safe {last : Bool} {p : Str} (hw : Way A last (comps p)) :
    Holds (Safe A K d0) (Safe A K d0) (resolve v last p) (fun r d => Safe A K d0 d ∧ ∀ k, r = .ok k → k = comps p) := by
  unfold resolve
  refine .bind (fun r d => Safe A K d0 d ∧ r = .ok d) (.get fun _ h => ⟨h, rfl⟩) (fun d => ?_) (by rintro er s ⟨_, h⟩; cases h)
  rcases hr : real v d last v.lim [] (comps p) with er | k
  · exact .fail (fun _ h => ⟨h.1, fun k h => by cases h⟩)
  · refine .pure ?_
    rintro s ⟨h, hs⟩
    cases hs
    refine ⟨h, fun k' hk => ?_⟩
    cases hk
    rcases real_clear (v := v) (hw.clear h.2) v.lim with h1 | ⟨er, h1, _⟩
    · rw [h1] at hr; cases hr; rfl
    · rw [h1] at hr; cases hr

/-- After the path is resolved. -/
theorem safe_resolve {α : Type} {last : Bool} {p : Str} {f : List Str → P α} (hw : Way A last (comps p))
    (hf : Keeps (Safe A K d0) (f (comps p))) : Keeps (Safe A K d0) (resolve v last p >>= f) := by
  refine .bind _ (resolve_safe hw) (fun k => ?_) (fun er s h => h.1)
  intro s hs
  obtain rfl := hs.2 k rfl
  exact hf s hs.1

theorem keeps_mayCreate {I : Disk → Prop} {k : List Str} : Keeps I (mayCreate v k) := by
  unfold mayCreate
  refine keeps_bind keeps_get (fun d => ?_)
  split
  · exact .ite (fun _ => keeps_pure) (fun _ => keeps_fail)
  · exact keeps_fail
  · exact keeps_fail

theorem safe_mkdirF {p : Str} {perm : Nat} (hK : K (comps p)) (hw : Way A true (comps p)) : Keeps (Safe A K d0) (mkdirF v e p perm) := by
  unfold mkdirF
  refine keeps_bind keeps_call (fun _ => safe_resolve hw.weak (keeps_bind keeps_get (fun d => ?_)))
  split
  · exact keeps_fail
  · exact keeps_bind keeps_mayCreate (fun _ => keeps_modify fun d h => h.set hK (by simp))

theorem safe_chmodF {p : Str} {mode : Nat} (hK : K (comps p)) (hw : Way A true (comps p)) : Keeps (Safe A K d0) (chmodF v e p mode) := by
  unfold chmodF
  refine keeps_bind keeps_call (fun _ => safe_resolve hw (keeps_bind keeps_get (fun d => ?_)))
  split
  · exact keeps_fail
  · exact keeps_modify fun d h => h.set hK (by simp)
  · exact keeps_modify fun d h => h.set hK (by simp)
  · exact keeps_fail

theorem safe_openDstF {p : Str} {perm : Nat} {α : Type} {f : List Str → P α} (hK : K (comps p)) (hw : Way A true (comps p))
    (hf : Keeps (Safe A K d0) (f (comps p))) : Keeps (Safe A K d0) (openDstF v e p perm >>= f) := by
  refine .bind (fun r d => Safe A K d0 d ∧ ∀ k, r = .ok k → k = comps p) ?_ (fun k => ?_) (fun er s h => h.1)
  · unfold openDstF
    refine .bind (fun _ => Safe A K d0) keeps_call (fun _ => ?_) (fun er s h => ⟨h, fun k h => by cases h⟩)
    refine .bind _ (resolve_safe hw) (fun k => ?_) (fun er s h => ⟨h.1, fun k h => by cases h⟩)
    refine .fix (fun s hs => ?_)
    obtain rfl := hs.2 k rfl
    refine .weaken (P' := Safe A K d0) (I' := Safe A K d0) ?_ (by rintro s' rfl; exact hs.1) (fun _ h => h) (fun _ _ h => h)
    refine .bind (fun _ => Safe A K d0) keeps_get (fun d => ?_) (fun er s h => ⟨h, fun k h => by cases h⟩)
    split
    · refine .bind (fun _ => Safe A K d0) keeps_mayCreate (fun _ => ?_) (fun er s h => ⟨h, fun k h => by cases h⟩)
      refine .bind (fun _ => Safe A K d0) (keeps_modify fun d h => h.set hK (by simp)) (fun _ => ?_) (fun er s h => ⟨h, fun k h => by cases h⟩)
      exact .pure fun _ h => ⟨h, fun k h => by cases h; rfl⟩
    · refine .ite (fun _ => ?_) (fun _ => .fail fun _ h => ⟨h, fun k h => by cases h⟩)
      refine .bind (fun _ => Safe A K d0) (keeps_modify fun d h => h.set hK (by simp)) (fun _ => ?_) (fun er s h => ⟨h, fun k h => by cases h⟩)
      exact .pure fun _ h => ⟨h, fun k h => by cases h; rfl⟩
    · exact .fail fun _ h => ⟨h, fun k h => by cases h⟩
    · exact .fail fun _ h => ⟨h, fun k h => by cases h⟩
  · intro s hs
    obtain rfl := hs.2 k rfl
    exact hf s hs.1

theorem safe_symlinkF {t p : Str} (hK : K (comps p)) (hw : Way A false (comps p)) (hA : ¬ A (comps p)) : Keeps (Safe A K d0) (symlinkF v e t p) := by
  unfold symlinkF
  refine keeps_bind keeps_call (fun _ => safe_resolve hw (keeps_bind keeps_get (fun d => ?_)))
  split
  · exact keeps_fail
  · exact keeps_bind keeps_mayCreate (fun _ => keeps_modify fun d h => ⟨h.1.set hK, noLink_set_other hA h.2⟩)

theorem safe_copyBytes {src : Str} {k : List Str} (hK : K k) : ∀ (ps : List Bytes) (i : Nat), Keeps (Safe A K d0) (copyBytes e src k i ps)
  | [], i => by unfold copyBytes; exact keeps_pure
  | b :: rest, i => by
    unfold copyBytes
    refine keeps_bind keeps_call (fun _ => ?_)
    split
    · exact keeps_bind (keeps_modify fun d h => h.append hK) (fun _ => keeps_fail)
    · exact keeps_bind (keeps_modify fun d h => h.append hK) (fun _ => safe_copyBytes hK rest (i + 1))

/-- What the sets of places have to say about an entry that is copied to a place. -/
structure Fine (A : List Str → Prop) (ent : Ent) (k : List Str) : Prop where
  way : Way A false k
  dir : ∀ m, ent = .dir m → A k
  file : ∀ m b, ent = .file m b → A k
  link : ∀ t, ent = .link t → ¬ A k

theorem safe_mkdirOrExistF {p : Str} (hK : K (comps p)) (hw : Way A true (comps p)) : Keeps (Safe A K d0) (mkdirOrExistF v e p) := by
  unfold mkdirOrExistF
  refine keeps_bind (.attempt (safe_mkdirF hK hw)) (fun r => ?_)
  split
  · exact keeps_pure
  · exact keeps_fail
  · exact keeps_pure

theorem safe_copyEntryF {dst src : Str} (hK : K (comps dst)) : ∀ (ent : Ent), Fine A ent (comps dst) → Keeps (Safe A K d0) (copyEntryF v e dst src ent)
  | .dir m, hf => by
    have hw : Way A true (comps dst) := ⟨hf.way.names, hf.way.above, fun _ => hf.dir m rfl⟩
    unfold copyEntryF
    exact keeps_bind (safe_mkdirOrExistF hK hw) (fun _ => safe_chmodF hK hw)
  | .file m b, hf => by
    have hw : Way A true (comps dst) := ⟨hf.way.names, hf.way.above, fun _ => hf.file m b rfl⟩
    unfold copyEntryF
    exact keeps_bind keeps_call (fun _ => safe_openDstF hK hw (safe_copyBytes hK _ _))
  | .link t, hf => by
    simp only [copyEntryF]
    split
    · exact keeps_bind keeps_call (fun _ => safe_symlinkF hK hf.way (hf.link t rfl))
    · exact keeps_pure
  | .other, _ => by unfold copyEntryF; exact keeps_pure

theorem safe_visitF {root s : Str} {p : List Str} {ent : Ent} (hp : PathOf s p) (hK : K (comps root ++ p)) (hf : Fine A ent (comps root ++ p)) :
    Keeps (Safe A K d0) (visitF v e root s ent) := by
  unfold visitF
  have : comps (join2 root s) = comps root ++ p := by
    rw [comps_dst hp.1 hp.2.1 (by rw [hp.2.2.1]; exact hp.2.2.2), hp.2.2.1]
  exact keeps_bind keeps_call (fun _ => safe_copyEntryF (by rw [this]; exact hK) ent (by rw [this]; exact hf))

mutual
theorem safe_walkNodeF {root : Str} : ∀ (n : Node) (s : Str) (p : List Str), n.WF → PathOf s p →
    (∀ x ∈ n.entries p, K (comps root ++ x.1) ∧ Fine A x.2 (comps root ++ x.1)) → Keeps (Safe A K d0) (walkNodeF v e root s n)
  | .mk ent kids, s, p, hwf, hp, hk => by
    unfold walkNodeF
    have h0 := hk (p, ent) (by simp [Node.entries])
    refine keeps_bind (safe_visitF hp h0.1 h0.2) (fun _ => ?_)
    cases ent with
    | dir m =>
      have hk' : ∀ x ∈ kids.entries p, K (comps root ++ x.1) ∧ Fine A x.2 (comps root ++ x.1) :=
        fun x hx => hk x (by simp [Node.entries, Ent.below, hx])
      exact .ite (fun _ => keeps_bind keeps_walkErr (fun _ => safe_walkKidsF kids s p _ hwf hp hk')) (fun _ => safe_walkKidsF kids s p _ hwf hp hk')
    | file _ _ => exact keeps_pure
    | link _ => exact keeps_pure
    | other => exact keeps_pure
theorem safe_walkKidsF {root : Str} : ∀ (ks : Kids) (s : Str) (p : List Str) (lim : Option Nat), ks.WF → PathOf s p →
    (∀ x ∈ ks.entries p, K (comps root ++ x.1) ∧ Fine A x.2 (comps root ++ x.1)) → Keeps (Safe A K d0) (walkKidsF v e root s lim ks)
  | .nil, s, p, lim, _, _, _ => by
    cases lim <;> (unfold walkKidsF; exact keeps_pure)
  | .cons name n rest, s, p, lim, hwf, hp, hk => by
    obtain ⟨hname, _, hn, hrest⟩ := hwf
    have h1 : ∀ lim', Keeps (Safe A K d0) (do walkNodeF v e root (join2 s name) n; walkKidsF v e root s lim' rest) := fun lim' =>
      keeps_bind (safe_walkNodeF n (join2 s name) (p ++ [name]) hn (pathOf_join hp hname) (fun x hx => hk x (by simp [Kids.entries, hx])))
        (fun _ => safe_walkKidsF rest s p lim' hrest hp (fun x hx => hk x (by simp [Kids.entries, hx])))
    match lim with
    | none => simp only [walkKidsF]; exact h1 _
    | some 0 => simp only [walkKidsF]; exact keeps_pure
    | some (n + 1) => simp only [walkKidsF]; exact h1 _
end
end

/-! ### the places of a source -/

mutual
theorem Node.find_names : ∀ (n : Node), n.WF → ∀ (p : List Str), n.find p ≠ none → ∀ c ∈ p, IsName c
  | .mk ent kids, hwf, [], h => by simp
  | .mk ent kids, hwf, c :: p, h => by
    cases ent with
    | dir m => rw [Node.find] at h; exact Kids.find_names kids hwf c p h
    | file _ _ => simp [Node.find] at h
    | link _ => simp [Node.find] at h
    | other => simp [Node.find] at h
theorem Kids.find_names : ∀ (ks : Kids), ks.WF → ∀ (c : Str) (p : List Str), ks.find c p ≠ none → ∀ x ∈ c :: p, IsName x
  | .nil, _, c, p, h => by simp [Kids.find] at h
  | .cons name n rest, hwf, c, p, h => by
    obtain ⟨hname, _, hn, hrest⟩ := hwf
    rw [Kids.find] at h
    split at h
    · rename_i hc
      subst hc
      intro x hx
      rcases List.mem_cons.1 hx with rfl | hx
      · exact hname
      · exact Node.find_names n hn p h x hx
    · exact Kids.find_names rest hrest c p h
end

/-- A link of the source is not on the way. -/
theorem link_not_onWay {R : List Str} {n : Node} {p : List Str} {t : Str} (h : n.find p = some (.link t)) : ¬ OnWay R n (R ++ p) := by
  rintro ⟨p', ent, hf, hpre, hself⟩
  have hpre' : p <+: p' := (List.prefix_append_right_inj R).1 hpre
  obtain ⟨q, rfl⟩ := hpre'
  cases q with
  | nil =>
    rw [List.append_nil] at hf hself
    rw [hf] at h
    cases h
    rcases hself rfl with ⟨m, h⟩ | ⟨m, b, h⟩ <;> cases h
  | cons x q =>
    obtain ⟨m, hm⟩ := Node.find_above n p x q hf
    rw [hm] at h; cases h

theorem isName_dotdot {c : Str} (h : IsName c) : c ≠ dotdot := h.2.2

theorem fine_of_find {R : List Str} {n : Node} (hwf : n.WF) (hR : ∀ c ∈ R, c ≠ dotdot) {p : List Str} {ent : Ent} (h : n.find p = some ent) :
    Fine (OnWay R n) ent (R ++ p) where
  way := {
    names := by
      intro c hc
      rcases List.mem_append.1 hc with hc | hc
      · exact hR c hc
      · exact isName_dotdot (Node.find_names n hwf p (by rw [h]; simp) c hc)
    above := fun q hq hne => ⟨p, ent, h, hq, fun h => absurd h hne⟩
    self := by simp }
  dir m hm := ⟨p, ent, h, List.prefix_refl _, fun _ => Or.inl ⟨m, hm⟩⟩
  file m b hm := ⟨p, ent, h, List.prefix_refl _, fun _ => Or.inr ⟨m, b, hm⟩⟩
  link t ht := by subst ht; exact link_not_onWay h

/-- **C69** The destination follows symlinks, and may deny access. If no symlink of it stands on the way to a place the source names (above it, or in the
place of a directory or a file of the source): then whatever it holds, whatever fails, and wherever the process dies, a place that no entry of the source
names is as it was.
Missing from **C69**: a destination with a symlink on the way, see the counterexamples. -/
theorem C69_follow_only_named_partial (v : View) (e : Env) (root : Str) (hR : ∀ c ∈ comps root, c ≠ dotdot) (n : Node) (hwf : n.WF) (d : Disk)
    (hlinks : ∀ k, k ≠ [] → OnWay (comps root) n k → NoLink d k) :
    (∀ t ∈ crashes (copyAllF v e root n) d, Within (Named (comps root) n) d t) ∧ Within (Named (comps root) n) d (final (copyAllF v e root n) d) := by
  have h : Keeps (Safe (OnWay (comps root) n) (Named (comps root) n) d) (copyAllF v e root n) := by
    unfold copyAllF
    refine .ite (fun _ => keeps_walkErr) (fun _ => ?_)
    refine safe_walkNodeF n dot [] hwf ⟨by decide, by decide, by decide, by simp⟩ ?_
    intro x hx
    obtain ⟨q, h1, h2⟩ := Node.entries_find [] n hwf x hx
    rw [List.nil_append] at h1
    rw [h1]
    exact ⟨⟨q, x.2, h2, rfl⟩, fine_of_find hwf hR h2⟩
  have := h d ⟨Within.refl, hlinks⟩
  exact ⟨fun t ht => (this.1 t ht).1, this.2.1⟩

/-- The places on the way to the copies of named entries. -/
def OnWayTo (R : List Str) (src : Node) (paths : List Str) (k : List Str) : Prop :=
  ∃ p ∈ paths, ∃ ent, src.find (comps p) = some ent ∧ k <+: R ++ comps p ∧ (k = R ++ comps p → (∃ m, ent = .dir m) ∨ ∃ m b, ent = .file m b)

theorem OnWayTo.onWay {R : List Str} {src : Node} {paths : List Str} {k : List Str} (h : OnWayTo R src paths k) : OnWay R src k := by
  obtain ⟨p, _, ent, h1, h2, h3⟩ := h
  exact ⟨comps p, ent, h1, h2, h3⟩

section
variable {A K : List Str → Prop} {d0 : Disk} {v : View} {e : Env} {src : Node} {root : Str}

theorem safe_makeDirF {d : Str} (hK : d ≠ dot → K (comps d)) (hw : d ≠ dot → Way A true (comps d)) : Keeps (Safe A K d0) (makeDirF v e src root d) := by
  unfold makeDirF
  refine .ite (fun _ => keeps_pure) (fun hd => ?_)
  refine keeps_bind (safe_mkdirOrExistF (hK hd) (hw hd)) (fun _ => ?_)
  split
  · exact keeps_pure
  · refine .ite (fun _ => keeps_pure) (fun _ => keeps_bind keeps_call (fun _ => ?_))
    split
    · exact keeps_fail
    · exact safe_chmodF (hK hd) (hw hd)

theorem safe_makeDirsF : ∀ (ds : List Str), (∀ d ∈ ds, d ≠ dot → K (comps d)) → (∀ d ∈ ds, d ≠ dot → Way A true (comps d)) →
    Keeps (Safe A K d0) (makeDirsF v e src root ds)
  | [], _, _ => by unfold makeDirsF; exact keeps_pure
  | d :: ds, h, h' => by
    unfold makeDirsF
    exact keeps_bind (safe_makeDirF (h d (by simp)) (h' d (by simp)))
      (fun _ => safe_makeDirsF ds (fun x hx => h x (by simp [hx])) (fun x hx => h' x (by simp [hx])))

theorem safe_copyEntriesF : ∀ (l : List (Str × Ent)), (∀ x ∈ l, K (comps (join2 root x.1))) → (∀ x ∈ l, Fine A x.2 (comps (join2 root x.1))) →
    Keeps (Safe A K d0) (copyEntriesF v e root l)
  | [], _, _ => by unfold copyEntriesF; exact keeps_pure
  | x :: xs, h, h' => by
    unfold copyEntriesF
    exact keeps_bind (safe_copyEntryF (h x (by simp)) _ (h' x (by simp)))
      (fun _ => safe_copyEntriesF xs (fun y hy => h y (by simp [hy])) (fun y hy => h' y (by simp [hy])))
end

theorem prefix_dropLast {q k : List Str} (h : q <+: k) (hne : q ≠ k) : q <+: k.dropLast := by
  obtain ⟨t, rfl⟩ := h
  cases t with
  | nil => simp at hne
  | cons x t => rw [List.dropLast_append_of_ne_nil (by simp)]; exact List.prefix_append _ _

theorem proper_of_dropLast {q k : List Str} (hq : q ≠ []) (h : q <+: k.dropLast) : q <+: k ∧ q ≠ k := by
  refine ⟨h.trans (dropLast_prefix k), ?_⟩
  rintro rfl
  have h1 := h.length_le
  have : 0 < q.length := List.length_pos_iff.2 hq
  rw [List.length_dropLast] at h1
  omega

/-- What is known about the directories `CopyPath` makes. -/
theorem dirs_places {src : Node} {root : Str} {paths : List Str} {l : List (Str × Ent)} (habs : isAbs (clean root) = false)
    (hmap : l.map Prod.fst = paths.map clean) (hfound : ∀ x ∈ l, Found src x) {dd : Str}
    (hdd : dd ∈ Tarfs.sortKeys (l.flatMap (fun x => parents (clean root) x.1)).eraseDups) :
    ∃ p ∈ paths, ∃ ent, src.find (comps p) = some ent ∧ comps dd ≠ [] ∧ comps dd <+: (comps root ++ comps p).dropLast := by
  obtain ⟨x, hx, hm⟩ := mem_dirs.1 hdd
  obtain ⟨E, hE, hpre, rfl⟩ := (mem_parents habs (hfound x hx).1 (clean_ne_nil root)).1 hm
  have hpre' := hpre.trans (dropLast_prefix _)
  rw [comps_clean] at hpre' hpre
  have hN := normal_append (R := comps root) (by have := comps_normal root; rw [isAbs_clean] at habs; rwa [habs] at this) (hfound x hx).1.2.2
  rw [comps_render (normal_prefix hN hpre')]
  have : x.1 ∈ paths.map clean := by rw [← hmap]; exact List.mem_map_of_mem hx
  obtain ⟨p, hp, he⟩ := List.mem_map.1 this
  have hc : comps x.1 = comps p := by rw [← he, comps_clean]
  exact ⟨p, hp, x.2, by rw [← hc]; exact (hfound x hx).2, hE, by rw [← hc]; exact hpre⟩

/-- What is known about the entries `CopyPath` copies. -/
theorem entries_places {src : Node} {root : Str} {paths : List Str} {l : List (Str × Ent)}
    (hmap : l.map Prod.fst = paths.map clean) (hfound : ∀ x ∈ l, Found src x) {x : Str × Ent} (hx : x ∈ l) :
    ∃ p ∈ paths, comps x.1 = comps p ∧ src.find (comps p) = some x.2 ∧ comps (join2 (clean root) x.1) = comps root ++ comps p := by
  have : x.1 ∈ paths.map clean := by rw [← hmap]; exact List.mem_map_of_mem hx
  obtain ⟨p, hp, he⟩ := List.mem_map.1 this
  have hc : comps x.1 = comps p := by rw [← he, comps_clean]
  refine ⟨p, hp, hc, by rw [← hc]; exact (hfound x hx).2, ?_⟩
  rw [comps_dst (hfound x hx).1.1 (hfound x hx).1.2.1 (hfound x hx).1.2.2, comps_clean, hc]

theorem way_dir {src : Node} {R : List Str} {paths : List Str} (hR : ∀ c ∈ R, c ≠ dotdot) {p : Str} (hp : p ∈ paths) {ent : Ent}
    (hf : src.find (comps p) = some ent) (hn : ∀ c ∈ comps p, c ≠ dotdot) {E : List Str} (hE : E ≠ []) (hpre : E <+: (R ++ comps p).dropLast) :
    Way (OnWayTo R src paths) true E := by
  obtain ⟨h1, h2⟩ := proper_of_dropLast hE hpre
  have hA : ∀ q, q <+: E → OnWayTo R src paths q := by
    intro q hq
    refine ⟨p, hp, ent, hf, hq.trans h1, ?_⟩
    rintro rfl
    exact absurd (List.IsPrefix.eq_of_length h1 (Nat.le_antisymm h1.length_le hq.length_le)) h2
  refine ⟨?_, fun q hq _ => hA q hq, fun _ => hA E (List.prefix_refl _)⟩
  intro c hc
  rcases List.mem_append.1 (h1.subset hc) with h | h
  · exact hR c h
  · exact hn c h

theorem fine_path {src : Node} {R : List Str} {paths : List Str} (hR : ∀ c ∈ R, c ≠ dotdot) {p : Str} (hp : p ∈ paths) {ent : Ent}
    (hf : src.find (comps p) = some ent) (hn : ∀ c ∈ comps p, c ≠ dotdot) : Fine (OnWayTo R src paths) ent (R ++ comps p) where
  way := {
    names := by
      intro c hc
      rcases List.mem_append.1 hc with h | h
      · exact hR c h
      · exact hn c h
    above := fun q hq hne => ⟨p, hp, ent, hf, hq, fun h => absurd h hne⟩
    self := by simp }
  dir m hm := ⟨p, hp, ent, hf, List.prefix_refl _, fun _ => Or.inl ⟨m, hm⟩⟩
  file m b hm := ⟨p, hp, ent, hf, List.prefix_refl _, fun _ => Or.inr ⟨m, b, hm⟩⟩
  link t ht := by subst ht; exact fun h => link_not_onWay hf h.onWay

/-- **C70** The destination follows symlinks, and may deny access. If no symlink of it stands on the way to a named entry's place (above it, or in the
place of a directory or a file): whatever fails and wherever the process dies, only the named entries, the directories between the root and them, and the
root and what is above it change.
Missing from **C70**: a destination with a symlink on the way, see the counterexample. -/
theorem C70_follow_only_named_partial (v : View) (e : Env) (src : Node) (root : Str) (hR : ∀ c ∈ comps root, c ≠ dotdot) (paths : List Str) (d : Disk)
    (hlinks : ∀ k, k ≠ [] → OnWayTo (comps root) src paths k → NoLink d k) :
    (∀ t ∈ crashes (copyPathF v e src root paths) d, Within (Touched root paths) d t) ∧
    Within (Touched root paths) d (final (copyPathF v e src root paths) d) := by
  let S := Safe (OnWayTo (comps root) src paths) (Touched root paths) d
  have h : Holds S (fun s => s = d) (copyPathF v e src root paths) (fun _ => S) := by
    unfold copyPathF
    simp only
    have h0 : S d := ⟨Within.refl, hlinks⟩
    refine .ite (fun _ => .fail (by rintro s rfl; exact h0)) (fun habs => ?_)
    have habs : isAbs (clean root) = false := by simpa using habs
    refine .bind _ (gather_holds paths) (fun l => ?_) (by rintro er s ⟨rfl, _⟩; exact h0)
    refine .fix (fun s0 hs0 => ?_)
    obtain ⟨rfl, hl⟩ := hs0
    obtain ⟨hmap, hfound⟩ := hl l rfl
    refine .weaken (P' := S) (I' := S) (Q' := fun _ => S) ?_ (by rintro s rfl; exact h0) (fun _ h => h) (fun _ _ h => h)
    have hnames : ∀ {p : Str}, p ∈ paths → ∀ c ∈ comps p, c ≠ dotdot := by
      intro p hp c hc
      have : clean p ∈ l.map Prod.fst := by rw [hmap]; exact List.mem_map_of_mem hp
      obtain ⟨x, hx, he⟩ := List.mem_map.1 this
      exact isName_dotdot ((hfound x hx).1.2.2 c (by rw [he, comps_clean]; exact hc))
    refine keeps_bind (safe_makeDirsF _ ?_ ?_) (fun _ => safe_copyEntriesF _ ?_ ?_)
    · intro dd hdd _
      obtain ⟨p, hp, ent, hf, hE, hpre⟩ := dirs_places habs hmap hfound hdd
      rcases prefix_append_cases (hpre.trans (dropLast_prefix _)) with h | ⟨q, _, hq, h⟩
      · exact Or.inl ⟨hE, h⟩
      · exact Or.inr ⟨p, hp, q, hq, h⟩
    · intro dd hdd _
      obtain ⟨p, hp, ent, hf, hE, hpre⟩ := dirs_places habs hmap hfound hdd
      exact way_dir hR hp hf (hnames hp) hE hpre
    · intro x hx
      obtain ⟨p, hp, hc, hf, hj⟩ := entries_places (root := root) hmap hfound hx
      rw [hj]
      exact Or.inr ⟨p, hp, comps p, List.prefix_refl _, rfl⟩
    · intro x hx
      obtain ⟨p, hp, hc, hf, hj⟩ := entries_places (root := root) hmap hfound hx
      rw [hj]
      exact fine_path hR hp hf (hnames hp)
  have := h d rfl
  exact ⟨fun t ht => (this.1 t ht).1, this.2.1⟩

/-! ### the hypotheses are met, and the counterexamples -/

/-- A superuser's view, and an ordinary one. -/
def rootView : View := ⟨true, 40⟩
def userView : View := ⟨false, 40⟩

/-- A destination with a file "o", a link "x" to it, a directory "t" and a link "s" to it. -/
def linkedDisk : Disk := fun k =>
  if k = [] then some (.dir 511) else if k = [['o']] then some (.file 420 [7, 7]) else if k = [['x']] then some (.link ['o'])
  else if k = [['t']] then some (.dir 511) else if k = [['s']] then some (.link ['t']) else none

/-- The links are not on the way of a source that does not name them: the file "o" and the links are as they were. -/
example : result (copyAllF userView demoEnv ['t'] demoSrc) linkedDisk = .ok () ∧
    final (copyAllF userView demoEnv ['t'] demoSrc) linkedDisk [['t'], ['f']] = some (.file 420 [1, 2, 3]) ∧
    final (copyAllF userView demoEnv ['t'] demoSrc) linkedDisk [['o']] = some (.file 420 [7, 7]) := by
  refine ⟨by rfl, by decide +kernel, by decide +kernel⟩

example : ∀ k, k ≠ [] → OnWay (comps ['t']) demoSrc k → NoLink linkedDisk k := by
  rintro k hk ⟨p, ent, hf, ⟨u, hu⟩, hself⟩ t
  have hc : comps ['t'] = [['t']] := by decide
  rw [hc] at hu
  cases k with
  | nil => exact absurd rfl hk
  | cons a k =>
    simp only [List.cons_append, List.cons.injEq, List.nil_append] at hu
    obtain ⟨rfl, _⟩ := hu
    cases k <;> simp [linkedDisk]

/-- **C69** fails when a link of the destination stands in the place of a file of the source: the file the link leads to, which the source does not name,
gets the content; the copy succeeds. -/
theorem C69_counterexample_through_link :
    let src : Node := .mk (.dir 511) (.cons ['x'] (.mk (.file 420 [1]) .nil) .nil)
    result (copyAllF userView demoEnv dot src) linkedDisk = .ok () ∧ ¬ Named (comps dot) src [['o']] ∧
    linkedDisk [['o']] = some (.file 420 [7, 7]) ∧ final (copyAllF userView demoEnv dot src) linkedDisk [['o']] = some (.file 420 [1]) := by
  refine ⟨by rfl, ?_, by decide, by decide +kernel⟩
  rintro ⟨p, ent, hf, hp⟩
  have hc : comps dot = [] := by decide
  rw [hc, List.nil_append] at hp
  subst hp
  simp [Node.find, Kids.find] at hf

/-- **C69** fails when a link of the destination stands in the place of a directory of the source: the directory the link leads to gets the mode and the
entries. -/
theorem C69_counterexample_through_linked_dir :
    let src : Node := .mk (.dir 511) (.cons ['s'] (.mk (.dir 448) (.cons ['f'] (.mk (.file 420 [1]) .nil) .nil)) .nil)
    result (copyAllF userView demoEnv dot src) linkedDisk = .ok () ∧ ¬ Named (comps dot) src [['t']] ∧ ¬ Named (comps dot) src [['t'], ['f']] ∧
    final (copyAllF userView demoEnv dot src) linkedDisk [['t']] = some (.dir 448) ∧
    final (copyAllF userView demoEnv dot src) linkedDisk [['t'], ['f']] = some (.file 420 [1]) := by
  have hc : comps dot = [] := by decide
  refine ⟨by rfl, ?_, ?_, by decide +kernel, by decide +kernel⟩
  · rintro ⟨p, ent, hf, hp⟩
    rw [hc, List.nil_append] at hp
    subst hp
    simp [Node.find, Kids.find] at hf
  · rintro ⟨p, ent, hf, hp⟩
    rw [hc, List.nil_append] at hp
    subst hp
    simp [Node.find, Kids.find] at hf

/-- **C70** fails in the same way. -/
theorem C70_counterexample_through_link :
    let src : Node := .mk (.dir 511) (.cons ['x'] (.mk (.file 420 [1]) .nil) .nil)
    result (copyPathF userView demoEnv src dot [['x']]) linkedDisk = .ok () ∧ ¬ Touched dot [['x']] [['o']] ∧
    final (copyPathF userView demoEnv src dot [['x']]) linkedDisk [['o']] = some (.file 420 [1]) := by
  refine ⟨by rfl, ?_, by rfl⟩
  have hc : comps dot = [] := by decide
  have hx : comps ['x'] = [['x']] := by decide
  rintro (⟨h1, h2⟩ | ⟨p, hp, q, hq, h⟩)
  · rw [hc] at h2; exact h1 (List.prefix_nil.1 h2)
  · rw [List.mem_singleton] at hp
    subst hp
    rw [hc, List.nil_append] at h
    subst h
    rw [hx] at hq
    simp at hq

end Verif.Fsutil.Copy
