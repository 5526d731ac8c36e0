import Verif.Synth.Overwrite
/-
C51, continued: with MergeKeep nothing of the source is left out but what finds its place taken.
-/
namespace Verif.Synth.Tree
open Verif.Path

/-! ### Specification -/

mutual
/-- What of the source had no place in `s0` is found in `s` under the name `base` of the directory `d`; a directory of the source that
finds a directory there is filled likewise. -/
def Filled (s0 s : St) (d : Id) (base : Str) : Src → Prop
  | .dir m ok kids => (s0.lookup d base = none → Landed s d base (.dir m ok kids)) ∧ ∀ c, s0.lookup d base = some c → FilledKids s0 s c kids
  | .file m v => s0.lookup d base = none → Landed s d base (.file m v)
  | .link t => s0.lookup d base = none → Landed s d base (.link t)
  | .bad => False
def FilledKids (s0 s : St) (d : Id) : List (Str × Src) → Prop
  | [] => True
  | (k, c) :: rest => Filled s0 s d k c ∧ FilledKids s0 s d rest
end

/-! ### What is there stays there -/

mutual
theorem landed_ext {V : List Nat} {s s' : St} (h : Ext V s s') (d : Id) (base : Str) : (src : Src) → Landed s d base src → Landed s' d base src
  | .dir _ _ kids => fun ⟨c, hc, hd, hk⟩ => ⟨c, h.stay _ _ _ hc, h.isDir hd, landedKids_ext h c kids hk⟩
  | .file _ (some _) => fun ⟨c, hc, hk⟩ => ⟨c, h.stay _ _ _ hc, by rw [h.look c (look_lt hk)]; exact hk⟩
  | .file _ none => fun h => h.elim
  | .link (some _) => fun ⟨c, hc, hk⟩ => ⟨c, h.stay _ _ _ hc, by rw [h.look c (look_lt hk)]; exact hk⟩
  | .link none => fun h => h.elim
  | .bad => fun h => h.elim
theorem landedKids_ext {V : List Nat} {s s' : St} (h : Ext V s s') (d : Id) : (kids : List (Str × Src)) → LandedKids s d kids → LandedKids s' d kids
  | [] => fun _ => trivial
  | (k, c) :: rest => fun hk => ⟨landed_ext h d k c hk.1, landedKids_ext h d rest hk.2⟩
end

mutual
theorem filled_ext {V : List Nat} {s0 s s' : St} (h : Ext V s s') (d : Id) (base : Str) : (src : Src) → Filled s0 s d base src → Filled s0 s' d base src
  | .dir _ _ kids => fun hf => ⟨fun hn => landed_ext h d base _ (hf.1 hn), fun c hc => filledKids_ext h c kids (hf.2 c hc)⟩
  | .file _ _ => fun hf hn => landed_ext h d base _ (hf hn)
  | .link _ => fun hf hn => landed_ext h d base _ (hf hn)
  | .bad => fun hf => hf
theorem filledKids_ext {V : List Nat} {s0 s s' : St} (h : Ext V s s') (d : Id) : (kids : List (Str × Src)) → FilledKids s0 s d kids → FilledKids s0 s' d kids
  | [] => fun _ => trivial
  | (k, c) :: rest => fun hk => ⟨filled_ext h d k c hk.1, filledKids_ext h d rest hk.2⟩
end

mutual
theorem named_ext {V : List Nat} {s s' : St} (h : Ext V s s') (d : Id) (base : Str) (e : Id) (k : Str) : (src : Src) → Named s d base e k src → Named s' d base e k src
  | .dir _ _ kids => fun hn => hn.imp id (fun ⟨c, hc, hk⟩ => ⟨c, h.stay _ _ _ hc, namedKids_ext h c e k kids hk⟩)
  | .file .. => fun hn => hn
  | .link .. => fun hn => hn
  | .bad => fun hn => hn
theorem namedKids_ext {V : List Nat} {s s' : St} (h : Ext V s s') (d : Id) (e : Id) (k : Str) : (kids : List (Str × Src)) → NamedKids s d e k kids → NamedKids s' d e k kids
  | [] => fun hn => hn
  | (b, c) :: rest => fun hn => hn.imp (named_ext h d b e k c) (namedKids_ext h d e k rest)
end

theorem Ext.grow {V : List Nat} {s s' : St} (h : Ext V s s') : Grow s s' := ⟨h.len, h.look, h.new⟩

theorem Ext.under {V : List Nat} {s s' : St} (h : Ext V s s') {d e : Id} (hu : Under s d e) : Under s' d e := by
  rcases hu with rfl | hu
  · exact .inl rfl
  · right
    induction hu with
    | child hc => exact .child (h.stay _ _ _ hc)
    | step _ hc ih => exact ih.step (h.stay _ _ _ hc)

/-! ### The places of the source -/

mutual
theorem filled_congr {s0 s1 s : St} (d : Id) (base : Str) : (src : Src) → (∀ e k, Named s0 d base e k src → s1.lookup e k = s0.lookup e k) → Filled s1 s d base src → Filled s0 s d base src
  | .dir _ _ kids => by
    intro hn hf
    have h0 := hn d base (.inl ⟨rfl, rfl⟩)
    refine ⟨fun hl => hf.1 (by rw [h0]; exact hl), fun c hc => ?_⟩
    exact filledKids_congr c kids (fun e k hk => hn e k (.inr ⟨c, hc, hk⟩)) (hf.2 c (by rw [h0]; exact hc))
  | .file _ _ => fun hn hf hl => hf (by rw [hn d base ⟨rfl, rfl⟩]; exact hl)
  | .link _ => fun hn hf hl => hf (by rw [hn d base ⟨rfl, rfl⟩]; exact hl)
  | .bad => fun _ hf => hf
theorem filledKids_congr {s0 s1 s : St} (d : Id) : (kids : List (Str × Src)) → (∀ e k, NamedKids s0 d e k kids → s1.lookup e k = s0.lookup e k) → FilledKids s1 s d kids → FilledKids s0 s d kids
  | [] => fun _ _ => trivial
  | (b, c) :: rest => fun hn hf => ⟨filled_congr d b c (fun e k h => hn e k (.inl h)) hf.1, filledKids_congr d rest (fun e k h => hn e k (.inr h)) hf.2⟩
end

mutual
theorem fits_congr {V : List Nat} {s0 s1 : St} (hx : Ext V s0 s1) (d : Id) (base : Str) : (src : Src) → (∀ e k, Named s0 d base e k src → s1.lookup e k = s0.lookup e k) → Fits s0 d base src → Fits s1 d base src
  | .dir _ _ kids => by
    intro hn hf c hc
    rw [hn d base (.inl ⟨rfl, rfl⟩)] at hc
    exact ⟨hx.isDir (hf c hc).1, fitsKids_congr hx c kids (fun e k hk => hn e k (.inr ⟨c, hc, hk⟩)) (hf c hc).2⟩
  | .file _ _ => fun _ _ => trivial
  | .link _ => fun _ _ => trivial
  | .bad => fun _ _ => trivial
theorem fitsKids_congr {V : List Nat} {s0 s1 : St} (hx : Ext V s0 s1) (d : Id) : (kids : List (Str × Src)) → (∀ e k, NamedKids s0 d e k kids → s1.lookup e k = s0.lookup e k) → FitsKids s0 d kids → FitsKids s1 d kids
  | [] => fun _ _ => trivial
  | (b, c) :: rest => fun hn hf => ⟨fits_congr hx d b c (fun e k h => hn e k (.inl h)) hf.1, fitsKids_congr hx d rest (fun e k h => hn e k (.inr h)) hf.2⟩
end

theorem filled_free {s0 s : St} {d : Id} {base : Str} (hl : s0.lookup d base = none) : ∀ src, Filled s0 s d base src → Landed s d base src := by
  intro src h
  cases src with
  | dir m ok kids => exact h.1 hl
  | file m v => exact h hl
  | link t => exact h hl
  | bad => exact h.elim

theorem filledKids_free {s0 s : St} {d : Id} (hl : ∀ k, s0.lookup d k = none) : ∀ kids, FilledKids s0 s d kids → LandedKids s d kids := by
  intro kids
  induction kids with
  | nil => exact fun _ => trivial
  | cons p rest ih => exact fun h => ⟨filled_free (hl p.1) p.2 h.1, ih h.2⟩

theorem fitsKids_free {s : St} {d : Id} (hl : ∀ k, s.lookup d k = none) : ∀ kids, FitsKids s d kids := by
  intro kids
  induction kids with
  | nil => trivial
  | cons p rest ih =>
    obtain ⟨k, c⟩ := p
    refine ⟨?_, ih⟩
    cases c with
    | dir m ok ks => intro c hc; rw [hl k] at hc; cases hc
    | file => trivial
    | link => trivial
    | bad => trivial

/-! ### The walk -/

structure KDone (s s' : St) (dst : Id) (N : Id → Str → Prop) (L : Prop) : Prop where
  filled : L
  rest : ∀ e k, ¬ N e k → s'.lookup e k = s.lookup e k
  old : ∀ e k, e < s.nodes.length → ¬ Under s dst e → s'.lookup e k = s.lookup e k

theorem kdone_same {s s' : St} {dst : Id} {N : Id → Str → Prop} {L : Prop} (hl : L) (h : ∀ e k, s'.lookup e k = s.lookup e k) : KDone s s' dst N L :=
  ⟨hl, fun e k _ => h e k, fun e k _ _ => h e k⟩

theorem kdone_leaf {s : St} {dst : Id} {base : Str} (hd : s.isDir dst) {n : Node} (hb : n.Blank) (hs : skel n = n) :
    KDone s ((s.unlink dst base).put dst base n) dst (fun e k => e = dst ∧ k = base) (∃ c, ((s.unlink dst base).put dst base n).lookup dst base = some c ∧ ((s.unlink dst base).put dst base n).look c = some n) :=
  have h := done_leaf (base := base) hd hb hs
  ⟨h.landed, h.rest, h.old⟩

theorem keep_some {s : St} {dst : Id} {base p : Str} {inc : Kind} {dec : Decision} (h : mergeKeep p inc (s.existing dst base) = .ok dec) (hd : dec ≠ .override) : dec = .keep ∧ ∃ c, s.lookup dst base = some c := by
  unfold mergeKeep at h
  split at h
  · cases h; exact absurd rfl hd
  · rename_i k hk
    cases h
    refine ⟨rfl, ?_⟩
    unfold St.existing at hk
    cases hl : s.lookup dst base with
    | none => rw [hl] at hk; cases hk
    | some c => exact ⟨c, rfl⟩

theorem keep_none {s : St} (hg : Good s) {dst : Id} {base p : Str} {inc : Kind} (h : mergeKeep p inc (s.existing dst base) = .ok .override) : s.lookup dst base = none := by
  cases hx : s.existing dst base with
  | none => exact existing_none hg hx
  | some k => rw [hx] at h; cases h

/-- The directory the children go to: a new one, or the one that is there. -/
theorem keep_dir {fuel : Nat} {s s1 : St} {dst d : Id} {base : Str} {mode : Nat} {ov : Bool} (hg : Good s) (hd : s.isDir dst)
    (hc : ∀ c, s.lookup dst base = some c → s.isDir c ∧ ov = false) (hm : materializeDir fuel s dst base mode ov = some (s1, d)) :
    (s.lookup dst base = some d ∧ s1 = s) ∨
    (s.lookup dst base = none ∧ s1.lookup dst base = some d ∧ s1.isDir d ∧ (∀ k, s1.lookup d k = none) ∧ Grow s s1 ∧ ∀ e k, ¬ (e = dst ∧ k = base) → s1.lookup e k = s.lookup e k) := by
  have hblank : (Node.dir (newDir base mode (some dst))).Blank := by simp [Node.Blank, newDir]
  unfold materializeDir at hm
  split at hm
  · rename_i hl
    right
    have hs1 : s1 = s.put dst base (.dir (newDir base mode (some dst))) := by simp only [St.putDir, Option.some.injEq, Prod.mk.injEq] at hm; exact hm.1.symm
    have hd1 : d = s.nodes.length := by simp only [St.putDir, Option.some.injEq, Prod.mk.injEq] at hm; exact hm.2.symm
    obtain ⟨hgrow, h1, h2, h3⟩ := replace_put (s := s) (s1 := s) (base := base) hd hblank (fun _ => rfl) rfl (fun _ _ _ => rfl)
    subst hs1; subst hd1
    refine ⟨hl, h1, isDir_iff_look.2 ⟨_, h2⟩, ?_, hgrow, h3⟩
    intro k
    have hlt : dst < s.nodes.length := by obtain ⟨r, hr⟩ := hd; exact lt_of_dir hr
    rw [h3 _ k (fun h => absurd h.1 (Nat.ne_of_gt hlt))]
    cases hx : s.lookup s.nodes.length k with
    | none => rfl
    | some c => exact absurd (lookup_lt hg hx).1 (Nat.lt_irrefl _)
  · rename_i ex hex
    left
    obtain ⟨⟨r, hr⟩, ho⟩ := hc ex hex
    rw [if_pos ⟨by rw [hr]; rfl, ho⟩] at hm
    cases hm
    exact ⟨hex, rfl⟩

mutual
theorem kdone_addWalk (fuel : Nat) (s : St) (hg : Good s) (ha : Acyclic s) (dst : Id) (base path : Str) (hd : s.isDir dst) (s' : St) : (src : Src) → src.Distinct → Fits s dst base src →
    addWalk fuel mergeKeep s dst base path src = (s', none) → KDone s s' dst (fun e k => Named s' dst base e k src) (Filled s s' dst base src)
  | .bad => fun _ _ h => by simp [addWalk] at h
  | .dir mode ok kids => by
    intro hdist hfit h
    have hext := ext_addWalk fuel mergeKeep mergeKeep_noReplace s hg (Ext.refl (Src.views (.dir mode ok kids)) s) dst base path hd (.dir mode ok kids) (.inr hfit) (fun _ h => h)
    rw [h] at hext
    simp only [addWalk] at h
    have fin : ∀ ov s1 d, (∀ c, s.lookup dst base = some c → ov = false) → materializeDir fuel s dst base mode ov = some (s1, d) →
        (if ok then addKids fuel mergeKeep s1 d path kids else (s1, some .source)) = (s', none) →
        KDone s s' dst (fun e k => Named s' dst base e k (.dir mode ok kids)) (Filled s s' dst base (.dir mode ok kids)) := by
      intro ov s1 d hov hm hr
      have hp := pres_materialize hd hm
      have hk := keep_dir hg hd (fun c hc => ⟨(hfit c hc).1, hov c hc⟩) hm
      cases ok with
      | false => simp at hr
      | true =>
        simp only [if_true] at hr
        rcases hk with ⟨hl, rfl⟩ | ⟨hl, hl1, hdir, hfree, hgrow, hrest⟩
        · have h2 := kdone_addKids fuel s1 hg ha d path hp.2 s' kids hdist (hfit d hl).2 hr
          refine ⟨⟨fun hn => (by rw [hl] at hn; cases hn), fun c hc => ?_⟩, ?_, ?_⟩
          · rw [hl] at hc; cases hc; exact h2.filled
          · exact fun e k hn => h2.rest e k (fun hh => hn (.inr ⟨d, hext.stay _ _ _ hl, hh⟩))
          · exact fun e k he hu => h2.old e k he (fun hh => hu (Under.trans (.inr (.child hl)) hh))
        · have hg1 := hp.1.good hg
          have ha1 := hp.1.acyclic ha
          have h2 := kdone_addKids fuel s1 hg1 ha1 d path hp.2 s' kids hdist (fitsKids_free hfree kids) hr
          have hext2 := ext_addKids fuel mergeKeep mergeKeep_noReplace s1 hg1 (Ext.refl (kidsViews kids) s1) d path hp.2 kids (.inr (fitsKids_free hfree kids)) (fun _ h => h)
          rw [hr] at hext2
          have hl2 := hext2.stay _ _ _ hl1
          refine ⟨⟨fun _ => ⟨d, hl2, hext2.isDir hdir, filledKids_free hfree kids h2.filled⟩, fun c hc => by rw [hl] at hc; cases hc⟩, ?_, ?_⟩
          · intro e k hn
            rw [h2.rest e k (fun hh => hn (.inr ⟨d, hl2, hh⟩)), hrest e k (fun hh => hn (.inl hh))]
          · intro e k he hu
            rw [h2.old e k (Nat.lt_of_lt_of_le he hgrow.len), hrest e k (fun hh => hu (.inl hh.1))]
            intro hu'
            exact hu (hgrow.under (Under.trans (.inr (.child hl1)) hu') he)
    split at h
    · cases h
    · rename_i hdec
      cases (keep_some hdec (by simp)).1
    · rename_i hdec
      split at h
      · cases h
      · rename_i s1 d hm; exact fin false s1 d (fun _ _ => rfl) hm h
    · rename_i hdec
      split at h
      · cases h
      · rename_i s1 d hm
        exact fin true s1 d (fun c hc => by rw [keep_none hg hdec] at hc; cases hc) hm h
  | .link target => by
    intro _ _ h
    simp only [addWalk] at h
    split at h
    · cases h
    · rename_i hdec; cases (keep_some hdec (by simp)).1
    · rename_i hdec
      obtain ⟨_, c, hc⟩ := keep_some hdec (by simp)
      cases target with
      | none => cases h
      | some t =>
        simp only [hc, Prod.mk.injEq, and_true] at h
        subst h
        exact kdone_same (fun hn => by rw [hc] at hn; cases hn) (fun _ _ => rfl)
    · cases target with
      | none => cases h
      | some t =>
        simp only [Prod.mk.injEq, and_true] at h
        subst h
        have := kdone_leaf (base := base) (n := .link base t) hd trivial rfl
        exact ⟨fun _ => this.filled, this.rest, this.old⟩
  | .file mode view => by
    intro _ _ h
    simp only [addWalk] at h
    split at h
    · cases h
    · rename_i hdec; cases (keep_some hdec (by simp)).1
    · rename_i hdec
      obtain ⟨_, c, hc⟩ := keep_some hdec (by simp)
      cases view with
      | none => cases h
      | some v =>
        simp only [hc, Prod.mk.injEq, and_true] at h
        subst h
        exact kdone_same (fun hn => by rw [hc] at hn; cases hn) (fun _ _ => rfl)
    · cases view with
      | none => cases h
      | some v =>
        simp only [Prod.mk.injEq, and_true] at h
        subst h
        have := kdone_leaf (base := base) (n := .file base mode v) hd trivial rfl
        exact ⟨fun _ => this.filled, this.rest, this.old⟩
theorem kdone_addKids (fuel : Nat) (s : St) (hg : Good s) (ha : Acyclic s) (d : Id) (path : Str) (hd : s.isDir d) (s' : St) : (kids : List (Str × Src)) → DistinctKids kids → FitsKids s d kids →
    addKids fuel mergeKeep s d path kids = (s', none) → KDone s s' d (fun e k => NamedKids s' d e k kids) (FilledKids s s' d kids)
  | [] => by
    intro _ _ h
    simp only [addKids, Prod.mk.injEq, and_true] at h
    subst h
    exact kdone_same trivial (fun _ _ => rfl)
  | (k, c) :: rest => by
    intro hdist hfit h
    simp only [addKids] at h
    have hp := pres_addWalk fuel mergeKeep s d k (slashJoin path k) hd c
    have hext := ext_addWalk fuel mergeKeep mergeKeep_noReplace s hg (Ext.refl c.views s) d k (slashJoin path k) hd c (.inr hfit.1) (fun _ h => h)
    cases he : addWalk fuel mergeKeep s d k (slashJoin path k) c with
    | mk s1 r =>
      rw [he] at h hp hext
      cases r with
      | some e => cases h
      | none =>
        simp only at h hp hext
        have h1 := kdone_addWalk fuel s hg ha d k (slashJoin path k) hd s1 c hdist.2.1 hfit.1 he
        have hd1 := hp.keeps _ hd
        have hg1 := hp.good hg
        have ha1 := hp.acyclic ha
        have cyc : ∀ {q : Str} {y : Id}, s1.lookup d q = some y → ¬ Under s1 y d := by
          intro q y hq hu
          rcases hu with rfl | hu
          · exact ha1 _ (.child hq)
          · exact ha1 _ (Below.trans (.child hq) hu)
        have same : ∀ e kk, NamedKids s d e kk rest → s1.lookup e kk = s.lookup e kk := by
          intro e kk hn
          apply h1.rest
          intro hn1
          rcases namedKids_under d e kk rest hn with hh | ⟨k', c', hk', hc', hu'⟩
          · rcases named_under d k e kk c hn1 with h3 | ⟨x, hx, hu⟩
            · exact hdist.1 (h3.2 ▸ hh.2)
            · exact cyc hx (hh.1 ▸ hu)
          · have hc1 := hext.stay _ _ _ hc'
            have hu1 := hext.under hu'
            rcases named_under d k e kk c hn1 with h3 | ⟨x, hx, hu⟩
            · exact cyc hc1 (h3.1 ▸ hu1)
            · exact siblings hg1 ha1 hx hc1 (fun e => hdist.1 (e ▸ hk')) hu hu1
        have hfit1 := fitsKids_congr hext d rest same hfit.2
        have h2 := kdone_addKids fuel s1 hg1 ha1 d path hd1 s' rest hdist.2.2 hfit1 h
        have hext2 := ext_addKids fuel mergeKeep mergeKeep_noReplace s1 hg1 (Ext.refl (kidsViews rest) s1) d path hd1 rest (.inr hfit1) (fun _ h => h)
        rw [h] at hext2
        simp only at hext2
        refine ⟨⟨filled_ext hext2 d k c h1.filled, filledKids_congr d rest same h2.filled⟩, ?_, ?_⟩
        · intro e kk hn
          rw [h2.rest e kk (fun hh => hn (.inr hh)), h1.rest e kk (fun hh => hn (.inl (named_ext hext2 d k e kk c hh)))]
        · intro e kk hlt hu
          rw [h2.old e kk (Nat.lt_of_lt_of_le hlt hext.len) (fun hh => hu (hext.grow.under hh hlt)), h1.old e kk hlt hu]
end

/-! ### The call -/

/-- What a success of AddFS with MergeKeep means. -/
theorem addFS_fills (hist : List (Nat × Call)) (ht : TameRun World.init hist) (b : Id) (hb : b ∈ (after hist).roots) (fuel : Nat) (name : Str) (src : Src) (hdist : src.Distinct)
    (hroot : clean name = dot → ∀ m kids, src = .dir m true kids → FitsKids (after hist).st b kids)
    (hfit : ∀ s1 d base, ensureParents (after hist).st b name = (s1, .ok (d, base)) → Fits s1 d base src)
    (s' : St) (h : addFS fuel mergeKeep (after hist).st b name src = (s', none)) :
    (clean name = dot ∧ ∃ mode kids, src = .dir mode true kids ∧ FilledKids (after hist).st s' b kids ∧ ∀ e k, ¬ NamedKids s' b e k kids → s'.lookup e k = (after hist).st.lookup e k) ∨
    (clean name ≠ dot ∧ ∃ s1 d base, ensureParents (after hist).st b name = (s1, .ok (d, base)) ∧ Filled s1 s' d base src ∧ ∀ e k, ¬ Named s' d base e k src → s'.lookup e k = s1.lookup e k) := by
  have hw := wgood_run hist _ wgood_init
  have hbd := hw.roots b hb
  have ha : Acyclic (after hist).st := acyclic_run hist World.init wgood_init ht acyclic_init
  unfold addFS at h
  rcases normalize_spec name with ⟨e', he', _⟩ | ⟨ns, hpl, hok, hdot, _⟩
  · rw [he'] at h; cases h
  · rw [hok] at h
    simp only at h
    split at h
    · rename_i hc
      left
      refine ⟨hc, ?_⟩
      split at h
      · rename_i mode kids
        have := kdone_addKids fuel _ hw.good ha b dot hbd s' kids hdist (hroot hc mode kids rfl) h
        exact ⟨mode, kids, rfl, this.filled, this.rest⟩
      · cases h
    · rename_i hc
      right
      refine ⟨hc, ?_⟩
      have hp := pres_ensureParents hbd name
      cases he : ensureParents (after hist).st b name with
      | mk s1 r =>
        rw [show (World.run World.init hist).st = (after hist).st from rfl] at hp
        rw [he] at hp h
        cases r with
        | error e => cases h
        | ok q =>
          obtain ⟨d, base⟩ := q
          simp only at h hp
          have := kdone_addWalk fuel s1 (hp.1.good hw.good) (hp.1.acyclic ha) d base _ (hp.2 d base rfl) s' src hdist (hfit s1 d base he) h
          exact ⟨s1, d, base, rfl, this.filled, this.rest⟩

/-- The hypotheses are met: a source with a directory, a file and a link whose places are partly taken. -/
def source3 : Src := .dir 0 true [(['d'], .dir 0 true [(['f'], .file 0 (some 7)), (['h'], .link (some ['f']))]), (['y'], .file 0 (some 8)), (['z'], .dir 0 true [(['w'], .file 0 (some 9))])]

example : source3.Distinct ∧ (∀ m kids, source3 = .dir m true kids → FitsKids (after tree1).st 0 kids) ∧ (addFS 9 mergeKeep (after tree1).st 0 dot source3).2 = none ∧
    (after tree1).st.lookup 0 ['z'] = none ∧ (after tree1).st.lookup 0 ['y'] = some 5 := by
  refine ⟨by simp [source3, Src.Distinct, DistinctKids], ?_, by decide +kernel, by decide +kernel, by decide +kernel⟩
  intro m kids h
  cases h
  refine ⟨?_, trivial, ?_, trivial⟩
  · intro c hc
    have : (after tree1).st.lookup 0 ['d'] = some 1 := by decide +kernel
    rw [this] at hc; cases hc
    exact ⟨⟨_, rfl⟩, trivial, trivial, trivial⟩
  · intro c hc
    have : (after tree1).st.lookup 0 ['z'] = none := by decide +kernel
    rw [this] at hc; cases hc

end Verif.Synth.Tree
