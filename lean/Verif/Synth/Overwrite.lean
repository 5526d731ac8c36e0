import Verif.Synth.Merge
/-
C51, continued: with MergeOverwrite the added entries win, and nothing else changes; with FailOnConflict a success means that every added entry is there.
-/
namespace Verif.Synth.Tree
open Verif.Path

/-! ### Specification -/

mutual
/-- The source is found in `s` under the name `base` of the directory `d`. -/
def Landed (s : St) (d : Id) (base : Str) : Src → Prop
  | .dir _ _ kids => ∃ c, s.lookup d base = some c ∧ s.isDir c ∧ LandedKids s c kids
  | .file mode (some v) => ∃ c, s.lookup d base = some c ∧ s.look c = some (.file base mode v)
  | .link (some t) => ∃ c, s.lookup d base = some c ∧ s.look c = some (.link base t)
  | _ => False
def LandedKids (s : St) (d : Id) : List (Str × Src) → Prop
  | [] => True
  | (k, c) :: rest => Landed s d k c ∧ LandedKids s d rest
end

mutual
/-- The entry `k` of the directory `e` is a place that the source names, when put under `base` in `d`. -/
def Named (s : St) (d : Id) (base : Str) (e : Id) (k : Str) : Src → Prop
  | .dir _ _ kids => (e = d ∧ k = base) ∨ ∃ c, s.lookup d base = some c ∧ NamedKids s c e k kids
  | _ => e = d ∧ k = base
def NamedKids (s : St) (d : Id) (e : Id) (k : Str) : List (Str × Src) → Prop
  | [] => False
  | (b, c) :: rest => Named s d b e k c ∨ NamedKids s d e k rest
end

mutual
/-- A directory of the source does not list a name twice. -/
def Src.Distinct : Src → Prop
  | .dir _ _ kids => DistinctKids kids
  | _ => True
def DistinctKids : List (Str × Src) → Prop
  | [] => True
  | (k, c) :: rest => k ∉ rest.map (·.1) ∧ c.Distinct ∧ DistinctKids rest
end

/-! ### Nodes are only added -/

structure Grow (s s' : St) : Prop where
  len : s.nodes.length ≤ s'.nodes.length
  look : ∀ i, i < s.nodes.length → s'.look i = s.look i
  new : ∀ d k c, s'.lookup d k = some c → s.lookup d k = some c ∨ s.nodes.length ≤ c

theorem Grow.refl (s : St) : Grow s s := ⟨Nat.le_refl _, fun _ _ => rfl, fun _ _ _ h => .inl h⟩

theorem Grow.trans {a b c : St} (h : Grow a b) (h' : Grow b c) : Grow a c := by
  refine ⟨Nat.le_trans h.len h'.len, ?_, ?_⟩
  · intro i hi; rw [h'.look i (Nat.lt_of_lt_of_le hi h.len), h.look i hi]
  · intro d k x hx
    rcases h'.new d k x hx with hx | hx
    · exact h.new d k x hx
    · exact .inr (Nat.le_trans h.len hx)

theorem grow_put {s : St} {d : Id} (hd : s.isDir d) {k : Str} {n : Node} (hb : n.Blank) : Grow s (s.put d k n) := by
  refine ⟨by rw [nodes_length_put]; exact Nat.le_succ _, ?_, ?_⟩
  · intro i hi; rw [look_put, if_neg (Nat.ne_of_lt hi)]
  · intro d' k' c hc
    rw [lookup_put hd hb] at hc
    split at hc
    · cases hc; exact .inr (Nat.le_refl _)
    · exact .inl hc

theorem lookup_lt {s : St} (hg : Good s) {d : Id} {k : Str} {c : Id} (h : s.lookup d k = some c) : d < s.nodes.length ∧ c < s.nodes.length := by
  obtain ⟨r, hr⟩ := lookup_isDir h
  obtain ⟨n, hn, _⟩ := hg.child _ _ _ h
  exact ⟨lt_of_dir hr, look_lt hn⟩

/-- What is inside a directory and was there before was inside it before. -/
theorem Grow.below {s s' : St} (h : Grow s s') {d e : Id} (hb : Below s' d e) (he : e < s.nodes.length) : Below s d e := by
  induction hb with
  | child hc =>
    rcases h.new _ _ _ hc with hc | hc
    · exact .child hc
    · exact absurd he (Nat.not_lt.2 hc)
  | step _ hc ih =>
    rcases h.new _ _ _ hc with hc | hc
    · obtain ⟨r, hr⟩ := lookup_isDir hc
      exact (ih (lt_of_dir hr)).step hc
    · exact absurd he (Nat.not_lt.2 hc)

theorem Grow.under {s s' : St} (h : Grow s s') {d e : Id} (hb : Under s' d e) (he : e < s.nodes.length) : Under s d e := by
  rcases hb with rfl | hb
  · exact .inl rfl
  · exact .inr (h.below hb he)

/-! ### Siblings have nothing in common -/

theorem siblings {s : St} (hg : Good s) (ha : Acyclic s) {d : Id} {k k' : Str} {c c' : Id} (hc : s.lookup d k = some c) (hc' : s.lookup d k' = some c') (hne : k ≠ k') :
    ∀ {e : Id}, Under s c e → ¬ Under s c' e := by
  have up : ∀ {x y : Id} {p : Id} {q : Str}, Under s x y → s.lookup p q = some y → y ≠ x → Under s x p := by
    intro x y p q hu hl hyx
    rcases hu with rfl | hu
    · exact absurd rfl hyx
    · cases hu with
      | child h => obtain ⟨rfl, _⟩ := hg.single _ _ _ _ _ h hl; exact .inl rfl
      | step hb h => obtain ⟨rfl, _⟩ := hg.single _ _ _ _ _ h hl; exact .inr hb
  have cyc : ∀ {q : Str} {y : Id}, s.lookup d q = some y → ¬ Under s y d := by
    intro q y hq hu
    rcases hu with rfl | hu
    · exact ha _ (.child hq)
    · exact ha _ (Below.trans (.child hq) hu)
  intro e he
  have base : ¬ Under s c' c := by
    intro hu
    by_cases h : c = c'
    · subst h; exact hne (hg.single _ _ _ _ _ hc hc').2
    · exact cyc hc' (up hu hc h)
  rcases he with rfl | he
  · exact base
  · have base' : ∀ {x q}, Under s c x → s.lookup x q = some c' → False := by
      intro x q hu hl
      obtain ⟨rfl, _⟩ := hg.single _ _ _ _ _ hl hc'
      exact cyc hc hu
    induction he with
    | @child q x hl =>
      intro hu
      by_cases h : x = c'
      · exact base' (.inl rfl) (h ▸ hl)
      · exact base (up hu hl h)
    | @step y q x hb hl ih =>
      intro hu
      by_cases h : x = c'
      · exact base' (.inr hb) (h ▸ hl)
      · exact ih (up hu hl h)

/-! ### Where the source puts things -/

mutual
theorem named_under {s : St} (d : Id) (base : Str) (e : Id) (k : Str) : (src : Src) → Named s d base e k src → (e = d ∧ k = base) ∨ ∃ c, s.lookup d base = some c ∧ Under s c e
  | .dir _ _ kids => by
    intro h
    rcases h with h | ⟨c, hc, h⟩
    · exact .inl h
    · right
      refine ⟨c, hc, ?_⟩
      rcases namedKids_under c e k kids h with h | ⟨k', c', _, hc', hu⟩
      · exact .inl h.1
      · exact Under.trans (.inr (.child hc')) hu
  | .file .. => fun h => .inl h
  | .link .. => fun h => .inl h
  | .bad => fun h => .inl h
theorem namedKids_under {s : St} (d : Id) (e : Id) (k : Str) : (kids : List (Str × Src)) → NamedKids s d e k kids →
    (e = d ∧ k ∈ kids.map (·.1)) ∨ ∃ k' c', k' ∈ kids.map (·.1) ∧ s.lookup d k' = some c' ∧ Under s c' e
  | [] => fun h => h.elim
  | (b, c) :: rest => by
    intro h
    rcases h with h | h
    · rcases named_under d b e k c h with h | ⟨x, hx, hu⟩
      · exact .inl ⟨h.1, by rw [h.2]; simp⟩
      · exact .inr ⟨b, x, by simp, hx, hu⟩
    · rcases namedKids_under d e k rest h with h | ⟨k', c', hk, hc', hu⟩
      · exact .inl ⟨h.1, List.mem_cons_of_mem _ h.2⟩
      · exact .inr ⟨k', c', List.mem_cons_of_mem _ hk, hc', hu⟩
end

mutual
theorem landed_congr {s s' : St} (hl : ∀ i n, s.look i = some n → s'.look i = some n) (d : Id) (base : Str) : (src : Src) →
    (∀ e k, Named s d base e k src → s'.lookup e k = s.lookup e k) → Landed s d base src → Landed s' d base src ∧ ∀ e k, Named s d base e k src → Named s' d base e k src
  | .dir _ _ kids => by
    intro hn h
    obtain ⟨c, hc, hd, hk⟩ := h
    have hc' : s'.lookup d base = some c := by rw [hn d base (.inl ⟨rfl, rfl⟩)]; exact hc
    have ih := landedKids_congr hl c kids (fun e k h => hn e k (.inr ⟨c, hc, h⟩)) hk
    refine ⟨⟨c, hc', ?_, ih.1⟩, ?_⟩
    · rw [isDir_iff_look] at hd ⊢
      obtain ⟨r, hr⟩ := hd
      exact ⟨r, hl c _ hr⟩
    · intro e k h
      rcases h with h | ⟨c2, hc2, h⟩
      · exact .inl h
      · rw [hc] at hc2; cases hc2
        exact .inr ⟨c, hc', ih.2 e k h⟩
  | .file m (some v) => by
    intro hn h
    obtain ⟨c, hc, hk⟩ := h
    exact ⟨⟨c, by rw [hn d base ⟨rfl, rfl⟩]; exact hc, hl c _ hk⟩, fun e k h => h⟩
  | .file m none => fun _ h => h.elim
  | .link (some t) => by
    intro hn h
    obtain ⟨c, hc, hk⟩ := h
    exact ⟨⟨c, by rw [hn d base ⟨rfl, rfl⟩]; exact hc, hl c _ hk⟩, fun e k h => h⟩
  | .link none => fun _ h => h.elim
  | .bad => fun _ h => h.elim
theorem landedKids_congr {s s' : St} (hl : ∀ i n, s.look i = some n → s'.look i = some n) (d : Id) : (kids : List (Str × Src)) →
    (∀ e k, NamedKids s d e k kids → s'.lookup e k = s.lookup e k) → LandedKids s d kids → LandedKids s' d kids ∧ ∀ e k, NamedKids s d e k kids → NamedKids s' d e k kids
  | [] => fun _ _ => ⟨trivial, fun _ _ h => h⟩
  | (b, c) :: rest => by
    intro hn h
    have h1 := landed_congr hl d b c (fun e k h => hn e k (.inl h)) h.1
    have h2 := landedKids_congr hl d rest (fun e k h => hn e k (.inr h)) h.2
    exact ⟨⟨h1.1, h2.1⟩, fun e k h => h.imp (h1.2 e k) (h2.2 e k)⟩
end

/-! ### MergeOverwrite and FailOnConflict -/

/-- The callback merges directories, and otherwise replaces what is there or fails. -/
structure Wins (cb : AddFunc) : Prop where
  leaf : ∀ p inc ex dec, inc ≠ .dir → cb p inc ex = .ok dec → dec = .override
  skip : ∀ p ex, cb p .dir ex ≠ .ok .skip
  dir : ∀ p dec, cb p .dir (some .dir) = .ok dec → dec = .keep

theorem wins_overwrite : Wins mergeOverwrite := by
  refine ⟨fun p inc ex dec hi h => ?_, fun p ex h => ?_, fun p dec h => ?_⟩
  · cases ex with
    | none => cases h; rfl
    | some k => simp [mergeOverwrite, hi] at h; exact h.symm
  · cases ex with
    | none => cases h
    | some k => simp only [mergeOverwrite] at h; split at h <;> cases h
  · simp only [mergeOverwrite, and_self, if_true, Except.ok.injEq] at h; exact h.symm

theorem wins_failOnConflict : Wins failOnConflict := by
  refine ⟨fun p inc ex dec hi h => ?_, fun p ex h => ?_, fun p dec h => ?_⟩
  · cases ex with
    | none => cases h; rfl
    | some k => simp [failOnConflict, hi] at h
  · cases ex with
    | none => cases h
    | some k => simp only [failOnConflict] at h; split at h <;> cases h
  · simp only [failOnConflict, and_self, if_true, Except.ok.injEq] at h; exact h.symm

/-- What MergeOverwrite did under `base` in `dst`. -/
structure Done (s s' : St) (dst : Id) (N : Id → Str → Prop) (L : Prop) : Prop where
  landed : L
  rest : ∀ e k, ¬ N e k → s'.lookup e k = s.lookup e k
  old : ∀ e k, e < s.nodes.length → ¬ Under s dst e → s'.lookup e k = s.lookup e k
  grow : Grow s s'

theorem removeSubtree_leaf {fuel : Nat} {n : Id} {s s' : St} (hn : ¬ s.isDir n) (h : removeSubtree fuel n s = some s') :
    (∀ i, s'.look i = s.look i) ∧ (∀ d k, s'.lookup d k = s.lookup d k) ∧ s'.nodes.length = s.nodes.length := by
  cases fuel with
  | zero => cases h
  | succ fuel =>
    simp only [removeSubtree] at h
    split at h
    · rename_i r hr; exact absurd ⟨r, dir?_iff.2 hr⟩ hn
    · cases h; exact ⟨look_closeView s n, fun d k => lookup_closeView s n d k, nodes_length_closeView s n⟩
    · cases h; exact ⟨fun _ => rfl, fun _ _ => rfl, rfl⟩

/-- A node replaced by a new one. -/
theorem replace_put {s s1 : St} {dst : Id} {base : Str} {n : Node} (hd : s.isDir dst) (hb : n.Blank) (hlook : ∀ i, s1.look i = s.look i) (hlen : s1.nodes.length = s.nodes.length)
    (hrest : ∀ e k, ¬ (e = dst ∧ k = base) → s1.lookup e k = s.lookup e k) :
    Grow s (s1.put dst base n) ∧ (s1.put dst base n).lookup dst base = some s.nodes.length ∧ (s1.put dst base n).look s.nodes.length = some (skel n) ∧
      ∀ e k, ¬ (e = dst ∧ k = base) → (s1.put dst base n).lookup e k = s.lookup e k := by
  have hd1 : s1.isDir dst := (isDir_congr hlook dst).2 hd
  refine ⟨⟨?_, ?_, ?_⟩, ?_, ?_, ?_⟩
  · rw [nodes_length_put]; omega
  · intro i hi; rw [look_put, if_neg (by rw [hlen]; exact Nat.ne_of_lt hi), hlook]
  · intro d k c hc
    rw [lookup_put hd1 hb] at hc
    split at hc
    · cases hc; exact .inr (by omega)
    · rename_i hne; rw [hrest d k hne] at hc; exact .inl hc
  · rw [lookup_put hd1 hb, if_pos ⟨rfl, rfl⟩, hlen]
  · rw [look_put, if_pos hlen.symm]
  · intro e k hne
    rw [lookup_put hd1 hb, if_neg hne, hrest e k hne]

theorem unlink_facts (s : St) (d : Id) (k : Str) : (∀ i, (s.unlink d k).look i = s.look i) ∧ (s.unlink d k).nodes.length = s.nodes.length ∧
    ∀ e k', ¬ (e = d ∧ k' = k) → (s.unlink d k).lookup e k' = s.lookup e k' := by
  unfold St.unlink
  split
  · exact ⟨fun _ => rfl, rfl, fun _ _ _ => rfl⟩
  · refine ⟨fun i => ?_, ?_, fun e k' hne => ?_⟩
    · rw [look_closeView, look_removeEntry]
    · rw [nodes_length_closeView, nodes_length_removeEntry]
    · rw [lookup_closeView, lookup_removeEntry, if_neg hne]

theorem done_leaf {s : St} {dst : Id} {base : Str} (hd : s.isDir dst) {n : Node} (hb : n.Blank) (hs : skel n = n) :
    Done s ((s.unlink dst base).put dst base n) dst (fun e k => e = dst ∧ k = base) (∃ c, ((s.unlink dst base).put dst base n).lookup dst base = some c ∧ ((s.unlink dst base).put dst base n).look c = some n) := by
  obtain ⟨h1, h2, h3⟩ := unlink_facts s dst base
  obtain ⟨hgrow, hl, hk, hr⟩ := replace_put hd hb h1 h2 h3
  refine ⟨⟨_, hl, by rw [hk, hs]⟩, fun e k h => hr e k h, ?_, hgrow⟩
  intro e k _ hu
  exact hr e k (fun h => hu (.inl h.1))

/-- The directory that the children go to. -/
theorem overwrite_dir {cb : AddFunc} (hcb : Wins cb) {fuel : Nat} {s s1 : St} {dst d : Id} {base path : Str} {mode : Nat} (hd : s.isDir dst) {dec : Decision}
    (hdec : cb path .dir (s.existing dst base) = .ok dec) (hm : materializeDir fuel s dst base mode (decide (dec = .override)) = some (s1, d)) :
    Grow s s1 ∧ s1.lookup dst base = some d ∧ s1.isDir d ∧ ∀ e k, ¬ (e = dst ∧ k = base) → s1.lookup e k = s.lookup e k := by
  have hblank : (Node.dir (newDir base mode (some dst))).Blank := by simp [Node.Blank, newDir]
  have fin : ∀ s2 : St, (∀ i, s2.look i = s.look i) → s2.nodes.length = s.nodes.length → (∀ e k, ¬ (e = dst ∧ k = base) → s2.lookup e k = s.lookup e k) →
      s2.putDir dst base mode = (s1, d) → Grow s s1 ∧ s1.lookup dst base = some d ∧ s1.isDir d ∧ ∀ e k, ¬ (e = dst ∧ k = base) → s1.lookup e k = s.lookup e k := by
    intro s2 h1 h2 h3 he
    obtain ⟨hgrow, hl, hk, hr⟩ := replace_put hd hblank h1 h2 h3
    have hs1 : s1 = s2.put dst base (.dir (newDir base mode (some dst))) := by rw [St.putDir] at he; exact (Prod.mk.inj he).1.symm
    have hd1 : d = s.nodes.length := by rw [St.putDir] at he; rw [← h2]; exact (Prod.mk.inj he).2.symm
    subst hs1; subst hd1
    exact ⟨hgrow, hl, isDir_iff_look.2 ⟨_, hk⟩, hr⟩
  unfold materializeDir at hm
  split at hm
  · cases hm
    exact fin s (fun _ => rfl) rfl (fun _ _ _ => rfl) rfl
  · rename_i ex hex
    split at hm
    · rename_i hc
      cases hm
      refine ⟨Grow.refl s, hex, ?_, fun _ _ _ => rfl⟩
      cases hx : s.dir? d with
      | none => rw [hx] at hc; exact absurd hc.1 (by simp)
      | some r => exact ⟨r, hx⟩
    · rename_i hnd
      have hnot : ¬ s.isDir ex := by
        rintro ⟨r, hr⟩
        have hdec' := hdec
        rw [existing_some hex (dir?_iff.1 hr)] at hdec'
        cases hcb.dir _ _ hdec'
        exact hnd ⟨by rw [hr]; rfl, by decide⟩
      have hnot' : ¬ (s.removeEntry dst base).isDir ex := fun h => hnot ((isDir_congr (look_removeEntry s dst base) ex).1 h)
      split at hm
      · cases hr : removeSubtree fuel ex (s.removeEntry dst base) with
        | none => rw [hr] at hm; cases hm
        | some s2 =>
          rw [hr] at hm
          simp only [Option.map_some, Option.some.injEq] at hm
          obtain ⟨h1, h2, h3⟩ := removeSubtree_leaf hnot' hr
          refine fin s2 (fun i => by rw [h1, look_removeEntry]) (by rw [h3, nodes_length_removeEntry]) ?_ hm
          intro e k hne
          rw [h2, lookup_removeEntry, if_neg hne]
      · simp only [Option.some.injEq] at hm
        refine fin _ (look_removeEntry s dst base) (nodes_length_removeEntry s dst base) ?_ hm
        intro e k hne
        rw [lookup_removeEntry, if_neg hne]

theorem look_some_of_grow {s s' : St} (h : Grow s s') : ∀ i n, s.look i = some n → s'.look i = some n := by
  intro i n hi
  rw [h.look i (look_lt hi), hi]

/-- From the directory to the source. -/
theorem done_dir {s s1 s2 : St} (hp1 : Pres s s1) (ha : Acyclic s) {dst d : Id} {base : Str} {mode : Nat} {ok : Bool} {kids : List (Str × Src)} (hd : s.isDir dst)
    (h1 : Grow s s1 ∧ s1.lookup dst base = some d ∧ s1.isDir d ∧ ∀ e k, ¬ (e = dst ∧ k = base) → s1.lookup e k = s.lookup e k)
    (h2 : Done s1 s2 d (fun e k => NamedKids s2 d e k kids) (LandedKids s2 d kids)) :
    Done s s2 dst (fun e k => Named s2 dst base e k (.dir mode ok kids)) (Landed s2 dst base (.dir mode ok kids)) := by
  obtain ⟨hgrow, hl, hdir, hrest⟩ := h1
  have hdst : dst < s.nodes.length := by obtain ⟨r, hr⟩ := hd; exact lt_of_dir hr
  have hl2 : s2.lookup dst base = some d := by
    rw [h2.old dst base (Nat.lt_of_lt_of_le hdst hgrow.len)]
    · exact hl
    · intro hu
      have := hp1.acyclic ha
      rcases hu with rfl | hu
      · exact this _ (.child hl)
      · exact this _ (Below.trans (.child hl) hu)
  refine ⟨⟨d, hl2, ?_, h2.landed⟩, ?_, ?_, hgrow.trans h2.grow⟩
  · rw [isDir_iff_look] at hdir ⊢
    obtain ⟨r, hr⟩ := hdir
    exact ⟨r, look_some_of_grow h2.grow d _ hr⟩
  · intro e k hn
    rw [h2.rest e k (fun h => hn (.inr ⟨d, hl2, h⟩)), hrest e k (fun h => hn (.inl h))]
  · intro e k he hu
    rw [h2.old e k (Nat.lt_of_lt_of_le he hgrow.len), hrest e k (fun h => hu (.inl h.1))]
    intro hu'
    exact hu (hgrow.under (Under.trans (.inr (.child hl)) hu') he)

mutual
theorem done_addWalk {cb : AddFunc} (hcb : Wins cb) (fuel : Nat) (s : St) (hg : Good s) (ha : Acyclic s) (dst : Id) (base path : Str) (hd : s.isDir dst) (s' : St) : (src : Src) → src.Distinct →
    addWalk fuel cb s dst base path src = (s', none) → Done s s' dst (fun e k => Named s' dst base e k src) (Landed s' dst base src)
  | .bad => fun _ h => by simp [addWalk] at h
  | .dir mode ok kids => by
    intro hdist h
    simp only [addWalk] at h
    have fin : ∀ dec s1 d, cb path .dir (s.existing dst base) = .ok dec → materializeDir fuel s dst base mode (decide (dec = .override)) = some (s1, d) →
        (if ok then addKids fuel cb s1 d path kids else (s1, some .source)) = (s', none) →
        Done s s' dst (fun e k => Named s' dst base e k (.dir mode ok kids)) (Landed s' dst base (.dir mode ok kids)) := by
      intro dec s1 d hdec hm h
      have h1 := overwrite_dir hcb hd hdec hm
      have hp := pres_materialize hd hm
      cases ok with
      | false => simp at h
      | true =>
        simp only [if_true] at h
        have h2 := done_addKids hcb fuel s1 (hp.1.good hg) (hp.1.acyclic ha) d path hp.2 s' kids hdist h
        exact done_dir hp.1 ha hd h1 h2
    split at h
    · cases h
    · rename_i hdec
      exact absurd hdec (hcb.skip _ _)
    · rename_i hdec
      split at h
      · cases h
      · rename_i s1 d hm; exact fin .keep s1 d hdec hm h
    · rename_i hdec
      split at h
      · cases h
      · rename_i s1 d hm; exact fin .override s1 d hdec hm h
  | .link target => by
    intro _ h
    simp only [addWalk] at h
    have nokeep : ∀ x, cb path .link (s.existing dst base) = .ok x → x = .override := fun x hx => hcb.leaf _ _ _ _ (by simp) hx
    split at h
    · cases h
    · rename_i hdec; cases nokeep _ hdec
    · rename_i hdec; cases nokeep _ hdec
    · cases target with
      | none => cases h
      | some t =>
        simp only [Prod.mk.injEq, and_true] at h
        subst h
        exact done_leaf (n := .link base t) hd trivial rfl
  | .file mode view => by
    intro _ h
    simp only [addWalk] at h
    have nokeep : ∀ x, cb path .file (s.existing dst base) = .ok x → x = .override := fun x hx => hcb.leaf _ _ _ _ (by simp) hx
    split at h
    · cases h
    · rename_i hdec; cases nokeep _ hdec
    · rename_i hdec; cases nokeep _ hdec
    · cases view with
      | none => cases h
      | some v =>
        simp only [Prod.mk.injEq, and_true] at h
        subst h
        exact done_leaf (n := .file base mode v) hd trivial rfl
theorem done_addKids {cb : AddFunc} (hcb : Wins cb) (fuel : Nat) (s : St) (hg : Good s) (ha : Acyclic s) (d : Id) (path : Str) (hd : s.isDir d) (s' : St) : (kids : List (Str × Src)) → DistinctKids kids →
    addKids fuel cb s d path kids = (s', none) → Done s s' d (fun e k => NamedKids s' d e k kids) (LandedKids s' d kids)
  | [] => by
    intro _ h
    simp only [addKids, Prod.mk.injEq, and_true] at h
    subst h
    exact ⟨trivial, fun _ _ _ => rfl, fun _ _ _ _ => rfl, Grow.refl s⟩
  | (k, c) :: rest => by
    intro hdist h
    simp only [addKids] at h
    have hp := pres_addWalk fuel cb s d k (slashJoin path k) hd c
    cases he : addWalk fuel cb s d k (slashJoin path k) c with
    | mk s1 r =>
      rw [he] at h hp
      cases r with
      | some e => cases h
      | none =>
        simp only at h hp
        have h1 := done_addWalk hcb fuel s hg ha d k (slashJoin path k) hd s1 c hdist.2.1 he
        have hd1 := hp.keeps _ hd
        have h2 := done_addKids hcb fuel s1 (hp.good hg) (hp.acyclic ha) d path hd1 s' rest hdist.2.2 h
        have hp2 := pres_addKids fuel cb s1 d path hd1 rest
        rw [h] at hp2
        have hg2 := hp2.good (hp.good hg)
        have ha2 := hp2.acyclic (hp.acyclic ha)
        have same : ∀ e kk, Named s1 d k e kk c → s'.lookup e kk = s1.lookup e kk := by
          have hdk : s'.lookup d k = s1.lookup d k := by
            apply h2.rest
            intro hn
            rcases namedKids_under d d k rest hn with hh | ⟨k', c', hk', hc', hu⟩
            · exact hdist.1 hh.2
            · rcases hu with rfl | hu
              · exact ha2 _ (.child hc')
              · exact ha2 _ (Below.trans (.child hc') hu)
          have inside : ∀ x, s1.lookup d k = some x → ∀ e, Under s' x e → ∀ kk, s'.lookup e kk = s1.lookup e kk := by
            intro x hx e hu kk
            rw [← hdk] at hx
            apply h2.rest
            intro hn
            rcases namedKids_under d e kk rest hn with hh | ⟨k', c', hk', hc', hu'⟩
            · rw [hh.1] at hu
              rcases hu with rfl | hu
              · exact ha2 _ (.child hx)
              · exact ha2 _ (Below.trans (.child hx) hu)
            · exact siblings hg2 ha2 hx hc' (fun e => hdist.1 (e ▸ hk')) hu hu'
          have stays : ∀ x, s1.lookup d k = some x → ∀ e, Under s1 x e → Under s' x e := by
            intro x hx e hu
            rcases hu with rfl | hu
            · exact .inl rfl
            · induction hu with
              | child hc => exact .inr (.child (by rw [inside x hx x (.inl rfl)]; exact hc))
              | step _ hc ih => exact .inr (ih.step (by rw [inside x hx _ ih]; exact hc))
          intro e kk hn
          rcases named_under d k e kk c hn with hh | ⟨x, hx, hu⟩
          · rw [hh.1, hh.2]; exact hdk
          · exact inside x hx e (stays x hx e hu) kk
        have hcong := landed_congr (look_some_of_grow h2.grow) d k c same h1.landed
        refine ⟨⟨hcong.1, h2.landed⟩, ?_, ?_, h1.grow.trans h2.grow⟩
        · intro e kk hn
          rw [h2.rest e kk (fun hh => hn (.inr hh)), h1.rest e kk (fun hh => hn (.inl (hcong.2 e kk hh)))]
        · intro e kk hlt hu
          rw [h2.old e kk (Nat.lt_of_lt_of_le hlt h1.grow.len) (fun hh => hu (h1.grow.under hh hlt)), h1.old e kk hlt hu]
end

/-! ### The call -/

/-- What a success of AddFS with such a callback means. -/
theorem addFS_wins {cb : AddFunc} (hcb : Wins cb) (hist : List (Nat × Call)) (ht : TameRun World.init hist) (b : Id) (hb : b ∈ (after hist).roots) (fuel : Nat) (name : Str) (src : Src) (hdist : src.Distinct)
    (s' : St) (h : addFS fuel cb (after hist).st b name src = (s', none)) :
    (clean name = dot ∧ ∃ mode kids, src = .dir mode true kids ∧ LandedKids s' b kids ∧ ∀ e k, ¬ NamedKids s' b e k kids → s'.lookup e k = (after hist).st.lookup e k) ∨
    (clean name ≠ dot ∧ ∃ s1 d base, ensureParents (after hist).st b name = (s1, .ok (d, base)) ∧ Landed s' d base src ∧ (∀ e k, ¬ Named s' d base e k src → s'.lookup e k = s1.lookup e k) ∧
      ∀ i, i < s1.nodes.length → s'.look i = s1.look i) := by
  have hw := wgood_run hist _ wgood_init
  have hbd := hw.roots b hb
  have ha : Acyclic (after hist).st := acyclic_run hist World.init wgood_init ht acyclic_init
  unfold addFS at h
  rcases normalize_spec name with ⟨e', he', _⟩ | ⟨ns, hpl, hok, hdot, _⟩
  · rw [he'] at h; cases h
  · rw [hok] at h
    simp only at h
    split at h
    · rename_i hc
      left
      refine ⟨hc, ?_⟩
      split at h
      · rename_i mode kids
        have := done_addKids hcb fuel _ hw.good ha b dot hbd s' kids hdist h
        exact ⟨mode, kids, rfl, this.landed, this.rest⟩
      · cases h
    · rename_i hc
      right
      refine ⟨hc, ?_⟩
      have hp := pres_ensureParents hbd name
      cases he : ensureParents (after hist).st b name with
      | mk s1 r =>
        rw [show (World.run World.init hist).st = (after hist).st from rfl] at hp
        rw [he] at hp h
        cases r with
        | error e => cases h
        | ok q =>
          obtain ⟨d, base⟩ := q
          simp only at h hp
          have := done_addWalk hcb fuel s1 (hp.1.good hw.good) (hp.1.acyclic ha) d base _ (hp.2 d base rfl) s' src hdist h
          exact ⟨s1, d, base, rfl, this.landed, this.rest, this.grow.look⟩

/-- The hypotheses are met: a tree and a source that conflict in every way. -/
def tree1 : List (Nat × Call) := [(0, .mkdir ['d'] 0), (0, .create ['d', '/', 'f'] 0), (0, .create ['d', '/', 'g'] 0), (0, .mkdir ['x'] 0), (0, .create ['y'] 0)]
def source1 : Src := .dir 0 true [(['d'], .dir 0 true [(['f'], .file 0 (some 7)), (['h'], .link (some ['f']))]), (['x'], .file 0 (some 8)), (['y'], .dir 0 true [(['z'], .file 0 (some 9))])]

example : TameRun World.init tree1 ∧ source1.Distinct :=
  ⟨⟨fun _ _ => trivial, fun _ _ => trivial, fun _ _ => trivial, fun _ _ => trivial, fun _ _ => trivial, trivial⟩, by simp [source1, Src.Distinct, DistinctKids]⟩

/-- A source that fits beside what is there. -/
def source2 : Src := .dir 0 true [(['d'], .dir 0 true [(['h'], .link (some ['f']))]), (['z'], .file 0 (some 8))]

example : source2.Distinct ∧ (addFS 9 failOnConflict (after tree1).st 0 dot source2).2 = none ∧
    resolve (addFS 9 failOnConflict (after tree1).st 0 dot source2).1 0 0 ['d', '/', 'h'] true = .ok ⟨2, some 1, ['f']⟩ :=
  ⟨by simp [source2, Src.Distinct, DistinctKids], by decide +kernel, by rfl⟩

example : (addFS 9 mergeOverwrite (after tree1).st 0 dot source1).2 = none ∧
    (addFS 9 mergeKeep (after tree1).st 0 dot source1).2 = none ∧
    (addFS 9 failOnConflict (after tree1).st 0 dot source1).2 = some .exist ∧
    resolve (addFS 9 mergeOverwrite (after tree1).st 0 dot source1).1 0 0 ['d', '/', 'h'] true = .ok ⟨6, some 1, ['f']⟩ ∧
    resolve (addFS 9 mergeOverwrite (after tree1).st 0 dot source1).1 0 0 ['d', '/', 'g'] true = .ok ⟨3, some 1, ['g']⟩ ∧
    resolve (addFS 9 mergeKeep (after tree1).st 0 dot source1).1 0 0 ['d', '/', 'h'] true = .ok ⟨2, some 1, ['f']⟩ := by
  refine ⟨by decide +kernel, by decide +kernel, by decide +kernel, by rfl, by rfl, by rfl⟩

end Verif.Synth.Tree
