import Verif.Fsutil.Sweep
/-
C120: what a sweep over leftover temporaries removes. The model is in Sweep.lean.
-/
namespace Verif.Fsutil.Sweep
open Verif.Path

/-! ### the policy with temporaries beside the destination -/

/-- The name of a temporary: something, a dot, ten digits and ".tmp". -/
def IsRandomTemp (ns : List Str) : Prop := ∃ pre n b d, ns = pre ++ [n] ∧ n = b ++ '.' :: d ++ tmpExt ∧ b ≠ [] ∧ TenDigits d

theorem matchRandom_render {ns : List Str} (hns : ∀ n ∈ ns, IsName n) : matchRandom (render false ns) = true ↔ IsRandomTemp ns := by
  rcases List.eq_nil_or_concat ns with rfl | ⟨pre, n, rfl⟩
  · constructor
    · intro h; exact absurd h (by decide)
    · rintro ⟨pre, n, _, _, h, _⟩
      exact absurd h (by simp)
  · rw [List.concat_eq_append] at hns ⊢
    have hn : IsName n := hns n (by simp)
    rw [C21_match_exact, base_render hn.1]
    constructor
    · rintro ⟨b, d, h1, h2, h3⟩; exact ⟨pre, n, b, d, rfl, h1, h2, h3⟩
    · rintro ⟨pre', n', b, d, h, h1, h2, h3⟩
      have := List.append_inj_right' h rfl
      simp only [List.cons.injEq, and_true] at this
      subst this
      exact ⟨b, d, h1, h2, h3⟩

theorem removes_random : Removes fnRandom IsRandomTemp (fun _ => True) where
  root := trivial
  isT := by
    intro ns isDir ok hns _ hT
    unfold fnRandom
    rw [(matchRandom_render hns).2 hT]
    cases isDir <;> cases ok <;> rfl
  notT := by
    intro ns isDir ok hns _ hT
    refine Or.inl ⟨?_, fun _ _ => trivial⟩
    unfold fnRandom
    have : matchRandom (render false ns) = false := by
      cases h : matchRandom (render false ns) with
      | false => rfl
      | true => exact absurd ((matchRandom_render hns).1 h) hT
    rw [this]; rfl

/-! ### the policy with a directory for temporaries -/

/-- Directly in the directory, ten digits and ".tmp". -/
def IsDirTemp (ds : List Str) (ns : List Str) : Prop := ∃ d, ns = ds ++ [d ++ tmpExt] ∧ TenDigits d

theorem split_join_append {cs : List Str} (hne : cs ≠ []) (h : ∀ c ∈ cs, slash ∉ c) (t : Str) : split (join cs ++ slash :: t) = cs ++ split t := by
  induction cs with
  | nil => exact absurd rfl hne
  | cons a cs ih =>
    cases cs with
    | nil => exact split_append_slash (h a (by simp)) t
    | cons b cs =>
      show split ((a ++ slash :: join (b :: cs)) ++ slash :: t) = _
      rw [List.append_assoc, List.cons_append, split_append_slash (h a (by simp)), ih (by simp) (fun c hc => h c (List.mem_cons_of_mem _ hc))]
      rfl

theorem no_slash {ns : List Str} (h : ∀ n ∈ ns, IsName n) : ∀ c ∈ ns, slash ∉ c := fun c hc => (h c hc).1.2

theorem render_ne {ns : List Str} (hne : ns ≠ []) : render false ns = join ns := by
  unfold render; simp [hne]

theorem prefix_iff {ns ds : List Str} (hns : ∀ n ∈ ns, IsName n) (hds : ∀ n ∈ ds, IsName n) (hn : ns ≠ []) (hd : ds ≠ []) :
    (join ns ++ [slash]).isPrefixOf (join ds ++ [slash]) = true ↔ ns <+: ds := by
  rw [List.isPrefixOf_iff_prefix]
  constructor
  · rintro ⟨t, ht⟩
    have h1 := split_join_append hn (no_slash hns) t
    have h2 := split_join_append hd (no_slash hds) []
    rw [← ht, List.append_assoc, List.singleton_append, h1] at h2
    have hp : ns <+: ds ++ [[]] := ⟨split t, h2⟩
    rcases List.prefix_concat_iff.1 hp with hc | hc
    · have : ([] : Str) ∈ ns := by rw [hc]; simp
      exact absurd rfl (hns _ this).1.1
    · exact hc
  · rintro ⟨r, rfl⟩
    have key : ∀ (ns : List Str), ns ≠ [] → ∀ (x : Str) (r : List Str), join (ns ++ x :: r) = join ns ++ slash :: join (x :: r) := by
      intro ns
      induction ns with
      | nil => intro h; exact absurd rfl h
      | cons a ns ih =>
        intro _ x r
        cases ns with
        | nil => rfl
        | cons b ns =>
          show a ++ slash :: join (b :: ns ++ x :: r) = (a ++ slash :: join (b :: ns)) ++ _
          rw [ih (by simp)]; simp
    cases r with
    | nil => rw [List.append_nil]; exact List.prefix_refl _
    | cons x r =>
      rw [key ns hn]
      exact ⟨join (x :: r) ++ [slash], by simp⟩

theorem isName_digits {d : Str} (h : TenDigits d) : IsName (d ++ tmpExt) := by
  have hne : d ≠ [] := by intro hc; rw [hc] at h; exact absurd h.1 (by decide)
  have hl : (d ++ tmpExt).length = 14 := by rw [List.length_append, h.1]; rfl
  refine ⟨⟨by simp [hne], ?_⟩, ?_, ?_⟩
  · intro hm
    rcases List.mem_append.1 hm with hm | hm
    · exact absurd (h.2 _ hm) (by decide)
    · exact absurd hm (by decide)
  · intro hc; rw [hc] at hl; exact absurd hl (by decide)
  · intro hc; rw [hc] at hl; exact absurd hl (by decide)

theorem matchDir_temp {ds : List Str} (hds : ∀ n ∈ ds, IsName n) (hd : ds ≠ []) {d : Str} (h : TenDigits d) : matchDir (render false ds) (render false (ds ++ [d ++ tmpExt])) = true := by
  have hn := isName_digits h
  have hN : Normal false ds := .names hds
  have hN' : Normal false (ds ++ [d ++ tmpExt]) := .names (names_snoc hds hn)
  have e : render false (ds ++ [d ++ tmpExt]) = render false ds ++ slash :: (d ++ tmpExt) := by
    rw [render_ne hd, render_ne (by simp), join_concat hd]
  unfold matchDir
  simp only [clean_render hN, clean_render hN', base_render hn.1]
  have hin : (decide (render false (ds ++ [d ++ tmpExt]) = render false ds) ||
      (decide ((render false (ds ++ [d ++ tmpExt])).length > (render false ds).length + 1) &&
      decide ((render false (ds ++ [d ++ tmpExt])).take (render false ds).length = render false ds) &&
      decide ((render false (ds ++ [d ++ tmpExt]))[(render false ds).length]? = some slash))) = true := by
    rw [e]
    have hl := h.1
    have h1 : (render false ds ++ slash :: (d ++ tmpExt)).length > (render false ds).length + 1 := by
      simp only [List.length_append, List.length_cons]; omega
    have h2 : (render false ds ++ slash :: (d ++ tmpExt)).take (render false ds).length = render false ds := by simp
    have h3 : (render false ds ++ slash :: (d ++ tmpExt))[(render false ds).length]? = some slash := by simp
    simp only [h1, h2, h3, decide_true, Bool.and_self, Bool.or_true]
  rw [hin, trimSuffix_append]
  have hs : hasSuffix (d ++ tmpExt) tmpExt = true := (hasSuffix_iff _ _).2 ⟨_, rfl⟩
  simp [hs, h.1, all_isDigit.2 h.2]

/-- The paths the walk comes to. -/
def Near (ds : List Str) (ns : List Str) : Prop := ns = [] ∨ ∃ pre n, ns = pre ++ [n] ∧ pre <+: ds

theorem matchDir_near {ds : List Str} (hds : ∀ n ∈ ds, IsName n) (hd : ds ≠ []) {ns : List Str} (hns : ∀ n ∈ ns, IsName n) (hv : Near ds ns) (hne : ns ≠ ds)
    (h : matchDir (render false ds) (render false ns) = true) : IsDirTemp ds ns := by
  have hN : Normal false ds := .names hds
  have hN' : Normal false ns := .names hns
  have hs := C22_match_sound (render false ds) (render false ns) (by unfold newDirPolicy; rw [clean_render hN]; exact h)
  rw [clean_render hN, clean_render hN'] at hs
  obtain ⟨h1, dg, h2, h3⟩ := hs
  rcases h1 with h1 | ⟨rest, h1⟩
  · exact absurd (render_inj hN' hN h1) hne
  · have hn0 : ns ≠ [] := by
      rintro rfl
      have := congrArg List.length h1
      have hl : 0 < (render false ds).length := by
        have := clean_ne_nil (render false ds)
        rw [clean_render hN] at this
        exact List.length_pos_iff.2 this
      simp only [List.length_append, List.length_cons] at this
      have h0 : (render false ([] : List Str)).length = 1 := rfl
      omega
    rw [render_ne hn0, render_ne hd] at h1
    have hsp := congrArg split h1
    rw [split_join hn0 (no_slash hns), split_join_append hd (no_slash hds)] at hsp
    have hpos := List.length_pos_iff.2 (split_ne_nil rest)
    rcases hv with rfl | ⟨pre, n, rfl, hp⟩
    · exact absurd rfl hn0
    · have hlen := congrArg List.length hsp
      rw [List.length_append, List.length_append] at hlen
      have hple := hp.length_le
      simp only [List.length_cons, List.length_nil] at hlen
      have hpe : pre = ds := hp.eq_of_length (by omega)
      subst hpe
      have hn : IsName n := hns n (by simp)
      rw [base_render hn.1] at h2
      exact ⟨dg, by rw [h2], h3⟩

theorem removes_dir {ds : List Str} (hds : ∀ n ∈ ds, IsName n) (hd : ds ≠ []) : Removes (fnDir (render false ds)) (IsDirTemp ds) (Near ds) where
  root := Or.inl rfl
  isT := by
    rintro ns isDir ok hns _ ⟨d, rfl, hdg⟩
    have hN : Normal false ds := .names hds
    have hN' : Normal false (ds ++ [d ++ tmpExt]) := .names hns
    unfold fnDir
    simp only [clean_render hN']
    have hne : ¬ render false (ds ++ [d ++ tmpExt]) = render false ds := by
      intro hc
      have := congrArg List.length (render_inj hN' hN hc)
      simp at this
    have hdot : ¬ render false (ds ++ [d ++ tmpExt]) = dot := by
      intro hc
      have : render false (ds ++ [d ++ tmpExt]) = render false [] := hc
      have := render_inj hN' (.names (by simp)) this
      simp at this
    have hpf : (render false (ds ++ [d ++ tmpExt]) ++ [slash]).isPrefixOf (render false ds ++ [slash]) = false := by
      rw [render_ne (by simp), render_ne hd]
      cases hq : (join (ds ++ [d ++ tmpExt]) ++ [slash]).isPrefixOf (join ds ++ [slash]) with
      | false => rfl
      | true =>
        have := ((prefix_iff hns hds (by simp) hd).1 hq).length_le
        simp at this
        omega
    rw [if_neg hne, if_neg hne, if_neg hdot, hpf, Bool.and_false, matchDir_temp hds hd hdg]
    cases isDir <;> cases ok <;> rfl
  notT := by
    intro ns isDir ok hns hv hT
    have hN : Normal false ds := .names hds
    have hN' : Normal false ns := .names hns
    unfold fnDir
    simp only [clean_render hN']
    by_cases hne : ns = ds
    · subst hne
      rw [if_pos rfl]
      exact Or.inl ⟨rfl, fun _ n => Or.inr ⟨ns, n, rfl, List.prefix_refl _⟩⟩
    · have hne' : ¬ render false ns = render false ds := fun hc => hne (render_inj hN' hN hc)
      rw [if_neg hne', if_neg hne']
      have hm : matchDir (render false ds) (render false ns) = false := by
        cases hq : matchDir (render false ds) (render false ns) with
        | false => rfl
        | true => exact absurd (matchDir_near hds hd hns hv hne hq) hT
      rw [hm]
      by_cases hn0 : ns = []
      · subst hn0
        have : render false ([] : List Str) = dot := rfl
        rw [if_pos this]
        left
        constructor
        · cases isDir <;> rfl
        · intro _ n; exact Or.inr ⟨[], n, rfl, List.nil_prefix⟩
      · have hdot : ¬ render false ns = dot := by
          intro hc
          have : render false ns = render false [] := hc
          exact hn0 (render_inj hN' (.names (by simp)) this)
        rw [if_neg hdot, render_ne hn0, render_ne hd]
        cases isDir with
        | false => exact Or.inl ⟨rfl, fun h => by cases h⟩
        | true =>
          cases hq : (join ns ++ [slash]).isPrefixOf (join ds ++ [slash]) with
          | true => exact Or.inl ⟨rfl, fun _ n => Or.inr ⟨ns, n, rfl, (prefix_iff hns hds hn0 hd).1 hq⟩⟩
          | false =>
            refine Or.inr ⟨rfl, rfl, ?_⟩
            rintro ms hms ⟨d, rfl, hdg⟩
            rcases List.prefix_concat_iff.1 hms with hc | hc
            · exact hT ⟨d, hc, hdg⟩
            · rw [(prefix_iff hns hds hn0 hd).2 hc] at hq; cases hq

/-! ### C120 -/

theorem sweep_spec {α : Type} (e : Env α) {fn : Fn} {T V : List Str → Prop} (hfn : Removes fn T V) (t : Tree α) (hwf : t.WF) :
    (∀ ns, ¬ Within T ns → look? (sweep e fn t).1 ns = t.look ns) ∧ ((sweep e fn t).2 = .nil → ∀ ns, Within T ns → look? (sweep e fn t).1 ns = none) ∧
    (e.statErr = false → (∀ p, e.rdErr p = false) → (∀ p, e.rmErr p = none) → (sweep e fn t).2 = .nil) := by
  have h := walk_swept e hfn t [] (by simp) hfn.root hwf
  have hdot : render false ([] : List Str) = dot := rfl
  rw [hdot] at h
  unfold sweep
  split
  · rename_i hs
    exact ⟨fun _ _ => rfl, (fun hn => by cases hn), (fun h => by rw [hs] at h; cases h)⟩
  · simp only [if_neg h.never]
    refine ⟨fun ns hns => h.stays ns hns, ?_, ?_⟩
    · rintro hn ns ⟨ms, h1, h2⟩
      exact h.gone hn ms ns List.nil_prefix h1 h2
    · intro _ hrd hrm
      have := walk_ok e hrd hrm hfn t [] (by simp) hfn.root hwf
      rw [hdot] at this; exact this

/-- **C120** A sweep with the policy that puts temporaries beside their destinations: in whatever tree, and whichever of its calls fail, it changes nothing but what is at or below a name made of something,
a dot, ten digits and ".tmp"; when it returns nil, nothing is there any more; and it returns nil if none of its calls fails. -/
theorem C120_random {α : Type} (e : Env α) (t : Tree α) (hwf : t.WF) :
    (∀ ns, ¬ Within IsRandomTemp ns → look? (sweep e fnRandom t).1 ns = t.look ns) ∧
    ((sweep e fnRandom t).2 = .nil → ∀ ns, Within IsRandomTemp ns → look? (sweep e fnRandom t).1 ns = none) ∧
    (e.statErr = false → (∀ p, e.rdErr p = false) → (∀ p, e.rmErr p = none) → (sweep e fnRandom t).2 = .nil) :=
  sweep_spec e removes_random t hwf

/-- **C120** The same with the policy that has a directory for temporaries: it changes nothing but what is at or below a name of ten digits and ".tmp" that is directly in the directory. In part: the
directory is given relative to the root of the walk, is not the root itself, and does not lead out of it. -/
theorem C120_dir_partial {α : Type} (e : Env α) (tempDir : Str) (habs : isAbs tempDir = false) (hnames : ∀ c ∈ comps tempDir, IsName c) (hproper : ProperDir tempDir) (t : Tree α) (hwf : t.WF) :
    let T := IsDirTemp (comps tempDir)
    (∀ ns, ¬ Within T ns → look? (sweep e (fnDir (newDirPolicy tempDir)) t).1 ns = t.look ns) ∧
    ((sweep e (fnDir (newDirPolicy tempDir)) t).2 = .nil → ∀ ns, Within T ns → look? (sweep e (fnDir (newDirPolicy tempDir)) t).1 ns = none) ∧
    (e.statErr = false → (∀ p, e.rdErr p = false) → (∀ p, e.rmErr p = none) → (sweep e (fnDir (newDirPolicy tempDir)) t).2 = .nil) := by
  have : newDirPolicy tempDir = render false (comps tempDir) := by unfold newDirPolicy clean; rw [habs]
  rw [this]
  exact sweep_spec e (removes_dir hnames hproper) t hwf

/-- **C120** The temporaries that the policy makes, for whatever destination and random number, are among those that its sweep removes. -/
theorem C120_finds_random (target : Str) (u : Nat) (hu : u < 2 ^ 32) (t : Str) (h : randomTemp target u = some t) : IsRandomTemp (comps t) := by
  obtain ⟨hs, rfl⟩ := randomTemp_eq h
  rw [comps_join2 (policyDir_ne target) (tempFile_isName hs hu)]
  exact ⟨_, _, patBase target, padded u, rfl, rfl, patBase_ne_nil target, padded_ten hu⟩

/-- **C120** The same for the policy with a directory. -/
theorem C120_finds_dir (tempDir : Str) (u : Nat) (hu : u < 2 ^ 32) : IsDirTemp (comps tempDir) (comps (dirTemp (newDirPolicy tempDir) u)) := by
  rw [dirTemp_eq, comps_join2 (clean_ne_nil _) (dirName_isName hu), comps_clean]
  exact ⟨padded u, rfl, padded_ten hu⟩

/-! ### cases -/

/-- Nothing fails. -/
def calm : Env Nat := { statErr := false, rdErr := fun _ => false, rmErr := fun _ => none }

def s (x : String) : Str := x.toList

/-- A file, a temporary beside it, a temporary directory with a file, and a directory of temporaries. -/
def sample : Tree Nat := .dir (.cons (s "f") (.leaf 1) (.cons (s "f.0000000007.tmp") (.leaf 2) (.cons (s "d.0000000008.tmp") (.dir (.cons (s "g") (.leaf 3) .nil))
  (.cons (s "t") (.dir (.cons (s "0000000009.tmp") (.leaf 4) (.cons (s "h") (.leaf 5) (.cons (s "n") (.dir (.cons (s "0000000009.tmp") (.leaf 6) .nil)) .nil)))) .nil))))

example : sample.WF := by
  simp only [sample, Tree.WF, Kids.WF, Kids.names]
  decide +kernel

example : let r := sweep calm fnRandom sample
    r.2 = .nil ∧ look? r.1 [s "f"] = some (some 1) ∧ look? r.1 [s "f.0000000007.tmp"] = none ∧ look? r.1 [s "d.0000000008.tmp", s "g"] = none ∧ look? r.1 [s "t", s "0000000009.tmp"] = some (some 4) := by
  decide +kernel

/-- The directory for temporaries may be given in any way. What is in a directory within it is not looked at. -/
example : let r := sweep calm (fnDir (newDirPolicy (s "x/..//t/"))) sample
    r.2 = .nil ∧ look? r.1 [s "f.0000000007.tmp"] = some (some 2) ∧ look? r.1 [s "t", s "0000000009.tmp"] = none ∧ look? r.1 [s "t", s "h"] = some (some 5) ∧
      look? r.1 [s "t", s "n", s "0000000009.tmp"] = some (some 6) := by
  decide +kernel

example : isAbs (s "x/..//t/") = false ∧ (∀ c ∈ comps (s "x/..//t/"), IsName c) ∧ ProperDir (s "x/..//t/") := by
  refine ⟨by decide, ?_, ?_⟩
  · have : comps (s "x/..//t/") = [s "t"] := by decide +kernel
    rw [this]; intro c hc; rw [List.mem_singleton.1 hc]; decide
  · unfold ProperDir; decide +kernel

/-- **C120** fails for a policy whose directory is the root of the walk: the sweep returns nil and leaves the temporaries. -/
theorem C120_counterexample_root : let t : Tree Nat := .dir (.cons (s "0000000007.tmp") (.leaf 2) .nil)
    dirTemp (newDirPolicy (s ".")) 7 = s "0000000007.tmp" ∧ (sweep calm (fnDir (newDirPolicy (s "."))) t).2 = .nil ∧
    look? (sweep calm (fnDir (newDirPolicy (s "."))) t).1 [s "0000000007.tmp"] = some (some 2) := by
  decide +kernel

/-- **C120** The random policy takes a file of somebody else for a temporary if its name has that form: a sweep removes a file "log.0123456789.tmp" no safe write has made. -/
theorem C120_note_foreign_file : look? (sweep calm fnRandom (.dir (.cons (s "log.0123456789.tmp") (.leaf 2) .nil))).1 [s "log.0123456789.tmp"] = none := by
  decide +kernel

end Verif.Fsutil.Sweep
