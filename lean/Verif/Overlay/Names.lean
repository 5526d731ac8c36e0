import Verif.Overlay.Store
import Verif.Common.PathWalk
import Verif.Fsutil.ResolveProps
/-
Model of how the overlay turns the strings it is given into the paths it hands to its layers:
/repo/vroot-adapter/overlayfs/resolve.go 17-93, mkdir.go 97-127, write.go 148-165, datasource.go 124-160 and fs.go 238-254 (Unix).
-/
namespace Verif.Overlay.Names
open Verif.Path Verif.Overlay Verif.Fsutil.Resolve

/-- resolve.go 17-26 `Fs.name`; `none` is `ErrPathEscapes`. -/
def name (base p : Str) : Option Str :=
  if isLocal (clean p) = false then none
  else if clean p = dot then some base
  else some (childName base (clean p))

/-- resolve.go 71-77 `Fs.resolve`: `fsutil.ResolvePath` over the merged view, whose answers (resolve.go 40-62) are arbitrary here, then
`name`. Every error is `none`; so is running out of fuel, which `C28_terminates` excludes. -/
def resolve (fs : Fs) (base p : Str) (skipLast : Bool) : Option Str :=
  match resolvePath fs p skipLast with
  | some (_, .ok r) => name base r
  | _ => none

/-- resolve.go 40-62: the names the resolution asks the merged view about. -/
def probes (fs : Fs) (base p : Str) (skipLast : Bool) : List (Option Str) :=
  match resolvePath fs p skipLast with
  | some (log, _) => log.map (fun c => name base c.name)
  | none => []

/-- mkdir.go 112-126: shorter and shorter heads until one resolves; `fuel` bounds the number of slashes. -/
def mkdirAllLoop (resolve : Str → Except Bool Str) : (fuel : Nat) → (head rest : Str) → Option Str
  | 0, _, _ => none
  | f + 1, head, rest =>
    match resolve head with
    | .ok r => some (childName r rest)
    | .error false => none
    | .error true =>
      if slash ∈ head then mkdirAllLoop resolve f (parentName head) (childName (filePart head) rest) else none

/-- mkdir.go 104-127 `mkdirAllName`; `resolve` stands for `f.resolve(head, true)`, whose errors are split into "does not exist" (`true`) and
others. -/
def mkdirAllName (resolve : Str → Except Bool Str) (base p : Str) : Option Str :=
  if clean p = dot then some base
  else if isLocal (clean p) = false then none
  else mkdirAllLoop resolve ((clean p).length + 1) (clean p) []

/-- datasource.go 14-19. -/
def dirMerged : Str := "merged".toList
def dirWork : Str := "work".toList

/-- datasource.go 136-142 `ContentPath`. -/
def contentPath (canonical : Bool) (n : Str) : Str := if canonical then join2 dirMerged n else n

/-- datasource.go 152-157 `StagingPath`. -/
def stagingPath (canonical : Bool) (n : Str) : Str := if canonical then join2 dirWork n else []

/-- merged.go 93-110, copyup.go 172-206, write.go 158-165: the names above a name, nearest first, the root last. -/
def above : (fuel : Nat) → Str → List Str
  | 0, _ => []
  | f + 1, n => if n = [] then [] else parentName n :: above f (parentName n)

/-! ### facts -/

theorem join_isClean {cs : List Str} (h : CleanComps cs) : placeOf (join cs) = some cs := by
  rw [placeOf_iff]
  by_cases he : cs = []
  · subst he; exact ⟨rfl, by decide, by simp⟩
  · refine ⟨isAbs_join (fun c hc => (h c hc).1), ?_, h⟩
    have : join cs = render false cs := by simp [render, he]
    rw [this]
    exact comps_render (.names h)

theorem childName_join {as bs : List Str} (ha : CleanComps as) (hb : CleanComps bs) : childName (join as) (join bs) = join (as ++ bs) := by
  unfold childName
  by_cases h1 : as = []
  · subst h1; simp [join]
  · rw [if_neg (by rw [join_eq_nil ha]; exact h1)]
    by_cases h2 : bs = []
    · subst h2; simp [join]
    · rw [if_neg (by rw [join_eq_nil hb]; exact h2), join_append_ne h1 h2]

theorem parentName_join {cs : List Str} {c : Str} (hc : IsName c) : parentName (join (cs ++ [c])) = join cs := by
  unfold parentName
  by_cases h : cs = []
  · subst h
    rw [List.nil_append]
    show (dirPart c).dropLast = []
    rw [dirPart_comp hc.1]; rfl
  · rw [join_concat h, dirPart_append hc.1, List.dropLast_concat]

theorem filePart_join {cs : List Str} {c : Str} (hc : IsName c) : filePart (join (cs ++ [c])) = c := by
  unfold filePart
  by_cases h : cs = []
  · subst h
    show ((c.reverse).takeWhile (· ≠ slash)).reverse = c
    rw [takeWhile_all hc.1.2, List.reverse_reverse]
  · rw [join_concat h]
    have : (join cs ++ slash :: c).reverse = c.reverse ++ slash :: (join cs).reverse := by simp
    rw [this, takeWhile_rev hc.1.2, List.reverse_reverse]

theorem clean_eq_join {p : Str} {ns : List Str} (h : placeOf p = some ns) (hne : ns ≠ []) : clean p = join ns := by
  obtain ⟨h1, h2, h3⟩ := placeOf_some h
  unfold clean render
  simp [h1, h2, hne]

theorem cc_append {a b : List Str} (ha : CleanComps a) (hb : CleanComps b) : CleanComps (a ++ b) := by
  intro c hc
  rcases List.mem_append.1 hc with hc | hc
  · exact ha c hc
  · exact hb c hc

/-- **C63** (names). The name an overlay or sub-root with base `base` uses for a given string is the base followed by the place the string
leads to; a string that leads outside is refused. -/
theorem C63_name {base : List Str} (hb : CleanComps base) (p : Str) :
    name (join base) p = (placeOf p).map (fun rel => join (base ++ rel)) := by
  unfold name
  cases hp : placeOf p with
  | none =>
    rw [if_pos]; · rfl
    cases hl : isLocal (clean p) with
    | false => rfl
    | true => exact absurd hp ((isLocal_clean_iff p).1 hl)
  | some ns =>
    have hl : isLocal (clean p) = true := (isLocal_clean_iff p).2 (by rw [hp]; simp)
    rw [if_neg (by rw [hl]; simp)]
    by_cases he : ns = []
    · subst he
      rw [if_pos ((clean_eq_dot_iff p).2 hp)]; simp
    · have hn := (placeOf_some hp).2.2
      rw [if_neg (by
        intro hd
        rw [(clean_eq_dot_iff p).1 hd] at hp
        exact he (Option.some.inj hp).symm)]
      rw [clean_eq_join hp he, childName_join hb hn]; rfl

/-- **C63** (resolution). Whatever the merged view answers while symlinks are followed, the resolved name is clean and lies at or below the
base. -/
theorem C63_resolve {base : List Str} (hb : CleanComps base) (fs : Fs) (p : Str) (skipLast : Bool) (full : Str)
    (h : resolve fs (join base) p skipLast = some full) : ∃ rel, CleanComps (base ++ rel) ∧ full = join (base ++ rel) := by
  unfold resolve at h
  split at h
  · rename_i r _
    rw [C63_name hb] at h
    obtain ⟨rel, hr, rfl⟩ := Option.map_eq_some_iff.1 h
    exact ⟨rel, cc_append hb (placeOf_some hr).2.2, rfl⟩
  · cases h

/-- **C63** (resolution, probes). Every name the merged view is asked about on the way is accepted, clean, and lies at or below the base. -/
theorem C63_probes {base : List Str} (hb : CleanComps base) (fs : Fs) (p : Str) (skipLast : Bool) (q : Option Str)
    (h : q ∈ probes fs (join base) p skipLast) : ∃ rel, CleanComps (base ++ rel) ∧ q = some (join (base ++ rel)) := by
  unfold probes at h
  split at h
  · rename_i log res hr
    obtain ⟨c, hc, rfl⟩ := List.mem_map.1 h
    have hl := (C28_never_escapes fs p skipLast log res hr).1 c hc
    rw [isLocal_iff] at hl
    have hp := (placeOf_iff c.name _).2 ⟨hl.2.1, rfl, hl.2.2⟩
    rw [C63_name hb, hp]
    exact ⟨_, cc_append hb hl.2.2, rfl⟩
  · cases h

/-- The sub-roots `OpenRoot` can make of a view with base `b0`, nested any number of times (fs.go 238-254). -/
inductive SubRoot (b0 : Str) : Str → Prop
  | root : SubRoot b0 b0
  | sub {base full : Str} {fs : Fs} {p : Str} : SubRoot b0 base → resolve fs base p false = some full → SubRoot b0 full

/-- **C63** (sub-roots). However deep sub-roots are nested, and whatever the merged view answered while they were opened, a sub-root's base is
a clean name at or below the base of every view it was opened through. -/
theorem C63_subroot {base : List Str} (hb : CleanComps base) {b : Str} (h : SubRoot (join base) b) :
    ∃ rel, CleanComps (base ++ rel) ∧ b = join (base ++ rel) := by
  induction h with
  | root => exact ⟨[], by rw [List.append_nil]; exact hb, by rw [List.append_nil]⟩
  | sub _ hr ih =>
    obtain ⟨cs, hcs, rfl⟩ := ih
    obtain ⟨rel, hrel, rfl⟩ := C63_resolve hcs _ _ _ _ hr
    rw [List.append_assoc] at hrel
    exact ⟨cs ++ rel, hrel, by rw [List.append_assoc]⟩

theorem mkdirAllLoop_spec {base : List Str} {rs : Str → Except Bool Str}
    (hrs : ∀ h r, rs h = .ok r → ∃ rel, CleanComps (base ++ rel) ∧ r = join (base ++ rel)) : ∀ (fuel : Nat) (hd rest : List Str) (full : Str),
    CleanComps hd → CleanComps rest → mkdirAllLoop rs fuel (join hd) (join rest) = some full →
    ∃ rel, CleanComps (base ++ rel) ∧ full = join (base ++ rel) := by
  intro fuel
  induction fuel with
  | zero => intro hd rest full _ _ h; cases h
  | succ f ih =>
    intro hd rest full hhd hrest h
    unfold mkdirAllLoop at h
    cases hr : rs (join hd) with
    | ok r =>
      rw [hr] at h
      obtain ⟨rel, hrel, rfl⟩ := hrs _ _ hr
      simp only [Option.some.injEq] at h
      refine ⟨rel ++ rest, ?_, ?_⟩
      · rw [← List.append_assoc]; exact cc_append hrel hrest
      · rw [← h, childName_join hrel hrest, List.append_assoc]
    | error b =>
      rw [hr] at h
      cases b with
      | false => cases h
      | true =>
        simp only at h
        split at h
        · rename_i hs
          rcases List.eq_nil_or_concat hd with rfl | ⟨ini, lst, rfl⟩
          · cases hs
          · rw [List.concat_eq_append] at h hhd
            have hl : IsName lst := hhd lst (by simp)
            rw [parentName_join hl, filePart_join hl] at h
            have hc : childName lst (join rest) = join (lst :: rest) := by
              have := childName_join (as := [lst]) (bs := rest) (by intro c hc; simp at hc; rw [hc]; exact hl) hrest
              exact this
            rw [hc] at h
            exact ih ini (lst :: rest) full (fun c hc => hhd c (by simp [hc])) (by
              intro c hc
              rcases List.mem_cons.1 hc with rfl | hc
              · exact hl
              · exact hrest c hc) h
        · cases h

/-- **C63** (MkdirAll). The name `MkdirAll` works on is clean and lies at or below the base, whatever the prefixes of the given string resolve
to. -/
theorem C63_mkdirAll {base : List Str} (hb : CleanComps base) (fss : Str → Fs) (err : Str → Bool) (p full : Str)
    (h : mkdirAllName (fun hd => match resolve (fss hd) (join base) hd true with | some r => .ok r | none => .error (err hd)) (join base) p = some full) :
    ∃ rel, CleanComps (base ++ rel) ∧ full = join (base ++ rel) := by
  unfold mkdirAllName at h
  split at h
  · cases h
    exact ⟨[], by rw [List.append_nil]; exact hb, by rw [List.append_nil]⟩
  · split at h
    · cases h
    · rename_i hd hl
      have hl : isLocal (clean p) = true := by cases hx : isLocal (clean p) <;> simp_all
      cases hp : placeOf p with
      | none => exact absurd hp ((isLocal_clean_iff p).1 hl)
      | some ns =>
        have hne : ns ≠ [] := by rintro rfl; exact hd ((clean_eq_dot_iff p).2 hp)
        rw [clean_eq_join hp hne] at h
        refine mkdirAllLoop_spec ?_ _ ns [] full (placeOf_some hp).2.2 (by intro c hc; cases hc) h
        intro hd r hr
        split at hr
        · rename_i r' hr'
          cases hr
          exact C63_resolve hb _ _ _ _ hr'
        · cases hr

/-- **C63** (names above). The names visited on the way up from a name are its proper prefixes, each once, the longest first and the root last; so they are clean too. -/
theorem C63_above {cs : List Str} (h : CleanComps cs) (fuel : Nat) (hf : cs.length ≤ fuel) :
    above fuel (join cs) = (List.range cs.length).reverse.map (fun k => join (cs.take k)) := by
  induction fuel generalizing cs with
  | zero =>
    have : cs = [] := List.length_eq_zero_iff.1 (by omega)
    subst this; rfl
  | succ f ih =>
    unfold above
    rcases List.eq_nil_or_concat cs with rfl | ⟨ini, lst, rfl⟩
    · rfl
    · rw [List.concat_eq_append] at hf h ⊢
      rw [if_neg (by rw [join_eq_nil h]; simp), parentName_join (h lst (by simp)), ih (fun c hc => h c (by simp [hc])) (by simp at hf; omega), List.length_append, List.length_singleton,
        List.range_succ, List.reverse_append, List.reverse_singleton, List.singleton_append, List.map_cons, List.take_left]
      congr 1
      refine List.map_congr_left (fun k hk => ?_)
      rw [List.take_append_of_le_length (Nat.le_of_lt (List.mem_range.1 (List.mem_reverse.1 hk)))]

/-- **C63** (layers). The path handed to a layer for a clean name: below "merged" in a canonical layer, the name itself in a plain one. It is
clean and local, except that the root of a plain layer is spelled "". -/
theorem C63_layer_path_partial {cs : List Str} (h : CleanComps cs) (canonical : Bool) (hroot : canonical = true ∨ cs ≠ []) :
    clean (contentPath canonical (join cs)) = contentPath canonical (join cs) ∧
    placeOf (contentPath canonical (join cs)) = some ((if canonical then [dirMerged] else []) ++ cs) := by
  have hm : IsName dirMerged := by decide
  cases canonical with
  | false =>
    have hne : cs ≠ [] := hroot.resolve_left (by simp)
    simp only [contentPath, Bool.false_eq_true, if_false, List.nil_append]
    have : join cs = render false cs := by simp [render, hne]
    exact ⟨by rw [this]; exact clean_render (.names h), join_isClean h⟩
  | true =>
    have hcc : CleanComps ([dirMerged] ++ cs) := by
      intro c hc
      simp only [List.singleton_append, List.mem_cons] at hc
      rcases hc with rfl | hc
      · exact hm
      · exact h c hc
    have hp : contentPath true (join cs) = join ([dirMerged] ++ cs) := by
      simp only [contentPath, if_true]
      by_cases he : cs = []
      · subst he
        show join2 dirMerged [] = dirMerged
        decide
      · have hj : join cs ≠ [] := by rw [ne_eq, join_eq_nil h]; exact he
        unfold join2
        rw [if_neg (by rintro ⟨e, _⟩; exact absurd e (by decide)), if_neg (by decide), if_neg hj]
        have e1 : dirMerged ++ slash :: join cs = join ([dirMerged] ++ cs) := by
          rw [join_append_ne (by simp) he]; rfl
        rw [e1]
        have : join ([dirMerged] ++ cs) = render false ([dirMerged] ++ cs) := by simp [render]
        rw [this]; exact clean_render (.names hcc)
    rw [hp]
    have : join ([dirMerged] ++ cs) = render false ([dirMerged] ++ cs) := by simp [render]
    exact ⟨by rw [this]; exact clean_render (.names hcc), join_isClean hcc⟩

/-- The root of a plain layer is addressed as the empty string, which is not a clean path: os.Root-backed layers (the ones the package recommends)
refuse it, so the merged root cannot be listed over them. -/
theorem C63_counterexample_plain_root : contentPath false [] = [] ∧ clean (contentPath false []) ≠ contentPath false [] := by decide

/-- Staged files lie directly in "work". -/
theorem C63_staging {n : Str} (h : IsName n) : stagingPath true n = join [dirWork, n] := by
  have hw : IsName dirWork := by decide
  show join2 dirWork n = _
  rw [join2_name (by decide) h]
  have : comps dirWork = [dirWork] := comps_name hw
  rw [this]
  rfl

-- A sub-root at "d": names stay below "d"; escapes are refused; MkdirAll of "x/../y/z" works on "d/y/z" when only "." resolves.
example : name ['d'] "x/../y".toList = some "d/y".toList ∧ name ['d'] "../y".toList = none ∧ name ['d'] "./".toList = some ['d'] := by decide
example : CleanComps [['d']] := by intro c hc; simp at hc; rw [hc]; decide
example : contentPath true "a/b".toList = "merged/a/b".toList ∧ contentPath true [] = dirMerged := by decide
example : mkdirAllName (fun h => if h = ['y'] then .ok "d/y".toList else .error true) ['d'] "x/../y/z".toList = some "d/y/z".toList := by decide
example : above 5 "a/b/c".toList = ["a/b".toList, ['a'], []] := by decide

end Verif.Overlay.Names
