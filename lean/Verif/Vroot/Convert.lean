import Verif.Common.PathWalk
import Verif.Vroot.WrapProps
import Verif.Vroot.Prefix
/-
Names between operating-system form and io/fs form: /repo/vroot/pathnormalizer.go and /repo/vroot/iofs_from.go on Unix. Property C66.
-/
namespace Verif.Vroot
open Verif.Path

/-- std `strings.TrimPrefix`. -/
def trimPrefix (s p : Str) : Str := if p.isPrefixOf s then s.drop p.length else s

/-- pathnormalizer.go 22-26 `cleanToSlash`; on Unix `ToSlash` is the identity (28-32 `cleanFromSlash` is the same function). -/
def cleanToSlash (p : Str) : Str := trimPrefix (clean p) ['.', '/']

/-- iofs_from.go 44-50 `resolvePath`. -/
def fromIoPath (name : Str) : Option Str :=
  let name := clean name
  if isLocal name = false then none else some (cleanToSlash name)

/-- A clean path never begins with "./". -/
theorem clean_no_dotslash (p : Str) : ¬ (['.', '/'] : Str).isPrefixOf (clean p) = true := by
  rw [List.isPrefixOf_iff_prefix]
  rintro ⟨t, ht⟩
  have hN := comps_normal p
  unfold clean render at ht
  cases ha : isAbs p with
  | true =>
    rw [ha] at ht
    simp [slash] at ht
  | false =>
    rw [ha] at ht
    simp only [Bool.false_eq_true, if_false] at ht
    split at ht
    · simp [dot] at ht
    · rename_i hne
      have hs : split (join (comps p)) = comps p := split_join hne (fun c hc => (hN.isComp c hc).1.2)
      rw [← ht] at hs
      have : split (['.', '/'] ++ t) = dot :: split t := split_append_slash (a := dot) (by decide) t
      rw [this] at hs
      have := (hN.isComp dot (by rw [← hs]; exact List.mem_cons_self)).2
      exact this rfl

/-- **C66, the wrappers only clean.** The path the normalizing and localizing wrappers pass on is the clean form of the name: same place, and unchanged if clean. -/
theorem C66_normalizer (p : Str) : cleanToSlash p = clean p ∧ placeOf (cleanToSlash p) = placeOf p ∧ cleanToSlash (cleanToSlash p) = cleanToSlash p := by
  have h : ∀ p, cleanToSlash p = clean p := by
    intro p
    unfold cleanToSlash trimPrefix
    rw [if_neg (clean_no_dotslash p)]
  exact ⟨h p, by rw [h, placeOf_clean], by rw [h, h, clean_clean]⟩

/-- **C66, an io/fs filesystem only sees valid names.** The name passed by `FromIoFs` is, for valid UTF-8, valid in the sense of io/fs.
Missing from C66: names that are not valid UTF-8. -/
theorem C66_from_valid_partial (name p : Str) (h : fromIoPath name = some p) (hu : Fsutil.ValidUTF8 p) : IsValidPath p := by
  unfold fromIoPath at h
  simp only at h
  split at h
  · cases h
  · rename_i hl
    have hl : isLocal (clean name) = true := by cases hh : isLocal (clean name) <;> simp_all
    simp only [Option.some.injEq] at h
    rw [(C66_normalizer _).1, clean_clean] at h
    refine ⟨hu, ?_⟩
    subst h
    obtain ⟨_, ha, hn⟩ := (isLocal_iff _).1 hl
    rw [isAbs_clean] at ha
    rw [comps_clean] at hn
    by_cases hc : comps name = []
    · left
      unfold clean render
      simp [ha, hc]
    · right
      intro e he
      have : split (clean name) = comps name := by
        unfold clean render
        rw [ha]
        simp only [Bool.false_eq_true, if_false]
        rw [if_neg hc]
        exact split_join hc (fun c hc => (hn c hc).1.2)
      rw [this] at he
      exact ⟨(hn e he).1.1, (hn e he).2.1, (hn e he).2.2⟩

/-- **C66** fails for a name that is not valid UTF-8: it is passed on although io/fs declares it invalid. -/
theorem C66_counterexample_invalid_utf8 :
    fromIoPath [Char.ofNat 0xFF] = some [Char.ofNat 0xFF] ∧ ¬ IsValidPath [Char.ofNat 0xFF] :=
  ⟨by decide +kernel, fun h => Fsutil.C24_counterexample_invalid_input.2 h.1⟩

/-- **C66, refusal and place.** `FromIoFs` refuses exactly the names that leave its root, and passes the others with their place kept. -/
theorem C66_from_place (name : Str) : (fromIoPath name = none ↔ placeOf name = none) ∧ ∀ p, fromIoPath name = some p → placeOf p = placeOf name := by
  have hl := isLocal_clean_iff name
  constructor
  · unfold fromIoPath
    simp only
    cases h : isLocal (clean name) with
    | false =>
      simp
      cases hp : placeOf name with
      | none => rfl
      | some ns => have := hl.2 (by rw [hp]; simp); rw [h] at this; cases this
    | true => simp; exact hl.1 h
  · intro p hp
    unfold fromIoPath at hp
    simp only at hp
    split at hp
    · cases hp
    · simp only [Option.some.injEq] at hp
      subst hp
      rw [(C66_normalizer _).2.1, placeOf_clean]

/-- **C66, round trip.** A valid io/fs name goes through `FromIoFs` unchanged. -/
theorem C66_round_trip (name : Str) (h : IsValidPath name) : fromIoPath name = some name := by
  have key : clean name = name ∧ isLocal name = true := by
    rcases h.2 with rfl | hs
    · exact ⟨by decide, by decide⟩
    · have hn : ∀ c ∈ split name, IsName c := fun c hc => ⟨⟨(hs c hc).1, split_no_slash name c hc⟩, (hs c hc).2.1, (hs c hc).2.2⟩
      have habs : isAbs name = false := by
        cases name with
        | nil => rfl
        | cons a t =>
          by_cases ha : a = slash
          · subst ha
            exact absurd rfl (hs [] (by simp [split])).1
          · simp [isAbs, ha]
      have hc : comps name = split name := by
        unfold comps
        rw [foldl_names _ hn, List.append_nil, List.reverse_reverse]
      have hcl : clean name = name := by
        unfold clean render
        rw [habs, hc]
        simp only [Bool.false_eq_true, if_false]
        rw [if_neg (split_ne_nil _), join_split]
      refine ⟨hcl, ?_⟩
      rw [isLocal_iff]
      exact ⟨by rw [← hcl]; exact clean_ne_nil _, habs, by rw [hc]; exact hn⟩
  unfold fromIoPath
  simp only
  rw [key.1, if_neg (by simp [key.2]), (C66_normalizer _).1, key.1]

example : fromIoPath ['.', '/', 'a', '/', '/', 'b', '/', '.', '.', '/', 'c'] = some ['a', '/', 'c'] ∧ fromIoPath ['.', '.', '/', 'a'] = none := by decide

end Verif.Vroot
