import Verif.Overlay.PathCalls
/-
C80: a sub-root of the overlay (fs.go 238-254 `OpenRoot`) stays inside its directory.
-/
namespace Verif.Overlay.Stack
open Verif.Path Verif.Prog
open Verif.Fsutil.Resolve (Walk)

/-! ### specification -/

/-- Everything outside the directory `base`, and that directory itself, shows as before (up to permissions of directories). -/
def KeptOutside (base : Name) (S S' : Sys) : Prop := ∀ m, (¬ base <:+ m ∨ m = base) → SameButDirMode (S'.view m) (S.view m)

/-- The calls spoken of: all calls by path, except opening for writing a symlink that cannot be followed. -/
def PathCall.Fair (S : Sys) (base : Name) : PathCall → Prop
  | .change _ _ => False
  | .openWrite p _ _ _ _ => Followable S base p
  | _ => True

/-! ### proof -/

theorem KeptOutside.refl (base : Name) (S : Sys) : KeptOutside base S S := fun _ _ => .refl _

theorem KeptOutside.trans {base : Name} {S1 S2 S3 : Sys} (h1 : KeptOutside base S1 S2) (h2 : KeptOutside base S2 S3) : KeptOutside base S1 S3 := fun m hm => by
  rcases h1 m hm with e1 | ⟨a, b, ha, hb⟩
  · rw [← e1]; exact h2 m hm
  · rcases h2 m hm with e2 | ⟨c, d, hc, _⟩
    · rw [ha] at e2; exact Or.inr ⟨a, b, e2, hb⟩
    · exact Or.inr ⟨c, b, hc, hb⟩

/-- A name outside, or the base, is not at or below a name that is properly inside. -/
theorem outside {base n m : Name} (hm : ¬ base <:+ m ∨ m = base) (hu : base <:+ n) (hne : n ≠ base) : ¬ n <:+ m := by
  intro h
  rcases hm with hm | rfl
  · exact hm (hu.trans h)
  · exact hne (h.eq_of_length (by have := h.length_le; have := hu.length_le; omega))

theorem KeptOutside.gone {base n : Name} {S S' : Sys} (hu : base <:+ n) (hne : n ≠ base) (h : OnlyGone n S S') : KeptOutside base S S' := fun m hm => Or.inl (h.1 m (outside hm hu hne))

theorem KeptOutside.at {base n : Name} {v : Option Node} {S S' : Sys} (hu : base <:+ n) (hne : n ≠ base) (h : OnlyAt n v S S') : KeptOutside base S S' := fun m hm => by
  rcases h m with h | ⟨rfl, _⟩
  · exact h
  · exact absurd (List.suffix_refl _) (outside hm hu hne)

theorem KeptOutside.dirs {base n : Name} {S S' : Sys} (hd : S.ViewDir base) (hu : base <:+ n) (h : OnlyNewDirs (fun m => m <:+ n) S S') : KeptOutside base S S' := fun m hm => by
  rcases h m with h | ⟨hmn, hv, _⟩
  · exact h
  · exfalso
    have hmb : m <:+ base := by
      rcases List.suffix_or_suffix_of_suffix hu hmn with h | h
      · rcases hm with hm | rfl
        · exact absurd h hm
        · exact List.suffix_refl _
      · exact h
    obtain ⟨k, hk⟩ := ViewDir.above hd hmb
    rw [hv] at hk
    cases hk

theorem rooted_of_dir {S : Sys} {base : Name} (hb : CleanComps base.reverse) (hd : S.ViewDir base) : Rooted S base := ⟨hb, ViewDir.unlinked hd⟩

/-- **C80** A call through a sub-root, whatever path it is given, changes nothing outside the sub-root's directory, nor that directory itself other than its permissions; so at every
point during the call. -/
theorem C80_confined_partial {S0 S : Sys} {hs : List Handle} {base : Name} (h0 : Sound S0) (hm : Held S0) (h : PathRuns S0 S hs) (hb : CleanComps base.reverse) (hd : S.ViewDir base)
    (gone : Str → Bool) (c : PathCall) (hc : c.Fair S base) : ∀ S', During (callOp base gone hs c) S S' → KeptOutside base S S' := by
  have hr := rooted_of_dir hb hd
  obtain ⟨k0, hk0⟩ := hd
  have hd : S.ViewDir base := ⟨k0, hk0⟩
  obtain ⟨i0, hi0⟩ := view_of_lookup hk0
  have same : ∀ {S'}, S' = S → KeptOutside base S S' := fun e => by rw [e]; exact .refl _ _
  intro S' hS'
  cases c with
  | change i f => exact absurd hc id
  | chmod p mode =>
    rcases (C79_chmod_partial h0 hm h hr gone p mode).2.2 S' hS' with e | ⟨n, hn, ho⟩
    · exact same e
    · by_cases hne : n = base
      · subst hne
        intro m _
        rcases ho m with h | ⟨rfl, h⟩
        · exact h
        · rw [hk0] at h
          exact Or.inr ⟨mode, k0, h, hk0⟩
      · exact .at hn.under hne ho
  | attr p b => exact fun m _ => C79_attr_partial h0 hm h hr gone p b S' hS' m
  | openRead p =>
    cases hf : (PathCall.openRead p).find S base gone with
    | none =>
      obtain ⟨r, he, _⟩ := callOp_none (hs := hs) hf
      exact same (during_idle he hS')
    | some call =>
      have he := callOp_some (hs := hs) hf
      obtain ⟨n, _, rfl⟩ := Option.map_eq_some_iff.1 hf
      exact same (during_idle (r := .ok ()) he hS')
  | openWrite p cr x t k =>
    rcases (C79_open_partial h0 hm h hr gone p cr x t k hc).2.2 S' hS' with e | ⟨n, j, hop, hnd, ho⟩
    · exact same e
    · have hu : base <:+ n := hop.elim (·.under) (·.2.1.under)
      exact .at hu (fun e => hnd (by rw [e]; exact hd)) ho
  | remove p =>
    rcases (C79_remove_partial h0 hm h hr gone p).2 S' hS' with e | ⟨n, hn, hne, ho⟩
    · exact same e
    · exact .gone hn.under hne ho
  | removeAll p o =>
    rcases (C79_removeAll_partial h0 hm h hr gone p o).2 S' hS' with e | ⟨n, hn, hne, ho⟩
    · exact same e
    · exact .gone hn.under hne ho
  | mkdir p k =>
    rcases (C79_mkdir_partial h0 hm h hr gone p k).2 S' hS' with e | ⟨n, hn, ho⟩
    · exact same e
    · exact .dirs hd hn.under (fun m => (ho m).imp id fun ⟨e, h⟩ => ⟨by rw [e]; exact List.suffix_refl _, h⟩)
  | mkdirAll p k =>
    rcases (C79_mkdirAll_partial h0 hm h hr gone p k).2 S' hS' with e | ⟨n, hn, ho⟩
    · exact same e
    · exact .dirs hd hn.under ho
  | symlink t p =>
    by_cases hdot : clean p = dot
    · have he := (callOp_some (hs := hs) (gone := gone) (c := .symlink t p) (call := .symlink t base) (S := S) (base := base) (by simp [PathCall.find, resolve_dot hb hdot])).trans (shows_symlink hi0 t)
      exact same (during_idle he hS')
    · rcases (C79_symlink_partial h0 hm h hr gone t p).2.2 S' hS' with e | ⟨n, hn, ho⟩
      · exact same e
      · exact .at hn.under (hn.proper hdot) ho
  | link a b =>
    by_cases hdot : clean b = dot
    · cases hf : (PathCall.link a b).find S base gone with
      | none =>
        obtain ⟨r, he, _⟩ := callOp_none (hs := hs) hf
        exact same (during_idle he hS')
      | some call =>
        have he := callOp_some (hs := hs) hf
        obtain ⟨x, n, hx, hn, rfl⟩ := both_some hf
        rw [resolve_dot hb hdot] at hn
        cases hn
        obtain ⟨e, hl⟩ := shows_link (a := x) hi0
        exact same (during_idle (he.trans hl) hS')
    · rcases (C79_link_partial h0 hm h hr gone a b).2.2 S' hS' with e | ⟨x, n, _, hn, ho⟩
      · exact same e
      · exact .at hn.under (hn.proper hdot) ho
  | rename a b =>
    have hren := C79_rename_partial h0 hm h hr gone a b
    rcases List.mem_append.1 hS' with hS' | hS'
    · obtain ⟨x, n, hx, hn, hxb, hnb, ho, _⟩ := hren.2.2 S' hS'
      exact fun m hm => ho m (outside hm hx.under hxb) (outside hm hn.under hnb)
    · rw [List.mem_singleton.1 hS']
      by_cases hok : result (callOp base gone hs (.rename a b)) S = .ok ()
      · obtain ⟨x, n, hx, hn, hxb, hnb, _, ⟨_, e⟩ | ⟨_, hmv⟩⟩ := hren.1 hok
        · exact same e
        · exact fun m hm => hmv.rest m (outside hm hx.under hxb) (outside hm hn.under hnb)
      · exact fun m _ => hren.2.1 hok m

/-- Calls through one sub-root after another, any of them cut short by the death of the process (renames excepted). -/
inductive Within (base : Name) : Sys → List Handle → Sys → List Handle → Prop
  | start {S hs} : Within base S hs S hs
  | call {S hs S1 hs1} (gone : Str → Bool) (c : PathCall) : Within base S hs S1 hs1 → c.Fair S1 base → Within base S hs (final (callOp base gone hs1 c) S1) (opens S1 base gone hs1 c)
  | crash {S hs S1 hs1} (gone : Str → Bool) (c : PathCall) {T} : Within base S hs S1 hs1 → c.Fair S1 base → (∀ a b, c ≠ .rename a b) → T ∈ crashes (callOp base gone hs1 c) S1 → Within base S hs T []

/-- **C80** over a history: whatever calls are made through a sub-root, its directory remains a directory and all outside it shows as before. -/
theorem C80_history_partial {S0 S : Sys} {hs : List Handle} {base : Name} (h0 : Sound S0) (hm : Held S0) (h : PathRuns S0 S hs) (hb : CleanComps base.reverse) (hd : S.ViewDir base)
    {S1 : Sys} {hs1 : List Handle} (hw : Within base S hs S1 hs1) : PathRuns S0 S1 hs1 ∧ S1.ViewDir base ∧ KeptOutside base S S1 := by
  have keep : ∀ {A B : Sys}, A.ViewDir base → KeptOutside base A B → B.ViewDir base := by
    intro A B ⟨k, hk⟩ hAB
    rcases hAB base (Or.inr rfl) with e | ⟨a, b, ha, _⟩
    · exact ⟨k, by rw [e]; exact hk⟩
    · exact ⟨a, ha⟩
  have kind : ∀ {A : Sys} {c : PathCall}, c.Fair A base → c.KeepsKind := by
    intro A c hc
    cases c <;> first | exact trivial | exact absurd hc id
  induction hw with
  | start => exact ⟨h, hd, .refl _ _⟩
  | call gone c _ hc ih =>
    obtain ⟨i1, i2, i3⟩ := ih
    have := C80_confined_partial h0 hm i1 hb i2 gone c hc _ (List.mem_append_right _ (List.mem_singleton.2 rfl))
    exact ⟨.call base gone c i1 (rooted_of_dir hb i2) (kind hc), keep i2 this, i3.trans this⟩
  | crash gone c _ hc hnr ht ih =>
    obtain ⟨i1, i2, i3⟩ := ih
    have := C80_confined_partial h0 hm i1 hb i2 gone c hc _ (List.mem_append_left _ ht)
    exact ⟨.crash base gone c i1 (rooted_of_dir hb i2) (kind hc) hnr ht, keep i2 this, i3.trans this⟩

/-! ### examples -/

namespace Example

/-- A top layer (whose symlinks lead where `f` says) over one lower layer. -/
noncomputable def two (top lower : List (Name × Node)) (f : Name → Except Errno Name) : Sys where
  last := 1
  layer := fun i => if i = 0 then ⟨treeOf top, fun _ => f, enumAny⟩ else layerOf lower (.error .notExist)
  mask := fun _ => ⟨[], []⟩
  stage := fun _ => none
  temp := 0
  umask := id

theorem two_sound {top lower : List (Name × Node)} {f : Name → Except Errno Name} (h1 : okList top = true) (h2 : okList lower = true) : Sound (two top lower f) ∧ Held (two top lower f) := by
  have ht := okList_isTree (f := .error .notExist) h1
  refine ⟨⟨⟨ht.root, ht.closed, top.map Prod.fst, fun n hn => ?_⟩, fun t h d _ _ => enumAny_spec h d, fun j hj _ => ?_⟩, fun x hx => nomatch hx⟩
  · obtain ⟨nd, hnd⟩ := Option.ne_none_iff_exists'.1 hn
    exact List.mem_map.2 ⟨_, treeOf_some hnd, rfl⟩
  · show (if j = 0 then _ else layerOf lower (.error .notExist)).IsTree
    rw [if_neg (by omega)]
    exact okList_isTree h2

def d : Str := ['d']
def e : Str := ['e']
def l : Str := ['l']
def m : Str := ['m']

theorem d_clean : CleanComps [d] := by
  intro c hc
  rw [List.mem_singleton.1 hc]
  decide

/-- A lower layer with `d/x`, `e/x` and the symlink `l` to `d`; an empty top. -/
noncomputable def linked : Sys := two [([], .dir 0o755)]
  [([], .dir 0o755), ([d], .dir 0o755), ([x, d], .file 0o644 ['1']), ([e], .dir 0o755), ([x, e], .file 0o644 ['2']), ([l], Node.link ['d'])] (fun _ => .error .notExist)

theorem linked_sound : Sound linked ∧ Held linked := two_sound (by decide) (by decide)

/-- A sub-root on `d`: `m` leads out of it, `l` leads to `m/x`; `e/x` does not exist. -/
noncomputable def escape : Sys := two
  [([], .dir 0o755), ([d], .dir 0o755), ([m, d], Node.link "../e".toList), ([l, d], Node.link "m/x".toList), ([e], .dir 0o755)]
  [([], .dir 0o755)] (fun r => if r = [m, d] then .ok [e] else if r = [l, d] then .ok [x, e] else .error .notExist)

theorem escape_sound : Sound escape ∧ Held escape := two_sound (by decide) (by decide)

/-- `m` leads to `d` and `l` to `m/x`, both in the top; `d/x` is in the lower layer. -/
noncomputable def across : Sys := two
  [([], .dir 0o755), ([m], Node.link ['d']), ([l], Node.link "m/x".toList)]
  [([], .dir 0o755), ([d], .dir 0o755), ([x, d], .file 0o644 ['1'])] (fun _ => .error .notExist)

theorem across_sound : Sound across ∧ Held across := two_sound (by decide) (by decide)

/-- `d` was a directory with a sub-root on it and is now a symlink to `e`. -/
noncomputable def replaced : Sys := two
  [([], .dir 0o755), ([d], Node.link ['e']), ([e], .dir 0o755), ([x, e], .file 0o644 ['2'])]
  [([], .dir 0o755)] (fun r => if r = [d] then .ok [e] else .error .notExist)

theorem replaced_sound : Sound replaced ∧ Held replaced := two_sound (by decide) (by decide)

end Example

open Example in
/-- **C79** A removal through a symlink: `Remove("l/x")` removes `d/x` and nothing else. -/
example : Sound linked ∧ Held linked ∧ PathRuns linked linked [] ∧ Rooted linked [] ∧
    result (callOp [] (fun _ => true) [] (.remove "l/x".toList)) linked = .ok () ∧
    (final (callOp [] (fun _ => true) [] (.remove "l/x".toList)) linked).view [x, d] = none ∧
    (final (callOp [] (fun _ => true) [] (.remove "l/x".toList)) linked).view [x, e] = some (.file 0o644 ['2']) ∧
    (final (callOp [] (fun _ => true) [] (.remove "l/x".toList)) linked).view [l] = some (.link ['d']) :=
  ⟨linked_sound.1, linked_sound.2, .start, rooted_root linked_sound.1.isTree, rfl, rfl, rfl, rfl⟩

namespace Example

/-- The only symlink that shows is `l`. -/
theorem linked_links {n : Name} {t : Str} (h : linked.view n = some (.link t)) : n = [l] ∧ t = ['d'] := by
  obtain ⟨i, hi⟩ := view_of_lookup h
  have hl := lookup_lstat hi
  simp only at hl
  cases n with
  | nil => obtain ⟨k, hk⟩ := linked.viewDir_root linked_sound.1.isTree; rw [hk] at h; cases h
  | cons c dd =>
    simp only [Layer.lstat, Layer.entry] at hl
    cases hr : (linked.layer i).realDir dd with
    | error e => rw [hr] at hl; cases hl
    | ok r =>
      rw [hr] at hl
      simp only at hl
      cases ht : (linked.layer i).tree (c :: r) with
      | none => rw [ht] at hl; cases hl
      | some nd =>
        rw [ht] at hl
        cases hl
        by_cases hi0 : i = 0
        · subst hi0
          have ht : treeOf [([], .dir 0o755)] (c :: r) = some (.link t) := ht
          have := treeOf_some ht
          simp at this
        · have hlay : linked.layer i = layerOf [([], .dir 0o755), ([d], .dir 0o755), ([x, d], .file 0o644 ['1']), ([e], .dir 0o755), ([x, e], .file 0o644 ['2']), ([l], Node.link ['d'])]
              (.error .notExist) := if_neg hi0
          rw [hlay] at ht hr
          have := treeOf_some ht
          simp at this
          obtain ⟨⟨rfl, rfl⟩, rfl⟩ := this
          refine ⟨?_, rfl⟩
          cases dd with
          | nil => rfl
          | cons c' d' =>
            exfalso
            simp only [Layer.realDir] at hr
            split at hr
            · cases hr
            · split at hr
              · cases hr
              · cases hr
              · simp [Layer.jump, layerOf] at hr
              · cases hr

theorem linked_straight : linked.Straight [] := by
  intro dd c t h
  rw [Sys.seen_link] at h
  obtain ⟨_, rfl⟩ := linked_links h
  exact trivial

end Example

open Example in
/-- What `C79_remove_partial` says of it: the name worked on is the one that walking "l/x" denotes. -/
example : linked.ViewDir [] ∧ linked.Straight [] ∧ dotdot ∉ split "l/x".toList ∧ clean "l/x".toList ≠ dot ∧ linked.Denotes [] "l/x".toList [x, d] ∧
    linked.LeadsTo [] "l/x".toList [x, d] ∧ ¬ linked.Denotes [] "l/x".toList [x, e] := by
  have hw : Walk (linked.seen []) [] [l] [d] := .link (by decide) rfl (t := ['d']) rfl rfl (.plain (e := .dir) (by decide) rfl rfl rfl (.nil _))
  refine ⟨⟨_, rfl⟩, linked_straight, by decide, by decide, ⟨[l], x, [d], by decide, hw, rfl⟩, ⟨[d, x], ?_, rfl⟩, ?_⟩
  · exact .link (by decide) rfl (t := ['d']) rfl rfl (.plain (e := .dir) (by decide) rfl rfl rfl (.plain (e := .file) (by decide) rfl rfl rfl (.nil _)))
  · rintro ⟨init, c, dd, h1, h2, h3⟩
    have : init ++ [c] = [l] ++ [x] := h1.symm.trans (by decide)
    obtain ⟨rfl, _⟩ := List.append_inj' this rfl
    have := h2.det hw
    subst this
    simp [e, d] at h3

open Example in
/-- The other calls, through the symlink and through a sub-root on `d`. -/
example : CleanComps [d] ∧ linked.ViewDir [d] ∧ Followable linked [] "l/x".toList ∧
    result (callOp [] (fun _ => true) [] (.removeAll "l".toList [])) linked = .ok () ∧
    result (callOp [] (fun _ => true) [] (.mkdir "l/n".toList 0o700)) linked = .ok () ∧
    result (callOp [] (fun _ => true) [] (.mkdirAll "l/n/o".toList 0o700)) linked = .ok () ∧
    (final (callOp [] (fun _ => true) [] (.mkdirAll "l/n/o".toList 0o700)) linked).view [['o'], ['n'], d] = some (.dir 0o700) ∧
    result (callOp [] (fun _ => true) [] (.symlink "x".toList "l/y".toList)) linked = .ok () ∧
    result (callOp [] (fun _ => true) [] (.link "l/x".toList "e/y".toList)) linked = .ok () ∧
    result (callOp [] (fun _ => true) [] (.rename "l/x".toList "e/y".toList)) linked = .ok () ∧
    (final (callOp [] (fun _ => true) [] (.rename "l/x".toList "e/y".toList)) linked).view [['y'], e] = some (.file 0o644 ['1']) ∧
    result (callOp [] (fun _ => true) [] (.chmod "l/x".toList 0o600)) linked = .ok () ∧
    result (callOp [] (fun _ => true) [] (.openWrite "l/x".toList false false true 0)) linked = .ok () ∧
    result (callOp [] (fun _ => true) [] (.openWrite "l/n".toList true true true 0o600)) linked = .ok () ∧
    linked.locate [] "l/x".toList false = some ([x, d], .file 0o644 ['1']) ∧ linked.locate [] "l".toList true = some ([l], .link ['d']) ∧
    result (callOp [d] (fun _ => true) [] (.remove "x".toList)) linked = .ok () ∧
    result (callOp [d] (fun _ => true) [] (.remove "../e/x".toList)) linked ≠ .ok () :=
  ⟨d_clean, ⟨_, rfl⟩, fun n t h => (by cases h), rfl, rfl, rfl, rfl, rfl, rfl, rfl, rfl, rfl, rfl, rfl, rfl, rfl, rfl, fun h => (by cases h)⟩

open Example in
/-- A history through a sub-root: it may empty its own directory, and all else is as before. -/
example : Within [d] linked [] (final (callOp [d] (fun _ => true) [] (.removeAll "x".toList [])) linked) [] ∧
    (final (callOp [d] (fun _ => true) [] (.removeAll "x".toList [])) linked).view [x, d] = none ∧
    (final (callOp [d] (fun _ => true) [] (.removeAll "x".toList [])) linked).view [x, e] = some (.file 0o644 ['2']) :=
  ⟨.call (fun _ => true) (.removeAll "x".toList []) .start trivial, rfl, rfl⟩

open Example in
/-- **C80** fails for opening, with `O_CREATE`, a symlink that cannot be followed: the resolution, which refuses to leave the sub-root, fails with "does not exist"
(the symlink's target is asked about as a whole, and the top layer follows `m` on its own), the call then goes on with the symlink itself, and the top layer follows it out of the
sub-root and creates the file there. resolve.go 28-32 says such a link is refused. -/
theorem C80_counterexample_open_through_links : Sound escape ∧ Held escape ∧ PathRuns escape escape [] ∧ CleanComps [d] ∧ escape.ViewDir [d] ∧ escape.view [x, e] = none ∧
    escape.resolve [d] "l".toList false = none ∧
    result (callOp [d] (fun _ => true) [] (.openWrite "l".toList true false false 0o644)) escape = .ok () ∧
    (final (callOp [d] (fun _ => true) [] (.openWrite "l".toList true false false 0o644)) escape).view [x, e] = some (.file 0o644 []) :=
  ⟨escape_sound.1, escape_sound.2, .start, d_clean, ⟨_, rfl⟩, rfl, rfl, rfl, rfl⟩

open Example in
/-- Directly, without the second symlink, it is refused. -/
example : escape.resolve [d] "m/x".toList false = none ∧ escape.resolve [d] "m/x".toList true = none := ⟨rfl, rfl⟩

open Example in
/-- **C80** fails once the directory of the sub-root has been replaced by a symlink: the layers follow it. -/
theorem C80_counterexample_base_replaced : Sound replaced ∧ Held replaced ∧ CleanComps [d] ∧ ¬ replaced.ViewDir [d] ∧ replaced.view [x, e] = some (.file 0o644 ['2']) ∧
    result (callOp [d] (fun _ => true) [] (.remove "x".toList)) replaced = .ok () ∧
    (final (callOp [d] (fun _ => true) [] (.remove "x".toList)) replaced).view [x, e] = none :=
  ⟨replaced_sound.1, replaced_sound.2, d_clean, fun ⟨_, h⟩ => (by cases h), rfl, rfl, rfl⟩

open Example in
/-- **C79** is about what is found. Walking leads somewhere, but the call finds nothing: a symlink to a path through another symlink, whose target is in a lower layer. `Stat("m/x")` works,
`Stat("l")`, with `l` a symlink to "m/x", does not. -/
theorem C79_counterexample_links_across_layers : Sound across ∧ Held across ∧ across.LeadsTo [] "l".toList [x, d] ∧
    across.locate [] "m/x".toList false = some ([x, d], .file 0o644 ['1']) ∧ across.locate [] "l".toList false = none := by
  refine ⟨across_sound.1, across_sound.2, ⟨[d, x], ?_, rfl⟩, rfl, rfl⟩
  exact .link (t := "m/x".toList) (by decide) rfl rfl rfl (.link (t := ['d']) (by decide) rfl rfl rfl (.plain (e := .dir) (by decide) rfl rfl rfl
    (.plain (e := .file) (by decide) rfl rfl rfl (.nil _))))

open Example in
/-- Through a sub-root whose directory is gone, `Mkdir(".")` makes that directory again. -/
theorem C80_note_mkdir_dot : PathRuns linked (final (callOp [] (fun _ => true) [] (.removeAll "d".toList [])) linked) [] ∧
    (final (callOp [] (fun _ => true) [] (.removeAll "d".toList [])) linked).view [d] = none ∧
    result (callOp [d] (fun _ => true) [] (.mkdir dot 0o755)) (final (callOp [] (fun _ => true) [] (.removeAll "d".toList [])) linked) = .ok () ∧
    (final (callOp [d] (fun _ => true) [] (.mkdir dot 0o755)) (final (callOp [] (fun _ => true) [] (.removeAll "d".toList [])) linked)).view [d] = some (.dir 0o755) :=
  ⟨.call [] (fun _ => true) (.removeAll "d".toList []) .start (rooted_root linked_sound.1.isTree) trivial, rfl, rfl, rfl⟩

open Example in
/-- **C84** fails for `MkdirAll` of a symlink to a directory: it answers ENOTDIR. os.MkdirAll succeeds, and so does `MkdirAll` of anything below the symlink. -/
theorem C84_counterexample_mkdirAll_link : Sound linked ∧ Held linked ∧ linked.locate [] "l".toList false = some ([d], .dir 0o755) ∧
    result (callOp [] (fun _ => true) [] (.mkdirAll "l".toList 0o700)) linked = .error .notDir ∧
    result (callOp [] (fun _ => true) [] (.mkdirAll "l/n".toList 0o700)) linked = .ok () :=
  ⟨linked_sound.1, linked_sound.2, rfl, rfl, rfl⟩

namespace Example

/-- A symlink `l` to "d/x" in the top, the empty directory `d` in the lower layer. -/
noncomputable def dangling : Sys := two
  [([], .dir 0o755), ([l], Node.link "d/x".toList)]
  [([], .dir 0o755), ([d], .dir 0o755)] (fun _ => .error .notExist)

theorem dangling_sound : Sound dangling ∧ Held dangling := two_sound (by decide) (by decide)

end Example

open Example in
/-- **C84** fails for opening a dangling symlink with O_CREATE: only the top layer is asked to follow it. With its target "d/x" in a directory that only a lower layer has, the call answers
"does not exist", although creating "d/x" itself succeeds. -/
theorem C84_counterexample_create_through_link : Sound dangling ∧ Held dangling ∧ dangling.view [l] = some (.link "d/x".toList) ∧ dangling.view [d] = some (.dir 0o755) ∧
    result (callOp [] (fun _ => true) [] (.openWrite "l".toList true false false 0o644)) dangling = .error .notExist ∧
    result (callOp [] (fun _ => true) [] (.openWrite "d/x".toList true false false 0o644)) dangling = .ok () :=
  ⟨dangling_sound.1, dangling_sound.2, rfl, rfl, rfl, rfl⟩

end Verif.Overlay.Stack
