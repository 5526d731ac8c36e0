import Verif.Synth.Resolve
/-
C49, continued: with which error a name that leads nowhere is refused.
-/
namespace Verif.Synth.Tree
open Verif.Path

/-! ### Specification -/

def St.isFile (s : St) (i : Id) : Prop := ∃ n m v, s.nodes[i]? = some (.file n m v)

/-- Walking the elements from the directory `cur` comes, after following the given number of links, to a point where it cannot go on:
an entry that is not there, a file that has elements after it, a step above the directory `b`, or an absolute link. -/
inductive Fails (s : St) (b : Id) (follow : Bool) : Id → List Str → Nat → Err → Prop where
  | missing {cur e es} : Plain e → s.lookup cur e = none → Fails s b follow cur (e :: es) 0 .notExist
  | through {cur e c es} : Plain e → s.lookup cur e = some c → s.isFile c → es ≠ [] → Fails s b follow cur (e :: es) 0 .notDir
  | above {es} : Fails s b follow b (dotdot :: es) 0 .escapes
  | absolute {cur e c es nm t} : Plain e → s.lookup cur e = some c → s.nodes[c]? = some (.link nm t) → isAbs t = true → (es ≠ [] ∨ follow = true) →
      Fails s b follow cur (e :: es) 1 .escapes
  | stay {cur e es n x} : (e = [] ∨ e = dot) → Fails s b follow cur es n x → Fails s b follow cur (e :: es) n x
  | up {cur p k es n x} : cur ≠ b → s.lookup p k = some cur → Fails s b follow p es n x → Fails s b follow cur (dotdot :: es) n x
  | down {cur e c es n x} : Plain e → s.lookup cur e = some c → s.isDir c → es ≠ [] → Fails s b follow c es n x → Fails s b follow cur (e :: es) n x
  | link {cur e c es n x nm t} : Plain e → s.lookup cur e = some c → s.nodes[c]? = some (.link nm t) → isAbs t = false → (es ≠ [] ∨ follow = true) →
      Fails s b follow cur (splice t es) n x → Fails s b follow cur (e :: es) (n + 1) x

/-- Walking the elements from the directory `cur` comes to at least the given number of links that are to be followed. -/
inductive Chases (s : St) (b : Id) (follow : Bool) : Id → List Str → Nat → Prop where
  | first {cur e c es} : Plain e → s.lookup cur e = some c → s.isLink c → (es ≠ [] ∨ follow = true) → Chases s b follow cur (e :: es) 1
  | stay {cur e es n} : (e = [] ∨ e = dot) → Chases s b follow cur es n → Chases s b follow cur (e :: es) n
  | up {cur p k es n} : cur ≠ b → s.lookup p k = some cur → Chases s b follow p es n → Chases s b follow cur (dotdot :: es) n
  | down {cur e c es n} : Plain e → s.lookup cur e = some c → s.isDir c → es ≠ [] → Chases s b follow c es n → Chases s b follow cur (e :: es) n
  | link {cur e c es n nm t} : Plain e → s.lookup cur e = some c → s.nodes[c]? = some (.link nm t) → isAbs t = false → (es ≠ [] ∨ follow = true) →
      Chases s b follow cur (splice t es) n → Chases s b follow cur (e :: es) (n + 1)

/-- The name is refused with this error. -/
def Refused (s : St) (b : Id) (name : Str) (follow : Bool) (x : Err) : Prop :=
  (placeOf name = none ∧ x = .escapes) ∨ ∃ ns, placeOf name = some ns ∧ ((∃ n, n ≤ 40 ∧ Fails s b follow b ns n x) ∨ (x = .loop ∧ Chases s b follow b ns 41))

/-! ### The walk -/

theorem seg_refused {s : St} (hg : Good s) {b : Id} {fl : Bool} {jump : Id → Str → Str → Except Err Res} {N : Nat}
    (hj : ∀ cur t rest x, s.isDir cur → Under s b cur → jump cur t rest = .error x →
      (isAbs t = true ∧ x = .escapes ∧ 1 ≤ N) ∨ (∃ n, n + 1 ≤ N ∧ isAbs t = false ∧ Fails s b fl cur (splice t (elems rest)) n x) ∨
      (x = .loop ∧ (N = 0 ∨ isAbs t = false ∧ Chases s b fl cur (splice t (elems rest)) N))) :
    ∀ (fuel : Nat) (cur : Id) (rest : Str) (x : Err), rest.length ≤ fuel → s.isDir cur → Under s b cur → seg s b fl jump fuel cur rest = .error x →
    (∃ n, n ≤ N ∧ Fails s b fl cur (elems rest) n x) ∨ (x = .loop ∧ Chases s b fl cur (elems rest) (N + 1)) := by
  intro fuel
  induction fuel with
  | zero => intro cur rest x _ _ _ h; simp only [seg] at h; cases h
  | succ fuel ih =>
    intro cur rest x hl hd hu h
    simp only [seg] at h
    by_cases hr : rest = []
    · subst hr
      simp only [if_true] at h
      cases h
    · rw [if_neg hr] at h
      have hlt := cut_lt hr
      rw [elems_cut hr]
      split at h
      · rename_i hst
        rcases ih cur _ x (by omega) hd hu h with ⟨n, hn, hf⟩ | ⟨e, hc⟩
        · exact .inl ⟨n, hn, .stay hst hf⟩
        · exact .inr ⟨e, .stay hst hc⟩
      · rename_i hst
        split at h
        · rename_i hdd
          rw [hdd]
          split at h
          · rename_i he
            cases h
            rw [he]
            exact .inl ⟨0, Nat.zero_le _, .above⟩
          · rename_i hne
            obtain ⟨dr, hdr⟩ := hd
            obtain ⟨p, k, hk, hup, hpar⟩ := under_parent hg hu hne hdr
            rw [hdr] at h
            simp only [Option.bind_some, hpar] at h
            rcases ih p _ x (by omega) (lookup_isDir hk) hup h with ⟨n, hn, hf⟩ | ⟨e, hc⟩
            · exact .inl ⟨n, hn, .up hne hk hf⟩
            · exact .inr ⟨e, .up hne hk hc⟩
        · rename_i hdd
          have hpl : Plain (cut rest).1 := lookup_plain hst hdd
          cases hk : s.lookup cur (cut rest).1 with
          | none => rw [hk] at h; cases h; exact .inl ⟨0, Nat.zero_le _, .missing hpl hk⟩
          | some c =>
            rw [hk] at h
            simp only at h
            cases hn : s.nodes[c]? with
            | none =>
              obtain ⟨nd, hnd, _⟩ := hg.child _ _ _ hk
              rw [St.look, hn] at hnd; cases hnd
            | some node =>
              rw [hn] at h
              cases node with
              | link nm t =>
                simp only at h
                split at h
                · cases h
                · rename_i hlast
                  have hcond : elems (cut rest).2 ≠ [] ∨ fl = true := by
                    by_cases he : (cut rest).2 = []
                    · right
                      cases fl with
                      | true => rfl
                      | false => exact absurd ⟨he, rfl⟩ hlast
                    · left; intro e; exact he (elems_eq_nil.1 e)
                  rcases hj cur t _ x hd hu h with ⟨habs, e, hN⟩ | ⟨n, hN, habs, hf⟩ | ⟨e, hN | ⟨habs, hc⟩⟩
                  · rw [e]; exact .inl ⟨1, hN, .absolute hpl hk hn habs hcond⟩
                  · exact .inl ⟨n + 1, hN, .link hpl hk hn habs hcond hf⟩
                  · rw [hN]; exact .inr ⟨e, .first hpl hk ⟨nm, t, hn⟩ hcond⟩
                  · exact .inr ⟨e, .link hpl hk hn habs hcond hc⟩
              | dir dr =>
                simp only at h
                split at h
                · cases h
                · rename_i hlast
                  have hne : elems (cut rest).2 ≠ [] := fun e => hlast (elems_eq_nil.1 e)
                  rcases ih c _ x (by omega) ⟨dr, dir?_iff.2 hn⟩ (.inr (hu.step hk)) h with ⟨n, hn', hf⟩ | ⟨e, hc⟩
                  · exact .inl ⟨n, hn', .down hpl hk ⟨dr, dir?_iff.2 hn⟩ hne hf⟩
                  · exact .inr ⟨e, .down hpl hk ⟨dr, dir?_iff.2 hn⟩ hne hc⟩
              | file a m v =>
                simp only at h
                split at h
                · cases h
                · rename_i hlast
                  cases h
                  exact .inl ⟨0, Nat.zero_le _, .through hpl hk ⟨a, m, v, hn⟩ (fun e => hlast (elems_eq_nil.1 e))⟩

theorem walk_refused {s : St} (hg : Good s) {b : Id} {fl : Bool} : ∀ (left : Nat) (cur : Id) (rest : Str) (x : Err), s.isDir cur → Under s b cur → walk s b fl left cur rest = .error x →
    (∃ n, n ≤ left ∧ Fails s b fl cur (elems rest) n x) ∨ (x = .loop ∧ Chases s b fl cur (elems rest) (left + 1)) := by
  intro left
  induction left with
  | zero =>
    intro cur rest x hd hu h
    refine seg_refused hg ?_ _ cur rest x (Nat.le_refl _) hd hu h
    intro cur t rest x _ _ h
    cases h
    exact .inr (.inr ⟨rfl, .inl rfl⟩)
  | succ left ih =>
    intro cur rest x hd hu h
    refine seg_refused hg ?_ _ cur rest x (Nat.le_refl _) hd hu h
    intro cur t rest x hd hu h
    split at h
    · rename_i habs
      cases h
      exact .inl ⟨habs, rfl, by omega⟩
    · rename_i habs
      have habs' : isAbs t = false := by simpa using habs
      rcases ih cur _ x hd hu h with ⟨n, hn, hf⟩ | ⟨e, hc⟩
      · rw [elems_afterLink] at hf
        exact .inr (.inl ⟨n, by omega, habs', hf⟩)
      · rw [elems_afterLink] at hc
        exact .inr (.inr ⟨e, .inr ⟨habs', hc⟩⟩)

theorem elems_ne {rest e : Str} {es : List Str} (he : elems rest = e :: es) : rest ≠ [] ∧ (cut rest).1 = e ∧ elems (cut rest).2 = es := by
  have hr : rest ≠ [] := by rintro rfl; cases he
  rw [elems_cut hr] at he
  exact ⟨hr, (List.cons.inj he).1, (List.cons.inj he).2⟩

theorem walk_fails {s : St} (hg : Good s) {b : Id} {fl : Bool} {cur : Id} {es : List Str} {n : Nat} {x : Err} (h : Fails s b fl cur es n x) :
    ∀ (left : Nat) (rest : Str), n ≤ left → s.isDir cur → Under s b cur → elems rest = es → walk s b fl left cur rest = .error x := by
  induction h with
  | missing hp hk =>
    intro left rest _ _ _ he
    obtain ⟨hr, h1, h2⟩ := elems_ne he
    rw [walk_unfold, if_neg hr, if_neg (by rw [h1]; intro h; exact h.elim hp.1 hp.2.1), if_neg (by rw [h1]; exact hp.2.2), h1, hk]
  | through hp hk hc hne =>
    intro left rest _ _ _ he
    obtain ⟨hr, h1, h2⟩ := elems_ne he
    obtain ⟨a, m, v, hn⟩ := hc
    have h2' : (cut rest).2 ≠ [] := by intro h; rw [h] at h2; exact hne h2.symm
    rw [walk_unfold, if_neg hr, if_neg (by rw [h1]; intro h; exact h.elim hp.1 hp.2.1), if_neg (by rw [h1]; exact hp.2.2), h1, hk]
    simp only [hn]
    rw [if_neg h2']
  | above =>
    intro left rest _ _ _ he
    obtain ⟨hr, h1, h2⟩ := elems_ne he
    rw [walk_unfold, if_neg hr, if_neg (by rw [h1]; decide), if_pos h1, if_pos rfl]
  | @absolute cur e c es nm t hp hk hn habs hcond =>
    intro left rest hl hd hu he
    obtain ⟨hr, h1, h2⟩ := elems_ne he
    rw [walk_unfold, if_neg hr, if_neg (by rw [h1]; intro h; exact h.elim hp.1 hp.2.1), if_neg (by rw [h1]; exact hp.2.2), h1, hk]
    simp only [hn]
    rw [if_neg]
    · cases left with
      | zero => omega
      | succ left => simp only [jumpAt, habs, if_true]
    · intro ⟨ha, hb⟩
      rcases hcond with hc | hc
      · rw [ha] at h2; exact hc h2.symm
      · rw [hc] at hb; cases hb
  | stay hs _ ih =>
    intro left rest hl hd hu he
    obtain ⟨hr, h1, h2⟩ := elems_ne he
    rw [walk_unfold, if_neg hr, if_pos (h1 ▸ hs)]
    exact ih left _ hl hd hu h2
  | up hne hk _ ih =>
    intro left rest hl hd hu he
    obtain ⟨hr, h1, h2⟩ := elems_ne he
    obtain ⟨dr, hdr⟩ := hd
    obtain ⟨p', k', hk', hup, hpar⟩ := under_parent hg hu hne hdr
    obtain ⟨rfl, rfl⟩ := hg.single _ _ _ _ _ hk hk'
    rw [walk_unfold, if_neg hr, if_neg (by rw [h1]; decide), if_pos h1, if_neg hne, hdr]
    simp only [Option.bind_some, hpar]
    exact ih left _ hl (lookup_isDir hk) hup h2
  | down hp hk hc hne _ ih =>
    intro left rest hl hd hu he
    obtain ⟨hr, h1, h2⟩ := elems_ne he
    obtain ⟨dr, hdr⟩ := hc
    have h2' : (cut rest).2 ≠ [] := by intro h; rw [h] at h2; exact hne h2.symm
    rw [walk_unfold, if_neg hr, if_neg (by rw [h1]; intro h; exact h.elim hp.1 hp.2.1), if_neg (by rw [h1]; exact hp.2.2), h1, hk]
    simp only [dir?_iff.1 hdr]
    rw [if_neg h2']
    exact ih left _ hl ⟨dr, hdr⟩ (.inr (hu.step hk)) h2
  | @link cur e c es n x nm t hp hk hn habs hcond _ ih =>
    intro left rest hl hd hu he
    obtain ⟨hr, h1, h2⟩ := elems_ne he
    rw [walk_unfold, if_neg hr, if_neg (by rw [h1]; intro h; exact h.elim hp.1 hp.2.1), if_neg (by rw [h1]; exact hp.2.2), h1, hk]
    simp only [hn]
    rw [if_neg]
    · cases left with
      | zero => omega
      | succ left =>
        simp only [jumpAt, habs, Bool.false_eq_true, if_false]
        exact ih left _ (by omega) hd hu (by rw [elems_afterLink, h2])
    · intro ⟨ha, hb⟩
      rcases hcond with hc | hc
      · rw [ha] at h2; exact hc h2.symm
      · rw [hc] at hb; cases hb

theorem walk_chases {s : St} (hg : Good s) {b : Id} {fl : Bool} {cur : Id} {es : List Str} {n : Nat} (h : Chases s b fl cur es n) :
    ∀ (left : Nat) (rest : Str), left < n → s.isDir cur → Under s b cur → elems rest = es → walk s b fl left cur rest = .error .loop := by
  induction h with
  | @first cur e c es hp hk hc hcond =>
    intro left rest hl hd hu he
    obtain ⟨hr, h1, h2⟩ := elems_ne he
    obtain ⟨nm, t, hn⟩ := hc
    have : left = 0 := by omega
    subst this
    rw [walk_unfold, if_neg hr, if_neg (by rw [h1]; intro h; exact h.elim hp.1 hp.2.1), if_neg (by rw [h1]; exact hp.2.2), h1, hk]
    simp only [hn]
    rw [if_neg]
    · rfl
    · intro ⟨ha, hb⟩
      rcases hcond with hc | hc
      · rw [ha] at h2; exact hc h2.symm
      · rw [hc] at hb; cases hb
  | stay hs _ ih =>
    intro left rest hl hd hu he
    obtain ⟨hr, h1, h2⟩ := elems_ne he
    rw [walk_unfold, if_neg hr, if_pos (h1 ▸ hs)]
    exact ih left _ hl hd hu h2
  | up hne hk _ ih =>
    intro left rest hl hd hu he
    obtain ⟨hr, h1, h2⟩ := elems_ne he
    obtain ⟨dr, hdr⟩ := hd
    obtain ⟨p', k', hk', hup, hpar⟩ := under_parent hg hu hne hdr
    obtain ⟨rfl, rfl⟩ := hg.single _ _ _ _ _ hk hk'
    rw [walk_unfold, if_neg hr, if_neg (by rw [h1]; decide), if_pos h1, if_neg hne, hdr]
    simp only [Option.bind_some, hpar]
    exact ih left _ hl (lookup_isDir hk) hup h2
  | down hp hk hc hne _ ih =>
    intro left rest hl hd hu he
    obtain ⟨hr, h1, h2⟩ := elems_ne he
    obtain ⟨dr, hdr⟩ := hc
    have h2' : (cut rest).2 ≠ [] := by intro h; rw [h] at h2; exact hne h2.symm
    rw [walk_unfold, if_neg hr, if_neg (by rw [h1]; intro h; exact h.elim hp.1 hp.2.1), if_neg (by rw [h1]; exact hp.2.2), h1, hk]
    simp only [dir?_iff.1 hdr]
    rw [if_neg h2']
    exact ih left _ hl ⟨dr, hdr⟩ (.inr (hu.step hk)) h2
  | @link cur e c es n nm t hp hk hn habs hcond _ ih =>
    intro left rest hl hd hu he
    obtain ⟨hr, h1, h2⟩ := elems_ne he
    rw [walk_unfold, if_neg hr, if_neg (by rw [h1]; intro h; exact h.elim hp.1 hp.2.1), if_neg (by rw [h1]; exact hp.2.2), h1, hk]
    simp only [hn]
    rw [if_neg]
    · cases left with
      | zero => rfl
      | succ left =>
        simp only [jumpAt, habs, Bool.false_eq_true, if_false]
        exact ih left _ (by omega) hd hu (by rw [elems_afterLink, h2])
    · intro ⟨ha, hb⟩
      rcases hcond with hc | hc
      · rw [ha] at h2; exact hc h2.symm
      · rw [hc] at hb; cases hb

theorem normalize_error {name : Str} {x : Err} (h : normalize name = .error x) : x = .escapes := by
  unfold normalize at h
  split at h
  · cases h
  · split at h <;> cases h
    rfl

theorem resolve_refused {s : St} (hg : Good s) {b : Id} (hb : s.isDir b) (name : Str) (fl : Bool) (x : Err) :
    resolve s b b name fl = .error x ↔ Refused s b name fl x := by
  unfold resolve Refused
  rcases normalize_spec name with ⟨e, he, hp⟩ | ⟨ns, hp, hok, hdot, hel⟩
  · rw [he, hp]
    have := normalize_error he
    subst this
    simp only [Except.error.injEq]
    constructor
    · intro h; exact .inl ⟨trivial, h.symm⟩
    · rintro (⟨_, h⟩ | ⟨_, h, _⟩)
      · exact h.symm
      · cases h
  · rw [hok, hp]
    simp only
    constructor
    · intro h
      right
      refine ⟨ns, rfl, ?_⟩
      split at h
      · cases h
      · rename_i hd
        have := walk_refused hg _ _ _ _ hb (.inl rfl) h
        rw [hel (fun e => hd (hdot.2 e))] at this
        exact this
    · rintro (⟨h, _⟩ | ⟨ns', e, h⟩)
      · cases h
      · cases e
        have hne : ns ≠ [] := by
          rintro rfl
          rcases h with ⟨n, _, hf⟩ | ⟨_, hc⟩
          · cases hf
          · cases hc
        rw [if_neg (fun e => hne (hdot.1 e))]
        rcases h with ⟨n, hn, hf⟩ | ⟨rfl, hc⟩
        · exact walk_fails hg hf _ _ hn hb (.inl rfl) (hel hne)
        · exact walk_chases hg hc _ _ (Nat.lt_succ_self _) hb (.inl rfl) (hel hne)

/-! ### Property C49 -/

/-- **C49** (refusals). After any history, on any root or sub-root: a name is refused as an escape, as missing, or as passing through a file exactly when
the walk along its elements comes to such a point after at most 40 links, and as a loop exactly when the walk meets a 41st link. A name that is not
local is refused as an escape. -/
theorem C49_refused (hist : List (Nat × Call)) (b : Id) (hb : b ∈ (after hist).roots) (name : Str) (followLast : Bool) (x : Err) :
    resolve (after hist).st b b name followLast = .error x ↔ Refused (after hist).st b name followLast x := by
  have hw := wgood_run hist _ wgood_init
  exact resolve_refused hw.good (hw.roots b hb) name followLast x

/-- A link to itself: 41 links are met. -/
def looping : List (Nat × Call) := [(0, .symlink ['l'] ['l']), (0, .symlink ['n'] ['m']), (0, .create ['f'] 0)]

example : (resolve (after looping).st 0 0 ['l'] true matches .error .loop) = true ∧ (resolve (after looping).st 0 0 ['m', '/', 'x'] true matches .error .notExist) = true ∧
    (resolve (after looping).st 0 0 ['f', '/', 'x'] true matches .error .notDir) = true := by
  decide +kernel

end Verif.Synth.Tree
