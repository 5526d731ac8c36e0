import Verif.Common.Str
/-
Naming the operation and the path in an error (C110). Models fsutil/wrap_path_err.go.

Errors of type `*fs.PathError` and `*os.LinkError` are pointers, and both functions write through them. So the model has a memory of errors: an error value is the number of a cell.
-/
namespace Verif.Fsutil.WrapErr
open Verif

/-- What an error value points to. -/
inductive Cell where
  /-- An error of another kind that wraps nothing, with its text. -/
  | plain (text : Str)
  /-- An error of another kind that wraps one (`fmt.Errorf` with `%w`): text before the text of the cause. -/
  | wrap (pre : Str) (cause : Nat)
  /-- std `fs.PathError`. -/
  | path (op name : Str) (cause : Nat)
  /-- std `os.LinkError`. -/
  | link (op old new : Str) (cause : Nat)
  deriving DecidableEq, Repr

abbrev Mem := List Cell

def Cell.cause? : Cell → Option Nat
  | .plain _ => none
  | .wrap _ c => some c
  | .path _ _ c => some c
  | .link _ _ _ c => some c

/-- `x` if it is not empty, else `y`. -/
def over (x y : Str) : Str := if x ≠ [] then x else y

/-- wrap_path_err.go 14-29 `WrapPathErr`. -/
def wrapPathErr (op name : Str) (m : Mem) (e : Option Nat) : Mem × Option Nat :=
  match e with
  | none => (m, none)
  | some r => match m[r]? with
    | some (.path o p c) => (m.set r (.path (over op o) (over name p) c), some r)
    | _ => (m ++ [.path op name r], some m.length)

/-- wrap_path_err.go 37-55 `WrapLinkErr`. -/
def wrapLinkErr (op old new : Str) (m : Mem) (e : Option Nat) : Mem × Option Nat :=
  match e with
  | none => (m, none)
  | some r => match m[r]? with
    | some (.link o a b c) => (m.set r (.link (over op o) (over old a) (over new b) c), some r)
    | _ => (m ++ [.link op old new r], some m.length)

/-! ## What callers see -/

/-- Causes were there before what they caused. -/
def Good (m : Mem) : Prop := ∀ (i : Nat) (c : Cell) (k : Nat), m[i]? = some c → c.cause? = some k → k < i

/-- Reached by unwrapping: what errors.Is and errors.As look at. -/
inductive Reaches (m : Mem) : Nat → Nat → Prop
  | here (i) : Reaches m i i
  | step {i c k j} (hi : m[i]? = some c) (hk : c.cause? = some k) (h : Reaches m k j) : Reaches m i j

/-- `Error()` of an error, with fuel (its number plus one is enough, as causes have lower numbers). -/
def text (m : Mem) : Nat → Nat → Str
  | 0, _ => []
  | f + 1, r => match m[r]? with
    | none => []
    | some (.plain t) => t
    | some (.wrap p c) => p ++ text m f c
    | some (.path o n c) => o ++ " ".toList ++ n ++ ": ".toList ++ text m f c
    | some (.link o a b c) => o ++ " ".toList ++ a ++ " ".toList ++ b ++ ": ".toList ++ text m f c

/-! ## Lemmas -/

theorem over_nil (y : Str) : over [] y = y := rfl

theorem over_ne {x : Str} (h : x ≠ []) (y : Str) : over x y = x := if_pos h

/-- Changing names and keeping causes changes nothing of what is reached. -/
theorem reaches_set {m : Mem} {r : Nat} {a b : Cell} (hr : m[r]? = some a) (hc : a.cause? = b.cause?) (i j : Nat) : Reaches (m.set r b) i j ↔ Reaches m i j := by
  have hl := (List.getElem?_eq_some_iff.mp hr).1
  constructor
  · intro h
    induction h with
    | here i => exact .here i
    | @step i c k j hi hk _ ih =>
      by_cases hir : r = i
      · subst hir
        rw [List.getElem?_set_self hl] at hi
        cases hi
        exact .step hr (by rw [hc]; exact hk) ih
      · rw [List.getElem?_set_ne hir] at hi
        exact .step hi hk ih
  · intro h
    induction h with
    | here i => exact .here i
    | @step i c k j hi hk _ ih =>
      by_cases hir : r = i
      · subst hir
        rw [hr] at hi
        cases hi
        exact .step (List.getElem?_set_self hl) (by rw [← hc]; exact hk) ih
      · exact .step (by rw [List.getElem?_set_ne hir]; exact hi) hk ih

theorem reaches_append {m : Mem} {x : Cell} (hg : Good m) {i : Nat} (hi : i < m.length) (j : Nat) : Reaches (m ++ [x]) i j ↔ Reaches m i j := by
  constructor
  · intro h
    induction h with
    | here i => exact .here i
    | @step i c k j h1 hk _ ih =>
      rw [List.getElem?_append_left hi] at h1
      exact .step h1 hk (ih (Nat.lt_trans (hg i c k h1 hk) hi))
  · intro h
    induction h with
    | here i => exact .here i
    | @step i c k j h1 hk _ ih => exact .step (by rw [List.getElem?_append_left hi]; exact h1) hk (ih (Nat.lt_trans (hg i c k h1 hk) hi))

theorem text_append {m : Mem} {x : Cell} (hg : Good m) : ∀ (f i : Nat), i < m.length → text (m ++ [x]) f i = text m f i := by
  intro f
  induction f with
  | zero => exact fun _ _ => rfl
  | succ f ih =>
    intro i hi
    unfold text
    rw [List.getElem?_append_left hi]
    cases hc : m[i]? with
    | none => rfl
    | some c =>
      cases c with
      | plain t => rfl
      | wrap p k => simp only [ih k (Nat.lt_trans (hg i _ k hc rfl) hi)]
      | path o n k => simp only [ih k (Nat.lt_trans (hg i _ k hc rfl) hi)]
      | link o a b k => simp only [ih k (Nat.lt_trans (hg i _ k hc rfl) hi)]

theorem text_set {m : Mem} {r : Nat} {b : Cell} : ∀ (f i : Nat), ¬ Reaches m i r → text (m.set r b) f i = text m f i := by
  intro f
  induction f with
  | zero => exact fun _ _ => rfl
  | succ f ih =>
    intro i hi
    have hir : r ≠ i := by
      rintro rfl
      exact hi (.here _)
    unfold text
    rw [List.getElem?_set_ne hir]
    cases hc : m[i]? with
    | none => rfl
    | some c =>
      cases c with
      | plain t => rfl
      | wrap p k => simp only [ih k (fun h => hi (.step hc rfl h))]
      | path o n k => simp only [ih k (fun h => hi (.step hc rfl h))]
      | link o a b k => simp only [ih k (fun h => hi (.step hc rfl h))]

theorem good_set {m : Mem} (hg : Good m) {r : Nat} {a b : Cell} (hr : m[r]? = some a) (hc : a.cause? = b.cause?) : Good (m.set r b) := by
  intro i c k hi hk
  by_cases hir : r = i
  · subst hir
    rw [List.getElem?_set_self (List.getElem?_eq_some_iff.mp hr).1] at hi
    cases hi
    exact hg r a k hr (by rw [hc]; exact hk)
  · rw [List.getElem?_set_ne hir] at hi
    exact hg i c k hi hk

theorem good_append {m : Mem} (hg : Good m) {x : Cell} {r : Nat} (hr : r < m.length) (hx : x.cause? = some r) : Good (m ++ [x]) := by
  intro i c k hi hk
  by_cases h : i < m.length
  · rw [List.getElem?_append_left h] at hi
    exact hg i c k hi hk
  · rw [List.getElem?_append_right (by omega)] at hi
    cases hj : i - m.length with
    | zero =>
      rw [hj] at hi
      cases hi
      rw [hx] at hk
      cases hk
      omega
    | succ n =>
      rw [hj] at hi
      cases hi

/-- The two ways `WrapPathErr` goes. -/
theorem wrapPath_cases (op name : Str) (m : Mem) (r : Nat) (hr : r < m.length) :
    (∃ o p c, m[r]? = some (.path o p c) ∧ wrapPathErr op name m (some r) = (m.set r (.path (over op o) (over name p) c), some r)) ∨
    ((∀ o p c, m[r]? ≠ some (.path o p c)) ∧ wrapPathErr op name m (some r) = (m ++ [.path op name r], some m.length)) := by
  have hx : m[r]? = some m[r] := List.getElem?_eq_getElem hr
  generalize m[r] = x at hx
  cases x with
  | path o p c => exact Or.inl ⟨o, p, c, hx, by simp only [wrapPathErr, hx]⟩
  | plain t => exact Or.inr ⟨(fun _ _ _ h => by rw [hx] at h; cases h), by simp only [wrapPathErr, hx]⟩
  | wrap t k => exact Or.inr ⟨(fun _ _ _ h => by rw [hx] at h; cases h), by simp only [wrapPathErr, hx]⟩
  | link a b c d => exact Or.inr ⟨(fun _ _ _ h => by rw [hx] at h; cases h), by simp only [wrapPathErr, hx]⟩

theorem wrapLink_cases (op old new : Str) (m : Mem) (r : Nat) (hr : r < m.length) :
    (∃ o a b c, m[r]? = some (.link o a b c) ∧ wrapLinkErr op old new m (some r) = (m.set r (.link (over op o) (over old a) (over new b) c), some r)) ∨
    ((∀ o a b c, m[r]? ≠ some (.link o a b c)) ∧ wrapLinkErr op old new m (some r) = (m ++ [.link op old new r], some m.length)) := by
  have hx : m[r]? = some m[r] := List.getElem?_eq_getElem hr
  generalize m[r] = x at hx
  cases x with
  | link o a b c => exact Or.inl ⟨o, a, b, c, hx, by simp only [wrapLinkErr, hx]⟩
  | plain t => exact Or.inr ⟨(fun _ _ _ _ h => by rw [hx] at h; cases h), by simp only [wrapLinkErr, hx]⟩
  | wrap t k => exact Or.inr ⟨(fun _ _ _ _ h => by rw [hx] at h; cases h), by simp only [wrapLinkErr, hx]⟩
  | path a b c => exact Or.inr ⟨(fun _ _ _ _ h => by rw [hx] at h; cases h), by simp only [wrapLinkErr, hx]⟩

/-! ## C110 -/

/-- **C110** (nil). No error gives no error. -/
theorem C110_nil (op name old new : Str) (m : Mem) : wrapPathErr op name m none = (m, none) ∧ wrapLinkErr op old new m none = (m, none) := ⟨rfl, rfl⟩

/-- **C110** (the names). The error returned is a PathError with the operation and path given. -/
theorem C110_names (op name : Str) (m : Mem) (r : Nat) (hr : r < m.length) (ho : op ≠ []) (hn : name ≠ []) :
    ∃ e c, (wrapPathErr op name m (some r)).2 = some e ∧ (wrapPathErr op name m (some r)).1[e]? = some (.path op name c) := by
  rcases wrapPath_cases op name m r hr with ⟨o, p, c, _, h⟩ | ⟨_, h⟩
  · refine ⟨r, c, by rw [h], ?_⟩
    rw [h]
    show (m.set r _)[r]? = _
    rw [List.getElem?_set_self hr, over_ne ho, over_ne hn]
  · refine ⟨m.length, r, by rw [h], ?_⟩
    rw [h]
    show (m ++ [_])[m.length]? = _
    rw [List.getElem?_append_right (Nat.le_refl _), Nat.sub_self]
    rfl

/-- **C110** (the names). The same for LinkErrors. -/
theorem C110_link_names (op old new : Str) (m : Mem) (r : Nat) (hr : r < m.length) (ho : op ≠ []) (ha : old ≠ []) (hb : new ≠ []) :
    ∃ e c, (wrapLinkErr op old new m (some r)).2 = some e ∧ (wrapLinkErr op old new m (some r)).1[e]? = some (.link op old new c) := by
  rcases wrapLink_cases op old new m r hr with ⟨o, a, b, c, _, h⟩ | ⟨_, h⟩
  · refine ⟨r, c, by rw [h], ?_⟩
    rw [h]
    show (m.set r _)[r]? = _
    rw [List.getElem?_set_self hr, over_ne ho, over_ne ha, over_ne hb]
  · refine ⟨m.length, r, by rw [h], ?_⟩
    rw [h]
    show (m ++ [_])[m.length]? = _
    rw [List.getElem?_append_right (Nat.le_refl _), Nat.sub_self]
    rfl

/-- **C110** (causes). What errors.Is and errors.As find in the error, they find in the error returned, and nothing else but itself; what they find in any other error stays. -/
theorem C110_causes (op name : Str) (m : Mem) (hg : Good m) (r : Nat) (hr : r < m.length) :
    ∃ e, (wrapPathErr op name m (some r)).2 = some e ∧ Good (wrapPathErr op name m (some r)).1 ∧
      (∀ j, Reaches (wrapPathErr op name m (some r)).1 e j ↔ j = e ∨ Reaches m r j) ∧
      (∀ i j, i < m.length → (Reaches (wrapPathErr op name m (some r)).1 i j ↔ Reaches m i j)) := by
  rcases wrapPath_cases op name m r hr with ⟨o, p, c, hc, h⟩ | ⟨_, h⟩
  · rw [h]
    refine ⟨r, rfl, good_set hg hc rfl, fun j => ?_, fun i j _ => reaches_set (b := .path (over op o) (over name p) c) hc rfl i j⟩
    show Reaches (m.set r _) r j ↔ _
    rw [reaches_set (b := .path (over op o) (over name p) c) hc rfl]
    exact ⟨Or.inr, fun h => h.elim (fun h => h ▸ .here _) id⟩
  · rw [h]
    have hnew : (m ++ [Cell.path op name r])[m.length]? = some (.path op name r) := by
      rw [List.getElem?_append_right (Nat.le_refl _), Nat.sub_self]
      rfl
    refine ⟨m.length, rfl, good_append hg hr rfl, fun j => ⟨fun hj => ?_, fun hj => ?_⟩, fun i j hi => reaches_append hg hi j⟩
    · have hj : Reaches (m ++ [Cell.path op name r]) m.length j := hj
      cases hj with
      | here => exact Or.inl rfl
      | step hi hk h' =>
        rw [hnew] at hi
        cases hi
        cases hk
        exact Or.inr ((reaches_append hg hr j).mp h')
    · rcases hj with rfl | hj
      · exact .here _
      · exact .step hnew rfl ((reaches_append hg hr j).mpr hj)

/-- **C110** (causes). The same for LinkErrors. -/
theorem C110_link_causes (op old new : Str) (m : Mem) (hg : Good m) (r : Nat) (hr : r < m.length) :
    ∃ e, (wrapLinkErr op old new m (some r)).2 = some e ∧ Good (wrapLinkErr op old new m (some r)).1 ∧
      (∀ j, Reaches (wrapLinkErr op old new m (some r)).1 e j ↔ j = e ∨ Reaches m r j) ∧
      (∀ i j, i < m.length → (Reaches (wrapLinkErr op old new m (some r)).1 i j ↔ Reaches m i j)) := by
  rcases wrapLink_cases op old new m r hr with ⟨o, a, b, c, hc, h⟩ | ⟨_, h⟩
  · rw [h]
    refine ⟨r, rfl, good_set hg hc rfl, fun j => ?_, fun i j _ => reaches_set (b := .link (over op o) (over old a) (over new b) c) hc rfl i j⟩
    show Reaches (m.set r _) r j ↔ _
    rw [reaches_set (b := .link (over op o) (over old a) (over new b) c) hc rfl]
    exact ⟨Or.inr, fun h => h.elim (fun h => h ▸ .here _) id⟩
  · rw [h]
    have hnew : (m ++ [Cell.link op old new r])[m.length]? = some (.link op old new r) := by
      rw [List.getElem?_append_right (Nat.le_refl _), Nat.sub_self]
      rfl
    refine ⟨m.length, rfl, good_append hg hr rfl, fun j => ⟨fun hj => ?_, fun hj => ?_⟩, fun i j hi => reaches_append hg hi j⟩
    · have hj : Reaches (m ++ [Cell.link op old new r]) m.length j := hj
      cases hj with
      | here => exact Or.inl rfl
      | step hi hk h' =>
        rw [hnew] at hi
        cases hi
        cases hk
        exact Or.inr ((reaches_append hg hr j).mp h')
    · rcases hj with rfl | hj
      · exact .here _
      · exact .step hnew rfl ((reaches_append hg hr j).mpr hj)

/-- **C110** (once). Naming an error a second time replaces the names and adds no layer: no new error is made, and the cause is that of the first time. -/
theorem C110_once (op name op' name' : Str) (m : Mem) (r e : Nat) (hr : r < m.length) (he : (wrapPathErr op name m (some r)).2 = some e) :
    ∃ o n c, (wrapPathErr op name m (some r)).1[e]? = some (.path o n c) ∧
      wrapPathErr op' name' (wrapPathErr op name m (some r)).1 (some e) = ((wrapPathErr op name m (some r)).1.set e (.path (over op' o) (over name' n) c), some e) := by
  have key : ∃ o n c, (wrapPathErr op name m (some r)).1[e]? = some (.path o n c) := by
    rcases wrapPath_cases op name m r hr with ⟨o, p, c, _, h⟩ | ⟨_, h⟩
    · rw [h] at he ⊢
      cases he
      exact ⟨_, _, _, List.getElem?_set_self hr⟩
    · rw [h] at he ⊢
      cases he
      refine ⟨op, name, r, ?_⟩
      show (m ++ [_])[m.length]? = _
      rw [List.getElem?_append_right (Nat.le_refl _), Nat.sub_self]
      rfl
  obtain ⟨o, n, c, hk⟩ := key
  generalize (wrapPathErr op name m (some r)).1 = m' at hk ⊢
  exact ⟨o, n, c, hk, by simp only [wrapPathErr, hk]⟩

/-- **C110** (other errors). The text of every error made before stays, unless it is, or wraps, the very error given and that is a PathError. -/
theorem C110_others_partial (op name : Str) (m : Mem) (hg : Good m) (r i : Nat) (hr : r < m.length) (hi : i < m.length) (h : (∀ o p c, m[r]? ≠ some (.path o p c)) ∨ ¬ Reaches m i r) (f : Nat) :
    text (wrapPathErr op name m (some r)).1 f i = text m f i := by
  rcases wrapPath_cases op name m r hr with ⟨o, p, c, hc, he⟩ | ⟨_, he⟩
  · rw [he]
    rcases h with h | h
    · exact absurd hc (h o p c)
    · exact text_set f i h
  · rw [he]
    exact text_append hg f i hi

/-- **C110** (other errors), for LinkErrors. -/
theorem C110_link_others_partial (op old new : Str) (m : Mem) (hg : Good m) (r i : Nat) (hr : r < m.length) (hi : i < m.length) (h : (∀ o a b c, m[r]? ≠ some (.link o a b c)) ∨ ¬ Reaches m i r) (f : Nat) :
    text (wrapLinkErr op old new m (some r)).1 f i = text m f i := by
  rcases wrapLink_cases op old new m r hr with ⟨o, a, b, c, hc, he⟩ | ⟨_, he⟩
  · rw [he]
    rcases h with h | h
    · exact absurd hc (h o a b c)
    · exact text_set f i h
  · rw [he]
    exact text_append hg f i hi

/-- "open a: not there", and an error wrapping it. -/
def mem : Mem := [.plain "not there".toList, .path "open".toList "a".toList 0, .wrap "x: ".toList 1]

theorem mem_good : Good mem := by
  intro i c k hi hk
  match i, hi with
  | 0, hi => cases hi; cases hk
  | 1, hi => cases hi; cases hk; decide
  | 2, hi => cases hi; cases hk; decide
  | n + 3, hi => cases hi

/-- **C110** does not hold: an error that was handed out before changes. Whoever kept "open a: not there", or wrapped it, now holds "stat b: not there". -/
theorem C110_counterexample_shared :
    text mem 2 1 = "open a: not there".toList ∧ text (wrapPathErr "stat".toList "b".toList mem (some 1)).1 2 1 = "stat b: not there".toList ∧
    text (wrapPathErr "stat".toList "b".toList mem (some 1)).1 3 2 = "x: stat b: not there".toList := by decide

/-- The hypotheses are met: wrapping the cause, or the wrapper, leaves "open a: not there" alone; wrapping the wrapper gives two layers. -/
example : text (wrapPathErr "stat".toList "b".toList mem (some 2)).1 2 1 = text mem 2 1 :=
  C110_others_partial _ _ mem mem_good 2 1 (by decide) (by decide) (Or.inl (by
    intro o p c h
    cases h)) 2
example : text (wrapPathErr "stat".toList "b".toList mem (some 2)).1 4 3 = "stat b: x: open a: not there".toList := by decide
example : Reaches (wrapPathErr "stat".toList "b".toList mem (some 2)).1 3 0 := by
  obtain ⟨e, he, _, h, _⟩ := C110_causes "stat".toList "b".toList mem mem_good 2 (by decide)
  cases he
  exact (h 0).mpr (Or.inr (.step (m := mem) rfl rfl (.step (m := mem) rfl rfl (.here _))))

end Verif.Fsutil.WrapErr
