import Verif.Synth.Tree
/-
What it means for the synthetic tree to be a tree (C48), and facts about reachability.
-/
namespace Verif.Synth.Tree
open Verif.Path

/-! ### Specification -/

/-- `n` is the file or directory at the path `p` from the root. -/
inductive At (s : St) : List Str → Id → Prop where
  | root : At s [] 0
  | step {p d k c} : At s p d → s.lookup d k = some c → At s (p ++ [k]) c

/-- `c` is somewhere inside `d`. -/
inductive Below (s : St) (d : Id) : Id → Prop where
  | child {k c} : s.lookup d k = some c → Below s d c
  | step {e k c} : Below s d e → s.lookup e k = some c → Below s d c

/-- `c` is `d` or inside `d`. -/
def Under (s : St) (d c : Id) : Prop := c = d ∨ Below s d c

/-- Nothing contains itself. -/
def Acyclic (s : St) : Prop := ∀ n, ¬ Below s n n

/-- The renamed thing does not contain the directory it is moved to. -/
def Call.Tame (s : St) (b : Id) : Call → Prop
  | .rename old new => ∀ op ob t np nb, resolveParent s b b old = .ok (op, ob) → s.lookup op ob = some t → resolveParent s b b new = .ok (np, nb) → ¬ Under s t np
  | _ => True

/-! ### Facts -/

theorem Below.trans {s : St} {a b c : Id} (h : Below s a b) (h' : Below s b c) : Below s a c := by
  induction h' with
  | child hc => exact h.step hc
  | step _ hc ih => exact ih.step hc

theorem Under.step {s : St} {d e c : Id} {k : Str} (h : Under s d e) (hc : s.lookup e k = some c) : Below s d c := by
  rcases h with rfl | h
  · exact .child hc
  · exact h.step hc

theorem Under.trans {s : St} {a b c : Id} (h : Under s a b) (h' : Under s b c) : Under s a c := by
  rcases h with rfl | h
  · exact h'
  · rcases h' with rfl | h'
    · exact .inr h
    · exact .inr (h.trans h')

theorem Below.under_of_shrink {s s' : St} (hsub : ∀ d k c, s'.lookup d k = some c → s.lookup d k = some c) {d c : Id} (h : Below s' d c) : Below s d c := by
  induction h with
  | child hc => exact .child (hsub _ _ _ hc)
  | step _ hc ih => exact ih.step (hsub _ _ _ hc)

/-- A directory is entered through its first child. -/
theorem Below.first {s : St} {d c : Id} (h : Below s d c) : ∃ k e, s.lookup d k = some e ∧ Under s e c := by
  induction h with
  | child hc => exact ⟨_, _, hc, .inl rfl⟩
  | step _ hc ih =>
    obtain ⟨k, e, he, hu⟩ := ih
    exact ⟨k, e, he, .inr (hu.step hc)⟩

/-- One more entry makes at most the connections through it. -/
theorem below_add {s s' : St} {d c : Id} (hsub : ∀ a k x, s'.lookup a k = some x → s.lookup a k = some x ∨ (a = d ∧ x = c)) {x y : Id} (h : Below s' x y) :
    Below s x y ∨ (Under s x d ∧ Under s c y) := by
  induction h with
  | child hc =>
    rcases hsub _ _ _ hc with hc | ⟨rfl, rfl⟩
    · exact .inl (.child hc)
    · exact .inr ⟨.inl rfl, .inl rfl⟩
  | step _ hc ih =>
    rcases hsub _ _ _ hc with hc | ⟨rfl, rfl⟩
    · rcases ih with ih | ih
      · exact .inl (ih.step hc)
      · exact .inr ⟨ih.1, .inr (ih.2.step hc)⟩
    · rcases ih with ih | ih
      · exact .inr ⟨.inr ih, .inl rfl⟩
      · exact .inr ⟨ih.1, .inl rfl⟩

theorem acyclic_add {s s' : St} {d c : Id} (hsub : ∀ a k x, s'.lookup a k = some x → s.lookup a k = some x ∨ (a = d ∧ x = c)) (ha : Acyclic s) (hn : ¬ Under s c d) : Acyclic s' := by
  intro n hb
  rcases below_add hsub hb with h | ⟨h1, h2⟩
  · exact ha n h
  · exact hn (h2.trans h1)

theorem acyclic_shrink {s s' : St} (hsub : ∀ a k x, s'.lookup a k = some x → s.lookup a k = some x) (ha : Acyclic s) : Acyclic s' :=
  fun n hb => ha n (hb.under_of_shrink hsub)

end Verif.Synth.Tree
