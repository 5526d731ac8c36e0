import Verif.Synth.TreeProps
/-
C48, continued: no directory contains itself, RemoveAll ends; and the rename that breaks both.
-/
namespace Verif.Synth.Tree
open Verif.Path

/-- Every rename of the history is tame where it happens. -/
def TameRun (w : World) : List (Nat × Call) → Prop
  | [] => True
  | (r, c) :: rest => (∀ b, w.roots[r]? = some b → c.Tame w.st b) ∧ TameRun (w.step r c) rest

theorem step_st (w : World) (r : Nat) (c : Call) : (w.step r c).st = w.st ∨ ∃ b, w.roots[r]? = some b ∧ (w.step r c).st = (callOn w.st b c).1 := by
  unfold World.step
  split
  · exact .inl rfl
  · rename_i b hb
    right
    refine ⟨b, hb, ?_⟩
    split
    · split <;> rfl
    · rfl

theorem acyclic_run : ∀ (hist : List (Nat × Call)) (w : World), WGood w → TameRun w hist → Acyclic w.st → Acyclic (w.run hist).st := by
  intro hist
  induction hist with
  | nil => intro w _ _ h; exact h
  | cons x rest ih =>
    intro w hw ht h
    obtain ⟨r, c⟩ := x
    refine ih _ (wgood_step hw r c) ht.2 ?_
    rcases step_st w r c with e | ⟨b, hb, e⟩
    · rw [e]; exact h
    · rw [e]; exact acyclic_call c (hw.roots b (List.mem_of_getElem? hb)) (ht.1 b hb) h

theorem acyclic_init : Acyclic World.init.st := by
  intro n hb
  obtain ⟨k, e, he, _⟩ := hb.first
  obtain ⟨r, hr⟩ := lookup_isDir he
  rw [lookup_of_dir hr] at he
  rw [dir?_iff] at hr
  match n with
  | 0 => simp [World.init] at hr; subst hr; cases he
  | n + 1 => simp [World.init] at hr

/-- **C48** (partial: histories in which no directory is renamed into itself). Then no directory contains itself, whether it can
still be reached from the root or only through a root opened on it. -/
theorem C48_acyclic_partial (hist : List (Nat × Call)) (ht : TameRun World.init hist) (d : Id) : ¬ Below (after hist).st d d :=
  acyclic_run hist World.init wgood_init ht acyclic_init d

/-! ### RemoveAll ends -/

theorem nodup_length_le : ∀ (n : Nat) (l : List Nat), l.Nodup → (∀ a ∈ l, a < n) → l.length ≤ n := by
  intro n
  induction n with
  | zero => intro l _ h; cases l with
    | nil => simp
    | cons a l => exact absurd (h a List.mem_cons_self) (Nat.not_lt_zero _)
  | succ n ih =>
    intro l hn h
    have := ih (l.erase n) (hn.erase n) (by
      intro a ha
      rw [hn.mem_erase_iff] at ha
      have := h a ha.2
      omega)
    rw [List.length_erase] at this
    split at this <;> omega

theorem eachChild_some {rec : Id → St → Option St} {s0 : St} (hshr : ∀ c s s', rec c s = some s' → Shr s s') :
    ∀ (cs : List Id), (∀ c ∈ cs, ∀ s, Shr s0 s → rec c s ≠ none) → ∀ s, Shr s0 s → eachChild rec cs s ≠ none := by
  intro cs
  induction cs with
  | nil => intro _ s _ h; cases h
  | cons c cs ih =>
    intro hrec s hs h
    simp only [eachChild] at h
    cases hc : rec c s with
    | none => exact hrec c List.mem_cons_self s hs hc
    | some s1 =>
      rw [hc] at h
      exact ih (fun c' hc' => hrec c' (List.mem_cons_of_mem _ hc')) s1 (hs.trans (hshr c s s1 hc)) h

theorem removeSubtree_some {s0 : St} (hg : Good s0) : ∀ (fuel : Nat) (n : Id) (s : St) (l : List Id), Shr s0 s → l.Nodup →
    (∀ a ∈ l, a < s0.nodes.length ∧ Below s0 a n) → (∀ m, Under s0 n m → ¬ Below s0 m m) → s0.nodes.length < l.length + fuel → removeSubtree fuel n s ≠ none := by
  intro fuel
  induction fuel with
  | zero =>
    intro n s l _ hn hl _ hf
    have := nodup_length_le s0.nodes.length l hn (fun a ha => (hl a ha).1)
    omega
  | succ fuel ih =>
    intro n s l hs hn hl hac hf h
    simp only [removeSubtree] at h
    split at h
    · rename_i r hr
      have hdir : s0.isDir n := (isDir_congr hs.look n).1 ⟨r, dir?_iff.2 hr⟩
      have hlt : n < s0.nodes.length := by obtain ⟨r', hr'⟩ := hdir; exact lt_of_dir hr'
      have hmem : n ∉ l := fun hm => hac n (.inl rfl) (hl n hm).2
      cases he : eachChild (removeSubtree fuel) (s.entries n) s with
      | some s1 => rw [he] at h; cases h
      | none =>
        refine eachChild_some (shr_removeSubtree fuel) (s.entries n) ?_ s hs he
        intro c hc s2 hs2
        obtain ⟨k, hk⟩ := (mem_entries (hs.good hg)).1 hc
        have hk0 := hs.sub n k c hk
        refine ih c s2 (n :: l) hs2 (List.nodup_cons.2 ⟨hmem, hn⟩) ?_ ?_ (by simp only [List.length_cons]; omega)
        · intro a ha
          rcases List.mem_cons.1 ha with rfl | ha
          · exact ⟨hlt, .child hk0⟩
          · exact ⟨(hl a ha).1, (hl a ha).2.step hk0⟩
        · intro m hm
          exact hac m ((Under.trans (.inr (.child hk0)) hm))
    · cases h
    · cases h

theorem normalize_not_stuck {name : Str} {e : Err} (h : normalize name = .error e) : e ≠ .stuck := by
  unfold normalize at h
  split at h
  · cases h
  · split at h
    · cases h; simp
    · cases h

theorem seg_not_stuck {s : St} {b : Id} {fl : Bool} {jump : Id → Str → Str → Except Err Res} (hj : ∀ c t r, jump c t r ≠ .error .stuck) :
    ∀ (fuel : Nat) (cur : Id) (rest : Str), seg s b fl jump fuel cur rest ≠ .error .stuck := by
  intro fuel
  induction fuel with
  | zero => intro cur rest; simp [seg]
  | succ fuel ih =>
    intro cur rest
    simp only [seg]
    split
    · simp
    · split
      · exact ih _ _
      · split
        · split
          · simp
          · split
            · simp
            · exact ih _ _
        · split
          · simp
          · split
            · split
              · simp
              · exact hj _ _ _
            · split
              · simp
              · exact ih _ _
            · split <;> simp
            · simp

theorem walk_not_stuck {s : St} {b : Id} {fl : Bool} : ∀ (left : Nat) (cur : Id) (rest : Str), walk s b fl left cur rest ≠ .error .stuck := by
  intro left
  induction left with
  | zero => intro cur rest; exact seg_not_stuck (by simp) _ _ _
  | succ left ih =>
    intro cur rest
    refine seg_not_stuck ?_ _ _ _
    intro c t r
    split
    · simp
    · exact ih _ _

theorem resolve_not_stuck {s : St} {b st : Id} {name : Str} {fl : Bool} {e : Err} (h : resolve s b st name fl = .error e) : e ≠ .stuck := by
  unfold resolve at h
  split at h
  · rename_i e' he; cases h; exact normalize_not_stuck he
  · split at h
    · cases h
    · intro he; subst he; exact walk_not_stuck _ _ _ h

theorem resolveParent_not_stuck {s : St} {b st : Id} {name : Str} {e : Err} (h : resolveParent s b st name = .error e) : e ≠ .stuck := by
  unfold resolveParent at h
  split at h
  · rename_i e' he; cases h; exact normalize_not_stuck he
  · split at h
    · cases h; simp
    · split at h
      · rename_i e' he; cases h; exact resolve_not_stuck he
      · split at h
        · cases h; simp
        · cases h

/-- **C48** (RemoveAll). In a tree where nothing contains itself, RemoveAll ends: its recursion is never deeper than the number of
nodes. -/
theorem C48_removeAll_ends_partial (hist : List (Nat × Call)) (ht : TameRun World.init hist) (b : Id) (name : Str) :
    (removeAll ((after hist).st.nodes.length + 1) (after hist).st b name).2 ≠ some .stuck := by
  have hg : Good (after hist).st := (wgood_run hist _ wgood_init).good
  have hac := C48_acyclic_partial hist ht
  unfold removeAll
  split
  · simp
  · split
    · rename_i e he
      intro h; cases h
      exact normalize_not_stuck he rfl
    · split
      · simp
      · split
        · rename_i e he
          intro h; cases h
          exact resolveParent_not_stuck he rfl
        · split
          · simp
          · rename_i t _
            split
            · rename_i hnone
              exact absurd hnone (removeSubtree_some hg _ t _ [] (Shr.refl _) List.nodup_nil (by simp) (fun m _ => hac m) (by simp))
            · simp

/-! ### The rename that breaks the tree -/

/-- mkdir a, mkdir a/b, open a root on a, rename a to a/b/c -/
def swallow : List (Nat × Call) := [(0, .mkdir ['a'] 0), (0, .mkdir ['a', '/', 'b'] 0), (0, .openRoot ['a']), (0, .rename ['a'] ['a', '/', 'b', '/', 'c'])]

/-- The tree after it. -/
def swallowed : St := ⟨[.dir ⟨[], none, [], [], 0o755⟩, .dir ⟨['c'], some 2, [(1, 2)], [(['b'], (1, 2))], 0⟩, .dir ⟨['b'], some 1, [(2, 1)], [(['c'], (2, 1))], 0⟩], 3, 0, []⟩

theorem swallow_st : (after swallow).st = swallowed := by decide +kernel

theorem swallowed_stuck : ∀ fuel, removeSubtree fuel 1 swallowed = none ∧ removeSubtree fuel 2 swallowed = none := by
  intro fuel
  induction fuel with
  | zero => exact ⟨rfl, rfl⟩
  | succ fuel ih =>
    constructor
    · show (eachChild (removeSubtree fuel) [2] swallowed).map (·.clear 1) = none
      simp [eachChild, ih.2]
    · show (eachChild (removeSubtree fuel) [1] swallowed).map (·.clear 2) = none
      simp [eachChild, ih.1]

/-- **C48** fails in general: renaming a directory into itself is accepted. The directory and all it contains then cannot be
reached from the root; seen from a root opened on it before, it contains itself, and RemoveAll there recurses without end. -/
theorem C48_counterexample_rename_into_itself :
    (rename (after (swallow.take 3)).st 0 ['a'] ['a', '/', 'b', '/', 'c']).2 = none ∧
    (∀ p n, At (after swallow).st p n → n = 0) ∧
    (after swallow).roots = [0, 1] ∧ Below (after swallow).st 1 1 ∧
    (∀ fuel, (removeAll fuel (after swallow).st 1 ['b']).2 = some .stuck) := by
  refine ⟨by decide +kernel, ?_, by decide +kernel, ?_, ?_⟩
  · intro p n h
    rw [swallow_st] at h
    induction h with
    | root => rfl
    | step _ hc ih => subst ih; cases hc
  · rw [swallow_st]
    exact .step (e := 2) (k := ['c']) (.child (k := ['b']) (by rfl)) (by rfl)
  · intro fuel
    rw [swallow_st]
    have h1 : resolveParent swallowed 1 1 ['b'] = .ok (1, ['b']) := by rfl
    have h2 : swallowed.lookup 1 ['b'] = some 2 := by rfl
    have h3 : normalize ['b'] = .ok ['b'] := by rfl
    unfold removeAll
    rw [if_neg (by decide +kernel), h3]
    simp only
    rw [if_neg (by decide +kernel), h1]
    simp only [h2, (swallowed_stuck fuel).2]

/-- The partial theorems apply: a history with a rename of a directory to another directory, and what it leads to. -/
def moved : List (Nat × Call) := [(0, .mkdir ['a'] 0), (0, .mkdir ['b'] 0), (0, .create ['a', '/', 'f'] 0), (0, .rename ['a'] ['b', '/', 'c'])]

example : At (after moved).st [['b'], ['c'], ['f']] 3 := by
  have : (after moved).st = ⟨[.dir ⟨[], none, [(1, 2)], [(['b'], (1, 2))], 0o755⟩, .dir ⟨['c'], some 2, [(2, 3)], [(['f'], (2, 3))], 0⟩,
      .dir ⟨['b'], some 0, [(3, 1)], [(['c'], (3, 1))], 0⟩, .file ['f'] 0 0], 4, 1, []⟩ := by decide +kernel
  rw [this]
  exact .step (p := [['b'], ['c']]) (d := 1) (.step (p := [['b']]) (d := 2) (.step .root (by rfl)) (by rfl)) (by rfl)

example : TameRun World.init moved := by
  refine ⟨fun _ _ => trivial, fun _ _ => trivial, fun _ _ => trivial, ?_, trivial⟩
  intro b hb op ob t np nb h1 h2 h3
  cases hb
  have e1 : resolveParent (World.init.run (moved.take 3)).st 0 0 ['a'] = .ok (0, ['a']) := by rfl
  have e2 : resolveParent (World.init.run (moved.take 3)).st 0 0 ['b', '/', 'c'] = .ok (2, ['c']) := by rfl
  have h1' := e1.symm.trans h1
  cases h1'
  have h3' := e2.symm.trans h3
  cases h3'
  have e3 : (World.init.run (moved.take 3)).st.lookup 0 ['a'] = some 1 := by rfl
  have h2' := e3.symm.trans h2
  cases h2'
  intro hu
  rcases hu with hu | hu
  · cases hu
  · obtain ⟨k, e, he, hu⟩ := hu.first
    have hs : (((World.init.step 0 (Call.mkdir ['a'] 0)).step 0 (Call.mkdir ['b'] 0)).step 0 (Call.create ['a', '/', 'f'] 0)).st =
      ⟨[.dir ⟨[], none, [(0, 1), (1, 2)], [(['b'], (1, 2)), (['a'], (0, 1))], 0o755⟩, .dir ⟨['a'], some 0, [(2, 3)], [(['f'], (2, 3))], 0⟩, .dir ⟨['b'], some 0, [], [], 0⟩, .file ['f'] 0 0], 3, 1, []⟩ := by
      decide +kernel
    rw [hs] at he hu
    have he' : (assoc k [(['f'], ((2 : Nat), (3 : Id)))]).map (·.2) = some e := he
    simp only [assoc] at he'
    split at he'
    · cases he'
      rcases hu with hu | hu
      · cases hu
      · obtain ⟨k, e, he, hu⟩ := hu.first
        cases he
    · cases he'

end Verif.Synth.Tree
