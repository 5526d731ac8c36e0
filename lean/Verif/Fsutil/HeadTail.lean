import Verif.Common.Path
import Verif.Common.StrLemmas
/-
Model of /repo/fsutil/pathutil/head_tail.go and /repo/vroot/internal/paths/head_tail.go, and property C31.
Simplifications: Unix (no volume names); the consumer takes every element (one that stops early sees a prefix).
-/
namespace Verif.Fsutil
open Verif.Path

/-- Everything before the last slash (`s[:strings.LastIndex(s, "/")]`), `none` if there is none. -/
def beforeLast : Str → Option Str
  | [] => none
  | c :: rest =>
    match beforeLast rest with
    | some r => some (c :: r)
    | none => if c = slash then some [] else none

/-- pathutil/head_tail.go 17-35: the loop of `PathFromHead`; `cut` is the length of the variable of that name. -/
def headLoop (name : Str) : (fuel : Nat) → (cut : Nat) → (rest : Str) → List Str
  | 0, _, _ => []
  | fuel + 1, cut, rest =>
    if rest = [] then []
    else match cutFirst slash rest with
      | none => [name]
      | some (a, b) =>
        if a = [] then [slash] :: headLoop name fuel (cut + 1) b
        else name.take (cut + a.length) :: headLoop name fuel (cut + a.length + 1) b

/-- pathutil/head_tail.go 11-37 `PathFromHead`. -/
def pathFromHead (name : Str) : List Str := headLoop (clean name) ((clean name).length + 1) 0 (clean name)

/-- pathutil/head_tail.go 50-66: the loop of `PathFromTail`. -/
def tailLoop : (fuel : Nat) → (rest : Str) → List Str
  | 0, _ => []
  | fuel + 1, rest =>
    if rest = [] then []
    else match beforeLast rest with
      | none => []
      | some a => if a = [] then [[slash]] else a :: tailLoop fuel a

/-- pathutil/head_tail.go 39-68 `PathFromTail`. -/
def pathFromTail (name : Str) : List Str :=
  let name := clean name
  name :: (if name = dot then [] else tailLoop (name.length + 1) name)

/-- vroot/internal/paths/head_tail.go 16-28: the loop. -/
def vHeadLoop (name : Str) : (fuel : Nat) → (cut : Nat) → (rest : Str) → List Str
  | 0, _, _ => []
  | fuel + 1, cut, rest =>
    if rest = [] then []
    else match cutFirst slash rest with
      | none => [name]
      | some (a, b) => name.take (cut + a.length) :: vHeadLoop name fuel (cut + a.length + 1) b

/-- vroot/internal/paths/head_tail.go 11-30 `PathFromHead`. -/
def vPathFromHead (name : Str) : List Str := vHeadLoop (clean name) ((clean name).length + 1) 0 (clean name)

/-- vroot/internal/paths/head_tail.go 38-47: the loop. -/
def vTailLoop : (fuel : Nat) → (rest : Str) → List Str
  | 0, _ => []
  | fuel + 1, rest =>
    if rest = [] then []
    else match beforeLast rest with
      | none => []
      | some a => a :: vTailLoop fuel a

/-- vroot/internal/paths/head_tail.go 32-49 `PathFromTail` (which does not clean). -/
def vPathFromTail (name : Str) : List Str := name :: vTailLoop (name.length + 1) name

/-! ### specification -/

/-- The prefixes of a clean path ending at component boundaries, shortest first: the root of an absolute path, then one more component
each time; "." is its own only prefix. -/
def prefixes (name : Str) : List Str :=
  let cs := comps name
  (if isAbs name then [[slash]] else if cs = [] then [dot] else []) ++
    (List.range cs.length).map (fun i => render (isAbs name) (cs.take (i + 1)))

/-! ### proofs -/

theorem cutFirst_none_of {a : Str} (h : slash ∉ a) : cutFirst slash a = none := cutFirst_eq_none.2 h
theorem cutFirst_append {a : Str} (h : slash ∉ a) (b : Str) : cutFirst slash (a ++ slash :: b) = some (a, b) := cutFirst_eq_some.2 ⟨rfl, h⟩

theorem join_append {as bs : List Str} (ha : as ≠ []) (hb : bs ≠ []) : join (as ++ bs) = join as ++ slash :: join bs := by
  induction as with
  | nil => exact absurd rfl ha
  | cons a rest ih =>
    cases rest with
    | nil =>
      cases bs with
      | nil => exact absurd rfl hb
      | cons b r => rfl
    | cons x y =>
      show a ++ slash :: join ((x :: y) ++ bs) = (a ++ slash :: join (x :: y)) ++ slash :: join bs
      rw [ih (by simp)]
      simp

/-- What precedes the remaining components in the path. -/
def lead (P : Str) (done : List Str) : Str := if done = [] then P else P ++ join done ++ [slash]

theorem lead_append (P : Str) (done : List Str) (a : Str) : lead P (done ++ [a]) = lead P done ++ a ++ [slash] := by
  unfold lead
  rw [if_neg (by simp)]
  cases done with
  | nil => simp [join]
  | cons x y => rw [if_neg (by simp), join_append (by simp) (by simp)]; simp [join]

theorem lead_join (P : Str) (done : List Str) (rem : List Str) (h : rem ≠ []) : lead P done ++ join rem = P ++ join (done ++ rem) := by
  unfold lead
  cases done with
  | nil => simp
  | cons x y => rw [if_neg (by simp), join_append (by simp) h]; simp

theorem headLoop_spec (P : Str) (cs : List Str) (hcs : ∀ c ∈ cs, IsComp c) : ∀ (rem done : List Str), cs = done ++ rem → rem ≠ [] →
    ∀ fuel, rem.length < fuel →
    headLoop (P ++ join cs) fuel (lead P done).length (join rem) =
      (List.range rem.length).map (fun i => P ++ join (cs.take (done.length + i + 1))) ∧
    vHeadLoop (P ++ join cs) fuel (lead P done).length (join rem) =
      (List.range rem.length).map (fun i => P ++ join (cs.take (done.length + i + 1))) := by
  intro rem
  induction rem with
  | nil => intro done _ h; exact absurd rfl h
  | cons a rest ih =>
    intro done hd _ fuel hf
    have ha : IsComp a := hcs a (by rw [hd]; simp)
    cases fuel with
    | zero => omega
    | succ fuel =>
      have hjn : join (a :: rest) ≠ [] := join_ne_nil (fun c hc => hcs c (by rw [hd]; exact List.mem_append_right _ hc)) (by simp)
      simp only [headLoop, vHeadLoop, if_neg hjn]
      cases rest with
      | nil =>
        simp only [join, cutFirst_none_of ha.2]
        have : cs.take (done.length + 1) = cs := by rw [hd]; apply List.take_of_length_le; simp
        simp [this]
      | cons b r =>
        have hj : join (a :: b :: r) = a ++ slash :: join (b :: r) := rfl
        rw [hj, cutFirst_append ha.2]
        simp only [if_neg ha.1]
        have htake : (P ++ join cs).take ((lead P done).length + a.length) = P ++ join (cs.take (done.length + 1)) := by
          have e1 : P ++ join cs = (lead P done ++ a) ++ (slash :: join (b :: r)) := by
            rw [hd, ← lead_join P done (a :: b :: r) (by simp), hj]; simp
          rw [e1, List.take_append_of_le_length (by simp), List.take_of_length_le (by simp)]
          have e2 : cs.take (done.length + 1) = done ++ [a] := by rw [hd, List.take_append, List.take_of_length_le (by omega)]; simp
          rw [e2, ← lead_join P done [a] (by simp)]
          rfl
        rw [htake]
        have hl : (lead P done).length + a.length + 1 = (lead P (done ++ [a])).length := by rw [lead_append]; simp only [List.length_append, List.length_singleton]
        have := ih (done ++ [a]) (by rw [hd]; simp) (by simp) fuel (by simp at hf ⊢; omega)
        rw [hl, this.1, this.2]
        have hr : List.range (a :: b :: r).length = 0 :: (List.range (b :: r).length).map (· + 1) := by
          simp only [List.length_cons]; rw [List.range_succ_eq_map]
        have : ∀ i, done.length + 1 + i + 1 = done.length + (i + 1) + 1 := by omega
        rw [hr]
        simp only [List.map_cons, List.map_map, List.length_append, List.length_singleton, Nat.add_zero, this]
        exact ⟨rfl, rfl⟩

theorem beforeLast_none {a : Str} (h : slash ∉ a) : beforeLast a = none := by
  induction a with
  | nil => rfl
  | cons c cs ih =>
    unfold beforeLast
    rw [ih (fun hm => h (List.mem_cons_of_mem _ hm))]
    simp; intro hc; exact h (by simp [hc])

theorem beforeLast_append {a : Str} (h : slash ∉ a) (s : Str) : beforeLast (s ++ slash :: a) = some s := by
  induction s with
  | nil => simp [beforeLast, beforeLast_none h]
  | cons c cs ih => show beforeLast (c :: (cs ++ slash :: a)) = _; rw [beforeLast, ih]

theorem join_length (cs : List Str) (h : ∀ c ∈ cs, IsComp c) : cs.length ≤ (join cs).length := by
  induction cs with
  | nil => simp
  | cons a rest ih =>
    have ha := (h a List.mem_cons_self).1
    have hpos : 0 < a.length := List.length_pos_iff.2 ha
    cases rest with
    | nil => simp [join]; omega
    | cons b r =>
      have := ih (fun c hc => h c (List.mem_cons_of_mem _ hc))
      show (b :: r).length + 1 ≤ (a ++ slash :: join (b :: r)).length
      have e : (a ++ slash :: join (b :: r)).length = a.length + ((join (b :: r)).length + 1) := by rw [List.length_append]; rfl
      rw [e]; omega

/-- The relative tail loop yields the shorter prefixes, longest first. -/
theorem tailLoop_rel : ∀ (n : Nat) (cs : List Str), cs.length = n → (∀ c ∈ cs, IsComp c) → ∀ fuel, cs.length ≤ fuel →
    tailLoop fuel (join cs) = ((List.range (cs.length - 1)).map (fun i => join (cs.take (i + 1)))).reverse ∧
    vTailLoop fuel (join cs) = ((List.range (cs.length - 1)).map (fun i => join (cs.take (i + 1)))).reverse := by
  intro n
  induction n with
  | zero =>
    intro cs hn _ fuel _
    have : cs = [] := List.length_eq_zero_iff.1 hn
    subst this
    cases fuel <;> simp [tailLoop, vTailLoop, join]
  | succ n ih =>
    intro cs hn hcs fuel hf
    cases fuel with
    | zero => omega
    | succ fuel =>
      rcases List.eq_nil_or_concat cs with rfl | ⟨init, a, rfl⟩
      · simp at hn
      · have ha := hcs a (by simp)
        have hne : join (init.concat a) ≠ [] := join_ne_nil hcs (by simp)
        rw [List.concat_eq_append] at *
        simp only [tailLoop, vTailLoop, if_neg hne]
        cases init with
        | nil => simp [join, beforeLast_none ha.2]
        | cons x y =>
          rw [join_append (by simp) (by simp)]
          show (match beforeLast (join (x :: y) ++ slash :: a) with
            | none => []
            | some a => if a = [] then [[slash]] else a :: tailLoop fuel a) = _ ∧
            (match beforeLast (join (x :: y) ++ slash :: a) with
            | none => []
            | some a => a :: vTailLoop fuel a) = _
          rw [beforeLast_append ha.2]
          have hxy : ∀ c ∈ x :: y, IsComp c := fun c hc => hcs c (List.mem_append_left _ hc)
          simp only [if_neg (join_ne_nil hxy (by simp))]
          simp only [List.length_append, List.length_cons, List.length_nil] at hn hf ⊢
          obtain ⟨i1, i2⟩ := ih (x :: y) (by simp; omega) hxy fuel (by simp; omega)
          rw [i1, i2]
          have hlen : y.length + 1 + (0 + 1) - 1 = y.length + 1 := by omega
          rw [hlen, List.range_succ, List.map_append, List.reverse_append]
          simp only [List.map_cons, List.map_nil, List.reverse_cons, List.reverse_nil, List.nil_append, List.length_cons, Nat.add_sub_cancel]
          have ht : ((x :: y) ++ [a]).take (y.length + 1) = x :: y := by
            rw [List.take_append_of_le_length (by simp), List.take_of_length_le (by simp)]
          have hm : (List.range y.length).map (fun i => join ((x :: y ++ [a]).take (i + 1))) = (List.range y.length).map (fun i => join ((x :: y).take (i + 1))) := by
            apply List.map_congr_left
            intro i hi
            rw [List.mem_range] at hi
            rw [List.take_append_of_le_length (by simp; omega)]
          rw [ht, hm]
          simp

/-- The absolute tail loop: the shorter prefixes and the root; but the root alone yields the root (again). -/
theorem tailLoop_abs : ∀ (n : Nat) (cs : List Str), cs.length = n → (∀ c ∈ cs, IsComp c) → ∀ fuel, cs.length < fuel →
    tailLoop fuel (slash :: join cs) = ((List.range (cs.length - 1)).map (fun i => slash :: join (cs.take (i + 1)))).reverse ++ [[slash]] := by
  intro n
  induction n with
  | zero =>
    intro cs hn _ fuel hf
    have : cs = [] := List.length_eq_zero_iff.1 hn
    subst this
    cases fuel with
    | zero => omega
    | succ fuel => simp [tailLoop, join, beforeLast]
  | succ n ih =>
    intro cs hn hcs fuel hf
    cases fuel with
    | zero => omega
    | succ fuel =>
      rcases List.eq_nil_or_concat cs with rfl | ⟨init, a, rfl⟩
      · simp at hn
      · have ha := hcs a (by simp)
        rw [List.concat_eq_append] at *
        simp only [tailLoop, if_neg (List.cons_ne_nil _ _)]
        cases init with
        | nil =>
          have := beforeLast_append ha.2 []
          simp only [List.nil_append] at this
          simp [join, this]
        | cons x y =>
          rw [join_append (by simp) (by simp)]
          have hb := beforeLast_append ha.2 (slash :: join (x :: y))
          show (match beforeLast (slash :: join (x :: y) ++ slash :: a) with
            | none => []
            | some a => if a = [] then [[slash]] else a :: tailLoop fuel a) = _
          rw [hb]
          have hxy : ∀ c ∈ x :: y, IsComp c := fun c hc => hcs c (List.mem_append_left _ hc)
          simp only [if_neg (List.cons_ne_nil _ _)]
          simp only [List.length_append, List.length_cons, List.length_nil] at hn hf ⊢
          rw [ih (x :: y) (by simp; omega) hxy fuel (by simp; omega)]
          have hlen : y.length + 1 + (0 + 1) - 1 = y.length + 1 := by omega
          rw [hlen, List.range_succ, List.map_append, List.reverse_append]
          simp only [List.map_cons, List.map_nil, List.reverse_cons, List.reverse_nil, List.nil_append, List.length_cons, Nat.add_sub_cancel]
          have ht : ((x :: y) ++ [a]).take (y.length + 1) = x :: y := by
            rw [List.take_append_of_le_length (by simp), List.take_of_length_le (by simp)]
          have hm : (List.range y.length).map (fun i => slash :: join ((x :: y ++ [a]).take (i + 1))) = (List.range y.length).map (fun i => slash :: join ((x :: y).take (i + 1))) := by
            apply List.map_congr_left
            intro i hi
            rw [List.mem_range] at hi
            rw [List.take_append_of_le_length (by simp; omega)]
          rw [ht, hm]
          simp

theorem comps_isComp (s : Str) : ∀ c ∈ comps s, IsComp c := fun c hc => ((comps_normal s).isComp c hc).1

/-- C31: iterating from the head yields exactly the prefixes, shortest first. -/
theorem C31_from_head (name : Str) : pathFromHead name = prefixes name := by
  unfold pathFromHead prefixes
  have hc := comps_isComp name
  unfold clean render
  cases habs : isAbs name with
  | true =>
    simp only [if_true]
    by_cases hcs : comps name = []
    · simp [hcs, join, headLoop, cutFirst]
    · have hj := join_ne_nil hc hcs
      simp only [headLoop, if_neg (List.cons_ne_nil _ _)]
      rw [show cutFirst slash (slash :: join (comps name)) = some ([], join (comps name)) by simp [cutFirst]]
      simp only [if_true]
      have := (headLoop_spec [slash] (comps name) hc (comps name) [] rfl hcs (slash :: join (comps name)).length
        (by have := join_length _ hc; simp; omega)).1
      simp only [lead, if_true, List.length_singleton, List.length_nil, Nat.zero_add] at this
      show [slash] :: headLoop ([slash] ++ join (comps name)) _ (0 + 1) _ = _
      rw [Nat.zero_add, this]
      rfl
  | false =>
    simp only [Bool.false_eq_true, if_false]
    by_cases hcs : comps name = []
    · simp [hcs]; decide
    · simp only [if_neg hcs, List.nil_append]
      have := (headLoop_spec [] (comps name) hc (comps name) [] rfl hcs ((join (comps name)).length + 1)
        (by have := join_length _ hc; omega)).1
      simp only [lead, if_true, List.length_nil, Nat.zero_add, List.nil_append] at this
      rw [this]
      apply List.map_congr_left
      intro i hi
      rw [List.mem_range] at hi
      rw [if_neg]
      intro h
      have := congrArg List.length h
      rw [List.length_take] at this
      simp only [List.length_nil] at this
      omega

/-- C31: iterating from the tail yields the same prefixes, longest first, for every path but the root. -/
theorem C31_from_tail_partial (name : Str) (h : clean name ≠ [slash]) : pathFromTail name = (prefixes name).reverse := by
  unfold pathFromTail prefixes
  have hc := comps_isComp name
  unfold clean render at h ⊢
  cases habs : isAbs name with
  | true =>
    simp only [habs, if_true] at h ⊢
    have hcs : comps name ≠ [] := by intro hx; apply h; simp [hx, join]
    have hnd : slash :: join (comps name) ≠ dot := by simp [dot, slash]
    rw [if_neg hnd, tailLoop_abs _ (comps name) rfl hc _ (by have := join_length _ hc; simp; omega)]
    cases hn : (comps name).length with
    | zero => exact absurd (List.length_eq_zero_iff.1 hn) hcs
    | succ n =>
      rw [List.range_succ, List.map_append, List.reverse_append, List.reverse_append]
      have : (comps name).take (n + 1) = comps name := List.take_of_length_le (by omega)
      simp [this]
  | false =>
    simp only [habs, Bool.false_eq_true, if_false] at h ⊢
    by_cases hcs : comps name = []
    · simp [hcs]
    · simp only [if_neg hcs, List.nil_append]
      have hnd : join (comps name) ≠ dot := by
        intro hd
        have hn := comps_normal name
        rw [habs] at hn
        have e1 := comps_render hn
        unfold render at e1
        simp only [Bool.false_eq_true, if_false, if_neg hcs] at e1
        rw [hd] at e1
        exact hcs (by rw [← e1]; decide)
      rw [if_neg hnd, (tailLoop_rel _ (comps name) rfl hc _ (by have := join_length _ hc; omega)).1]
      cases hn : (comps name).length with
      | zero => exact absurd (List.length_eq_zero_iff.1 hn) hcs
      | succ n =>
        have hm : (List.range (n + 1)).map (fun i => if (comps name).take (i + 1) = [] then dot else join ((comps name).take (i + 1))) =
            (List.range (n + 1)).map (fun i => join ((comps name).take (i + 1))) := by
          apply List.map_congr_left
          intro i hi
          rw [List.mem_range] at hi
          rw [if_neg]
          intro h
          have := congrArg List.length h
          rw [List.length_take] at this
          simp only [List.length_nil] at this
          omega
        rw [hm, List.range_succ, List.map_append, List.reverse_append]
        have : (comps name).take (n + 1) = comps name := List.take_of_length_le (by omega)
        simp [this]

/-- C31: the root is yielded twice by the tail iteration: the code disagrees with the property there. -/
theorem C31_counterexample_root_twice : pathFromTail ['/'] = [['/'], ['/']] ∧ prefixes ['/'] = [['/']] := by decide

/-- C31: the iterators of the `vroot` packages agree, on relative names (cleaned ones, for the tail). -/
theorem C31_vroot_iterators (name : Str) (h : isAbs name = false) :
    vPathFromHead name = prefixes name ∧ vPathFromTail (clean name) = (prefixes name).reverse := by
  have hc := comps_isComp name
  unfold vPathFromHead vPathFromTail prefixes clean render
  simp only [h, Bool.false_eq_true, if_false]
  by_cases hcs : comps name = []
  · simp [hcs]; decide
  · simp only [if_neg hcs, List.nil_append]
    have hm : ∀ k, k ≤ (comps name).length → (List.range k).map (fun i => if (comps name).take (i + 1) = [] then dot else join ((comps name).take (i + 1))) =
        (List.range k).map (fun i => join ((comps name).take (i + 1))) := by
      intro k hk
      apply List.map_congr_left
      intro i hi
      rw [List.mem_range] at hi
      rw [if_neg]
      intro h
      have := congrArg List.length h
      rw [List.length_take] at this
      simp only [List.length_nil] at this
      omega
    rw [hm _ (Nat.le_refl _)]
    constructor
    · have := (headLoop_spec [] (comps name) hc (comps name) [] rfl hcs ((join (comps name)).length + 1)
        (by have := join_length _ hc; omega)).2
      simp only [lead, if_true, List.length_nil, Nat.zero_add, List.nil_append] at this
      exact this
    · rw [(tailLoop_rel _ (comps name) rfl hc _ (by have := join_length _ hc; omega)).2]
      cases hn : (comps name).length with
      | zero => exact absurd (List.length_eq_zero_iff.1 hn) hcs
      | succ n =>
        rw [List.range_succ, List.map_append, List.reverse_append]
        have : (comps name).take (n + 1) = comps name := List.take_of_length_le (by omega)
        simp [this]

/-- non-vacuity of C31 -/
example : pathFromHead "/a/./bc//d/..".toList = ["/".toList, "/a".toList, "/a/bc".toList] ∧
    pathFromTail "../x/y".toList = ["../x/y".toList, "../x".toList, "..".toList] ∧ clean "../x/y".toList ≠ [slash] ∧
    vPathFromHead "a/b".toList = ["a".toList, "a/b".toList] := by decide

end Verif.Fsutil
