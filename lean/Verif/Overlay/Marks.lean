import Verif.Overlay.View
/-
How the operations on the top's marks act: which marks they can touch.
-/
namespace Verif.Overlay.Stack
open Verif.Path Verif.Prog

/-- Only marks for which `p` holds may differ, nothing else has changed. -/
structure MarksOff (p : Name → Prop) (S0 S : Sys) : Prop where
  layer : S.layer = S0.layer
  last : S.last = S0.last
  mask : ∀ i, 0 < i → S.mask i = S0.mask i
  wh : ∀ m, ¬ p m → (m ∈ (S.mask 0).wh ↔ m ∈ (S0.mask 0).wh)
  op : ∀ m, ¬ p m → (m ∈ (S.mask 0).op ↔ m ∈ (S0.mask 0).op)

theorem MarksOff.refl (p : Name → Prop) (S : Sys) : MarksOff p S S := ⟨rfl, rfl, fun _ _ => rfl, fun _ _ => Iff.rfl, fun _ _ => Iff.rfl⟩

theorem MarksOff.lower {p : Name → Prop} {S0 S : Sys} (h : MarksOff p S0 S) : LowerSame S0 S :=
  ⟨h.last, fun i hi => ⟨by rw [h.layer], h.mask i hi⟩⟩

theorem MarksOff.top {p : Name → Prop} {S0 S : Sys} (h : MarksOff p S0 S) : S.top = S0.top := by
  unfold Sys.top; rw [h.layer]

/-- A change of the marks that stays within `p`. -/
theorem MarksOff.step {p : Name → Prop} {S0 S : Sys} (h : MarksOff p S0 S) {f : Mask → Mask}
    (hw : ∀ m, ¬ p m → (m ∈ (f (S.mask 0)).wh ↔ m ∈ (S.mask 0).wh)) (ho : ∀ m, ¬ p m → (m ∈ (f (S.mask 0)).op ↔ m ∈ (S.mask 0).op)) :
    MarksOff p S0 (onMask 0 f S) where
  layer := h.layer
  last := h.last
  mask := fun i hi => by
    show (if i = 0 then _ else _) = _
    rw [if_neg (Nat.ne_of_gt hi)]; exact h.mask i hi
  wh := fun m hm => (hw m hm).trans (h.wh m hm)
  op := fun m hm => (ho m hm).trans (h.op m hm)

/-- Removing whiteouts and opaque marks among the names of `p`, and only that. -/
structure MarksCut (p : Name → Prop) (S0 S : Sys) : Prop extends MarksOff p S0 S where
  whSub : ∀ m, m ∈ (S.mask 0).wh → m ∈ (S0.mask 0).wh
  opSub : ∀ m, m ∈ (S.mask 0).op → m ∈ (S0.mask 0).op

theorem MarksCut.refl (p : Name → Prop) (S : Sys) : MarksCut p S S := ⟨MarksOff.refl p S, fun _ h => h, fun _ h => h⟩

theorem mem_insertName {n m : Name} : ∀ {l : List Name}, m ∈ insertName n l ↔ m = n ∨ m ∈ l := by
  intro l
  induction l with
  | nil => simp [insertName]
  | cons x xs ih =>
    unfold insertName
    split
    · simp
    · simp only [List.mem_cons, ih]
      constructor
      · rintro (h | h | h)
        · exact Or.inr (Or.inl h)
        · exact Or.inl h
        · exact Or.inr (Or.inr h)
      · rintro (h | h | h)
        · exact Or.inr (Or.inl h)
        · exact Or.inl h
        · exact Or.inr (Or.inr h)

theorem mem_sortNames {m : Name} : ∀ {l : List Name}, m ∈ sortNames l ↔ m ∈ l := by
  intro l
  induction l with
  | nil => simp [sortNames]
  | cons x xs ih => simp only [sortNames, mem_insertName, ih, List.mem_cons]

theorem mem_under {d m : Name} {l : List Name} : m ∈ under d l ↔ m ∈ l ∧ d <:+ m ∧ m ≠ d := by
  unfold under
  rw [mem_sortNames, List.mem_filter]
  simp

theorem mem_filter_ne {n m : Name} {l : List Name} : m ∈ l.filter (fun x => x ≠ n) ↔ m ∈ l ∧ m ≠ n := by
  rw [List.mem_filter]; simp

theorem holds_unmask {p : Name → Prop} {S0 : Sys} {n : Name} (hn : p n) :
    Holds (MarksCut p S0) (MarksCut p S0) (unmask n) (fun r S => r = .ok () ∧ MarksCut p S0 S) := by
  have key : ∀ S, MarksCut p S0 S → MarksCut p S0 (onMask 0 (fun m => ⟨m.wh.filter (fun x => x ≠ n), m.op⟩) S) := by
    intro S h
    refine ⟨h.toMarksOff.step (fun m hm => ?_) (fun m _ => Iff.rfl), fun m hm => ?_, fun m hm => h.opSub m hm⟩
    · simp only [mem_filter_ne]
      constructor
      · exact fun h => h.1
      · exact fun h => ⟨h, fun e => hm (e ▸ hn)⟩
    · exact h.whSub m (mem_filter_ne.1 hm).1
  refine Holds.bind (fun r S => r = .ok S ∧ MarksCut p S0 S) (Holds.get fun S h => ⟨rfl, h⟩) (fun S => ?_) (fun e s h => by cases h.1)
  refine Holds.ite (fun _ => ?_) (fun _ => ?_)
  · exact Holds.modify (fun s h => key s h.2) (fun s h => ⟨rfl, key s h.2⟩)
  · exact Holds.pure fun s h => ⟨rfl, h.2⟩

theorem holds_unopaque {p : Name → Prop} {S0 : Sys} {n : Name} (hn : p n) :
    Holds (MarksCut p S0) (MarksCut p S0) (unopaque n) (fun r S => r = .ok () ∧ MarksCut p S0 S) := by
  have key : ∀ S, MarksCut p S0 S → MarksCut p S0 (onMask 0 (fun m => ⟨m.wh, m.op.filter (fun x => x ≠ n)⟩) S) := by
    intro S h
    refine ⟨h.toMarksOff.step (fun m _ => Iff.rfl) (fun m hm => ?_), fun m hm => h.whSub m hm, fun m hm => ?_⟩
    · simp only [mem_filter_ne]
      constructor
      · exact fun h => h.1
      · exact fun h => ⟨h, fun e => hm (e ▸ hn)⟩
    · exact h.opSub m (mem_filter_ne.1 hm).1
  refine Holds.bind (fun r S => r = .ok S ∧ MarksCut p S0 S) (Holds.get fun S h => ⟨rfl, h⟩) (fun S => ?_) (fun e s h => by cases h.1)
  refine Holds.ite (fun _ => ?_) (fun _ => ?_)
  · exact Holds.modify (fun s h => key s h.2) (fun s h => ⟨rfl, key s h.2⟩)
  · exact Holds.pure fun s h => ⟨rfl, h.2⟩

theorem holds_forNames {I : Sys → Prop} {f : Name → Op Unit} : ∀ {ns : List Name}, (∀ n ∈ ns, Holds I I (f n) (fun r S => r = .ok () ∧ I S)) →
    Holds I I (forNames f ns) (fun r S => r = .ok () ∧ I S) := by
  intro ns
  induction ns with
  | nil => intro _; exact Holds.pure fun s h => ⟨rfl, h⟩
  | cons n ns ih =>
    intro h
    refine Holds.bind (fun r S => r = .ok () ∧ I S) (h n (List.mem_cons_self ..)) (fun _ => ?_) (fun e s h => by cases h.1)
    exact (ih fun m hm => h m (List.mem_cons_of_mem _ hm)).weaken (fun s h => h.2) (fun s h => h) (fun r s h => h)

theorem holds_clearSubtree {S0 : Sys} (n : Name) {p : Name → Prop} (hp : ∀ m, n <:+ m → p m) :
    Holds (MarksCut p S0) (MarksCut p S0) (clearSubtree n) (fun r S => r = .ok () ∧ MarksCut p S0 S) := by
  refine Holds.bind (fun r S => r = .ok S ∧ MarksCut p S0 S) (Holds.get fun S h => ⟨rfl, h⟩) (fun S => ?_) (fun e s h => by cases h.1)
  refine Holds.weaken (P' := MarksCut p S0) ?_ (fun s h => h.2) (fun s h => h) (fun r s h => h)
  refine Holds.bind (fun r S => r = .ok () ∧ MarksCut p S0 S) (holds_forNames fun m hm => holds_unmask (hp m ?_)) (fun _ => ?_) (fun e s h => by cases h.1)
  · rcases List.mem_append.1 hm with hm | hm
    · exact (mem_under.1 hm).2.1
    · rw [List.mem_singleton.1 hm]; exact List.suffix_refl n
  · refine Holds.weaken (holds_forNames fun m hm => holds_unopaque (p := p) (S0 := S0) (hp m ?_)) (fun s h => h.2) (fun s h => h) (fun r s h => h)
    rcases List.mem_append.1 hm with hm | hm
    · exact (mem_under.1 hm).2.1
    · rw [List.mem_singleton.1 hm]; exact List.suffix_refl n

theorem setWhiteout_off {S0 S : Sys} {n : Name} {p : Name → Prop} (hp : ∀ m, n <:+ m → p m) (h : MarksOff p S0 S) :
    MarksOff p S0 (onMask 0 (fun m => ⟨n :: m.wh.filter (fun x => ¬ n <:+ x), m.op.filter (fun x => ¬ n <:+ x)⟩) S) := by
  refine h.step (fun m hm => ?_) (fun m hm => ?_)
  · simp only [List.mem_cons, List.mem_filter, decide_eq_true_eq]
    constructor
    · rintro (e | h)
      · exact absurd (hp m (e ▸ List.suffix_refl n)) hm
      · exact h.1
    · exact fun h => Or.inr ⟨h, fun hs => hm (hp m hs)⟩
  · simp only [List.mem_filter, decide_eq_true_eq]
    constructor
    · exact fun h => h.1
    · exact fun h => ⟨h, fun hs => hm (hp m hs)⟩

end Verif.Overlay.Stack
