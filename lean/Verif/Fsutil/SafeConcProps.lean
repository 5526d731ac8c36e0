import Verif.Fsutil.SafeConc
/-
C119: what holds for safe writes made at the same time. The model and its invariant are in SafeConc.lean.
-/
namespace Verif.Fsutil.SafeConc
open Verif.Path

/-- **C119** Whatever the order of the calls' steps, and whichever of them fail or stop for good: a name that is no temporary's holds, at every moment, all of what the last call put there that returned
nil, and only that; and what it held before, if there is none. In part: temporaries are not removed by others meanwhile, or no random name comes up twice (`Fresh`); no destination is named like a
temporary (`Apart`). -/
theorem C119_content_partial {β : Type} (W : Nat → Writer β) (hW : Apart W) (d0 : Disk β) (h0 : d0.WF) (es : List Ev) (hf : Fresh (run W (start d0) es)) (p : Str) (hp : ∀ k, ¬ (W k).temp p) :
    content (run W (start d0) es).disk p = expected W d0 (run W (start d0) es).published p :=
  (inv_run hW es _ (inv_start W d0 h0) hf).names p hp

/-- That a call is back with nil is recorded in `published`, once. -/
def Told {β : Type} (s : State β) (k : Nat) : Prop := (s.published.count k = 1 ∧ ∃ left, s.ph k = .done true left) ∨ (s.published.count k = 0 ∧ ∀ left, s.ph k ≠ .done true left)

theorem act_told {β : Type} (w : Writer β) (ph : Phase β) (a : Act) (d : Disk β) :
    ((act w ph a d).2.2 = true ∧ (∀ left, ph ≠ .done true left) ∧ ∃ left, (act w ph a d).1 = .done true left) ∨
    ((act w ph a d).2.2 = false ∧ ((∃ left, ph = .done true left) ↔ ∃ left, (act w ph a d).1 = .done true left)) := by
  have hno : ∀ left, (Phase.done true left : Phase β) ≠ .done false none := fun _ hc => by cases hc
  rcases ph with n | ⟨t, i, st⟩ | ⟨ok, left⟩
  · rcases a with t' | _ | _ | m <;> simp only [act] <;> (try split) <;> (try split) <;> (try split) <;> simp
  · rcases st with _ | rest | _ | _ | _ <;> rcases a with t' | _ | _ | m <;> (try cases rest) <;> simp only [act] <;> (try split) <;> (try split) <;> (try split) <;> simp
  · rcases a with t' | _ | _ | m <;> simp [act]

theorem told_run {β : Type} (W : Nat → Writer β) : ∀ (es : List Ev) (s : State β), (∀ k, Told s k) → ∀ k, Told (run W s es) k
  | [], _, h => h
  | e :: rest, s, h => by
    refine told_run W rest _ (fun k => ?_)
    cases e with
    | sweep t =>
      simp only [step]
      split
      · exact h k
      · exact h k
    | step j a =>
      simp only [step, Told]
      by_cases hkj : k = j
      · subst hkj
        rw [setPh_self]
        rcases act_told (W k) (s.ph k) a s.disk with ⟨h1, h2, h3⟩ | ⟨h1, h2⟩
        · rw [h1]
          refine Or.inl ⟨?_, h3⟩
          rcases h k with ⟨_, l, hl⟩ | ⟨hc, _⟩
          · exact absurd hl (h2 l)
          · simp [hc]
        · rw [h1]
          rcases h k with ⟨hc, hl⟩ | ⟨hc, hl⟩
          · exact Or.inl ⟨hc, h2.1 hl⟩
          · refine Or.inr ⟨hc, fun l hl' => ?_⟩
            obtain ⟨l2, h3⟩ := h2.2 ⟨l, hl'⟩
            exact hl l2 h3
      · rw [setPh_ne _ _ hkj]
        have hc : (if (act (W j) (s.ph j) a s.disk).2.2 = true then j :: s.published else s.published).count k = s.published.count k := by
          split
          · exact List.count_cons_of_ne (fun e => hkj e.symm)
          · rfl
        rw [hc]; exact h k

/-- **C119** The calls counted in `published` are those that returned nil, each once: a call returns nil exactly when it put its content in place, and it does so at most once. -/
theorem C119_outcome {β : Type} (W : Nat → Writer β) (d0 : Disk β) (es : List Ev) (k : Nat) :
    (k ∈ (run W (start d0) es).published ↔ ∃ left, (run W (start d0) es).ph k = .done true left) ∧ (run W (start d0) es).published.count k ≤ 1 := by
  rcases told_run W es (start d0) (fun k => Or.inr ⟨rfl, fun _ hc => by cases hc⟩) k with ⟨hc, hl⟩ | ⟨hc, hl⟩
  · exact ⟨⟨fun _ => hl, fun _ => List.count_pos_iff.1 (by omega)⟩, by omega⟩
  · refine ⟨⟨fun hm => absurd (List.count_pos_iff.2 hm) (by omega), ?_⟩, by omega⟩
    rintro ⟨l, hl'⟩
    exact absurd hl' (hl l)

/-- An object no call is working on stays so, and stays as it is. -/
def Settled {β : Type} (s : State β) (i : Nat) : Prop := i < s.disk.next ∧ ∀ k t st, s.ph k ≠ .busy t i st

theorem settled_step {β : Type} {W : Nat → Writer β} {d0 : Disk β} {s : State β} (h : Inv W d0 s) (e : Ev) {i : Nat} (hi : Settled s i) :
    Settled (step W s e) i ∧ (step W s e).disk.data i = s.disk.data i := by
  cases e with
  | sweep t =>
    simp only [step]
    split
    · exact ⟨hi, rfl⟩
    · exact ⟨hi, rfl⟩
  | step k a =>
    have key : i < (act (W k) (s.ph k) a s.disk).2.1.next ∧ (∀ t st, (act (W k) (s.ph k) a s.disk).1 ≠ .busy t i st) ∧ (act (W k) (s.ph k) a s.disk).2.1.data i = s.disk.data i := by
      have hb := hi.2 k
      rcases hph : s.ph k with n | ⟨t, j, st⟩ | ⟨ok, left⟩
      · rcases a with t' | _ | _ | m
        · simp only [act]
          split
          · split
            · refine ⟨hi.1, ?_, rfl⟩
              intro t st; split <;> simp
            · refine ⟨Nat.lt_succ_of_lt hi.1, ?_, setData_ne _ _ (by have := hi.1; omega)⟩
              intro t st hc
              cases hc
              exact absurd hi.1 (Nat.lt_irrefl _)
          · exact ⟨hi.1, by simp, rfl⟩
        all_goals exact ⟨hi.1, by simp [act], rfl⟩
      · have hij : i ≠ j := fun e => hb t st (e ▸ hph)
        have hnm := (h.own _ _ _ _ hph).2.2.2.2.1
        have hbz : ∀ st' t2 st2, (Phase.busy t j st' : Phase β) ≠ .busy t2 i st2 := by
          intro st' t2 st2 hc; cases hc; exact hij rfl
        rcases st with _ | rest | _ | _ | _ <;> rcases a with t' | _ | _ | m <;> (try cases rest) <;> simp only [act]
        case filling.put.nil | filling.put.cons =>
          split
          · rcases hnm with hnm | ⟨hnm, _⟩
            · rw [hnm]; exact ⟨hi.1, hbz _, setData_ne _ _ hij⟩
            · rw [hnm]; exact ⟨hi.1, hbz _, rfl⟩
          · exact ⟨hi.1, hbz _, setData_ne _ _ hij⟩
        all_goals first
          | exact ⟨hi.1, hbz _, by trivial⟩
          | exact ⟨hi.1, (fun _ _ hc => by cases hc), by trivial⟩
          | (split <;> first | exact ⟨hi.1, hbz _, by trivial⟩ | exact ⟨hi.1, (fun _ _ hc => by cases hc), by trivial⟩)
      · rcases a with t' | _ | _ | m <;> exact ⟨hi.1, by simp [act], rfl⟩
    refine ⟨⟨key.1, ?_⟩, key.2.2⟩
    intro j t st hj
    rcases setPh_busy hj with ⟨rfl, hv⟩ | ⟨_, hj⟩
    · exact key.2.1 t st hv
    · exact hi.2 j t st hj

theorem settled_run {β : Type} {W : Nat → Writer β} (hW : Apart W) {d0 : Disk β} : ∀ (es : List Ev) (s : State β), Inv W d0 s → Fresh (run W s es) → ∀ {i : Nat}, Settled s i →
    (run W s es).disk.data i = s.disk.data i
  | [], _, _, _, _, _ => rfl
  | e :: rest, s, h, hf, i, hi => by
    obtain ⟨h1, h2⟩ := settled_step h e hi
    exact (settled_run hW rest _ (inv_step hW h e (Fresh.before (es := rest) hf)) hf h1).trans h2

theorem run_append {β : Type} (W : Nat → Writer β) : ∀ (es fs : List Ev) (s : State β), run W s (es ++ fs) = run W (run W s es) fs
  | [], _, _ => rfl
  | e :: rest, fs, s => run_append W rest fs (step W s e)

/-- **C119** Who opens a name that is no temporary's keeps reading what was there when they opened it, to the end, whatever the calls do meanwhile: nothing is ever written to an object that is in place.
In part: as `C119_content_partial`. -/
theorem C119_reader_partial {β : Type} (W : Nat → Writer β) (hW : Apart W) (d0 : Disk β) (h0 : d0.WF) (es fs : List Ev) (hf : Fresh (run W (start d0) (es ++ fs))) (p : Str)
    (hp : ∀ k, ¬ (W k).temp p) (i : Nat) (hi : (run W (start d0) es).disk.name p = some i) :
    (run W (start d0) (es ++ fs)).disk.data i = (run W (start d0) es).disk.data i := by
  rw [run_append] at hf ⊢
  have h := inv_run hW es _ (inv_start W d0 h0) (Fresh.before (es := fs) hf)
  refine settled_run hW fs _ h hf ⟨h.wf _ _ hi, fun k t st hk => ?_⟩
  obtain ⟨a, _, _, _, _, f, _⟩ := h.own _ _ _ _ hk
  exact hp k (f p hi ▸ a)

/-! ### temporaries -/

/-- Names of temporaries that are in use were there before, or belong to a call that is not back, or were left by one. -/
def Accounted {β : Type} (W : Nat → Writer β) (d0 : Disk β) (s : State β) : Prop :=
  ∀ t, (∃ k, (W k).temp t) → s.disk.name t ≠ none → d0.name t ≠ none ∨ ∃ k, (∃ i st, s.ph k = .busy t i st) ∨ ∃ ok, s.ph k = .done ok (some t)

theorem accounted_step {β : Type} {W : Nat → Writer β} (hW : Apart W) {d0 : Disk β} {s : State β} (h : Accounted W d0 s) (e : Ev) : Accounted W d0 (step W s e) := by
  cases e with
  | sweep u =>
    simp only [step]
    split
    · intro t ht hn
      change setName _ _ _ t ≠ none at hn
      by_cases htu : t = u
      · subst htu; rw [setName_self] at hn; exact absurd rfl hn
      · rw [setName_ne _ _ htu] at hn; exact h t ht hn
    · exact h
  | step k a =>
    intro t ht hn
    -- what the step does to the name, and to the call itself if it had it
    have key : (act (W k) (s.ph k) a s.disk).2.1.name t ≠ none →
        ((s.disk.name t ≠ none ∧ ((∃ i st, s.ph k = .busy t i st) ∨ (∃ ok, s.ph k = .done ok (some t)) →
            (∃ i st, (act (W k) (s.ph k) a s.disk).1 = .busy t i st) ∨ ∃ ok, (act (W k) (s.ph k) a s.disk).1 = .done ok (some t))) ∨
          ∃ i st, (act (W k) (s.ph k) a s.disk).1 = .busy t i st) := by
      rcases hph : s.ph k with n | ⟨u, j, st⟩ | ⟨ok, left⟩
      · rcases a with t' | _ | _ | m
        · simp only [act]
          split
          · split
            · intro hq; exact Or.inl ⟨hq, by rintro (⟨_, _, hc⟩ | ⟨_, hc⟩) <;> cases hc⟩
            · intro hq
              change setName _ _ _ t ≠ none at hq
              by_cases htt : t = t'
              · subst htt; exact Or.inr ⟨_, _, rfl⟩
              · rw [setName_ne _ _ htt] at hq
                exact Or.inl ⟨hq, by rintro (⟨_, _, hc⟩ | ⟨_, hc⟩) <;> cases hc⟩
          · intro hq; exact Or.inl ⟨hq, id⟩
        all_goals exact fun hq => Or.inl ⟨hq, by rintro (⟨_, _, hc⟩ | ⟨_, hc⟩) <;> cases hc⟩
      · have b1 : ∀ st', (∃ i st2, (Phase.busy u j st : Phase β) = .busy t i st2) ∨ (∃ ok, (Phase.busy u j st : Phase β) = .done ok (some t)) →
            (∃ i st2, (Phase.busy u j st' : Phase β) = .busy t i st2) ∨ ∃ ok, (Phase.busy u j st' : Phase β) = .done ok (some t) := by
          rintro st' (⟨_, _, hc⟩ | ⟨_, hc⟩) <;> cases hc
          exact Or.inl ⟨_, _, rfl⟩
        have b2 : (∃ i st2, (Phase.busy u j st : Phase β) = .busy t i st2) ∨ (∃ ok, (Phase.busy u j st : Phase β) = .done ok (some t)) →
            (∃ i st2, (Phase.done false (some u) : Phase β) = .busy t i st2) ∨ ∃ ok, (Phase.done false (some u) : Phase β) = .done ok (some t) := by
          rintro (⟨_, _, hc⟩ | ⟨_, hc⟩) <;> cases hc
          exact Or.inr ⟨_, rfl⟩
        rcases st with _ | rest | _ | _ | _ <;> rcases a with t' | _ | _ | m <;> (try cases rest) <;> simp only [act]
        case renaming.ok =>
          split
          · intro hq
            change setName (setName _ _ _) _ _ t ≠ none at hq
            by_cases htu : t = u
            · subst htu; rw [setName_self] at hq; exact absurd rfl hq
            · obtain ⟨k', hk'⟩ := ht
              rw [setName_ne _ _ htu, setName_ne _ _ (fun (e : t = (W k).dst) => hW k k' (e ▸ hk'))] at hq
              refine Or.inl ⟨hq, ?_⟩
              rintro (⟨_, _, hc⟩ | ⟨_, hc⟩) <;> cases hc
              exact absurd rfl htu
          · exact fun hq => Or.inl ⟨hq, b1 _⟩
        case removing.ok =>
          intro hq
          change setName _ _ _ t ≠ none at hq
          by_cases htu : t = u
          · subst htu; rw [setName_self] at hq; exact absurd rfl hq
          · rw [setName_ne _ _ htu] at hq
            refine Or.inl ⟨hq, ?_⟩
            rintro (⟨_, _, hc⟩ | ⟨_, hc⟩) <;> cases hc
            exact absurd rfl htu
        all_goals first
          | exact fun hq => Or.inl ⟨hq, b1 _⟩
          | exact fun hq => Or.inl ⟨hq, b2⟩
          | (split <;> first | exact fun hq => Or.inl ⟨hq, b1 _⟩ | exact fun hq => Or.inl ⟨hq, b2⟩ | (split <;> exact fun hq => Or.inl ⟨hq, b1 _⟩))
      · rcases a with t' | _ | _ | m <;> exact fun hq => Or.inl ⟨hq, id⟩
    show d0.name t ≠ none ∨ ∃ j, (∃ i st, setPh _ _ _ j = .busy t i st) ∨ ∃ ok, setPh _ _ _ j = .done ok (some t)
    rcases key hn with ⟨h1, h2⟩ | h1
    · rcases h t ht h1 with h3 | ⟨j, hj⟩
      · exact Or.inl h3
      · by_cases hjk : j = k
        · subst hjk; exact Or.inr ⟨j, by rw [setPh_self]; exact h2 hj⟩
        · exact Or.inr ⟨j, by rw [setPh_ne _ _ hjk]; exact hj⟩
    · exact Or.inr ⟨k, by rw [setPh_self]; exact Or.inl h1⟩

theorem accounted_run {β : Type} {W : Nat → Writer β} (hW : Apart W) {d0 : Disk β} : ∀ (es : List Ev) (s : State β), Accounted W d0 s → Accounted W d0 (run W s es)
  | [], _, h => h
  | e :: rest, _, h => accounted_run hW rest _ (accounted_step hW h e)

/-- What was there under the name of a temporary is not touched. -/
def Untouched {β : Type} (W : Nat → Writer β) (d0 : Disk β) (s : State β) : Prop := s.swept = false → ∀ t i, (∃ k, (W k).temp t) → d0.name t = some i → s.disk.name t = some i

theorem untouched_step {β : Type} {W : Nat → Writer β} (hW : Apart W) {d0 : Disk β} (h0 : d0.WF) {s : State β} (hi : Inv W d0 s) (h : Untouched W d0 s) (e : Ev) :
    Untouched W d0 (step W s e) := by
  cases e with
  | sweep u =>
    simp only [step]
    split
    · intro hc; cases hc
    · exact h
  | step k a =>
    intro hs t i ht hd
    have hs' : s.swept = false := hs
    have hn := h hs' t i ht hd
    have hlt := h0 t i hd
    show (act (W k) (s.ph k) a s.disk).2.1.name t = some i
    rcases hph : s.ph k with n | ⟨u, j, st⟩ | ⟨ok, left⟩
    · rcases a with t' | _ | _ | m
      · simp only [act]
        split
        · split
          · exact hn
          · rename_i hnone
            show setName _ _ _ t = _
            rw [setName_ne _ _ (fun (e : t = t') => by rw [← e, hn] at hnone; cases hnone)]; exact hn
        · exact hn
      all_goals exact hn
    · have hut : t ≠ u := by
        intro e
        subst e
        obtain ⟨_, _, c, _, e', _, _⟩ := hi.own _ _ _ _ hph
        rcases e' with e' | ⟨e', _⟩
        · rw [hn] at e'; cases e'; omega
        · rw [hn] at e'; cases e'
      rcases st with _ | rest | _ | _ | _ <;> rcases a with t' | _ | _ | m <;> (try cases rest) <;> simp only [act]
      case renaming.ok =>
        split
        · show setName (setName _ _ _) _ _ t = _
          obtain ⟨k', hk'⟩ := ht
          rw [setName_ne _ _ hut, setName_ne _ _ (fun (e : t = (W k).dst) => hW k k' (e ▸ hk'))]; exact hn
        · exact hn
      case removing.ok =>
        show setName _ _ _ t = _
        rw [setName_ne _ _ hut]; exact hn
      all_goals first
        | exact hn
        | (split <;> first | exact hn | (split <;> exact hn))
    · rcases a with t' | _ | _ | m <;> exact hn

theorem untouched_run {β : Type} {W : Nat → Writer β} (hW : Apart W) {d0 : Disk β} (h0 : d0.WF) : ∀ (es : List Ev) (s : State β), Inv W d0 s → Fresh (run W s es) → Untouched W d0 s →
    Untouched W d0 (run W s es)
  | [], _, _, _, h => h
  | e :: rest, _, hi, hf, h => untouched_run hW h0 rest _ (inv_step hW hi e (Fresh.before (es := rest) hf)) hf (untouched_step hW h0 hi h e)

/-- **C119** No call touches a temporary that is not its own: what was there under such a name before (left by a crash, say) is there as it was; and when all calls are back and each could remove its
temporary, the temporaries are those of before. In part: no destination is named like a temporary, nobody else removes temporaries. -/
theorem C119_leftovers_partial {β : Type} (W : Nat → Writer β) (hW : Apart W) (d0 : Disk β) (h0 : d0.WF) (es : List Ev) (hs : (run W (start d0) es).swept = false) (t : Str) (ht : ∃ k, (W k).temp t) :
    (∀ i, d0.name t = some i → (run W (start d0) es).disk.name t = some i ∧ (run W (start d0) es).disk.data i = d0.data i) ∧
    ((∀ k u i st, (run W (start d0) es).ph k ≠ .busy u i st) → (∀ k ok u, (run W (start d0) es).ph k ≠ .done ok (some u)) →
      (run W (start d0) es).disk.name t = d0.name t) := by
  have hf : Fresh (run W (start d0) es) := fun hc => by rw [hs] at hc; cases hc
  have hu := untouched_run hW h0 es _ (inv_start W d0 h0) hf (fun _ _ _ _ h => h)
  have hi := inv_run hW es _ (inv_start W d0 h0) hf
  refine ⟨fun i hd => ⟨hu hs t i ht hd, hi.old.2 i (h0 _ _ hd)⟩, fun hb hl => ?_⟩
  cases hd : d0.name t with
  | some i => exact hu hs t i ht hd
  | none =>
    cases hn : (run W (start d0) es).disk.name t with
    | none => rfl
    | some j =>
      rcases accounted_run hW es (start d0) (fun u _ h => Or.inl h) t ht (by rw [hn]; simp) with h1 | ⟨k, ⟨i, st, h1⟩ | ⟨ok, h1⟩⟩
      · exact absurd hd h1
      · exact absurd h1 (hb _ _ _ _)
      · exact absurd h1 (hl _ _ _)

/-! ### calls do not make each other fail -/

/-- How often a call tried a name. -/
def attempts (k : Nat) (es : List Ev) : Nat := es.countP (fun e => match e with | .step j (.attempt _) => j = k | _ => false)

def Good {β : Type} (a : Nat) : Phase β → Prop
  | .creating n => n ≤ a
  | .busy _ _ .removing => False
  | .busy _ _ _ => True
  | .done ok _ => ok = true ∨ 10000 ≤ a

theorem Good.mono {β : Type} {a b : Nat} (hab : a ≤ b) : ∀ {ph : Phase β}, Good a ph → Good b ph
  | .creating _, h => Nat.le_trans h hab
  | .busy _ _ st, h => by cases st <;> exact h
  | .done _ _, h => h.imp id (fun h => Nat.le_trans h hab)

theorem good_run {β : Type} {W : Nat → Writer β} (hW : Apart W) {d0 : Disk β} (k : Nat) : ∀ (es : List Ev) (s : State β) (a : Nat), Inv W d0 s → (run W s es).swept = false →
    (∀ e ∈ es, e ≠ .step k .fail) → Good a (s.ph k) → Good (a + attempts k es) ((run W s es).ph k)
  | [], _, _, _, _, _, h => h
  | e :: rest, s, a, hi, hs, hne, h => by
    have hf : Fresh (run W s (e :: rest)) := fun hc => by rw [hs] at hc; cases hc
    have hsw : s.swept = false := by
      cases hq : s.swept with
      | false => rfl
      | true => have := (swept_run W (e :: rest) s).1 hq; rw [hs] at this; cases this
    have hi' := inv_step hW hi e (Fresh.before (es := rest) hf)
    have hr := good_run hW k rest (step W s e) (a + attempts k [e]) hi' hs (fun e' he' => hne e' (List.mem_cons_of_mem _ he'))
    have hsum : a + attempts k [e] + attempts k rest = a + attempts k (e :: rest) := by
      simp only [attempts, List.countP_cons, List.countP_nil]; omega
    rw [← hsum]
    refine hr ?_
    cases e with
    | sweep u =>
      refine Good.mono (Nat.le_add_right _ _) ?_
      simp only [step]; split <;> exact h
    | step j act' =>
      show Good _ (setPh _ _ _ k)
      by_cases hjk : k = j
      · subst hjk
        rw [setPh_self]
        rcases hph : s.ph k with n | ⟨u, i, st⟩ | ⟨ok, left⟩ <;> rw [hph] at h
        · rcases act' with t' | _ | _ | m
          · have h1 : attempts k [.step k (.attempt t')] = 1 := by simp [attempts]
            rw [h1]
            simp only [act]
            split
            · split
              · split
                · exact Nat.add_le_add_right h 1
                · rename_i hlim
                  have h : n ≤ a := h
                  exact Or.inr (by omega)
              · split <;> exact trivial
            · exact Nat.le_succ_of_le h
          · exact Good.mono (Nat.le_add_right _ _) h
          · exact absurd rfl (hne _ List.mem_cons_self)
          · exact Good.mono (Nat.le_add_right _ _) h
        · have hnm : s.disk.name u = some i := by
            rcases (hi.own _ _ _ _ hph).2.2.2.2.1 with e | ⟨_, e⟩
            · exact e
            · rw [hsw] at e; cases e
          rcases st with _ | r | _ | _ | _ <;> rcases act' with t' | _ | _ | m <;> (try cases r) <;> simp only [act, hnm] <;>
            first
            | exact absurd rfl (hne _ List.mem_cons_self)
            | exact trivial
            | exact Or.inl rfl
            | exact h.elim
            | (split <;> exact trivial)
        · rcases act' with t' | _ | _ | m <;> exact Good.mono (Nat.le_add_right _ _) h
      · rw [setPh_ne _ _ hjk]; exact Good.mono (Nat.le_add_right _ _) h

/-- **C119** A call none of whose own calls on the filesystem (and hooks) fails does not fail because of the others, unless 10000 of the random names it tried were taken: it is not back with an error.
In part: as before, nobody removes temporaries meanwhile. -/
theorem C119_no_interference_partial {β : Type} (W : Nat → Writer β) (hW : Apart W) (d0 : Disk β) (h0 : d0.WF) (es : List Ev) (hs : (run W (start d0) es).swept = false) (k : Nat)
    (hk : ∀ e ∈ es, e ≠ .step k .fail) (hn : attempts k es < 10000) (left : Option Str) : (run W (start d0) es).ph k ≠ .done false left := by
  intro hc
  have := good_run hW k es (start d0) 0 (inv_start W d0 h0) hs hk (Nat.le_refl _)
  rw [hc] at this
  rcases this with h | h
  · cases h
  · omega

/-- **C119** A call that is let through to its end, with a free name and nothing failing, returns nil, and its content is in place: whatever the other calls have done up to then. -/
theorem C119_succeeds {β : Type} (W : Nat → Writer β) (s : State β) (k n m : Nat) (t : Str) (hk : s.ph k = .creating n) (ht : (W k).temp t) (hdt : (W k).dst ≠ t) (hfree : s.disk.name t = none)
    (hm : (W k).pieces.length ≤ m) :
    let es := .step k (.attempt t) :: ((if (W k).dir then [.step k .ok] else []) ++ [.step k (.put m), .step k .ok, .step k .ok, .step k .ok])
    (∃ left, (run W s es).ph k = .done true left) ∧ content (run W s es).disk (W k).dst = some (W k).pieces := by
  cases hd : (W k).dir <;>
  simp [run, step, act, hk, ht, hfree, hd, setPh_self, setData_self, setName, hdt, List.drop_eq_nil_of_le hm, List.take_of_length_le hm, content]

/-! ### the policies -/

/-- A call with the policy that puts temporaries beside the destination (safe_write.go 275-299). -/
def randomWriter {β : Type} (target : Str) (pieces : List β) (isDir ignore : Bool) : Writer β :=
  { dst := clean target, temp := fun t => ∃ u, u < 2 ^ 32 ∧ randomTemp target u = some t, pieces := pieces, dir := isDir, ignoreCloseErr := ignore }

/-- A call with the policy that puts temporaries into a directory (safe_write.go 374-406). -/
def dirWriter {β : Type} (tempDir target : Str) (pieces : List β) (isDir ignore : Bool) : Writer β :=
  { dst := clean target, temp := fun t => ∃ u, u < 2 ^ 32 ∧ dirTemp (newDirPolicy tempDir) u = t, pieces := pieces, dir := isDir, ignoreCloseErr := ignore }

/-- **C119** Destinations that the policy's own matcher does not take for temporaries are apart from them, for any mixture of calls. -/
theorem C119_random_policy_apart {β : Type} (W : Nat → Writer β) (hW : ∀ k, ∃ target pieces isDir ignore, W k = randomWriter target pieces isDir ignore ∧ matchRandom (clean target) = false) : Apart W := by
  intro k j hc
  obtain ⟨tg, _, _, _, hk, hm⟩ := hW k
  obtain ⟨tg', _, _, _, hj, _⟩ := hW j
  rw [hk, hj] at hc
  obtain ⟨u, hu, ht⟩ := hc
  have := (C21_temp_names _ _ hu _ ht).2.2
  change matchRandom (clean tg) = true at this
  rw [hm] at this; cases this

/-- **C119** The same for the policy with a directory of its own. -/
theorem C119_dir_policy_apart {β : Type} (tempDir : Str) (hd : ProperDir tempDir) (W : Nat → Writer β)
    (hW : ∀ k, ∃ target pieces isDir ignore, W k = dirWriter tempDir target pieces isDir ignore ∧ matchDir (newDirPolicy tempDir) (clean target) = false) : Apart W := by
  intro k j hc
  obtain ⟨tg, _, _, _, hk, hm⟩ := hW k
  obtain ⟨tg', _, _, _, hj, _⟩ := hW j
  rw [hk, hj] at hc
  obtain ⟨u, hu, ht⟩ := hc
  have := C22_recognises_partial tempDir u hu hd
  rw [ht] at this
  change matchDir _ (clean tg) = true at this
  rw [hm] at this; cases this

/-- Any number of calls for one file. -/
example : Apart (fun k => (randomWriter ['x'] [k] false false : Writer Nat)) := C119_random_policy_apart _ (fun k => ⟨_, _, _, _, rfl, by decide⟩)
example : Apart (fun k => (dirWriter ['t'] ['x'] [k] false false : Writer Nat)) := C119_dir_policy_apart ['t'] (by unfold ProperDir; decide) _ (fun k => ⟨_, _, _, _, rfl, by decide⟩)

/-! ### cases -/

/-- An empty disk. -/
def blank : Disk Nat := { name := fun _ => none, data := fun _ => [], next := 0 }

/-- Two calls, to "a" and to "b" (with any other number: to "b" too), whose temporaries are called "t" or "u". -/
def pair : Nat → Writer Nat := fun k =>
  { dst := if k = 0 then ['a'] else ['b'], temp := fun t => t = ['t'] ∨ t = ['u'], pieces := if k = 0 then [1, 2] else [3, 4], dir := false, ignoreCloseErr := false }

theorem pair_apart : Apart pair := by
  intro k j h
  simp only [pair] at h
  split at h <;> rcases h with h | h <;> cases h

theorem blank_wf : blank.WF := fun _ _ h => by cases h

/-- Two calls whose steps come in turns, and one of which fails: the other one's content is in place. -/
example : content (run pair (start blank) [.step 0 (.attempt ['t']), .step 1 (.attempt ['t']), .step 1 (.attempt ['u']), .step 0 (.put 1), .step 1 (.put 2), .step 0 (.put 1), .step 1 .ok,
    .step 0 .ok, .step 1 .fail, .step 0 .ok, .step 0 .ok, .step 1 .ok]).disk ['a'] = some [1, 2] ∧
    Fresh (run pair (start blank) [.step 0 (.attempt ['t'])]) := by
  constructor
  · simp [run, step, act, pair, start, blank, content, setPh, setName, setData, created]
  · intro hc
    simp [run, step, start] at hc

/-- **C119** fails when temporaries are removed while calls are under way, and a random name comes up again: the destination of one call gets what another one has written so far. Here nothing yet. -/
theorem C119_counterexample_sweep_and_reuse :
    let es := [.step 0 (.attempt ['t']), .step 0 (.put 2), .step 0 .ok, .step 0 .ok, .sweep ['t'], .step 1 (.attempt ['t']), .step 0 .ok]
    (∃ left, (run pair (start blank) es).ph 0 = .done true left) ∧ content (run pair (start blank) es).disk ['a'] = some [] ∧ (pair 0).pieces = [1, 2] := by
  simp [run, step, act, pair, start, blank, content, setPh, setName, setData, created]

/-- **C119** A sweep while a call is under way makes it fail, although each of its own calls would have succeeded. -/
theorem C119_counterexample_sweep_fails_call :
    let es := [.step 0 (.attempt ['t']), .step 0 (.put 2), .step 0 .ok, .step 0 .ok, .sweep ['t'], .step 0 .ok, .step 0 .ok]
    (∃ left, (run pair (start blank) es).ph 0 = .done false left) ∧ content (run pair (start blank) es).disk ['a'] = none := by
  simp [run, step, act, pair, start, blank, content, setPh, setName, setData, created]

/-- **C119** fails for a destination that is named like a temporary: here call 1 writes to "t", while call 0 has its temporary there; call 0 returns nil and its destination has what call 1 wrote. -/
theorem C119_counterexample_named_like_temporary :
    let W : Nat → Writer Nat := fun k => if k = 0 then pair 0 else { pair 1 with dst := ['t'] }
    let es := [.step 0 (.attempt ['t']), .step 0 (.put 2), .step 0 .ok, .step 0 .ok, .step 1 (.attempt ['u']), .step 1 (.put 2), .step 1 .ok, .step 1 .ok, .step 1 .ok, .step 0 .ok]
    (∃ left, (run W (start blank) es).ph 0 = .done true left) ∧ content (run W (start blank) es).disk ['a'] = some [3, 4] := by
  simp [run, step, act, pair, start, blank, content, setPh, setName, setData, created]

end Verif.Fsutil.SafeConc
