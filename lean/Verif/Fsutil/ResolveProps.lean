import Verif.Fsutil.ResolveModel
/-
C28: `ResolvePath` terminates, follows at most 40 links and stays inside.
-/
namespace Verif.Fsutil.Resolve
open Verif.Path

/-! ### specification vocabulary -/

/-- The name a call was made with. -/
def Call.name : Call → Str
  | .lstat n _ => n
  | .readlink n _ => n

/-- Every call was made with a path that stays inside the root. -/
def LocalCalls (log : Log) : Prop := ∀ c ∈ log, isLocal c.name = true

def Call.isRead : Call → Bool
  | .lstat _ _ => false
  | .readlink _ _ => true

/-- Number of links followed. -/
def followed (log : Log) : Nat := log.countP Call.isRead

/-- A link at `p` with target `t` leaves the root: the target is absolute, or leads above the root from the directory of the link. -/
def Leaves (p t : Str) : Prop := isAbs t = true ∨ isLocal (join2 (dir p) (clean t)) = false

/-- Some link that was read leaves the root. -/
def LinkLeaves (log : Log) : Prop := ∃ p t, Call.readlink p (some t) ∈ log ∧ Leaves p t

theorem followed_append (a b : Log) : followed (a ++ b) = followed a + followed b := by simp [followed]

theorem LocalCalls.append {a b : Log} (ha : LocalCalls a) (hb : LocalCalls b) : LocalCalls (a ++ b) := by
  intro c hc
  rcases List.mem_append.1 hc with h | h
  · exact ha c h
  · exact hb c h

theorem linkLeaves_append {a b : Log} : LinkLeaves (a ++ b) ↔ LinkLeaves a ∨ LinkLeaves b := by
  constructor
  · rintro ⟨p, t, hm, hl⟩
    rcases List.mem_append.1 hm with h | h
    · exact Or.inl ⟨p, t, h, hl⟩
    · exact Or.inr ⟨p, t, h, hl⟩
  · rintro (⟨p, t, h, hl⟩ | ⟨p, t, h, hl⟩)
    · exact ⟨p, t, List.mem_append_left _ h, hl⟩
    · exact ⟨p, t, List.mem_append_right _ h, hl⟩

theorem not_linkLeaves_nil : ¬ LinkLeaves [] := by rintro ⟨p, t, h, _⟩; cases h

/-! ### local paths -/

/-- A component that does not go up. -/
def Step (c : Str) : Prop := IsComp c ∧ c ≠ dotdot

theorem stack_names {r : Bool} (cs : List Str) (h : ∀ c ∈ cs, Step c) : ∀ st, (∀ c ∈ st, IsName c) →
    ∀ c ∈ cs.foldl (cleanStep r) st, IsName c := by
  induction cs with
  | nil => intro st hst; exact hst
  | cons a rest ih =>
    intro st hst
    refine ih (fun c hc => h c (by simp [hc])) _ ?_
    obtain ⟨h1, h2⟩ := h a (by simp)
    unfold cleanStep
    split
    · exact hst
    · rename_i hd
      intro c hc
      rcases List.mem_cons.1 hc with rfl | hc
      · exact ⟨h1, fun h => hd (Or.inr h), h2⟩
      · exact hst c hc

theorem isLocal_join {cs : List Str} (hne : cs ≠ []) (h : ∀ c ∈ cs, Step c) : isLocal (join cs) = true := by
  have hc : ∀ c ∈ cs, IsComp c := fun c hc => (h c hc).1
  rw [isLocal_iff]
  refine ⟨join_ne_nil hc hne, isAbs_join hc, ?_⟩
  unfold comps
  rw [split_join hne (fun c hcc => (hc c hcc).2)]
  intro c hcc
  exact stack_names cs h [] (by simp) c (List.mem_reverse.1 hcc)

theorem isLocal_clean {s : Str} (h : isLocal s = true) : isLocal (clean s) = true := by
  rw [isLocal_iff] at *
  exact ⟨clean_ne_nil s, by rw [isAbs_clean]; exact h.2.1, by rw [comps_clean]; exact h.2.2⟩

theorem split_clean {s : Str} (h : isLocal s = true) : ∀ c ∈ split (clean s), Step c := by
  rw [isLocal_iff] at h
  obtain ⟨_, habs, hn⟩ := h
  unfold clean render
  rw [habs]
  simp only [Bool.false_eq_true, if_false]
  split
  · intro c hc
    have : split dot = [dot] := by decide
    rw [this] at hc
    simp only [List.mem_cons, List.not_mem_nil, or_false] at hc
    subst hc
    exact ⟨by decide, by decide⟩
  · rename_i hne
    rw [split_join hne (fun c hc => (hn c hc).1.2)]
    intro c hc
    exact ⟨(hn c hc).1, (hn c hc).2.2⟩

theorem join2_clean {d t : Str} (hd : d ≠ []) (ht : t ≠ []) : join2 d t = clean (d ++ slash :: t) := by
  unfold join2
  rw [if_neg (by simp [hd]), if_neg hd, if_neg ht]

theorem clean_step (p t : Str) : clean (join2 (dir p) (clean t)) = join2 (dir p) (clean t) := by
  rw [join2_clean (d := dir p) (clean_ne_nil _) (clean_ne_nil _), clean_clean]

/-! ### ResolveSymlink -/

theorem resolveSymlink_spec (fs : Fs) : ∀ (m : Nat) (p : Str) (i : Nat) (log : Log), isLocal p = true →
    ∃ new, (resolveSymlink fs m p i log).1 = log ++ new ∧ LocalCalls new ∧ followed new ≤ m ∧
      (∀ e, (resolveSymlink fs m p i log).2 = .error e → e ≠ .escapes ∧ ¬ LinkLeaves new) ∧
      (∀ r n, (resolveSymlink fs m p i log).2 = .ok (r, n) → n = i + followed new ∧ 1 ≤ followed new ∧
        (r = none → LinkLeaves new) ∧ (∀ q, r = some q → isLocal q = true ∧ clean q = q ∧ ¬ LinkLeaves new)) := by
  intro m
  induction m with
  | zero =>
    intro p i log _
    refine ⟨[], by simp [resolveSymlink], by simp [LocalCalls], by simp [followed], ?_, ?_⟩
    · intro e he
      simp only [resolveSymlink, Except.error.injEq] at he
      subst he
      exact ⟨by simp, not_linkLeaves_nil⟩
    · intro r n h; simp [resolveSymlink] at h
  | succ m ih =>
    intro p i log hp
    unfold resolveSymlink
    split
    · refine ⟨[.readlink p none], rfl, ?_, by simp [followed, Call.isRead], ?_, ?_⟩
      · intro c hc
        simp only [List.mem_cons, List.not_mem_nil, or_false] at hc
        subst hc; exact hp
      · intro e he
        cases he
        refine ⟨by simp, ?_⟩
        rintro ⟨p', t', hm, _⟩
        simp at hm
      · intro r n h; cases h
    · rename_i t ht
      have hl1 : LocalCalls [Call.readlink p (some t)] := by
        intro c hc
        simp only [List.mem_cons, List.not_mem_nil, or_false] at hc
        subst hc; exact hp
      by_cases h1 : isAbs (clean t) = true
      · rw [if_pos h1]
        refine ⟨[.readlink p (some t)], rfl, hl1, by simp [followed, Call.isRead], ?_, ?_⟩
        · intro e he; cases he
        · intro r n h
          cases h
          refine ⟨by simp [followed, Call.isRead], by simp [followed, Call.isRead], fun _ => ?_, by intro q hq; cases hq⟩
          exact ⟨p, t, by simp, Or.inl (by rw [← isAbs_clean]; exact h1)⟩
      · rw [if_neg h1]
        by_cases h2 : isLocal (join2 (dir p) (clean t)) = false
        · rw [if_pos h2]
          refine ⟨[.readlink p (some t)], rfl, hl1, by simp [followed, Call.isRead], ?_, ?_⟩
          · intro e he; cases he
          · intro r n h
            cases h
            refine ⟨by simp [followed, Call.isRead], by simp [followed, Call.isRead], fun _ => ?_, by intro q hq; cases hq⟩
            exact ⟨p, t, by simp, Or.inr h2⟩
        · rw [if_neg h2]
          have hloc : isLocal (join2 (dir p) (clean t)) = true := by simpa using h2
          have hns : ¬ Leaves p t := by
            rintro (h | h)
            · exact h1 (by rw [isAbs_clean]; exact h)
            · exact h2 h
          have hl2 : ∀ x, LocalCalls [Call.readlink p (some t), Call.lstat (join2 (dir p) (clean t)) x] := by
            intro x c hc
            simp only [List.mem_cons, List.not_mem_nil, or_false] at hc
            rcases hc with rfl | rfl
            · exact hp
            · exact hloc
          have hnl : ∀ x, ¬ LinkLeaves [Call.readlink p (some t), Call.lstat (join2 (dir p) (clean t)) x] := by
            rintro x ⟨p', t', hm, hlv⟩
            simp only [List.mem_cons, Call.readlink.injEq, Option.some.injEq, reduceCtorEq, List.not_mem_nil, or_false] at hm
            obtain ⟨rfl, rfl⟩ := hm
            exact hns hlv
          have hf : ∀ x, followed [Call.readlink p (some t), Call.lstat (join2 (dir p) (clean t)) x] = 1 := by
            intro x; rfl
          split
          · refine ⟨_, rfl, hl2 _, by rw [hf]; omega, ?_, ?_⟩
            · intro e he
              cases he
              exact ⟨by simp, hnl _⟩
            · intro r n h; cases h
          · refine ⟨_, rfl, hl2 _, by rw [hf]; omega, ?_, ?_⟩
            · intro e he; cases he
            · intro r n h
              cases h
              refine ⟨by rw [hf], by rw [hf]; omega, by simp, ?_⟩
              intro q hq
              cases hq
              exact ⟨hloc, clean_step p t, hnl _⟩
          · obtain ⟨new, h3, h4, h5, h6, h7⟩ := ih (join2 (dir p) (clean t)) (i + 1) (log ++ [.readlink p (some t), .lstat (join2 (dir p) (clean t)) (some true)]) hloc
            refine ⟨[.readlink p (some t), .lstat (join2 (dir p) (clean t)) (some true)] ++ new, by rw [h3]; simp, (hl2 _).append h4, ?_, ?_, ?_⟩
            · rw [followed_append, hf]; omega
            · intro e he
              obtain ⟨h8, h9⟩ := h6 e he
              refine ⟨h8, ?_⟩
              rw [linkLeaves_append]
              rintro (h | h)
              · exact hnl _ h
              · exact h9 h
            · intro r n h
              obtain ⟨h8, h9, h10, h11⟩ := h7 r n h
              refine ⟨by rw [followed_append, hf]; omega, by rw [followed_append]; omega, ?_, ?_⟩
              · intro hr
                exact linkLeaves_append.2 (Or.inr (h10 hr))
              · intro q hq
                obtain ⟨h12, h13, h14⟩ := h11 q hq
                refine ⟨h12, h13, ?_⟩
                rw [linkLeaves_append]
                rintro (h | h)
                · exact hnl _ h
                · exact h14 h

/-! ### the passes -/

theorem scan_spec (fs : Fs) : ∀ (rest done : List Str) (log : Log), (∀ c ∈ done ++ rest, Step c) →
    ∃ new, (scan fs done rest log).1 = log ++ new ∧ LocalCalls new ∧ followed new = 0 ∧ ¬ LinkLeaves new ∧
      (∀ d, (scan fs done rest log).2 = .all d → d = done ++ rest) ∧
      (∀ d r, (scan fs done rest log).2 = .link d r → d ++ r = done ++ rest ∧ d ≠ []) := by
  intro rest
  induction rest with
  | nil =>
    intro done log _
    refine ⟨[], by simp [scan], by simp [LocalCalls], rfl, not_linkLeaves_nil, ?_, ?_⟩
    · intro d h; simp only [scan, Scan.all.injEq] at h; simp [← h]
    · intro d r h; simp [scan] at h
  | cons c rest ih =>
    intro done log hst
    have hloc : isLocal (join (done ++ [c])) = true := isLocal_join (by simp) (fun x hx => hst x (by
      rcases List.mem_append.1 hx with h | h
      · simp [h]
      · simp only [List.mem_cons, List.not_mem_nil, or_false] at h; simp [h]))
    have hl : ∀ x, LocalCalls [Call.lstat (join (done ++ [c])) x] := by
      intro x y hy
      simp only [List.mem_cons, List.not_mem_nil, or_false] at hy
      subst hy; exact hloc
    have hnl : ∀ x, ¬ LinkLeaves [Call.lstat (join (done ++ [c])) x] := by
      rintro x ⟨p, t, hm, _⟩; simp at hm
    unfold scan
    split
    · refine ⟨_, rfl, hl _, by simp [followed, Call.isRead], hnl _, ?_, ?_⟩
      · intro d h; cases h
      · intro d r h; cases h
    · obtain ⟨new, h1, h2, h3, h4, h5, h6⟩ := ih (done ++ [c]) (log ++ [.lstat (join (done ++ [c])) (some false)]) (by simpa using hst)
      refine ⟨[.lstat (join (done ++ [c])) (some false)] ++ new, by rw [h1]; simp, (hl _).append h2, ?_, ?_, ?_, ?_⟩
      · rw [followed_append, h3]; simp [followed, Call.isRead]
      · rw [linkLeaves_append]
        rintro (h | h)
        · exact hnl _ h
        · exact h4 h
      · intro d h; rw [h5 d h]; simp
      · intro d r h; rw [(h6 d r h).1]; exact ⟨by simp, (h6 d r h).2⟩
    · refine ⟨_, rfl, hl _, by simp [followed, Call.isRead], hnl _, ?_, ?_⟩
      · intro d h; cases h
      · intro d r h; cases h; exact ⟨by simp, by simp⟩

theorem loop_spec (fs : Fs) : ∀ (fuel cur : Nat) (name : List Str) (log : Log), (∀ c ∈ name, Step c) → name ≠ [] → cur < maxLinks →
    maxLinks - cur ≤ fuel →
    ∃ new res, loop fs fuel cur name log = some (log ++ new, res) ∧ LocalCalls new ∧ cur + followed new ≤ maxLinks ∧
      (∀ d, res = .ok d → d ≠ [] ∧ (∀ c ∈ d, Step c) ∧ ¬ LinkLeaves new ∧ cur + followed new < maxLinks) ∧
      (∀ e p, res = .error (e, p) → (e = .escapes → LinkLeaves new) ∧ (LinkLeaves new → e = .escapes ∨ e = .loop)) := by
  intro fuel
  induction fuel with
  | zero => intro cur name log _ _ h1 h2; omega
  | succ f ih =>
    intro cur name log hst hne hcur hfuel
    obtain ⟨new1, h1, h2, h3, h4, h5, h6⟩ := scan_spec fs name [] log (by simpa using hst)
    unfold loop
    rcases hsc : scan fs [] name log with ⟨log1, sc⟩
    rw [hsc] at h1 h5 h6
    simp only at h1
    subst h1
    cases sc with
    | all d =>
      have hd := h5 d rfl
      simp only [List.nil_append] at hd
      subst hd
      refine ⟨new1, _, rfl, h2, by rw [h3]; omega, ?_, ?_⟩
      · intro d hd; cases hd
        exact ⟨hne, hst, h4, by rw [h3]; omega⟩
      · intro e p h; cases h
    | missing p =>
      refine ⟨new1, _, rfl, h2, by rw [h3]; omega, ?_, ?_⟩
      · intro d hd; cases hd
      · intro e p h
        cases h
        exact ⟨by simp, fun h => absurd h h4⟩
    | link done rest =>
      obtain ⟨hdr, hdne⟩ := h6 done rest rfl
      simp only [List.nil_append] at hdr
      have hdst : ∀ c ∈ done, Step c := fun c hc => hst c (by rw [← hdr]; simp [hc])
      have hrst : ∀ c ∈ rest, Step c := fun c hc => hst c (by rw [← hdr]; simp [hc])
      have hloc : isLocal (clean (join done)) = true := isLocal_clean (isLocal_join hdne hdst)
      obtain ⟨new2, g1, g2, g3, g4, g5⟩ := resolveSymlink_spec fs (maxLinks - cur) (clean (join done)) 0 (log ++ new1) hloc
      simp only
      rcases hrs : resolveSymlink fs (maxLinks - cur) (clean (join done)) 0 (log ++ new1) with ⟨log2, r⟩
      rw [hrs] at g1 g4 g5
      simp only at g1
      subst g1
      have hfn : followed (new1 ++ new2) = followed new2 := by rw [followed_append, h3]; omega
      have hlv : LinkLeaves (new1 ++ new2) ↔ LinkLeaves new2 := by
        rw [linkLeaves_append]
        exact ⟨fun h => h.resolve_left h4, Or.inr⟩
      cases r with
      | error e =>
        obtain ⟨g6, g7⟩ := g4 e rfl
        refine ⟨new1 ++ new2, _, by rw [List.append_assoc], h2.append g2, by rw [hfn]; omega, ?_, ?_⟩
        · intro d hd; cases hd
        · intro e' p h
          cases h
          exact ⟨fun h => absurd h g6, fun h => absurd (hlv.1 h) g7⟩
      | ok rn =>
        obtain ⟨r, n⟩ := rn
        obtain ⟨g6, g7, g8, g9⟩ := g5 r n rfl
        simp only
        by_cases hmax : cur + n ≥ maxLinks
        · rw [if_pos hmax]
          refine ⟨new1 ++ new2, _, by rw [List.append_assoc], h2.append g2, by rw [hfn]; omega, ?_, ?_⟩
          · intro d hd; cases hd
          · intro e' p h
            cases h
            exact ⟨by simp, fun _ => Or.inr rfl⟩
        · rw [if_neg hmax]
          cases r with
          | none =>
            refine ⟨new1 ++ new2, _, by rw [List.append_assoc], h2.append g2, by rw [hfn]; omega, ?_, ?_⟩
            · intro d hd; cases hd
            · intro e' p h
              cases h
              exact ⟨fun _ => hlv.2 (g8 rfl), fun _ => Or.inl rfl⟩
          | some q =>
            obtain ⟨g10, g11, g12⟩ := g9 q rfl
            simp only [g10, Bool.true_eq_false, if_false]
            have hq : ∀ c ∈ split q, Step c := by rw [← g11]; exact split_clean g10
            obtain ⟨new3, res, k1, k2, k3, k4, k5⟩ := ih (cur + n) (split q ++ rest) (log ++ new1 ++ new2)
              (by intro c hc
                  rcases List.mem_append.1 hc with h | h
                  · exact hq c h
                  · exact hrst c h) (by simp [split_ne_nil]) (by omega) (by omega)
            have hlv3 : LinkLeaves (new1 ++ new2 ++ new3) ↔ LinkLeaves new3 := by
              rw [linkLeaves_append, hlv]
              exact ⟨fun h => h.resolve_left g12, Or.inr⟩
            have hf3 : followed (new1 ++ new2 ++ new3) = followed new2 + followed new3 := by rw [followed_append, hfn]
            refine ⟨new1 ++ new2 ++ new3, res, by rw [k1]; simp, (h2.append g2).append k2, by rw [hf3]; omega, ?_, ?_⟩
            · intro d hd
              obtain ⟨k6, k7, k8, k9⟩ := k4 d hd
              exact ⟨k6, k7, fun h => k8 (hlv3.1 h), by rw [hf3]; omega⟩
            · intro e p h
              obtain ⟨k6, k7⟩ := k5 e p h
              exact ⟨fun h => hlv3.2 (k6 h), fun h => k7 (hlv3.1 h)⟩

/-! ### ResolvePath -/

theorem mem_dropLast_or_last {cs : List Str} (h : 1 < cs.length) : cs.dropLast ≠ [] ∧ cs.getLastD [] ∈ cs := by
  refine ⟨?_, ?_⟩
  · intro h0
    have := congrArg List.length h0
    simp at this; omega
  · cases cs with
    | nil => simp at h
    | cons a r => simp [List.getLastD, List.getLast_mem]

theorem resolvePath_spec (fs : Fs) (name : Str) (skip : Bool) :
    ∃ log res, resolvePath fs name skip = some (log, res) ∧ LocalCalls log ∧ followed log ≤ maxLinks ∧
      (∀ r, res = .ok r → isLocal r = true ∧ ¬ LinkLeaves log ∧ followed log < maxLinks) ∧
      (∀ e p, res = .error (e, p) → (e = .escapes → isLocal (clean name) = false ∨ LinkLeaves log) ∧ (LinkLeaves log → e = .escapes ∨ e = .loop)) := by
  unfold resolvePath
  by_cases h1 : clean name = dot
  · rw [if_pos h1]
    refine ⟨[], _, rfl, by simp [LocalCalls], by simp [followed], ?_, ?_⟩
    · intro r hr; cases hr
      exact ⟨by decide, not_linkLeaves_nil, by simp [followed, maxLinks]⟩
    · intro e p h; cases h
  · rw [if_neg h1]
    by_cases h2 : isLocal (clean name) = false
    · rw [if_pos h2]
      refine ⟨[], _, rfl, by simp [LocalCalls], by simp [followed], ?_, ?_⟩
      · intro r hr; cases hr
      · intro e p h; cases h
        exact ⟨fun _ => Or.inl h2, fun _ => Or.inl rfl⟩
    · rw [if_neg h2]
      have hloc : isLocal (clean name) = true := by simpa using h2
      have hst : ∀ c ∈ split (clean name), Step c := by
        have := split_clean hloc
        rw [clean_clean] at this
        exact this
      by_cases hs : skip = true
      · subst hs
        simp only [if_true]
        by_cases hlen : (split (clean name)).length ≤ 1
        · rw [if_pos hlen]
          refine ⟨[], _, rfl, by simp [LocalCalls], by simp [followed], ?_, ?_⟩
          · intro r hr; cases hr
            exact ⟨hloc, not_linkLeaves_nil, by simp [followed, maxLinks]⟩
          · intro e p h; cases h
        · rw [if_neg hlen]
          obtain ⟨hd, hl⟩ := mem_dropLast_or_last (cs := split (clean name)) (by omega)
          obtain ⟨new, res, k1, k2, k3, k4, k5⟩ := loop_spec fs (maxLinks + 1) 0 (split (clean name)).dropLast []
            (fun c hc => hst c (List.dropLast_subset _ hc)) hd (by simp [maxLinks]) (by simp)
          rw [k1]
          simp only [List.nil_append]
          cases res with
          | error e =>
            refine ⟨new, _, rfl, k2, by omega, ?_, ?_⟩
            · intro r hr; cases hr
            · intro e' p h
              cases h
              exact ⟨fun h => Or.inr ((k5 _ _ rfl).1 h), (k5 _ _ rfl).2⟩
          | ok d =>
            obtain ⟨k6, k7, k8, k9⟩ := k4 d rfl
            refine ⟨new, _, rfl, k2, by omega, ?_, ?_⟩
            · intro r hr; cases hr
              refine ⟨isLocal_join (by simp) ?_, k8, by omega⟩
              intro c hc
              rcases List.mem_append.1 hc with h | h
              · exact k7 c h
              · simp only [List.mem_cons, List.not_mem_nil, or_false] at h
                subst h; exact hst _ hl
            · intro e p h; cases h
      · rw [if_neg hs]
        obtain ⟨new, res, k1, k2, k3, k4, k5⟩ := loop_spec fs (maxLinks + 1) 0 (split (clean name)) [] hst (split_ne_nil _) (by simp [maxLinks]) (by simp)
        rw [k1]
        simp only [List.nil_append]
        cases res with
        | error e =>
          refine ⟨new, _, rfl, k2, by omega, ?_, ?_⟩
          · intro r hr; cases hr
          · intro e' p h
            cases h
            exact ⟨fun h => Or.inr ((k5 _ _ rfl).1 h), (k5 _ _ rfl).2⟩
        | ok d =>
          obtain ⟨k6, k7, k8, k9⟩ := k4 d rfl
          refine ⟨new, _, rfl, k2, by omega, ?_, ?_⟩
          · intro r hr; cases hr
            exact ⟨isLocal_join k6 k7, k8, by omega⟩
          · intro e p h; cases h

/-- **C28** Resolution ends, whatever the filesystem answers (cycles, and answers that change, included), and reads at most 40 links. -/
theorem C28_terminates (fs : Fs) (name : Str) (skipLast : Bool) :
    ∃ log res, resolvePath fs name skipLast = some (log, res) ∧ followed log ≤ 40 := by
  obtain ⟨log, res, h1, _, h3, _⟩ := resolvePath_spec fs name skipLast
  exact ⟨log, res, h1, h3⟩

/-- **C28** A returned path is local, and every path examined on the way is. -/
theorem C28_never_escapes (fs : Fs) (name : Str) (skipLast : Bool) (log : Log) (res : Except (Err × Str) Str)
    (h : resolvePath fs name skipLast = some (log, res)) :
    (∀ c ∈ log, isLocal c.name = true) ∧ ∀ r, res = .ok r → isLocal r = true := by
  obtain ⟨log', res', h1, h2, _, h4, _⟩ := resolvePath_spec fs name skipLast
  rw [h] at h1
  cases h1
  exact ⟨h2, fun r hr => (h4 r hr).1⟩

/-- **C28** A name or a link that leaves the root is an error: the escape error, or the loop error when the limit is reached at the same link;
and the escape error is returned for nothing else.
Missing from C28: the error is the loop error when the limit is reached at the same link. -/
theorem C28_escape_is_error_partial (fs : Fs) (name : Str) (skipLast : Bool) (log : Log) (res : Except (Err × Str) Str)
    (h : resolvePath fs name skipLast = some (log, res)) :
    ((isLocal (clean name) = false ∨ LinkLeaves log) → ∃ e p, res = .error (e, p) ∧ (e = .escapes ∨ e = .loop)) ∧
    (∀ p, res = .error (.escapes, p) → isLocal (clean name) = false ∨ LinkLeaves log) := by
  obtain ⟨log', res', h1, h2, _, h4, h5⟩ := resolvePath_spec fs name skipLast
  rw [h] at h1
  cases h1
  refine ⟨?_, fun p hp => (h5 _ _ hp).1 rfl⟩
  rintro (hn | hl)
  · unfold resolvePath at h
    have hd : clean name ≠ dot := by intro hd; rw [hd] at hn; revert hn; decide
    rw [if_neg hd, if_pos hn] at h
    cases h
    exact ⟨_, _, rfl, Or.inl rfl⟩
  · cases res with
    | ok r => exact absurd hl (h4 r rfl).2.1
    | error e =>
      obtain ⟨e, p⟩ := e
      exact ⟨e, p, rfl, (h5 e p rfl).2 hl⟩

/-- A directory "d" with a link "d/l" to "../f", a loop "x" ↔ "y", and a link "out" to "../../etc". -/
def demoFs : Fs where
  lstat := fun _ n =>
    if n = "d".toList ∨ n = "f".toList then some false
    else if n = "d/l".toList ∨ n = "x".toList ∨ n = "y".toList ∨ n = "out".toList then some true else none
  readlink := fun _ n =>
    if n = "d/l".toList then some "../f".toList else if n = "x".toList then some "y".toList else if n = "y".toList then some "x".toList
    else if n = "out".toList then some "../../etc".toList else none

/-- the result only -/
def outcome (fs : Fs) (name : Str) (skip : Bool) : Option (Except (Err × Str) Str) := (resolvePath fs name skip).map (·.2)

example : outcome demoFs "d/l".toList false = some (.ok "f".toList) := by rfl
example : outcome demoFs "d/l".toList true = some (.ok "d/l".toList) := by rfl
example : outcome demoFs "x".toList false = some (.error (.loop, "x".toList)) := by rfl
example : outcome demoFs "out".toList false = some (.error (.escapes, "out".toList)) := by rfl
example : outcome demoFs "../f".toList false = some (.error (.escapes, [])) := by rfl
example : (resolvePath demoFs "x".toList false).map (fun r => followed r.1) = some 40 := by rfl

end Verif.Fsutil.Resolve
