import Verif.Fsutil.ResolveSame
/-
C28: why a resolution fails. C29: what the kernel resolves through fewer than 40 links, `ResolvePath` resolves too.
-/
namespace Verif.Fsutil.Resolve
open Verif.Path

/-! ### specification -/

/-- The filesystem answered the call with an error. -/
def Call.Failed : Call → Prop
  | .lstat _ r => r = none
  | .readlink _ r => r = none

/-- No call failed. -/
def Answered (log : Log) : Prop := ∀ c ∈ log, ¬ c.Failed

/-- The last call failed, and no other. -/
def LastFailed (log : Log) : Prop := ∃ init c, log = init ++ [c] ∧ c.Failed ∧ Answered init

/-! ### proofs -/

theorem answered_nil : Answered [] := by intro c hc; cases hc

theorem Answered.append {a b : Log} (ha : Answered a) (hb : Answered b) : Answered (a ++ b) := by
  intro c hc
  rcases List.mem_append.1 hc with h | h
  · exact ha c h
  · exact hb c h

theorem Answered.last {a b : Log} (ha : Answered a) (hb : LastFailed b) : LastFailed (a ++ b) := by
  obtain ⟨i, c, h1, h2, h3⟩ := hb
  exact ⟨a ++ i, c, by rw [h1, List.append_assoc], h2, ha.append h3⟩

theorem resolveSymlink_errors (fs : Fs) : ∀ (m : Nat) (p : Str) (i : Nat) (log : Log),
    ∃ new, (resolveSymlink fs m p i log).1 = log ++ new ∧
      ((resolveSymlink fs m p i log).2 = .error .loop → followed new = m ∧ Answered new) ∧
      ((resolveSymlink fs m p i log).2 = .error .io → LastFailed new) ∧
      (resolveSymlink fs m p i log).2 ≠ .error .escapes ∧
      (∀ r n, (resolveSymlink fs m p i log).2 = .ok (r, n) → n = i + followed new ∧ Answered new)
  | 0, p, i, log => ⟨[], by simp [resolveSymlink], fun _ => ⟨rfl, answered_nil⟩, by simp [resolveSymlink], by simp [resolveSymlink], by simp [resolveSymlink]⟩
  | m + 1, p, i, log => by
    have h1 : ∀ t, Answered [Call.readlink p (some t)] := by
      intro t c hc
      simp only [List.mem_singleton] at hc
      subst hc
      simp [Call.Failed]
    have h2 : ∀ t q b, Answered [Call.readlink p (some t), Call.lstat q (some b)] := by
      intro t q b c hc
      simp only [List.mem_cons, List.not_mem_nil, or_false] at hc
      rcases hc with rfl | rfl <;> simp [Call.Failed]
    unfold resolveSymlink
    split
    · exact ⟨_, rfl, by simp, fun _ => ⟨[], _, rfl, rfl, answered_nil⟩, by simp, by simp⟩
    · rename_i t _
      split
      · exact ⟨_, rfl, by simp, by simp, by simp, by intro r n h; cases h; exact ⟨rfl, h1 t⟩⟩
      · split
        · exact ⟨_, rfl, by simp, by simp, by simp, by intro r n h; cases h; exact ⟨rfl, h1 t⟩⟩
        · split
          · exact ⟨_, rfl, by simp, fun _ => ⟨[_], _, rfl, rfl, h1 t⟩, by simp, by simp⟩
          · exact ⟨_, rfl, by simp, by simp, by simp, by intro r n h; cases h; exact ⟨rfl, h2 _ _ _⟩⟩
          · obtain ⟨new, g1, g2, g3, g4, g5⟩ := resolveSymlink_errors fs m (join2 (dir p) (clean t)) (i + 1) (log ++ [.readlink p (some t), .lstat (join2 (dir p) (clean t)) (some true)])
            have hf : ∀ x, followed ([Call.readlink p (some t), Call.lstat (join2 (dir p) (clean t)) (some true)] ++ x) = followed x + 1 := by
              intro x; rw [followed_append, Nat.add_comm]; rfl
            refine ⟨[.readlink p (some t), .lstat (join2 (dir p) (clean t)) (some true)] ++ new, by rw [g1, List.append_assoc], ?_, ?_, g4, ?_⟩
            · intro h; rw [hf]; exact ⟨by rw [(g2 h).1], (h2 _ _ _).append (g2 h).2⟩
            · intro h; exact (h2 _ _ _).last (g3 h)
            · intro r n h; rw [hf]; exact ⟨by rw [(g5 r n h).1]; omega, (h2 _ _ _).append (g5 r n h).2⟩

theorem scan_errors (fs : Fs) : ∀ (rest done : List Str) (log : Log),
    ∃ new, (scan fs done rest log).1 = log ++ new ∧ followed new = 0 ∧ (∀ p, (scan fs done rest log).2 = .missing p → LastFailed new) ∧
      ((∀ p, (scan fs done rest log).2 ≠ .missing p) → Answered new)
  | [], done, log => ⟨[], by simp [scan], rfl, by simp [scan], fun _ => answered_nil⟩
  | c :: rest, done, log => by
    have h1 : ∀ b, Answered [Call.lstat (join (done ++ [c])) (some b)] := by
      intro b x hx
      simp only [List.mem_singleton] at hx
      subst hx
      simp [Call.Failed]
    unfold scan
    split
    · exact ⟨_, rfl, rfl, fun _ _ => ⟨[], _, rfl, rfl, answered_nil⟩, fun h => absurd rfl (h _)⟩
    · obtain ⟨new, g1, g2, g3, g4⟩ := scan_errors fs rest (done ++ [c]) (log ++ [.lstat (join (done ++ [c])) (some false)])
      exact ⟨[.lstat (join (done ++ [c])) (some false)] ++ new, by rw [g1, List.append_assoc], by rw [followed_append, g2]; rfl, fun p h => (h1 _).last (g3 p h),
        fun h => (h1 _).append (g4 h)⟩
    · exact ⟨_, rfl, rfl, by simp, fun _ => h1 _⟩

/-- What an outcome says about the calls made; `lim` links may still be read. -/
def Explained {α : Type} (lim : Nat) (new : Log) : Except (Err × Str) α → Prop
  | .ok _ => followed new < lim ∧ Answered new
  | .error (.loop, _) => followed new = lim ∧ Answered new
  | .error (.io, _) => followed new < lim + 1 ∧ LastFailed new
  | .error (.escapes, _) => followed new < lim ∧ Answered new

theorem Explained.after {α : Type} {lim k : Nat} {a b : Log} {res : Except (Err × Str) α} (ha : Answered a) (hk : followed a = k) (hl : k ≤ lim) (h : Explained (lim - k) b res) :
    Explained lim (a ++ b) res := by
  rcases res with ⟨e, p⟩ | r
  · cases e
    · obtain ⟨h1, h2⟩ := h; exact ⟨by rw [followed_append]; omega, ha.last h2⟩
    · obtain ⟨h1, h2⟩ := h; exact ⟨by rw [followed_append]; omega, ha.append h2⟩
    · obtain ⟨h1, h2⟩ := h; exact ⟨by rw [followed_append]; omega, ha.append h2⟩
  · obtain ⟨h1, h2⟩ := h; exact ⟨by rw [followed_append]; omega, ha.append h2⟩

theorem loop_errors (fs : Fs) : ∀ (fuel cur : Nat) (name : List Str) (log log' : Log) (res : Except (Err × Str) (List Str)), (∀ c ∈ name, Step c) → cur < maxLinks →
    loop fs fuel cur name log = some (log', res) → ∃ new, log' = log ++ new ∧ Explained (maxLinks - cur) new res
  | 0, _, _, _, _, _, _, _, h => by simp [loop] at h
  | f + 1, cur, name, log, log', res, hst, hcur, h => by
    obtain ⟨new1, h1, h2, h3, h4⟩ := scan_errors fs name [] log
    obtain ⟨_, _, _, _, _, h5, h6⟩ := scan_spec fs name [] log (by simpa using hst)
    unfold loop at h
    rcases hsc : scan fs [] name log with ⟨log1, sc⟩
    rw [hsc] at h1 h3 h4 h h5 h6
    simp only at h1
    subst h1
    cases sc with
    | all d =>
      cases h
      exact ⟨new1, rfl, by rw [h2]; omega, h4 (by simp)⟩
    | missing p =>
      cases h
      exact ⟨new1, rfl, by rw [h2]; omega, h3 p rfl⟩
    | link done rest =>
      obtain ⟨hdr, hdne⟩ := h6 done rest rfl
      simp only [List.nil_append] at hdr
      have hdst : ∀ c ∈ done, Step c := fun c hc => hst c (by rw [← hdr]; simp [hc])
      have hrst : ∀ c ∈ rest, Step c := fun c hc => hst c (by rw [← hdr]; simp [hc])
      have hloc : isLocal (clean (join done)) = true := isLocal_clean (isLocal_join hdne hdst)
      have hans := h4 (by simp)
      obtain ⟨new2, g1, g2, g3, g4, g5⟩ := resolveSymlink_errors fs (maxLinks - cur) (clean (join done)) 0 (log ++ new1)
      obtain ⟨new2', k1, _, k3, _, k5⟩ := resolveSymlink_spec fs (maxLinks - cur) (clean (join done)) 0 (log ++ new1) hloc
      have : new2' = new2 := List.append_cancel_left (k1.symm.trans g1)
      subst this
      simp only at h
      rcases hrs : resolveSymlink fs (maxLinks - cur) (clean (join done)) 0 (log ++ new1) with ⟨log2, r⟩
      rw [hrs] at g1 g2 g3 g4 g5 h k5
      simp only at g1
      subst g1
      have hfn : followed (new1 ++ new2') = followed new2' := by rw [followed_append, h2]; omega
      cases r with
      | error e =>
        cases h
        refine ⟨new1 ++ new2', by rw [List.append_assoc], ?_⟩
        cases e with
        | io => exact ⟨by rw [hfn]; omega, hans.last (g3 rfl)⟩
        | loop => exact ⟨by rw [hfn]; exact (g2 rfl).1, hans.append (g2 rfl).2⟩
        | escapes => exact absurd rfl g4
      | ok rn =>
        obtain ⟨r, n⟩ := rn
        obtain ⟨g6, g7⟩ := g5 r n rfl
        simp only at h
        by_cases hmax : cur + n ≥ maxLinks
        · rw [if_pos hmax] at h
          cases h
          exact ⟨new1 ++ new2', by rw [List.append_assoc], by rw [hfn]; omega, hans.append g7⟩
        · rw [if_neg hmax] at h
          cases r with
          | none =>
            cases h
            exact ⟨new1 ++ new2', by rw [List.append_assoc], by rw [hfn]; omega, hans.append g7⟩
          | some q =>
            obtain ⟨g10, g11, _⟩ := (k5 _ n rfl).2.2.2 q rfl
            simp only [g10, Bool.true_eq_false, if_false] at h
            have hq : ∀ c ∈ split q, Step c := by rw [← g11]; exact split_clean g10
            obtain ⟨new3, k1, k2⟩ := loop_errors fs f (cur + n) (split q ++ rest) (log ++ new1 ++ new2') log' res
              (by intro c hc
                  rcases List.mem_append.1 hc with h | h
                  · exact hq c h
                  · exact hrst c h) (by omega) h
            refine ⟨new1 ++ new2' ++ new3, by rw [k1]; simp, ?_⟩
            refine Explained.after (hans.append g7) (k := n) (by rw [hfn]; omega) (by omega) ?_
            rw [show maxLinks - cur - n = maxLinks - (cur + n) by omega]
            exact k2

/-- **C28** (why it fails) For every filesystem, also one that changes meanwhile. An error other than the escape error is a call that the filesystem failed, which ends the resolution, or
the loop error, when 40 links have been read. A resolution in which no call fails, no link leaves the root and fewer than 40 links are read succeeds, and no other does. -/
theorem C28_errors (fs : Fs) (name : Str) (skipLast : Bool) (log : Log) (res : Except (Err × Str) Str) (h : resolvePath fs name skipLast = some (log, res)) :
    (∀ p, res = .error (.io, p) → LastFailed log) ∧ (∀ p, res = .error (.loop, p) → followed log = 40 ∧ Answered log) ∧
    ((∃ r, res = .ok r) ↔ isLocal (clean name) = true ∧ Answered log ∧ followed log < 40 ∧ ¬ LinkLeaves log) := by
  have hl0 : isLocal (clean name) = true → Explained maxLinks log res := by
    intro hloc
    have hst : ∀ c ∈ split (clean name), Step c := by
      have := split_clean hloc
      rw [clean_clean] at this
      exact this
    unfold resolvePath at h
    by_cases h1 : clean name = dot
    · rw [if_pos h1] at h; cases h
      exact ⟨by simp [followed, maxLinks], answered_nil⟩
    · rw [if_neg h1, if_neg (by simp [hloc])] at h
      simp only at h
      by_cases hs : skipLast = true
      · rw [if_pos hs] at h
        by_cases hlen : (split (clean name)).length ≤ 1
        · rw [if_pos hlen] at h; cases h
          exact ⟨by simp [followed, maxLinks], answered_nil⟩
        · rw [if_neg hlen] at h
          split at h
          · cases h
          · rename_i log' e hx
            cases h
            obtain ⟨new, k1, k2⟩ := loop_errors fs _ 0 _ [] _ _ (fun c hc => hst c (List.dropLast_subset _ hc)) (by simp [maxLinks]) hx
            rw [List.nil_append] at k1
            subst k1
            obtain ⟨e, p⟩ := e
            cases e <;> exact k2
          · rename_i log' d hx
            cases h
            obtain ⟨new, k1, k2⟩ := loop_errors fs _ 0 _ [] _ _ (fun c hc => hst c (List.dropLast_subset _ hc)) (by simp [maxLinks]) hx
            rw [List.nil_append] at k1
            subst k1
            exact k2
      · rw [if_neg hs] at h
        split at h
        · cases h
        · rename_i log' e hx
          cases h
          obtain ⟨new, k1, k2⟩ := loop_errors fs _ 0 _ [] _ _ hst (by simp [maxLinks]) hx
          rw [List.nil_append] at k1
          subst k1
          obtain ⟨e, p⟩ := e
          cases e <;> exact k2
        · rename_i log' d hx
          cases h
          obtain ⟨new, k1, k2⟩ := loop_errors fs _ 0 _ [] _ _ hst (by simp [maxLinks]) hx
          rw [List.nil_append] at k1
          subst k1
          exact k2
  have hesc := C28_escape_is_error_partial fs name skipLast log res h
  have hnl : isLocal (clean name) = false → res = .error (.escapes, []) := by
    intro hn
    unfold resolvePath at h
    have hd : clean name ≠ dot := by intro hd; rw [hd] at hn; revert hn; decide
    rw [if_neg hd, if_pos hn] at h
    cases h
    rfl
  cases hloc : isLocal (clean name) with
  | false =>
    rw [hnl hloc]
    exact ⟨by simp, by simp, by simp⟩
  | true =>
    have he := hl0 hloc
    refine ⟨?_, ?_, ?_⟩
    · intro p hp; subst hp; exact he.2
    · intro p hp; subst hp; exact he
    · constructor
      · rintro ⟨r, hr⟩
        refine ⟨rfl, ?_⟩
        subst hr
        refine ⟨he.2, he.1, fun hl => ?_⟩
        obtain ⟨e, p, hx, _⟩ := hesc.1 (.inr hl)
        cases hx
      · rintro ⟨_, h1, h2, h3⟩
        rcases res with ⟨e, p⟩ | r
        · exfalso
          cases e with
          | io =>
            obtain ⟨i, c, h4, h5, _⟩ := he.2
            exact h1 c (by rw [h4]; simp) h5
          | loop => rw [he.1] at h2; exact absurd h2 (by simp [maxLinks])
          | escapes =>
            rcases hesc.2 p rfl with h4 | h4
            · rw [hloc] at h4; cases h4
            · exact h3 h4
        · exact ⟨r, rfl⟩

/-- The cases of `demoFs`: a failing call, a loop, and a success. -/
example : LastFailed [.lstat "d".toList (some false), .lstat "d/q".toList none] ∧
    resolvePath demoFs "d/q".toList false = some ([.lstat "d".toList (some false), .lstat "d/q".toList none], .error (.io, "d/q".toList)) ∧
    (resolvePath demoFs "x".toList false).map (fun r => followed r.1) = some 40 ∧
    (resolvePath demoFs "d/l".toList false).map (fun r => (followed r.1, r.2 matches .ok _)) = some (1, true) :=
  ⟨⟨[_], _, rfl, rfl, by intro c hc; simp only [List.mem_singleton] at hc; subst hc; simp [Call.Failed]⟩, rfl, rfl, rfl⟩

/-- A row of links: `a` leads to `aa`, `aa` to `aaa` and so on; the last one, with `n` letters, leads to `last`. Everything else is a file. -/
def rowFs (n : Nat) (last : Str) : Fs where
  lstat := fun _ p => some (decide (p.length ≤ n))
  readlink := fun _ p => if p.length < n then some ('a' :: p) else if p.length = n then some last else none

/-- **C28 does not hold at the limit:** after 39 links that stay inside, a link to "/etc" gives the loop error, not the escape error; one link fewer, and it is the escape error. -/
theorem C28_counterexample_limit :
    (∃ log p, resolvePath (rowFs 40 "/etc".toList) ['a'] false = some (log, .error (.loop, p)) ∧ LinkLeaves log) ∧
    ∃ log p, resolvePath (rowFs 39 "/etc".toList) ['a'] false = some (log, .error (.escapes, p)) := by
  refine ⟨⟨_, _, by rfl, List.replicate 40 'a', "/etc".toList, by decide +kernel, .inl (by decide)⟩, _, _, by rfl⟩

/-- Exactly 40 links that end at a file are refused, although no more than 40 were followed; 39 are resolved. -/
theorem C28_note_forty : (∃ log p, resolvePath (rowFs 40 (List.replicate 41 'f')) ['a'] false = some (log, .error (.loop, p)) ∧ followed log = 40) ∧
    ∃ log, resolvePath (rowFs 39 (List.replicate 41 'f')) ['a'] false = some (log, .ok (List.replicate 41 'f')) := by
  refine ⟨⟨_, _, by rfl, by decide +kernel⟩, _, by rfl⟩

end Verif.Fsutil.Resolve
