import Verif.Sftp.Requests
/-
What RemoveAll of the SFTP filesystem leaves on the server, whatever fails (C75).
-/
namespace Verif.Sftp
open Verif.Path Verif.Vroot

/-! ## A server holding files -/

/-- What is on the server: for every path, by its elements, nothing, a directory (`some true`) or something else.  Simplified: paths lead through directories, not through links. -/
abbrev Disk := List Str → Option Bool

/-- How one request goes: it works; it is refused; it is carried out but its answer is lost; or (a listing) some names are returned with an error. -/
inductive Fault where
  | works
  | refused
  | lost
  | partly (keep : Str → Bool)

/-- Everything arbitrary about the server: how each request goes, and in which order (and how often) names are listed. -/
structure Env where
  fault : List Req → Req → Fault
  order : List Req → List Str → List Str

/-- The names in a directory. -/
def Env.listing (E : Env) (log : List Req) (d : Disk) (p : List Str) : List Str := (E.order log p).filter (fun n => (d (p ++ [n])).isSome)

/-- Carrying out a request: what is on the server afterwards and the answer.  Only `Remove` changes anything here, and it removes no directory that holds something
(`Client.Remove` tries to unlink and then to remove a directory). -/
def Env.carry (E : Env) (log : List Req) (d : Disk) : Req → Disk × Ans
  | .remove p => match d (comps p) with
    | none => (d, .notExist)
    | some isDir => if isDir ∧ E.listing log d (comps p) ≠ [] then (d, .err) else (fun q => if q = comps p then none else d q, .ok)
  | .lstat p => match d (comps p) with
    | none => (d, .notExist)
    | some isDir => (d, .info isDir)
  | .readDir p => match d (comps p) with
    | none => (d, .notExist)
    | some true => (d, .names (E.listing log d (comps p)))
    | some false => (d, .err)
  | _ => (d, .err)

/-- One request, with its fault. -/
def Env.serve (E : Env) (log : List Req) (d : Disk) (r : Req) : Disk × Ans :=
  match E.fault log r with
  | .works => E.carry log d r
  | .refused => (d, .err)
  | .lost => ((E.carry log d r).1, .err)
  | .partly keep => match E.carry log d r with
    | (d, .names l) => (d, .someNames (l.filter keep))
    | (d, _) => (d, .err)

/-- What is on the server after the requests of a log. -/
def Env.after (E : Env) (d : Disk) (log : List Req) : Disk := (log.foldl (fun s r => (s.1 ++ [r], (E.serve s.1 s.2 r).1)) (([] : List Req), d)).2

/-- The server as the client sees it. -/
def Env.server (E : Env) (d : Disk) : Server := fun log r => (E.serve log (E.after d log) r).2

/-! ## Specification -/

/-- Everything lies in directories. -/
def Disk.Tree (d : Disk) : Prop := ∀ p n, d (p ++ [n]) ≠ none → d p = some true

/-- Listings hold names, and at least those there are. -/
structure Env.Lists (E : Env) (d : Disk) : Prop where
  names : ∀ log p, ∀ n ∈ E.order log p, IsName n
  all : ∀ log p n, d (p ++ [n]) ≠ none → n ∈ E.order log p

/-- Nothing outside `p` changed, and inside things were only removed. -/
def OnlyRemoved (p : List Str) (d d' : Disk) : Prop := (∀ q, ¬ p <+: q → d' q = d q) ∧ ∀ q, d' q = d q ∨ d' q = none

/-! ## Proofs -/

theorem snoc_induction {α : Type} {P : List α → Prop} (h0 : P []) (hs : ∀ l a, P l → P (l ++ [a])) (l : List α) : P l := by
  have : ∀ l : List α, P l.reverse := by
    intro l
    induction l with
    | nil => exact h0
    | cons a t ih => rw [List.reverse_cons]; exact hs _ _ ih
  have h := this l.reverse
  rwa [List.reverse_reverse] at h

theorem foldl_log (E : Env) : ∀ (log : List Req) (s : List Req × Disk), (log.foldl (fun s r => (s.1 ++ [r], (E.serve s.1 s.2 r).1)) s).1 = s.1 ++ log := by
  intro log
  induction log with
  | nil => intro s; simp
  | cons r t ih => intro s; rw [List.foldl_cons, ih]; simp

theorem after_snoc (E : Env) (d : Disk) (log : List Req) (r : Req) : E.after d (log ++ [r]) = (E.serve log (E.after d log) r).1 := by
  unfold Env.after
  rw [List.foldl_append]
  simp only [List.foldl_cons, List.foldl_nil]
  rw [foldl_log]
  rfl

theorem carry_kinds (E : Env) (log : List Req) (d : Disk) (r : Req) :
    (E.carry log d r).1 = d ∨ ∃ p isDir, r = .remove p ∧ d (comps p) = some isDir ∧ (isDir = true → E.listing log d (comps p) = []) ∧ (E.carry log d r).2 = .ok ∧
      (E.carry log d r).1 = fun q => if q = comps p then none else d q := by
  cases r with
  | remove p =>
    simp only [Env.carry]
    cases h : d (comps p) with
    | none => left; rfl
    | some isDir =>
      simp only
      split
      · left; rfl
      · rename_i hc
        right
        refine ⟨p, isDir, rfl, h, ?_, rfl, rfl⟩
        intro hd
        have hc' := fun h => hc ⟨hd, h⟩
        simpa using hc'
  | lstat p => left; simp only [Env.carry]; split <;> rfl
  | readDir p => left; simp only [Env.carry]; split <;> rfl
  | _ => left; rfl

theorem serve_kinds (E : Env) (log : List Req) (d : Disk) (r : Req) :
    (E.serve log d r).1 = d ∨ ∃ p isDir, r = .remove p ∧ d (comps p) = some isDir ∧ (isDir = true → E.listing log d (comps p) = []) ∧
      (E.serve log d r).1 = fun q => if q = comps p then none else d q := by
  have h := carry_kinds E log d r
  unfold Env.serve
  split
  · rcases h with h | ⟨p, i, h1, h2, h3, _, h4⟩
    · exact .inl h
    · exact .inr ⟨p, i, h1, h2, h3, h4⟩
  · left; rfl
  · rcases h with h | ⟨p, i, h1, h2, h3, _, h4⟩
    · exact .inl h
    · exact .inr ⟨p, i, h1, h2, h3, h4⟩
  · rcases hc : E.carry log d r with ⟨d', a⟩
    rw [hc] at h
    have h' : d' = d ∨ ∃ p isDir, r = .remove p ∧ d (comps p) = some isDir ∧ (isDir = true → E.listing log d (comps p) = []) ∧ d' = fun q => if q = comps p then none else d q := by
      rcases h with h | ⟨p, i, h1, h2, h3, _, h4⟩
      · exact .inl h
      · exact .inr ⟨p, i, h1, h2, h3, h4⟩
    cases a <;> exact h'

/-- What every state has in common. -/
structure Fine (E : Env) (d : Disk) : Prop where
  tree : d.Tree
  names : ∀ log p, ∀ n ∈ E.order log p, IsName n
  all : ∀ log p n, d (p ++ [n]) ≠ none → n ∈ E.order log p

theorem Fine.mem_listing {E : Env} {d : Disk} (h : Fine E d) {log : List Req} {p : List Str} {n : Str} : n ∈ E.listing log d p ↔ d (p ++ [n]) ≠ none := by
  unfold Env.listing
  rw [List.mem_filter]
  constructor
  · rintro ⟨_, h2⟩ h3; rw [h3] at h2; cases h2
  · intro h2
    refine ⟨h.all log p n h2, ?_⟩
    cases hd : d (p ++ [n]) with
    | none => exact absurd hd h2
    | some _ => rfl

theorem Fine.none_below {E : Env} {d : Disk} (h : Fine E d) {p q : List Str} (hp : d p ≠ some true) (hq : p <+: q) (hne : q ≠ p) : d q = none := by
  obtain ⟨t, rfl⟩ := hq
  induction t using snoc_induction with
  | h0 => simp at hne
  | hs t n ih =>
    rw [← List.append_assoc]
    by_cases ht : t = []
    · subst ht
      cases hd : d (p ++ [] ++ [n]) with
      | none => rfl
      | some _ =>
        have := h.tree (p ++ []) n (by rw [hd]; simp)
        rw [List.append_nil] at this
        exact absurd this hp
    · cases hd : d (p ++ t ++ [n]) with
      | none => rfl
      | some _ =>
        have := h.tree (p ++ t) n (by rw [hd]; simp)
        rw [ih (by simpa using ht)] at this
        cases this

/-- Something strictly below `p` lies below an entry of `p`. -/
theorem Fine.child_exists {E : Env} {d : Disk} (h : Fine E d) {p q : List Str} (hq : p <+: q) (hne : q ≠ p) (hd : d q ≠ none) : ∃ n, (p ++ [n]) <+: q ∧ d (p ++ [n]) ≠ none := by
  obtain ⟨t, rfl⟩ := hq
  cases t with
  | nil => simp at hne
  | cons n t =>
    refine ⟨n, ⟨t, by simp⟩, ?_⟩
    intro h0
    by_cases ht : t = []
    · subst ht; exact hd h0
    · exact hd (h.none_below (p := p ++ [n]) (by rw [h0]; simp) ⟨t, by simp⟩ (by simpa using ht))

theorem Fine.serve {E : Env} {d : Disk} (h : Fine E d) (log : List Req) (r : Req) : Fine E (E.serve log d r).1 := by
  rcases serve_kinds E log d r with h1 | ⟨p, i, rfl, h2, h3, h4⟩
  · rw [h1]; exact h
  · rw [h4]
    refine ⟨?_, h.names, ?_⟩
    · intro q n hq
      simp only at hq ⊢
      split at hq
      · exact absurd rfl hq
      · have hqd := h.tree q n hq
        split
        · rename_i hqp
          subst hqp
          rw [h2] at hqd
          have := h3 (by simpa using hqd)
          have hm := (h.mem_listing (log := log)).2 hq
          rw [this] at hm
          cases hm
        · exact hqd
    · intro log q n hq
      split at hq
      · exact absurd rfl hq
      · exact h.all log q n hq

theorem Fine.after {E : Env} {d : Disk} (h : Fine E d) (log : List Req) : Fine E (E.after d log) := by
  induction log using snoc_induction with
  | h0 => exact h
  | hs log r ih => rw [after_snoc]; exact ih.serve log r

theorem OnlyRemoved.refl (p : List Str) (d : Disk) : OnlyRemoved p d d := ⟨fun _ _ => rfl, fun _ => .inl rfl⟩

theorem OnlyRemoved.trans {p : List Str} {d1 d2 d3 : Disk} (h1 : OnlyRemoved p d1 d2) (h2 : OnlyRemoved p d2 d3) : OnlyRemoved p d1 d3 := by
  refine ⟨fun q hq => (h2.1 q hq).trans (h1.1 q hq), fun q => ?_⟩
  rcases h2.2 q with h | h
  · rcases h1.2 q with h' | h'
    · exact .inl (h.trans h')
    · exact .inr (h.trans h')
  · exact .inr h

theorem OnlyRemoved.mono {p p' : List Str} {d d' : Disk} (h : OnlyRemoved p' d d') (hp : p <+: p') : OnlyRemoved p d d' :=
  ⟨fun q hq => h.1 q (fun h2 => hq (hp.trans h2)), h.2⟩

theorem serve_only {E : Env} {d : Disk} (log : List Req) (r : Req) (p : List Str) (hr : ∀ x, r = .remove x → comps x = p) : OnlyRemoved p d (E.serve log d r).1 := by
  rcases serve_kinds E log d r with h1 | ⟨x, i, rfl, h2, h3, h4⟩
  · rw [h1]; exact .refl _ _
  · rw [h4, hr x rfl]
    refine ⟨fun q hq => ?_, fun q => ?_⟩
    · simp only; rw [if_neg]; rintro rfl; exact hq List.prefix_rfl
    · simp only; split
      · exact .inr rfl
      · exact .inl rfl

/-- A removal that is answered without an error leaves nothing. -/
theorem serve_remove_gone {E : Env} {d : Disk} (log : List Req) (x : Str) (h : (E.serve log d (.remove x)).2 ≠ .err) : (E.serve log d (.remove x)).1 (comps x) = none := by
  unfold Env.serve at h ⊢
  have key : (E.carry log d (.remove x)).2 ≠ .err → (E.carry log d (.remove x)).1 (comps x) = none := by
    simp only [Env.carry]
    cases hd : d (comps x) with
    | none => intro _; exact hd
    | some i =>
      simp only
      split
      · intro h; exact absurd rfl h
      · intro _; simp
  split at h
  · rename_i hf; exact key h
  · exact absurd rfl h
  · exact absurd rfl h
  · exfalso
    rcases hc : E.carry log d (.remove x) with ⟨d', a⟩
    rw [hc] at h
    cases a with
    | names l =>
      have : (E.carry log d (.remove x)).2 = .names l := by rw [hc]
      simp only [Env.carry] at this
      split at this
      · cases this
      · split at this <;> cases this
    | _ => exact h rfl

/-- An answer "does not exist" is true, except where a removal was meant (there it is true as well). -/
theorem serve_notExist {E : Env} {d : Disk} (log : List Req) (r : Req) (p : List Str) (hr : ∀ q ∈ r.paths, comps q = p) (h : (E.serve log d r).2 = .notExist) : d p = none := by
  have key : (E.carry log d r).2 = .notExist → d p = none := by
    intro hc
    cases r with
    | remove x =>
      have hx := hr x List.mem_cons_self
      subst hx
      simp only [Env.carry] at hc
      split at hc
      · assumption
      · split at hc <;> cases hc
    | lstat x =>
      have hx := hr x List.mem_cons_self
      subst hx
      simp only [Env.carry] at hc
      split at hc
      · assumption
      · cases hc
    | readDir x =>
      have hx := hr x List.mem_cons_self
      subst hx
      simp only [Env.carry] at hc
      split at hc
      · assumption
      · cases hc
      · cases hc
    | _ => cases hc
  unfold Env.serve at h
  split at h
  · exact key h
  · cases h
  · cases h
  · split at h <;> cases h

/-- Lstat and ReadDir change nothing. -/
theorem serve_reads {E : Env} {d : Disk} (log : List Req) (r : Req) (hr : ∀ x, r ≠ .remove x) : (E.serve log d r).1 = d := by
  rcases serve_kinds E log d r with h1 | ⟨x, i, rfl, _⟩
  · exact h1
  · exact absurd rfl (hr x)

/-- Names returned by a listing are those of entries there are. -/
theorem serve_listed {E : Env} {d : Disk} (h : Fine E d) (log : List Req) (x : Str) (n : Str) (hn : n ∈ (E.serve log d (.readDir x)).2.listed) :
    IsName n ∧ d (comps x ++ [n]) ≠ none := by
  have key : ∀ l, (E.carry log d (.readDir x)).2 = .names l → n ∈ l → IsName n ∧ d (comps x ++ [n]) ≠ none := by
    intro l hc hm
    simp only [Env.carry] at hc
    split at hc
    · cases hc
    · cases hc
      exact ⟨h.names log (comps x) n (List.mem_filter.1 hm).1, h.mem_listing.1 hm⟩
    · cases hc
  unfold Env.serve at hn
  split at hn
  · cases ha : (E.carry log d (.readDir x)).2 with
    | names l => rw [ha] at hn; exact key l ha hn
    | someNames l =>
      exfalso
      simp only [Env.carry] at ha
      split at ha <;> cases ha
    | _ => rw [ha] at hn; cases hn
  · cases hn
  · cases hn
  · split at hn
    · rename_i hc
      simp only [Ans.listed] at hn
      exact key _ (by rw [hc]) (List.mem_filter.1 hn).1
    · cases hn

theorem comps_child {abs e : Str} (ha : abs ≠ []) (he : IsName e) : comps (abs ++ slash :: e) = comps abs ++ [e] := by
  rw [comps_join abs e ha (by rw [comps_name he]; intro c hc; simp at hc; subst hc; exact he) (isAbs_name he.1), comps_name he]

/-- What a removal may be relied on for: only things at or below `p` are gone, and if it reports no failure, `p` is. -/
def Safe (E : Env) (d0 : Disk) (p : List Str) (log : List Req) (r : List Req × Bool) : Prop :=
  OnlyRemoved p (E.after d0 log) (E.after d0 r.1) ∧ (r.2 = false → E.after d0 r.1 p = none)

theorem removeEach_safe {E : Env} {d0 : Disk} {rec : Str → List Req → Option (List Req × Bool)}
    {abs : Str} (hrec : ∀ e log r, IsName e → rec (abs ++ slash :: e) log = some r → OnlyRemoved (comps abs) (E.after d0 log) (E.after d0 r.1)) :
    ∀ (es : List Str), (∀ e ∈ es, IsName e) → ∀ log failed r, removeEach rec abs es log failed = some r → OnlyRemoved (comps abs) (E.after d0 log) (E.after d0 r.1) := by
  intro es
  induction es with
  | nil => intro _ log failed r hr; cases hr; exact .refl _ _
  | cons e rest ih =>
    intro he log failed r hr
    unfold removeEach at hr
    split at hr
    · cases hr
    · rename_i log' f heq
      exact (hrec e log _ (he e List.mem_cons_self) heq).trans (ih (fun x hx => he x (List.mem_cons_of_mem _ hx)) log' _ r hr)

theorem removeAll_safe {E : Env} {d0 : Disk} (h0 : Fine E d0) : ∀ fuel abs log r, abs ≠ [] → removeAll (E.server d0) fuel abs log = some r → Safe E d0 (comps abs) log r := by
  intro fuel
  induction fuel with
  | zero => intro abs log r _ h; cases h
  | succ f ih =>
    intro abs log r hne h
    have s1 : OnlyRemoved (comps abs) (E.after d0 log) (E.after d0 (log ++ [.remove abs])) := by
      rw [after_snoc]; exact serve_only _ _ _ (fun x hx => by cases hx; rfl)
    have e2 : E.after d0 (log ++ [.remove abs] ++ [.lstat abs]) = E.after d0 (log ++ [.remove abs]) := by
      rw [after_snoc E d0 (log ++ [Req.remove abs])]; exact serve_reads _ _ (by simp)
    have e3 : E.after d0 (log ++ [.remove abs] ++ [.lstat abs] ++ [.readDir abs]) = E.after d0 (log ++ [.remove abs]) := by
      rw [after_snoc E d0 (log ++ [Req.remove abs] ++ [Req.lstat abs]), e2]; exact serve_reads _ _ (by simp)
    unfold removeAll at h
    simp only [send] at h
    split at h
    · rename_i log1 heq1
      obtain ⟨rfl, _⟩ := Prod.mk.inj heq1
      split at h
      · rename_i log2 heq2
        obtain ⟨rfl, h2⟩ := Prod.mk.inj heq2
        cases h
        refine ⟨by rw [e2]; exact s1, fun _ => ?_⟩
        rw [e2]
        exact serve_notExist _ _ _ (by simp [Req.paths]) h2
      · rename_i log2 heq2
        obtain ⟨rfl, _⟩ := Prod.mk.inj heq2
        split at h
        · rename_i log3 heq3
          obtain ⟨rfl, h3⟩ := Prod.mk.inj heq3
          cases h
          refine ⟨by rw [e3]; exact s1, fun _ => ?_⟩
          rw [e3, ← e2]
          exact serve_notExist _ _ _ (by simp [Req.paths]) h3
        · rename_i log3 a hna heq3
          obtain ⟨h31, h32⟩ := Prod.mk.inj heq3
          subst h31
          split at h
          · cases h
          · rename_i log4 failed heq4
            have hes : ∀ e ∈ a.listed, IsName e := by
              intro e he
              rw [← h32] at he
              exact (serve_listed (h0.after _) _ _ _ he).1
            have s4 := removeEach_safe (E := E) (d0 := d0) (fun e lg r' he hr =>
              ((ih _ lg r' (by simp) hr).1).mono (by rw [comps_child hne he]; exact List.prefix_append _ _)) _ hes _ _ _ heq4
            rw [e3] at s4
            have s5 : OnlyRemoved (comps abs) (E.after d0 log4) (E.after d0 (log4 ++ [.remove abs])) := by
              rw [after_snoc]; exact serve_only _ _ _ (fun x hx => by cases hx; rfl)
            split at h
            · rename_i log5 heq5
              obtain ⟨rfl, _⟩ := Prod.mk.inj heq5
              cases h
              exact ⟨(s1.trans s4).trans s5, fun h => by cases h⟩
            · rename_i log5 ans hans heq5
              obtain ⟨rfl, h5⟩ := Prod.mk.inj heq5
              cases h
              refine ⟨(s1.trans s4).trans s5, fun _ => ?_⟩
              rw [after_snoc]
              exact serve_remove_gone _ _ (by
                have : (E.serve log4 (E.after d0 log4) (.remove abs)).2 = ans := h5
                rw [this]; exact hans)
      · rename_i log2 _ _ _ heq2
        obtain ⟨rfl, _⟩ := Prod.mk.inj heq2
        cases h
        exact ⟨by rw [e2]; exact s1, fun h => by cases h⟩
    · rename_i log1 ans hans heq1
      obtain ⟨rfl, h1⟩ := Prod.mk.inj heq1
      cases h
      refine ⟨s1, fun _ => ?_⟩
      rw [after_snoc]
      exact serve_remove_gone _ _ (by
        have : (E.serve log (E.after d0 log) (.remove abs)).2 = ans := h1
        rw [this]; exact hans)

theorem removeEach_ends {rec : Str → List Req → Option (List Req × Bool)} {abs : Str} : ∀ (es : List Str), (∀ e ∈ es, ∀ log, rec (abs ++ slash :: e) log ≠ none) → ∀ log failed,
    removeEach rec abs es log failed ≠ none := by
  intro es
  induction es with
  | nil => intro _ log failed h; cases h
  | cons e rest ih =>
    intro hrec log failed
    unfold removeEach
    cases hr : rec (abs ++ slash :: e) log with
    | none => exact absurd hr (hrec e List.mem_cons_self log)
    | some x => exact ih (fun e he => hrec e (List.mem_cons_of_mem _ he)) _ _

/-- What was once gone stays gone. -/
theorem after_shrinks {E : Env} {d0 : Disk} (log : List Req) (q : List Str) : E.after d0 log q = d0 q ∨ E.after d0 log q = none := by
  induction log using snoc_induction with
  | h0 => left; rfl
  | hs log r ih =>
    rw [after_snoc]
    rcases serve_kinds E log (E.after d0 log) r with h1 | ⟨x, i, rfl, _, _, h4⟩
    · rw [h1]; exact ih
    · rw [h4]
      simp only
      split
      · right; rfl
      · exact ih

theorem removeAll_ends {E : Env} {d0 : Disk} (h0 : Fine E d0) (D : Nat) (hD : ∀ q, d0 q ≠ none → q.length ≤ D) : ∀ fuel abs log, abs ≠ [] → D + 1 ≤ (comps abs).length + fuel → 0 < fuel →
    removeAll (E.server d0) fuel abs log ≠ none := by
  intro fuel
  induction fuel with
  | zero => intro abs log _ _ h; omega
  | succ f ih =>
    intro abs log hne hle _ h
    unfold removeAll at h
    simp only [send] at h
    split at h
    · rename_i log1 heq1
      obtain ⟨rfl, _⟩ := Prod.mk.inj heq1
      split at h
      · cases h
      · rename_i log2 heq2
        obtain ⟨rfl, _⟩ := Prod.mk.inj heq2
        split at h
        · cases h
        · rename_i log3 a hna heq3
          obtain ⟨h31, h32⟩ := Prod.mk.inj heq3
          subst h31
          split at h
          · rename_i heq4
            refine removeEach_ends _ ?_ _ _ heq4
            intro e he lg
            rw [← h32] at he
            obtain ⟨hn, hd⟩ := serve_listed (h0.after _) _ _ _ he
            have hd0 : d0 (comps abs ++ [e]) ≠ none := by
              rcases after_shrinks (E := E) (d0 := d0) (log ++ [.remove abs] ++ [.lstat abs]) (comps abs ++ [e]) with h | h
              · rw [← h]; exact hd
              · exact absurd h hd
            have hlen := hD _ hd0
            simp only [List.length_append, List.length_cons, List.length_nil] at hlen
            refine ih _ lg (by simp) ?_ (by omega)
            rw [comps_child hne hn]
            simp only [List.length_append, List.length_cons, List.length_nil]
            omega
          · split at h <;> cases h
      · cases h
    · cases h

/-! ## Refused removals -/

/-- A server that works, except that it refuses to remove certain things (permissions, say). -/
def Env.refusing (order : List Req → List Str → List Str) (prot : List Str → Bool) : Env where
  fault := fun _ r => match r with | .remove p => if prot (comps p) then .refused else .works | _ => .works
  order := order

/-- There is something at or below `q` that must not be removed. -/
def Held (prot : List Str → Bool) (d : Disk) (q : List Str) : Prop := ∃ x, q <+: x ∧ d x ≠ none ∧ prot x = true

open Classical in
/-- What a complete removal of the places `inside` leaves: everything outside, and inside what holds something that must not be removed. -/
noncomputable def leaves (prot : List Str → Bool) (d : Disk) (inside : List Str → Prop) : Disk := fun q => if inside q ∧ ¬ Held prot d q then none else d q

theorem leaves_some {prot : List Str → Bool} {d : Disk} {inside : List Str → Prop} {q : List Str} (h : Held prot d q) : leaves prot d inside q = d q := by
  unfold leaves; rw [if_neg (fun h2 => h2.2 h)]

theorem leaves_outside {prot : List Str → Bool} {d : Disk} {inside : List Str → Prop} {q : List Str} (h : ¬ inside q) : leaves prot d inside q = d q := by
  unfold leaves; rw [if_neg (fun h2 => h h2.1)]

theorem leaves_gone {prot : List Str → Bool} {d : Disk} {inside : List Str → Prop} {q : List Str} (h1 : inside q) (h2 : ¬ Held prot d q) : leaves prot d inside q = none := by
  unfold leaves; rw [if_pos ⟨h1, h2⟩]

theorem held_leaves {prot : List Str → Bool} {d : Disk} {inside : List Str → Prop} (q : List Str) : Held prot (leaves prot d inside) q ↔ Held prot d q := by
  constructor
  · rintro ⟨x, h1, h2, h3⟩
    refine ⟨x, h1, ?_, h3⟩
    intro h
    apply h2
    unfold leaves
    split
    · rfl
    · exact h
  · rintro ⟨x, h1, h2, h3⟩
    exact ⟨x, h1, by rw [leaves_some ⟨x, List.prefix_rfl, h2, h3⟩]; exact h2, h3⟩

theorem leaves_leaves {prot : List Str → Bool} {d : Disk} {i j : List Str → Prop} : leaves prot (leaves prot d i) j = leaves prot d (fun q => i q ∨ j q) := by
  funext q
  by_cases hh : Held prot d q
  · rw [leaves_some ((held_leaves q).2 hh), leaves_some hh, leaves_some hh]
  · by_cases hi : i q
    · have h1 : leaves prot d i q = none := leaves_gone hi hh
      rw [leaves_gone (.inl hi) hh]
      by_cases hj : j q
      · exact leaves_gone hj (fun h => hh ((held_leaves q).1 h))
      · rw [leaves_outside hj, h1]
    · by_cases hj : j q
      · rw [leaves_gone (.inr hj) hh]; exact leaves_gone hj (fun h => hh ((held_leaves q).1 h))
      · rw [leaves_outside hj, leaves_outside hi, leaves_outside (by rintro (h | h); exact hi h; exact hj h)]

section
variable {order : List Req → List Str → List Str} {prot : List Str → Bool} {d0 : Disk}

theorem removeEach_complete {rec : Str → List Req → Option (List Req × Bool)} {abs : Str}
    (hrec : ∀ e log r, IsName e → rec (abs ++ slash :: e) log = some r →
      (Env.refusing order prot).after d0 r.1 = leaves prot ((Env.refusing order prot).after d0 log) (fun q => (comps abs ++ [e]) <+: q) ∧
      (r.2 = true ↔ Held prot ((Env.refusing order prot).after d0 log) (comps abs ++ [e]))) :
    ∀ (es : List Str), (∀ e ∈ es, IsName e) → ∀ log failed r, removeEach rec abs es log failed = some r →
      (Env.refusing order prot).after d0 r.1 = leaves prot ((Env.refusing order prot).after d0 log) (fun q => ∃ e ∈ es, (comps abs ++ [e]) <+: q) ∧
      (r.2 = true ↔ failed = true ∨ ∃ e ∈ es, Held prot ((Env.refusing order prot).after d0 log) (comps abs ++ [e])) := by
  intro es
  induction es with
  | nil =>
    intro _ log failed r hr
    cases hr
    refine ⟨?_, by simp⟩
    funext q
    rw [leaves_outside (by simp)]
  | cons e rest ih =>
    intro he log failed r hr
    unfold removeEach at hr
    split at hr
    · cases hr
    · rename_i log' f heq
      obtain ⟨h1, h2⟩ := hrec e log _ (he e List.mem_cons_self) heq
      obtain ⟨h3, h4⟩ := ih (fun x hx => he x (List.mem_cons_of_mem _ hx)) log' _ r hr
      simp only at h1 h2
      rw [h1] at h3 h4
      refine ⟨?_, ?_⟩
      · rw [h3, leaves_leaves]
        congr 1
        funext q
        simp
      · rw [h4, Bool.or_eq_true, h2]
        simp only [held_leaves, List.mem_cons, exists_eq_or_imp]
        exact or_assoc

end

theorem removeAll_complete (order : List Req → List Str → List Str) (prot : List Str → Bool) {d0 : Disk} (h0 : Fine (Env.refusing order prot) d0) : ∀ fuel abs log r, abs ≠ [] →
    removeAll ((Env.refusing order prot).server d0) fuel abs log = some r →
    (Env.refusing order prot).after d0 r.1 = leaves prot ((Env.refusing order prot).after d0 log) (fun q => comps abs <+: q) ∧
    (r.2 = true ↔ Held prot ((Env.refusing order prot).after d0 log) (comps abs)) := by
  intro fuel
  induction fuel with
  | zero => intro abs log r _ h; cases h
  | succ f ih =>
    intro abs log r hne h
    let E := Env.refusing order prot
    let d := E.after d0 log
    have hE : ∀ lg dk, (E.serve lg dk (.remove abs)) = if prot (comps abs) then (dk, .err) else E.carry lg dk (.remove abs) := by
      intro lg dk
      unfold Env.serve
      show (match (if prot (comps abs) then Fault.refused else .works) with | .works => _ | .refused => _ | .lost => _ | .partly keep => _) = _
      split
      · rename_i hx; split at hx
        · cases hx
        · rename_i hp; rw [if_neg hp]
      · rename_i hx; split at hx
        · rename_i hp; rw [if_pos hp]
        · cases hx
      · rename_i hx; split at hx <;> cases hx
      · rename_i hx; split at hx <;> cases hx
    have hread : ∀ lg dk, E.serve lg dk (.lstat abs) = E.carry lg dk (.lstat abs) := fun _ _ => rfl
    have hread' : ∀ lg dk, E.serve lg dk (.readDir abs) = E.carry lg dk (.readDir abs) := fun _ _ => rfl
    have hF : Fine E d := h0.after log
    -- nothing at `abs`
    have nothing : d (comps abs) = none → ∀ q, comps abs <+: q → d q = none := by
      intro h q hq
      by_cases hqe : q = comps abs
      · rw [hqe]; exact h
      · exact hF.none_below (by rw [h]; simp) hq hqe
    have nothing' : d (comps abs) = none → leaves prot d (fun q => comps abs <+: q) = d ∧ ¬ Held prot d (comps abs) := by
      intro h
      refine ⟨?_, ?_⟩
      · funext q
        by_cases hq : comps abs <+: q
        · by_cases hh : Held prot d q
          · exact leaves_some hh
          · rw [leaves_gone hq hh, nothing h q hq]
        · exact leaves_outside hq
      · rintro ⟨x, h1, h2, _⟩; exact h2 (nothing h x h1)
    -- the first removal was not answered by an error
    have ok1 : (E.serve log d (.remove abs)).2 ≠ .err →
        (E.serve log d (.remove abs)).1 = leaves prot d (fun q => comps abs <+: q) ∧ ¬ Held prot d (comps abs) := by
      intro hok
      rw [hE] at hok ⊢
      split at hok
      · exact absurd rfl hok
      · rename_i hp
        rw [if_neg hp]
        simp only [Env.carry] at hok ⊢
        cases hd : d (comps abs) with
        | none =>
          obtain ⟨n1, n2⟩ := nothing' hd
          exact ⟨n1.symm, n2⟩
        | some i =>
          rw [hd] at hok
          simp only at hok ⊢
          split at hok
          · exact absurd rfl hok
          · rename_i hc
            rw [if_neg hc]
            have below : ∀ q, comps abs <+: q → q ≠ comps abs → d q = none := by
              intro q hq hqe
              cases i with
              | false => exact hF.none_below (by rw [hd]; simp) hq hqe
              | true =>
                cases hdq : d q with
                | none => rfl
                | some _ =>
                  exfalso
                  obtain ⟨n, hn1, hn2⟩ := hF.child_exists hq hqe (by rw [hdq]; simp)
                  have hm := (hF.mem_listing (log := log)).2 hn2
                  apply hc
                  refine ⟨rfl, fun hl => ?_⟩
                  rw [hl] at hm
                  cases hm
            have hnh : ∀ q, comps abs <+: q → ¬ Held prot d q := by
              rintro q hq ⟨x, h1, h2, h3⟩
              by_cases hx : x = comps abs
              · rw [hx] at h3; exact hp h3
              · exact h2 (below x (hq.trans h1) hx)
            refine ⟨?_, hnh _ List.prefix_rfl⟩
            funext q
            show (if q = comps abs then none else d q) = _
            by_cases hq : q = comps abs
            · rw [if_pos hq]; subst hq
              exact (leaves_gone List.prefix_rfl (hnh _ List.prefix_rfl)).symm
            · rw [if_neg hq]
              by_cases hpre : comps abs <+: q
              · rw [leaves_gone hpre (hnh _ hpre), below q hpre hq]
              · rw [leaves_outside hpre]
    have err1 : (E.serve log d (.remove abs)).2 = .err → (E.serve log d (.remove abs)).1 = d ∧ (d (comps abs) = none → prot (comps abs) = true) := by
      intro herr
      rw [hE] at herr ⊢
      split at herr
      · rename_i hp; rw [if_pos hp]; exact ⟨rfl, fun _ => hp⟩
      · rename_i hp
        rw [if_neg hp]
        simp only [Env.carry] at herr ⊢
        cases hd : d (comps abs) with
        | none => rw [hd] at herr; cases herr
        | some i =>
          rw [hd] at herr
          simp only at herr ⊢
          split at herr
          · rename_i hc; rw [if_pos hc]; exact ⟨rfl, fun h => by cases h⟩
          · cases herr
    unfold removeAll at h
    simp only [send] at h
    split at h
    · rename_i log1 heq1
      obtain ⟨rfl, h1⟩ := Prod.mk.inj heq1
      obtain ⟨ed1, hnone⟩ := err1 h1
      have e1 : E.after d0 (log ++ [.remove abs]) = d := by rw [after_snoc]; exact ed1
      have e2 : E.after d0 (log ++ [.remove abs] ++ [.lstat abs]) = d := by
        rw [after_snoc E d0 (log ++ [Req.remove abs]), e1]; exact serve_reads _ _ (by simp)
      have e3 : E.after d0 (log ++ [.remove abs] ++ [.lstat abs] ++ [.readDir abs]) = d := by
        rw [after_snoc E d0 (log ++ [Req.remove abs] ++ [Req.lstat abs]), e2]; exact serve_reads _ _ (by simp)
      have l2 : E.server d0 (log ++ [.remove abs]) (.lstat abs) = (match d (comps abs) with | none => .notExist | some i => .info i) := by
        unfold Env.server
        rw [e1, hread]
        simp only [Env.carry]
        split <;> rfl
      have l3 : E.server d0 (log ++ [.remove abs] ++ [.lstat abs]) (.readDir abs) =
          (match d (comps abs) with | none => .notExist | some true => .names (E.listing (log ++ [.remove abs] ++ [.lstat abs]) d (comps abs)) | some false => .err) := by
        unfold Env.server
        rw [e2, hread']
        simp only [Env.carry]
        split <;> rfl
      split at h
      · rename_i log2 heq2
        obtain ⟨rfl, h2⟩ := Prod.mk.inj heq2
        cases h
        have hd : d (comps abs) = none := by
          have : E.server d0 (log ++ [.remove abs]) (.lstat abs) = .notExist := h2
          rw [l2] at this
          cases hd : d (comps abs) with
          | none => rfl
          | some i => rw [hd] at this; cases this
        obtain ⟨n1, n2⟩ := nothing' hd
        refine ⟨?_, by simpa using n2⟩
        show E.after d0 _ = _
        rw [e2]; exact n1.symm
      · rename_i log2 heq2
        obtain ⟨rfl, h2⟩ := Prod.mk.inj heq2
        have hd : d (comps abs) = some true := by
          have : E.server d0 (log ++ [.remove abs]) (.lstat abs) = .info true := h2
          rw [l2] at this
          cases hd : d (comps abs) with
          | none => rw [hd] at this; cases this
          | some i => rw [hd] at this; cases this; rfl
        rw [hd] at l3
        simp only at l3
        split at h
        · rename_i log3 heq3
          obtain ⟨rfl, h3⟩ := Prod.mk.inj heq3
          have : E.server d0 (log ++ [.remove abs] ++ [.lstat abs]) (.readDir abs) = .notExist := h3
          rw [l3] at this
          cases this
        · rename_i log3 a hna heq3
          obtain ⟨h31, h32⟩ := Prod.mk.inj heq3
          subst h31
          have ha : a = .names (E.listing (log ++ [.remove abs] ++ [.lstat abs]) d (comps abs)) := by rw [← h32]; exact l3
          subst ha
          split at h
          · cases h
          · rename_i log4 failed heq4
            have hes : ∀ e ∈ E.listing (log ++ [.remove abs] ++ [.lstat abs]) d (comps abs), IsName e := by
              intro e he
              exact hF.names _ _ e (List.mem_filter.1 he).1
            obtain ⟨c1, c2⟩ := removeEach_complete (order := order) (prot := prot) (d0 := d0) (abs := abs) (fun e lg r' he hr => by
              have := ih _ lg r' (by simp) hr
              rw [comps_child hne he] at this
              exact this) _ hes _ _ _ heq4
            have e3' : (Env.refusing order prot).after d0 (log ++ [.remove abs] ++ [.lstat abs] ++ [.readDir abs]) = d := e3
            simp only [Ans.isErr, Bool.false_eq_true, false_or] at c1 c2
            rw [e3'] at c1 c2
            -- what is left before the last removal
            have hin : ∀ q, (∃ e ∈ E.listing (log ++ [.remove abs] ++ [.lstat abs]) d (comps abs), (comps abs ++ [e]) <+: q) → comps abs <+: q ∧ q ≠ comps abs := by
              rintro q ⟨e, _, t, rfl⟩
              refine ⟨⟨[e] ++ t, by simp⟩, ?_⟩
              intro hx
              have := congrArg List.length hx
              simp at this
            have left : ∀ q, comps abs <+: q → q ≠ comps abs → leaves prot d (fun q => ∃ e ∈ E.listing (log ++ [.remove abs] ++ [.lstat abs]) d (comps abs), (comps abs ++ [e]) <+: q) q =
                leaves prot d (fun q => comps abs <+: q) q := by
              intro q hq hqe
              by_cases hh : Held prot d q
              · rw [leaves_some hh, leaves_some hh]
              · rw [leaves_gone hq hh]
                by_cases hdq : d q = none
                · by_cases hi : ∃ e ∈ E.listing (log ++ [.remove abs] ++ [.lstat abs]) d (comps abs), (comps abs ++ [e]) <+: q
                  · exact leaves_gone hi hh
                  · rw [leaves_outside hi]; exact hdq
                · obtain ⟨n, hn1, hn2⟩ := hF.child_exists hq hqe hdq
                  exact leaves_gone ⟨n, hF.mem_listing.2 hn2, hn1⟩ hh
            have self4 : E.after d0 log4 (comps abs) = some true := by
              show (Env.refusing order prot).after d0 log4 (comps abs) = _
              rw [c1, leaves_outside (fun hx => (hin _ hx).2 rfl)]
              exact hd
            have heldIff : Held prot d (comps abs) ↔ prot (comps abs) = true ∨ ∃ e ∈ E.listing (log ++ [.remove abs] ++ [.lstat abs]) d (comps abs), Held prot d (comps abs ++ [e]) := by
              constructor
              · rintro ⟨x, h1, h2, h3⟩
                by_cases hx : x = comps abs
                · left; rw [← hx]; exact h3
                · right
                  obtain ⟨n, hn1, hn2⟩ := hF.child_exists h1 hx h2
                  exact ⟨n, hF.mem_listing.2 hn2, x, hn1, h2, h3⟩
              · rintro (h | ⟨e, _, x, h1, h2, h3⟩)
                · exact ⟨_, List.prefix_rfl, by rw [hd]; simp, h⟩
                · exact ⟨x, (List.prefix_append _ _).trans h1, h2, h3⟩
            have listing4 : E.listing log4 (E.after d0 log4) (comps abs) = [] ↔ ¬ ∃ e ∈ E.listing (log ++ [.remove abs] ++ [.lstat abs]) d (comps abs), Held prot d (comps abs ++ [e]) := by
              have hF4 : Fine E (E.after d0 log4) := h0.after log4
              constructor
              · rintro hl ⟨e, he, hh⟩
                have : e ∈ E.listing log4 (E.after d0 log4) (comps abs) := by
                  apply hF4.mem_listing.2
                  show (Env.refusing order prot).after d0 log4 _ ≠ none
                  rw [c1, leaves_some hh]
                  exact hF.mem_listing.1 he
                rw [hl] at this
                cases this
              · intro hno
                rw [List.eq_nil_iff_forall_not_mem]
                intro e he
                have := hF4.mem_listing.1 he
                apply this
                show (Env.refusing order prot).after d0 log4 _ = none
                rw [c1]
                by_cases hd0 : d (comps abs ++ [e]) = none
                · unfold leaves; split
                  · rfl
                  · exact hd0
                · have hm := (hF.mem_listing (log := log ++ [.remove abs] ++ [.lstat abs])).2 hd0
                  exact leaves_gone ⟨e, hm, List.prefix_rfl⟩ (fun hh => hno ⟨e, hm, hh⟩)
            -- the last removal
            split at h
            · rename_i log5 heq5
              obtain ⟨rfl, h5⟩ := Prod.mk.inj heq5
              cases h
              have h5' : (E.serve log4 (E.after d0 log4) (.remove abs)).2 = .err := h5
              rw [hE] at h5'
              have hheld : Held prot d (comps abs) := by
                rw [heldIff]
                split at h5'
                · rename_i hp; exact .inl hp
                · simp only [Env.carry, self4] at h5'
                  split at h5'
                  · rename_i hc
                    right
                    exact Classical.byContradiction (fun hno => hc.2 (listing4.2 hno))
                  · cases h5'
              refine ⟨?_, by simpa using hheld⟩
              show E.after d0 (log4 ++ [.remove abs]) = _
              rw [after_snoc, hE]
              have same : (if prot (comps abs) then ((E.after d0 log4, .err) : Disk × Ans) else E.carry log4 (E.after d0 log4) (.remove abs)).1 = E.after d0 log4 := by
                split
                · rfl
                · rename_i hp
                  rw [if_neg hp] at h5'
                  simp only [Env.carry, self4] at h5' ⊢
                  split at h5'
                  · rename_i hc; rw [if_pos hc]
                  · cases h5'
              rw [same]
              show (Env.refusing order prot).after d0 log4 = _
              rw [c1]
              funext q
              by_cases hq : comps abs <+: q
              · by_cases hqe : q = comps abs
                · subst hqe
                  rw [leaves_some hheld, leaves_some hheld]
                · exact left q hq hqe
              · rw [leaves_outside (fun hx => hq (hin _ hx).1), leaves_outside hq]
            · rename_i log5 ans hans heq5
              obtain ⟨rfl, h5⟩ := Prod.mk.inj heq5
              cases h
              have h5' : (E.serve log4 (E.after d0 log4) (.remove abs)).2 ≠ .err := by
                have : (E.serve log4 (E.after d0 log4) (.remove abs)).2 = ans := h5
                rw [this]; exact hans
              rw [hE] at h5'
              have hnp : prot (comps abs) ≠ true := by
                intro hp; rw [if_pos hp] at h5'; exact h5' rfl
              rw [if_neg hnp] at h5'
              simp only [Env.carry, self4] at h5'
              have hempty : E.listing log4 (E.after d0 log4) (comps abs) = [] := by
                split at h5'
                · exact absurd rfl h5'
                · rename_i hc
                  exact Classical.byContradiction (fun hx => hc ⟨trivial, hx⟩)
              have hnh : ¬ Held prot d (comps abs) := by
                rw [heldIff]
                rintro (h | h)
                · exact hnp h
                · exact listing4.1 hempty h
              refine ⟨?_, ?_⟩
              · show E.after d0 (log4 ++ [.remove abs]) = _
                rw [after_snoc, hE, if_neg hnp]
                simp only [Env.carry, self4]
                rw [if_neg (by rintro ⟨_, hx⟩; exact hx hempty)]
                funext q
                simp only
                split
                · rename_i hq; subst hq
                  exact (leaves_gone List.prefix_rfl hnh).symm
                · rename_i hqe
                  show (Env.refusing order prot).after d0 log4 q = _
                  rw [c1]
                  by_cases hq : comps abs <+: q
                  · exact left q hq hqe
                  · rw [leaves_outside (fun hx => hq (hin _ hx).1), leaves_outside hq]
              · simp only [c2]
                constructor
                · intro hx; exact absurd (heldIff.2 (.inr hx)) hnh
                · intro hx; exact absurd hx hnh
      · rename_i log2 ans ha1 ha2 heq2
        obtain ⟨rfl, h2⟩ := Prod.mk.inj heq2
        cases h
        have h2' : E.server d0 (log ++ [.remove abs]) (.lstat abs) = ans := h2
        rw [l2] at h2'
        cases hd : d (comps abs) with
        | none => rw [hd] at h2'; exact absurd h2'.symm ha1
        | some i =>
          cases i with
          | true => rw [hd] at h2'; exact absurd h2'.symm ha2
          | false =>
            have hp : prot (comps abs) = true := by
              have h1' : (E.serve log d (.remove abs)).2 = .err := h1
              rw [hE] at h1'
              split at h1'
              · assumption
              · simp only [Env.carry, hd] at h1'
                simp at h1'
            have hheld : Held prot d (comps abs) := ⟨_, List.prefix_rfl, by rw [hd]; simp, hp⟩
            refine ⟨?_, by simpa using hheld⟩
            show E.after d0 _ = _
            rw [e2]
            funext q
            by_cases hq : comps abs <+: q
            · by_cases hqe : q = comps abs
              · subst hqe; rw [leaves_some hheld]
              · have := hF.none_below (p := comps abs) (by rw [hd]; simp) hq hqe
                unfold leaves
                split
                · exact this
                · rfl
            · exact (leaves_outside hq).symm
    · rename_i log1 ans hans heq1
      obtain ⟨rfl, h1⟩ := Prod.mk.inj heq1
      cases h
      obtain ⟨o1, o2⟩ := ok1 (by
        have : (E.serve log d (.remove abs)).2 = ans := h1
        rw [this]; exact hans)
      refine ⟨?_, by simpa using o2⟩
      show E.after d0 _ = _
      rw [after_snoc]
      exact o1

/-! ## C75 -/

theorem call_removeAll {srv : Server} {fuel : Nat} {posixRename : Bool} {base n : Str} (hb : base ≠ []) {ns : List Str} (hn : placeOf n = some ns) (hns : ns ≠ []) (hdot : endsWithDot n = false)
    (log : List Req) : ∃ abs, abs ≠ [] ∧ comps abs = comps base ++ ns ∧ call srv fuel posixRename base (.removeAll n) log = removeAll srv fuel abs log := by
  obtain ⟨p, hr, ⟨h1, _, ns', h2, h3⟩, hbase⟩ := resolve_some hb (name := n) (by rw [hn]; simp)
  rw [hn] at h2
  cases h2
  refine ⟨p, h1, h3, ?_⟩
  simp only [call, hr, hdot, Bool.false_eq_true, if_false]
  rw [if_neg (fun h => hns (by have := hbase.1 h; rw [hn] at this; exact Option.some.inj this))]

/-- **C75, whatever fails.** For every server, whatever is on it, whichever requests fail, are carried out without their answers arriving or list only some names: RemoveAll of a name below the
base changes nothing outside that name, only removes things inside, and if it reports success nothing is left at or below it. -/
theorem C75_whatever_fails (E : Env) (d0 : Disk) (ht : d0.Tree) (hl : E.Lists d0) (fuel : Nat) (posixRename : Bool) (base n : Str) (hb : base ≠ []) (ns : List Str) (hn : placeOf n = some ns)
    (hns : ns ≠ []) (hdot : endsWithDot n = false) (r : List Req × Bool) (h : call (E.server d0) fuel posixRename base (.removeAll n) [] = some r) :
    OnlyRemoved (comps base ++ ns) d0 (E.after d0 r.1) ∧ (r.2 = false → ∀ q, (comps base ++ ns) <+: q → E.after d0 r.1 q = none) := by
  have hF : Fine E d0 := ⟨ht, hl.names, hl.all⟩
  obtain ⟨abs, h1, h2, h3⟩ := call_removeAll (srv := E.server d0) (fuel := fuel) (posixRename := posixRename) hb hn hns hdot []
  rw [h3] at h
  obtain ⟨h4, h5⟩ := removeAll_safe hF fuel abs [] r h1 h
  rw [h2] at h4 h5
  refine ⟨h4, fun hr q hq => ?_⟩
  have hgone := h5 hr
  by_cases hqe : q = comps base ++ ns
  · rw [hqe]; exact hgone
  · exact (hF.after r.1).none_below (by rw [hgone]; simp) hq hqe

/-- **C75, it ends.** However deep what is on the server and whatever fails, the recursion goes no deeper than the deepest path. -/
theorem C75_ends (E : Env) (d0 : Disk) (ht : d0.Tree) (hl : E.Lists d0) (D : Nat) (hD : ∀ q, d0 q ≠ none → q.length ≤ D) (posixRename : Bool) (base n : Str) (hb : base ≠ []) :
    call (E.server d0) (D + 1) posixRename base (.removeAll n) [] ≠ none := by
  have hF : Fine E d0 := ⟨ht, hl.names, hl.all⟩
  cases hp : placeOf n with
  | none => rw [((C74_requests (E.server d0) (D + 1) posixRename base hb (.removeAll n) []).1 ⟨n, by simp [namesOf], hp⟩)]; simp
  | some ns =>
    by_cases hns : ns = []
    · subst hns; rw [C65_removeAll_base _ _ _ _ _ _ hp]; simp
    · cases hdot : endsWithDot n with
      | true => simp [call, hdot]
      | false =>
        obtain ⟨abs, h1, h2, h3⟩ := call_removeAll (srv := E.server d0) (fuel := D + 1) (posixRename := posixRename) hb hp hns hdot []
        rw [h3]
        exact removeAll_ends hF D hD _ _ _ h1 (by omega) (by omega)

/-- **C75, as much as can be.** If the server only refuses the removal of some things, RemoveAll removes everything at or below the name except those and the directories they are in, leaves all
else alone, and reports a failure exactly if there was such a thing. -/
theorem C75_complete (order : List Req → List Str → List Str) (prot : List Str → Bool) (d0 : Disk) (ht : d0.Tree) (hl : (Env.refusing order prot).Lists d0) (fuel : Nat) (posixRename : Bool)
    (base n : Str) (hb : base ≠ []) (ns : List Str) (hn : placeOf n = some ns) (hns : ns ≠ []) (hdot : endsWithDot n = false) (r : List Req × Bool)
    (h : call ((Env.refusing order prot).server d0) fuel posixRename base (.removeAll n) [] = some r) :
    (∀ q, (comps base ++ ns) <+: q → ¬ Held prot d0 q → (Env.refusing order prot).after d0 r.1 q = none) ∧
    (∀ q, ¬ (comps base ++ ns) <+: q ∨ Held prot d0 q → (Env.refusing order prot).after d0 r.1 q = d0 q) ∧ (r.2 = true ↔ Held prot d0 (comps base ++ ns)) := by
  have hF : Fine (Env.refusing order prot) d0 := ⟨ht, hl.names, hl.all⟩
  obtain ⟨abs, h1, h2, h3⟩ := call_removeAll (srv := (Env.refusing order prot).server d0) (fuel := fuel) (posixRename := posixRename) hb hn hns hdot []
  rw [h3] at h
  obtain ⟨h4, h5⟩ := removeAll_complete order prot hF fuel abs [] r h1 h
  rw [h2] at h4 h5
  have h0 : (Env.refusing order prot).after d0 [] = d0 := rfl
  rw [h0] at h4 h5
  refine ⟨fun q hq hh => by rw [h4]; exact leaves_gone hq hh, ?_, h5⟩
  rintro q (hq | hh)
  · rw [h4]; exact leaves_outside hq
  · rw [h4]; exact leaves_some hh

/-- Below "/s": "d" with the files "f" and "g", and "e". -/
def sampleDisk : Disk := fun q =>
  if q = [] ∨ q = [['s']] ∨ q = [['s'], ['d']] then some true
  else if q = [['s'], ['d'], ['f']] ∨ q = [['s'], ['d'], ['g']] ∨ q = [['s'], ['e']] then some false else none

def sampleOrder : List Req → List Str → List Str := fun _ _ => [['s'], ['d'], ['f'], ['g'], ['e']]

theorem sampleDisk_cases {q : List Str} (h : sampleDisk q ≠ none) :
    q = [] ∨ q = [['s']] ∨ q = [['s'], ['d']] ∨ q = [['s'], ['d'], ['f']] ∨ q = [['s'], ['d'], ['g']] ∨ q = [['s'], ['e']] := by
  unfold sampleDisk at h
  split at h
  · rename_i h1; rcases h1 with h1 | h1 | h1 <;> simp [h1]
  · split at h
    · rename_i h1; rcases h1 with h1 | h1 | h1 <;> simp [h1]
    · exact absurd rfl h

/-- The hypotheses hold for it, whatever fails, and with "f" protected. -/
example : sampleDisk.Tree ∧ (∀ fault, (Env.mk fault sampleOrder).Lists sampleDisk) ∧ (∀ prot, (Env.refusing sampleOrder prot).Lists sampleDisk) ∧
    (∀ q, sampleDisk q ≠ none → q.length ≤ 3) ∧ placeOf ['d'] = some [['d']] ∧ endsWithDot ['d'] = false := by
  have hn : ∀ log p, ∀ n ∈ sampleOrder log p, IsName n := by
    intro log p n hn
    simp only [sampleOrder, List.mem_cons, List.not_mem_nil, or_false] at hn
    rcases hn with rfl | rfl | rfl | rfl | rfl <;> decide
  have ha : ∀ log p n, sampleDisk (p ++ [n]) ≠ none → n ∈ sampleOrder log p := by
    intro log p n h
    have hl : ∀ (l : List Str), p ++ [n] = l → l.getLast? = some n := by rintro l rfl; simp
    rcases sampleDisk_cases h with h | h | h | h | h | h <;> · have := hl _ h; simp at this <;> simp [sampleOrder, ← this]
  refine ⟨?_, fun fault => ⟨hn, ha⟩, fun prot => ⟨hn, ha⟩, ?_, by decide, by decide⟩
  · intro p n h
    have hl : ∀ (l : List Str), p ++ [n] = l → p = l.dropLast := by rintro l rfl; simp
    rcases sampleDisk_cases h with h | h | h | h | h | h
    · simp at h
    all_goals
      have := hl _ h
      subst this
      decide
  · intro q h
    rcases sampleDisk_cases h with rfl | rfl | rfl | rfl | rfl | rfl <;> decide

/-- Removing "d" with "f" protected: "g" is gone, "f" and "d" are left, "e" is untouched and a failure is reported. -/
example : (call ((Env.refusing sampleOrder (fun q => q = [['s'], ['d'], ['f']])).server sampleDisk) 4 false ['/', 's'] (.removeAll ['d']) []).map (fun r =>
    (r.2, (([[['s'], ['d']], [['s'], ['d'], ['f']], [['s'], ['d'], ['g']], [['s'], ['e']]] : List (List Str)).map
      ((Env.refusing sampleOrder (fun q => q = [['s'], ['d'], ['f']])).after sampleDisk r.1)))) = some (true, [some true, some false, none, some false]) := by decide +kernel

end Verif.Sftp
