/-
Model of reading a directory through a file of the SFTP filesystem (/repo/vroot-adapter/sftpfs/sftpfs.go 381-462): every entry once, from any number of goroutines (C76).
-/
namespace Verif.Sftp.Paging

/-! ## Model -/

/-- sftpfs.go 384-392: the listing kept by a file, and how often the server was asked for it. -/
structure Dir (α : Type) where
  loaded : Bool
  entries : List α
  failed : Bool
  asked : Nat

/-- What a call of Readdir, Readdirnames or ReadDir returns (434-462; the three differ only in what they make of an entry). -/
inductive Result (α : Type) where
  | page (l : List α)
  | eof
  | error
deriving DecidableEq

/-- sftpfs.go 417-430 `loadDir`, in one critical section; `answer` is what the server would say now (the entries, and whether it failed). -/
def load (d : Dir α) (answer : List α × Bool) : Dir α × Bool :=
  if d.loaded then (d, d.failed) else (⟨true, answer.1, answer.2, d.asked + 1⟩, answer.2)

/-- sftpfs.go 438-453, the second critical section of `Readdir`. -/
def take (d : Dir α) (n : Int) : Dir α × Result α :=
  if n ≤ 0 then ({ d with entries := [] }, .page d.entries)
  else if d.entries.length = 0 then (d, .eof)
  else
    let k := if n > d.entries.length then d.entries.length else n.toNat
    ({ d with entries := d.entries.drop k }, .page (d.entries.take k))

/-- Goroutines reading one file: who is between the two critical sections, with the number asked for; and the results returned so far. -/
structure St (α : Type) where
  dir : Dir α
  pend : Nat → Option Int
  done : List (Int × Result α)

/-- What happens next: goroutine `t` calls `Readdir(n)` and gets through the first critical section (434-437), or through the second. -/
inductive Ev (α : Type) where
  | enter (t : Nat) (n : Int) (answer : List α × Bool)
  | leave (t : Nat)

/-- One step; steps that cannot be taken are not. -/
def step (s : St α) : Ev α → St α
  | .enter t n answer =>
    if s.pend t = none then
      match load s.dir answer with
      | (d, true) => { s with dir := d, done := s.done ++ [(n, .error)] }
      | (d, false) => { s with dir := d, pend := fun u => if u = t then some n else s.pend u }
    else s
  | .leave t =>
    match s.pend t with
    | none => s
    | some n => let x := take s.dir n; { dir := x.1, pend := fun u => if u = t then none else s.pend u, done := s.done ++ [(n, x.2)] }

def run (evs : List (Ev α)) : St α := evs.foldl step ⟨⟨false, [], false, 0⟩, fun _ => none, []⟩

/-! ## Specification -/

/-- The entries returned so far, in order. -/
def delivered (l : List (Int × Result α)) : List α := (l.map (fun x => match x.2 with | .page p => p | _ => [])).flatten

/-- A result is right for a call asking for `n` when `left` entries are left, and leaves `left'`. -/
inductive Right (n : Int) : List α → Result α → List α → Prop
  | all {left : List α} (h : n ≤ 0) : Right n left (.page left) []
  | eof (h : 0 < n) : Right n [] .eof []
  | some {p rest : List α} (h : 0 < n) (hp : p ≠ []) (hle : (p.length : Int) ≤ n) (hfull : (p.length : Int) < n → rest = []) : Right n (p ++ rest) (.page p) rest

/-- The results, in the order in which they were had, starting from a listing. -/
inductive History : List α → List (Int × Result α) → Prop
  | nil (l : List α) : History l []
  | cons {l l' : List α} {n : Int} {r : Result α} {rest : List (Int × Result α)} (h : Right n l r l') (hr : History l' rest) : History l ((n, r) :: rest)

/-! ## Proofs -/

theorem take_right (d : Dir α) (n : Int) : Right n d.entries (take d n).2 (take d n).1.entries := by
  unfold take
  split
  · rename_i h; exact .all h
  · rename_i h
    split
    · rename_i h0
      have : d.entries = [] := by simpa using h0
      rw [this]
      exact .eof (by omega)
    · rename_i h0
      simp only
      have key : ∀ k, 0 < k → k ≤ d.entries.length → (k : Int) ≤ n → ((k : Int) < n → k = d.entries.length) → Right n d.entries (.page (d.entries.take k)) (d.entries.drop k) := by
        intro k h1 h2 h3 h4
        have hlen : (d.entries.take k).length = k := by rw [List.length_take]; omega
        have := Right.some (n := n) (p := d.entries.take k) (rest := d.entries.drop k) (by omega) (by
          intro hx
          rw [hx] at hlen
          simp at hlen
          omega) (by rw [hlen]; exact h3) (by
          rw [hlen]
          intro hx
          rw [h4 hx]
          simp)
        rwa [List.take_append_drop] at this
      split
      · rename_i hn
        exact key _ (by omega) (by omega) (by omega) (fun _ => rfl)
      · exact key _ (by omega) (by omega) (by omega) (by intro hx; omega)

theorem take_other (d : Dir α) (n : Int) : (take d n).1.loaded = d.loaded ∧ (take d n).1.failed = d.failed ∧ (take d n).1.asked = d.asked := by
  unfold take
  split
  · exact ⟨rfl, rfl, rfl⟩
  · split <;> exact ⟨rfl, rfl, rfl⟩

/-- History ended by what is left. -/
inductive HistoryTo : List α → List (Int × Result α) → List α → Prop
  | nil (l : List α) : HistoryTo l [] l
  | cons {l l' l'' : List α} {n : Int} {r : Result α} {rest : List (Int × Result α)} (h : Right n l r l') (hr : HistoryTo l' rest l'') : HistoryTo l ((n, r) :: rest) l''

theorem HistoryTo.snoc {l l' l'' : List α} {h : List (Int × Result α)} (hh : HistoryTo l h l') {n : Int} {r : Result α} (hr : Right n l' r l'') : HistoryTo l (h ++ [(n, r)]) l'' := by
  induction hh with
  | nil => exact .cons hr (.nil _)
  | cons h _ ih => exact .cons h (ih hr)

theorem HistoryTo.history {l l' : List α} {h : List (Int × Result α)} (hh : HistoryTo l h l') : History l h := by
  induction hh with
  | nil => exact .nil _
  | cons h _ ih => exact .cons h ih

theorem Right.delivers {n : Int} {l l' : List α} {r : Result α} (h : Right n l r l') : delivered [(n, r)] ++ l' = l := by
  cases h <;> simp [delivered]

theorem HistoryTo.delivers {l l' : List α} {h : List (Int × Result α)} (hh : HistoryTo l h l') : delivered h ++ l' = l := by
  induction hh with
  | nil => simp [delivered]
  | @cons l l' l'' n r rest h _ ih =>
    have h1 := h.delivers
    have : delivered ((n, r) :: rest) = delivered [(n, r)] ++ delivered rest := by simp [delivered]
    rw [this, List.append_assoc, ih, h1]

/-- The state at any time: nothing asked yet; or asked once and failed; or asked once and the results make up the listing so far. -/
def Inv (s : St α) (first : Option (List α × Bool)) : Prop :=
  (first = none ∧ s.dir = ⟨false, [], false, 0⟩ ∧ s.done = [] ∧ ∀ t, s.pend t = none) ∨
  (∃ l, first = some (l, true) ∧ s.dir.loaded = true ∧ s.dir.failed = true ∧ s.dir.asked = 1 ∧ (∀ t, s.pend t = none) ∧ ∀ x ∈ s.done, x.2 = .error) ∨
  (∃ l, first = some (l, false) ∧ s.dir.loaded = true ∧ s.dir.failed = false ∧ s.dir.asked = 1 ∧ HistoryTo l s.done s.dir.entries)

/-- What the server said when it was asked, if it was: the answer at the first call. -/
def firstAnswer : List (Ev α) → Option (List α × Bool)
  | [] => none
  | .enter _ _ a :: _ => some a
  | .leave _ :: rest => firstAnswer rest

theorem firstAnswer_append (a b : List (Ev α)) : firstAnswer (a ++ b) = (firstAnswer a).or (firstAnswer b) := by
  induction a with
  | nil => rfl
  | cons e t ih =>
    cases e with
    | enter t n a => rfl
    | leave t => exact ih

theorem run_inv (evs : List (Ev α)) : Inv (run evs) (firstAnswer evs) := by
  have gen : ∀ (evs pre : List (Ev α)) (s : St α), Inv s (firstAnswer pre) → Inv (evs.foldl step s) (firstAnswer (pre ++ evs)) := by
    intro evs
    induction evs with
    | nil => intro pre s h; simpa using h
    | cons e rest ih =>
      intro pre s h
      have : pre ++ e :: rest = (pre ++ [e]) ++ rest := by simp
      rw [this, List.foldl_cons]
      refine ih _ _ ?_
      rw [firstAnswer_append]
      cases e with
      | leave t =>
        have hf : firstAnswer [Ev.leave (α := α) t] = none := rfl
        rw [hf, Option.or_none]
        unfold step
        simp only
        cases hp : s.pend t with
        | none => exact h
        | some n =>
          rcases h with ⟨h1, h2, h3, h4⟩ | ⟨l, h1, h2, h3, h4, h5, h6⟩ | ⟨l, h1, h2, h3, h4, h5⟩
          · rw [h4] at hp; cases hp
          · rw [h5] at hp; cases hp
          · obtain ⟨t1, t2, t3⟩ := take_other s.dir n
            exact .inr (.inr ⟨l, h1, t1.trans h2, t2.trans h3, t3.trans h4, h5.snoc (take_right s.dir n)⟩)
      | enter t n a =>
        have hf : firstAnswer [Ev.enter t n a] = some a := rfl
        rw [hf]
        unfold step
        simp only
        split
        · rename_i hp
          rcases h with ⟨h1, h2, h3, h4⟩ | ⟨l, h1, h2, h3, h4, h5, h6⟩ | ⟨l, h1, h2, h3, h4, h5⟩
          · rw [h1]
            have hl : load s.dir a = (⟨true, a.1, a.2, 1⟩, a.2) := by rw [h2]; rfl
            rw [hl]
            rcases a with ⟨l, f⟩
            cases f with
            | true =>
              refine .inr (.inl ⟨l, rfl, rfl, rfl, rfl, h4, ?_⟩)
              intro x hx
              simp only [h3, List.nil_append, List.mem_singleton] at hx
              subst hx; rfl
            | false =>
              refine .inr (.inr ⟨l, rfl, rfl, rfl, rfl, ?_⟩)
              simp only [h3]
              exact .nil _
          · rw [h1]
            have hl : load s.dir a = (s.dir, true) := by unfold load; rw [if_pos h2, h3]
            rw [hl]
            refine .inr (.inl ⟨l, rfl, h2, h3, h4, h5, ?_⟩)
            intro x hx
            rcases List.mem_append.1 hx with hx | hx
            · exact h6 x hx
            · simp at hx; subst hx; rfl
          · rw [h1]
            have hl : load s.dir a = (s.dir, false) := by unfold load; rw [if_pos h2, h3]
            rw [hl]
            exact .inr (.inr ⟨l, rfl, h2, h3, h4, h5⟩)
        · rename_i hp
          rcases h with ⟨h1, h2, h3, h4⟩ | ⟨l, h1, h2⟩ | ⟨l, h1, h2⟩
          · exact absurd (h4 t) hp
          · rw [h1]; exact .inr (.inl ⟨l, rfl, h2⟩)
          · rw [h1]; exact .inr (.inr ⟨l, rfl, h2⟩)
  have := gen evs [] ⟨⟨false, [], false, 0⟩, fun _ => none, []⟩ (.inl ⟨rfl, rfl, rfl, fun _ => rfl⟩)
  rw [List.nil_append] at this
  exact this

/-- **C76, one listing.** However calls from any number of goroutines interleave, the server is asked at most once; if it failed, every call fails; otherwise every result, in the order in
which they are had, is right for what is left of that one listing. -/
theorem C76_pages (evs : List (Ev α)) :
    (run evs).dir.asked ≤ 1 ∧
    (∀ l, firstAnswer evs = some (l, true) → ∀ x ∈ (run evs).done, x.2 = .error) ∧
    (∀ l, firstAnswer evs = some (l, false) → History l (run evs).done) := by
  have h := run_inv evs
  rcases h with ⟨h1, h2, h3, h4⟩ | ⟨l, h1, h2, h3, h4, h5, h6⟩ | ⟨l, h1, h2, h3, h4, h5⟩
  · exact ⟨by rw [h2]; simp, fun l hl => by rw [h1] at hl; (cases hl), fun l hl => by rw [h1] at hl; (cases hl)⟩
  · refine ⟨by omega, fun _ _ => h6, fun l' hl => ?_⟩
    rw [h1] at hl; cases hl
  · refine ⟨by omega, fun l' hl => ?_, fun l' hl => ?_⟩
    · rw [h1] at hl; cases hl
    · rw [h1] at hl; cases hl; exact h5.history

/-- **C76, each entry once.** The entries returned are the beginning of the listing, each once and in order; after a call for everything, or one that reported the end, they are all of it. -/
theorem C76_each_once (evs : List (Ev α)) (l : List α) (hl : firstAnswer evs = some (l, false)) :
    delivered (run evs).done <+: l ∧ ((∃ x ∈ (run evs).done, x.1 ≤ 0 ∨ x.2 = .eof) → delivered (run evs).done = l) := by
  have h := run_inv evs
  rcases h with ⟨h1, _⟩ | ⟨l, h1, _⟩ | ⟨l', h1, h2, h3, h4, h5⟩
  · rw [h1] at hl; cases hl
  · rw [h1] at hl; cases hl
  · rw [h1] at hl
    cases hl
    refine ⟨⟨_, h5.delivers⟩, ?_⟩
    rintro ⟨x, hx, hend⟩
    have key : ∀ {l l' : List α} {hs : List (Int × Result α)}, HistoryTo l hs l' → x ∈ hs → l' = [] := by
      intro l l' hs hh hm
      have nilTo : ∀ {a b : List α} {hs : List (Int × Result α)}, HistoryTo a hs b → a = [] → b = [] := by
        intro a b hs hh
        induction hh with
        | nil => exact id
        | cons h _ ih =>
          intro ha
          subst ha
          apply ih
          have := h.delivers
          exact (List.append_eq_nil_iff.1 this).2
      induction hh with
      | nil => cases hm
      | @cons l l1 l2 n r rest h hr ih =>
        rcases List.mem_cons.1 hm with rfl | hm
        · apply nilTo hr
          rcases hend with hend | hend
          · cases h with
            | all => rfl
            | eof => rfl
            | some h0 => simp only at hend; omega
          · simp only at hend
            subst hend
            cases h
            rfl
        · exact ih hm
    have := h5.delivers
    rw [key h5 hx, List.append_nil] at this
    exact this

/-- Two goroutines: one asks for two entries, the other for three in between; a third call finds the end. -/
example : (run [.enter 0 2 (['a', 'b', 'c'], false), .enter 1 3 (['x'], false), .leave 1, .leave 0, .enter 0 (-1) ([], true), .leave 0]).done =
    [(3, .page ['a', 'b', 'c']), (2, .eof), (-1, .page [])] ∧
    firstAnswer [Ev.enter 0 2 (['a', 'b', 'c'], false), .enter 1 3 (['x'], false), .leave 1, .leave 0, .enter 0 (-1) ([], true), .leave 0] = some (['a', 'b', 'c'], false) := by decide

end Verif.Sftp.Paging
