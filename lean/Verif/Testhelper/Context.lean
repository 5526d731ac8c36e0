import Verif.Common.Str
/-
C142: the test context of fsutil/testhelper: context.go 94-126 (`record` 107-109, `ReportFailf`) and the methods of context_fsys.go.

`testing.T.Fatalf` ends the test (std: runtime.Goexit). The filesystem under test is any state machine. An argument that is not a name (modes, times, numbers) is given as the text fmt makes of it,
which has no quote, comma, closing parenthesis or line feed. Unicode that is not printable is not escaped in the model (std strconv.Quote would, which only matters to the look of the report).
-/
namespace Verif.Testhelper.Context
open Verif

/-! ## Model -/

/-- std strconv.Quote: the escapes with a letter of their own. -/
def short (c : Char) : Option Char :=
  if c = '"' then some '"' else if c = '\\' then some '\\' else if c = '\n' then some 'n' else if c = '\r' then some 'r' else if c = '\t' then some 't'
  else if c.toNat = 7 then some 'a' else if c.toNat = 8 then some 'b' else if c.toNat = 11 then some 'v' else if c.toNat = 12 then some 'f' else none

/-- std strconv: "0123456789abcdef"[n]. -/
def hexDigit (n : Nat) : Char := ['0', '1', '2', '3', '4', '5', '6', '7', '8', '9', 'a', 'b', 'c', 'd', 'e', 'f'].getD n '0'

/-- std strconv.Quote of one character. -/
def quoteChar (c : Char) : Str :=
  match short c with
  | some l => ['\\', l]
  | none => if c.toNat < 32 ∨ c.toNat = 127 then ['\\', 'x', hexDigit (c.toNat / 16), hexDigit (c.toNat % 16)] else [c]

/-- std strconv.Quote, which `%q` stands for. -/
def quote (s : Str) : Str := '"' :: (s.flatMap quoteChar ++ ['"'])

/-- An argument in an entry of the history: `%q` for names, `%s` and `%d` for the others. -/
inductive Arg where
  | name (s : Str)
  | text (t : Str)
  deriving DecidableEq, Repr

/-- fmt's `%q` (names) and `%s`, `%d` (the others) in the formats of context_fsys.go. -/
def Arg.render : Arg → Str
  | .name s => quote s
  | .text t => t

/-- The formats of context_fsys.go: the arguments, separated by ", ", and the closing parenthesis. -/
def renderArgs : List Arg → Str
  | [] => [')']
  | [a] => a.render ++ [')']
  | a :: b :: as => a.render ++ ',' :: ' ' :: renderArgs (b :: as)

/-- A call of the filesystem: method and arguments. -/
structure Op where
  method : Str
  args : List Arg
  deriving DecidableEq, Repr

/-- context_fsys.go 10, 20, 28, ...: `c.record("Chmod(%q, %s)", name, mode)` and the like. -/
def entry (o : Op) : Str := o.method ++ '(' :: renderArgs o.args

/-- context_fsys.go 64, 75. -/
def createM : Str := ['C', 'r', 'e', 'a', 't', 'e']
/-- context_fsys.go 177, 188. -/
def openM : Str := ['O', 'p', 'e', 'n']
/-- context_fsys.go 198, 209. -/
def openFileM : Str := ['O', 'p', 'e', 'n', 'F', 'i', 'l', 'e']

/-- context_fsys.go 67, 180, 201: the methods whose result is closed when an error was wanted. -/
def gives (o : Op) : Bool := o.method = createM ∨ o.method = openM ∨ o.method = openFileM

/-- The filesystem under test, whatever it does. -/
structure Fsys (σ V E : Type) where
  call : σ → Op → σ × Except E V
  close : σ → V → σ

/-- A test: what it calls may depend on what it was answered. `want` is true for the methods with E at the end, which want an error. -/
inductive Script (V E : Type) where
  | done
  | step (o : Op) (want : Bool) (k : Except E V → Script V E)

/-- What the test ends with: it returns, or it is ended with a report. -/
inductive Outcome where
  | passed
  | fatal (report : Str)
  deriving DecidableEq, Repr

/-- context.go 120. -/
def header : Str := ['o', 'p', 'e', 'r', 'a', 't', 'i', 'o', 'n', ' ', 'h', 'i', 's', 't', 'o', 'r', 'y', ':']
/-- context.go 122. -/
def bullet : Str := [' ', ' ', '-', ' ']
/-- context_fsys.go 13, 33, ...: "... succeeded, want error". -/
def succeeded : Str := [' ', 's', 'u', 'c', 'c', 'e', 'e', 'd', 'e', 'd', ',', ' ', 'w', 'a', 'n', 't', ' ', 'e', 'r', 'r', 'o', 'r']

/-- context.go 120-124: the lines behind the message. -/
def lines : List Str → Str
  | [] => []
  | h :: hs => '\n' :: (bullet ++ h) ++ lines hs

/-- context.go 111-126 `ReportFailf`. -/
def reportOf (msg : Str) (history : List Str) : Str :=
  if history = [] then msg else msg ++ '\n' :: header ++ lines history

/-- context_fsys.go: `record`, the call, and `ReportFailf` when the answer is not the wanted one; `errText` is what `%v` makes of an error. The methods differ in `entry` and `gives` only. -/
def run {σ V E : Type} (fs : Fsys σ V E) (errText : E → Str) : Script V E → σ → List Str → σ × List Str × Outcome
  | .done, s, hist => (s, hist, .passed)
  | .step o want k, s, hist =>
    match fs.call s o with
    | (s', .ok v) =>
      if want then (if gives o then fs.close s' v else s', hist ++ [entry o], .fatal (reportOf (entry o ++ succeeded) (hist ++ [entry o])))
      else run fs errText (k (.ok v)) s' (hist ++ [entry o])
    | (s', .error e) =>
      if want then run fs errText (k (.error e)) s' (hist ++ [entry o])
      else (s', hist ++ [entry o], .fatal (reportOf (entry o ++ ':' :: ' ' :: errText e) (hist ++ [entry o])))

/-! ## Specification -/

/-- The same filesystem, watched: it keeps a list of the calls it gets. -/
def watched {σ V E : Type} (fs : Fsys σ V E) : Fsys (σ × List (Op × Bool) × Nat) V E where
  call := fun s o => (((fs.call s.1 o).1, s.2.1 ++ [(o, match (fs.call s.1 o).2 with | .ok _ => true | .error _ => false)], s.2.2), (fs.call s.1 o).2)
  close := fun s v => (fs.close s.1 v, s.2.1, s.2.2 + 1)

/-- The calls of a script that gets the answers it wants from the filesystem in state `s`, the first of another kind being the last one; with whether the answer was the wanted one. -/
inductive Asks {σ V E : Type} (fs : Fsys σ V E) : Script V E → σ → List (Op × Bool × Bool) → Prop
  | done {s} : Asks fs .done s []
  | more {o want k s l} : (∃ v, (fs.call s o).2 = .ok v ∧ want = false) ∨ (∃ e, (fs.call s o).2 = .error e ∧ want = true) →
      Asks fs (k (fs.call s o).2) (fs.call s o).1 l → Asks fs (.step o want k) s ((o, want, true) :: l)
  | stop {o want k s} : (∃ v, (fs.call s o).2 = .ok v ∧ want = true) ∨ (∃ e, (fs.call s o).2 = .error e ∧ want = false) →
      Asks fs (.step o want k) s [(o, want, false)]

/-- The lines of a text. -/
def linesOf : Str → List Str
  | [] => [[]]
  | c :: s => if c = '\n' then [] :: linesOf s else match linesOf s with
    | l :: ls => (c :: l) :: ls
    | [] => [[c]]

/-- Reading a report: the lines behind the last line that is the header, without their bullets. -/
def readBack (report : Str) : List Str :=
  ((linesOf report).reverse.takeWhile (fun l => l ≠ header)).reverse.map (fun l => l.drop bullet.length)

/-- The calls the methods can make: the method's name has no parenthesis or line feed, there is an argument, and texts are as said above. -/
def Op.Proper (o : Op) : Prop :=
  (∀ c ∈ o.method, c ≠ '(' ∧ c ≠ '\n') ∧ o.args ≠ [] ∧ ∀ t, Arg.text t ∈ o.args → ∀ c ∈ t, c ≠ '"' ∧ c ≠ ',' ∧ c ≠ ')' ∧ c ≠ '\n'

def Script.Proper {V E : Type} : Script V E → Prop
  | .done => True
  | .step o _ k => o.Proper ∧ ∀ r, (k r).Proper

/-! ## Proofs: the text -/

/-- The character an escape stands for. -/
def unshort (l : Char) : Nat :=
  if l = '"' then 34 else if l = '\\' then 92 else if l = 'n' then 10 else if l = 'r' then 13 else if l = 't' then 9 else if l = 'a' then 7 else if l = 'b' then 8 else if l = 'v' then 11 else 12

theorem unshort_short {c l : Char} (h : short c = some l) : c.toNat = unshort l := by
  unfold short at h
  split at h
  · cases h; rename_i e; subst e; decide
  split at h
  · cases h; rename_i e; subst e; decide
  split at h
  · cases h; rename_i e; subst e; decide
  split at h
  · cases h; rename_i e; subst e; decide
  split at h
  · cases h; rename_i e; subst e; decide
  split at h
  · cases h; rename_i e; rw [e]; decide
  split at h
  · cases h; rename_i e; rw [e]; decide
  split at h
  · cases h; rename_i e; rw [e]; decide
  split at h
  · cases h; rename_i e; rw [e]; decide
  · cases h

theorem short_inj {a b l : Char} (ha : short a = some l) (hb : short b = some l) : a = b :=
  Char.toNat_inj.1 ((unshort_short ha).trans (unshort_short hb).symm)

theorem short_ne_x {c l : Char} (h : short c = some l) : l ≠ 'x' := by
  unfold short at h
  repeat' split at h
  all_goals cases h
  all_goals decide

theorem hexDigit_inj : ∀ n, n < 16 → ∀ m, m < 16 → hexDigit n = hexDigit m → n = m := by decide

theorem quoteChar_head (c : Char) : ∃ d r, quoteChar c = d :: r ∧ d ≠ '"' ∧ '\n' ∉ d :: r := by
  unfold quoteChar
  split
  · rename_i l hl
    refine ⟨_, _, rfl, by decide, ?_⟩
    unfold short at hl
    repeat' split at hl
    all_goals cases hl
    all_goals decide
  · rename_i hs
    split
    · refine ⟨_, _, rfl, by decide, ?_⟩
      have hh : ∀ n, n < 16 → hexDigit n ≠ '\n' := by decide
      rename_i h
      intro hm
      simp only [List.mem_cons, List.not_mem_nil, or_false] at hm
      rcases hm with hm | hm | hm | hm
      · exact absurd hm (by decide)
      · exact absurd hm (by decide)
      · exact hh _ (by omega) hm.symm
      · exact hh _ (by omega) hm.symm
    · refine ⟨_, _, rfl, ?_, ?_⟩
      · rintro rfl; simp [short] at hs
      · intro hm
        simp only [List.mem_cons, List.not_mem_nil, or_false] at hm
        subst hm
        simp [short] at hs

theorem quoteChar_cases (c : Char) : (∃ l, short c = some l ∧ quoteChar c = ['\\', l]) ∨
    (c.toNat < 128 ∧ quoteChar c = ['\\', 'x', hexDigit (c.toNat / 16), hexDigit (c.toNat % 16)]) ∨ (c ≠ '\\' ∧ quoteChar c = [c]) := by
  unfold quoteChar
  cases h : short c with
  | some l => exact Or.inl ⟨l, rfl, rfl⟩
  | none =>
    simp only
    split
    · exact Or.inr (Or.inl ⟨by omega, rfl⟩)
    · exact Or.inr (Or.inr ⟨by rintro rfl; simp [short] at h, rfl⟩)

theorem quoteChar_inj {a b : Char} {x y : Str} (h : quoteChar a ++ x = quoteChar b ++ y) : a = b ∧ x = y := by
  rcases quoteChar_cases a with ⟨l, hl, ea⟩ | ⟨la, ea⟩ | ⟨na, ea⟩ <;> rcases quoteChar_cases b with ⟨l', hl', eb⟩ | ⟨lb, eb⟩ | ⟨nb, eb⟩ <;>
    rw [ea, eb] at h <;> simp only [List.cons_append, List.nil_append, List.cons.injEq, true_and] at h
  · obtain ⟨e, h⟩ := h
    subst e
    exact ⟨short_inj hl hl', h⟩
  · exact absurd h.1 (short_ne_x hl)
  · exact absurd h.1.symm nb
  · exact absurd h.1.symm (short_ne_x hl')
  · obtain ⟨h1, h2, h3⟩ := h
    have e1 := hexDigit_inj _ (by omega) _ (by omega) h1
    have e2 := hexDigit_inj _ (by omega) _ (by omega) h2
    exact ⟨Char.toNat_inj.1 (by omega), h3⟩
  · exact absurd h.1.symm nb
  · exact absurd h.1 na
  · exact absurd h.1 na
  · exact h

theorem quote_inj {a b x y : Str} (h : quote a ++ x = quote b ++ y) : a = b ∧ x = y := by
  simp only [quote, List.cons_append, List.append_assoc, List.nil_append, List.cons.injEq, true_and] at h
  induction a generalizing b with
  | nil =>
    cases b with
    | nil => simpa using h
    | cons d b =>
      exfalso
      obtain ⟨e, r, he, hne, _⟩ := quoteChar_head d
      rw [List.flatMap_cons, he] at h
      simp only [List.flatMap_nil, List.nil_append, List.cons_append, List.cons.injEq] at h
      exact hne h.1.symm
  | cons c a ih =>
    cases b with
    | nil =>
      exfalso
      obtain ⟨e, r, he, hne, _⟩ := quoteChar_head c
      rw [List.flatMap_cons, he] at h
      simp only [List.flatMap_nil, List.nil_append, List.cons_append, List.cons.injEq] at h
      exact hne h.1
    | cons d b =>
      rw [List.flatMap_cons, List.flatMap_cons, List.append_assoc, List.append_assoc] at h
      obtain ⟨rfl, h1⟩ := quoteChar_inj h
      obtain ⟨rfl, h2⟩ := ih h1
      exact ⟨rfl, h2⟩

/-- Texts that end at the first comma or parenthesis. -/
theorem text_inj {s t x y : Str} {c d : Char} (hs : ∀ e ∈ s, e ≠ ',' ∧ e ≠ ')') (ht : ∀ e ∈ t, e ≠ ',' ∧ e ≠ ')') (hc : c = ',' ∨ c = ')') (hd : d = ',' ∨ d = ')')
    (h : s ++ c :: x = t ++ d :: y) : s = t ∧ c :: x = d :: y := by
  induction s generalizing t with
  | nil =>
    cases t with
    | nil => exact ⟨rfl, h⟩
    | cons e t =>
      exfalso
      simp only [List.nil_append, List.cons_append, List.cons.injEq] at h
      have := ht e (by simp)
      rw [← h.1] at this
      rcases hc with rfl | rfl
      · exact this.1 rfl
      · exact this.2 rfl
  | cons e s ih =>
    cases t with
    | nil =>
      exfalso
      simp only [List.nil_append, List.cons_append, List.cons.injEq] at h
      have := hs e (by simp)
      rw [h.1] at this
      rcases hd with rfl | rfl
      · exact this.1 rfl
      · exact this.2 rfl
    | cons f t =>
      simp only [List.cons_append, List.cons.injEq] at h
      obtain ⟨rfl, h1⟩ := h
      obtain ⟨rfl, h2⟩ := ih (fun e he => hs e (by simp [he])) (fun e he => ht e (by simp [he])) h1
      exact ⟨rfl, h2⟩

def TextOk (a : Arg) : Prop := ∀ t, a = .text t → ∀ c ∈ t, c ≠ '"' ∧ c ≠ ',' ∧ c ≠ ')' ∧ c ≠ '\n'

theorem render_inj {a b : Arg} {x y : Str} {c d : Char} (ha : TextOk a) (hb : TextOk b) (hc : c = ',' ∨ c = ')') (hd : d = ',' ∨ d = ')')
    (h : a.render ++ c :: x = b.render ++ d :: y) : a = b ∧ c :: x = d :: y := by
  have mixed : ∀ {s t x y : Str} {c : Char}, (∀ c ∈ t, c ≠ '"') → (c = ',' ∨ c = ')') → quote s ++ y = t ++ c :: x → False := by
    intro s t x y c ht hc h
    cases t with
    | nil =>
      simp only [quote, List.cons_append, List.nil_append, List.cons.injEq] at h
      rcases hc with rfl | rfl
      · exact absurd h.1 (by decide)
      · exact absurd h.1 (by decide)
    | cons e t =>
      simp only [quote, List.cons_append, List.cons.injEq] at h
      exact ht e (by simp) h.1.symm
  cases a with
  | name s =>
    cases b with
    | name t =>
      obtain ⟨rfl, h1⟩ := quote_inj h
      exact ⟨rfl, h1⟩
    | text t => exact (mixed (fun c hc => (hb t rfl c hc).1) hd h).elim
  | text s =>
    cases b with
    | name t => exact (mixed (fun c hc => (ha s rfl c hc).1) hc h.symm).elim
    | text t =>
      obtain ⟨rfl, h1⟩ := text_inj (fun e he => ⟨(ha s rfl e he).2.1, (ha s rfl e he).2.2.1⟩) (fun e he => ⟨(hb t rfl e he).2.1, (hb t rfl e he).2.2.1⟩) hc hd h
      exact ⟨rfl, h1⟩

theorem renderArgs_inj {as bs : List Arg} (hne : as ≠ []) (hne' : bs ≠ []) (ha : ∀ a ∈ as, TextOk a) (hb : ∀ b ∈ bs, TextOk b) (h : renderArgs as = renderArgs bs) : as = bs := by
  induction as generalizing bs with
  | nil => exact absurd rfl hne
  | cons a as ih =>
    cases bs with
    | nil => exact absurd rfl hne'
    | cons b bs =>
      have ha0 := ha a (by simp)
      have hb0 := hb b (by simp)
      cases as with
      | nil =>
        cases bs with
        | nil =>
          obtain ⟨rfl, _⟩ := render_inj ha0 hb0 (Or.inr rfl) (Or.inr rfl) h
          rfl
        | cons b' bs =>
          obtain ⟨_, h1⟩ := render_inj ha0 hb0 (Or.inr rfl) (Or.inl rfl) h
          cases h1
      | cons a' as =>
        cases bs with
        | nil =>
          obtain ⟨_, h1⟩ := render_inj ha0 hb0 (Or.inl rfl) (Or.inr rfl) h
          cases h1
        | cons b' bs =>
          obtain ⟨rfl, h1⟩ := render_inj ha0 hb0 (Or.inl rfl) (Or.inl rfl) h
          simp only [List.cons.injEq, true_and] at h1
          rw [ih (by simp) (by simp) (fun x hx => ha x (by simp [hx])) (fun x hx => hb x (by simp [hx])) h1]

theorem textOk_of {o : Op} (h : o.Proper) : ∀ a ∈ o.args, TextOk a := by
  rintro a ha t rfl
  exact h.2.2 t ha

/-- **C142** An entry tells the call: two calls with the same entry are the same method with the same names and the same other arguments as printed. -/
theorem C142_entry_tells {o p : Op} (ho : o.Proper) (hp : p.Proper) (h : entry o = entry p) : o = p := by
  obtain ⟨m, as⟩ := o
  obtain ⟨m', bs⟩ := p
  have hm : ∀ (m m' : Str) (x y : Str), (∀ c ∈ m, c ≠ '(') → (∀ c ∈ m', c ≠ '(') → m ++ '(' :: x = m' ++ '(' :: y → m = m' ∧ x = y := by
    intro m
    induction m with
    | nil =>
      intro m' x y _ h' h
      cases m' with
      | nil => simpa using h
      | cons c m' =>
        simp only [List.nil_append, List.cons_append, List.cons.injEq] at h
        exact absurd h.1.symm (h' c (by simp))
    | cons c m ih =>
      intro m' x y h1 h2 h
      cases m' with
      | nil =>
        simp only [List.nil_append, List.cons_append, List.cons.injEq] at h
        exact absurd h.1 (h1 c (by simp))
      | cons d m' =>
        simp only [List.cons_append, List.cons.injEq] at h
        obtain ⟨rfl, h3⟩ := h
        obtain ⟨rfl, h4⟩ := ih m' x y (fun c hc => h1 c (by simp [hc])) (fun c hc => h2 c (by simp [hc])) h3
        exact ⟨rfl, h4⟩
  obtain ⟨rfl, h1⟩ := hm m m' _ _ (fun c hc => (ho.1 c hc).1) (fun c hc => (hp.1 c hc).1) h
  have h2 : as = bs := renderArgs_inj ho.2.1 hp.2.1 (textOk_of ho) (textOk_of hp) h1
  rw [h2]

theorem entry_no_newline {o : Op} (ho : o.Proper) : '\n' ∉ entry o := by
  have hq : ∀ s, '\n' ∉ quote s := by
    intro s hm
    simp only [quote, List.mem_cons, List.mem_append, List.mem_flatMap, List.not_mem_nil, or_false] at hm
    rcases hm with h | ⟨c, _, h⟩ | h
    · exact absurd h (by decide)
    · obtain ⟨d, r, he, _, hn⟩ := quoteChar_head c
      rw [he] at h
      exact hn h
    · exact absurd h (by decide)
  have hr : ∀ a, TextOk a → '\n' ∉ a.render := by
    intro a ha
    cases a with
    | name s => exact hq s
    | text t => exact fun hm => (ha t rfl _ hm).2.2.2 rfl
  have has : ∀ as : List Arg, (∀ a ∈ as, TextOk a) → '\n' ∉ renderArgs as := by
    intro as
    induction as with
    | nil => intro _; decide
    | cons a as ih =>
      intro h
      cases as with
      | nil =>
        intro hm
        rw [renderArgs, List.mem_append] at hm
        rcases hm with hm | hm
        · exact hr a (h a (by simp)) hm
        · exact absurd hm (by decide)
      | cons b as =>
        intro hm
        rw [renderArgs, List.mem_append] at hm
        rcases hm with hm | hm
        · exact hr a (h a (by simp)) hm
        · simp only [List.mem_cons] at hm
          rcases hm with hm | hm | hm
          · exact absurd hm (by decide)
          · exact absurd hm (by decide)
          · exact ih (fun x hx => h x (by simp [hx])) hm
  intro hm
  simp only [entry, List.mem_append, List.mem_cons] at hm
  rcases hm with hm | hm | hm
  · exact (ho.1 _ hm).2 rfl
  · exact absurd hm (by decide)
  · exact has _ (textOk_of ho) hm

theorem linesOf_ne (s : Str) : linesOf s ≠ [] := by
  induction s with
  | nil => simp [linesOf]
  | cons c s ih =>
    rw [linesOf]
    split
    · simp
    · split
      · simp
      · simp

/-- A text, a line feed and more: the lines of both. -/
theorem linesOf_append (s t : Str) : linesOf (s ++ '\n' :: t) = linesOf s ++ linesOf t := by
  induction s with
  | nil => simp [linesOf]
  | cons c s ih =>
    rw [List.cons_append, linesOf, linesOf, ih]
    split
    · rfl
    · rcases hl : linesOf s with _ | ⟨l, ls⟩
      · exact absurd hl (linesOf_ne s)
      · rfl

theorem linesOf_single {s : Str} (h : '\n' ∉ s) : linesOf s = [s] := by
  induction s with
  | nil => rfl
  | cons c s ih =>
    rw [List.mem_cons, not_or] at h
    rw [linesOf, if_neg (fun e => h.1 e.symm), ih h.2]

theorem linesOf_lines (s : Str) (hist : List Str) (h : ∀ l ∈ hist, '\n' ∉ l) : linesOf (s ++ lines hist) = linesOf s ++ hist.map (fun l => bullet ++ l) := by
  induction hist generalizing s with
  | nil => simp [lines]
  | cons l hist ih =>
    have e : s ++ lines (l :: hist) = (s ++ '\n' :: (bullet ++ l)) ++ lines hist := by simp [lines]
    rw [e, ih _ (fun x hx => h x (by simp [hx])), linesOf_append, linesOf_single (s := bullet ++ l)]
    · simp
    · intro hm
      rw [List.mem_append] at hm
      rcases hm with hm | hm
      · exact absurd hm (by decide)
      · exact h l (by simp) hm

/-- **C142** Whatever the message is, and however many lines it has: the history can be read back from a report. -/
theorem C142_report_reads_back (msg : Str) (hist : List Str) (hne : hist ≠ []) (h : ∀ l ∈ hist, '\n' ∉ l) : readBack (reportOf msg hist) = hist := by
  unfold readBack reportOf
  rw [if_neg hne, linesOf_lines _ _ h]
  have e : linesOf (msg ++ '\n' :: header) = linesOf msg ++ [header] := by
    rw [linesOf_append, linesOf_single (s := header) (by decide)]
  rw [e, List.reverse_append, List.reverse_append, List.takeWhile_append_of_pos]
  · rw [List.reverse_cons, List.reverse_nil, List.nil_append, List.singleton_append, List.takeWhile_cons_of_neg (by simp), List.append_nil, List.reverse_reverse, List.map_map]
    have : (fun l : Str => List.drop bullet.length l) ∘ (fun l => bullet ++ l) = id := by
      funext l
      simp
    rw [this, List.map_id]
  · intro l hl
    rw [List.mem_reverse, List.mem_map] at hl
    obtain ⟨x, _, rfl⟩ := hl
    simp only [bullet, header, List.cons_append, ne_eq, List.cons.injEq, decide_eq_true_eq]
    rintro ⟨h, _⟩
    exact absurd h (by decide)

/-! ## Proofs: the run -/

/-- What is to be shown of a run from the state `s`, with `log`, `n` and `hist` from before. -/
def Told {σ V E : Type} (fs : Fsys σ V E) (errText : E → Str) (p : Script V E) (s : σ) (log : List (Op × Bool)) (n : Nat) (hist : List Str) : Prop :=
  ∃ l, Asks fs p s l ∧
    (run (watched fs) errText p (s, log, n) hist).1.2.1 = log ++ l.map (fun x => (x.1, x.2.1 != x.2.2)) ∧
    (run (watched fs) errText p (s, log, n) hist).1.1 = (run fs errText p s hist).1 ∧
    (run (watched fs) errText p (s, log, n) hist).2 = (run fs errText p s hist).2 ∧
    (run fs errText p s hist).2.1 = hist ++ l.map (fun x => entry x.1) ∧
    (((run fs errText p s hist).2.2 = .passed ∧ (∀ x ∈ l, x.2.2 = true) ∧ (run (watched fs) errText p (s, log, n) hist).1.2.2 = n) ∨
      ∃ l' o want msg, l = l' ++ [(o, want, false)] ∧ (∀ x ∈ l', x.2.2 = true) ∧ (run fs errText p s hist).2.2 = .fatal (reportOf (entry o ++ msg) (run fs errText p s hist).2.1) ∧
        (run (watched fs) errText p (s, log, n) hist).1.2.2 = n + if want = true ∧ gives o = true then 1 else 0)

theorem run_watched {σ V E : Type} (fs : Fsys σ V E) (errText : E → Str) (p : Script V E) (s : σ) (log : List (Op × Bool)) (n : Nat) (hist : List Str) :
    Told fs errText p s log n hist := by
  induction p generalizing s log n hist with
  | done => exact ⟨[], .done, by simp [run], rfl, rfl, by simp [run], Or.inl ⟨rfl, by simp, rfl⟩⟩
  | step o want k ih =>
    rcases hc : fs.call s o with ⟨s', r⟩
    have hw : (watched fs).call (s, log, n) o = ((s', log ++ [(o, match r with | .ok _ => true | .error _ => false)], n), r) := by simp [watched, hc]
    have hgo : ∀ (_ : (∃ v, r = .ok v ∧ want = false) ∨ (∃ e, r = .error e ∧ want = true)), ∀ b, (want != true) = b →
        (run fs errText (.step o want k) s hist = run fs errText (k r) s' (hist ++ [entry o])) →
        (run (watched fs) errText (.step o want k) (s, log, n) hist = run (watched fs) errText (k r) (s', log ++ [(o, b)], n) (hist ++ [entry o])) →
        Told fs errText (.step o want k) s log n hist := by
      intro hexp b hb h1 h2
      obtain ⟨l, c1, c2, c3, c4, c5, c6⟩ := ih r s' (log ++ [(o, b)]) n (hist ++ [entry o])
      refine ⟨(o, want, true) :: l, .more (by rw [hc]; exact hexp) (by rw [hc]; exact c1), ?_⟩
      rw [h1, h2]
      refine ⟨by rw [c2, List.map_cons, hb]; simp, c3, c4, by rw [c5]; simp, ?_⟩
      rcases c6 with ⟨d1, d2, d3⟩ | ⟨l', o', w', msg, d1, d2, d3, d4⟩
      · refine Or.inl ⟨d1, ?_, d3⟩
        intro x hx
        rcases List.mem_cons.1 hx with rfl | hx
        · rfl
        · exact d2 x hx
      · refine Or.inr ⟨(o, want, true) :: l', o', w', msg, by rw [d1]; rfl, ?_, d3, d4⟩
        intro x hx
        rcases List.mem_cons.1 hx with rfl | hx
        · rfl
        · exact d2 x hx
    cases r with
    | ok v =>
      cases want with
      | false => exact hgo (Or.inl ⟨v, rfl, rfl⟩) true rfl (by simp [run, hc]) (by simp [run, hw])
      | true =>
        refine ⟨[(o, true, false)], .stop (by rw [hc]; exact Or.inl ⟨v, rfl, rfl⟩), ?_⟩
        simp only [run, hc, hw, if_true]
        refine ⟨?_, ?_, trivial, by simp, Or.inr ⟨[], o, true, succeeded, rfl, by simp, by simp, ?_⟩⟩
        · split <;> simp [watched]
        · split <;> simp [watched]
        · split <;> simp_all [watched]
    | error e =>
      cases want with
      | true => exact hgo (Or.inr ⟨e, rfl, rfl⟩) false rfl (by simp [run, hc]) (by simp [run, hw])
      | false =>
        refine ⟨[(o, false, false)], .stop (by rw [hc]; exact Or.inr ⟨e, rfl, rfl⟩), ?_⟩
        simp only [run, hc, hw]
        exact ⟨by simp, by simp, by simp, by simp, Or.inr ⟨[], o, false, ':' :: ' ' :: errText e, rfl, by simp, by simp, by simp⟩⟩

/-- The calls of a proper script are proper. -/
theorem asks_proper {σ V E : Type} {fs : Fsys σ V E} {p : Script V E} {s : σ} {l : List (Op × Bool × Bool)} (hp : p.Proper) (h : Asks fs p s l) : ∀ x ∈ l, x.1.Proper := by
  induction h with
  | done => intro x hx; cases hx
  | more _ _ ih =>
    intro x hx
    rcases List.mem_cons.1 hx with rfl | hx
    · exact hp.1
    · exact ih (hp.2 _) x hx
  | stop _ =>
    intro x hx
    rw [List.mem_singleton] at hx
    subst hx
    exact hp.1

/-- The methods that open a file. -/
def Opens (o : Op) : Bool := o.method ∈ ["Create".toList, "Open".toList, "OpenFile".toList]

theorem gives_opens : gives = Opens := by
  funext o
  rw [Bool.eq_iff_iff]
  simp only [Opens, decide_eq_true_iff, List.mem_cons, List.not_mem_nil, or_false]
  exact ⟨fun h => of_decide_eq_true h, fun h => decide_eq_true h⟩

/-- **C142** A test through the context, on every filesystem: the filesystem gets exactly the calls of the test up to the first one that is not answered as wanted, each once and in order, and is
otherwise left alone, but for the closing of a file that was opened against what was wanted. The test passes exactly when all were answered as wanted. -/
theorem C142_calls {σ V E : Type} (fs : Fsys σ V E) (errText : E → Str) (p : Script V E) (s : σ) :
    ∃ l, Asks fs p s l ∧
      (run (watched fs) errText p (s, [], 0) []).1.2.1 = l.map (fun x => (x.1, x.2.1 != x.2.2)) ∧
      ((run (watched fs) errText p (s, [], 0) []).2.2 = .passed ↔ ∀ x ∈ l, x.2.2 = true) ∧
      (run (watched fs) errText p (s, [], 0) []).1.2.2 = (l.filter (fun x => x.2.1 && !x.2.2 && Opens x.1)).length := by
  rw [← gives_opens]
  obtain ⟨l, c1, c2, _, c4, _, c6⟩ := run_watched fs errText p s [] 0 []
  refine ⟨l, c1, by simpa using c2, ?_, ?_⟩
  · rw [c4]
    rcases c6 with ⟨d1, d2, _⟩ | ⟨l', o, want, msg, d1, _, d3, _⟩
    · exact ⟨fun _ => d2, fun _ => d1⟩
    · constructor
      · intro h; rw [d3] at h; cases h
      · intro h
        have := h (o, want, false) (by rw [d1]; simp)
        cases this
  · have hz : ∀ l : List (Op × Bool × Bool), (∀ x ∈ l, x.2.2 = true) → l.filter (fun x => x.2.1 && !x.2.2 && gives x.1) = [] := by
      intro l h
      rw [List.filter_eq_nil_iff]
      intro x hx
      simp [h x hx]
    rcases c6 with ⟨_, d2, d3⟩ | ⟨l', o, want, msg, d1, d2, _, d4⟩
    · rw [d3, hz l d2]; rfl
    · rw [d4, d1, List.filter_append, hz l' d2]
      cases want <;> cases hg : gives o <;> simp [hg]

/-- **C142** When the test is ended, the report begins with the call that was not answered as wanted, and what can be read back from it are the entries of exactly the calls the filesystem got, in order,
that one being the last. -/
theorem C142_report {σ V E : Type} (fs : Fsys σ V E) (errText : E → Str) (p : Script V E) (hp : p.Proper) (s : σ) (report : Str)
    (h : (run (watched fs) errText p (s, [], 0) []).2.2 = .fatal report) :
    ∃ calls o ok, (run (watched fs) errText p (s, [], 0) []).1.2.1 = calls ++ [(o, ok)] ∧ entry o <+: report ∧
      readBack report = (calls ++ [(o, ok)]).map (fun x => entry x.1) := by
  obtain ⟨l, c1, c2, _, c4, c5, c6⟩ := run_watched fs errText p s [] 0 []
  rw [c4] at h
  rcases c6 with ⟨d1, _⟩ | ⟨l', o, want, msg, d1, _, d3, _⟩
  · rw [d1] at h; cases h
  · rw [d3] at h
    cases h
    rw [List.nil_append] at c5 c2
    have hprop := asks_proper hp c1
    have hne : l.map (fun x => entry x.1) ≠ [] := by rw [d1]; simp
    refine ⟨l'.map (fun x => (x.1, x.2.1 != x.2.2)), o, want != false, by rw [c2, d1]; simp, ?_, ?_⟩
    · unfold reportOf
      split
      · exact List.prefix_append _ _
      · rw [List.append_assoc, List.append_assoc]
        exact List.prefix_append _ _
    · rw [c5, C142_report_reads_back _ _ hne]
      · rw [d1]; simp [Function.comp_def]
      · intro t ht
        rw [List.mem_map] at ht
        obtain ⟨x, hx, rfl⟩ := ht
        exact entry_no_newline (hprop x hx)

/-! ## Non-vacuity: a filesystem that knows which names exist -/

/-- `Create` makes a name, `Stat` asks for it. -/
def exFs : Fsys (List Str) Unit Str where
  call := fun s o => match o.args with
    | [.name n] => if o.method = createM then (n :: s, .ok ()) else (s, if n ∈ s then .ok () else .error ['n', 'o', '\n'])
    | _ => (s, .error ['?'])
  close := fun s _ => s

def exScript : Script Unit Str :=
  .step ⟨createM, [.name ['a', '\n', '"']]⟩ false fun _ => .step ⟨['S', 't', 'a', 't'], [.name ['b']]⟩ true fun _ => .step ⟨['S', 't', 'a', 't'], [.name ['c']]⟩ false fun _ => .done

example : exScript.Proper := by
  refine ⟨?_, fun _ => ⟨?_, fun _ => ⟨?_, fun _ => trivial⟩⟩⟩ <;> refine ⟨by decide, by decide, ?_⟩ <;> intro t ht <;> simp at ht

example : ∃ report, (run (watched exFs) id exScript ([], [], 0) []).2.2 = .fatal report ∧
    readBack report = [['C', 'r', 'e', 'a', 't', 'e', '(', '"', 'a', '\\', 'n', '\\', '"', '"', ')'], ['S', 't', 'a', 't', '(', '"', 'b', '"', ')'], ['S', 't', 'a', 't', '(', '"', 'c', '"', ')']] :=
  ⟨_, rfl, by decide⟩

/-- An unwanted success of `Create` is closed. -/
example : (run (watched exFs) id (.step ⟨createM, [.name ['a']]⟩ true fun _ => .done) ([], [], 0) []).1.2.2 = 1 := by decide

end Verif.Testhelper.Context
