import Verif.Tarfs.MapProps
/-
C100, format 1.0: a map in front of the data, in text, in blocks of 512 bytes.
-/
namespace Verif.Tarfs.Map

/-! ### Specification -/

/-- Lines, each with a newline. -/
def lines : List Bytes → Bytes
  | [] => []
  | a :: l => a ++ 10 :: lines l

def asStr (b : Bytes) : Str := b.map fun x => Char.ofNat x.toNat

/-- The text of a map: the number of entries and then offset and length of each, one per line. -/
def IsText (text : Bytes) (l : List Frag) : Prop :=
  ∃ c ls, text = lines (c :: ls) ∧ IsInt (asStr c) l.length ∧ (l.length : Int) < 2 ^ 62 ∧ Numbers (ls.map asStr) l

/-- The bytes that a text takes, in whole blocks. -/
def blocks (n : Nat) : Nat := 512 * ((n + 511) / 512)

/-! ### Reading blocks -/

theorem Rd.read_spec (e : Env) (r : Rd) (len : Nat) (d : Bytes) (er : Option Err) (r1 : Rd) (h : r.read e len = (d, er, r1)) :
    d = r.rest.take d.length ∧ d.length ≤ len ∧ r1.data = r.data ∧ r1.pos = r.pos + d.length ∧ (er = none → 0 < len → 0 < d.length) ∧
    (er = some .eof → r1.rest = []) ∧ (er = none ∨ er = some .eof ∨ er = some .fault) ∧ (er = some .fault → e.fault r.calls = true) := by
  unfold Rd.read at h
  simp only at h
  have hd : (r.rest.take (min len (max 1 (e.size r.calls)))) = r.rest.take (r.rest.take (min len (max 1 (e.size r.calls)))).length := by
    generalize min len (max 1 (e.size r.calls)) = m
    rw [List.length_take]
    by_cases hc : m ≤ r.rest.length
    · rw [Nat.min_eq_left hc]
    · rw [Nat.min_eq_right (by omega), List.take_of_length_le (by omega), List.take_of_length_le (by omega)]
  have hl : (r.rest.take (min len (max 1 (e.size r.calls)))).length ≤ len := by rw [List.length_take]; omega
  split at h
  · rename_i hf
    cases h
    exact ⟨hd, hl, rfl, rfl, (by intro h; cases h), (by intro h; cases h), Or.inr (Or.inr rfl), fun _ => hf⟩
  · split at h
    · rename_i hr
      cases h
      refine ⟨hd, hl, rfl, rfl, (by intro h; cases h), ?_, Or.inr (Or.inl rfl), (by intro h; cases h)⟩
      intro _
      unfold Rd.rest at hr ⊢
      rw [List.drop_eq_nil_iff] at hr ⊢
      show r.data.length ≤ r.pos + _
      omega
    · rename_i hr
      split at h
      · rename_i he
        cases h
        exact ⟨hd, hl, rfl, rfl, (by intro h; cases h), fun _ => he.1, Or.inr (Or.inl rfl), (by intro h; cases h)⟩
      · cases h
        refine ⟨hd, hl, rfl, rfl, ?_, (by intro h; cases h), Or.inl rfl, (by intro h; cases h)⟩
        intro _ hlen
        rw [List.length_take]
        have : 0 < r.rest.length := List.length_pos_iff.2 hr
        omega

theorem rest_advance {r r1 : Rd} {k : Nat} (h1 : r1.data = r.data) (h2 : r1.pos = r.pos + k) : r1.rest = r.rest.drop k := by
  unfold Rd.rest; rw [h1, h2, List.drop_drop]

theorem tryReadFull_spec (e : Env) (want : Nat) : ∀ (fuel : Nat) (got : Bytes) (r : Rd) (b : Bytes) (er : Option Err) (r1 : Rd),
    got.length ≤ want → tryReadFull e want fuel got r = some (b, er, r1) →
    ∃ k, k ≤ r.rest.length ∧ b = got ++ r.rest.take k ∧ b.length = got.length + k ∧ b.length ≤ want ∧ r1.data = r.data ∧ r1.pos = r.pos + k ∧
      (er = none → b.length = want) ∧
      (er = some .eof → r1.rest = [] ∧ b.length < want) ∧ (er = none ∨ er = some .eof ∨ er = some .fault) ∧ (er = some .fault → ∃ c, e.fault c = true) := by
  intro fuel
  induction fuel with
  | zero => intro got r b er r1 _ h; cases h
  | succ fuel ih =>
    intro got r b er r1 hg h
    rw [tryReadFull] at h
    split at h
    · rename_i hw
      cases h
      exact ⟨0, by omega, by simp, by simp, hg, rfl, rfl, fun _ => by omega, (by intro h; cases h), Or.inl rfl, (by intro h; cases h)⟩
    · rename_i hw
      cases hx : r.read e (want - got.length) with
      | mk d x =>
        obtain ⟨er', r'⟩ := x
        rw [hx] at h
        obtain ⟨hd, hl, hdata, hpos, hprog, heof, hcases, hfault⟩ := r.read_spec e _ d er' r' hx
        have hdl : d.length ≤ r.rest.length := by
          have := congrArg List.length hd
          rw [List.length_take] at this; omega
        cases er' with
        | none =>
          simp only at h
          obtain ⟨k, k0, k1, k2, k3, k4, k5, k6, k7, k8, k9⟩ := ih (got ++ d) r' b er r1 (by rw [List.length_append]; omega) h
          have hrest := rest_advance hdata hpos
          rw [hrest] at k0 k1
          rw [List.length_drop] at k0
          refine ⟨d.length + k, by omega, ?_, by rw [k2, List.length_append]; omega, k3, by rw [k4, hdata], by rw [k5, hpos]; omega, k6, k7, k8, k9⟩
          rw [k1, List.append_assoc]
          congr 1
          conv => lhs; lhs; rw [hd]
          rw [List.take_add]
        | some er0 =>
          simp only at h
          cases h
          refine ⟨d.length, hdl, by rw [← hd], by rw [List.length_append], by rw [List.length_append]; omega, hdata, hpos, ?_, ?_, ?_, ?_⟩
          · intro h
            split at h
            · rename_i hc; exact hc.1.symm
            · cases h
          · intro h
            split at h
            · cases h
            · rename_i hc
              cases h
              refine ⟨heof rfl, ?_⟩
              rw [List.length_append]
              have : want ≠ (got ++ d).length := fun h => hc ⟨h, rfl⟩
              rw [List.length_append] at this
              omega
          · split
            · exact Or.inl rfl
            · rcases hcases with h | h | h
              · cases h
              · exact Or.inr (Or.inl h)
              · exact Or.inr (Or.inr h)
          · intro h
            split at h
            · cases h
            · exact ⟨_, hfault h⟩

theorem tryReadFull_total (e : Env) (want : Nat) : ∀ (fuel : Nat) (got : Bytes) (r : Rd), got.length ≤ want → want < fuel + got.length → tryReadFull e want fuel got r ≠ none := by
  intro fuel
  induction fuel with
  | zero =>
    intro got r h0 h
    omega
  | succ fuel ih =>
    intro got r h0 h
    rw [tryReadFull]
    split
    · simp
    · rename_i hw
      cases hx : r.read e (want - got.length) with
      | mk d x =>
        obtain ⟨er', r'⟩ := x
        obtain ⟨_, hl, _, _, hprog, _⟩ := r.read_spec e _ d er' r' hx
        cases er' with
        | none =>
          refine ih _ _ (by rw [List.length_append]; omega) ?_
          have := hprog rfl (by omega)
          rw [List.length_append]; omega
        | some er0 => simp

theorem tryReadFull_block (e : Env) (hf : ∀ k, e.fault k = false) (r : Rd) (h : 512 ≤ r.rest.length) :
    ∃ r1, tryReadFull e 512 513 [] r = some (r.rest.take 512, none, r1) ∧ r1.data = r.data ∧ r1.pos = r.pos + 512 := by
  cases hx : tryReadFull e 512 513 [] r with
  | none => exact absurd hx (tryReadFull_total e 512 513 [] r (by simp) (by simp))
  | some x =>
    obtain ⟨b, er, r1⟩ := x
    obtain ⟨k, k0, k1, k2, k3, k4, k5, k6, k7, k8, k9⟩ := tryReadFull_spec e 512 513 [] r b er r1 (by simp) hx
    simp only [List.nil_append, List.length_nil, Nat.zero_add] at k1 k2
    rcases k8 with rfl | rfl | rfl
    · have := k6 rfl
      have hk : k = 512 := by omega
      subst hk
      exact ⟨r1, by rw [k1], k4, k5⟩
    · obtain ⟨h1, h2⟩ := k7 rfl
      rw [rest_advance k4 k5, List.drop_eq_nil_iff] at h1
      omega
    · obtain ⟨c, hc⟩ := k9 rfl
      rw [hf c] at hc; cases hc

theorem mustReadBlock_ok {e : Env} {r r1 : Rd} {b : Bytes} (h : mustReadBlock e r = some (b, none, r1)) :
    512 ≤ r.rest.length ∧ b = r.rest.take 512 ∧ r1.data = r.data ∧ r1.pos = r.pos + 512 := by
  unfold mustReadBlock at h
  cases hx : tryReadFull e 512 513 [] r with
  | none => rw [hx] at h; cases h
  | some x =>
    obtain ⟨b', er, r'⟩ := x
    rw [hx] at h
    simp only [Option.some.injEq, Prod.mk.injEq] at h
    obtain ⟨rfl, he, rfl⟩ := h
    obtain ⟨k, k0, k1, k2, k3, k4, k5, k6, k7, k8, k9⟩ := tryReadFull_spec e 512 513 [] r b' er r' (by simp) hx
    simp only [List.nil_append, List.length_nil, Nat.zero_add] at k1 k2
    split at he
    · cases he
    · have := k6 he
      have hk : k = 512 := by omega
      subst hk
      exact ⟨k0, k1, k4, k5⟩

theorem mustReadBlock_read (e : Env) (hf : ∀ k, e.fault k = false) (r : Rd) (h : 512 ≤ r.rest.length) :
    ∃ r1, mustReadBlock e r = some (r.rest.take 512, none, r1) ∧ r1.data = r.data ∧ r1.pos = r.pos + 512 := by
  obtain ⟨r1, h1, h2, h3⟩ := tryReadFull_block e hf r h
  refine ⟨r1, ?_, h2, h3⟩
  unfold mustReadBlock
  rw [h1]
  rfl

theorem mustReadBlock_total (e : Env) (r : Rd) : mustReadBlock e r ≠ none := by
  unfold mustReadBlock
  cases hx : tryReadFull e 512 513 [] r with
  | none => exact absurd hx (tryReadFull_total e 512 513 [] r (by simp) (by simp))
  | some x => simp

/-! ### Lines -/

theorem newlines_append (a b : Bytes) : newlines (a ++ b) = newlines a + newlines b := List.count_append

/-- The reader is somewhere in the text `d`: what was read and not yet used is `buf`, the rest is still below. -/
structure Good (d : Bytes) (t : Tok) : Prop where
  text : t.buf ++ t.rd.rest = d
  count : t.cnt = newlines t.buf

theorem feed_spec (e : Env) (n : Int) : ∀ (fuel : Nat) (d : Bytes) (t t' : Tok), Good d t → feed e n fuel t = some (.ok t') →
    Good d t' ∧ n ≤ t'.cnt ∧ t'.rd.data = t.rd.data ∧ ∃ k, t'.rd.pos = t.rd.pos + 512 * k ∧ t'.buf.length = t.buf.length + 512 * k ∧
      (k ≠ 0 → (newlines (t'.buf.take (t'.buf.length - 512)) : Int) < n) := by
  intro fuel
  induction fuel with
  | zero => intro d t t' _ h; cases h
  | succ fuel ih =>
    intro d t t' hg h
    rw [feed] at h
    split at h
    · rename_i hlt
      cases hx : mustReadBlock e t.rd with
      | none => rw [hx] at h; cases h
      | some x =>
        obtain ⟨blk, er, r1⟩ := x
        rw [hx] at h
        cases er with
        | some er => cases h
        | none =>
          simp only at h
          obtain ⟨b1, b2, b3, b4⟩ := mustReadBlock_ok hx
          have hbl : blk.length = 512 := by rw [b2, List.length_take]; omega
          have hg' : Good d ⟨t.cnt + newlines blk, t.buf ++ blk, r1⟩ := by
            refine ⟨?_, ?_⟩
            · show t.buf ++ blk ++ r1.rest = d
              rw [rest_advance b3 b4, b2, List.append_assoc, List.take_append_drop]
              exact hg.text
            · show t.cnt + newlines blk = (newlines (t.buf ++ blk) : Int)
              rw [newlines_append, hg.count]; simp
          obtain ⟨g1, g2, g3, k, g4, g5, g6⟩ := ih d _ t' hg' h
          refine ⟨g1, g2, by rw [g3]; exact b3, k + 1, ?_, ?_, ?_⟩
          · rw [g4]; show r1.pos + _ = _; rw [b4]; omega
          · rw [g5]; show (t.buf ++ blk).length + _ = _; rw [List.length_append, hbl]; omega
          · intro _
            by_cases hk : k = 0
            · subst hk
              have hb : t'.buf = t.buf ++ blk := by
                have e1 := g1.text
                have e2 := hg'.text
                rw [← e2] at e1
                exact (List.append_inj e1 (by rw [g5]; simp)).1
              rw [hb, List.length_append, hbl, Nat.add_sub_cancel, List.take_left]
              rw [← hg.count]; exact hlt
            · exact g6 hk
    · rename_i hlt
      cases h
      exact ⟨hg, by omega, rfl, 0, by simp, by simp, by simp⟩

theorem feed_reads (e : Env) (hf : ∀ k, e.fault k = false) (n : Int) (d x y : Bytes) (hd : d = x ++ y) (hn : n ≤ newlines x) : ∀ (k fuel : Nat) (t : Tok), Good d t →
    x.length ≤ t.buf.length + 512 * k → 512 * k ≤ t.rd.rest.length → k < fuel → ∃ t', feed e n fuel t = some (.ok t') := by
  intro k
  induction k with
  | zero =>
    intro fuel t hg hx _ hfu
    obtain ⟨fuel, rfl⟩ : ∃ f, fuel = f + 1 := ⟨fuel - 1, by omega⟩
    refine ⟨t, ?_⟩
    rw [feed, if_neg]
    have : newlines x ≤ newlines t.buf := by
      have h1 : x <+: t.buf := by
        refine List.prefix_of_prefix_length_le (l₃ := d) ⟨y, hd.symm⟩ ⟨t.rd.rest, hg.text⟩ (by omega)
      obtain ⟨z, hz⟩ := h1
      rw [← hz, newlines_append]; omega
    rw [hg.count]
    omega
  | succ k ih =>
    intro fuel t hg hx hr hfu
    obtain ⟨fuel, rfl⟩ : ∃ f, fuel = f + 1 := ⟨fuel - 1, by omega⟩
    rw [feed]
    split
    · obtain ⟨r1, b1, b3, b4⟩ := mustReadBlock_read e hf t.rd (by omega)
      rw [b1]
      simp only
      have hl : (t.rd.rest.take 512).length = 512 := by rw [List.length_take]; omega
      refine ih fuel _ ⟨?_, ?_⟩ ?_ ?_ (by omega)
      · show t.buf ++ t.rd.rest.take 512 ++ r1.rest = d
        rw [rest_advance b3 b4, List.append_assoc, List.take_append_drop]
        exact hg.text
      · show t.cnt + newlines (t.rd.rest.take 512) = (newlines (t.buf ++ t.rd.rest.take 512) : Int)
        rw [newlines_append, hg.count]; simp
      · show x.length ≤ (t.buf ++ t.rd.rest.take 512).length + _
        rw [List.length_append, hl]; omega
      · show _ ≤ r1.rest.length
        rw [rest_advance b3 b4, List.length_drop]; omega
    · exact ⟨t, rfl⟩

theorem takeWhile_line (b : Bytes) (h : newlines b ≠ 0) : ∃ rest, b = b.takeWhile (· ≠ 10) ++ 10 :: rest ∧ newlines (b.takeWhile (· ≠ 10)) = 0 := by
  induction b with
  | nil => exact absurd rfl h
  | cons c b ih =>
    by_cases hc : c = 10
    · subst hc
      exact ⟨b, by simp [List.takeWhile], by simp [List.takeWhile, newlines]⟩
    · have hn : newlines b ≠ 0 := by
        unfold newlines at h ⊢
        rw [List.count_cons_of_ne hc] at h
        exact h
      obtain ⟨rest, h1, h2⟩ := ih hn
      refine ⟨rest, ?_, ?_⟩
      · simp only [List.takeWhile, hc, ne_eq, not_false_eq_true, decide_true, List.cons_append]
        rw [← h1]
      · simp only [List.takeWhile, hc, ne_eq, not_false_eq_true, decide_true]
        unfold newlines at h2 ⊢
        rw [List.count_cons_of_ne hc, h2]

/-- One token: a line of the text. -/
theorem nextToken_spec {d : Bytes} {t : Tok} (hg : Good d t) (h1 : 1 ≤ t.cnt) :
    ∃ line d', d = line ++ 10 :: d' ∧ newlines line = 0 ∧ (nextToken t).1 = asStr line ∧ Good d' (nextToken t).2 ∧ (nextToken t).2.cnt = t.cnt - 1 ∧
      (nextToken t).2.rd = t.rd ∧ t.buf.length = line.length + 1 + (nextToken t).2.buf.length := by
  have hn : newlines t.buf ≠ 0 := by have := hg.count; omega
  obtain ⟨rest, hb, hz⟩ := takeWhile_line t.buf hn
  have hdrop : t.buf.drop ((t.buf.takeWhile (· ≠ 10)).length + 1) = rest := by
    generalize t.buf.takeWhile (· ≠ 10) = line at hb ⊢
    rw [hb]
    simp
  refine ⟨t.buf.takeWhile (· ≠ 10), rest ++ t.rd.rest, ?_, hz, rfl, ⟨?_, ?_⟩, rfl, rfl, ?_⟩
  · have ht := hg.text
    conv at ht => lhs; lhs; rw [hb]
    rw [← ht]
    generalize t.buf.takeWhile (· ≠ 10) = line
    simp
  · show t.buf.drop _ ++ t.rd.rest = _
    rw [hdrop]
  · show t.cnt - 1 = (newlines (t.buf.drop _) : Int)
    rw [hdrop]
    have hc := hg.count
    rw [hb, newlines_append, hz] at hc
    have : newlines (10 :: rest) = newlines rest + 1 := by unfold newlines; rw [List.count_cons_self]
    rw [this] at hc
    omega
  · show t.buf.length = _ + (t.buf.drop _).length
    rw [hdrop]
    conv => lhs; rw [hb]
    rw [List.length_append, List.length_cons]; omega

theorem lines_append (a b : List Bytes) : lines (a ++ b) = lines a ++ lines b := by
  induction a with
  | nil => rfl
  | cons x a ih => simp [lines, ih]

/-- The first lines of a text are determined by how many there are. -/
theorem lines_unique : ∀ (a b : List Bytes) (x y : Bytes), (∀ l ∈ a, newlines l = 0) → (∀ l ∈ b, newlines l = 0) → a.length = b.length → lines a ++ x = lines b ++ y →
    a = b ∧ x = y
  | [], [], x, y, _, _, _, h => ⟨rfl, h⟩
  | [], _ :: _, _, _, _, _, hl, _ => by simp at hl
  | _ :: _, [], _, _, _, _, hl, _ => by simp at hl
  | p :: a, q :: b, x, y, ha, hb, hl, h => by
    have hpq : ∀ (p q u v : Bytes), newlines p = 0 → newlines q = 0 → p ++ 10 :: u = q ++ 10 :: v → p = q ∧ u = v := by
      intro p
      induction p with
      | nil =>
        intro q u v _ hq h
        cases q with
        | nil => simpa using h
        | cons c q =>
          simp at h
          rw [← h.1] at hq
          unfold newlines at hq
          rw [List.count_cons_self] at hq; omega
      | cons c p ih =>
        intro q u v hp hq h
        cases q with
        | nil =>
          simp at h
          rw [h.1] at hp
          unfold newlines at hp
          rw [List.count_cons_self] at hp; omega
        | cons c' q =>
          simp at h
          obtain ⟨rfl, h⟩ := h
          have hz : newlines p = 0 ∧ newlines q = 0 := by
            unfold newlines at hp hq ⊢
            rw [List.count_cons] at hp hq
            omega
          obtain ⟨r1, r2⟩ := ih q u v hz.1 hz.2 h
          exact ⟨by rw [r1], r2⟩
    simp only [lines, List.append_assoc, List.cons_append] at h
    obtain ⟨rfl, h2⟩ := hpq p q _ _ (ha p (by simp)) (hb q (by simp)) h
    obtain ⟨rfl, rfl⟩ := lines_unique a b x y (fun l hl => ha l (by simp [hl])) (fun l hl => hb l (by simp [hl])) (by simpa using hl) h2
    exact ⟨rfl, rfl⟩

theorem asStr_newlines {b : Bytes} (h : '\n' ∉ asStr b) : newlines b = 0 := by
  unfold newlines
  rw [List.count_eq_zero]
  intro hm
  exact h (List.mem_map.2 ⟨10, hm, by decide⟩)

theorem entries_spec : ∀ (n : Nat) (d : Bytes) (t : Tok), Good d t → (2 * n : Int) ≤ t.cnt →
    (∃ ls d', d = lines ls ++ d' ∧ ls.length = 2 * n ∧ (∀ l ∈ ls, newlines l = 0) ∧
      (∀ l t', entries n t = .ok (l, t') → Numbers (ls.map asStr) l ∧ l.length = n ∧ Good d' t' ∧ t'.rd = t.rd ∧ t.buf.length = (lines ls).length + t'.buf.length) ∧
      (∀ l, Numbers (ls.map asStr) l → ∃ t', entries n t = .ok (l, t')))
  | 0, d, t, hg, _ => by
    refine ⟨[], d, rfl, rfl, by simp, ?_, ?_⟩
    · intro l t' h
      rw [entries] at h
      cases h
      exact ⟨.nil, rfl, hg, rfl, by simp [lines]⟩
    · intro l h
      cases h
      exact ⟨t, rfl⟩
  | n + 1, d, t, hg, hc => by
    obtain ⟨a, d1, e1, z1, k1, g1, c1, r1, l1⟩ := nextToken_spec hg (by omega)
    obtain ⟨b, d2, e2, z2, k2, g2, c2, r2, l2⟩ := nextToken_spec g1 (by omega)
    obtain ⟨ls, d', e3, hl, hz, hs, hr⟩ := entries_spec n d2 _ g2 (by omega)
    refine ⟨a :: b :: ls, d', ?_, by simp [hl]; omega, ?_, ?_, ?_⟩
    · rw [e1, e2, e3]; simp [lines]
    · intro l hl
      rcases List.mem_cons.1 hl with rfl | hl
      · exact z1
      · rcases List.mem_cons.1 hl with rfl | hl
        · exact z2
        · exact hz l hl
    · intro l t' h
      rw [entries] at h
      simp only [k1, k2] at h
      split at h
      · rename_i off len ha hb
        cases hx : entries n (nextToken (nextToken t).2).2 with
        | error er => rw [hx] at h; cases h
        | ok p =>
          obtain ⟨l', t3⟩ := p
          rw [hx] at h
          simp only [Except.ok.injEq, Prod.mk.injEq] at h
          obtain ⟨rfl, rfl⟩ := h
          obtain ⟨s1, s2, s3, s4, s5⟩ := hs l' t3 hx
          refine ⟨.cons ((parseInt64_iff _ _).1 ha) ((parseInt64_iff _ _).1 hb) s1, by simp [s2], s3, by rw [s4, r2, r1], ?_⟩
          rw [l1, l2, s5]
          simp [lines]; omega
      · cases h
    · intro l h
      cases l with
      | nil => cases h
      | cons f l =>
        cases h with
        | cons ha hb hn =>
          obtain ⟨t', ht⟩ := hr l hn
          refine ⟨t', ?_⟩
          rw [entries]
          simp only [k1, k2]
          rw [(parseInt64_iff _ _).2 ha, (parseInt64_iff _ _).2 hb]
          simp only
          rw [ht]

/-! ### The theorems about format 1.0 -/

theorem blocks_eq {P T : Nat} (k : Nat) (hP : P = 512 * k) (h1 : T ≤ P) (h2 : P < T + 512) : P = blocks T := by
  unfold blocks; omega

/-- The block in which enough newlines have been seen holds the end of the line. -/
theorem last_block {buf a rest : Bytes} {n : Nat} (hb : buf = a ++ rest) (hn : n ≤ newlines a) (h : newlines (buf.take (buf.length - 512)) < n) :
    buf.length < a.length + 512 := by
  apply Classical.byContradiction
  intro hc
  have hp : a <+: buf.take (buf.length - 512) := by
    rw [hb, List.take_append]
    rw [List.take_of_length_le (by rw [hb] at hc; simp at hc ⊢; omega)]
    exact List.prefix_append _ _
  obtain ⟨z, hz⟩ := hp
  rw [← hz, newlines_append] at h
  omega

theorem newlines_lines (ls : List Bytes) : ls.length ≤ newlines (lines ls) := by
  induction ls with
  | nil => simp
  | cons a ls ih =>
    rw [lines, newlines_append]
    have : newlines (10 :: lines ls) = newlines (lines ls) + 1 := by unfold newlines; rw [List.count_cons_self]
    rw [this, List.length_cons]; omega

/-- **C100** (format 1.0). If a map is read, whatever pieces the reader below gives, it is the map that the text at the position says, and the position is then
at the end of the block in which that text ends. -/
theorem C100_pax1_read (e : Env) (fuel : Nat) (r r' : Rd) (l : List Frag) (h : read1x0 e fuel r = some (.ok (l, r'))) :
    ∃ text tail, r.rest = text ++ tail ∧ IsText text l ∧ blocks text.length ≤ r.rest.length ∧ r'.data = r.data ∧ r'.pos = r.pos + blocks text.length := by
  unfold read1x0 at h
  cases hf1 : feed e 1 fuel ⟨0, [], r⟩ with
  | none => rw [hf1] at h; cases h
  | some x =>
    cases x with
    | error er => rw [hf1] at h; cases h
    | ok t =>
      rw [hf1] at h
      simp only at h
      have hg0 : Good r.rest ⟨0, [], r⟩ := ⟨rfl, rfl⟩
      obtain ⟨g1, n1, d1, k1, p1, b1, m1⟩ := feed_spec e 1 fuel r.rest _ t hg0 hf1
      obtain ⟨c, d', hd, hz, htok, g2, c2, r2, l2⟩ := nextToken_spec g1 n1
      rw [htok] at h
      cases hp : parseInt64 (asStr c) with
      | none => rw [hp] at h; cases h
      | some n =>
        rw [hp] at h
        simp only at h
        have hi := (parseInt64_iff _ _).1 hp
        cases hbad : badCount n with
        | true => rw [hbad] at h; cases h
        | false =>
          obtain ⟨h0, h62⟩ := (badCount_false hi.2.2).1 hbad
          have hw : wrap64 (2 * n) = 2 * n := wrap64_of_isInt64 (by unfold IsInt64 minInt64 maxInt64; omega)
          simp only [hbad, Bool.false_eq_true, if_false, hw] at h
          cases hf2 : feed e (2 * n) fuel (nextToken t).2 with
          | none => rw [hf2] at h; cases h
          | some x =>
            cases x with
            | error er => rw [hf2] at h; cases h
            | ok t2 =>
              rw [hf2] at h
              simp only at h
              obtain ⟨g3, n3, d3, k3, p3, b3, m3⟩ := feed_spec e (2 * n) fuel d' _ t2 g2 hf2
              obtain ⟨ls, d4, hd4, hll, hlz, hs, _⟩ := entries_spec n.toNat d' t2 g3 (by omega)
              cases hen : entries n.toNat t2 with
              | error er => rw [hen] at h; cases h
              | ok p =>
                obtain ⟨l', t3⟩ := p
                rw [hen] at h
                simp only [Option.some.injEq, Except.ok.injEq, Prod.mk.injEq] at h
                obtain ⟨rfl, rfl⟩ := h
                obtain ⟨s1, s2, s3, s4, s5⟩ := hs l' t3 hen
                have hln : (l'.length : Int) = n := by omega
                have hlen : (lines (c :: ls)).length = c.length + 1 + (lines ls).length := by simp [lines]; omega
                have hrd : t.rd.data = r.data := d1
                have hpos : t.rd.pos = r.pos + 512 * k1 := p1
                have hbuf : t.buf.length = 512 * k1 := by rw [b1]; simp
                rw [r2] at p3 d3
                -- the first line ends in the last block of the first part
                have hfirst : k1 ≠ 0 ∧ 512 * k1 < c.length + 1 + 512 := by
                  refine ⟨?_, ?_⟩
                  · rintro rfl
                    omega
                  · have hk : k1 ≠ 0 := by rintro rfl; omega
                    have hm := m1 hk
                    have hbufc : t.buf = (c ++ [10]) ++ (nextToken t).2.buf := by
                      have e1 := g1.text
                      rw [hd, ← g2.text, r2] at e1
                      have e1 : t.buf ++ t.rd.rest = ((c ++ [10]) ++ (nextToken t).2.buf) ++ t.rd.rest := by simpa using e1
                      exact List.append_cancel_right e1
                    have := last_block (n := 1) hbufc (by rw [newlines_append]; simp [newlines]) (by omega)
                    rw [List.length_append, List.length_singleton] at this
                    omega
                have hsecond : k3 ≠ 0 → t2.buf.length < (lines ls).length + 512 := by
                  intro hk
                  have hm := m3 hk
                  have hb2 : t2.buf = lines ls ++ t3.buf := by
                    have e1 := g3.text
                    rw [hd4, ← s3.text, s4, ← List.append_assoc] at e1
                    exact List.append_cancel_right e1
                  have hnl : (2 * n).toNat ≤ newlines (lines ls) := by
                    have := newlines_lines ls
                    omega
                  exact last_block (n := (2 * n).toNat) hb2 hnl (by omega)
                have hP : 512 * (k1 + k3) = blocks (lines (c :: ls)).length := by
                  refine blocks_eq (k1 + k3) rfl ?_ ?_
                  · rw [hlen]; omega
                  · rw [hlen]
                    by_cases hk : k3 = 0
                    · subst hk; omega
                    · have := hsecond hk; omega
                refine ⟨lines (c :: ls), d4, ?_, ⟨c, ls, rfl, hln ▸ hi, by omega, s1⟩, ?_, ?_, ?_⟩
                · rw [hd, hd4]; simp [lines]
                · rw [← hP]
                  have e1 := congrArg List.length g1.text
                  have e2 := congrArg List.length g3.text
                  have e3 := congrArg List.length g2.text
                  rw [List.length_append] at e1 e2 e3
                  rw [r2] at e3
                  have : (r.rest).length = c.length + 1 + d'.length := by rw [hd]; simp; omega
                  omega
                · rw [s4, d3, hrd]
                · rw [s4, p3, hpos, ← hP]; omega

theorem feed_total (e : Env) (n : Int) : ∀ (fuel : Nat) (t : Tok), t.rd.rest.length / 512 + 1 < fuel + 1 → feed e n fuel t ≠ none := by
  intro fuel
  induction fuel with
  | zero => intro t h; omega
  | succ fuel ih =>
    intro t h
    rw [feed]
    split
    · cases hx : mustReadBlock e t.rd with
      | none => exact absurd hx (mustReadBlock_total e t.rd)
      | some x =>
        obtain ⟨blk, er, r1⟩ := x
        cases er with
        | some er => simp
        | none =>
          obtain ⟨b1, b2, b3, b4⟩ := mustReadBlock_ok hx
          refine ih _ ?_
          show r1.rest.length / 512 + 1 < fuel + 1
          rw [rest_advance b3 b4, List.length_drop]
          omega
    · simp

/-- **C100** (format 1.0, it ends). Reading a map ends for every input and every behaviour of the reader below. -/
theorem C100_pax1_total (e : Env) (fuel : Nat) (r : Rd) (h : r.rest.length / 512 < fuel) : read1x0 e fuel r ≠ none := by
  unfold read1x0
  cases hf1 : feed e 1 fuel ⟨0, [], r⟩ with
  | none => exact absurd hf1 (feed_total e 1 fuel _ (by show r.rest.length / 512 + 1 < _; omega))
  | some x =>
    cases x with
    | error er => simp
    | ok t =>
      simp only
      obtain ⟨g1, n1, d1, k1, p1, _⟩ := feed_spec e 1 fuel r.rest _ t ⟨rfl, rfl⟩ hf1
      have hrl : (nextToken t).2.rd.rest.length ≤ r.rest.length := by
        show t.rd.rest.length ≤ _
        unfold Rd.rest
        rw [d1, p1, List.length_drop, List.length_drop]
        show _ ≤ r.data.length - r.pos
        show r.data.length - (r.pos + 512 * k1) ≤ _
        omega
      split
      · simp
      · split
        · simp
        · rename_i n _ _
          cases hf2 : feed e (wrap64 (2 * n)) fuel (nextToken t).2 with
          | none =>
            exact absurd hf2 (feed_total e _ fuel _ (by
              have : (nextToken t).2.rd.rest.length / 512 ≤ r.rest.length / 512 := Nat.div_le_div_right hrl
              omega))
          | some x =>
            cases x with
            | error er => simp
            | ok t2 =>
              simp only
              split <;> simp

/-- **C100** (format 1.0). A text of a map that is there, up to the end of its last block, is read: for every size of the pieces of a reader that does not fail. -/
theorem C100_pax1_reads (e : Env) (hf : ∀ k, e.fault k = false) (fuel : Nat) (r : Rd) (text tail : Bytes) (l : List Frag) (hr : r.rest = text ++ tail)
    (ht : IsText text l) (hb : blocks text.length ≤ r.rest.length) (hfu : r.rest.length / 512 < fuel) :
    ∃ r', read1x0 e fuel r = some (.ok (l, r')) ∧ r'.data = r.data ∧ r'.pos = r.pos + blocks text.length := by
  obtain ⟨c, ls, rfl, hc, hl62, hnum⟩ := ht
  have hcz : newlines c = 0 := asStr_newlines hc.chars.2.2
  have hlz : ∀ x ∈ ls, newlines x = 0 := fun x hx => asStr_newlines (hnum.chars (asStr x) (List.mem_map.2 ⟨x, hx, rfl⟩)).2.2
  have hll : ls.length = 2 * l.length := by have := hnum.length; simpa using this
  have hbl : (lines (c :: ls)).length ≤ blocks (lines (c :: ls)).length := by unfold blocks; omega
  have hlen : (lines (c :: ls)).length = c.length + 1 + (lines ls).length := by simp [lines]; omega
  -- the first part
  have hfeed1 : ∃ t, feed e 1 fuel ⟨0, [], r⟩ = some (.ok t) := by
    refine feed_reads e hf 1 r.rest (lines (c :: ls)) tail hr (by have := newlines_lines (c :: ls); simp at this; omega)
      (((lines (c :: ls)).length + 511) / 512) fuel _ ⟨rfl, rfl⟩ ?_ ?_ ?_
    · show _ ≤ 0 + _; unfold blocks at hbl; omega
    · exact hb
    · unfold blocks at hb; omega
  obtain ⟨t, ht1⟩ := hfeed1
  obtain ⟨g1, n1, d1, k1, p1, b1, m1⟩ := feed_spec e 1 fuel r.rest _ t ⟨rfl, rfl⟩ ht1
  obtain ⟨c', d', hd, hz, htok, g2, c2, r2, l2⟩ := nextToken_spec g1 n1
  have hcc : c = c' ∧ lines ls ++ tail = d' := by
    have e1 : lines [c] ++ (lines ls ++ tail) = lines [c'] ++ d' := by
      have h1 : lines [c] ++ (lines ls ++ tail) = r.rest := by rw [hr]; simp [lines]
      have h2 : lines [c'] ++ d' = r.rest := by rw [hd]; simp [lines]
      rw [h1, h2]
    obtain ⟨h1, h2⟩ := lines_unique [c] [c'] _ _ (by simpa using hcz) (by simpa using hz) rfl e1
    exact ⟨by simpa using h1, h2⟩
  obtain ⟨rfl, hd'⟩ := hcc
  have hpos : t.rd.pos = r.pos + 512 * k1 := p1
  have hdat : t.rd.data = r.data := d1
  have hbuf : t.buf.length = 512 * k1 := by rw [b1]; simp
  have hrest : t.rd.rest.length = r.rest.length - 512 * k1 := by
    rw [rest_advance hdat hpos, List.length_drop]
  have hk1 : 512 * k1 ≤ r.rest.length := by
    have e1 := congrArg List.length g1.text
    rw [List.length_append] at e1; omega
  -- the second part
  have hfeed2 : ∃ t2, feed e (2 * (l.length : Int)) fuel (nextToken t).2 = some (.ok t2) := by
    refine feed_reads e hf _ d' (lines ls) tail hd'.symm (by have := newlines_lines ls; omega)
      (((lines (c :: ls)).length + 511) / 512 - k1) fuel _ g2 ?_ ?_ ?_
    · unfold blocks at hbl; omega
    · rw [r2, hrest]
      unfold blocks at hb
      omega
    · unfold blocks at hb; omega
  obtain ⟨t2, ht2⟩ := hfeed2
  obtain ⟨g3, n3, d3, k3, p3, b3, m3⟩ := feed_spec e _ fuel d' _ t2 g2 ht2
  obtain ⟨ls', d4, hd4, hll', hlz', hs, hr'⟩ := entries_spec l.length d' t2 g3 (by omega)
  have hls : ls = ls' := by
    have e1 : lines ls ++ tail = lines ls' ++ d4 := by rw [hd', hd4]
    exact (lines_unique ls ls' _ _ hlz hlz' (by omega) e1).1
  subst hls
  obtain ⟨t3, ht3⟩ := hr' l hnum
  have hw : wrap64 (2 * (l.length : Int)) = 2 * (l.length : Int) := wrap64_of_isInt64 (by unfold IsInt64 minInt64 maxInt64; omega)
  have hres : read1x0 e fuel r = some (.ok (l, t3.rd)) := by
    unfold read1x0
    rw [ht1]
    simp only
    rw [htok, (parseInt64_iff _ _).2 hc]
    simp only
    rw [(badCount_false hc.2.2).2 ⟨by omega, hl62⟩, hw, ht2]
    simp only [Bool.false_eq_true, if_false]
    rw [Int.toNat_natCast, ht3]
  obtain ⟨text', tail', h1, ⟨c1, ls1, rfl, q1, q2, q3⟩, h3, h4, h5⟩ := C100_pax1_read e fuel r t3.rd l hres
  refine ⟨t3.rd, hres, h4, ?_⟩
  have : lines (c :: ls) = lines (c1 :: ls1) := by
    have := (lines_unique (c :: ls) (c1 :: ls1) tail tail' (by
        intro x hx; rcases List.mem_cons.1 hx with rfl | hx
        · exact hcz
        · exact hlz x hx) (by
        intro x hx; rcases List.mem_cons.1 hx with rfl | hx
        · exact asStr_newlines q1.chars.2.2
        · exact asStr_newlines (q3.chars (asStr x) (List.mem_map.2 ⟨x, hx, rfl⟩)).2.2)
      (by have := q3.length; simp at this ⊢; omega) (by rw [← hr, ← h1])).1
    rw [this]
  rw [h5, this]

end Verif.Tarfs.Map
