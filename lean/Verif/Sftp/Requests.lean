import Verif.Sftp.Sftp
/-
Each call of the SFTP filesystem asks the server for what the call says (C74).
-/
namespace Verif.Sftp
open Verif.Path Verif.Vroot

/-! ## Specification -/

/-- The path `p` on the server is the place `name` denotes below the base. -/
def Denotes (base name p : Str) : Prop := p ≠ [] ∧ isAbs p = isAbs base ∧ ∃ ns, placeOf name = some ns ∧ comps p = comps base ++ ns

/-- The names in a call that must lie below the base (a link's target is stored as it is). -/
def namesOf : FsCall → List Str
  | .chmod n _ | .chown n _ _ | .chtimes n _ _ | .create n | .lchown n _ _ | .lstat n | .mkdir n _ | .mkdirAll n _ | .open_ n | .openFile n _ _ | .readLink n
  | .remove n | .removeAll n | .stat n | .symlink _ n => [n]
  | .link o n | .rename o n => [o, n]
  | .close | .name | .openRoot _ => []

/-- The request a call stands for, and the path it is about. -/
inductive StandsFor (posixRename : Bool) (base : Str) : FsCall → Str → Req → Prop
  | chmod {n p m} (h : Denotes base n p) : StandsFor posixRename base (.chmod n m) p (.chmod p m)
  | chown {n p u g} (h : Denotes base n p) : StandsFor posixRename base (.chown n u g) p (.chown p u g)
  | lchown {n p u g} (h : Denotes base n p) : StandsFor posixRename base (.lchown n u g) p (.chown p u g)
  | chtimes {n p a m} (h : Denotes base n p) : StandsFor posixRename base (.chtimes n a m) p (.chtimes p a m)
  | create {n p} (h : Denotes base n p) : StandsFor posixRename base (.create n) p (.open_ p (0x2#64 ||| 0x40#64 ||| 0x200#64))
  | link {o n p q} (ho : Denotes base o p) (hn : Denotes base n q) : StandsFor posixRename base (.link o n) q (.link p q)
  | lstat {n p} (h : Denotes base n p) (hb : placeOf n ≠ some []) : StandsFor posixRename base (.lstat n) p (.lstat p)
  | lstatBase {n p} (h : Denotes base n p) (hb : placeOf n = some []) : StandsFor posixRename base (.lstat n) p (.stat p)
  | mkdir {n p m} (h : Denotes base n p) : StandsFor posixRename base (.mkdir n m) p (.mkdir p)
  | mkdirAll {n p m} (h : Denotes base n p) : StandsFor posixRename base (.mkdirAll n m) p (.mkdirAll p)
  | open_ {n p} (h : Denotes base n p) : StandsFor posixRename base (.open_ n) p (.open_ p 0)
  | openFile {n p f m} (h : Denotes base n p) : StandsFor posixRename base (.openFile n f m) p (.open_ p f)
  | readLink {n p} (h : Denotes base n p) : StandsFor posixRename base (.readLink n) p (.readLink p)
  | remove {n p} (h : Denotes base n p) : StandsFor posixRename base (.remove n) p (.remove p)
  | rename {o n p q} (ho : Denotes base o p) (hn : Denotes base n q) (hx : posixRename = false) : StandsFor posixRename base (.rename o n) q (.rename p q)
  | posixRename {o n p q} (ho : Denotes base o p) (hn : Denotes base n q) (hx : posixRename = true) : StandsFor posixRename base (.rename o n) q (.posixRename p q)
  | stat {n p} (h : Denotes base n p) : StandsFor posixRename base (.stat n) p (.stat p)
  | symlink {t n p} (h : Denotes base n p) : StandsFor posixRename base (.symlink t n) p (.symlink t p)

/-- The permission asked for something this call may create. -/
def wantsMode : FsCall → Option Nat
  | .create _ => some 0o666
  | .mkdir _ m | .mkdirAll _ m => if m = 0 then none else some m
  | .openFile _ f m => if f &&& 0x40#64 = 0 ∨ m = 0 then none else some m
  | _ => none

/-- Opening to append. -/
def appends : FsCall → Bool
  | .openFile _ f _ => decide (f &&& 0x400#64 ≠ 0)
  | _ => false

/-- What is sent and answered when the call stands for `req` about `p`: the request; when appending also one for the size; and last, if these succeed, the wanted mode, whose answer is
ignored.  The call fails exactly if one of the first two is answered by an error. -/
def Expected (srv : Server) (c : FsCall) (log : List Req) (p : Str) (req : Req) : List Req × Bool :=
  if (srv log req).isErr then (log ++ [req], true)
  else if appends c ∧ (srv (log ++ [req]) (.seekEnd p)).isErr then (log ++ [req, .seekEnd p], true)
  else (log ++ [req] ++ (if appends c then [.seekEnd p] else []) ++ ((wantsMode c).map (Req.chmod p)).toList, false)

/-! ## Proofs -/

theorem resolve_some {base : Str} (hb : base ≠ []) {name : Str} (h : placeOf name ≠ none) :
    ∃ p, resolvePath base name = some p ∧ Denotes base name p ∧ (p = base ↔ placeOf name = some []) := by
  obtain ⟨h1, h2⟩ := C65_resolve base hb name
  cases hr : resolvePath base name with
  | none => exact absurd (h1.1 hr) h
  | some p =>
    obtain ⟨ns, h3, h4, h5, h6⟩ := h2 p hr
    refine ⟨p, rfl, ⟨h5, h4, ns, h3, h6⟩, ?_, ?_⟩
    · rintro rfl
      have : ns = [] := by simpa using h6
      rw [h3, this]
    · intro hn
      have := (clean_eq_dot_iff name).2 hn
      unfold resolvePath at hr
      simp only at hr
      rw [if_pos this] at hr
      exact (Option.some.inj hr).symm

/-- **C74.** For every server, base, call and history of requests.  A name that is absolute or steps above the base makes the call fail with nothing sent.  Otherwise every call but
those that need no request, `ReadLink` of the base and `RemoveAll` sends the request it stands for, with its arguments in their places, followed by what `Expected` says, and fails
exactly when the server does. -/
theorem C74_requests (srv : Server) (fuel : Nat) (posixRename : Bool) (base : Str) (hb : base ≠ []) (c : FsCall) (log : List Req) :
    ((∃ n ∈ namesOf c, placeOf n = none) → call srv fuel posixRename base c log = some (log, true)) ∧
    ((∀ n ∈ namesOf c, placeOf n ≠ none) → namesOf c ≠ [] → (∀ n, c = .removeAll n → False) → (∀ n, c = .readLink n → placeOf n ≠ some []) →
      ∃ p req, StandsFor posixRename base c p req ∧ call srv fuel posixRename base c log = some (Expected srv c log p req)) := by
  have bad : ∀ {n}, placeOf n = none → resolvePath base n = none := fun h => ((C65_resolve base hb _).1).2 h
  constructor
  · rintro ⟨n, hn, hp⟩
    have hr := bad hp
    cases c <;> simp only [namesOf, List.mem_cons, List.not_mem_nil, or_false] at hn
    case link o n' =>
      rcases hn with rfl | rfl
      · simp only [call, hr]
      · simp only [call, hr]; cases resolvePath base o <;> rfl
    case rename o n' =>
      rcases hn with rfl | rfl
      · simp only [call, hr]
      · simp only [call, hr]; cases resolvePath base o <;> rfl
    case removeAll => subst hn; simp only [call, hr]; split <;> rfl
    all_goals first | (subst hn; simp only [call, hr]) | skip
  · intro hn hne hra hrl
    have one : ∀ n ∈ namesOf c, ∃ p, resolvePath base n = some p ∧ Denotes base n p ∧ (p = base ↔ placeOf n = some []) := fun n h => resolve_some hb (hn n h)
    have exp : ∀ p req, appends c = false → wantsMode c = none → Expected srv c log p req = (log ++ [req], (srv log req).isErr) := by
      intro p req h1 h2
      unfold Expected
      rw [h1, h2]
      cases (srv log req).isErr <;> simp
    have expM : ∀ p req m, appends c = false → wantsMode c = some m → Expected srv c log p req =
        (if (srv log req).isErr then (log ++ [req], true) else (log ++ [req] ++ [.chmod p m], false)) := by
      intro p req m h1 h2
      unfold Expected
      rw [h1, h2]
      cases (srv log req).isErr <;> simp
    cases c with
    | close => exact absurd rfl hne
    | name => exact absurd rfl hne
    | openRoot => exact absurd rfl hne
    | removeAll n => exact (hra n rfl).elim
    | chmod n m =>
      obtain ⟨p, hr, hd, _⟩ := one n List.mem_cons_self
      exact ⟨p, _, .chmod hd, by rw [exp _ _ rfl rfl]; simp only [call, hr, send]⟩
    | chown n u g =>
      obtain ⟨p, hr, hd, _⟩ := one n List.mem_cons_self
      exact ⟨p, _, .chown hd, by rw [exp _ _ rfl rfl]; simp only [call, hr, send]⟩
    | lchown n u g =>
      obtain ⟨p, hr, hd, _⟩ := one n List.mem_cons_self
      exact ⟨p, _, .lchown hd, by rw [exp _ _ rfl rfl]; simp only [call, hr, send]⟩
    | chtimes n a m =>
      obtain ⟨p, hr, hd, _⟩ := one n List.mem_cons_self
      exact ⟨p, _, .chtimes hd, by rw [exp _ _ rfl rfl]; simp only [call, hr, send]⟩
    | stat n =>
      obtain ⟨p, hr, hd, _⟩ := one n List.mem_cons_self
      exact ⟨p, _, .stat hd, by rw [exp _ _ rfl rfl]; simp only [call, hr, send]⟩
    | remove n =>
      obtain ⟨p, hr, hd, _⟩ := one n List.mem_cons_self
      exact ⟨p, _, .remove hd, by rw [exp _ _ rfl rfl]; simp only [call, hr, send]⟩
    | open_ n =>
      obtain ⟨p, hr, hd, _⟩ := one n List.mem_cons_self
      exact ⟨p, _, .open_ hd, by rw [exp _ _ rfl rfl]; simp only [call, hr, send]⟩
    | symlink t n =>
      obtain ⟨p, hr, hd, _⟩ := one n List.mem_cons_self
      exact ⟨p, _, .symlink hd, by rw [exp _ _ rfl rfl]; simp only [call, hr, send]⟩
    | lstat n =>
      obtain ⟨p, hr, hd, hbase⟩ := one n List.mem_cons_self
      by_cases h : p = base
      · exact ⟨p, _, .lstatBase hd (hbase.1 h), by rw [exp _ _ rfl rfl]; simp only [call, hr, send, if_pos h]⟩
      · exact ⟨p, _, .lstat hd (fun h2 => h (hbase.2 h2)), by rw [exp _ _ rfl rfl]; simp only [call, hr, send, if_neg h]⟩
    | readLink n =>
      obtain ⟨p, hr, hd, hbase⟩ := one n List.mem_cons_self
      have h : p ≠ base := fun h => hrl n rfl (hbase.1 h)
      exact ⟨p, _, .readLink hd, by rw [exp _ _ rfl rfl]; simp only [call, hr, send, if_neg h]⟩
    | link o n =>
      obtain ⟨p, hr, hd, _⟩ := one o List.mem_cons_self
      obtain ⟨q, hr2, hd2, _⟩ := one n (by simp [namesOf])
      exact ⟨q, _, .link hd hd2, by rw [exp _ _ rfl rfl]; simp only [call, hr, hr2, send]⟩
    | rename o n =>
      obtain ⟨p, hr, hd, _⟩ := one o List.mem_cons_self
      obtain ⟨q, hr2, hd2, _⟩ := one n (by simp [namesOf])
      cases hx : posixRename with
      | true => exact ⟨q, _, .posixRename hd hd2 rfl, by rw [exp _ _ rfl rfl]; simp [call, hr, hr2, send]⟩
      | false => exact ⟨q, _, .rename hd hd2 rfl, by rw [exp _ _ rfl rfl]; simp [call, hr, hr2, send]⟩
    | create n =>
      obtain ⟨p, hr, hd, _⟩ := one n List.mem_cons_self
      refine ⟨p, _, .create hd, ?_⟩
      rw [expM _ _ _ rfl rfl]
      simp only [call, hr, send]
      have : (0x2#64 ||| 0x40#64 ||| 0x200#64 : Flag) = 0x242#64 := by decide
      rw [this]
      by_cases h : (srv log (.open_ p 0x242#64)).isErr = true <;> simp [h]
    | mkdir n m =>
      obtain ⟨p, hr, hd, _⟩ := one n List.mem_cons_self
      refine ⟨p, _, .mkdir hd, ?_⟩
      by_cases hm : m = 0
      · rw [exp _ _ rfl (by simp [wantsMode, hm])]
        simp only [call, hr, send, hm]
        cases (srv log (.mkdir p)).isErr <;> simp
      · rw [expM _ _ m rfl (by simp [wantsMode, hm])]
        simp only [call, hr, send]
        by_cases h : (srv log (.mkdir p)).isErr = true <;> simp [h, hm]
    | mkdirAll n m =>
      obtain ⟨p, hr, hd, _⟩ := one n List.mem_cons_self
      refine ⟨p, _, .mkdirAll hd, ?_⟩
      by_cases hm : m = 0
      · rw [exp _ _ rfl (by simp [wantsMode, hm])]
        simp only [call, hr, send, hm]
        cases (srv log (.mkdirAll p)).isErr <;> simp
      · rw [expM _ _ m rfl (by simp [wantsMode, hm])]
        simp only [call, hr, send]
        by_cases h : (srv log (.mkdirAll p)).isErr = true <;> simp [h, hm]
    | openFile n f m =>
      obtain ⟨p, hr, hd, _⟩ := one n List.mem_cons_self
      refine ⟨p, _, .openFile hd, ?_⟩
      have hc : (decide (f &&& oCREATE ≠ 0) && decide (m ≠ 0)) = (wantsMode (.openFile n f m)).isSome := by
        simp only [wantsMode, oCREATE]
        by_cases h1 : f &&& 0x40#64 = 0#64 <;> by_cases h2 : m = 0 <;> simp [h1, h2]
      have hm : ∀ m', wantsMode (.openFile n f m) = some m' → m' = m := by
        intro m' h
        simp only [wantsMode] at h
        split at h
        · cases h
        · exact (Option.some.inj h).symm
      simp only [call, hr, send, hc]
      unfold Expected
      by_cases ha : f &&& oAPPEND ≠ 0
      · rw [if_pos ha]
        have ha' : appends (.openFile n f m) = true := by simp only [appends, decide_eq_true_eq]; exact ha
        rw [ha']
        cases h1 : (srv log (.open_ p f)).isErr <;> simp only [Bool.false_eq_true, if_true, if_false, true_and]
        cases h2 : (srv (log ++ [.open_ p f]) (.seekEnd p)).isErr <;> simp only [Bool.false_eq_true, if_true, if_false]
        · cases hw : wantsMode (.openFile n f m) with
          | none => simp
          | some m' => rw [hm m' hw]; simp
        · simp
      · rw [if_neg ha]
        have ha' : appends (.openFile n f m) = false := by simp only [appends, decide_eq_false_iff_not]; exact ha
        rw [ha']
        cases h1 : (srv log (.open_ p f)).isErr <;> simp only [Bool.false_eq_true, if_true, if_false, false_and]
        cases hw : wantsMode (.openFile n f m) with
        | none => simp
        | some m' => rw [hm m' hw]; simp

/-- Renaming below "/s", with the extension: one request, old name first. -/
example : namesOf (.rename ['a'] ['d', '/', 'b']) ≠ [] ∧ (∀ n ∈ namesOf (.rename ['a'] ['d', '/', 'b']), placeOf n ≠ none) ∧
    call (fun _ _ => .ok) 0 true ['/', 's'] (.rename ['a'] ['d', '/', 'b']) [] = some ([.posixRename ['/', 's', '/', 'a'] ['/', 's', '/', 'd', '/', 'b']], false) := by decide +kernel

/-- Opening to append when the size cannot be had fails after two requests. -/
example : call (fun _ r => match r with | .seekEnd _ => .err | _ => .ok) 0 true ['/', 's'] (.openFile ['a'] 0x441#64 0o644) [] =
    some ([.open_ ['/', 's', '/', 'a'] 0x441#64, .seekEnd ['/', 's', '/', 'a']], true) := by decide +kernel

end Verif.Sftp
