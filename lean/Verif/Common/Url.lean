import Verif.Common.Path
/-
Percent-encoding as in net/url, and reading it back. A string is a list of bytes here, each a `Char` below 256.
-/
namespace Verif.Url
open Verif.Path

/-- net/url: upper case digits. -/
def hexDigit (n : Nat) : Char := if n < 10 then Char.ofNat (48 + n) else Char.ofNat (55 + n)

/-- net/url `shouldEscape`: letters, digits and "-_.~" are never escaped. -/
def unreserved (c : Char) : Bool := c.isAlphanum || c = '-' || c = '_' || c = '.' || c = '~'

/-- net/url `escape`, one byte. -/
def escapeByte (plain : Char → Bool) (c : Char) : Str := if plain c then [c] else ['%', hexDigit (c.toNat / 16), hexDigit (c.toNat % 16)]

/-- Strings of bytes. -/
def IsBytes (s : Str) : Prop := ∀ c ∈ s, c.toNat < 256

/-- net/url `ishex`, `unhex`; the same in sqlite3ParseUri. -/
def unhex (c : Char) : Option Nat :=
  if '0' ≤ c ∧ c ≤ '9' then some (c.toNat - 48)
  else if 'A' ≤ c ∧ c ≤ 'F' then some (c.toNat - 55)
  else if 'a' ≤ c ∧ c ≤ 'f' then some (c.toNat - 87)
  else none

/-- A byte as it stands, or one written as a '%' and two digits. -/
inductive Tok where
  | raw (c : Char)
  | octet (n : Nat)
deriving DecidableEq

/-- net/url `unescape` and sqlite3ParseUri: what a reader of percent-encoding sees; a '%' without two digits stands for itself (net/url refuses it). -/
def tokens : Str → List Tok
  | [] => []
  | [c] => [.raw c]
  | [c, d] => [.raw c, .raw d]
  | c :: a :: b :: rest =>
    if c = '%' then
      match unhex a, unhex b with
      | some x, some y => .octet (16 * x + y) :: tokens rest
      | _, _ => .raw c :: tokens (a :: b :: rest)
    else .raw c :: tokens (a :: b :: rest)

/-! ### Lemmas -/

def Tok.val : Tok → Char
  | .raw c => c
  | .octet n => Char.ofNat n

def tok (plain : Char → Bool) (c : Char) : Tok := if plain c then .raw c else .octet c.toNat

theorem tokens_raw {c : Char} (hc : c ≠ '%') (rest : Str) : tokens (c :: rest) = .raw c :: tokens rest := by
  match rest with
  | [] => rfl
  | [_] => rfl
  | _ :: _ :: _ => rw [tokens, if_neg hc]

theorem unhex_hexDigit {n : Nat} (h : n < 16) : unhex (hexDigit n) = some n := by
  have : ∀ n : Fin 16, unhex (hexDigit n) = some n.val := by decide
  exact this ⟨n, h⟩

theorem tokens_byte {plain : Char → Bool} (hp : plain '%' = false) {c : Char} (hc : c.toNat < 256) (rest : Str) :
    tokens (escapeByte plain c ++ rest) = tok plain c :: tokens rest := by
  unfold escapeByte tok
  cases hpl : plain c with
  | true =>
    simp only [if_true, List.cons_append, List.nil_append]
    exact tokens_raw (by rintro rfl; rw [hp] at hpl; cases hpl) rest
  | false =>
    simp only [Bool.false_eq_true, if_false, List.cons_append, List.nil_append]
    rw [tokens, if_pos rfl, unhex_hexDigit (by omega), unhex_hexDigit (by omega)]
    simp only [List.cons.injEq, and_true, Tok.octet.injEq]
    omega

theorem val_tok (plain : Char → Bool) (c : Char) : (tok plain c).val = c := by
  unfold tok
  split
  · rfl
  · exact Char.ofNat_toNat c

/-- Reading back what was escaped. -/
theorem unescape {plain : Char → Bool} (hp : plain '%' = false) {s : Str} (hs : IsBytes s) : (tokens (s.flatMap (escapeByte plain))).map Tok.val = s := by
  induction s with
  | nil => rfl
  | cons c s ih =>
    rw [List.flatMap_cons, tokens_byte hp (hs c (List.mem_cons_self ..)), List.map_cons, val_tok, ih (fun x hx => hs x (List.mem_cons_of_mem _ hx))]

end Verif.Url
