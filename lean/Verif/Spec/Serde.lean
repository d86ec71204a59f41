import Verif.Model.Serde
import Mathlib.Data.List.Forall2

/-! # JSON texts (RFC 8259), and the grammars that JSON values stand for -/

set_option autoImplicit false

namespace Bnf.Spec

/-- White space only. -/
def Blank (s : Str) : Prop := ∀ c ∈ s, c = ' ' ∨ c = '\n' ∨ c = '\t' ∨ c = '\r'

/-- `h` is a hexadecimal digit with the value `v`. -/
def HexDigit (h : Char) (v : Nat) : Prop :=
  (v < 10 ∧ h = Char.ofNat (48 + v)) ∨ (10 ≤ v ∧ v < 16 ∧ (h = Char.ofNat (87 + v) ∨ h = Char.ofNat (55 + v)))

/-- `h` are four hexadecimal digits with the value `v`. -/
def HexNumber (h : Str) (v : Nat) : Prop :=
  ∃ a b c d p q r t, h = [a, b, c, d] ∧ HexDigit a p ∧ HexDigit b q ∧ HexDigit c r ∧ HexDigit d t ∧ v = p * 4096 + q * 256 + r * 16 + t

/-- The ways to write a character inside a JSON string. -/
inductive JsonChar : Char → Str → Prop
  | plain {c : Char} : 32 ≤ c.toNat → c ≠ '"' → c ≠ '\\' → JsonChar c [c]
  | quote : JsonChar '"' ['\\', '"']
  | backslash : JsonChar '\\' ['\\', '\\']
  | slash : JsonChar '/' ['\\', '/']
  | backspace : JsonChar (Char.ofNat 8) ['\\', 'b']
  | formFeed : JsonChar (Char.ofNat 12) ['\\', 'f']
  | newline : JsonChar '\n' ['\\', 'n']
  | return : JsonChar '\r' ['\\', 'r']
  | tab : JsonChar '\t' ['\\', 't']
  | hex {c : Char} {h : Str} : HexNumber h c.toNat → JsonChar c ('\\' :: 'u' :: h)
  | surrogates {c : Char} {h l : Str} {v w : Nat} : HexNumber h (0xD800 + v) → HexNumber l (0xDC00 + w) → v < 0x400 → w < 0x400 →
      c.toNat = 0x10000 + v * 0x400 + w → JsonChar c ('\\' :: 'u' :: h ++ '\\' :: 'u' :: l)

/-- The ways to write the inside of a string. -/
inductive JsonChars : Str → Str → Prop
  | nil : JsonChars [] []
  | cons {c : Char} {x s t : Str} : JsonChar c x → JsonChars s t → JsonChars (c :: s) (x ++ t)

/-- One or more digits. -/
def Digits (s : Str) : Prop := s ≠ [] ∧ ∀ c ∈ s, c.isDigit = true

/-- A number: sign, digits without leading zeros, fraction, exponent. -/
def JsonNumber (s : Str) : Prop :=
  ∃ m i f e, s = m ++ i ++ f ++ e ∧ (m = [] ∨ m = ['-']) ∧ (i = ['0'] ∨ Digits i ∧ i.head? ≠ some '0') ∧
    (f = [] ∨ ∃ d, Digits d ∧ f = '.' :: d) ∧
    (e = [] ∨ ∃ c g d, (c = 'e' ∨ c = 'E') ∧ (g = [] ∨ g = ['+'] ∨ g = ['-']) ∧ Digits d ∧ e = c :: g ++ d)

mutual
/-- The ways to write a value. -/
inductive JsonValue : Json → Str → Prop
  | null : JsonValue .null ['n', 'u', 'l', 'l']
  | true : JsonValue (.bool true) ['t', 'r', 'u', 'e']
  | false : JsonValue (.bool false) ['f', 'a', 'l', 's', 'e']
  | num {s : Str} : JsonNumber s → JsonValue .num s
  | str {s t : Str} : JsonChars s t → JsonValue (.str s) ('"' :: t ++ ['"'])
  | emptyArr {a : Str} : Blank a → JsonValue (.arr []) ('[' :: a ++ [']'])
  | arr {l : List Json} {t : Str} : JsonElements l t → JsonValue (.arr l) ('[' :: t ++ [']'])
  | emptyObj {a : Str} : Blank a → JsonValue (.obj []) ('{' :: a ++ ['}'])
  | obj {l : List (Str × Json)} {t : Str} : JsonMembers l t → JsonValue (.obj l) ('{' :: t ++ ['}'])
/-- One or more elements. -/
inductive JsonElements : List Json → Str → Prop
  | one {j : Json} {a t b : Str} : Blank a → JsonValue j t → Blank b → JsonElements [j] (a ++ t ++ b)
  | more {j : Json} {l : List Json} {a t b u : Str} : Blank a → JsonValue j t → Blank b → JsonElements l u →
      JsonElements (j :: l) (a ++ t ++ b ++ ',' :: u)
/-- One or more members. -/
inductive JsonMembers : List (Str × Json) → Str → Prop
  | one {k : Str} {j : Json} {a x b c t d : Str} : Blank a → JsonChars k x → Blank b → Blank c → JsonValue j t → Blank d →
      JsonMembers [(k, j)] (a ++ '"' :: x ++ '"' :: b ++ ':' :: c ++ t ++ d)
  | more {k : Str} {j : Json} {l : List (Str × Json)} {a x b c t d u : Str} : Blank a → JsonChars k x → Blank b → Blank c →
      JsonValue j t → Blank d → JsonMembers l u → JsonMembers ((k, j) :: l) (a ++ '"' :: x ++ '"' :: b ++ ':' :: c ++ t ++ d ++ ',' :: u)
end

/-- A text with one value. -/
def JsonText (j : Json) (s : Str) : Prop := ∃ a t b, Blank a ∧ JsonValue j t ∧ Blank b ∧ s = a ++ t ++ b

/-- Exactly one member has the key `k`, with the value `j`. -/
def OnlyMember (k : Str) (ms : List (Str × Json)) (j : Json) : Prop :=
  ∃ before after, ms = before ++ (k, j) :: after ∧ ∀ m ∈ before ++ after, m.1 ≠ k

/-- The value stands for the term. -/
def TermValue (j : Json) : Term → Prop
  | .terminal s => j = .obj [("Terminal".toList, .str s)]
  | .nonterminal s => j = .obj [("Nonterminal".toList, .str s)]

/-- The value stands for the expression: an object with the field `terms` and possibly others, or an array of its fields. -/
def ExpressionValue (j : Json) (e : Expression) : Prop :=
  ∃ l, List.Forall₂ TermValue l e.terms ∧ ((∃ ms, j = .obj ms ∧ OnlyMember "terms".toList ms (.arr l)) ∨ j = .arr [.arr l])

/-- The value stands for the production. -/
def ProductionValue (j : Json) (p : Production) : Prop :=
  ∃ t l, TermValue t p.lhs ∧ List.Forall₂ ExpressionValue l p.rhs ∧
    ((∃ ms, j = .obj ms ∧ OnlyMember "lhs".toList ms t ∧ OnlyMember "rhs".toList ms (.arr l)) ∨ j = .arr [t, .arr l])

/-- The value stands for the grammar. -/
def GrammarValue (j : Json) (g : Grammar) : Prop :=
  ∃ l, List.Forall₂ ProductionValue l g.productions ∧
    ((∃ ms, j = .obj ms ∧ OnlyMember "productions".toList ms (.arr l)) ∨ j = .arr [.arr l])

end Bnf.Spec
