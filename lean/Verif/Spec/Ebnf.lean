import Verif.Spec.Text

/-!
# Meaning of extended grammars

The strings a parsed grammar with groups and optionals stands for: a group is a choice, an optional is a choice or nothing.
-/

set_option autoImplicit false

namespace Bnf.Spec
open Bnf

/-- `Means g i w`: the part `i` of the extended grammar `g` can produce the string `w`. -/
inductive Means (g : ParsedGrammar) : Item → Str → Prop
  | terminal {u} : Means g (.term (.simple (.terminal u))) u
  | nonterminal {p w} : p ∈ g → Means g (.alts p.rhs) w → Means g (.term (.simple (.nonterminal p.lhs))) w
  | group {as w} : Means g (.alts as) w → Means g (.term (.group as)) w
  | present {as w} : Means g (.alts as) w → Means g (.term (.optional as)) w
  | absent {as} : Means g (.term (.optional as)) []
  | nil : Means g (.terms []) []
  | cons {t ts v w} : Means g (.term t) v → Means g (.terms ts) w → Means g (.terms (t :: ts)) (v ++ w)
  | choose {e as w} : e ∈ as → Means g (.terms e) w → Means g (.alts as) w

/-- The nonterminal `n` is used in the text. -/
def UsedIn (n : Str) (g : ParsedGrammar) : Prop := PartOf (.term (.simple (.nonterminal n))) g

/-- The nonterminal `n` has a production in the text. -/
def DeclaredIn (n : Str) (g : ParsedGrammar) : Prop := ∃ p ∈ g, p.lhs = n

/-- Replacing some optionals by groups with `''` as an additional last alternative. -/
inductive Unoption : Item → Item → Prop
  | refl {i} : Unoption i i
  | group {as as'} : Unoption (.alts as) (.alts as') → Unoption (.term (.group as)) (.term (.group as'))
  | inside {as as'} : Unoption (.alts as) (.alts as') → Unoption (.term (.optional as)) (.term (.optional as'))
  | replace {as as'} : Unoption (.alts as) (.alts as') →
      Unoption (.term (.optional as)) (.term (.group (as' ++ [[.simple (.terminal [])]])))
  | terms {t t' ts ts'} : Unoption (.term t) (.term t') → Unoption (.terms ts) (.terms ts') →
      Unoption (.terms (t :: ts)) (.terms (t' :: ts'))
  | alts {e e' as as'} : Unoption (.terms e) (.terms e') → Unoption (.alts as) (.alts as') →
      Unoption (.alts (e :: as)) (.alts (e' :: as'))

/-- The same in all productions of a grammar. -/
inductive UnoptionGrammar : ParsedGrammar → ParsedGrammar → Prop
  | nil : UnoptionGrammar [] []
  | cons {u as as' g g'} : Unoption (.alts as) (.alts as') → UnoptionGrammar g g' →
      UnoptionGrammar (⟨u, as⟩ :: g) (⟨u, as'⟩ :: g')

end Bnf.Spec
