import Verif.Spec.JsonLayout
import Verif.Spec.Serde

/-! # The texts of serialized grammars -/

set_option autoImplicit false

namespace Bnf
open Spec

/-- The specification's escapes of one character. -/
def specEscape (c : Char) : Str :=
  match c.toNat with
  | 34 => "\\\"".toList
  | 92 => "\\\\".toList
  | 8 => "\\b".toList
  | 9 => "\\t".toList
  | 10 => "\\n".toList
  | 12 => "\\f".toList
  | 13 => "\\r".toList
  | n => if n < 16 then "\\u000".toList ++ Nat.toDigits 16 n
    else if n < 32 then "\\u00".toList ++ Nat.toDigits 16 n else [c]

theorem specEscape_small : ∀ n < 93, specEscape (Char.ofNat n) = escapeChar (Char.ofNat n) := by decide

theorem specEscape_eq (c : Char) : specEscape c = escapeChar c := by
  by_cases h : c.toNat < 93
  · have := specEscape_small c.toNat h
    rwa [Char.ofNat_toNat] at this
  · have h0 : ∀ a : Char, a.toNat < 93 → c ≠ a := by rintro a ha rfl; exact h ha
    have h1 : escapeChar c = [c] := by
      unfold escapeChar
      rw [if_neg (h0 _ (by decide)), if_neg (h0 _ (by decide)), if_neg (h0 _ (by decide)), if_neg (h0 _ (by decide)), if_neg (h0 _ (by decide)),
        if_neg (h0 _ (by decide)), if_neg (h0 _ (by decide)), if_neg (by omega)]
    rw [h1]
    unfold specEscape
    split <;> first | omega | skip
    rw [if_neg (by omega), if_neg (by omega)]

theorem quotedJson_eq (s : Str) : quotedJson s = jsonString s := by
  have : quotedJson s = "\"".toList ++ (s.map specEscape).flatten ++ "\"".toList := rfl
  rw [this, jsonString, List.flatMap_def, funext specEscape_eq]
  rfl

theorem compactElements_eq {α : Type} (f : α → Json) (h : α → Str) (l : List α) (hf : ∀ x ∈ l, (f x).compact = h x) :
    compactElements (l.map f) = commaSeparated (l.map h) := by
  induction l with
  | nil => simp [compactElements, commaSeparated]
  | cons x l ih =>
    have ih := ih fun y hy => hf y (List.mem_cons_of_mem _ hy)
    have hx := hf x List.mem_cons_self
    cases l with
    | nil => simp [compactElements, commaSeparated, hx]
    | cons y l =>
      simp only [List.map_cons, compactElements, commaSeparated, hx] at ih ⊢
      rw [ih]; simp

theorem key_terminal : jsonString ['T', 'e', 'r', 'm', 'i', 'n', 'a', 'l'] = "\"Terminal\"".toList := by decide
theorem key_nonterminal : jsonString ['N', 'o', 'n', 't', 'e', 'r', 'm', 'i', 'n', 'a', 'l'] = "\"Nonterminal\"".toList := by decide
theorem key_terms : jsonString ['t', 'e', 'r', 'm', 's'] = "\"terms\"".toList := by decide
theorem key_lhs : jsonString ['l', 'h', 's'] = "\"lhs\"".toList := by decide
theorem key_rhs : jsonString ['r', 'h', 's'] = "\"rhs\"".toList := by decide
theorem key_productions : jsonString ['p', 'r', 'o', 'd', 'u', 'c', 't', 'i', 'o', 'n', 's'] = "\"productions\"".toList := by decide

theorem compact_obj1 (k : Str) (j : Json) : (Json.obj [(k, j)]).compact = '{' :: (jsonString k ++ ':' :: j.compact) ++ ['}'] := by
  simp [Json.compact, compactMembers]

theorem compact_obj2 (k k' : Str) (j j' : Json) : (Json.obj [(k, j), (k', j')]).compact =
    '{' :: (jsonString k ++ ':' :: j.compact ++ ',' :: (jsonString k' ++ ':' :: j'.compact)) ++ ['}'] := by
  simp [Json.compact, compactMembers]

theorem compact_arr {α : Type} (f : α → Json) (h : α → Str) (l : List α) (hf : ∀ x ∈ l, (f x).compact = h x) :
    (Json.arr (l.map f)).compact = '[' :: commaSeparated (l.map h) ++ [']'] := by
  rw [Json.compact, compactElements_eq f h l hf]

theorem lit_brace : "}".toList = ['}'] := by decide
theorem lit_close : "]}".toList = [']', '}'] := by decide
theorem lit_terminal : "{\"Terminal\":".toList = '{' :: ("\"Terminal\"".toList ++ [':']) := by decide
theorem lit_nonterminal : "{\"Nonterminal\":".toList = '{' :: ("\"Nonterminal\"".toList ++ [':']) := by decide
theorem lit_terms : "{\"terms\":[".toList = '{' :: ("\"terms\"".toList ++ [':', '[']) := by decide
theorem lit_lhs : "{\"lhs\":".toList = '{' :: ("\"lhs\"".toList ++ [':']) := by decide
theorem lit_rhs : ",\"rhs\":[".toList = ',' :: ("\"rhs\"".toList ++ [':', '[']) := by decide
theorem lit_productions : "{\"productions\":[".toList = '{' :: ("\"productions\"".toList ++ [':', '[']) := by decide

theorem compactTerm_terminal (s : Str) : compactTerm (.terminal s) = "{\"Terminal\":".toList ++ quotedJson s ++ "}".toList := rfl
theorem compactTerm_nonterminal (s : Str) : compactTerm (.nonterminal s) = "{\"Nonterminal\":".toList ++ quotedJson s ++ "}".toList := rfl
theorem compactExpression_def (e : Expression) :
    compactExpression e = "{\"terms\":[".toList ++ commaSeparated (e.terms.map compactTerm) ++ "]}".toList := rfl
theorem compactProduction_def (p : Production) : compactProduction p =
    "{\"lhs\":".toList ++ compactTerm p.lhs ++ ",\"rhs\":[".toList ++ commaSeparated (p.rhs.map compactExpression) ++ "]}".toList := rfl
theorem compactGrammar_def (g : Grammar) :
    compactGrammar g = "{\"productions\":[".toList ++ commaSeparated (g.productions.map compactProduction) ++ "]}".toList := rfl

theorem compactTerm_eq (t : Term) : t.toJson.compact = compactTerm t := by
  cases t with
  | terminal s =>
    rw [Term.toJson, compact_obj1, key_terminal, compactTerm_terminal, quotedJson_eq, Json.compact, lit_terminal, lit_brace]
    simp only [List.cons_append, List.append_assoc, List.nil_append]
  | nonterminal s =>
    rw [Term.toJson, compact_obj1, key_nonterminal, compactTerm_nonterminal, quotedJson_eq, Json.compact, lit_nonterminal, lit_brace]
    simp only [List.cons_append, List.append_assoc, List.nil_append]

theorem compactExpression_eq (e : Expression) : e.toJson.compact = compactExpression e := by
  rw [Expression.toJson, compact_obj1, compact_arr _ compactTerm _ fun t _ => compactTerm_eq t, key_terms, compactExpression_def, lit_terms, lit_close]
  simp only [List.cons_append, List.append_assoc, List.nil_append]

theorem compactProduction_eq (p : Production) : p.toJson.compact = compactProduction p := by
  rw [Production.toJson, compact_obj2, compact_arr _ compactExpression _ fun t _ => compactExpression_eq t, compactTerm_eq, key_lhs, key_rhs,
    compactProduction_def, lit_lhs, lit_rhs, lit_close]
  simp only [List.cons_append, List.append_assoc, List.nil_append]

theorem compactGrammar_eq (g : Grammar) : g.jsonText = compactGrammar g := by
  rw [Grammar.jsonText, Grammar.toJson, compact_obj1, compact_arr _ compactProduction _ fun t _ => compactProduction_eq t, key_productions,
    compactGrammar_def, lit_productions, lit_close]
  simp only [List.cons_append, List.append_assoc, List.nil_append]

/-- Lines below a line, at depth `d`. -/
def under (d : Nat) (ls : List Line) : Str := ls.flatMap fun l => jsonIndent (d + l.1) ++ l.2

theorem under_append (d : Nat) (a b : List Line) : under d (a ++ b) = under d a ++ under d b := List.flatMap_append

theorem under_indented (d : Nat) (ls : List Line) : under d (indented ls) = under (d + 1) ls := by
  unfold under indented
  rw [List.flatMap_map]
  have : ∀ n, d + (n + 1) = d + 1 + n := by omega
  congr 1
  funext l
  dsimp only
  rw [this]

theorem under_comma (d : Nat) (ls : List Line) (h : ls ≠ []) : under d (withComma ls) = under d ls ++ [','] := by
  induction ls with
  | nil => exact absurd rfl h
  | cons l ls ih =>
    cases ls with
    | nil => obtain ⟨n, t⟩ := l; simp [withComma, under]
    | cons l' ls =>
      have := ih (by simp)
      simp only [withComma, under, List.flatMap_cons] at this ⊢
      rw [this]; simp

theorem linesText_under (ls : List Line) (h : ls ≠ []) : '\n' :: linesText ls = under 0 ls := by
  induction ls with
  | nil => exact absurd rfl h
  | cons l ls ih =>
    cases ls with
    | nil => obtain ⟨n, t⟩ := l; simp [linesText, under, jsonIndent]
    | cons l' ls =>
      have := ih (by simp)
      obtain ⟨n, t⟩ := l
      simp only [linesText, under, List.flatMap_cons, jsonIndent, Nat.zero_add] at this ⊢
      rw [← this]; simp

/-- The value is written in these lines. -/
def Shown (j : Json) (ls : List Line) : Prop :=
  ∃ t rest, ls = (0, t) :: rest ∧ ∀ d, j.pretty d = t ++ under d rest

theorem Shown.under {j : Json} {ls : List Line} (h : Shown j ls) (d : Nat) : Bnf.under d ls = jsonIndent d ++ j.pretty d := by
  obtain ⟨t, rest, rfl, h⟩ := h
  rw [h]; simp [Bnf.under]

theorem Shown.ne {j : Json} {ls : List Line} (h : Shown j ls) : ls ≠ [] := by
  obtain ⟨t, rest, rfl, h⟩ := h
  simp

theorem Shown.prefix {j : Json} {ls : List Line} (h : Shown j ls) (k : Str) (d : Nat) :
    Bnf.under d (withPrefix k ls) = jsonIndent d ++ k ++ j.pretty d := by
  obtain ⟨t, rest, rfl, h⟩ := h
  rw [h]; simp [Bnf.under, withPrefix]

theorem shown_str (s : Str) : Shown (.str s) [(0, quotedJson s)] :=
  ⟨_, [], rfl, fun d => by simp [Json.pretty, quotedJson_eq, under]⟩

theorem shown_elements {α : Type} (f : α → Json) (h : α → List Line) (l : List α) (hf : ∀ x ∈ l, Shown (f x) (h x)) (d : Nat) :
    prettyElements d (l.map f) = under d (blocks (l.map h)) := by
  induction l with
  | nil => simp [prettyElements, blocks, under]
  | cons x l ih =>
    have ih := ih fun y hy => hf y (List.mem_cons_of_mem _ hy)
    have hx := hf x List.mem_cons_self
    cases l with
    | nil => simp [prettyElements, blocks, hx.under]
    | cons y l =>
      simp only [List.map_cons, prettyElements, blocks] at ih ⊢
      rw [ih, under_append, under_comma _ _ hx.ne, hx.under]
      simp

theorem shown_arr {α : Type} (f : α → Json) (h : α → List Line) (l : List α) (hf : ∀ x ∈ l, Shown (f x) (h x)) :
    Shown (.arr (l.map f)) (arrayLines (l.map h)) := by
  cases l with
  | nil => exact ⟨_, [], rfl, fun d => by simp [Json.pretty, under]⟩
  | cons x l =>
    refine ⟨['['], indented (blocks ((x :: l).map h)) ++ [(0, [']'])], rfl, fun d => ?_⟩
    have := shown_elements f h (x :: l) hf (d + 1)
    simp only [List.map_cons] at this
    simp only [List.map_cons, Json.pretty, this]
    rw [under_append, under_indented]
    simp [under]

theorem shown_obj1 {k : Str} (hk : jsonString k = "\"".toList ++ k ++ "\"".toList) {j : Json} {ls : List Line} (h : Shown j ls) :
    Shown (.obj [(k, j)]) (objectLines [(k, ls)]) := by
  refine ⟨['{'], indented (withPrefix ("\"".toList ++ k ++ "\": ".toList) ls) ++ [(0, ['}'])], rfl, fun d => ?_⟩
  simp only [Json.pretty, prettyMembers]
  rw [under_append, under_indented, h.prefix, hk]
  simp [under]

theorem shown_obj2 {k k' : Str} (hk : jsonString k = "\"".toList ++ k ++ "\"".toList) (hk' : jsonString k' = "\"".toList ++ k' ++ "\"".toList)
    {j j' : Json} {ls ls' : List Line} (h : Shown j ls) (h' : Shown j' ls') :
    Shown (.obj [(k, j), (k', j')]) (objectLines [(k, ls), (k', ls')]) := by
  refine ⟨['{'], indented (withComma (withPrefix ("\"".toList ++ k ++ "\": ".toList) ls) ++
    withPrefix ("\"".toList ++ k' ++ "\": ".toList) ls') ++ [(0, ['}'])], rfl, fun d => ?_⟩
  have hne : withPrefix ("\"".toList ++ k ++ "\": ".toList) ls ≠ [] := by
    obtain ⟨t, rest, rfl, _⟩ := h
    simp [withPrefix]
  simp only [Json.pretty, prettyMembers]
  rw [under_append, under_indented, under_append, under_comma _ _ hne, h.prefix, h'.prefix, hk, hk']
  simp [under]

theorem shown_term (t : Term) : Shown t.toJson (termLines t) := by
  cases t with
  | terminal s => exact shown_obj1 (by decide) (shown_str s)
  | nonterminal s => exact shown_obj1 (by decide) (shown_str s)

theorem shown_expression (e : Expression) : Shown e.toJson (expressionLines e) :=
  shown_obj1 (by decide) (shown_arr _ _ _ fun t _ => shown_term t)

theorem shown_production (p : Production) : Shown p.toJson (productionLines p) :=
  shown_obj2 (by decide) (by decide) (shown_term _) (shown_arr _ _ _ fun e _ => shown_expression e)

theorem shown_grammar (g : Grammar) : Shown g.toJson (grammarLines g) :=
  shown_obj1 (by decide) (shown_arr _ _ _ fun p _ => shown_production p)

theorem Shown.text {j : Json} {ls : List Line} (h : Shown j ls) : j.pretty 0 = linesText ls := by
  have h1 := linesText_under ls h.ne
  rw [h.under 0] at h1
  simpa [jsonIndent] using h1.symm

/-! ## No text of the value is shorter -/

theorem escapeChar_length (c : Char) : (escapeChar c).length ≤ 6 := by
  unfold escapeChar; repeat' split
  all_goals simp

theorem jsonChar_length {c : Char} {x : Str} (h : JsonChar c x) : (escapeChar c).length ≤ x.length := by
  cases h with
  | plain h1 h2 h3 =>
    have : escapeChar c = [c] := by
      unfold escapeChar
      have h0 : ∀ a : Char, a.toNat < 32 → c ≠ a := by rintro a ha rfl; omega
      rw [if_neg h2, if_neg h3, if_neg (h0 _ (by decide)), if_neg (h0 _ (by decide)), if_neg (h0 _ (by decide)),
        if_neg (h0 _ (by decide)), if_neg (h0 _ (by decide)), if_neg (by omega)]
    rw [this]; simp
  | hex h =>
    obtain ⟨_, _, _, _, _, _, _, _, rfl, _⟩ := h
    exact escapeChar_length c
  | surrogates h h' =>
    obtain ⟨_, _, _, _, _, _, _, _, rfl, _⟩ := h
    exact Nat.le_trans (escapeChar_length c) (by simp)
  | _ => decide

theorem jsonChars_length {s t : Str} (h : JsonChars s t) : (s.flatMap escapeChar).length ≤ t.length := by
  induction h with
  | nil => simp
  | cons h _ ih =>
    have := jsonChar_length h
    simp only [List.flatMap_cons, List.length_append]
    omega

theorem jsonNumber_length {s : Str} (h : JsonNumber s) : 1 ≤ s.length := by
  obtain ⟨m, i, f, e, rfl, _, h, _⟩ := h
  have : 1 ≤ i.length := by
    rcases h with rfl | ⟨⟨h, _⟩, _⟩
    · simp
    · exact List.length_pos_iff.mpr h
  simp; omega

mutual
theorem jsonValue_length {j : Json} {t : Str} : JsonValue j t → j.compact.length ≤ t.length
  | .null => by simp [Json.compact]
  | .true => by simp [Json.compact]
  | .false => by simp [Json.compact]
  | .num h => by have := jsonNumber_length h; simpa [Json.compact] using this
  | .str h => by
    have := jsonChars_length h
    simp only [Json.compact, jsonString, List.length_append, List.length_cons, List.length_nil]; omega
  | .emptyArr _ => by simp [Json.compact, compactElements]
  | .arr h => by
    have := jsonElements_length h
    simp only [Json.compact, List.length_append, List.length_cons, List.length_nil]; omega
  | .emptyObj _ => by simp [Json.compact, compactMembers]
  | .obj h => by
    have := jsonMembers_length h
    simp only [Json.compact, List.length_append, List.length_cons, List.length_nil]; omega
theorem jsonElements_length {l : List Json} {t : Str} : JsonElements l t → (compactElements l).length ≤ t.length
  | .one _ h _ => by
    have := jsonValue_length h
    simp only [compactElements, List.length_append]; omega
  | .more (l := l) _ h _ h' => by
    have h1 := jsonValue_length h
    have h2 := jsonElements_length h'
    cases l with
    | nil => cases h'
    | cons j l => simp only [compactElements, List.length_append, List.length_cons] at h2 ⊢; omega
theorem jsonMembers_length {l : List (Str × Json)} {t : Str} : JsonMembers l t → (compactMembers l).length ≤ t.length
  | .one _ h1 _ _ h2 _ => by
    have h1 := jsonChars_length h1
    have h2 := jsonValue_length h2
    simp only [compactMembers, jsonString, List.length_append, List.length_cons, List.length_nil]; omega
  | .more (l := l) _ h1 _ _ h2 _ h' => by
    have h1 := jsonChars_length h1
    have h2 := jsonValue_length h2
    have h3 := jsonMembers_length h'
    cases l with
    | nil => cases h'
    | cons j l =>
      obtain ⟨k, j⟩ := j
      simp only [compactMembers, jsonString, List.length_append, List.length_cons, List.length_nil] at h3 ⊢; omega
end

end Bnf
