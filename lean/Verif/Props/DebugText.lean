import Verif.Proofs.DebugText
import Verif.Props.Errors

/-!
# C118: what `{:?}` and `{:#?}` print
-/

set_option autoImplicit false

namespace Bnf.Props
open Bnf Spec

/-- C118: the texts, for every grammar and every parse tree. -/
theorem C118_text (plain : Char → Bool) :
    (∀ g : Grammar, g.debug plain = debugGrammar plain g ∧ g.debugPretty plain = prettyDebug plain 0 g) ∧
      ∀ t : ParseTree, t.debug plain = debugTree plain t ∧ t.debugPretty plain = prettyTree plain 0 t :=
  ⟨fun g => ⟨grammar_compact plain g, (pretty_at plain _ (grammar_clean g)).trans (grammar_at plain 0 g)⟩,
    fun t => ⟨treeVal_compact plain t.lhs t.rhs (nodes_compact plain t.rhs),
      (pretty_at plain _ (treeVal_clean t.lhs (nodes_clean t.rhs))).trans (treeVal_at plain 0 t.lhs t.rhs (nodes_at plain 2 t.rhs))⟩⟩

/-- C118: the texts determine the grammar and the parse tree. -/
theorem C118_injective (plain : Char → Bool) :
    (∀ g g' : Grammar, (g.debug plain = g'.debug plain → g = g') ∧ (g.debugPretty plain = g'.debugPretty plain → g = g')) ∧
      ∀ t t' : ParseTree, (t.debug plain = t'.debug plain → t = t') ∧ (t.debugPretty plain = t'.debugPretty plain → t = t') := by
  obtain ⟨h1, h2⟩ := C118_text plain
  refine ⟨fun g g' => ⟨fun h => ?_, fun h => ?_⟩, fun t t' => ⟨fun h => ?_, fun h => ?_⟩⟩
  · rw [(h1 g).1, (h1 g').1] at h
    exact (grammar_delim plain).inj h
  · rw [(h1 g).2, (h1 g').2] at h
    exact (prettyGrammar_delim plain 0).inj h
  · rw [(h2 t).1, (h2 t').1] at h
    exact (tree_delim plain).inj h
  · rw [(h2 t).2, (h2 t').2] at h
    exact (prettyTree_delim plain 0).inj h

/-! ## Characters -/

/-- A character that is printed as it is. -/
def Shown (plain : Char → Bool) (c : Char) : Prop := (32 ≤ c.toNat ∧ c.toNat ≤ 126) ∨ (plain c = true ∧ c ≠ '\n')

theorem shown_escape (plain : Char → Bool) (c : Char) : ∀ d ∈ escapeDebug plain c, Shown plain d := by
  intro d hd
  unfold escapeDebug at hd
  have short : ∀ k : Char, (32 ≤ k.toNat ∧ k.toNat ≤ 126) → d ∈ (['\\', k] : Str) → Shown plain d := by
    intro k hk h
    simp only [List.mem_cons, List.not_mem_nil, or_false] at h
    rcases h with rfl | rfl
    · exact .inl (by decide)
    · exact .inl hk
  by_cases h0 : c = '\x00'
  · rw [if_pos h0] at hd; exact short '0' (by decide) hd
  by_cases h1 : c = '\t'
  · rw [if_neg h0, if_pos h1] at hd; exact short 't' (by decide) hd
  by_cases h2 : c = '\r'
  · rw [if_neg h0, if_neg h1, if_pos h2] at hd; exact short 'r' (by decide) hd
  by_cases h3 : c = '\n'
  · rw [if_neg h0, if_neg h1, if_neg h2, if_pos h3] at hd; exact short 'n' (by decide) hd
  by_cases h4 : c = '\\'
  · rw [if_neg h0, if_neg h1, if_neg h2, if_neg h3, if_pos h4] at hd; exact short '\\' (by decide) hd
  by_cases h5 : c = '"'
  · rw [if_neg h0, if_neg h1, if_neg h2, if_neg h3, if_neg h4, if_pos h5] at hd; exact short '"' (by decide) hd
  rw [if_neg h0, if_neg h1, if_neg h2, if_neg h3, if_neg h4, if_neg h5] at hd
  split at hd
  · rw [List.mem_singleton.mp hd]; exact .inl ‹_›
  · split at hd
    · rw [List.mem_singleton.mp hd]; exact .inr ⟨‹_›, h3⟩
    · simp only [escapeUnicode, List.mem_append, List.mem_cons, List.not_mem_nil, or_false] at hd
      rcases hd with ((rfl | rfl | rfl) | h) | rfl
      · exact .inl (by decide)
      · exact .inl (by decide)
      · exact .inl (by decide)
      · obtain ⟨k, hk, rfl⟩ := hex_mem h
        have : ∀ k < 16, 32 ≤ k.digitChar.toNat ∧ k.digitChar.toNat ≤ 126 := by decide
        exact .inl (this k hk)
      · exact .inl (by decide)

theorem shown_quoted (plain : Char → Bool) (s : Str) : ∀ d ∈ quotedDebug plain s, Shown plain d := by
  intro d hd
  simp only [← strDebug_eq, strDebug, List.cons_append, List.mem_cons, List.mem_append, List.mem_flatMap, List.not_mem_nil, or_false] at hd
  rcases hd with rfl | ⟨c, _, h⟩ | rfl
  · exact .inl (by decide)
  · exact shown_escape plain c d h
  · exact .inl (by decide)

theorem shown_append {plain : Char → Bool} {x y : Str} (hx : ∀ d ∈ x, Shown plain d) (hy : ∀ d ∈ y, Shown plain d) : ∀ d ∈ x ++ y, Shown plain d :=
  fun d hd => (List.mem_append.mp hd).elim (hx d) (hy d)

theorem shown_ascii {plain : Char → Bool} {x : Str} (h : ∀ d ∈ x, 32 ≤ d.toNat ∧ d.toNat ≤ 126) : ∀ d ∈ x, Shown plain d := fun d hd => .inl (h d hd)

theorem shown_bracketed {plain : Char → Bool} {xs : List Str} (h : ∀ x ∈ xs, ∀ d ∈ x, Shown plain d) : ∀ d ∈ bracketed xs, Shown plain d := by
  refine shown_append (shown_append (shown_ascii (by decide)) fun d hd => ?_) (shown_ascii (by decide))
  obtain ⟨x, hx, hx'⟩ := List.mem_flatten.mp hd
  cases xs with
  | nil => simp at hx
  | cons y ys =>
    have : ∀ (ys : List Str) (y : Str), x ∈ (y :: ys).intersperse (chars! ", ") → x ∈ y :: ys ∨ x = chars! ", " := by
      intro ys
      induction ys with
      | nil => intro y hx; exact .inl (by simpa using hx)
      | cons z zs ih =>
        intro y hx
        rw [List.intersperse_cons_cons] at hx
        rcases List.mem_cons.mp hx with h | hx
        · exact .inl (h ▸ List.mem_cons_self)
        · rcases List.mem_cons.mp hx with h | hx
          · exact .inr h
          · exact (ih z hx).imp (List.mem_cons_of_mem _) id
    rcases this ys y hx with hx | rfl
    · exact h x hx d hx'
    · exact shown_ascii (by decide) d hx'

theorem shown_map {α : Type} {plain : Char → Bool} {f : α → Str} {l : List α} (h : ∀ a ∈ l, ∀ d ∈ f a, Shown plain d) : ∀ x ∈ l.map f, ∀ d ∈ x, Shown plain d := by
  intro x hx
  obtain ⟨a, ha, rfl⟩ := List.mem_map.mp hx
  exact h a ha

theorem shown_term (plain : Char → Bool) (t : Term) : ∀ d ∈ debugTerm plain t, Shown plain d := by
  cases t
  · exact shown_append (shown_append (shown_ascii (by decide)) (shown_quoted plain _)) (shown_ascii (by decide))
  · exact shown_append (shown_append (shown_ascii (by decide)) (shown_quoted plain _)) (shown_ascii (by decide))

theorem shown_expression (plain : Char → Bool) (e : Expression) : ∀ d ∈ debugExpression plain e, Shown plain d :=
  shown_append (shown_append (shown_ascii (by decide)) (shown_bracketed (shown_map fun t _ => shown_term plain t))) (shown_ascii (by decide))

theorem shown_production (plain : Char → Bool) (p : Production) : ∀ d ∈ debugProduction plain p, Shown plain d :=
  shown_append (shown_append (shown_append (shown_append (shown_ascii (by decide)) (shown_term plain _)) (shown_ascii (by decide)))
    (shown_bracketed (shown_map fun e _ => shown_expression plain e))) (shown_ascii (by decide))

/-- C118: `{:?}` of a grammar is one line of printable characters. -/
theorem C118_one_line (plain : Char → Bool) (g : Grammar) : ∀ c ∈ g.debug plain, ((32 ≤ c.toNat ∧ c.toNat ≤ 126) ∨ plain c = true) ∧ c ≠ '\n' := by
  intro c hc
  rw [((C118_text plain).1 g).1] at hc
  have : Shown plain c := shown_append (shown_append (shown_ascii (by decide)) (shown_bracketed (shown_map fun p _ => shown_production plain p)))
    (shown_ascii (by decide)) c hc
  rcases this with h | h
  · exact ⟨.inl h, by rintro rfl; exact absurd h.1 (by decide)⟩
  · exact ⟨.inr h.1, h.2⟩

/-! ## Messages of parse errors -/

/-- C118: with `Debug` of strings as it is, the message of a rejected text is one line and quotes the text that could not be read; texts with the same
message have the same fault. -/
theorem C118_message (plain : Char → Bool) {F : Format} (hF : Supported F) (s m : Str) (h : E.parseFrom (strDebug plain) F s = some (.error m)) :
    '\n' ∉ m ∧ ∃ i k, TextFault F s i k ∧
      m = (chars! "Parsing error: Error(Error { input: ") ++ quotedDebug plain i ++ (chars! ", code: ") ++ k.debug ++ (chars! " })") ∧
      ∀ s', E.parseFrom (strDebug plain) F s' = some (.error m) → TextFault F s' i k := by
  obtain ⟨i, k, hf, rfl⟩ := (C69_exact hF _ s m).mp h
  have hm : E.message (strDebug plain) i k =
      (chars! "Parsing error: Error(Error { input: ") ++ quotedDebug plain i ++ (chars! ", code: ") ++ k.debug ++ (chars! " })") := by
    rw [E.message, strDebug_eq]
    rfl
  refine ⟨?_, i, k, hf, hm, fun s' h' => ?_⟩
  · rw [hm]
    intro hn
    simp only [List.mem_append] at hn
    rcases hn with (((hn | hn) | hn) | hn) | hn
    · exact absurd hn (by decide)
    · rw [← strDebug_eq] at hn
      exact strDebug_clean plain i hn
    · exact absurd hn (by decide)
    · exact absurd hn (by cases k <;> decide)
    · exact absurd hn (by decide)
  · obtain ⟨i', k', hf', he⟩ := (C69_exact hF _ s' _).mp h'
    obtain ⟨rfl, rfl⟩ := E.message_injective (fun a b hab => (quoted_delim plain).inj (by rw [← strDebug_eq, ← strDebug_eq]; exact hab)) he
    exact hf'

/-! ## Examples -/

/-- The grammar `<s> ::= 'x'` in both forms. -/
example : (⟨[⟨.nonterminal ['s'], [⟨[.terminal ['x']]⟩]⟩]⟩ : Grammar).debug (fun _ => false) =
      (chars! "Grammar { productions: [Production { lhs: Nonterminal(\"s\"), rhs: [Expression { terms: [Terminal(\"x\")] }] }] }") ∧
    (⟨[⟨.nonterminal ['s'], [⟨[.terminal ['x']]⟩]⟩]⟩ : Grammar).debugPretty (fun _ => false) =
      (chars! "Grammar {\n    productions: [\n        Production {\n            lhs: Nonterminal(\n                \"s\",\n            ),\n            rhs: [\n                Expression {\n                    terms: [\n                        Terminal(\n                            \"x\",\n                        ),\n                    ],\n                },\n            ],\n        },\n    ],\n}") := by
  constructor <;> decide +kernel

/-- Escapes: line feed, quote, delete and a letter that is (not) printed as it is. -/
example : strDebug (fun _ => false) ['\n', '"', '\x7f', 'é', '\''] = (chars! "\"\\n\\\"\\u{7f}\\u{e9}'\"") ∧
    strDebug (fun _ => true) ['é'] = ['"', 'é', '"'] := by decide

/-- A rejected text. -/
example : E.parseFrom (strDebug fun _ => false) BNF (chars! "<s> 'x\n") =
    some (.error (chars! "Parsing error: Error(Error { input: \"'x\\n\", code: Tag })")) := by decide +kernel

end Bnf.Props
