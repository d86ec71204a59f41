import Verif.Proofs.AcyclicCheck
import Verif.Spec.TestGrammars
import Verif.Spec.PropertyTests
import Mathlib.Data.Nat.Fib.Basic

/-! # Derivations of the grammars in `tests/parse_input.rs` -/

set_option autoImplicit false

namespace Bnf.Samples
open Spec

theorem gramDnaLeftRecursive_acyclic : Acyclic gramDnaLeftRecursive :=
  acyclic_of_check [] ["dna".toList, "base".toList] (by decide +kernel) (by decide +kernel)

theorem gramDnaRightRecursive_acyclic : Acyclic gramDnaRightRecursive :=
  acyclic_of_check [] ["dna".toList, "base".toList] (by decide +kernel) (by decide +kernel)

theorem gramAmbiguous_acyclic : Acyclic gramAmbiguous :=
  acyclic_of_check [] ["start".toList, "a".toList, "b".toList] (by decide +kernel) (by decide +kernel)

theorem gramEmptyRightRecursive_acyclic : Acyclic gramEmptyRightRecursive :=
  acyclic_of_check ["a".toList] ["a".toList] (by decide +kernel) (by decide +kernel)

theorem gramEmptyLeftRecursive_acyclic : Acyclic gramEmptyLeftRecursive :=
  acyclic_of_check ["a".toList] ["a".toList] (by decide +kernel) (by decide +kernel)

theorem gramCompleteEmpty_acyclic : Acyclic gramCompleteEmpty :=
  acyclic_of_check ["empty".toList] ["start".toList, "empty".toList] (by decide +kernel) (by decide +kernel)

theorem gramEmpty_acyclic : Acyclic gramEmpty :=
  acyclic_of_check ["start".toList] ["start".toList] (by decide +kernel) (by decide +kernel)

theorem gramNestedEmptyPost_acyclic : Acyclic gramNestedEmptyPost :=
  acyclic_of_check ["empty".toList] ["start".toList, "a".toList, "empty".toList] (by decide +kernel) (by decide +kernel)

theorem gramNestedEmptyPre_acyclic : Acyclic gramNestedEmptyPre :=
  acyclic_of_check ["empty".toList] ["start".toList, "empty".toList, "a".toList] (by decide +kernel) (by decide +kernel)

theorem gramNestedEmptyPreAndPost_acyclic : Acyclic gramNestedEmptyPreAndPost :=
  acyclic_of_check ["empty".toList] ["start".toList, "empty".toList, "a".toList] (by decide +kernel) (by decide +kernel)

theorem gramEmptyInline_acyclic : Acyclic gramEmptyInline :=
  acyclic_of_check [] ["start".toList, "a".toList] (by decide +kernel) (by decide +kernel)

theorem gramEmptyAmbiguous_acyclic : Acyclic gramEmptyAmbiguous :=
  acyclic_of_check ["a".toList, "b".toList, "start".toList] ["start".toList, "a".toList, "b".toList] (by decide +kernel) (by decide +kernel)

theorem gramOptionalWhitespace_acyclic : Acyclic gramOptionalWhitespace :=
  acyclic_of_check ["balanced".toList, "opt-ws".toList] ["balanced".toList, "left".toList, "right".toList, "opt-ws".toList, "ws".toList] (by decide +kernel) (by decide +kernel)

theorem gramQualifiedWhitespace_acyclic : Acyclic gramQualifiedWhitespace :=
  acyclic_of_check [] ["terms".toList, "ws".toList, "term".toList, "qualified".toList, "qual-term".toList] (by decide +kernel) (by decide +kernel)

theorem gramMath_acyclic : Acyclic gramMath :=
  acyclic_of_check [] ["sum".toList, "add".toList, "product".toList, "mult".toList, "factor".toList, "number".toList, "digit".toList] (by decide +kernel) (by decide +kernel)

theorem gramSharedNonterminalFailure_acyclic : Acyclic gramSharedNonterminalFailure :=
  acyclic_of_check [] ["start".toList, "shortfail".toList, "longsuccess".toList, "long2".toList, "long3".toList, "long4".toList, "char".toList] (by decide +kernel) (by decide +kernel)

theorem gramSwapLeftRightRecursionLeft_acyclic : Acyclic gramSwapLeftRightRecursionLeft :=
  acyclic_of_check [] ["conjunction".toList, "ws".toList, "predicate".toList, "string_null_one".toList, "special-string".toList, "string_null_two".toList, "string_null_three".toList, "string".toList, "special-char".toList, "char_null".toList, "char".toList, "whitespace".toList] (by decide +kernel) (by decide +kernel)

theorem gramSwapLeftRightRecursionRight_acyclic : Acyclic gramSwapLeftRightRecursionRight :=
  acyclic_of_check [] ["conjunction".toList, "ws".toList, "predicate".toList, "string_null_one".toList, "special-string".toList, "string_null_two".toList, "string_null_three".toList, "string".toList, "special-char".toList, "char_null".toList, "char".toList, "whitespace".toList] (by decide +kernel) (by decide +kernel)

theorem gramSharedNullableNonterminal_acyclic : Acyclic gramSharedNullableNonterminal :=
  acyclic_of_check [] ["disjunction".toList, "predicate".toList, "or".toList, "char_null_one".toList, "special-string".toList, "char_null_two".toList, "char_null_three".toList, "ws".toList, "special-char".toList, "char".toList, "whitespace".toList] (by decide +kernel) (by decide +kernel)

theorem gramBranchingAndOverlappingParseTrees_acyclic : Acyclic gramBranchingAndOverlappingParseTrees :=
  acyclic_of_check [] ["and".toList, "terminal".toList] (by decide +kernel) (by decide +kernel)

/-- The children of a derivation tree of a nonterminal. -/
def KidsOf (g : Grammar) (n : Str) (kids : List ParseTreeNode) : Prop := ∃ e, HasAlt g (.nonterminal n) e ∧ IsForest g e.terms kids

theorem forest_nil_iff {g : Grammar} {ns} : IsForest g [] ns ↔ ns = [] :=
  ⟨fun h => by cases h; rfl, fun h => h ▸ .nil⟩

theorem forest_terminal_iff {g : Grammar} {s ts ns} : IsForest g (.terminal s :: ts) ns ↔ ∃ ns', ns = .terminal s :: ns' ∧ IsForest g ts ns' :=
  ⟨fun h => by cases h with | terminal h => exact ⟨_, rfl, h⟩, fun ⟨_, h, h'⟩ => h ▸ .terminal h'⟩

theorem forest_nonterminal_iff {g : Grammar} {n ts ns} : IsForest g (.nonterminal n :: ts) ns ↔
    ∃ kids ns', ns = .nonterminal (.nonterminal n) kids :: ns' ∧ KidsOf g n kids ∧ IsForest g ts ns' :=
  ⟨fun h => by cases h with | nonterminal h1 h2 h3 => exact ⟨_, _, rfl, ⟨_, h1, h2⟩, h3⟩,
    fun ⟨_, _, h, ⟨_, h1, h2⟩, h3⟩ => h ▸ .nonterminal h1 h2 h3⟩

theorem isParse_iff {g : Grammar} {n input t} : IsParse g (.nonterminal n) input t ↔
    ∃ kids, t = ⟨.nonterminal n, kids⟩ ∧ KidsOf g n kids ∧ yield kids = input := by
  constructor
  · rintro ⟨h1, ⟨e, h2, h3⟩, h4⟩
    obtain ⟨l, kids⟩ := t
    cases h1
    exact ⟨kids, rfl, ⟨e, h2, h3⟩, h4⟩
  · rintro ⟨kids, rfl, ⟨e, h2, h3⟩, h4⟩
    exact ⟨rfl, ⟨e, h2, h3⟩, h4⟩

theorem kids_iff {g : Grammar} {n : Str} {kids} : KidsOf g n kids ↔
    ∃ p ∈ g.productions, p.lhs = .nonterminal n ∧ ∃ e ∈ p.rhs, IsForest g e.terms kids :=
  ⟨fun ⟨e, ⟨p, h1, h2, h3⟩, h4⟩ => ⟨p, h1, h2, e, h3, h4⟩, fun ⟨p, h1, h2, e, h3, h4⟩ => ⟨e, ⟨p, h1, h2, h3⟩, h4⟩⟩

/-- Rewrites `KidsOf g n kids` to the alternatives of the grammar. -/
macro "kids_simp" r:ident : tactic => `(tactic|
  (rw [kids_iff]; change (∃ p ∈ $r:ident, _) ↔ _; simp [$r:ident, forest_nil_iff, forest_terminal_iff, forest_nonterminal_iff]))

/-- A node with a nonterminal. -/
abbrev nd (n : Str) (kids : List ParseTreeNode) : ParseTreeNode := .nonterminal (.nonterminal n) kids

/-! ## DNA -/

abbrev dna : Str := ['d', 'n', 'a']
abbrev base : Str := ['b', 'a', 's', 'e']

/-- A base. -/
def IsBase (c : Char) : Prop := c = 'A' ∨ c = 'C' ∨ c = 'G' ∨ c = 'T'

instance (c : Char) : Decidable (IsBase c) := by unfold IsBase; infer_instance

/-- Children of the tree of a sequence of bases with the right-recursive grammar. -/
def dnaRight : Char → Str → List ParseTreeNode
  | c, [] => [nd base [.terminal [c]]]
  | c, d :: s => [nd base [.terminal [c]], nd dna (dnaRight d s)]

/-- Children of the tree with the left-recursive grammar, of the sequence of bases from right to left. -/
def dnaLeft : Char → Str → List ParseTreeNode
  | c, [] => [nd base [.terminal [c]]]
  | c, d :: s => [nd dna (dnaLeft d s), nd base [.terminal [c]]]

theorem right_base {kids} : KidsOf gramDnaRightRecursive base kids ↔ ∃ c, IsBase c ∧ kids = [.terminal [c]] := by
  kids_simp rulesDnaRightRecursive
  constructor
  · rintro (h | h | h | h) <;> exact ⟨_, by simp [IsBase], h⟩
  · rintro ⟨c, rfl | rfl | rfl | rfl, h⟩ <;> simp [h]

theorem left_base {kids} : KidsOf gramDnaLeftRecursive base kids ↔ ∃ c, IsBase c ∧ kids = [.terminal [c]] := by
  kids_simp rulesDnaLeftRecursive
  constructor
  · rintro (h | h | h | h) <;> exact ⟨_, by simp [IsBase], h⟩
  · rintro ⟨c, rfl | rfl | rfl | rfl, h⟩ <;> simp [h]

theorem right_dna {kids} : KidsOf gramDnaRightRecursive dna kids ↔
    (∃ b, kids = [nd base b] ∧ KidsOf gramDnaRightRecursive base b) ∨
    (∃ b d, kids = [nd base b, nd dna d] ∧ KidsOf gramDnaRightRecursive base b ∧ KidsOf gramDnaRightRecursive dna d) := by
  kids_simp rulesDnaRightRecursive

theorem left_dna {kids} : KidsOf gramDnaLeftRecursive dna kids ↔
    (∃ b, kids = [nd base b] ∧ KidsOf gramDnaLeftRecursive base b) ∨
    (∃ d b, kids = [nd dna d, nd base b] ∧ KidsOf gramDnaLeftRecursive dna d ∧ KidsOf gramDnaLeftRecursive base b) := by
  kids_simp rulesDnaLeftRecursive

theorem dnaRight_yield : ∀ (c : Char) (s : Str), yield (dnaRight c s) = c :: s
  | c, [] => rfl
  | c, d :: s => by simp [dnaRight, yield, nodeYield, dnaRight_yield d s]

theorem dnaLeft_yield : ∀ (c : Char) (s : Str), yield (dnaLeft c s) = (c :: s).reverse
  | c, [] => rfl
  | c, d :: s => by simp [dnaLeft, yield, nodeYield, dnaLeft_yield d s]

theorem right_kids : ∀ (k : Nat) (kids : List ParseTreeNode), sizeOf kids ≤ k →
    (KidsOf gramDnaRightRecursive dna kids → ∃ c s, (∀ d ∈ c :: s, IsBase d) ∧ kids = dnaRight c s)
  | 0, kids, hk => by cases kids <;> simp at hk
  | k + 1, kids, hk => by
    intro h
    rcases right_dna.mp h with ⟨b, rfl, hb⟩ | ⟨b, d, rfl, hb, hd⟩
    · obtain ⟨c, hc, rfl⟩ := right_base.mp hb
      exact ⟨c, [], by simpa using hc, rfl⟩
    · obtain ⟨c, hc, rfl⟩ := right_base.mp hb
      simp at hk
      obtain ⟨c', s, hs, rfl⟩ := right_kids k d (by omega) hd
      exact ⟨c, c' :: s, by simpa using ⟨hc, by simpa using hs⟩, rfl⟩

theorem left_kids : ∀ (k : Nat) (kids : List ParseTreeNode), sizeOf kids ≤ k →
    (KidsOf gramDnaLeftRecursive dna kids → ∃ c s, (∀ d ∈ c :: s, IsBase d) ∧ kids = dnaLeft c s)
  | 0, kids, hk => by cases kids <;> simp at hk
  | k + 1, kids, hk => by
    intro h
    rcases left_dna.mp h with ⟨b, rfl, hb⟩ | ⟨d, b, rfl, hd, hb⟩
    · obtain ⟨c, hc, rfl⟩ := left_base.mp hb
      exact ⟨c, [], by simpa using hc, rfl⟩
    · obtain ⟨c, hc, rfl⟩ := left_base.mp hb
      simp at hk
      obtain ⟨c', s, hs, rfl⟩ := left_kids k d (by omega) hd
      exact ⟨c, c' :: s, by simpa using ⟨hc, by simpa using hs⟩, rfl⟩

theorem right_kids_iff {kids} : KidsOf gramDnaRightRecursive dna kids ↔ ∃ c s, (∀ d ∈ c :: s, IsBase d) ∧ kids = dnaRight c s := by
  refine ⟨right_kids _ kids le_rfl, ?_⟩
  rintro ⟨c, s, hs, rfl⟩
  induction s generalizing c with
  | nil => exact right_dna.mpr (.inl ⟨_, rfl, right_base.mpr ⟨c, hs c (by simp), rfl⟩⟩)
  | cons d s ih =>
    exact right_dna.mpr (.inr ⟨_, _, rfl, right_base.mpr ⟨c, hs c (by simp), rfl⟩, ih d fun x hx => hs x (List.mem_cons_of_mem _ hx)⟩)

theorem left_kids_iff {kids} : KidsOf gramDnaLeftRecursive dna kids ↔ ∃ c s, (∀ d ∈ c :: s, IsBase d) ∧ kids = dnaLeft c s := by
  refine ⟨left_kids _ kids le_rfl, ?_⟩
  rintro ⟨c, s, hs, rfl⟩
  induction s generalizing c with
  | nil => exact left_dna.mpr (.inl ⟨_, rfl, left_base.mpr ⟨c, hs c (by simp), rfl⟩⟩)
  | cons d s ih =>
    exact left_dna.mpr (.inr ⟨_, _, rfl, ih d fun x hx => hs x (List.mem_cons_of_mem _ hx), left_base.mpr ⟨c, hs c (by simp), rfl⟩⟩)

/-! ## Letters and nothing -/

/-- Children of the tree of `n` letters, with `<a> ::= '' | 'a' <a>`. -/
def lettersRight : Nat → List ParseTreeNode
  | 0 => [.terminal []]
  | n + 1 => [.terminal ['a'], nd ['a'] (lettersRight n)]

/-- The same with `<a> ::= '' | <a> 'a'`. -/
def lettersLeft : Nat → List ParseTreeNode
  | 0 => [.terminal []]
  | n + 1 => [nd ['a'] (lettersLeft n), .terminal ['a']]

theorem emptyRight_a {kids} : KidsOf gramEmptyRightRecursive ['a'] kids ↔
    kids = [.terminal []] ∨ ∃ d, kids = [.terminal ['a'], nd ['a'] d] ∧ KidsOf gramEmptyRightRecursive ['a'] d := by
  kids_simp rulesEmptyRightRecursive

theorem emptyLeft_a {kids} : KidsOf gramEmptyLeftRecursive ['a'] kids ↔
    kids = [.terminal []] ∨ ∃ d, kids = [nd ['a'] d, .terminal ['a']] ∧ KidsOf gramEmptyLeftRecursive ['a'] d := by
  kids_simp rulesEmptyLeftRecursive

theorem emptyRight_kids : ∀ (k : Nat) (kids : List ParseTreeNode), sizeOf kids ≤ k →
    (KidsOf gramEmptyRightRecursive ['a'] kids → ∃ n, kids = lettersRight n)
  | 0, kids, hk => by cases kids <;> simp at hk
  | k + 1, kids, hk => by
    intro h
    rcases emptyRight_a.mp h with rfl | ⟨d, rfl, hd⟩
    · exact ⟨0, rfl⟩
    · simp at hk
      obtain ⟨n, rfl⟩ := emptyRight_kids k d (by omega) hd
      exact ⟨n + 1, rfl⟩

theorem emptyLeft_kids : ∀ (k : Nat) (kids : List ParseTreeNode), sizeOf kids ≤ k →
    (KidsOf gramEmptyLeftRecursive ['a'] kids → ∃ n, kids = lettersLeft n)
  | 0, kids, hk => by cases kids <;> simp at hk
  | k + 1, kids, hk => by
    intro h
    rcases emptyLeft_a.mp h with rfl | ⟨d, rfl, hd⟩
    · exact ⟨0, rfl⟩
    · simp at hk
      obtain ⟨n, rfl⟩ := emptyLeft_kids k d (by omega) hd
      exact ⟨n + 1, rfl⟩

theorem emptyRight_kids_iff {kids} : KidsOf gramEmptyRightRecursive ['a'] kids ↔ ∃ n, kids = lettersRight n := by
  refine ⟨emptyRight_kids _ kids le_rfl, ?_⟩
  rintro ⟨n, rfl⟩
  induction n with
  | zero => exact emptyRight_a.mpr (.inl rfl)
  | succ n ih => exact emptyRight_a.mpr (.inr ⟨_, rfl, ih⟩)

theorem emptyLeft_kids_iff {kids} : KidsOf gramEmptyLeftRecursive ['a'] kids ↔ ∃ n, kids = lettersLeft n := by
  refine ⟨emptyLeft_kids _ kids le_rfl, ?_⟩
  rintro ⟨n, rfl⟩
  induction n with
  | zero => exact emptyLeft_a.mpr (.inl rfl)
  | succ n ih => exact emptyLeft_a.mpr (.inr ⟨_, rfl, ih⟩)

theorem lettersRight_yield (n : Nat) : yield (lettersRight n) = List.replicate n 'a' := by
  induction n with
  | zero => rfl
  | succ n ih => simp [lettersRight, yield, nodeYield, ih, List.replicate_succ]

theorem lettersLeft_yield (n : Nat) : yield (lettersLeft n) = List.replicate n 'a' := by
  induction n with
  | zero => rfl
  | succ n ih => simp [lettersLeft, yield, nodeYield, ih, List.replicate_succ']

/-! ## Endlessly many trees -/

/-- Children of the tree with `n` detours: `<a>` around `<b>` around `<a>` around … around `leaf`. -/
def detours (leaf : Str) : Nat → List ParseTreeNode
  | 0 => [.terminal leaf]
  | n + 1 => [nd ['b'] [nd ['a'] (detours leaf n)]]

theorem nested_a {kids} : KidsOf gramRecursiveNestedInfinite ['a'] kids ↔
    (∃ b, kids = [nd ['b'] b] ∧ KidsOf gramRecursiveNestedInfinite ['b'] b) ∨ kids = [.terminal ['z']] := by
  kids_simp rulesRecursiveNestedInfinite

theorem nested_b {kids} : KidsOf gramRecursiveNestedInfinite ['b'] kids ↔
    ∃ a, kids = [nd ['a'] a] ∧ KidsOf gramRecursiveNestedInfinite ['a'] a := by
  kids_simp rulesRecursiveNestedInfinite

theorem noop_a {kids} : KidsOf gramEmptyNoopInfinite ['a'] kids ↔
    kids = [.terminal []] ∨ ∃ b, kids = [nd ['b'] b] ∧ KidsOf gramEmptyNoopInfinite ['b'] b := by
  kids_simp rulesEmptyNoopInfinite

theorem noop_b {kids} : KidsOf gramEmptyNoopInfinite ['b'] kids ↔
    ∃ a, kids = [nd ['a'] a] ∧ KidsOf gramEmptyNoopInfinite ['a'] a := by
  kids_simp rulesEmptyNoopInfinite

theorem nested_kids : ∀ (k : Nat) (kids : List ParseTreeNode), sizeOf kids ≤ k →
    (KidsOf gramRecursiveNestedInfinite ['a'] kids → ∃ n, kids = detours ['z'] n)
  | 0, kids, hk => by cases kids <;> simp at hk
  | k + 1, kids, hk => by
    intro h
    rcases nested_a.mp h with ⟨b, rfl, hb⟩ | rfl
    · obtain ⟨a, rfl, ha⟩ := nested_b.mp hb
      simp at hk
      obtain ⟨n, rfl⟩ := nested_kids k a (by omega) ha
      exact ⟨n + 1, rfl⟩
    · exact ⟨0, rfl⟩

theorem noop_kids : ∀ (k : Nat) (kids : List ParseTreeNode), sizeOf kids ≤ k →
    (KidsOf gramEmptyNoopInfinite ['a'] kids → ∃ n, kids = detours [] n)
  | 0, kids, hk => by cases kids <;> simp at hk
  | k + 1, kids, hk => by
    intro h
    rcases noop_a.mp h with rfl | ⟨b, rfl, hb⟩
    · exact ⟨0, rfl⟩
    · obtain ⟨a, rfl, ha⟩ := noop_b.mp hb
      simp at hk
      obtain ⟨n, rfl⟩ := noop_kids k a (by omega) ha
      exact ⟨n + 1, rfl⟩

theorem nested_kids_iff {kids} : KidsOf gramRecursiveNestedInfinite ['a'] kids ↔ ∃ n, kids = detours ['z'] n := by
  refine ⟨nested_kids _ kids le_rfl, ?_⟩
  rintro ⟨n, rfl⟩
  induction n with
  | zero => exact nested_a.mpr (.inr rfl)
  | succ n ih => exact nested_a.mpr (.inl ⟨_, rfl, nested_b.mpr ⟨_, rfl, ih⟩⟩)

theorem noop_kids_iff {kids} : KidsOf gramEmptyNoopInfinite ['a'] kids ↔ ∃ n, kids = detours [] n := by
  refine ⟨noop_kids _ kids le_rfl, ?_⟩
  rintro ⟨n, rfl⟩
  induction n with
  | zero => exact noop_a.mpr (.inl rfl)
  | succ n ih => exact noop_a.mpr (.inr ⟨_, rfl, noop_b.mpr ⟨_, rfl, ih⟩⟩)

theorem detours_yield (leaf : Str) (n : Nat) : yield (detours leaf n) = leaf := by
  induction n with
  | zero => simp [detours, yield, nodeYield]
  | succ n ih => simp [detours, yield, nodeYield, ih]

theorem detours_inj {leaf : Str} : ∀ {n m : Nat}, detours leaf n = detours leaf m → n = m
  | 0, 0, _ => rfl
  | 0, m + 1, h => by simp [detours] at h
  | n + 1, 0, h => by simp [detours] at h
  | n + 1, m + 1, h => by
    simp only [detours, nd, List.cons.injEq, and_true, ParseTreeNode.nonterminal.injEq, true_and] at h
    rw [detours_inj h]

/-! ## The words AND -/

abbrev and' : Str := ['a', 'n', 'd']
abbrev term' : Str := ['t', 'e', 'r', 'm', 'i', 'n', 'a', 'l']

/-- `n + 1` words AND, with one space between. -/
def ands : Nat → Str
  | 0 => ['A', 'N', 'D']
  | n + 1 => ands n ++ [' ', 'A', 'N', 'D']

abbrev oneAnd : ParseTreeNode := nd term' [.terminal ['A', 'N', 'D']]

/-- The children of the trees of `n + 1` words: the last word is an operand, the word before may be an operator. -/
def andKids : Nat → List (List ParseTreeNode)
  | 0 => [[oneAnd]]
  | 1 => [[nd and' [oneAnd], .terminal [' '], oneAnd]]
  | n + 2 => (andKids (n + 1)).map (fun k => [nd and' k, .terminal [' '], oneAnd]) ++
      (andKids n).map (fun k => [nd and' k, .terminal [' ', 'A', 'N', 'D', ' '], oneAnd])

theorem andKids_length : ∀ n, (andKids n).length = Nat.fib (n + 1)
  | 0 => rfl
  | 1 => rfl
  | n + 2 => by
    rw [andKids, List.length_append, List.length_map, List.length_map, andKids_length (n + 1), andKids_length n, Nat.fib_add_two (n := n + 1)]
    omega

theorem andKids_nodup : ∀ n, (andKids n).Nodup
  | 0 => by simp [andKids]
  | 1 => by simp [andKids]
  | n + 2 => by
    rw [andKids, List.nodup_append]
    refine ⟨(andKids_nodup (n + 1)).map fun a b h => by simpa using h, (andKids_nodup n).map fun a b h => by simpa using h, ?_⟩
    intro a ha b hb hab
    obtain ⟨x, _, rfl⟩ := List.mem_map.mp ha
    obtain ⟨y, _, rfl⟩ := List.mem_map.mp hb
    simp at hab

theorem terminal_kids {kids} : KidsOf gramBranchingAndOverlappingParseTrees term' kids ↔ kids = [.terminal ['A', 'N', 'D']] := by
  kids_simp rulesBranchingAndOverlappingParseTrees

theorem and_alts {kids} : KidsOf gramBranchingAndOverlappingParseTrees and' kids ↔
    (∃ k, kids = [nd and' k, .terminal [' ', 'A', 'N', 'D', ' '], oneAnd] ∧ KidsOf gramBranchingAndOverlappingParseTrees and' k) ∨
    (∃ k, kids = [nd and' k, .terminal [' '], oneAnd] ∧ KidsOf gramBranchingAndOverlappingParseTrees and' k) ∨ kids = [oneAnd] := by
  have h : KidsOf gramBranchingAndOverlappingParseTrees and' kids ↔
    (∃ k t, kids = [nd and' k, .terminal [' ', 'A', 'N', 'D', ' '], nd term' t] ∧ KidsOf gramBranchingAndOverlappingParseTrees and' k ∧
      KidsOf gramBranchingAndOverlappingParseTrees term' t) ∨
    (∃ k t, kids = [nd and' k, .terminal [' '], nd term' t] ∧ KidsOf gramBranchingAndOverlappingParseTrees and' k ∧
      KidsOf gramBranchingAndOverlappingParseTrees term' t) ∨ (∃ t, kids = [nd term' t] ∧ KidsOf gramBranchingAndOverlappingParseTrees term' t) := by
    kids_simp rulesBranchingAndOverlappingParseTrees
  rw [h]
  simp only [terminal_kids]
  constructor
  · rintro (⟨k, t, h1, h2, rfl⟩ | ⟨k, t, h1, h2, rfl⟩ | ⟨t, h1, rfl⟩)
    · exact .inl ⟨k, h1, h2⟩
    · exact .inr (.inl ⟨k, h1, h2⟩)
    · exact .inr (.inr h1)
  · rintro (⟨k, h1, h2⟩ | ⟨k, h1, h2⟩ | h1)
    · exact .inl ⟨k, _, h1, h2, rfl⟩
    · exact .inr (.inl ⟨k, _, h1, h2, rfl⟩)
    · exact .inr (.inr ⟨_, h1, rfl⟩)

theorem mem_andKids_one (n : Nat) {k} (h : k ∈ andKids n) : [nd and' k, .terminal [' '], oneAnd] ∈ andKids (n + 1) := by
  cases n with
  | zero => simp [andKids] at h ⊢; exact h
  | succ n => rw [andKids]; exact List.mem_append_left _ (List.mem_map.mpr ⟨k, h, rfl⟩)

theorem mem_andKids_two (n : Nat) {k} (h : k ∈ andKids n) : [nd and' k, .terminal [' ', 'A', 'N', 'D', ' '], oneAnd] ∈ andKids (n + 2) := by
  rw [andKids]; exact List.mem_append_right _ (List.mem_map.mpr ⟨k, h, rfl⟩)

theorem and_kids : ∀ (s : Nat) (kids : List ParseTreeNode), sizeOf kids ≤ s →
    (KidsOf gramBranchingAndOverlappingParseTrees and' kids → ∃ n, kids ∈ andKids n)
  | 0, kids, hk => by cases kids <;> simp at hk
  | s + 1, kids, hk => by
    intro h
    rcases and_alts.mp h with ⟨k, rfl, h1⟩ | ⟨k, rfl, h1⟩ | rfl
    · simp at hk
      obtain ⟨n, hn⟩ := and_kids s k (by omega) h1
      exact ⟨n + 2, mem_andKids_two n hn⟩
    · simp at hk
      obtain ⟨n, hn⟩ := and_kids s k (by omega) h1
      exact ⟨n + 1, mem_andKids_one n hn⟩
    · exact ⟨0, by simp [andKids]⟩

theorem andKids_kids : ∀ n, ∀ k ∈ andKids n, KidsOf gramBranchingAndOverlappingParseTrees and' k ∧ yield k = ands n
  | 0, k, h => by
    simp [andKids] at h; subst h
    exact ⟨and_alts.mpr (.inr (.inr rfl)), rfl⟩
  | 1, k, h => by
    simp [andKids] at h; subst h
    exact ⟨and_alts.mpr (.inr (.inl ⟨_, rfl, and_alts.mpr (.inr (.inr rfl))⟩)), rfl⟩
  | n + 2, k, h => by
    rw [andKids] at h
    rcases List.mem_append.mp h with h | h
    · obtain ⟨x, hx, rfl⟩ := List.mem_map.mp h
      obtain ⟨h1, h2⟩ := andKids_kids (n + 1) x hx
      exact ⟨and_alts.mpr (.inr (.inl ⟨_, rfl, h1⟩)), by simp [yield, nodeYield, h2, ands]⟩
    · obtain ⟨x, hx, rfl⟩ := List.mem_map.mp h
      obtain ⟨h1, h2⟩ := andKids_kids n x hx
      exact ⟨and_alts.mpr (.inl ⟨_, rfl, h1⟩), by simp [yield, nodeYield, h2, ands]⟩

theorem ands_length (n : Nat) : (ands n).length = 4 * n + 3 := by
  induction n with
  | zero => rfl
  | succ n ih => simp [ands, ih]; omega

theorem and_kids_iff {kids} {n : Nat} : KidsOf gramBranchingAndOverlappingParseTrees and' kids ∧ yield kids = ands n ↔ kids ∈ andKids n := by
  constructor
  · rintro ⟨h1, h2⟩
    obtain ⟨m, hm⟩ := and_kids _ kids le_rfl h1
    have h3 := (andKids_kids m kids hm).2
    have h4 := congrArg List.length (h2.symm.trans h3)
    rw [ands_length, ands_length] at h4
    obtain rfl : n = m := by omega
    exact hm
  · exact fun h => andKids_kids n kids h

end Bnf.Samples
