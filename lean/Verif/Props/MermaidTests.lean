import Verif.Proofs.MermaidTests
import Verif.Props.ParsableInputs
import Verif.Props.Display

/-! # Property C97: the property tests of Mermaid texts in `tests/parse_input.rs` -/

set_option autoImplicit false

namespace Bnf.Props
open Bnf Spec

/-- C97: `mermaid_prop_escape_round_trip` (`tests/parse_input.rs` 1002) passes for all strings, also those with quotes. -/
theorem C97_escape_round_trip (s : Str) : unescapeCodes none (escapeMermaidLabel s) = s := unescape_escape s

example : unescapeCodes none ['#', '1', '1', '1', '4', '1', '1', '2', ';', 'x'] = ['#', '1', '1', '1', '4', '1', '1', '2', 'x'] := by decide
example : escapeMermaidLabel ['#', '5', '9', ';'] ≠ ['#', '5', '9', ';'] := by decide

/-- C97: what `prop_mermaid_single_node_well_formed` (`tests/parse_input.rs` 965) checks of a tree holds for all trees with nonterminals as inner
nodes, not only those with a single leaf. -/
theorem C97_well_formed (t : ParseTree) (h : InnerNonterminals (.nonterminal t.lhs t.rhs)) : MermaidTest t := by
  obtain ⟨E, h1, h2, _⟩ := C43_mermaid_edges t h
  have hsafe : ∀ s, SafeLabel (escapeMermaidLabel s) := fun s c hc => escape_safe c (by revert c; decide) (by rintro rfl; revert hc; decide)
    (by rintro rfl; revert hc; decide) s
  let X : List ((Nat × Str) × (Nat × Str)) := E.map fun e => ((e.1.1, escapeMermaidLabel e.1.2), (e.2.1, escapeMermaidLabel e.2.2))
  have hX : ∀ e ∈ X, SafeLabel e.1.2 ∧ SafeLabel e.2.2 := by
    intro e he
    obtain ⟨e', _, rfl⟩ := List.mem_map.1 he
    exact ⟨hsafe _, hsafe _⟩
  have hhead : "flowchart TD\n".toList = "flowchart TD".toList ++ ['\n'] := by decide
  have hm : t.mermaid = some ("flowchart TD".toList ++ '\n' :: X.flatMap fun e => edgeBody e.1 e.2 ++ ['\n']) := by
    rw [h1, hhead]
    simp only [X, List.flatMap_map, edgeLine_eq, List.append_assoc, List.cons_append, List.nil_append]
  have hl : strLines ("flowchart TD".toList ++ '\n' :: X.flatMap fun e => edgeBody e.1 e.2 ++ ['\n']) =
      "flowchart TD".toList :: X.map fun e => edgeBody e.1 e.2 := by
    rw [strLines_line (by decide), strLines_flatMap (fun e => edgeBody e.1 e.2) X fun e he => edgeBody_line (hX e he).1 (hX e he).2]
    rfl
  have ha : arrowLines ("flowchart TD".toList ++ '\n' :: X.flatMap fun e => edgeBody e.1 e.2 ++ ['\n']) = X.map fun e => edgeBody e.1 e.2 := by
    unfold arrowLines
    rw [hl, List.filter_cons_of_neg (by decide), List.filter_eq_self]
    intro l hl
    obtain ⟨e, _, rfl⟩ := List.mem_map.1 hl
    exact decide_eq_true (edgeBody_arrow _ _)
  refine ⟨_, hm, ?_, ?_, ?_⟩
  · rw [ha]
    intro l hl
    obtain ⟨e, he, rfl⟩ := List.mem_map.1 hl
    exact edgeBody_quotes (hX e he).1 (hX e he).2
  · have h3 := congrArg List.length h2
    rw [List.length_map, List.length_range'] at h3
    have h4 := treeEdges_eq (.nonterminal t.lhs t.rhs)
    rw [treeEdges] at h4
    rw [ha, List.length_map, List.length_map, h3]
    omega
  · refine labelsClean_of_segments ?_
    have e : "flowchart TD".toList ++ '\n' :: (X.flatMap fun e => edgeBody e.1 e.2 ++ ['\n']) =
        ("flowchart TD".toList ++ ['\n']) ++ X.flatMap fun e => edgeBody e.1 e.2 ++ ['\n'] := by simp
    rw [e]
    exact segments_good X _ hX (by decide) (.inl (by decide))

/-- The checks can fail: a label with "<", and a line with an arrow in a label. -/
example : ¬ LabelsClean ['0', '[', '"', 'a', '<', 'b', '"', ']', '\n'] := by
  intro h
  exact h ['a', '<', 'b', '"', ']', '\n'] (by decide) ['a', '<', 'b'] (by decide) (by decide) '<' (by decide) (by decide)
example : arrowLines ['0', ' ', '-', '-', '>', '\r', '\n', '\n', 'x'] = [['0', ' ', '-', '-', '>']] := by decide

/-- C97: in particular for every tree that parsing from a nonterminal returns. -/
theorem C97_parsed {g n input it ts it'} (ho : Opened g (.nonterminal n) input it) (hd : Spec.Draws it ts it') : ∀ t ∈ ts, MermaidTest t := by
  intro t ht
  have hp := C01_soundness ho hd t ht
  obtain ⟨e, _, hf⟩ := hp.tree
  exact C97_well_formed t (by rw [InnerNonterminals]; exact ⟨⟨n, hp.root⟩, innerNonterminals_of_forest hf⟩)

theorem labelContent_quote (s : Str) : '\'' ∉ labelContent s := by
  intro h
  obtain ⟨c, _, hc⟩ := List.mem_map.1 h
  split at hc
  · exact absurd hc (by decide)
  · rename_i h1; exact h1 hc

/-- `<root> ::= '…'` -/
def gramRoot (content : Str) : Grammar := ⟨[⟨.nonterminal ['r', 'o', 'o', 't'], [⟨[.terminal content]⟩]⟩]⟩

theorem root_text (f : Char → Bool) {content : Str} (h : '\'' ∉ content) :
    Grammar.fromStr f (singleNodeText content) = some (.ok (gramRoot content)) := by
  refine fromStr_of_BNF (C23_plain_texts .bnf (by simp) ?_)
  have hd := display_production (u := ['r', 'o', 'o', 't']) (es := [⟨[.terminal content]⟩]) (r := []) (r' := [])
    ⟨⟨_, rfl, by decide⟩, by simp, by simp [PrintableExpression, Printable, h]⟩ .nil
  have e : Production.display ⟨.nonterminal ['r', 'o', 'o', 't'], [⟨[.terminal content]⟩]⟩ ++ [] = singleNodeText content := by
    simp [Production.display, Expression.display, Term.display, join, singleNodeText, h]
  rw [e] at hd
  exact ⟨_, .nil, .one hd⟩

theorem root_alt {content : Str} {l e} (h : HasAlt (gramRoot content) l e) : l = .nonterminal ['r', 'o', 'o', 't'] ∧ e = ⟨[.terminal content]⟩ := by
  obtain ⟨p, hp, rfl, he⟩ := h
  simp only [gramRoot, List.mem_singleton] at hp
  subst hp
  simp only [List.mem_singleton] at he
  exact ⟨rfl, he⟩

/-- C97: `mermaid_prop_arbitrary_labels_well_formed` (`tests/parse_input.rs` 965) passes for all label contents: the text is read, the parser is built,
the content has exactly one tree, and its Mermaid text is as checked. -/
theorem C97_single_node (f : Char → Bool) (s : Str) (ord : List Str → List Str) (hord : ∀ l, (ord l).Perm l) :
    ∃ g p it, Grammar.fromStr f (singleNodeText (labelContent s)) = some (.ok g) ∧ g.buildParser ord = .ok p ∧ p.parseInput (labelContent s) = some it ∧
      Collects it [⟨.nonterminal ['r', 'o', 'o', 't'], [.terminal (labelContent s)]⟩] ∧
      MermaidTest ⟨.nonterminal ['r', 'o', 'o', 't'], [.terminal (labelContent s)]⟩ := by
  have hdef : ∀ n, Referenced (gramRoot (labelContent s)) n → Defined (gramRoot (labelContent s)) n := by
    rintro n ⟨l, e, ha, hn⟩
    obtain ⟨_, rfl⟩ := root_alt ha
    simp at hn
  have hac : Acyclic (gramRoot (labelContent s)) := by
    apply acyclic_of_rank fun _ => 0
    intro n e ha pre m post he _
    obtain ⟨_, rfl⟩ := root_alt ha
    have : Term.nonterminal m ∈ (⟨[Term.terminal (labelContent s)]⟩ : Expression).terms := by rw [he]; simp
    simp at this
  obtain ⟨p, hb⟩ := (C14_build_parser_ok_iff ord hord (gramRoot (labelContent s))).mpr ⟨by simp [gramRoot], hdef⟩
  cases hi : p.parseInput (labelContent s) with
  | none => exact absurd hi (C11_open_no_panic hb _ (.terminal [])).2
  | some it =>
    have ho : Opened (gramRoot (labelContent s)) (.nonterminal ['r', 'o', 'o', 't']) (labelContent s) it := .parser hb rfl hi
    obtain ⟨ts, it1, it2, h1, h2⟩ := C06_terminates_acyclic hac ho
    have hmem : ∀ t, t ∈ ts ↔ t = ⟨.nonterminal ['r', 'o', 'o', 't'], [.terminal (labelContent s)]⟩ := by
      intro t
      rw [C05_exhausted_exact ho h1 h2]
      constructor
      · rintro ⟨hr, ⟨e, ha, hf⟩, _⟩
        obtain ⟨_, rfl⟩ := root_alt ha
        obtain ⟨l, r⟩ := t
        simp only at hr hf
        subst hr
        cases hf with
        | terminal hf => cases hf with | nil => rfl
      · rintro rfl
        exact ⟨rfl, ⟨⟨[.terminal (labelContent s)]⟩, ⟨_, List.mem_singleton.2 rfl, rfl, List.mem_singleton.2 rfl⟩, .terminal .nil⟩, by simp [yield, nodeYield]⟩
    have hnd := C04_no_duplicates (by simp [gramRoot]) ho h1
    have hts : ts = [⟨.nonterminal ['r', 'o', 'o', 't'], [.terminal (labelContent s)]⟩] := by
      cases ts with
      | nil => have := (hmem _).mpr rfl; simp at this
      | cons t us =>
        have ht := (hmem t).mp (by simp)
        cases us with
        | nil => rw [ht]
        | cons t' vs =>
          have ht' := (hmem t').mp (by simp)
          rw [ht, ht'] at hnd
          simp at hnd
    rw [hts] at h1
    exact ⟨_, p, it, root_text f (labelContent_quote s), hb, hi, ⟨it1, it2, h1, h2⟩, C97_parsed ho h1 _ (by simp)⟩

end Bnf.Props
