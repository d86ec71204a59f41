import Verif.Model.Features
import Verif.Props.Errors

/-! # C99: what the feature `ABNF` changes -/

set_option autoImplicit false

namespace Bnf.Props
open Bnf Bnf.Spec

/-- C99: the feature only adds texts: what is read without it is read with it, as the same grammar. -/
theorem C99_conservative (f : Char → Bool) {s : Str} {g : Grammar} (h : Grammar.fromStrBnfOnly s = some (.ok g)) :
    Grammar.fromStr f s = some (.ok g) := fromStr_of_BNF h

/-- C99: the texts read without the feature are exactly those read with it that begin (after layout) with `<`. -/
theorem C99_exact (f : Char → Bool) (s : Str) (g : Grammar) :
    Grammar.fromStrBnfOnly s = some (.ok g) ↔ Grammar.fromStr f s = some (.ok g) ∧ ∃ r, Layout s ('<' :: r) := by
  constructor
  · intro h
    refine ⟨fromStr_of_BNF h, ?_⟩
    obtain ⟨pg, h1, _⟩ := (parseFrom_ok BNF_regular).mp (show Grammar.parseFrom BNF s = some (.ok g) from h)
    exact (isFormat_iff s).1 (isFormat_BNF h1)
  · rintro ⟨h, hr⟩
    rw [(C26_detection f s).1 hr] at h
    exact h

/-- C99: on a text that begins with `<` the feature makes no difference, not even to the message of an error. -/
theorem C99_same_on_bnf (dbg : Str → Str) (f : Char → Bool) {s r : Str} (h : Layout s ('<' :: r)) :
    Grammar.fromStr f s = Grammar.fromStrBnfOnly s ∧ E.fromStr dbg f s = E.fromStrBnfOnly dbg s := by
  have hs : isFormatStandardBnf s = true := (isFormat_iff s).2 ⟨r, h⟩
  exact ⟨(C26_detection f s).1 ⟨r, h⟩, by unfold E.fromStr E.fromStrBnfOnly; rw [if_pos hs]⟩

/-- C99: on any other text, reading without the feature fails, and the message points to the first character behind white space and
comments (or to the end, if there is none) as one that is not the expected character. -/
theorem C99_other_texts (dbg : Str → Str) {s i : Str} (hi : Layout s i) (hs : Settled i) (h : Lacks ['<'] i) :
    Grammar.fromStrBnfOnly s = some (.error .parseError) ∧ E.fromStrBnfOnly dbg s = some (.error (E.message dbg i .char)) := by
  have hfault : TextFault BNF s i .char := ⟨i, hi, hs, .inl (.inl (.inl (.inl ⟨h, rfl, rfl⟩)))⟩
  have he : E.parseFrom dbg BNF s = some (.error (E.message dbg i .char)) := (C69_exact .bnf dbg s _).2 ⟨i, .char, hfault, rfl⟩
  refine ⟨?_, he⟩
  exact (C69_same_results dbg (fun _ => false) BNF s).1.2.1 ⟨_, he⟩

/-- C99: every text is of one of the two kinds. -/
theorem C99_two_kinds (s : Str) : (∃ r, Layout s ('<' :: r)) ∨ ∃ i, Layout s i ∧ Settled i ∧ Lacks ['<'] i := by
  obtain ⟨h1, h2⟩ := layout_settled s
  by_cases h : ∃ r, skipM false s = '<' :: r
  · obtain ⟨r, h⟩ := h
    exact .inl ⟨r, h ▸ h1⟩
  · exact .inr ⟨_, h1, h2, fun r hr => h ⟨r, hr⟩⟩

/-- `a = 'x'` is only read with the feature, and `;c⏎ a = 'x'` is faulted at the `a` without it. -/
example : Lacks ['<'] ['a', ' ', '=', ' ', '\'', 'x', '\''] ∧ Settled ['a', ' ', '=', ' ', '\'', 'x', '\''] ∧
    Layout [';', 'c', '\n', ' ', 'a', ' ', '=', ' ', '\'', 'x', '\''] ['a', ' ', '=', ' ', '\'', 'x', '\''] := by
  refine ⟨fun r h => by simp at h, ?_, ?_⟩
  · have := (layout_settled ['a', ' ', '=', ' ', '\'', 'x', '\'']).2
    exact this
  · exact (layout_settled [';', 'c', '\n', ' ', 'a', ' ', '=', ' ', '\'', 'x', '\'']).1

example : Grammar.fromStr (fun c => c == 'a') ['a', ' ', '=', ' ', '\'', 'x', '\''] = some (.ok ⟨[⟨.nonterminal ['a'], [⟨[.terminal ['x']]⟩]⟩]⟩) := by
  decide +kernel

end Bnf.Props
