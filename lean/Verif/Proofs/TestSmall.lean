import Verif.Proofs.TestGrammars

/-! # The finite languages among the grammars of the tests -/

set_option autoImplicit false

namespace Bnf.Samples
open Spec

abbrev start : Str := ['s', 't', 'a', 'r', 't']
abbrev empty : Str := ['e', 'm', 'p', 't', 'y']
abbrev nothing : ParseTreeNode := nd empty [.terminal []]

theorem completeEmpty_empty {kids} : KidsOf gramCompleteEmpty empty kids ↔ kids = [.terminal []] := by
  kids_simp rulesCompleteEmpty
theorem completeEmpty_start {kids} : KidsOf gramCompleteEmpty start kids ↔ kids = [.terminal ['h', 'i'], nothing] := by
  have h : KidsOf gramCompleteEmpty start kids ↔ ∃ e, kids = [.terminal ['h', 'i'], nd empty e] ∧ KidsOf gramCompleteEmpty empty e := by
    kids_simp rulesCompleteEmpty
  rw [h]; simp [completeEmpty_empty]

theorem empty_start {kids} : KidsOf gramEmpty start kids ↔ kids = [.terminal []] := by
  kids_simp rulesEmpty

theorem post_empty {kids} : KidsOf gramNestedEmptyPost empty kids ↔ kids = [.terminal []] := by
  kids_simp rulesNestedEmptyPost
theorem post_a {kids} : KidsOf gramNestedEmptyPost ['a'] kids ↔ kids = [.terminal ['a'], nothing] := by
  have h : KidsOf gramNestedEmptyPost ['a'] kids ↔ ∃ e, kids = [.terminal ['a'], nd empty e] ∧ KidsOf gramNestedEmptyPost empty e := by
    kids_simp rulesNestedEmptyPost
  rw [h]; simp [post_empty]
theorem post_start {kids} : KidsOf gramNestedEmptyPost start kids ↔ kids = [nd ['a'] [.terminal ['a'], nothing], nothing] := by
  have h : KidsOf gramNestedEmptyPost start kids ↔ ∃ a e, kids = [nd ['a'] a, nd empty e] ∧ KidsOf gramNestedEmptyPost ['a'] a ∧
      KidsOf gramNestedEmptyPost empty e := by
    kids_simp rulesNestedEmptyPost
  rw [h]; simp [post_empty, post_a]

theorem pre_empty {kids} : KidsOf gramNestedEmptyPre empty kids ↔ kids = [.terminal []] := by
  kids_simp rulesNestedEmptyPre
theorem pre_a {kids} : KidsOf gramNestedEmptyPre ['a'] kids ↔ kids = [nothing, .terminal ['a']] := by
  have h : KidsOf gramNestedEmptyPre ['a'] kids ↔ ∃ e, kids = [nd empty e, .terminal ['a']] ∧ KidsOf gramNestedEmptyPre empty e := by
    kids_simp rulesNestedEmptyPre
  rw [h]; simp [pre_empty]
theorem pre_start {kids} : KidsOf gramNestedEmptyPre start kids ↔ kids = [nothing, nd ['a'] [nothing, .terminal ['a']]] := by
  have h : KidsOf gramNestedEmptyPre start kids ↔ ∃ e a, kids = [nd empty e, nd ['a'] a] ∧ KidsOf gramNestedEmptyPre empty e ∧
      KidsOf gramNestedEmptyPre ['a'] a := by
    kids_simp rulesNestedEmptyPre
  rw [h]; simp [pre_empty, pre_a]

theorem prePost_empty {kids} : KidsOf gramNestedEmptyPreAndPost empty kids ↔ kids = [.terminal []] := by
  kids_simp rulesNestedEmptyPreAndPost
theorem prePost_a {kids} : KidsOf gramNestedEmptyPreAndPost ['a'] kids ↔ kids = [nothing, .terminal ['a'], nothing] := by
  have h : KidsOf gramNestedEmptyPreAndPost ['a'] kids ↔ ∃ e e', kids = [nd empty e, .terminal ['a'], nd empty e'] ∧
      KidsOf gramNestedEmptyPreAndPost empty e ∧ KidsOf gramNestedEmptyPreAndPost empty e' := by
    kids_simp rulesNestedEmptyPreAndPost
  rw [h]; simp [prePost_empty]
theorem prePost_start {kids} : KidsOf gramNestedEmptyPreAndPost start kids ↔
    kids = [nothing, nd ['a'] [nothing, .terminal ['a'], nothing], nothing] := by
  have h : KidsOf gramNestedEmptyPreAndPost start kids ↔ ∃ e a e', kids = [nd empty e, nd ['a'] a, nd empty e'] ∧
      KidsOf gramNestedEmptyPreAndPost empty e ∧ KidsOf gramNestedEmptyPreAndPost ['a'] a ∧ KidsOf gramNestedEmptyPreAndPost empty e' := by
    kids_simp rulesNestedEmptyPreAndPost
  rw [h]; simp [prePost_empty, prePost_a]

theorem inline_a {kids} : KidsOf gramEmptyInline ['a'] kids ↔ kids = [.terminal ['a']] := by
  kids_simp rulesEmptyInline
theorem inline_start {kids} : KidsOf gramEmptyInline start kids ↔
    kids = [nd ['a'] [.terminal ['a']], .terminal [], nd ['a'] [.terminal ['a']]] := by
  have h : KidsOf gramEmptyInline start kids ↔ ∃ a a', kids = [nd ['a'] a, .terminal [], nd ['a'] a'] ∧
      KidsOf gramEmptyInline ['a'] a ∧ KidsOf gramEmptyInline ['a'] a' := by
    kids_simp rulesEmptyInline
  rw [h]; simp [inline_a]

theorem ambiguous_a {kids} : KidsOf gramAmbiguous ['a'] kids ↔ kids = [.terminal ['E', 'N', 'D']] := by
  kids_simp rulesAmbiguous
theorem ambiguous_b {kids} : KidsOf gramAmbiguous ['b'] kids ↔ kids = [.terminal ['E', 'N', 'D']] := by
  kids_simp rulesAmbiguous
theorem ambiguous_start {kids} : KidsOf gramAmbiguous start kids ↔
    kids = [nd ['a'] [.terminal ['E', 'N', 'D']]] ∨ kids = [nd ['b'] [.terminal ['E', 'N', 'D']]] := by
  have h : KidsOf gramAmbiguous start kids ↔ (∃ a, kids = [nd ['a'] a] ∧ KidsOf gramAmbiguous ['a'] a) ∨
      ∃ b, kids = [nd ['b'] b] ∧ KidsOf gramAmbiguous ['b'] b := by
    kids_simp rulesAmbiguous
  rw [h]; simp [ambiguous_a, ambiguous_b]

theorem emptyAmbiguous_a {kids} : KidsOf gramEmptyAmbiguous ['a'] kids ↔ kids = [.terminal []] := by
  kids_simp rulesEmptyAmbiguous
theorem emptyAmbiguous_b {kids} : KidsOf gramEmptyAmbiguous ['b'] kids ↔ kids = [.terminal []] := by
  kids_simp rulesEmptyAmbiguous
theorem emptyAmbiguous_start {kids} : KidsOf gramEmptyAmbiguous start kids ↔
    kids = [nd ['a'] [.terminal []]] ∨ kids = [nd ['b'] [.terminal []]] := by
  have h : KidsOf gramEmptyAmbiguous start kids ↔ (∃ a, kids = [nd ['a'] a] ∧ KidsOf gramEmptyAmbiguous ['a'] a) ∨
      ∃ b, kids = [nd ['b'] b] ∧ KidsOf gramEmptyAmbiguous ['b'] b := by
    kids_simp rulesEmptyAmbiguous
  rw [h]; simp [emptyAmbiguous_a, emptyAmbiguous_b]

abbrev shortfail : Str := ['s', 'h', 'o', 'r', 't', 'f', 'a', 'i', 'l']
abbrev longsuccess : Str := ['l', 'o', 'n', 'g', 's', 'u', 'c', 'c', 'e', 's', 's']
abbrev long2 : Str := ['l', 'o', 'n', 'g', '2']
abbrev long3 : Str := ['l', 'o', 'n', 'g', '3']
abbrev long4 : Str := ['l', 'o', 'n', 'g', '4']
abbrev char' : Str := ['c', 'h', 'a', 'r']
abbrev never : Str := ['n', 'e', 'v', 'e', 'r']

theorem shared_char {kids} : KidsOf gramSharedNonterminalFailure char' kids ↔ kids = [.terminal ['a']] := by
  kids_simp rulesSharedNonterminalFailure
theorem shared_long4 {kids} : KidsOf gramSharedNonterminalFailure long4 kids ↔ kids = [nd char' [.terminal ['a']]] := by
  have h : KidsOf gramSharedNonterminalFailure long4 kids ↔ ∃ c, kids = [nd char' c] ∧ KidsOf gramSharedNonterminalFailure char' c := by
    kids_simp rulesSharedNonterminalFailure
  rw [h]; simp [shared_char]
theorem shared_long3 {kids} : KidsOf gramSharedNonterminalFailure long3 kids ↔ kids = [nd long4 [nd char' [.terminal ['a']]]] := by
  have h : KidsOf gramSharedNonterminalFailure long3 kids ↔ ∃ c, kids = [nd long4 c] ∧ KidsOf gramSharedNonterminalFailure long4 c := by
    kids_simp rulesSharedNonterminalFailure
  rw [h]; simp [shared_long4]
theorem shared_long2 {kids} : KidsOf gramSharedNonterminalFailure long2 kids ↔ kids = [nd long3 [nd long4 [nd char' [.terminal ['a']]]]] := by
  have h : KidsOf gramSharedNonterminalFailure long2 kids ↔ ∃ c, kids = [nd long3 c] ∧ KidsOf gramSharedNonterminalFailure long3 c := by
    kids_simp rulesSharedNonterminalFailure
  rw [h]; simp [shared_long3]
theorem shared_longsuccess {kids} : KidsOf gramSharedNonterminalFailure longsuccess kids ↔
    kids = [nd long2 [nd long3 [nd long4 [nd char' [.terminal ['a']]]]]] := by
  have h : KidsOf gramSharedNonterminalFailure longsuccess kids ↔ ∃ c, kids = [nd long2 c] ∧ KidsOf gramSharedNonterminalFailure long2 c := by
    kids_simp rulesSharedNonterminalFailure
  rw [h]; simp [shared_long2]
theorem shared_shortfail {kids} : KidsOf gramSharedNonterminalFailure shortfail kids ↔ kids = [nd char' [.terminal ['a']], .terminal never] := by
  have h : KidsOf gramSharedNonterminalFailure shortfail kids ↔ ∃ c, kids = [nd char' c, .terminal never] ∧
      KidsOf gramSharedNonterminalFailure char' c := by
    kids_simp rulesSharedNonterminalFailure
  rw [h]; simp [shared_char]
theorem shared_start {kids} : KidsOf gramSharedNonterminalFailure start kids ↔
    kids = [nd shortfail [nd char' [.terminal ['a']], .terminal never]] ∨
    kids = [nd longsuccess [nd long2 [nd long3 [nd long4 [nd char' [.terminal ['a']]]]]]] := by
  have h : KidsOf gramSharedNonterminalFailure start kids ↔ (∃ c, kids = [nd shortfail c] ∧ KidsOf gramSharedNonterminalFailure shortfail c) ∨
      ∃ c, kids = [nd longsuccess c] ∧ KidsOf gramSharedNonterminalFailure longsuccess c := by
    kids_simp rulesSharedNonterminalFailure
  rw [h]; simp [shared_shortfail, shared_longsuccess]

/-- A grammar whose nonterminal has the one derivation `k`. -/
theorem parse_only {g : Grammar} {n : Str} {k : List ParseTreeNode} (h : ∀ kids, KidsOf g n kids ↔ kids = k) (input : Str) (t : ParseTree) :
    IsParse g (.nonterminal n) input t ↔ t = ⟨.nonterminal n, k⟩ ∧ input = yield k := by
  rw [isParse_iff]
  simp only [h]
  constructor
  · rintro ⟨_, rfl, rfl, rfl⟩
    exact ⟨rfl, rfl⟩
  · rintro ⟨rfl, rfl⟩
    exact ⟨_, rfl, rfl, rfl⟩

end Bnf.Samples
