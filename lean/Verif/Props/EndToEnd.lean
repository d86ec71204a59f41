import Verif.Proofs.EndToEnd
import Verif.Proofs.Parts
import Verif.Props.Text
import Verif.Props.Validation
import Verif.Props.Generate

/-! # Properties C55–C57: from the text of a grammar to parse results; parts of parse trees; unreachable productions -/

set_option autoImplicit false

namespace Bnf.Props
open Bnf Spec

/-! ## C55: from text to parser -/

/-- C55: `build_parser()` succeeds on a parsed text exactly when every nonterminal used in the text is declared in it (unless an
undeclared one is called `__anonN`, see C31). -/
theorem C55_builds_iff {F : Format} (hF : Supported F) {s pg g} (ht : GrammarText F pg s)
    (hg : Grammar.parseFrom F s = some (.ok g)) (hyg : ∀ n, UsedIn n pg → DeclaredIn n pg ∨ ∀ k, n ≠ anonName k)
    (ord : List Str → List Str) (hord : ∀ l, (ord l).Perm l) :
    (∃ p, g.buildParser ord = .ok p) ↔ ∀ n, UsedIn n pg → DeclaredIn n pg := by
  obtain ⟨pg', h1, h2⟩ := (parseFrom_ok hF.regular).mp hg
  rw [grammarText_unique hF.regular ht h1] at *
  rw [C14_build_parser_ok_iff ord hord]
  constructor
  · rintro ⟨_, h⟩ n hu
    obtain ⟨e, p, hp, hl, he⟩ := h n ((normalize_references h2 n).1 hu)
    rcases hyg n hu with hd | hk
    · exact hd
    · by_cases hd : DeclaredIn n pg'
      · exact hd
      · exact absurd hl (C31_hygiene_partial hF h1 hg hd hk p hp)
  · intro h
    refine ⟨(C25_well_formed hF hg).1, fun n hr => ?_⟩
    rcases (normalize_references h2 n).2 hr with hu | ⟨_, _, hd⟩
    · obtain ⟨q, hq, hl⟩ := h n hu
      obtain ⟨user, anon, e1, e2, _⟩ := C30_fresh_names hF h1 hg
      have : (Term.nonterminal q.lhs, q.rhs.length) ∈ user.map (fun p => (p.lhs, p.rhs.length)) := by
        rw [e2]; exact List.mem_map.mpr ⟨q, hq, rfl⟩
      obtain ⟨p, hp, hpe⟩ := List.mem_map.mp this
      have hp' : p ∈ g.productions := by rw [e1]; exact List.mem_append_left _ hp
      obtain ⟨e, he⟩ := List.exists_mem_of_ne_nil _ ((C25_well_formed hF hg).2 p hp').2.1
      exact ⟨e, p, hp', by rw [← hl]; exact (Prod.ext_iff.mp hpe).1, he⟩
    · exact hd

/-- The starting term of a parsed text is the nonterminal it declares first. -/
theorem text_start {F : Format} (hF : Supported F) {s pg g} (ht : GrammarText F pg s)
    (hg : Grammar.parseFrom F s = some (.ok g)) : ∃ first rest, pg = first :: rest ∧
      g.startingTerm = some (.nonterminal first.lhs) := by
  obtain ⟨user, anon, e1, e2, _⟩ := C30_fresh_names hF ht hg
  obtain ⟨s1, _, hp⟩ := ht
  cases hp with
  | one _ =>
    cases user with
    | nil => cases e2
    | cons u us => exact ⟨_, _, rfl, by simp [Grammar.startingTerm, e1]; simp at e2; exact e2.1.1⟩
  | more _ _ =>
    cases user with
    | nil => cases e2
    | cons u us => exact ⟨_, _, rfl, by simp [Grammar.startingTerm, e1]; simp at e2; exact e2.1.1⟩

/-- C55: for a text in which every used nonterminal is declared, the parser built from it finds a parse of an input from a
declared nonterminal exactly when the text, read with groups as choices and optionals as choices or nothing, produces the
input from that nonterminal. -/
theorem C55_membership {F : Format} (hF : Supported F) {s pg g} (ht : GrammarText F pg s)
    (hg : Grammar.parseFrom F s = some (.ok g)) (hall : ∀ n, UsedIn n pg → DeclaredIn n pg) {n} (hn : DeclaredIn n pg)
    (ord : List Str → List Str) (hord : ∀ l, (ord l).Perm l) (input : Str) :
    ∃ p it, g.buildParser ord = .ok p ∧ p.parseInputStartingWith input (.nonterminal n) = some it ∧
      ((∃ t it', Next it (some t) it') ↔ Means pg (.term (.simple (.nonterminal n))) input) := by
  obtain ⟨p, hp⟩ := (C55_builds_iff hF ht hg (fun n hu => .inl (hall n hu)) ord hord).mpr hall
  obtain ⟨it, h3, _⟩ := new_inv (buildParser_ok hp).2 input (.nonterminal n)
  have h4 : p.parseInputStartingWith input (.nonterminal n) = some it := h3
  refine ⟨p, it, hp, h4, ?_⟩
  have ho : Opened g (.nonterminal n) input it := .parserStarting hp h4
  rw [← C29_language hF ht hg (fun n hu => .inl (hall n hu)) hn]
  constructor
  · rintro ⟨t, it', h⟩; exact C05_some_first ho h
  · intro h
    obtain ⟨t, it', h, _⟩ := C03_first_call_returns ho h
    exact ⟨t, it', h⟩

/-- C55 from the public entry points: text to grammar by `from_str` (with format detection), grammar to parser by `build_parser`, and
`parse_input` from the nonterminal declared first. -/
theorem C55_from_str {f : Char → Bool} (hf : AlphabeticTable f) {s g} (h : Grammar.fromStr f s = some (.ok g)) :
    ∃ F pg first rest, (F = BNF ∨ F = ABNF f) ∧ GrammarText F pg s ∧ pg = first :: rest ∧
      ((∀ n, UsedIn n pg → DeclaredIn n pg) → ∀ ord : List Str → List Str, (∀ l, (ord l).Perm l) →
        ∃ p, g.buildParser ord = .ok p ∧ ∀ input, ∃ it, p.parseInput input = some it ∧
          ((∃ t it', Next it (some t) it') ↔ Means pg (.term (.simple (.nonterminal first.lhs))) input)) := by
  have hF : ∃ F, Supported F ∧ (F = BNF ∨ F = ABNF f) ∧ Grammar.parseFrom F s = some (.ok g) := by
    rw [fromStr_eq] at h
    split at h
    · exact ⟨_, .bnf, .inl rfl, h⟩
    · exact ⟨_, .abnf hf, .inr rfl, h⟩
  obtain ⟨F, hF, hF', hg⟩ := hF
  obtain ⟨pg, ht, _⟩ := (C23_accepted_texts hF s g).mp hg
  obtain ⟨first, rest, e, hs⟩ := text_start hF ht hg
  refine ⟨F, pg, first, rest, hF', ht, e, fun hall ord hord => ?_⟩
  have hn : DeclaredIn first.lhs pg := ⟨first, by rw [e]; exact List.mem_cons_self .., rfl⟩
  obtain ⟨p, it, hp, _⟩ := C55_membership hF ht hg hall hn ord hord []
  refine ⟨p, hp, fun input => ?_⟩
  obtain ⟨p', it, hp', hi, hiff⟩ := C55_membership hF ht hg hall hn ord hord input
  rw [hp] at hp'; injection hp' with hp'; subst hp'
  refine ⟨it, ?_, hiff⟩
  have := (buildParser_ok hp).1
  rw [hs] at this; injection this with this
  unfold GrammarParser.parseInput
  rw [← this]; exact hi

/-- C55: every sentence generated from a text in which every used nonterminal is declared is one that the text means. -/
theorem C55_generated {F : Format} (hF : Supported F) {s pg g} (ht : GrammarText F pg s)
    (hg : Grammar.parseFrom F s = some (.ok g)) (hall : ∀ n, UsedIn n pg → DeclaredIn n pg) {w} (h : Generated g w) :
    ∃ first rest, pg = first :: rest ∧ Means pg (.term (.simple (.nonterminal first.lhs))) w := by
  obtain ⟨first, rest, e, hs⟩ := text_start hF ht hg
  refine ⟨first, rest, e, ?_⟩
  have hn : DeclaredIn first.lhs pg := ⟨first, by rw [e]; exact List.mem_cons_self .., rfl⟩
  rw [← C29_language hF ht hg (fun n hu => .inl (hall n hu)) hn]
  obtain ⟨p, hp⟩ := (C55_builds_iff hF ht hg (fun n hu => .inl (hall n hu)) id (fun l => .refl l)).mpr hall
  have hok := (C14_build_parser_ok_iff id (fun l => .refl l) g).1 ⟨p, hp⟩
  obtain ⟨start, h1, h2⟩ := C34_generated_derivable (g := g) (fun n hn => by
    obtain ⟨e, q, hq, hl, _⟩ := hok.2 n hn; exact ⟨q, hq, hl⟩) h
  rw [hs] at h1; injection h1 with h1
  rw [h1]; exact h2

/-- The hypotheses hold for `<a> ::= ('x' | <a>) [<a>]`. -/
example : ∃ g, Grammar.fromStr Char.isAlpha tGroups = some (.ok g) ∧ GrammarText BNF pgGroups tGroups ∧
    (∀ n, UsedIn n pgGroups → DeclaredIn n pgGroups) ∧ Means pgGroups (.term (.simple (.nonterminal ['a']))) ['x'] := by
  refine ⟨gGroups, fromStr_of_BNF tGroups_parse, pgGroups_text, pgGroups_used, ?_⟩
  · exact .nonterminal (p := pgGroups.head (by simp [pgGroups])) (List.mem_cons_self ..) (.choose (List.mem_cons_self ..)
      (.cons (v := ['x']) (w := []) (.group (.choose (List.mem_cons_self ..) (.cons (v := ['x']) (w := []) .terminal .nil)))
        (.cons (v := []) (w := []) .absent .nil)))

/-! ## C56: parts of parse trees -/

/-- The children of the tree `s(s(x), s())`. -/
def ambPair : List ParseTreeNode :=
  [.nonterminal (.nonterminal ['s']) [.terminal ['x']], .nonterminal (.nonterminal ['s']) [.terminal []]]

theorem ambPair_parse : IsParse gAmb (.nonterminal ['s']) ['x'] ⟨.nonterminal ['s'], ambPair⟩ := by
  have h : ∀ e ∈ gAmb.productions[0].rhs, HasAlt gAmb (.nonterminal ['s']) e := fun e he => ⟨_, List.mem_cons_self, rfl, he⟩
  exact ⟨rfl, ⟨⟨[.nonterminal ['s'], .nonterminal ['s']]⟩, h _ (by simp [gAmb]), .nonterminal (h ⟨[.terminal ['x']]⟩ (by simp [gAmb]))
    (.terminal .nil) (.nonterminal (h ⟨[.terminal []]⟩ (by simp [gAmb])) (.terminal .nil) .nil)⟩, rfl⟩

/-- C56: every inner node of a returned tree is itself returned when the text it spells is parsed from its label. -/
theorem C56_subtrees_are_parses {g S input it ts it'} (ho : Opened g S input it) (hd : Draws it ts it') {t} (ht : t ∈ ts) {l kids}
    (hs : NodeIn (.nonterminal l kids) t.rhs) {it2} (ho2 : Opened g l (yield kids) it2) :
    ∃ us it3, Draws it2 us it3 ∧ (⟨l, kids⟩ : ParseTree) ∈ us := by
  obtain ⟨_, ⟨e, _, hf⟩, _⟩ := C01_soundness ho hd t ht
  obtain ⟨us, it3, h1, h2⟩ := C03_completeness ho2 .nil (t := ⟨l, kids⟩) ⟨rfl, nodeIn_isTree hs hf, rfl⟩
  exact ⟨us, it3, h1, by simpa using h2⟩

/-- C56: a node of a returned tree can be exchanged for any other parse of the same text from the same label; the result is returned
as well.  So the ambiguities of different parts of an input combine freely. -/
theorem C56_exchange {g S input it ts it'} (ho : Opened g S input it) (hd : Draws it ts it') {t} (ht : t ∈ ts) {l k k' rhs'}
    (hs : Replaced (.nonterminal l k) (.nonterminal l k') t.rhs rhs') {it2 us it3} (ho2 : Opened g l (yield k) it2)
    (hd2 : Draws it2 us it3) (hk : (⟨l, k'⟩ : ParseTree) ∈ us) :
    ∃ more it'', Draws it' more it'' ∧ (⟨t.lhs, rhs'⟩ : ParseTree) ∈ ts ++ more := by
  obtain ⟨hr, ⟨e, ha, hf⟩, hy⟩ := C01_soundness ho hd t ht
  obtain ⟨_, hk2, hk3⟩ := C01_soundness ho2 hd2 _ hk
  obtain ⟨h1, h2⟩ := replaced_forest hs hk2 hk3 hf
  exact C03_completeness ho hd ⟨hr, ⟨e, ha, h1⟩, by simp only; rw [h2, hy]⟩

/-- The inner `<e>` of the parse tree of "é+y". -/
example : ∃ it it' it2, Opened gExp (.nonterminal ['e']) ['é', '+', 'y'] it ∧ Draws it [tExp] it' ∧
    NodeIn (.nonterminal (.nonterminal ['e']) [tyLeaf 'é']) tExp.rhs ∧ Opened gExp (.nonterminal ['e']) (yield [tyLeaf 'é']) it2 :=
  ⟨_, _, _, .deprecatedStarting rfl, .cons ⟨100, rfl⟩ .nil, .here, .deprecatedStarting rfl⟩

/-- In `gAmb` the tree `s(s(x), s())` of "x" gives `s(s(s(x), s()), s())` by exchanging `s(x)`. -/
example : ∃ it ts it' it2 us it3, Opened gAmb (.nonterminal ['s']) ['x'] it ∧ Draws it ts it' ∧ (⟨.nonterminal ['s'], ambPair⟩ : ParseTree) ∈ ts ∧
    Replaced (.nonterminal (.nonterminal ['s']) [.terminal ['x']]) (.nonterminal (.nonterminal ['s']) ambPair) ambPair
      [.nonterminal (.nonterminal ['s']) ambPair, .nonterminal (.nonterminal ['s']) [.terminal []]] ∧
    Opened gAmb (.nonterminal ['s']) (yield [.terminal ['x']]) it2 ∧ Draws it2 us it3 ∧ (⟨.nonterminal ['s'], ambPair⟩ : ParseTree) ∈ us := by
  obtain ⟨it, ho⟩ := opened_of (g := gAmb) (S := .nonterminal ['s']) (input := ['x']) (by simp [gAmb])
  obtain ⟨ts, it', h1, h2⟩ := C03_completeness ho .nil ambPair_parse
  exact ⟨it, ts, it', it, ts, it', ho, h1, by simpa using h2, .here, ho, h1, by simpa using h2⟩

/-! ## C57: only reachable productions matter -/

/-- C57: productions for nonterminals that cannot be reached from the starting term have no influence on the trees. -/
theorem C57_unreachable {g g' : Grammar} {S : Term} (h : ∀ l, Reachable g S l → ∀ e, HasAlt g l e ↔ HasAlt g' l e) {input it it'}
    (ho : Opened g S input it) (ho' : Opened g' S input it') (t : ParseTree) :
    (∃ ts it1, Draws it ts it1 ∧ t ∈ ts) ↔ (∃ ts it1, Draws it' ts it1 ∧ t ∈ ts) := by
  constructor
  · rintro ⟨ts, it1, hd, ht⟩
    obtain ⟨more, it2, hd2, hm⟩ := C03_completeness ho' .nil ((isParse_agree h).mp (C01_soundness ho hd t ht))
    exact ⟨more, it2, hd2, by simpa using hm⟩
  · rintro ⟨ts, it1, hd, ht⟩
    obtain ⟨more, it2, hd2, hm⟩ := C03_completeness ho .nil ((isParse_agree h).mpr (C01_soundness ho' hd t ht))
    exact ⟨more, it2, hd2, by simpa using hm⟩

/-- `gExp` with and without `<e>`, parsed from `<t>`. -/
example : ∀ l, Reachable gExp (.nonterminal ['t']) l → ∀ e, HasAlt gExp l e ↔ HasAlt ⟨gExp.productions.tail⟩ l e := by
  have hl : ∀ l, Reachable gExp (.nonterminal ['t']) l → l ≠ .nonterminal ['e'] := by
    intro l h
    induction h with
    | start => simp
    | step hr ha ht ih =>
      obtain ⟨p, hp, rfl, he⟩ := ha
      simp only [gExp, List.mem_cons, List.not_mem_nil, or_false] at hp
      rcases hp with rfl | rfl
      · exact absurd rfl ih
      · simp at he
        rcases he with rfl | rfl <;> simp at ht <;> subst ht <;> simp
  intro l h e
  constructor
  · rintro ⟨p, hp, rfl, he⟩
    simp only [gExp, List.mem_cons, List.not_mem_nil, or_false] at hp
    rcases hp with rfl | rfl
    · exact absurd rfl (hl _ h)
    · exact ⟨_, by simp [gExp], rfl, he⟩
  · rintro ⟨p, hp, rfl, he⟩
    exact ⟨p, List.mem_of_mem_tail hp, rfl, he⟩

end Bnf.Props
