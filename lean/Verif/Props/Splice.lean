import Verif.Props.Text
import Verif.Props.Parsing
import Verif.Proofs.Ways
import Mathlib.SetTheory.Cardinal.Finite

/-! # C85, C86: parse trees of texts with groups and optionals -/

set_option autoImplicit false

namespace Bnf.Props
open Bnf Spec

/-! ## C85: trees -/

/-- C85: replacing every node of a generated name by its children turns the derivation trees of the parsed grammar into exactly
the trees of the text: a node for every nonterminal of the text, with the nodes of the terms of one of its alternatives below it, a
group standing for one of its alternatives, an optional for one of its alternatives or an empty terminal. -/
theorem C85_trees {F : Format} (hF : Supported F) {s pg g} (ht : GrammarText F pg s)
    (hg : Grammar.parseFrom F s = some (.ok g)) (hyg : ∀ n, UsedIn n pg → DeclaredIn n pg ∨ ∀ k, n ≠ anonName k)
    {n} (hn : DeclaredIn n pg) (w : Str) (kids : List ParseTreeNode) :
    (∃ t, IsParse g (.nonterminal n) w t ∧ splice (pg.map (·.lhs)) t.rhs = kids) ↔
      Spans pg (.term (.simple (.nonterminal n))) [.nonterminal (.nonterminal n) kids] ∧ yield kids = w := by
  obtain ⟨pg', h1, h2⟩ := (parseFrom_ok hF.regular).mp hg
  rw [grammarText_unique hF.regular ht h1] at *
  exact normalize_trees h2 (fun as ha => (text_nonempty h1 ha).2 _ rfl) hyg hn w kids

/-- C85: every tree that the iterator returns is a tree of the text once the nodes of generated names are replaced by their children. -/
theorem C85_returned {F : Format} (hF : Supported F) {s pg g} (ht : GrammarText F pg s)
    (hg : Grammar.parseFrom F s = some (.ok g)) (hyg : ∀ n, UsedIn n pg → DeclaredIn n pg ∨ ∀ k, n ≠ anonName k)
    {n} (hn : DeclaredIn n pg) {input it ts it'} (ho : Opened g (.nonterminal n) input it) (hd : Draws it ts it') :
    ∀ t ∈ ts, Spans pg (.term (.simple (.nonterminal n))) [.nonterminal (.nonterminal n) (splice (pg.map (·.lhs)) t.rhs)] :=
  fun t h => ((C85_trees hF ht hg hyg hn input _).mp ⟨t, C01_soundness ho hd t h, rfl⟩).1

/-- C85: every tree of the text that spells the input is among them, or among those returned by finitely many further calls. -/
theorem C85_eventually {F : Format} (hF : Supported F) {s pg g} (ht : GrammarText F pg s)
    (hg : Grammar.parseFrom F s = some (.ok g)) (hyg : ∀ n, UsedIn n pg → DeclaredIn n pg ∨ ∀ k, n ≠ anonName k)
    {n} (hn : DeclaredIn n pg) {input it ts it'} (ho : Opened g (.nonterminal n) input it) (hd : Draws it ts it') {kids}
    (h : Spans pg (.term (.simple (.nonterminal n))) [.nonterminal (.nonterminal n) kids]) (hy : yield kids = input) :
    ∃ more it'', Draws it' more it'' ∧ ∃ t ∈ ts ++ more, splice (pg.map (·.lhs)) t.rhs = kids := by
  obtain ⟨t, h1, h2⟩ := (C85_trees hF ht hg hyg hn input kids).mpr ⟨h, hy⟩
  obtain ⟨more, it'', h3, h4⟩ := C03_completeness ho hd h1
  exact ⟨more, it'', h3, t, h4, h2⟩

/-- The tree of "xx" in `<a> ::= ('x' | <a>) [<a>]` that takes 'x' and then `<a>`, which takes 'x' and nothing. -/
def kidsGroups : List ParseTreeNode := [.terminal ['x'], .nonterminal (.nonterminal ['a']) [.terminal ['x'], .terminal []]]

theorem kidsGroups_spans : Spans pgGroups (.term (.simple (.nonterminal ['a']))) [.nonterminal (.nonterminal ['a']) kidsGroups] := by
  have hx : Spans pgGroups (.terms [.group [[.simple (.terminal ['x'])], [.simple (.nonterminal ['a'])]],
      .optional [[.simple (.nonterminal ['a'])]]]) [.terminal ['x'], .terminal []] :=
    .cons (ns := [.terminal ['x']]) (ms := [.terminal []])
      (.group (.choose (List.mem_cons_self ..) (.cons (ns := [.terminal ['x']]) (ms := []) .terminal .nil)))
      (.cons (ns := [.terminal []]) (ms := []) .absent .nil)
  have ha := Spans.nonterminal (g := pgGroups) (p := pgGroups.head (by simp [pgGroups])) (List.mem_cons_self ..)
    (.choose (List.mem_cons_self ..) hx)
  exact .nonterminal (p := pgGroups.head (by simp [pgGroups])) (List.mem_cons_self ..) (.choose (List.mem_cons_self ..)
    (.cons (ns := [.terminal ['x']])
      (.group (.choose (List.mem_cons_self ..) (.cons (ns := [.terminal ['x']]) (ms := []) .terminal .nil)))
      (.cons (ms := []) (.present (.choose (List.mem_cons_self ..) (.cons (ms := []) ha .nil))) .nil)))

example : ∃ t, IsParse gGroups (.nonterminal ['a']) ['x', 'x'] t ∧ splice (pgGroups.map (·.lhs)) t.rhs = kidsGroups :=
  (C85_trees .bnf pgGroups_text tGroups_parse (fun n h => .inl (pgGroups_used n h)) ⟨_, List.mem_cons_self .., rfl⟩ _ _).mpr
    ⟨kidsGroups_spans, rfl⟩

/-- Splicing: generated names disappear, other nodes stay. -/
example : splice [['a']] [.nonterminal (.nonterminal ['_']) [.terminal ['x']], .nonterminal (.nonterminal ['a']) [.terminal ['y']]] =
    [.terminal ['x'], .nonterminal (.nonterminal ['a']) [.terminal ['y']]] := by simp [splice, spliceNode]

/-! ## C86: no more and no fewer trees than ways -/

/-- C86: the returned trees belong to pairwise different ways to derive the input from the text. -/
theorem C86_different_ways {F : Format} (hF : Supported F) {s pg g} (ht : GrammarText F pg s)
    (hg : Grammar.parseFrom F s = some (.ok g)) (hyg : ∀ n, UsedIn n pg → DeclaredIn n pg ∨ ∀ k, n ≠ anonName k)
    {n} (hn : DeclaredIn n pg) {input it ts it'} (ho : Opened g (.nonterminal n) input it) (hd : Draws it ts it') :
    ∃ ws : List Choices, ws.Nodup ∧ List.Forall₂ (WayOf pg n) ws ts := by
  obtain ⟨pg', h1, h2⟩ := (parseFrom_ok hF.regular).mp hg
  rw [grammarText_unique hF.regular ht h1] at *
  exact draws_ways_now h2 (fun as ha => (text_nonempty h1 ha).2 _ rfl) hyg hn ho hd

/-- C86: any finitely many ways to derive the input get their trees within finitely many calls. -/
theorem C86_every_way {F : Format} (hF : Supported F) {s pg g} (ht : GrammarText F pg s)
    (hg : Grammar.parseFrom F s = some (.ok g)) (hyg : ∀ n, UsedIn n pg → DeclaredIn n pg ∨ ∀ k, n ≠ anonName k)
    {n} (hn : DeclaredIn n pg) {input it ts it'} (ho : Opened g (.nonterminal n) input it) (hd : Draws it ts it') {xs : List Choices}
    (hx : ∀ x ∈ xs, ∃ kids, IsWay pg [.simple (.nonterminal n)] [x] [.nonterminal (.nonterminal n) kids] ∧ yield kids = input) :
    ∃ more it'' ws, Draws it' more it'' ∧ ws.Nodup ∧ List.Forall₂ (WayOf pg n) ws (ts ++ more) ∧ ∀ x ∈ xs, x ∈ ws := by
  obtain ⟨pg', h1, h2⟩ := (parseFrom_ok hF.regular).mp hg
  rw [grammarText_unique hF.regular ht h1] at *
  exact draws_ways h2 (fun as ha => (text_nonempty h1 ha).2 _ rfl) hyg hn ho hd hx

/-- C86: when the iterator is exhausted it has returned exactly one tree for each way to derive the input from the text. -/
theorem C86_exhausted {F : Format} (hF : Supported F) {s pg g} (ht : GrammarText F pg s)
    (hg : Grammar.parseFrom F s = some (.ok g)) (hyg : ∀ n, UsedIn n pg → DeclaredIn n pg ∨ ∀ k, n ≠ anonName k)
    {n} (hn : DeclaredIn n pg) {input it ts it' it''} (ho : Opened g (.nonterminal n) input it) (hd : Draws it ts it')
    (hx : Next it' none it'') :
    ∃ ws : List Choices, ws.Nodup ∧ List.Forall₂ (WayOf pg n) ws ts ∧
      ∀ x, x ∈ ws ↔ ∃ kids, IsWay pg [.simple (.nonterminal n)] [x] [.nonterminal (.nonterminal n) kids] ∧ yield kids = input := by
  obtain ⟨ws, h1, h2⟩ := C86_different_ways hF ht hg hyg hn ho hd
  have hall : ∀ x ∈ ws, ∃ kids, IsWay pg [.simple (.nonterminal n)] [x] [.nonterminal (.nonterminal n) kids] ∧ yield kids = input := by
    intro x hxm
    obtain ⟨t, ht1, ht2⟩ := forall₂_mem_left h2 hxm
    exact ⟨_, ht2, by rw [yield_splice]; exact (C01_soundness ho hd t ht1).spells⟩
  refine ⟨ws, h1, h2, fun x => ⟨hall x, fun hxw => ?_⟩⟩
  by_contra hnot
  obtain ⟨more, it3, ws', h3, h4, h5, h6⟩ := C86_every_way hF ht hg hyg hn ho hd (xs := x :: ws) (by
    intro y hy
    rcases List.mem_cons.mp hy with rfl | hy
    · exact hxw
    · exact hall y hy)
  have hmore : more = [] := by
    cases h3 with
    | nil => rfl
    | cons hnx _ => exact absurd (hnx.det hx).1 (by simp)
  subst hmore
  rw [List.append_nil] at h5
  have h7 : (x :: ws).Nodup := List.nodup_cons.mpr ⟨hnot, h1⟩
  have h8 := (h7.subperm (l₂ := ws') fun y hy => h6 y hy).length_le
  have h9 := h2.length_eq
  have h10 := h5.length_eq
  simp only [List.length_cons] at h8
  omega

/-- C86: the number of returned trees is then the number of ways. -/
theorem C86_count {F : Format} (hF : Supported F) {s pg g} (ht : GrammarText F pg s)
    (hg : Grammar.parseFrom F s = some (.ok g)) (hyg : ∀ n, UsedIn n pg → DeclaredIn n pg ∨ ∀ k, n ≠ anonName k)
    {n} (hn : DeclaredIn n pg) {input it ts it' it''} (ho : Opened g (.nonterminal n) input it) (hd : Draws it ts it')
    (hx : Next it' none it'') :
    ts.length = Nat.card {x : Choices // ∃ kids, IsWay pg [.simple (.nonterminal n)] [x] [.nonterminal (.nonterminal n) kids] ∧ yield kids = input} := by
  obtain ⟨ws, h1, h2, h3⟩ := C86_exhausted hF ht hg hyg hn ho hd hx
  rw [Nat.subtype_card (⟨Multiset.ofList ws, h1⟩ : Finset Choices) (fun x => h3 x), ← h2.length_eq]
  rfl

/-! `<a> ::= 'x' ['']`: "x" can be derived in two ways. -/

def pgTwo : ParsedGrammar := [⟨['a'], [[.simple (.terminal ['x']), .optional [[.simple (.terminal [])]]]]⟩]
def tTwo : Str := ['<', 'a', '>', ' ', ':', ':', '=', ' ', '\'', 'x', '\'', ' ', '[', '\'', '\'', ']']
def gTwo : Grammar := ⟨[⟨.nonterminal ['a'], [⟨[.terminal ['x'], .nonterminal ['_', '_', 'a', 'n', 'o', 'n', '0']]⟩]⟩,
  ⟨.nonterminal ['_', '_', 'a', 'n', 'o', 'n', '0'], [⟨[.terminal []]⟩, ⟨[.terminal []]⟩]⟩]⟩
def tree2 : ParseTree := ⟨.nonterminal ['a'], [.terminal ['x'], .nonterminal (.nonterminal ['_', '_', 'a', 'n', 'o', 'n', '0']) [.terminal []]]⟩

theorem pgTwo_text : GrammarText BNF pgTwo tTwo := parsedGrammarComplete_sound BNF_regular (n := 100) (r := []) (by rfl)
theorem tTwo_parse : Grammar.parseFrom BNF tTwo = some (.ok gTwo) := by rfl
theorem pgTwo_used : ∀ n, ¬ UsedIn n pgTwo := by
  rintro n ⟨p, hp, hw⟩
  simp only [pgTwo, List.mem_singleton] at hp
  subst hp
  cases hw with
  | alts h1 h2 =>
    simp only [List.mem_singleton] at h1; subst h1
    cases h2 with
    | terms h3 h4 =>
      simp only [List.mem_cons, List.not_mem_nil, or_false] at h3
      rcases h3 with rfl | rfl
      · cases h4
      · cases h4 with
        | optional h5 =>
          cases h5 with
          | alts h6 h7 =>
            simp only [List.mem_singleton] at h6; subst h6
            cases h7 with
            | terms h8 h9 => simp only [List.mem_singleton] at h8; subst h8; cases h9

/-- The iterator returns the same tree twice, once for each way. -/
example : ∃ it it' it'', Opened gTwo (.nonterminal ['a']) ['x'] it ∧ Draws it [tree2, tree2] it' ∧ Next it' none it'' :=
  ⟨_, _, _, .deprecatedStarting rfl, .cons ⟨100, rfl⟩ (.cons ⟨100, rfl⟩ .nil), ⟨100, rfl⟩⟩

example : WayOf pgTwo ['a'] (.node 0 0 [.leaf, .absent]) tree2 ∧ WayOf pgTwo ['a'] (.node 0 0 [.leaf, .chosen 0 [.leaf]]) tree2 := by
  have h : splice (pgTwo.map (·.lhs)) tree2.rhs = [.terminal ['x'], .terminal []] := by simp [tree2, splice, spliceNode, pgTwo]
  unfold WayOf
  rw [h]
  exact ⟨.nonterminal (p := pgTwo.head (by simp [pgTwo])) rfl rfl (.terminal (.absent .nil)) .nil,
    .nonterminal (p := pgTwo.head (by simp [pgTwo])) rfl rfl (.terminal (.present (j := 0) (ks := [.terminal []]) rfl (.terminal .nil) .nil)) .nil⟩

example : Nat.card {x : Choices // ∃ kids, IsWay pgTwo [.simple (.nonterminal ['a'])] [x] [.nonterminal (.nonterminal ['a']) kids] ∧ yield kids = ['x']} = 2 :=
  (C86_count (ts := [tree2, tree2]) .bnf pgTwo_text tTwo_parse (fun n h => absurd h (pgTwo_used n)) ⟨_, List.mem_cons_self .., rfl⟩
    (.deprecatedStarting rfl) (.cons ⟨100, rfl⟩ (.cons ⟨100, rfl⟩ .nil)) ⟨100, rfl⟩).symm

end Bnf.Props
