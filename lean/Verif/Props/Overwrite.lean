import Verif.Proofs.Overwrite
import Verif.Props.Parsing
import Verif.Props.Generate
import Verif.Props.Validation
import Verif.Chars

/-! # Property C126: overwriting the terminals of a grammar through the mutable iterators -/

set_option autoImplicit false

namespace Bnf.Props
open Bnf Spec

/-- C126: what the loop does to the grammar: left-hand sides, numbers and positions of alternatives and terms, and nonterminals stay; every terminal is replaced. -/
theorem C126_loop (f : Str → Term) (g : Grammar) : List.Forall₂ (fun p p' => p'.lhs = p.lhs ∧ List.Forall₂ (fun e e' =>
    List.Forall₂ (fun t t' => (∀ u, t = .terminal u → t' = f u) ∧ ∀ n, t = .nonterminal n → t' = t) e.terms e'.terms) p.rhs p'.rhs)
    g.productions (g.overwriteTerminals f).productions := by
  rw [overwrite_eq]
  rw [List.forall₂_map_right_iff, List.forall₂_same]
  intro p _
  refine ⟨rfl, ?_⟩
  rw [List.forall₂_map_right_iff, List.forall₂_same]
  intro e _
  rw [List.forall₂_map_right_iff, List.forall₂_same]
  intro t _
  constructor
  · rintro u rfl; rfl
  · rintro n rfl; rfl

/-- C126: substitution. If the terminals are overwritten by terminals or by nonterminals that another grammar defines, and that grammar is added behind, then exactly
the texts are derived that come from a derivation tree of the old grammar by putting, for each leaf, a text of what it was overwritten by. -/
theorem C126_substitution {f : Str → Term} {g g₂ : Grammar} (hs : Separate f g g₂) {S : Term} (hS : ¬ Defines g₂ S) (w : Str) :
    Derives (behind (g.overwriteTerminals f) g₂) S w ↔ ∃ t, IsTree g t ∧ t.lhs = S ∧
      ∃ ws : List Str, List.Forall₂ (fun u v => SeqSpells g₂ [f u] v) (leaves t.rhs) ws ∧ ws.flatten = w := by
  constructor
  · rintro ⟨t, rfl, ⟨e', ha, hf⟩, rfl⟩
    rcases behind_alt.mp ha with ha | ha
    · obtain ⟨e, ha0, rfl⟩ := overwrite_alt.mp ha
      obtain ⟨ns, h1, h2⟩ := forest_replaced hs hf e.terms rfl fun t ht => mentions_of_alt ha0 ht
      exact ⟨⟨t.lhs, ns⟩, ⟨e, ha0, h1⟩, rfl, h2⟩
    · exact absurd (defines_of_alt ha) hS
  · rintro ⟨t, ⟨e, ha, hf⟩, rfl, ws, hw, rfl⟩
    obtain ⟨ns, h1, h2⟩ := forest_filled hf ws hw
    exact ⟨⟨t.lhs, ns⟩, rfl, ⟨_, behind_alt.mpr (.inl (overwrite_alt.mpr ⟨e, ha, rfl⟩)), h1⟩, h2.symm⟩

/-- C126: terminals for terminals: the derivation trees are the old ones with other leaves. -/
theorem C126_trees (k : Str → Str) (g : Grammar) (S : Term) (w : Str) (t' : ParseTree) :
    IsParse (g.overwriteTerminals fun u => .terminal (k u)) S w t' ↔
      ∃ t, IsTree g t ∧ t.lhs = S ∧ t' = treeWith k t ∧ ((leaves t.rhs).map k).flatten = w := by
  constructor
  · rintro ⟨rfl, ⟨e', ha, hf⟩, rfl⟩
    obtain ⟨e, ha, rfl⟩ := overwrite_alt.mp ha
    obtain ⟨ns, h1, h2⟩ := forest_without hf e.terms rfl
    obtain ⟨l, rhs⟩ := t'
    dsimp only at h2 ha
    subst h2
    exact ⟨⟨l, ns⟩, ⟨e, ha, h1⟩, rfl, rfl, (yield_with ns).symm⟩
  · rintro ⟨t, ⟨e, ha, hf⟩, rfl, rfl, rfl⟩
    exact ⟨rfl, ⟨_, overwrite_alt.mpr ⟨e, ha, rfl⟩, forest_with hf⟩, yield_with t.rhs⟩

/-- C126: the parser returns exactly these. -/
theorem C126_returned {k : Str → Str} {g S w it} (ho : Opened (g.overwriteTerminals fun u => .terminal (k u)) S w it) (t' : ParseTree) :
    (∃ ts it', Draws it ts it' ∧ t' ∈ ts) ↔ ∃ t, IsTree g t ∧ t.lhs = S ∧ t' = treeWith k t ∧ ((leaves t.rhs).map k).flatten = w := by
  rw [← C126_trees]
  constructor
  · rintro ⟨ts, it', hd, ht⟩
    exact C01_soundness ho hd t' ht
  · intro h
    obtain ⟨ts, it', h1, h2⟩ := C03_completeness ho .nil h
    exact ⟨ts, it', h1, by simpa using h2⟩

/-- C126: if the replacement is made character by character, the texts derived are the old ones with the characters replaced. -/
theorem C126_characters (c : Char → Str) (g : Grammar) (S : Term) (w : Str) :
    Derives (g.overwriteTerminals fun u => .terminal (u.flatMap c)) S w ↔ ∃ v, Derives g S v ∧ v.flatMap c = w := by
  have key : ∀ us : List Str, (us.map fun u => u.flatMap c).flatten = us.flatten.flatMap c := by
    intro us
    induction us with
    | nil => rfl
    | cons u us ih => simp [ih]
  constructor
  · rintro ⟨t', h⟩
    obtain ⟨t, h1, h2, _, h3⟩ := (C126_trees _ g S w t').mp h
    exact ⟨yield t.rhs, ⟨t, h2, h1, rfl⟩, by rw [yield_leaves, ← key, h3]⟩
  · rintro ⟨v, ⟨t, h1, h2, rfl⟩, rfl⟩
    exact ⟨treeWith _ t, (C126_trees _ g S _ _).mpr ⟨t, h2, h1, rfl, by rw [key, ← yield_leaves]⟩⟩

/-- C126: parsers can be built from the new grammar if they can be built from the old one, and `terminates` gives the same answer. -/
theorem C126_same_answers (k : Str → Str) (g : Grammar) : (g.overwriteTerminals fun u => .terminal (k u)).terminates = g.terminates ∧
    ∀ ord : List Str → List Str, (∀ l, (ord l).Perm l) →
      ((∃ p, (g.overwriteTerminals fun u => .terminal (k u)).buildParser ord = .ok p) ↔ ∃ p, g.buildParser ord = .ok p) := by
  have hnil : (g.overwriteTerminals fun u => .terminal (k u)).productions = [] ↔ g.productions = [] := by
    rw [overwrite_eq]; simp
  have hstart : (g.overwriteTerminals fun u => .terminal (k u)).startingTerm = g.startingTerm := by
    rw [overwrite_eq]
    unfold Grammar.startingTerm
    cases g.productions <;> rfl
  constructor
  · obtain ⟨b, h1, h2⟩ := C33_terminates_iff g
    obtain ⟨b', h1', h2'⟩ := C33_terminates_iff (g.overwriteTerminals fun u => .terminal (k u))
    rw [h1, h1', Option.some.injEq, Bool.eq_iff_iff, h2, h2', hnil, hstart]
    refine or_congr Iff.rfl ⟨?_, ?_⟩
    · rintro ⟨S, w, hS, t', h⟩
      obtain ⟨t, h3, h4, _⟩ := (C126_trees k g S w t').mp h
      exact ⟨S, _, hS, t, h4, h3, rfl⟩
    · rintro ⟨S, w, hS, t, h3, h4, _⟩
      exact ⟨S, _, hS, treeWith k t, (C126_trees k g S _ _).mpr ⟨t, h4, h3, rfl, rfl⟩⟩
  · intro ord hord
    rw [C14_build_parser_ok_iff ord hord, C14_build_parser_ok_iff ord hord]
    have hr : ∀ n, Referenced (g.overwriteTerminals fun u => .terminal (k u)) n ↔ Referenced g n := by
      intro n
      constructor
      · rintro ⟨l, e', ha, hn⟩
        obtain ⟨e, ha0, rfl⟩ := overwrite_alt.mp ha
        obtain ⟨t, ht, h⟩ := List.mem_map.mp hn
        cases t with
        | terminal u => cases h
        | nonterminal m => cases h; exact ⟨l, e, ha0, ht⟩
      · rintro ⟨l, e, ha, hn⟩
        exact ⟨l, _, overwrite_alt.mpr ⟨e, ha, rfl⟩, List.mem_map.mpr ⟨_, hn, rfl⟩⟩
    have hd : ∀ n, Defined (g.overwriteTerminals fun u => .terminal (k u)) n ↔ Defined g n := by
      intro n
      constructor
      · rintro ⟨e', ha⟩
        obtain ⟨e, ha0, rfl⟩ := overwrite_alt.mp ha
        exact ⟨e, ha0⟩
      · rintro ⟨e, ha⟩
        exact ⟨_, overwrite_alt.mpr ⟨e, ha, rfl⟩⟩
    simp only [hr, hd, ne_eq, hnil]

/-- C126: `mutably_iterate_grammar` in `tests/iterate.rs`, for every grammar: after the loop all terminals are "Z". What is then derived are the texts ZZ…Z with as many
Zs as a derivation tree of the old grammar has leaves. -/
theorem C126_test (g : Grammar) : (∀ T e u, HasAlt (g.overwriteTerminals fun _ => .terminal ['Z']) T e → .terminal u ∈ e.terms → u = ['Z']) ∧
    ∀ S w, Derives (g.overwriteTerminals fun _ => .terminal ['Z']) S w ↔
      ∃ t, IsTree g t ∧ t.lhs = S ∧ w = List.replicate (leaves t.rhs).length 'Z' := by
  constructor
  · intro T e' u ha hu
    obtain ⟨e, ha, rfl⟩ := overwrite_alt.mp ha
    obtain ⟨t, ht, h⟩ := List.mem_map.mp hu
    cases t with
    | terminal v => cases h; rfl
    | nonterminal m => cases h
  · have key : ∀ us : List Str, (us.map fun _ => ['Z']).flatten = List.replicate us.length 'Z' := by
      intro us
      induction us with
      | nil => rfl
      | cons u us ih => simp [List.replicate_succ]
    intro S w
    constructor
    · rintro ⟨t', h⟩
      obtain ⟨t, h1, h2, _, h3⟩ := (C126_trees _ g S w t').mp h
      exact ⟨t, h1, h2, by rw [← h3, key]⟩
    · rintro ⟨t, h1, h2, rfl⟩
      exact ⟨treeWith (fun _ => ['Z']) t, (C126_trees _ g S _ _).mpr ⟨t, h1, h2, rfl, key _⟩⟩

/-! ## Examples -/

/-- `<s> ::= 'a' <s> | 'b'`. -/
def gAsB : Grammar := ⟨[⟨.nonterminal ['s'], [⟨[.terminal ['a'], .nonterminal ['s']]⟩, ⟨[.terminal ['b']]⟩]⟩]⟩
/-- `<x> ::= '1' | '22'`. -/
def gItems : Grammar := ⟨[⟨.nonterminal ['x'], [⟨[.terminal ['1']]⟩, ⟨[.terminal ['2', '2']]⟩]⟩]⟩
/-- `<x>` for 'a'. -/
def forA (u : Str) : Term := if u = ['a'] then .nonterminal ['x'] else .terminal u

example : gAsB.overwriteTerminals forA = ⟨[⟨.nonterminal ['s'], [⟨[.nonterminal ['x'], .nonterminal ['s']]⟩, ⟨[.terminal ['b']]⟩]⟩]⟩ := by rfl

theorem items_separate : Separate forA gAsB gItems where
  apart₁ := by
    rintro T ⟨p, hp, rfl⟩ ⟨q, hq, h⟩
    simp only [gItems, gAsB, List.mem_singleton] at hp hq
    subst hp hq
    simp at h
  apart₂ := by
    rintro T ⟨p, hp, rfl⟩ ⟨q, hq, h⟩
    simp only [gItems, gAsB, List.mem_singleton] at hp hq
    subst hp hq
    simp at h
  apart₃ := by
    rintro u ⟨p, hp, h⟩
    simp only [gAsB, List.mem_singleton] at hp
    subst hp
    unfold forA at h
    split at h
    · cases h
    · cases h

/-- "22b" is derived: "ab" with "22" for 'a'. -/
example : Derives (behind (gAsB.overwriteTerminals forA) gItems) (.nonterminal ['s']) ['2', '2', 'b'] := by
  have ha : ∀ e ∈ gAsB.productions[0].rhs, HasAlt gAsB (.nonterminal ['s']) e := fun e he => ⟨_, List.mem_cons_self, rfl, he⟩
  refine (C126_substitution items_separate ?_ _).mpr ⟨⟨.nonterminal ['s'], [.terminal ['a'], .nonterminal (.nonterminal ['s']) [.terminal ['b']]]⟩,
    ⟨⟨[.terminal ['a'], .nonterminal ['s']]⟩, ha _ (by simp [gAsB]), .terminal (.nonterminal (ha ⟨[.terminal ['b']]⟩ (by simp [gAsB])) (.terminal .nil) .nil)⟩, rfl,
    [['2', '2'], ['b']], ?_, rfl⟩
  · rintro ⟨p, hp, h⟩
    simp only [gItems, List.mem_singleton] at hp
    subst hp
    cases h
  · simp only [leaves, nodeLeaves, List.append_nil, List.singleton_append]
    refine .cons ⟨[.nonterminal (.nonterminal ['x']) [.terminal ['2', '2']]], ?_, by rfl⟩ (.cons ⟨[.terminal ['b']], .terminal .nil, by rfl⟩ .nil)
    exact .nonterminal ⟨_, List.mem_cons_self, rfl, by simp [gItems]⟩ (.terminal .nil) .nil

/-- 'a' replaced by `<s>` itself. -/
def forS (u : Str) : Term := if u = ['a'] then .nonterminal ['s'] else .terminal u

/-- C126: without separation this fails: if 'a' is replaced by `<s>` itself, "bb" is derived. -/
theorem C126_not_separate_witness : Derives (behind (gAsB.overwriteTerminals forS) ⟨[]⟩) (.nonterminal ['s']) ['b', 'b'] ∧
    ¬ ∃ t, IsTree gAsB t ∧ t.lhs = .nonterminal ['s'] ∧
      ∃ ws : List Str, List.Forall₂ (fun u v => SeqSpells ⟨[]⟩ [forS u] v) (leaves t.rhs) ws ∧ ws.flatten = ['b', 'b'] := by
  constructor
  · have ha : ∀ e ∈ ([⟨[.nonterminal ['s'], .nonterminal ['s']]⟩, ⟨[.terminal ['b']]⟩] : List Expression),
        HasAlt (behind (gAsB.overwriteTerminals forS) ⟨[]⟩) (.nonterminal ['s']) e :=
      fun e he => ⟨_, List.mem_cons_self, rfl, he⟩
    have hb := ha ⟨[.terminal ['b']]⟩ (by simp)
    exact ⟨⟨.nonterminal ['s'], [.nonterminal (.nonterminal ['s']) [.terminal ['b']], .nonterminal (.nonterminal ['s']) [.terminal ['b']]]⟩, rfl,
      ⟨⟨[.nonterminal ['s'], .nonterminal ['s']]⟩, ha _ (by simp), .nonterminal hb (.terminal .nil) (.nonterminal hb (.terminal .nil) .nil)⟩, by rfl⟩
  · rintro ⟨⟨l, ns⟩, ⟨e, ⟨p, hp, _, he⟩, hf⟩, _, ws, hw, hb⟩
    simp only [gAsB, List.mem_singleton] at hp
    subst hp
    simp only [List.mem_cons, List.not_mem_nil, or_false] at he
    dsimp only at hf hw
    rcases he with rfl | rfl
    · cases hf with
      | terminal hf =>
        rw [leaves, nodeLeaves, List.singleton_append] at hw
        cases hw with
        | cons h1 _ =>
          obtain ⟨ms, hm, _⟩ := h1
          rw [show forS ['a'] = .nonterminal ['s'] from rfl] at hm
          cases hm with
          | nonterminal ha _ _ =>
            obtain ⟨p, hp, _⟩ := ha
            cases hp
    · cases hf with
      | terminal hf =>
        cases hf
        simp only [leaves, nodeLeaves, List.append_nil] at hw
        cases hw with
        | cons h1 h2 =>
          cases h2
          obtain ⟨ms, hm, rfl⟩ := h1
          rw [show forS ['b'] = .terminal ['b'] from rfl] at hm
          cases hm with
          | terminal hm => cases hm; simp [yield, nodeYield] at hb

/-- The test: "ab" becomes "ZZ". -/
example : Derives (gAsB.overwriteTerminals fun _ => .terminal ['Z']) (.nonterminal ['s']) ['Z', 'Z'] := by
  have ha : ∀ e ∈ gAsB.productions[0].rhs, HasAlt gAsB (.nonterminal ['s']) e := fun e he => ⟨_, List.mem_cons_self, rfl, he⟩
  exact ((C126_test gAsB).2 _ _).mpr ⟨⟨.nonterminal ['s'], [.terminal ['a'], .nonterminal (.nonterminal ['s']) [.terminal ['b']]]⟩,
    ⟨⟨[.terminal ['a'], .nonterminal ['s']]⟩, ha _ (by simp [gAsB]), .terminal (.nonterminal (ha ⟨[.terminal ['b']]⟩ (by simp [gAsB])) (.terminal .nil) .nil)⟩, rfl,
    by simp [leaves, nodeLeaves, List.replicate]⟩

end Bnf.Props
