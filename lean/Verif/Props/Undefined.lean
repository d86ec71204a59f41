import Verif.Props.Generate

/-!
# C72: what generation prints for a nonterminal without production

README.md 121-122: "If the generate function can't find a production for a nonterminal it tries to evaluate it will print the
identifer as a nonterminal, i.e. `<identifier>`."  It prints the name without angle brackets.
-/

set_option autoImplicit false

namespace Bnf.Props
open Bnf Bnf.Spec

/-- C72: a nonterminal without production contributes its bare name, and nothing else. -/
theorem C72_bare_name {g : Grammar} {start u : Str} (hs : g.startingTerm = some (.nonterminal start)) (hp : ∃ w, Derives g (.nonterminal start) w)
    {p : Production} {e : Expression} (hf : IsFirst g start p) (hc : ¬ NoChoice p) (he : e ∈ p.rhs) (hu : ¬ Declared g u) {a b : Str}
    (ht : e.terms = [.terminal a, .nonterminal u, .terminal b]) :
    Generated g (a ++ u ++ b) ∧ (∃ seed fuel st, g.generate scriptRng fuel seed = .done (.ok (a ++ u ++ b)) st) ∧
    ∀ w L, Expansion g e.terms w L → w = a ++ u ++ b ∧ L = [] := by
  have h : Expansion g [.nonterminal start] (a ++ u ++ b) ([] ++ (start, a ++ u ++ b) :: []) := by
    have h0 : Expansion g e.terms (a ++ (u ++ (b ++ []))) [] := by rw [ht]; exact .terminal (.undeclared hu (.terminal .nil))
    simpa using Expansion.nonterminal hf hc he h0 .nil
  refine ⟨((C51_generated_iff hs hp _).2).mpr ⟨_, h⟩, ((C51_generated_iff hs hp _).1).mpr ⟨_, h⟩, fun w L hx => ?_⟩
  rw [ht] at hx
  cases hx with
  | terminal hx =>
    cases hx with
    | undeclared _ hx =>
      cases hx with
      | terminal hx => cases hx; simp
    | nonterminal hf' =>
      obtain ⟨x, y, h1, h2, _⟩ := hf'
      exact absurd ⟨_, by rw [h1]; simp, h2⟩ hu

theorem expansion_chars {g : Grammar} {c : Char} (ht : ∀ p ∈ g.productions, ∀ e ∈ p.rhs, ∀ t ∈ e.terms, c ∉ t.name) {ts : List Term} {w : Str}
    {L : List (Str × Str)} (h : Expansion g ts w L) (hts : ∀ t ∈ ts, c ∉ t.name ∨ ∃ n, t = .nonterminal n ∧ Declared g n) : c ∉ w := by
  induction h with
  | nil => simp
  | @terminal u w ts L _ ih =>
    have h1 := hts (.terminal u) (by simp)
    have h2 := ih fun t h => hts t (by simp [h])
    rcases h1 with h1 | ⟨n, h1, _⟩
    · simp only [Term.name] at h1; simp [h1, h2]
    · cases h1
  | @undeclared n w ts L hn _ ih =>
    have h1 := hts (.nonterminal n) (by simp)
    have h2 := ih fun t h => hts t (by simp [h])
    rcases h1 with h1 | ⟨n', h1, h3⟩
    · simp only [Term.name] at h1; simp [h1, h2]
    · injection h1 with h1; subst h1; exact absurd h3 hn
  | @nonterminal n v w p e ts L M hf _ he _ _ ih1 ih2 =>
    have hp : p ∈ g.productions := by
      obtain ⟨x, y, h1, _⟩ := hf
      rw [h1]; simp
    have h1 := ih1 fun t h => .inl (ht p hp e he t h)
    have h2 := ih2 fun t h => hts t (by simp [h])
    simp [h1, h2]

/-- C72: brackets are never added: a generated sentence contains `<` only if some terminal or some name contains it (the same for every other
character). -/
theorem C72_no_new_characters {g : Grammar} {c : Char} 
    (ht : ∀ p ∈ g.productions, ∀ e ∈ p.rhs, ∀ u, (.terminal u ∈ e.terms ∨ .nonterminal u ∈ e.terms) → c ∉ u) {s : Str}
    (h : Generated g s) : c ∉ s := by
  replace ht : ∀ p ∈ g.productions, ∀ e ∈ p.rhs, ∀ t ∈ e.terms, c ∉ t.name := fun p hp e he t h => by
    cases t with
    | terminal u => exact ht p hp e he u (.inl h)
    | nonterminal u => exact ht p hp e he u (.inr h)
  obtain ⟨start, L, h1, h2⟩ := generated_expansion h
  refine expansion_chars ht h2 fun t h => .inr ⟨start, by simpa using h, ?_⟩
  unfold Grammar.startingTerm at h1
  cases hp : g.productions with
  | nil => simp [hp] at h1
  | cons p ps => exact ⟨p, by simp [hp], by simpa [hp] using h1⟩

/-- `<a> ::= '(' <b> ')' | 'x'`. -/
def gUndef : Grammar := ⟨[⟨.nonterminal ['a'], [⟨[.terminal ['('], .nonterminal ['b'], .terminal [')']]⟩, ⟨[.terminal ['x']]⟩]⟩]⟩

theorem gUndef_derives : ∃ w, Derives gUndef (.nonterminal ['a']) w :=
  ⟨['x'], ⟨.nonterminal ['a'], [.terminal ['x']]⟩, rfl, ⟨⟨[.terminal ['x']]⟩, ⟨_, List.mem_singleton.2 rfl, rfl, by simp⟩, .terminal .nil⟩, by simp [yield, nodeYield]⟩

/-- C72: the sentence promised by the README, `(<b>)`, is not generated from `<a> ::= '(' <b> ')' | 'x'`; `(b)` is. -/
theorem C72_witness : Generated gUndef ['(', 'b', ')'] ∧ ¬ Generated gUndef ['(', '<', 'b', '>', ')'] := by
  constructor
  · refine (C72_bare_name (g := gUndef) (start := ['a']) (u := ['b']) (a := ['(']) (b := [')']) (e := ⟨[.terminal ['('], .nonterminal ['b'], .terminal [')']]⟩)
      (p := ⟨.nonterminal ['a'], [⟨[.terminal ['('], .nonterminal ['b'], .terminal [')']]⟩, ⟨[.terminal ['x']]⟩]⟩) rfl gUndef_derives ⟨[], [], rfl, rfl, by simp⟩ ?_ (by simp) ?_ rfl).1
    · rintro (h | h) <;> simp at h
    · rintro ⟨p, hp, hl⟩
      simp only [gUndef, List.mem_singleton] at hp
      subst hp
      simp at hl
  · intro h
    refine C72_no_new_characters (c := '<') ?_ h (by simp)
    intro p hp e he u ht
    simp only [gUndef, List.mem_singleton] at hp
    subst hp
    simp only [List.mem_cons, List.not_mem_nil, or_false] at he
    rcases he with rfl | rfl
    · simp at ht
      rcases ht with (rfl | rfl) | rfl <;> simp
    · simp at ht
      subst ht; simp

end Bnf.Props
