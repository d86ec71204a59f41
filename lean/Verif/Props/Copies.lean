import Verif.Props.Parsing
import Verif.Props.Termination
import Verif.Proofs.Multiplicity

/-! # Properties C04 and C09 for grammars that list an alternative more than once

`copies g t` is the number of ways to read the tree `t` in `g`: the product, over its inner nodes, of the number of
times the grammar lists the alternative used there. -/

set_option autoImplicit false

namespace Bnf.Props
open Bnf Spec

/-! ## C04: exact multiplicity -/

open scoped Classical in
/-- C04: no tree is ever returned more often than there are ways to read it. -/
theorem C04_at_most_copies {g S input it ts it'} (ho : Opened g S input it) (hd : Draws it ts it') (t : ParseTree) :
    ts.count t ≤ copies g t :=
  draws_count_le ho.inv.1 hd t

open scoped Classical in
/-- C04: whatever was returned so far, going on returns every derivation tree of the input once per way to read it. -/
theorem C04_copies_reached {g S input it ts it'} (ho : Opened g S input it) (hd : Draws it ts it') {t : ParseTree}
    (ht : IsParse g S input t) : ∃ more it'', Draws it' more it'' ∧ (ts ++ more).count t = copies g t :=
  draws_count_reached ho.inv.1 ho.inv.2 hd ht

open scoped Classical in
/-- C04: when `next()` has returned `None`, every derivation tree of the input was returned exactly once per way to read
it, and no other tree was returned. -/
theorem C04_copies_exact {g S input it ts it' it''} (ho : Opened g S input it) (hd : Draws it ts it')
    (hn : Next it' none it'') (t : ParseTree) :
    ts.count t = if IsParse g S input t then copies g t else 0 := by
  split
  · rename_i ht
    obtain ⟨more, it3, hd', hc⟩ := C04_copies_reached ho hd ht
    cases hd' with
    | nil => rw [← hc, List.append_nil]
    | cons h _ => have := (hn.det h).1; cases this
  · rename_i ht
    exact List.count_eq_zero.mpr fun hm => ht (C01_soundness ho hd t hm)

/-- `<s> ::= <a> <a> | <a> <a>`, `<a> ::= 'x'`, `<a> ::= 'x' | 'x' | 'y'`. -/
def gCopies : Grammar := ⟨[⟨.nonterminal ['s'], [⟨[.nonterminal ['a'], .nonterminal ['a']]⟩,
    ⟨[.nonterminal ['a'], .nonterminal ['a']]⟩]⟩,
  ⟨.nonterminal ['a'], [⟨[.terminal ['x']]⟩]⟩,
  ⟨.nonterminal ['a'], [⟨[.terminal ['x']]⟩, ⟨[.terminal ['x']]⟩, ⟨[.terminal ['y']]⟩]⟩]⟩

/-- The tree of "xx" in `gCopies`. -/
def tCopies : ParseTree := ⟨.nonterminal ['s'], [.nonterminal (.nonterminal ['a']) [.terminal ['x']],
  .nonterminal (.nonterminal ['a']) [.terminal ['x']]]⟩

/-- It can be read in 2 · 3 · 3 ways. -/
example : copies gCopies tCopies = 18 := by
  simp [copies, timesListed, forestCopies, nodeCopies, rootTerm, gCopies, tCopies]

example : ∃ it, Opened gCopies (.nonterminal ['s']) ['x', 'x'] it := opened_of (by simp [gCopies])

example : IsParse gCopies (.nonterminal ['s']) ['x', 'x'] tCopies := by
  have h1 : HasAlt gCopies (.nonterminal ['s']) ⟨[.nonterminal ['a'], .nonterminal ['a']]⟩ :=
    ⟨_, List.mem_cons_self, rfl, by simp⟩
  have h2 : HasAlt gCopies (.nonterminal ['a']) ⟨[.terminal ['x']]⟩ :=
    ⟨_, List.mem_cons_of_mem _ List.mem_cons_self, rfl, by simp⟩
  exact ⟨rfl, ⟨_, h1, .nonterminal h2 (.terminal .nil) (.nonterminal h2 (.terminal .nil) .nil)⟩, rfl⟩

/-- The run of `gDup` ends after two copies. -/
example : ∃ it it' it'', Opened gDup (.nonterminal ['a']) ['x'] it ∧
    Draws it [⟨.nonterminal ['a'], [.terminal ['x']]⟩, ⟨.nonterminal ['a'], [.terminal ['x']]⟩] it' ∧
    Next it' none it'' :=
  ⟨_, _, _, .deprecatedStarting rfl, .cons ⟨100, rfl⟩ (.cons ⟨100, rfl⟩ .nil), ⟨100, rfl⟩⟩

example : copies gDup ⟨.nonterminal ['a'], [.terminal ['x']]⟩ = 2 := by
  simp [copies, timesListed, forestCopies, nodeCopies, rootTerm, gDup]

/-! ## C09: order of productions, with repetitions -/

mutual
theorem nodeCopies_congr {g g' : Grammar} (h : ∀ l e, timesListed g l e = timesListed g' l e) :
    (n : ParseTreeNode) → nodeCopies g n = nodeCopies g' n
  | .terminal s => by simp [nodeCopies]
  | .nonterminal l r => by rw [nodeCopies, nodeCopies, h, forestCopies_congr h r]
theorem forestCopies_congr {g g' : Grammar} (h : ∀ l e, timesListed g l e = timesListed g' l e) :
    (ns : List ParseTreeNode) → forestCopies g ns = forestCopies g' ns
  | [] => by simp [forestCopies]
  | n :: ns => by rw [forestCopies, forestCopies, nodeCopies_congr h n, forestCopies_congr h ns]
end

/-- C09: if two grammars list every alternative equally often (in any order and grouping, repetitions included), then
draining both gives the same trees, equally often, up to order. -/
theorem C09_drained_perm_repeated {g g' : Grammar} (h : ∀ l e, timesListed g l e = timesListed g' l e)
    {S input it it' ts ts' it1 it2 it1' it2'}
    (ho : Opened g S input it) (ho' : Opened g' S input it')
    (hd : Draws it ts it1) (he : Next it1 none it2) (hd' : Draws it' ts' it1') (he' : Next it1' none it2') :
    ts.Perm ts' := by
  classical
  have ha : ∀ l e, HasAlt g l e ↔ HasAlt g' l e := by
    intro l e
    rw [← mem_flatProds, ← mem_flatProds, ← List.count_pos_iff, ← List.count_pos_iff, ← timesListed_eq,
      ← timesListed_eq, h]
  rw [List.perm_iff_count]
  intro t
  have h1 := C04_copies_exact ho hd he t
  have h2 := C04_copies_exact ho' hd' he' t
  have h3 : copies g t = copies g' t := by rw [copies, copies, h, forestCopies_congr h]
  rw [h3, if_congr (isParse_congr ha) rfl rfl, ← h2] at h1
  convert h1

/-- `gCopies` with its productions in another order and grouping. -/
def gCopies' : Grammar := ⟨[⟨.nonterminal ['a'], [⟨[.terminal ['y']]⟩, ⟨[.terminal ['x']]⟩]⟩,
  ⟨.nonterminal ['s'], [⟨[.nonterminal ['a'], .nonterminal ['a']]⟩, ⟨[.nonterminal ['a'], .nonterminal ['a']]⟩]⟩,
  ⟨.nonterminal ['a'], [⟨[.terminal ['x']]⟩, ⟨[.terminal ['x']]⟩]⟩]⟩

example (l : Term) (e : Expression) : timesListed gCopies l e = timesListed gCopies' l e := by
  rw [timesListed_eq, timesListed_eq]
  have : gCopies.flatProds.Perm gCopies'.flatProds := by decide
  exact this.count_eq _

/-! ## C54: the outcome of a call, alternatives possibly repeated -/

open scoped Classical in
/-- C54: for every grammar, the outcome of a call is determined by the grammar, the input and the trees returned so far: it returns a tree if one
has not been returned as often as there are ways to read it, and otherwise `None` or never returns. -/
theorem C54_call_outcome_repeated {g S input it ts it'} (ho : Opened g S input it) (hd : Draws it ts it') :
    ((∃ t it'', Next it' (some t) it'') ↔ ∃ t, IsParse g S input t ∧ ts.count t < copies g t) ∧
    ((∃ it'', Next it' none it'') ↔ (∀ t, IsParse g S input t → ts.count t = copies g t) ∧ ¬ Trap g S input) ∧
    (Diverges it' ↔ (∀ t, IsParse g S input t → ts.count t = copies g t) ∧ Trap g S input) := by
  have hsome : (∃ t it'', Next it' (some t) it'') ↔ ∃ t, IsParse g S input t ∧ ts.count t < copies g t := by
    constructor
    · rintro ⟨t, it'', hn⟩
      have hd2 := hd.append (.cons hn .nil)
      have := C04_at_most_copies ho hd2 t
      rw [List.count_append, List.count_singleton_self] at this
      exact ⟨t, C01_soundness ho hd2 t (by simp), by omega⟩
    · rintro ⟨t, ht, hlt⟩
      obtain ⟨more, it'', hm, hc⟩ := C04_copies_reached ho hd ht
      cases hm with
      | nil => rw [List.append_nil] at hc; omega
      | cons hn _ => exact ⟨_, _, hn⟩
  have hall : (∀ t, IsParse g S input t → ts.count t = copies g t) ↔ ¬ ∃ t it'', Next it' (some t) it'' := by
    rw [hsome]
    constructor
    · rintro h ⟨t, ht, hlt⟩
      have := h t ht
      omega
    · intro h t ht
      have := C04_at_most_copies ho hd t
      by_contra hne
      exact h ⟨t, ht, by omega⟩
  obtain ⟨_, _, hi', _⟩ := hd.rounds ho.inv.1
  refine ⟨hsome, ⟨?_, ?_⟩, ⟨?_, ?_⟩⟩
  · rintro ⟨it'', hn⟩
    exact ⟨fun t ht => by rw [C04_copies_exact ho hd hn t, if_pos ht], trap_not_ended ho.inv.1 hd hn⟩
  · rintro ⟨h, hno⟩
    obtain ⟨r, it'', hn⟩ := C54_calls_return ho hno hd
    cases r with
    | none => exact ⟨it'', hn⟩
    | some t => exact absurd ⟨t, it'', hn⟩ (hall.mp h)
  · intro hdiv
    have hno : ∀ r it'', ¬ Next it' r it'' := by
      rintro r it'' ⟨fuel, hn⟩
      rw [hdiv fuel] at hn
      cases hn
    refine ⟨hall.mpr ?_, ?_⟩
    · rintro ⟨t, it'', hn⟩
      exact hno _ _ hn
    · by_contra hnt
      obtain ⟨r, it'', hn⟩ := C54_calls_return ho hnt hd
      exact hno _ _ hn
  · rintro ⟨h, htrap⟩
    rcases next_trichotomy hi' with ⟨r, it'', hn⟩ | h'
    · cases r with
      | none => exact absurd htrap (trap_not_ended ho.inv.1 hd hn)
      | some t => exact absurd ⟨t, it'', hn⟩ (hall.mp h)
    · exact h'

/-- A grammar that lists an alternative three times: after one of the trees there are more copies to come. -/
example : ∃ it t it', Opened gCopies' (.nonterminal ['s']) ['x', 'y'] it ∧ Next it (some t) it' :=
  ⟨_, _, _, .deprecatedStarting rfl, 100, rfl⟩

end Bnf.Props
