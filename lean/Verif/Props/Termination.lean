import Verif.Proofs.Trap
import Verif.Props.Parsing

/-! # Property C54: exactly when draining the iterator ends and when a call never returns -/

set_option autoImplicit false

namespace Bnf.Props
open Bnf Spec

/-- C54: draining the iterator ends, for every grammar, starting term and input, exactly if no cyclic nonterminal is
expected at a place of the input where it derives some of the following text. -/
theorem C54_drain_ends_iff {g S input it} (ho : Opened g S input it) :
    (∃ ts it1 it2, Draws it ts it1 ∧ Next it1 none it2) ↔ ¬ Trap g S input := by
  constructor
  · rintro ⟨ts, it1, it2, hd, hn⟩
    exact trap_not_ended ho.inv.1 hd hn
  · intro hno
    obtain ⟨N, hN⟩ := arena_bound_notrap hno
    exact drain_ends hN ho.inv.1

/-- C54: without such a place every call returns, in every state. -/
theorem C54_calls_return {g S input it ts it'} (ho : Opened g S input it) (hno : ¬ Trap g S input) (hd : Draws it ts it') :
    ∃ r it'', Next it' r it'' := by
  obtain ⟨N, hN⟩ := arena_bound_notrap hno
  obtain ⟨_, _, hi', _⟩ := hd.rounds ho.inv.1
  obtain ⟨ts', it1, it2, hd', hn⟩ := drain_ends hN hi'
  cases hd' with
  | nil => exact ⟨_, _, hn⟩
  | cons hn' _ => exact ⟨_, _, hn'⟩

/-- C54: with such a place and only finitely many parse trees, the iterator returns all of them and then hangs. -/
theorem C54_hangs {g S input it} (ho : Opened g S input it) (htrap : Trap g S input)
    (hfin : {t | IsParse g S input t}.Finite) :
    ∃ ts it', Draws it ts it' ∧ (∀ t, IsParse g S input t → t ∈ ts) ∧ Diverges it' := by
  obtain ⟨N, hN⟩ := draws_bounded ho.inv.1 hfin
  by_contra hcon
  have key : ∀ k, ∃ ts it', Draws it ts it' ∧ ts.length = k := by
    intro k
    induction k with
    | zero => exact ⟨[], it, .nil, rfl⟩
    | succ k ih =>
      obtain ⟨ts, it', hd, hl⟩ := ih
      obtain ⟨_, _, hi', _⟩ := hd.rounds ho.inv.1
      rcases next_trichotomy hi' with ⟨r, it2, hn⟩ | h
      · cases r with
        | none => exact absurd htrap (trap_not_ended ho.inv.1 hd hn)
        | some t => exact ⟨ts ++ [t], it2, hd.append (.cons hn .nil), by simp [hl]⟩
      · refine absurd ⟨ts, it', hd, fun t ht => ?_, h⟩ hcon
        by_contra hnt
        obtain ⟨t', it'', fuel, hn⟩ := C07_returns_while_trees_left_partial ho hd ht hnt
        rw [h fuel] at hn
        cases hn
  obtain ⟨ts, it', hd, hl⟩ := key (N + 1)
  have := hN ts it' hd
  omega

/-- C54: with infinitely many parse trees every call returns a further one. -/
theorem C54_infinitely_many {g S input it ts it'} (ho : Opened g S input it) (hinf : {t | IsParse g S input t}.Infinite)
    (hd : Draws it ts it') : ∃ t it'', Next it' (some t) it'' := by
  obtain ⟨t, ht, hnt⟩ : ∃ t, IsParse g S input t ∧ t ∉ ts := by
    by_contra hcon
    refine hinf ((list_toSet_finite ts).subset ?_)
    intro t ht
    by_contra hnt
    exact hcon ⟨t, ht, hnt⟩
  exact C07_returns_while_trees_left_partial ho hd ht hnt

/-- C54: all calls return exactly if there is no such place or there are infinitely many parse trees. -/
theorem C54_every_call_returns_iff {g S input it} (ho : Opened g S input it) :
    (∀ ts it', Draws it ts it' → ∃ r it'', Next it' r it'') ↔
      ¬ Trap g S input ∨ {t | IsParse g S input t}.Infinite := by
  constructor
  · intro h
    by_contra hcon
    simp only [not_or, not_not, Set.not_infinite] at hcon
    obtain ⟨ts, it', hd, _, hdiv⟩ := C54_hangs ho hcon.1 hcon.2
    obtain ⟨r, it'', fuel, hn⟩ := h ts it' hd
    rw [hdiv fuel] at hn
    cases hn
  · rintro (h | h) ts it' hd
    · exact C54_calls_return ho h hd
    · obtain ⟨t, it'', hn⟩ := C54_infinitely_many ho h hd
      exact ⟨_, _, hn⟩

/-- C54: without repeated alternatives, the outcome of a call is determined by the grammar, the input and the trees returned
so far: it returns a tree if one is left, and otherwise `None` or never returns. -/
theorem C54_call_outcome {g S input it ts it'} (ho : Opened g S input it) (hd : Draws it ts it')
    (hnodup : (g.productions.flatMap fun p => p.rhs.map fun e => (p.lhs, e)).Nodup) :
    ((∃ t it'', Next it' (some t) it'') ↔ ∃ t, IsParse g S input t ∧ t ∉ ts) ∧
    ((∃ it'', Next it' none it'') ↔ (∀ t, IsParse g S input t → t ∈ ts) ∧ ¬ Trap g S input) ∧
    (Diverges it' ↔ (∀ t, IsParse g S input t → t ∈ ts) ∧ Trap g S input) := by
  have hsome : (∃ t it'', Next it' (some t) it'') ↔ ∃ t, IsParse g S input t ∧ t ∉ ts := by
    constructor
    · rintro ⟨t, it'', hn⟩
      have hd2 := hd.append (.cons hn .nil)
      have hnd := C04_no_duplicates hnodup ho hd2
      refine ⟨t, C01_soundness ho hd2 t (by simp), fun hmem => ?_⟩
      rw [List.nodup_append] at hnd
      exact absurd rfl (hnd.2.2 t hmem t (by simp))
    · rintro ⟨t, ht, hnt⟩
      exact C07_returns_while_trees_left_partial ho hd ht hnt
  have hnot : (∀ t, IsParse g S input t → t ∈ ts) → ∀ t it'', ¬ Next it' (some t) it'' := by
    intro hall t it'' hn
    obtain ⟨t', h1, h2⟩ := hsome.mp ⟨t, it'', hn⟩
    exact h2 (hall t' h1)
  obtain ⟨_, _, hi', _⟩ := hd.rounds ho.inv.1
  refine ⟨hsome, ⟨?_, ?_⟩, ⟨?_, ?_⟩⟩
  · rintro ⟨it'', hn⟩
    exact ⟨fun t ht => (C05_exhausted_exact ho hd hn t).mpr ht, trap_not_ended ho.inv.1 hd hn⟩
  · rintro ⟨hall, hno⟩
    obtain ⟨r, it'', hn⟩ := C54_calls_return ho hno hd
    cases r with
    | none => exact ⟨it'', hn⟩
    | some t => exact absurd hn (hnot hall t it'')
  · intro hdiv
    have hno : ∀ r it'', ¬ Next it' r it'' := by
      rintro r it'' ⟨fuel, hn⟩
      rw [hdiv fuel] at hn
      cases hn
    refine ⟨fun t ht => ?_, ?_⟩
    · by_contra hnt
      obtain ⟨t', it'', hn⟩ := hsome.mpr ⟨t, ht, hnt⟩
      exact hno _ _ hn
    · by_contra hnt
      obtain ⟨r, it'', hn⟩ := C54_calls_return ho hnt hd
      exact hno _ _ hn
  · rintro ⟨hall, htrap⟩
    rcases next_trichotomy hi' with ⟨r, it'', hn⟩ | h
    · cases r with
      | none => exact absurd htrap (trap_not_ended ho.inv.1 hd hn)
      | some t => exact absurd hn (hnot hall t it'')
    · exact h

/-- C54: acyclic grammars have no such place (so C06 is a special case). -/
theorem C54_acyclic_no_trap {g : Grammar} (h : Acyclic g) (S : Term) (input : Str) : ¬ Trap g S input := by
  rintro ⟨_, n, _, _, _, hc, _⟩
  exact h n hc

theorem gCyc_cyclic : Cyclic gCyc ['a'] :=
  .single ⟨⟨[.nonterminal ['a']]⟩, [], [], ⟨_, List.mem_cons_self, rfl, by simp⟩, rfl, ⟨[], .nil, rfl⟩, ⟨[], .nil, rfl⟩⟩

/-- A trap: `<a> ::= <a> | 'z'` on "zz". -/
example : Trap gCyc (.nonterminal ['a']) ['z', 'z'] :=
  ⟨[], ['a'], ['z'], ['z'], .start, gCyc_cyclic,
    ⟨⟨.nonterminal ['a'], [.terminal ['z']]⟩, rfl, ⟨⟨[.terminal ['z']]⟩, ⟨_, List.mem_cons_self, rfl, by simp⟩, .terminal .nil⟩,
      rfl⟩, rfl⟩

/-- `<s> ::= 'x' | 'y' <a>`, `<a> ::= <a> | 'z'`. -/
def gSide : Grammar := ⟨[⟨.nonterminal ['s'], [⟨[.terminal ['x']]⟩, ⟨[.terminal ['y'], .nonterminal ['a']]⟩]⟩,
  ⟨.nonterminal ['a'], [⟨[.nonterminal ['a']]⟩, ⟨[.terminal ['z']]⟩]⟩]⟩

/-- A cyclic grammar without a trap for the input "x": the cycle is never reached. -/
theorem gSide_no_trap : ¬ Trap gSide (.nonterminal ['s']) ['x'] := by
  have hexp : ∀ u T, Expected gSide (.nonterminal ['s']) ['x'] u T → T = .nonterminal ['s'] := by
    intro u T h
    induction h with
    | start => rfl
    | @step u l e pre n post ns r _ ha hts hf hin ih =>
      obtain ⟨p, hp, hl, he⟩ := ha
      rw [ih] at hl
      simp only [gSide, List.mem_cons, List.not_mem_nil, or_false] at hp
      rcases hp with rfl | rfl
      · simp only [List.mem_cons, List.not_mem_nil, or_false] at he
        rcases he with rfl | rfl
        · match pre, hts with
          | [], hts => simp at hts
          | a :: pre, hts => simp at hts
        · match pre, hts with
          | [], hts => simp at hts
          | [a], hts =>
            simp only [List.cons_append, List.nil_append, List.cons.injEq] at hts
            rw [← hts.1] at hf
            cases hf with
            | terminal h =>
              cases h
              cases u with
              | nil => simp [yield, nodeYield] at hin
              | cons c u => simp [yield, nodeYield] at hin
          | a :: b :: pre, hts => simp at hts
      · simp at hl
  rintro ⟨u, n, v, r, he, hc, _⟩
  have := hexp _ _ he
  injection this with this
  subst this
  obtain ⟨m, ⟨e, pre, post, ⟨p, hp, hl, hee⟩, hts, hpre, _⟩, _⟩ := Relation.TransGen.head'_iff.mp hc
  simp only [gSide, List.mem_cons, List.not_mem_nil, or_false] at hp
  rcases hp with rfl | rfl
  · simp only [List.mem_cons, List.not_mem_nil, or_false] at hee
    rcases hee with rfl | rfl
    · match pre, hts with
      | [], hts => simp at hts
      | a :: pre, hts => simp at hts
    · match pre, hts with
      | [], hts => simp at hts
      | [a], hts =>
        simp only [List.cons_append, List.nil_append, List.cons.injEq] at hts
        obtain ⟨ns, hf, hy⟩ := hpre
        rw [← hts.1] at hf
        cases hf with
        | terminal h => simp [yield, nodeYield] at hy
      | a :: b :: pre, hts => simp at hts
  · simp at hl

example : Cyclic gSide ['a'] :=
  .single ⟨⟨[.nonterminal ['a']]⟩, [], [], ⟨⟨.nonterminal ['a'], [⟨[.nonterminal ['a']]⟩, ⟨[.terminal ['z']]⟩]⟩, by simp [gSide],
    rfl, by simp⟩, rfl, ⟨[], .nil, rfl⟩, ⟨[], .nil, rfl⟩⟩

/-- Infinitely many parse trees: `<a> ::= <a> | 'z'` on "z". -/
example : {t | IsParse gCyc (.nonterminal ['a']) ['z'] t}.Infinite := by
  have hinj : Function.Injective fun k => (⟨.nonterminal ['a'], [cycNode k]⟩ : ParseTree) := by
    intro a b h
    simp only [ParseTree.mk.injEq, true_and] at h
    exact cycNode_inj h
  refine (Set.infinite_range_of_injective hinj).mono ?_
  rintro _ ⟨k, rfl⟩
  exact ⟨rfl, ⟨⟨[.nonterminal ['a']]⟩, ⟨_, List.mem_cons_self, rfl, by simp⟩, cycNode_forest k⟩, cycNode_yield k⟩

end Bnf.Props
