import Verif.Spec.Editing
import Verif.Model.Editing
import Verif.Props.Api
import Verif.Props.Parsing
import Verif.Proofs.Ebnf

/-! # C98: what operators and changes in place do to languages -/

set_option autoImplicit false

namespace Bnf
open Spec

theorem writeAt_changed {α : Type} (f : α → α) : ∀ (l : List α) (i : Nat), ChangedAt f i l (writeAt f l i)
  | [], i => by simp [writeAt, ChangedAt]
  | x :: xs, 0 => by
    refine ⟨by simp [writeAt], fun j hj => ?_, by simp [writeAt]⟩
    obtain ⟨k, rfl⟩ := Nat.exists_eq_succ_of_ne_zero hj
    simp [writeAt]
  | x :: xs, i + 1 => by
    obtain ⟨h1, h2, h3⟩ := writeAt_changed f xs i
    refine ⟨by simp [writeAt, h1], fun j hj => ?_, by simpa [writeAt] using h3⟩
    cases j with
    | zero => simp [writeAt]
    | succ j => simpa [writeAt] using h2 j (by omega)

theorem writeAt_append {α : Type} (f : α → α) (x : α) (b : List α) : ∀ a : List α, writeAt f (a ++ x :: b) a.length = a ++ f x :: b
  | [] => rfl
  | y :: a => by simp [writeAt, writeAt_append f x b a]

theorem writeAt_beyond {α : Type} (f : α → α) : ∀ (l : List α) (i : Nat), l.length ≤ i → writeAt f l i = l
  | [], _, _ => rfl
  | x :: xs, 0, h => by simp at h
  | x :: xs, i + 1, h => by simp [writeAt, writeAt_beyond f xs i (by simpa using h)]

theorem isForest_split {g : Grammar} : ∀ {ts us : List Term} {ns}, IsForest g (ts ++ us) ns →
    ∃ a b, ns = a ++ b ∧ IsForest g ts a ∧ IsForest g us b
  | [], us, ns, h => ⟨[], ns, rfl, .nil, h⟩
  | t :: ts, us, ns, h => by
    cases h with
    | terminal h =>
      obtain ⟨a, b, rfl, h1, h2⟩ := isForest_split h
      exact ⟨_ :: a, b, rfl, .terminal h1, h2⟩
    | nonterminal ha hk h =>
      obtain ⟨a, b, rfl, h1, h2⟩ := isForest_split h
      exact ⟨_ :: a, b, rfl, .nonterminal ha hk h1, h2⟩

theorem seqSpells_append {g : Grammar} {ts us : List Term} {w : Str} :
    SeqSpells g (ts ++ us) w ↔ ∃ u v, w = u ++ v ∧ SeqSpells g ts u ∧ SeqSpells g us v := by
  constructor
  · rintro ⟨ns, h, rfl⟩
    obtain ⟨a, b, rfl, h1, h2⟩ := isForest_split h
    exact ⟨_, _, yield_append' a b, ⟨a, h1, rfl⟩, ⟨b, h2, rfl⟩⟩
  · rintro ⟨u, v, rfl, ⟨a, h1, rfl⟩, ⟨b, h2, rfl⟩⟩
    exact ⟨a ++ b, isForest_append h1 h2, yield_append' a b⟩

theorem isParse_mono {g g' : Grammar} (h : ∀ l e, HasAlt g l e → HasAlt g' l e) {S w t} (ht : IsParse g S w t) : IsParse g' S w t := by
  rw [isParse_iff_alts] at ht ⊢
  exact ⟨ht.1, ht.2.1, ht.2.2.1, fun x hx => h _ _ (ht.2.2.2 x hx)⟩

end Bnf

namespace Bnf.Props
open Bnf Spec

/-- C98: a term derives what the grammar says; a sequence of terms derives what its members derive, one after the other. -/
theorem C98_sequences (g : Grammar) (ts : List Term) (w : Str) :
    (∀ s, SeqSpells g [.terminal s] w ↔ w = s) ∧ (∀ n, SeqSpells g [.nonterminal n] w ↔ Derives g (.nonterminal n) w) ∧
    (SeqSpells g ts w ↔ ∃ ws : List Str, ws.flatten = w ∧ List.Forall₂ (fun t u => SeqSpells g [t] u) ts ws) := by
  refine ⟨fun s => ?_, fun n => ?_, ?_⟩
  · constructor
    · rintro ⟨ns, h, rfl⟩
      cases h with
      | terminal h => cases h; simp [yield, nodeYield]
    · rintro rfl
      exact ⟨_, .terminal .nil, by simp [yield, nodeYield]⟩
  · constructor
    · rintro ⟨ns, h, rfl⟩
      cases h with
      | @nonterminal _ e kids _ _ ha hk h =>
        cases h
        exact ⟨⟨.nonterminal n, kids⟩, rfl, ⟨e, ha, hk⟩, by simp [yield, nodeYield]⟩
    · rintro ⟨⟨lhs, kids⟩, rfl, ⟨e, ha, hk⟩, rfl⟩
      exact ⟨_, .nonterminal ha hk .nil, by simp [yield, nodeYield]⟩
  · induction ts generalizing w with
    | nil =>
      constructor
      · rintro ⟨ns, h, rfl⟩
        cases h
        exact ⟨[], by simp [yield], .nil⟩
      · rintro ⟨ws, rfl, h⟩
        cases h
        exact ⟨[], .nil, rfl⟩
    | cons t ts ih =>
      rw [show t :: ts = [t] ++ ts from rfl, seqSpells_append]
      constructor
      · rintro ⟨u, v, rfl, h1, h2⟩
        obtain ⟨ws, rfl, h3⟩ := (ih v).1 h2
        exact ⟨u :: ws, rfl, .cons h1 h3⟩
      · rintro ⟨ws, rfl, h⟩
        cases h with
        | @cons _ u _ ws h1 h2 => exact ⟨u, ws.flatten, rfl, h1, (ih _).2 ⟨ws, rfl, h2⟩⟩

/-- C98: all sums derive the texts of their operands one after the other, those of the left operand first, with one exception: with a term on the
left and an expression on the right, the text of the term comes last. -/
theorem C98_sums (g : Grammar) (a b : Term) (e f : Expression) (w : Str) :
    (SeqSpells g (a.addTerm b).terms w ↔ ∃ u v, w = u ++ v ∧ SeqSpells g [a] u ∧ SeqSpells g [b] v) ∧
    (∀ s ∈ [e.addTermOp b, e.refAddTerm b], SeqSpells g s.terms w ↔ ∃ u v, w = u ++ v ∧ SeqSpells g e.terms u ∧ SeqSpells g [b] v) ∧
    (∀ s ∈ [e.addExpression f, e.refAddExpression f],
      SeqSpells g s.terms w ↔ ∃ u v, w = u ++ v ∧ SeqSpells g e.terms u ∧ SeqSpells g f.terms v) ∧
    (∀ s ∈ [a.addExpression e, a.addExpressionRef e],
      SeqSpells g s.terms w ↔ ∃ u v, w = u ++ v ∧ SeqSpells g e.terms u ∧ SeqSpells g [a] v) := by
  obtain ⟨h1, h2, h3, h4, h5, _, h6⟩ := C49_sums a b e f
  refine ⟨?_, ?_, ?_, ?_⟩
  · rw [h1]; exact seqSpells_append (ts := [a])
  · simp only [List.mem_cons, List.not_mem_nil, or_false, forall_eq_or_imp, forall_eq, h2, h3]
    exact ⟨seqSpells_append, seqSpells_append⟩
  · simp only [List.mem_cons, List.not_mem_nil, or_false, forall_eq_or_imp, forall_eq, h4, h5]
    exact ⟨seqSpells_append, seqSpells_append⟩
  · simp only [List.mem_cons, List.not_mem_nil, or_false, forall_eq_or_imp, forall_eq, h6, (C49_term_plus_expression a e).1]
    exact ⟨seqSpells_append, seqSpells_append⟩

/-- C98: `'x' + ('y' as an expression)` derives `yx` and not `xy`. -/
theorem C98_sum_witness (g : Grammar) : SeqSpells g ((Term.terminal ['x']).addExpression ⟨[.terminal ['y']]⟩).terms ['y', 'x'] ∧
    ¬ SeqSpells g ((Term.terminal ['x']).addExpression ⟨[.terminal ['y']]⟩).terms ['x', 'y'] := by
  constructor
  · exact ⟨_, .terminal (.terminal .nil), by simp [yield, nodeYield]⟩
  · rintro ⟨ns, h, hy⟩
    cases h with
    | terminal h => cases h with
      | terminal h => cases h; simp [yield, nodeYield] at hy

/-- C98: changing an item of a mutable iterator changes that item of the value and nothing else. -/
theorem C98_change_in_place (g : Grammar) (p : Production) (e : Expression) (i : Nat) (f : Production → Production)
    (h : Expression → Expression) (k : Term → Term) :
    ChangedAt f i g.productions (g.editProduction i f).productions ∧
    (ChangedAt h i p.rhs (p.editExpression i h).rhs ∧ (p.editExpression i h).lhs = p.lhs) ∧
    ChangedAt k i e.terms (e.editTerm i k).terms :=
  ⟨writeAt_changed _ _ _, ⟨writeAt_changed _ _ _, rfl⟩, writeAt_changed _ _ _⟩

/-- C98: adding an alternative to a production in place, at any position of the grammar: exactly this alternative is added, behind
those that the production has, the starting term stays, and every derivation stays. -/
theorem C98_add_alternative (g : Grammar) (i : Nat) (p : Production) (e : Expression) (hi : g.productions[i]? = some p) :
    (p.addToRhs e).rhs = p.rhs ++ [e] ∧ (p.addToRhs e).lhs = p.lhs ∧
    (g.editProduction i (·.addToRhs e)).startingTerm = g.startingTerm ∧
    (∀ l e', HasAlt (g.editProduction i (·.addToRhs e)) l e' ↔ HasAlt g l e' ∨ (l = p.lhs ∧ e' = e)) ∧
    ∀ S w t, IsParse g S w t → IsParse (g.editProduction i (·.addToRhs e)) S w t := by
  obtain ⟨hlt, hp⟩ := List.getElem?_eq_some_iff.1 hi
  have hsplit : g.productions = g.productions.take i ++ p :: g.productions.drop (i + 1) := by
    rw [← hp]; simp
  have hlen : (g.productions.take i).length = i := by simp; omega
  have hnew : (g.editProduction i (·.addToRhs e)).productions = g.productions.take i ++ p.addToRhs e :: g.productions.drop (i + 1) := by
    have := writeAt_append (·.addToRhs e) p (g.productions.drop (i + 1)) (g.productions.take i)
    rw [← hsplit, hlen] at this
    exact this
  have ha : ∀ l e', HasAlt (g.editProduction i (·.addToRhs e)) l e' ↔ HasAlt g l e' ∨ (l = p.lhs ∧ e' = e) := by
    intro l e'
    unfold HasAlt
    rw [hnew]
    constructor
    · rintro ⟨q, hq, h1, h2⟩
      rcases List.mem_append.1 hq with hq | hq
      · exact .inl ⟨q, List.mem_of_mem_take hq, h1, h2⟩
      · rcases List.mem_cons.1 hq with rfl | hq
        · rcases List.mem_append.1 h2 with h2 | h2
          · exact .inl ⟨p, List.mem_of_getElem? hi, h1, h2⟩
          · exact .inr ⟨h1.symm, by simpa using h2⟩
        · exact .inl ⟨q, List.mem_of_mem_drop hq, h1, h2⟩
    · rintro (⟨q, hq, h1, h2⟩ | ⟨rfl, rfl⟩)
      · rw [hsplit] at hq
        rcases List.mem_append.1 hq with hq | hq
        · exact ⟨q, List.mem_append_left _ hq, h1, h2⟩
        · rcases List.mem_cons.1 hq with rfl | hq
          · exact ⟨q.addToRhs e, by simp, h1, List.mem_append_left _ h2⟩
          · exact ⟨q, by simp [hq], h1, h2⟩
      · exact ⟨p.addToRhs e', by simp, rfl, by simp [Production.addToRhs]⟩
  refine ⟨rfl, rfl, ?_, ha, fun S w t h => isParse_mono (fun l e' h => (ha l e').2 (.inl h)) h⟩
  obtain ⟨ps⟩ := g
  cases ps with
  | nil => simp at hlt
  | cons q qs => cases i <;> simp [Grammar.startingTerm, Grammar.editProduction, writeAt, Production.addToRhs]

/-- C98: hence every tree drawn from a parser of the old grammar is drawn by finitely many calls from any parser of the new one. -/
theorem C98_old_results_kept {g : Grammar} {i p e S input it ts it' jt} (hi : g.productions[i]? = some p) (ho : Opened g S input it)
    (hd : Draws it ts it') (hj : Opened (g.editProduction i (·.addToRhs e)) S input jt) :
    ∀ t ∈ ts, ∃ more jt', Draws jt more jt' ∧ t ∈ more := by
  intro t ht
  have := (C98_add_alternative g i p e hi).2.2.2.2 S input t (C01_soundness ho hd t ht)
  simpa using C03_completeness hj .nil this

/-- C98: what was just added can be taken out again: the value before is restored if it did not contain an equal part, and otherwise
one with the same parts, where the first of the equal ones has moved to the end. -/
theorem C98_undo :
    (∀ (e : Expression) (t : Term), ∃ e', (e.addTerm t).removeTerm t = some (some t, e') ∧ e'.terms.Perm e.terms ∧ (t ∉ e.terms → e' = e)) ∧
    (∀ (p : Production) (e : Expression), ∃ p', (p.addToRhs e).removeFromRhs e = some (some e, p') ∧ p'.lhs = p.lhs ∧ p'.rhs.Perm p.rhs ∧
      (e ∉ p.rhs → p' = p)) ∧
    (∀ (g : Grammar) (p : Production), ∃ g', (g.addProduction p).removeProduction p = some (some p, g') ∧ g' = g) := by
  have first : ∀ {α : Type} {x : α} {l l' : List α}, FirstRemoved x (l ++ [x]) l' → l'.Perm l ∧ (x ∉ l → l' = l) := by
    rintro α x l l' ⟨a, b, h1, h2, rfl⟩
    constructor
    · have : (l ++ [x]).Perm (x :: (a ++ b)) := by rw [h1]; exact List.perm_middle
      exact ((List.perm_append_comm.trans this).cons_inv).symm
    · intro hx
      rcases List.eq_nil_or_concat b with rfl | ⟨c, z, rfl⟩
      · simpa using (List.append_inj' h1 rfl).1.symm
      · rw [List.concat_eq_append, ← List.cons_append, ← List.append_assoc] at h1
        have := (List.append_inj' h1 rfl).1
        exact absurd (by rw [this]; simp) hx
  refine ⟨fun e t => ?_, fun p e => ?_, fun g p => ?_⟩
  · obtain ⟨e', h1, h2⟩ := C46_remove_term (e.addTerm t) t (by simp [Expression.addTerm])
    refine ⟨e', h1, (first h2).1, fun h => ?_⟩
    have := (first h2).2 h
    cases e; cases e'; simp_all
  · obtain ⟨p', h1, h2, h3⟩ := C46_remove_from_rhs (p.addToRhs e) e (by simp [Production.addToRhs])
    refine ⟨p', h1, h2, (first h3).1, fun h => ?_⟩
    have h4 := (first h3).2 h
    cases p; cases p'
    simp only [Production.addToRhs] at h2
    simp_all
  · by_cases hp : p ∈ g.productions
    · obtain ⟨a, b, hg, hpa⟩ := List.eq_append_cons_of_mem hp
      have h := C46_remove_production_order (g.addProduction p) a (b ++ [p]) p hpa (by simp [Grammar.addProduction, hg])
      refine ⟨_, h, ?_⟩
      obtain ⟨ps⟩ := g
      simp only at hg
      simp [hg]
    · have h := C46_remove_production_order (g.addProduction p) g.productions [] p hp rfl
      exact ⟨_, h, by simp⟩

/-- C98: taking out an alternative in place: the derivations that stay are those without it, unless the grammar has it in another place. -/
theorem C98_remove_alternative (g : Grammar) (a b : List Production) (p p' : Production) (e : Expression)
    (hg : g.productions = a ++ p :: b) (hp : p.removeFromRhs e = some (some e, p')) (S : Term) (w : Str) (t : ParseTree) :
    (∀ l e', HasAlt g l e' ↔ HasAlt ⟨a ++ p' :: b⟩ l e' ∨ (l = p.lhs ∧ e' = e)) ∧
    (IsParse ⟨a ++ p' :: b⟩ S w t ↔ IsParse g S w t ∧
      ((p.lhs, e.terms) ∈ nodeAlts (.nonterminal t.lhs t.rhs) → HasAlt ⟨a ++ p' :: b⟩ p.lhs e)) := by
  have hmem : e ∈ p.rhs := by
    by_contra hn
    rw [C46_remove_from_rhs_absent p e hn] at hp
    injection hp with hp; injection hp with hp; cases hp
  obtain ⟨p2, h1, h2, x, y, h3, _, h4⟩ := C46_remove_from_rhs p e hmem
  rw [hp] at h1
  injection h1 with h1; injection h1 with _ h1
  subst h1
  have ha : ∀ l e', HasAlt g l e' ↔ HasAlt ⟨a ++ p' :: b⟩ l e' ∨ (l = p.lhs ∧ e' = e) := by
    intro l e'
    unfold HasAlt
    rw [hg]
    constructor
    · rintro ⟨q, hq, h5, h6⟩
      rcases List.mem_append.1 hq with hq | hq
      · exact .inl ⟨q, by simp [hq], h5, h6⟩
      · rcases List.mem_cons.1 hq with rfl | hq
        · rw [h3] at h6
          rcases List.mem_append.1 h6 with h6 | h6
          · exact .inl ⟨p', by simp, by rw [h2, h5], by simp [h4, h6]⟩
          · rcases List.mem_cons.1 h6 with rfl | h6
            · exact .inr ⟨h5.symm, rfl⟩
            · exact .inl ⟨p', by simp, by rw [h2, h5], by simp [h4, h6]⟩
        · exact .inl ⟨q, by simp [hq], h5, h6⟩
    · rintro (⟨q, hq, h5, h6⟩ | ⟨rfl, rfl⟩)
      · simp only [List.mem_append, List.mem_cons] at hq
        rcases hq with hq | rfl | hq
        · exact ⟨q, by simp [hq], h5, h6⟩
        · refine ⟨p, by simp, by rw [← h2, h5], ?_⟩
          rw [h4] at h6
          rw [h3]
          rcases List.mem_append.1 h6 with h6 | h6 <;> simp [h6]
        · exact ⟨q, by simp [hq], h5, h6⟩
      · exact ⟨p, by simp, rfl, hmem⟩
  refine ⟨ha, ?_⟩
  rw [isParse_iff_alts, isParse_iff_alts]
  constructor
  · rintro ⟨c1, c2, c3, c4⟩
    exact ⟨⟨c1, c2, c3, fun z hz => (ha _ _).2 (.inl (c4 z hz))⟩, fun h => c4 _ h⟩
  · rintro ⟨⟨c1, c2, c3, c4⟩, c5⟩
    refine ⟨c1, c2, c3, fun z hz => ?_⟩
    rcases (ha _ _).1 (c4 z hz) with h | ⟨h, h'⟩
    · exact h
    · obtain ⟨l, ts⟩ := z
      simp only at h h'
      subst h h'
      exact c5 hz

/-- C98: the constructors and sizes. -/
theorem C98_constructors (t : Term) (es : List Expression) (ts : List Term) (ps : List Production) :
    (Production.fromParts t es).lhs = t ∧ (Production.fromParts t es).rhs = es ∧ (Expression.fromParts ts).terms = ts ∧
    (Grammar.fromParts ps).productions = ps ∧ (∀ S w, ¬ Derives Grammar.new S w) ∧ Production.new.isEmpty = true ∧
    (∀ p : Production, p.isEmpty = true ↔ p.len = 0) ∧ (∀ (p : Production) e, (p.addToRhs e).len = p.len + 1) ∧
    (∀ (g : Grammar) p, (g.addProduction p).productionCount = g.productionCount + 1) ∧
    Grammar.new.startingTerm = none ∧ (Grammar.new.addProduction Production.new).startingTerm = some (.nonterminal []) := by
  refine ⟨rfl, rfl, rfl, rfl, ?_, rfl, ?_, ?_, ?_, rfl, rfl⟩
  · rintro S w ⟨t, _, ⟨e, ⟨p, hp, _⟩, _⟩, _⟩
    simp [Grammar.new] at hp
  · intro p; simp [Production.isEmpty, Production.len]
  · intro p e; simp [Production.len, Production.addToRhs]
  · intro g p; simp [Grammar.productionCount, Grammar.addProduction]

/-- Adding `'z'` to the first production of `<e> ::= …` adds a derivation. -/
example : (∃ p, gExp.productions[0]? = some p) ∧
    Derives (gExp.editProduction 0 (·.addToRhs ⟨[.terminal ['z']]⟩)) (.nonterminal ['e']) ['z'] :=
  ⟨⟨_, rfl⟩, ⟨.nonterminal ['e'], [.terminal ['z']]⟩, rfl,
    ⟨⟨[.terminal ['z']]⟩, ((C98_add_alternative gExp 0 _ _ rfl).2.2.2.1 _ _).2 (.inr ⟨rfl, rfl⟩), .terminal .nil⟩, by simp [yield, nodeYield]⟩

/-- Taking out the alternative again. -/
example : ((⟨.nonterminal ['e'], [⟨[.terminal ['y']]⟩]⟩ : Production).addToRhs ⟨[.terminal ['z']]⟩).removeFromRhs ⟨[.terminal ['z']]⟩ =
    some (some ⟨[.terminal ['z']]⟩, ⟨.nonterminal ['e'], [⟨[.terminal ['y']]⟩]⟩) := by decide

end Bnf.Props
