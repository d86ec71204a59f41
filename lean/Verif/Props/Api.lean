import Verif.Proofs.Api
import Verif.Props.Parsing
import Verif.Props.Validation

/-! # Properties C46–C49 and C53: building and changing grammars -/

set_option autoImplicit false

namespace Bnf.Props
open Bnf Spec

/-! ## C46 -/

/-- C46: `remove_term` removes the first equal term, returns it and keeps the order of the others. -/
theorem C46_remove_term (e : Expression) (t : Term) (h : t ∈ e.terms) :
    ∃ e', e.removeTerm t = some (some t, e') ∧ FirstRemoved t e.terms e'.terms := removeTerm_some h

/-- C46: `remove_term` of a term that does not occur. -/
theorem C46_remove_term_absent (e : Expression) (t : Term) (h : t ∉ e.terms) : e.removeTerm t = some (none, e) := removeTerm_none h

example : (⟨[.terminal ['x'], .terminal ['y'], .terminal ['z'], .terminal ['y']]⟩ : Expression).removeTerm (.terminal ['y']) =
  some (some (.terminal ['y']), ⟨[.terminal ['x'], .terminal ['z'], .terminal ['y']]⟩) := rfl

/-- C46: `remove_from_rhs` removes the first equal alternative, returns it and keeps the order of the others. -/
theorem C46_remove_from_rhs (p : Production) (e : Expression) (h : e ∈ p.rhs) :
    ∃ p', p.removeFromRhs e = some (some e, p') ∧ p'.lhs = p.lhs ∧ FirstRemoved e p.rhs p'.rhs := removeFromRhs_some h

/-- C46: `remove_from_rhs` of an alternative that does not occur. -/
theorem C46_remove_from_rhs_absent (p : Production) (e : Expression) (h : e ∉ p.rhs) : p.removeFromRhs e = some (none, p) :=
  removeFromRhs_none h

/-- C46: `remove_production` returns an equal production and keeps the others up to order: the last one moves to the place of the removed one. -/
theorem C46_remove_production (g : Grammar) (p : Production) (h : p ∈ g.productions) :
    ∃ g', g.removeProduction p = some (some p, g') ∧ g.productions.Perm (p :: g'.productions) := by
  obtain ⟨a, b, g', h1, _, h3, h4⟩ := removeProduction_some h
  refine ⟨g', h3, ?_⟩
  rw [h1]
  rcases h4 with ⟨rfl, h4⟩ | ⟨c, z, rfl, h4⟩
  · rw [h4]; exact List.perm_middle.trans (by simp)
  · rw [h4]
    refine List.perm_middle.trans (.cons _ ?_)
    refine .append_left _ ?_
    exact List.perm_append_comm

/-- C46: `remove_production` of a production that does not occur. -/
theorem C46_remove_production_absent (g : Grammar) (p : Production) (h : p ∉ g.productions) : g.removeProduction p = some (none, g) :=
  removeProduction_none h

/-- C46: the order of the others, exactly. -/
theorem C46_remove_production_order (g : Grammar) (a b : List Production) (p : Production) (hp : p ∉ a)
    (hg : g.productions = a ++ p :: b) :
    g.removeProduction p = some (some p, ⟨a ++ (b.getLast?.toList ++ b.dropLast)⟩) := by
  obtain ⟨a', b', g', h1, h2, h3, h4⟩ := removeProduction_some (g := g) (p := p) (by rw [hg]; simp)
  have hsplit : a' = a ∧ b' = b := by
    rw [hg] at h1
    have : ∀ {a a' b b' : List Production}, p ∉ a → p ∉ a' → a ++ p :: b = a' ++ p :: b' → a' = a ∧ b' = b := by
      intro a
      induction a with
      | nil =>
        intro a' b b' _ h2 h
        cases a' with
        | nil => simp at h; simp [h]
        | cons x xs => simp at h h2; exact absurd h.1 h2.1
      | cons y ys ih =>
        intro a' b b' h1 h2 h
        cases a' with
        | nil => simp at h h1; exact absurd h.1.symm h1.1
        | cons x xs =>
          simp at h h1 h2
          obtain ⟨r1, r2⟩ := ih h1.2 h2.2 h.2
          exact ⟨by rw [h.1, r1], r2⟩
    exact this hp h2 h1
  obtain ⟨rfl, rfl⟩ := hsplit
  obtain ⟨ps⟩ := g'
  rw [h3]
  rcases h4 with ⟨rfl, h4⟩ | ⟨c, z, rfl, h4⟩
  · simp at h4; simp [h4]
  · simp at h4; simp [h4]

example : gOk.removeProduction ⟨.nonterminal ['b'], [⟨[.terminal ['y']]⟩]⟩ =
  some (some ⟨.nonterminal ['b'], [⟨[.terminal ['y']]⟩]⟩, ⟨gOk.productions.take 1⟩) := by decide

/-! ## C47 -/

/-- C47: removing a production other than the first keeps the starting term. -/
theorem C47_start_kept (g : Grammar) (first p : Production) (rest : List Production) (hg : g.productions = first :: rest)
    (hp : p ∈ rest) (hne : p ≠ first) : ∃ g', g.removeProduction p = some (some p, g') ∧ g'.startingTerm = g.startingTerm := by
  obtain ⟨a, b, g', h1, h2, h3, h4⟩ := removeProduction_some (g := g) (p := p) (by rw [hg]; simp [hp])
  refine ⟨g', h3, ?_⟩
  have hs : g.startingTerm = some first.lhs := by simp [Grammar.startingTerm, hg]
  rw [hs]
  cases a with
  | nil => rw [hg] at h1; simp at h1; exact absurd h1.1.symm hne
  | cons x xs =>
    rw [hg] at h1
    simp at h1
    rcases h4 with ⟨_, h4⟩ | ⟨c, z, _, h4⟩ <;> simp [Grammar.startingTerm, h4, h1.1]

/-- C47: parsing with an explicit start after a removal: the derivation trees of the new grammar are those of the old one that
use only alternatives of the remaining productions. -/
theorem C47_trees_after_removal (g g' : Grammar) (p : Production) (h : g.removeProduction p = some (some p, g')) (S : Term) (w : Str)
    (t : ParseTree) : IsParse g' S w t ↔
      IsParse g S w t ∧ ∀ x ∈ nodeAlts (.nonterminal t.lhs t.rhs), HasAlt g' x.1 ⟨x.2⟩ := by
  by_cases hp : p ∈ g.productions
  · obtain ⟨g2, h1, h2⟩ := C46_remove_production g p hp
    rw [h1] at h
    injection h with h
    injection h with _ h
    subst h
    rw [isParse_iff_alts, isParse_iff_alts]
    constructor
    · rintro ⟨a, b, c, d⟩
      refine ⟨⟨a, b, c, fun x hx => ?_⟩, d⟩
      obtain ⟨q, hq, hq'⟩ := d x hx
      exact ⟨q, h2.mem_iff.2 (by simp [hq]), hq'⟩
    · rintro ⟨⟨a, b, c, _⟩, d⟩
      exact ⟨a, b, c, d⟩
  · rw [removeProduction_none hp] at h
    injection h with h
    injection h with h
    cases h

/-- C47: the alternatives of the old grammar are those of the new one and those of the removed production. -/
theorem C47_alternatives (g g' : Grammar) (p : Production) (h : g.removeProduction p = some (some p, g')) (l : Term) (e : Expression) :
    HasAlt g l e ↔ HasAlt g' l e ∨ (l = p.lhs ∧ e ∈ p.rhs) := by
  by_cases hp : p ∈ g.productions
  · obtain ⟨g2, h1, h2⟩ := C46_remove_production g p hp
    rw [h1] at h
    injection h with h
    injection h with _ h
    subst h
    unfold HasAlt
    constructor
    · rintro ⟨q, hq, rfl, h4⟩
      rcases List.mem_cons.1 (h2.mem_iff.1 hq) with rfl | hq
      · exact .inr ⟨rfl, h4⟩
      · exact .inl ⟨q, hq, rfl, h4⟩
    · rintro (⟨q, hq, h3⟩ | ⟨rfl, h4⟩)
      · exact ⟨q, h2.mem_iff.2 (by simp [hq]), h3⟩
      · exact ⟨p, hp, rfl, h4⟩
  · rw [removeProduction_none hp] at h
    injection h with h
    injection h with h
    cases h

/-- C47: removing the first of three productions makes the third one the start, not the second one. -/
theorem C47_start_witness : ∃ (g g' : Grammar) (p q r : Production), g.productions = [p, q, r] ∧ g.removeProduction p = some (some p, g') ∧
    g'.startingTerm = some r.lhs ∧ r.lhs ≠ q.lhs :=
  ⟨⟨[⟨.nonterminal ['a'], []⟩, ⟨.nonterminal ['b'], []⟩, ⟨.nonterminal ['c'], []⟩]⟩, ⟨[⟨.nonterminal ['c'], []⟩, ⟨.nonterminal ['b'], []⟩]⟩,
    ⟨.nonterminal ['a'], []⟩, ⟨.nonterminal ['b'], []⟩, ⟨.nonterminal ['c'], []⟩, rfl, by decide, rfl, by decide⟩

example : ∃ g', gOk.removeProduction ⟨.nonterminal ['b'], [⟨[.terminal ['y']]⟩]⟩ =
    some (some ⟨.nonterminal ['b'], [⟨[.terminal ['y']]⟩]⟩, g') ∧ g'.startingTerm = gOk.startingTerm :=
  C47_start_kept gOk _ _ _ rfl (by simp) (by decide)

/-! ## C53: adding -/

/-- C53: adding a production keeps the starting term of a grammar that has one, and the derivation trees of the new grammar are
those whose nodes use alternatives of the old grammar or of the added production; in particular all old ones. -/
theorem C53_add_production (g : Grammar) (p : Production) :
    (g.productions ≠ [] → (g.addProduction p).startingTerm = g.startingTerm) ∧
    (∀ l e, HasAlt (g.addProduction p) l e ↔ HasAlt g l e ∨ (l = p.lhs ∧ e ∈ p.rhs)) ∧
    ∀ S w t, IsParse g S w t → IsParse (g.addProduction p) S w t := by
  have ha : ∀ l e, HasAlt (g.addProduction p) l e ↔ HasAlt g l e ∨ (l = p.lhs ∧ e ∈ p.rhs) := by
    intro l e
    simp only [HasAlt, Grammar.addProduction, List.mem_append, List.mem_singleton]
    constructor
    · rintro ⟨q, hq | rfl, h1, h2⟩
      · exact .inl ⟨q, hq, h1, h2⟩
      · exact .inr ⟨h1.symm, h2⟩
    · rintro (⟨q, hq, h1⟩ | ⟨h1, h2⟩)
      · exact ⟨q, .inl hq, h1⟩
      · exact ⟨p, .inr rfl, h1.symm, h2⟩
  refine ⟨fun h => ?_, ha, fun S w t h => ?_⟩
  · cases hp : g.productions with
    | nil => exact absurd hp h
    | cons q qs => simp [Grammar.startingTerm, Grammar.addProduction, hp]
  · rw [isParse_iff_alts] at h ⊢
    exact ⟨h.1, h.2.1, h.2.2.1, fun x hx => (ha _ _).2 (.inl (h.2.2.2 x hx))⟩

/-- C53: hence every tree drawn from a parser of the old grammar is drawn by finitely many calls from any parser of the new one. -/
theorem C53_old_results_kept {g p S input it ts it' jt} (ho : Opened g S input it) (hd : Draws it ts it')
    (hj : Opened (g.addProduction p) S input jt) : ∀ t ∈ ts, ∃ more jt', Draws jt more jt' ∧ t ∈ more := by
  intro t ht
  have := (C53_add_production g p).2.2 S input t (C01_soundness ho hd t ht)
  simpa using C03_completeness hj .nil this

example : ∃ it it' jt, Opened gExp (.nonterminal ['e']) ['é', '+', 'y'] it ∧ Draws it [tExp] it' ∧
    Opened (gExp.addProduction ⟨.nonterminal ['e'], []⟩) (.nonterminal ['e']) ['é', '+', 'y'] jt :=
  ⟨_, _, _, .deprecatedStarting rfl, .cons ⟨100, rfl⟩ .nil, .deprecatedStarting rfl⟩

/-! ## C48: macros -/

/-- C48: `expression!` accepts exactly the nonempty sequences of terms and builds the expression of these terms. -/
theorem C48_expression_macro (toks : List MToken) (e : Expression) :
    expressionMacro toks = some e ↔ e.terms ≠ [] ∧ toks = e.terms.map termToken := by
  constructor
  · intro h
    unfold expressionMacro at h
    split at h
    · obtain ⟨ts, h1, rfl⟩ := expressionCollect_some _ _ _ h
      simp [h1, termToken]
    · obtain ⟨ts, h1, rfl⟩ := expressionCollect_some _ _ _ h
      simp [h1, termToken]
    · cases h
  · rintro ⟨h1, rfl⟩
    obtain ⟨ts⟩ := e
    cases ts with
    | nil => exact absurd rfl h1
    | cons t ts => cases t <;> simp [expressionMacro, termToken, expressionCollect_terms]

/-- C48: `production!` accepts exactly a name, `::=` and alternatives separated by bars; it builds these alternatives, but all
except the last one in reverse order. -/
theorem C48_production_macro (toks : List MToken) (p : Production) :
    productionMacro toks = some p ↔ ∃ n alts, alts ≠ [] ∧ toks = prodTokens (n, alts) ∧ p = denote (n, lastKept alts) := by
  have fwd : ∀ n alts, alts ≠ [] → productionMacro (prodTokens (n, alts)) = some (denote (n, lastKept alts)) := by
    intro n alts h
    obtain ⟨as, a, rfl, h2⟩ := alts_concat h
    rw [h2]
    simp [prodTokens, productionMacro, productionCollect_alts, denote]
  constructor
  · intro h
    have h0 := h
    unfold productionMacro at h
    split at h
    · rename_i n rest
      simp only [Option.map_eq_some_iff] at h
      obtain ⟨es, h1, _⟩ := h
      obtain ⟨a, as, rfl⟩ := productionCollect_some _ _ _ _ h1
      refine ⟨n, a :: as, by simp, rfl, ?_⟩
      have := fwd n (a :: as) (by simp)
      rw [prodTokens] at this
      rw [this] at h0
      injection h0 with h0
      exact h0.symm
    · cases h
  · rintro ⟨n, alts, h, rfl, rfl⟩
    exact fwd n alts h

/-- C48: `grammar!` accepts exactly nothing, or productions separated by semicolons with an optional one at the end; it builds
the productions in reverse order except for the last one, with all alternatives reversed in them and all except the last one in
the last production. -/
theorem C48_grammar_macro (toks : List MToken) (g : Grammar) :
    grammarMacro toks = some g ↔ (toks = [] ∧ g = ⟨[]⟩) ∨
      ∃ (ws : List Written) (w : Written) (tail : List MToken), (∀ x ∈ ws ++ [w], x.2 ≠ []) ∧ (tail = [] ∨ tail = [.semi]) ∧
        toks = gramTokens (ws ++ [w]) ++ tail ∧
        g = ⟨(ws.map fun x => denote (x.1, x.2.reverse)).reverse ++ [denote (w.1, lastKept w.2)]⟩ := by
  constructor
  · exact grammarMacro_some
  · rintro (⟨rfl, rfl⟩ | ⟨ws, w, tail, h1, h2, rfl, rfl⟩)
    · rfl
    · exact grammarMacro_eq ws w tail h1 h2

/-- C48: the macros build the written alternatives, hence the derivation trees for every starting term are those of the written
productions. -/
theorem C48_same_trees (ws : List Written) (g : Grammar) (hne : ∀ x ∈ ws, x.2 ≠ []) (h : grammarMacro (gramTokens ws) = some g)
    (S : Term) (input : Str) (t : ParseTree) : IsParse g S input t ↔ IsParse ⟨ws.map denote⟩ S input t := by
  rcases List.eq_nil_or_concat ws with rfl | ⟨vs, w, rfl⟩
  · simp [gramTokens, grammarMacro] at h
    rw [← h]; simp
  · have := grammarMacro_eq vs w [] (by simpa using hne) (.inl rfl)
    rw [List.concat_eq_append] at h
    rw [List.append_nil, h] at this
    injection this with this
    rw [this, List.concat_eq_append]
    exact isParse_congr (macroGrammar_hasAlt vs w)

/-- C48: up to two productions the starting term is the written one … -/
theorem C48_start_two_productions (w : Written) (ws : List Written) (hl : ws.length ≤ 1) (g : Grammar) (hne : ∀ x ∈ w :: ws, x.2 ≠ [])
    (h : grammarMacro (gramTokens (w :: ws)) = some g) : g.startingTerm = some (.nonterminal w.1) := by
  rcases ws with _ | ⟨v, _ | ⟨_, _⟩⟩
  · have := grammarMacro_eq [] w [] (by simpa using hne) (.inl rfl)
    simp only [List.nil_append, List.append_nil] at this
    rw [this] at h
    injection h with h
    simp [← h, macroGrammar, Grammar.startingTerm, denote]
  · have := grammarMacro_eq [w] v [] (by simpa using hne) (.inl rfl)
    simp only [List.append_nil, List.cons_append, List.nil_append] at this
    rw [this] at h
    injection h with h
    simp [← h, macroGrammar, Grammar.startingTerm, denote]
  · simp at hl

/-- C48: … but with more productions it is the last but one. -/
theorem C48_start_last_but_one (ws : List Written) (v w : Written) (g : Grammar) (hne : ∀ x ∈ ws ++ [v, w], x.2 ≠ [])
    (h : grammarMacro (gramTokens (ws ++ [v, w])) = some g) : g.startingTerm = some (.nonterminal v.1) := by
  have := grammarMacro_eq (ws ++ [v]) w [] (by simpa using hne) (.inl rfl)
  rw [List.append_nil, show ws ++ [v] ++ [w] = ws ++ [v, w] by simp, h] at this
  injection this with this
  simp [this, macroGrammar, Grammar.startingTerm, denote]

/-- C48: `grammar! { <a> ::= 'x'; <b> ::= 'y'; <c> ::= 'z' }` starts with `<b>`, the written text with `<a>`. -/
theorem C48_start_witness : ∃ (ws : List Written) (g : Grammar), grammarMacro (gramTokens ws) = some g ∧
    g.startingTerm ≠ (⟨ws.map denote⟩ : Grammar).startingTerm :=
  ⟨[(['a'], [[.terminal ['x']]]), (['b'], [[.terminal ['y']]]), (['c'], [[.terminal ['z']]])], _, rfl, by decide⟩

/-- C48: `production!(<a> ::= 'x' | 'y' | 'z')` has the alternatives 'y', 'x', 'z'. -/
theorem C48_order_witness : productionMacro (prodTokens (['a'], [[.terminal ['x']], [.terminal ['y']], [.terminal ['z']]])) =
    some ⟨.nonterminal ['a'], [⟨[.terminal ['y']]⟩, ⟨[.terminal ['x']]⟩, ⟨[.terminal ['z']]⟩]⟩ := rfl

/-! ## C49: operators -/

/-- C49: all sums consist of the terms of both operands; those with an expression on the left in the written order. -/
theorem C49_sums (a b : Term) (e f : Expression) :
    (a.addTerm b).terms = [a, b] ∧
    (e.addTermOp b).terms = e.terms ++ [b] ∧ (e.refAddTerm b).terms = e.terms ++ [b] ∧
    (e.addExpression f).terms = e.terms ++ f.terms ∧ (e.refAddExpression f).terms = e.terms ++ f.terms ∧
    (a.addExpression e).terms.Perm (a :: e.terms) ∧ a.addExpressionRef e = a.addExpression e := by
  refine ⟨rfl, rfl, ?_, ?_, ?_, ?_, ?_⟩
  · simp [Expression.refAddTerm, Expression.addTerm, addTerms_terms, Expression.new]
  · simp [Expression.addExpression, addTerms_terms]
  · simp [Expression.refAddExpression, addTerms_terms, Expression.new]
  · simp only [Term.addExpression, Expression.addTerm]
    exact List.perm_append_comm
  · simp [Term.addExpressionRef, Term.addExpression, Expression.addTerm, addTerms_terms, Expression.new]

/-- C49: `Term + Expression` puts the term at the end, so the written order is kept only if the term commutes with the expression. -/
theorem C49_term_plus_expression (a : Term) (e : Expression) : (a.addExpression e).terms = e.terms ++ [a] ∧
    ((a.addExpression e).terms = a :: e.terms ↔ ∀ t ∈ e.terms, t = a) := by
  refine ⟨rfl, ?_⟩
  obtain ⟨ts⟩ := e
  show ts ++ [a] = a :: ts ↔ ∀ t ∈ ts, t = a
  induction ts with
  | nil => simp
  | cons t ts ih =>
    simp only [List.cons_append, List.cons.injEq, List.mem_cons, forall_eq_or_imp]
    constructor
    · rintro ⟨rfl, h⟩; exact ⟨rfl, ih.1 h⟩
    · rintro ⟨rfl, h⟩; exact ⟨rfl, ih.2 h⟩

/-- C49: hence addition is not associative: `'x' + ('y' + 'z')` is `'y' 'z' 'x'`. -/
theorem C49_order_witness : ∃ a b c : Term, (a.addTerm b).addTermOp c ≠ a.addExpression (b.addTerm c) :=
  ⟨.terminal ['x'], .terminal ['y'], .terminal ['z'], by decide⟩

end Bnf.Props
