import Verif.Spec.Api
import Verif.Spec.Display

/-! # Methods, operators, macros -/

set_option autoImplicit false

namespace Bnf
open Spec

/-! ## Removal -/

theorem position_none {α : Type} [DecidableEq α] {y : α} : ∀ {l : List α}, position y l = none → y ∉ l
  | [], _ => by simp
  | x :: xs, h => by
    rw [position] at h
    split at h
    · cases h
    · rename_i hx
      simp only [Option.map_eq_none_iff] at h
      simp [position_none h, Ne.symm hx]

theorem position_some {α : Type} [DecidableEq α] {y : α} : ∀ {l : List α} {i}, position y l = some i →
    ∃ a b, l = a ++ y :: b ∧ y ∉ a ∧ i = a.length
  | [], _, h => by simp [position] at h
  | x :: xs, i, h => by
    rw [position] at h
    split at h
    · rename_i hx
      subst hx
      injection h with h
      exact ⟨[], xs, rfl, by simp, h.symm⟩
    · rename_i hx
      simp only [Option.map_eq_some_iff] at h
      obtain ⟨j, hj, rfl⟩ := h
      obtain ⟨a, b, rfl, h2, rfl⟩ := position_some hj
      exact ⟨x :: a, b, rfl, by simp [h2, Ne.symm hx], by simp⟩

theorem vecRemove_append {α : Type} (y : α) (b : List α) : ∀ a : List α, vecRemove (a ++ y :: b) a.length = some (y, a ++ b)
  | [] => rfl
  | x :: a => by simp [vecRemove, vecRemove_append y b a]

theorem vecSwapRemove_last {α : Type} (y : α) (a : List α) : vecSwapRemove (a ++ [y]) a.length = some (y, a) := by
  simp [vecSwapRemove]

theorem vecSwapRemove_middle {α : Type} (y z : α) (a c : List α) :
    vecSwapRemove (a ++ y :: (c ++ [z])) a.length = some (y, a ++ z :: c) := by
  have h : a ++ y :: (c ++ [z]) = (a ++ y :: c) ++ [z] := by simp
  unfold vecSwapRemove
  rw [h, List.getLast?_append]
  simp only [List.append_assoc, List.cons_append, List.getElem?_append_right (Nat.le_refl _), Nat.sub_self, List.getElem?_cons_zero,
    List.getLast?_singleton, Option.some_or]
  rw [List.set_append_right _ _ (Nat.le_refl _)]
  simp only [Nat.sub_self, List.set_cons_zero]
  rw [show a ++ z :: (c ++ [z]) = (a ++ z :: c) ++ [z] by simp, List.dropLast_concat]

theorem removeTerm_some {e : Expression} {t : Term} (h : t ∈ e.terms) : ∃ e', e.removeTerm t = some (some t, e') ∧ FirstRemoved t e.terms e'.terms := by
  unfold Expression.removeTerm
  cases hp : position t e.terms with
  | none => exact absurd h (position_none hp)
  | some i =>
    obtain ⟨a, b, h1, h2, rfl⟩ := position_some hp
    simp only [h1, vecRemove_append]
    exact ⟨_, rfl, a, b, rfl, h2, rfl⟩

theorem removeTerm_none {e : Expression} {t : Term} (h : t ∉ e.terms) : e.removeTerm t = some (none, e) := by
  unfold Expression.removeTerm
  cases hp : position t e.terms with
  | none => rfl
  | some i =>
    obtain ⟨a, b, h1, h2, rfl⟩ := position_some hp
    exact absurd (by rw [h1]; simp) h

theorem removeFromRhs_some {p : Production} {e : Expression} (h : e ∈ p.rhs) :
    ∃ p', p.removeFromRhs e = some (some e, p') ∧ p'.lhs = p.lhs ∧ FirstRemoved e p.rhs p'.rhs := by
  unfold Production.removeFromRhs
  cases hp : position e p.rhs with
  | none => exact absurd h (position_none hp)
  | some i =>
    obtain ⟨a, b, h1, h2, rfl⟩ := position_some hp
    simp only [h1, vecRemove_append]
    exact ⟨_, rfl, rfl, a, b, rfl, h2, rfl⟩

theorem removeFromRhs_none {p : Production} {e : Expression} (h : e ∉ p.rhs) : p.removeFromRhs e = some (none, p) := by
  unfold Production.removeFromRhs
  cases hp : position e p.rhs with
  | none => rfl
  | some i =>
    obtain ⟨a, b, h1, h2, rfl⟩ := position_some hp
    exact absurd (by rw [h1]; simp) h

theorem removeProduction_some {g : Grammar} {p : Production} (h : p ∈ g.productions) :
    ∃ a b g', g.productions = a ++ p :: b ∧ p ∉ a ∧ g.removeProduction p = some (some p, g') ∧
      ((b = [] ∧ g'.productions = a) ∨ ∃ c z, b = c ++ [z] ∧ g'.productions = a ++ z :: c) := by
  unfold Grammar.removeProduction
  cases hp : position p g.productions with
  | none => exact absurd h (position_none hp)
  | some i =>
    obtain ⟨a, b, h1, h2, rfl⟩ := position_some hp
    rcases List.eq_nil_or_concat b with rfl | ⟨c, z, rfl⟩
    · simp only [h1, vecSwapRemove_last]
      exact ⟨a, [], _, rfl, h2, rfl, .inl ⟨rfl, rfl⟩⟩
    · simp only [h1, List.concat_eq_append, vecSwapRemove_middle]
      exact ⟨a, _, _, rfl, h2, rfl, .inr ⟨c, z, rfl, rfl⟩⟩

theorem removeProduction_none {g : Grammar} {p : Production} (h : p ∉ g.productions) : g.removeProduction p = some (none, g) := by
  unfold Grammar.removeProduction
  cases hp : position p g.productions with
  | none => rfl
  | some i =>
    obtain ⟨a, b, h1, h2, rfl⟩ := position_some hp
    exact absurd (by rw [h1]; simp) h

/-! ## Trees and alternatives -/

theorem isForest_alts {g : Grammar} {ts ns} (h : IsForest g ts ns) :
    ns.map childTerm = ts ∧ AllInnerNonterminals ns ∧ ∀ x ∈ forestAlts ns, HasAlt g x.1 ⟨x.2⟩ := by
  induction h with
  | nil => simp [AllInnerNonterminals, forestAlts]
  | terminal _ ih =>
    obtain ⟨h1, h2, h3⟩ := ih
    simp [AllInnerNonterminals, InnerNonterminals, forestAlts, nodeAlts, childTerm, h1, h2]
    exact fun a b h => h3 (a, b) h
  | @nonterminal n e kids ts ns ha _ _ ih1 ih2 =>
    obtain ⟨h1, h2, h3⟩ := ih1
    obtain ⟨h4, h5, h6⟩ := ih2
    refine ⟨by simp [childTerm, h4], by simp [AllInnerNonterminals, InnerNonterminals, h2, h5], ?_⟩
    intro x hx
    simp only [forestAlts, nodeAlts, List.cons_append, List.mem_cons, List.mem_append] at hx
    rcases hx with rfl | hx | hx
    · simp only [h1]; exact ha
    · exact h3 x hx
    · exact h6 x hx

theorem isForest_of_alts {g : Grammar} : ∀ (ns : List ParseTreeNode), AllInnerNonterminals ns → (∀ x ∈ forestAlts ns, HasAlt g x.1 ⟨x.2⟩) →
    IsForest g (ns.map childTerm) ns
  | [], _, _ => .nil
  | .terminal s :: ns, h, ha => by
    rw [AllInnerNonterminals] at h
    exact .terminal (isForest_of_alts ns h.2 (fun x hx => ha x (by simp [forestAlts, nodeAlts, hx])))
  | .nonterminal lhs kids :: ns, h, ha => by
    rw [AllInnerNonterminals, InnerNonterminals] at h
    obtain ⟨⟨⟨n, rfl⟩, h1⟩, h2⟩ := h
    exact .nonterminal (ha (.nonterminal n, kids.map childTerm) (by simp [forestAlts, nodeAlts]))
      (isForest_of_alts kids h1 (fun x hx => ha x (by simp [forestAlts, nodeAlts, hx])))
      (isForest_of_alts ns h2 (fun x hx => ha x (by simp [forestAlts, nodeAlts, hx])))

theorem isParse_iff_alts {g : Grammar} {S w t} : IsParse g S w t ↔
    t.lhs = S ∧ yield t.rhs = w ∧ AllInnerNonterminals t.rhs ∧ ∀ x ∈ nodeAlts (.nonterminal t.lhs t.rhs), HasAlt g x.1 ⟨x.2⟩ := by
  constructor
  · rintro ⟨h1, ⟨e, h2, h3⟩, h4⟩
    obtain ⟨h5, h6, h7⟩ := isForest_alts h3
    refine ⟨h1, h4, h6, ?_⟩
    intro x hx
    rw [nodeAlts, List.mem_cons] at hx
    rcases hx with rfl | hx
    · simp only [h5]; exact h2
    · exact h7 x hx
  · rintro ⟨h1, h2, h3, h4⟩
    exact ⟨h1, ⟨⟨t.rhs.map childTerm⟩, h4 (t.lhs, t.rhs.map childTerm) (by simp [nodeAlts]),
      isForest_of_alts t.rhs h3 (fun x hx => h4 x (by simp [nodeAlts, hx]))⟩, h2⟩

theorem isParse_congr {g g' : Grammar} (h : ∀ l e, HasAlt g l e ↔ HasAlt g' l e) {S w t} : IsParse g S w t ↔ IsParse g' S w t := by
  rw [isParse_iff_alts, isParse_iff_alts]
  simp only [h]

/-! ## Operators -/

theorem addTerms_terms : ∀ (ts : List Term) (e : Expression), (e.addTerms ts).terms = e.terms ++ ts
  | [], e => by simp [Expression.addTerms]
  | t :: ts, e => by simp [Expression.addTerms, addTerms_terms ts, Expression.addTerm]

/-! ## Macros -/

theorem altTokens_single (a : List Term) : altTokens [a] = a.map termToken := by simp [altTokens]
theorem altTokens_cons (a b : List Term) (as : List (List Term)) :
    altTokens (a :: b :: as) = a.map termToken ++ .bar :: altTokens (b :: as) := by simp [altTokens]

theorem altTokens_head (t : Term) (a : List Term) (as : List (List Term)) :
    altTokens ((t :: a) :: as) = termToken t :: altTokens (a :: as) := by
  cases as <;> simp [altTokens]

theorem expressionCollect_terms : ∀ (ts cur : List Term), expressionCollect cur (ts.map termToken) = some ⟨cur ++ ts⟩
  | [], cur => by simp [expressionCollect]
  | .terminal s :: ts, cur => by simp [expressionCollect, termToken, expressionCollect_terms ts]
  | .nonterminal s :: ts, cur => by simp [expressionCollect, termToken, expressionCollect_terms ts]

theorem expressionCollect_some : ∀ (toks : List MToken) (cur : List Term) (e : Expression), expressionCollect cur toks = some e →
    ∃ ts, toks = ts.map termToken ∧ e = ⟨cur ++ ts⟩
  | [], cur, e, h => by simp [expressionCollect] at h; exact ⟨[], rfl, by simp [← h]⟩
  | .nt n :: rest, cur, e, h => by
    rw [expressionCollect] at h
    obtain ⟨ts, h1, h2⟩ := expressionCollect_some rest _ e h
    exact ⟨.nonterminal n :: ts, by simp [h1, termToken], by simp [h2]⟩
  | .lit n :: rest, cur, e, h => by
    rw [expressionCollect] at h
    obtain ⟨ts, h1, h2⟩ := expressionCollect_some rest _ e h
    exact ⟨.terminal n :: ts, by simp [h1, termToken], by simp [h2]⟩
  | .define :: _, _, _, h => by simp [expressionCollect] at h
  | .bar :: _, _, _, h => by simp [expressionCollect] at h
  | .semi :: _, _, _, h => by simp [expressionCollect] at h

theorem productionCollect_terms : ∀ (ts cur : List Term) (prev rest), productionCollect cur prev (ts.map termToken ++ rest) =
    productionCollect (cur ++ ts) prev rest
  | [], cur, prev, rest => by simp
  | .terminal s :: ts, cur, prev, rest => by simp [productionCollect, termToken, productionCollect_terms ts]
  | .nonterminal s :: ts, cur, prev, rest => by simp [productionCollect, termToken, productionCollect_terms ts]

theorem productionCollect_alts : ∀ (as : List (List Term)) (a : List Term) (prev),
    productionCollect [] prev (altTokens (as ++ [a])) = some ((as.reverse ++ prev).map Expression.mk ++ [⟨a⟩])
  | [], a, prev => by
    have := productionCollect_terms a [] prev []
    simp at this
    simp [altTokens_single, this, productionCollect]
  | [b], a, prev => by
    have := productionCollect_alts [] a (b :: prev)
    simp at this
    simp [altTokens_cons, productionCollect_terms, productionCollect, this]
  | b :: b' :: bs, a, prev => by
    have := productionCollect_alts (b' :: bs) a (b :: prev)
    simp at this
    simp [altTokens_cons, productionCollect_terms, productionCollect, this]

theorem productionCollect_some : ∀ (toks : List MToken) (cur : List Term) (prev) (es), productionCollect cur prev toks = some es →
    ∃ a as, toks = altTokens (a :: as)
  | [], cur, prev, es, h => ⟨[], [], rfl⟩
  | .nt n :: rest, cur, prev, es, h => by
    rw [productionCollect] at h
    obtain ⟨a, as, h1⟩ := productionCollect_some rest _ _ es h
    exact ⟨.nonterminal n :: a, as, by simp [h1, altTokens_head, termToken]⟩
  | .lit n :: rest, cur, prev, es, h => by
    rw [productionCollect] at h
    obtain ⟨a, as, h1⟩ := productionCollect_some rest _ _ es h
    exact ⟨.terminal n :: a, as, by simp [h1, altTokens_head, termToken]⟩
  | .bar :: rest, cur, prev, es, h => by
    rw [productionCollect] at h
    obtain ⟨a, as, h1⟩ := productionCollect_some rest _ _ es h
    exact ⟨[], a :: as, by simp [h1, altTokens_cons]⟩
  | .define :: _, _, _, _, h => by simp [productionCollect] at h
  | .semi :: _, _, _, _, h => by simp [productionCollect] at h

/-- The tokens after the first production's `::=`. -/
def restTokens (ws : List Written) (tail : List MToken) : List MToken := ws.flatMap (fun w => .semi :: prodTokens w) ++ tail

theorem gramTokens_cons : ∀ (w : Written) (ws : List Written), gramTokens (w :: ws) = prodTokens w ++ ws.flatMap (fun w => .semi :: prodTokens w)
  | w, [] => by simp [gramTokens]
  | w, w' :: ws => by
    have := gramTokens_cons w' ws
    simp only [gramTokens, List.map_cons, List.intersperse_cons_cons, List.flatten_cons] at this ⊢
    rw [this]
    simp

theorem grammarCollect_terms : ∀ (ts cur : List Term) (es lhs prev rest), grammarCollect cur es lhs prev (ts.map termToken ++ rest) =
    grammarCollect (cur ++ ts) es lhs prev rest
  | [], cur, es, lhs, prev, rest => by simp
  | .terminal s :: ts, cur, es, lhs, prev, rest => by simp [grammarCollect, termToken, grammarCollect_terms ts]
  | .nonterminal s :: ts, cur, es, lhs, prev, rest => by simp [grammarCollect, termToken, grammarCollect_terms ts]

theorem grammarCollect_alts : ∀ (as : List (List Term)) (a : List Term) (es lhs prev rest),
    grammarCollect [] es lhs prev (altTokens (as ++ [a]) ++ rest) = grammarCollect a (as.reverse ++ es) lhs prev rest
  | [], a, es, lhs, prev, rest => by
    have := grammarCollect_terms a [] es lhs prev rest
    simp at this
    simp [altTokens_single, this]
  | [b], a, es, lhs, prev, rest => by
    have := grammarCollect_alts [] a (b :: es) lhs prev rest
    simp at this
    simp [altTokens_cons, grammarCollect_terms, grammarCollect, this]
  | b :: b' :: bs, a, es, lhs, prev, rest => by
    have := grammarCollect_alts (b' :: bs) a (b :: es) lhs prev rest
    simp at this
    simp [altTokens_cons, grammarCollect_terms, grammarCollect, this]

theorem alts_concat {alts : List (List Term)} (h : alts ≠ []) : ∃ as a, alts = as ++ [a] ∧ lastKept alts = as.reverse ++ [a] := by
  rcases List.eq_nil_or_concat alts with h' | ⟨as, a, rfl⟩
  · exact absurd h' h
  · exact ⟨as, a, by simp, by simp [lastKept]⟩

theorem build_eq {lhs : Str} {as : List (List Term)} {a : List Term} (prev) :
    grammarCollect.build a as.reverse lhs prev =
      prev.map (fun p => (⟨.nonterminal p.2, p.1.map Expression.mk⟩ : Production)) ++ [denote (lhs, as.reverse ++ [a])] := by
  simp [grammarCollect.build, denote]

theorem grammarCollect_ws : ∀ (ws : List Written) (w : Written) (prev tail), (∀ x ∈ w :: ws, x.2 ≠ []) → tail = [] ∨ tail = [.semi] →
    grammarCollect [] [] w.1 prev (altTokens w.2 ++ restTokens ws tail) =
      some ((((w :: ws).dropLast.map fun x => (x.2.reverse, x.1)).reverse ++ prev).map
          (fun p => (⟨.nonterminal p.2, p.1.map Expression.mk⟩ : Production)) ++
        (w :: ws).getLast?.toList.map fun x => denote (x.1, lastKept x.2))
  | [], w, prev, tail, h, ht => by
    obtain ⟨as, a, h1, h2⟩ := alts_concat (h w (by simp))
    have : grammarCollect [] [] w.1 prev (altTokens w.2 ++ restTokens [] tail) = some (grammarCollect.build a as.reverse w.1 prev) := by
      rw [h1, grammarCollect_alts]
      rcases ht with rfl | rfl <;> simp [restTokens, grammarCollect]
    rw [this, build_eq]
    simp [h2]
  | w' :: ws, w, prev, tail, h, ht => by
    obtain ⟨as, a, h1, h2⟩ := alts_concat (h w (by simp))
    have ih := grammarCollect_ws ws w' ((w.2.reverse, w.1) :: prev) tail (fun x hx => h x (by simp [List.mem_cons.1 hx])) ht
    have : grammarCollect [] [] w.1 prev (altTokens w.2 ++ restTokens (w' :: ws) tail) =
        grammarCollect [] [] w'.1 ((w.2.reverse, w.1) :: prev) (altTokens w'.2 ++ restTokens ws tail) := by
      rw [h1, grammarCollect_alts]
      simp [restTokens, prodTokens, grammarCollect]
    rw [this, ih]
    simp

theorem grammarCollect_some : ∀ (toks : List MToken) (cur es lhs prev ps), grammarCollect cur es lhs prev toks = some ps →
    ∃ a as ws tail, (∀ x ∈ ws, (x : Written).2 ≠ []) ∧ (tail = [] ∨ tail = [.semi]) ∧ toks = altTokens (a :: as) ++ restTokens ws tail
  | [], _, _, _, _, _, _ => ⟨[], [], [], [], by simp, .inl rfl, rfl⟩
  | .semi :: .nt next :: .define :: rest, _, _, _, _, ps, h => by
    rw [grammarCollect] at h
    obtain ⟨a, as, ws, tail, h1, h2, h3⟩ := grammarCollect_some rest _ _ _ _ ps h
    refine ⟨[], [], (next, a :: as) :: ws, tail, ?_, h2, ?_⟩
    · intro x hx
      rcases List.mem_cons.1 hx with rfl | hx
      · simp
      · exact h1 x hx
    · simp [h3, altTokens_single, restTokens, prodTokens]
  | [.semi], _, _, _, _, _, _ => ⟨[], [], [], [.semi], by simp, .inr rfl, rfl⟩
  | .bar :: rest, _, _, _, _, ps, h => by
    rw [grammarCollect] at h
    obtain ⟨a, as, ws, tail, h1, h2, h3⟩ := grammarCollect_some rest _ _ _ _ ps h
    exact ⟨[], a :: as, ws, tail, h1, h2, by simp [h3, altTokens_cons]⟩
  | .lit s :: rest, _, _, _, _, ps, h => by
    rw [grammarCollect] at h
    obtain ⟨a, as, ws, tail, h1, h2, h3⟩ := grammarCollect_some rest _ _ _ _ ps h
    exact ⟨.terminal s :: a, as, ws, tail, h1, h2, by simp [h3, altTokens_head, termToken]⟩
  | .nt s :: rest, _, _, _, _, ps, h => by
    rw [grammarCollect] at h
    obtain ⟨a, as, ws, tail, h1, h2, h3⟩ := grammarCollect_some rest _ _ _ _ ps h
    exact ⟨.nonterminal s :: a, as, ws, tail, h1, h2, by simp [h3, altTokens_head, termToken]⟩
  | .define :: _, _, _, _, _, _, h => by simp [grammarCollect] at h
  | [.semi, .nt _], _, _, _, _, _, h => by simp [grammarCollect] at h
  | .semi :: .lit _ :: _, _, _, _, _, _, h => by simp [grammarCollect] at h
  | .semi :: .define :: _, _, _, _, _, _, h => by simp [grammarCollect] at h
  | .semi :: .bar :: _, _, _, _, _, _, h => by simp [grammarCollect] at h
  | .semi :: .semi :: _, _, _, _, _, _, h => by simp [grammarCollect] at h
  | .semi :: .nt _ :: .nt _ :: _, _, _, _, _, _, h => by simp [grammarCollect] at h
  | .semi :: .nt _ :: .lit _ :: _, _, _, _, _, _, h => by simp [grammarCollect] at h
  | .semi :: .nt _ :: .bar :: _, _, _, _, _, _, h => by simp [grammarCollect] at h
  | .semi :: .nt _ :: .semi :: _, _, _, _, _, _, h => by simp [grammarCollect] at h

/-- What `grammar!` makes of written productions, the last of which is `w`. -/
def macroGrammar (ws : List Written) (w : Written) : Grammar :=
  ⟨(ws.map fun x => denote (x.1, x.2.reverse)).reverse ++ [denote (w.1, lastKept w.2)]⟩

theorem grammarMacro_eq (ws : List Written) (w : Written) (tail) (h : ∀ x ∈ ws ++ [w], x.2 ≠ []) (ht : tail = [] ∨ tail = [.semi]) :
    grammarMacro (gramTokens (ws ++ [w]) ++ tail) = some (macroGrammar ws w) := by
  cases ws with
  | nil =>
    have := grammarCollect_ws [] w [] tail h ht
    simp only [restTokens, List.flatMap_nil, List.nil_append] at this
    simp only [List.nil_append, gramTokens_cons, List.flatMap_nil, List.append_nil, prodTokens, List.cons_append, grammarMacro, this]
    simp [macroGrammar]
  | cons v vs =>
    have := grammarCollect_ws (vs ++ [w]) v [] tail (by simpa using h) ht
    rw [restTokens] at this
    simp only [List.cons_append, gramTokens_cons, prodTokens, grammarMacro, List.append_assoc] at this ⊢
    have hl : (v :: (vs ++ [w])).getLast? = some w := by rw [← List.cons_append, List.getLast?_append]; rfl
    rw [this]
    simp [macroGrammar, denote, List.dropLast_cons_of_ne_nil, hl, Function.comp_def]

theorem grammarMacro_some {toks : List MToken} {g : Grammar} (h : grammarMacro toks = some g) : (toks = [] ∧ g = ⟨[]⟩) ∨
    ∃ ws w tail, (∀ x ∈ ws ++ [w], (x : Written).2 ≠ []) ∧ (tail = [] ∨ tail = [.semi]) ∧ toks = gramTokens (ws ++ [w]) ++ tail ∧
      g = macroGrammar ws w := by
  unfold grammarMacro at h
  split at h
  · injection h with h; exact .inl ⟨rfl, h.symm⟩
  · rename_i lhs rest
    simp only [Option.map_eq_some_iff] at h
    obtain ⟨ps, h1, h2⟩ := h
    obtain ⟨a, as, ws, tail, h3, h4, h5⟩ := grammarCollect_some _ _ _ _ _ _ h1
    right
    obtain ⟨ws', w, h6⟩ : ∃ ws' w, (lhs, a :: as) :: ws = ws' ++ [w] := by
      rcases List.eq_nil_or_concat ((lhs, a :: as) :: ws) with h' | ⟨x, y, h'⟩
      · cases h'
      · exact ⟨x, y, by simpa using h'⟩
    have h7 : ∀ x ∈ ws' ++ [w], x.2 ≠ [] := by
      intro x hx
      rw [← h6] at hx
      rcases List.mem_cons.1 hx with rfl | hx
      · simp
      · exact h3 x hx
    have h8 : MToken.nt lhs :: MToken.define :: rest = gramTokens (ws' ++ [w]) ++ tail := by
      rw [← h6, gramTokens_cons, h5]
      simp [prodTokens, restTokens]
    refine ⟨ws', w, tail, h7, h4, h8, ?_⟩
    have h9 := grammarMacro_eq ws' w tail h7 h4
    rw [← h8] at h9
    simp only [grammarMacro, h1, Option.map_some, Option.some.injEq] at h9
    rw [← h2, h9]
  · cases h

theorem mem_lastKept {α : Type} {l : List α} {x : α} : x ∈ lastKept l ↔ x ∈ l := by
  rcases List.eq_nil_or_concat l with rfl | ⟨as, a, rfl⟩
  · simp [lastKept]
  · simp [lastKept]

theorem macroGrammar_hasAlt (ws : List Written) (w : Written) (l : Term) (e : Expression) :
    HasAlt (macroGrammar ws w) l e ↔ HasAlt ⟨(ws ++ [w]).map denote⟩ l e := by
  simp only [HasAlt, macroGrammar, List.mem_append, List.mem_reverse, List.mem_map, List.map_append, List.map_cons, List.map_nil,
    List.mem_singleton]
  constructor
  · rintro ⟨p, (⟨x, hx, rfl⟩ | rfl), h1, h2⟩
    · exact ⟨denote x, .inl ⟨x, hx, rfl⟩, h1, by simpa [denote] using h2⟩
    · refine ⟨denote w, .inr rfl, h1, ?_⟩
      simp only [denote, List.mem_map, mem_lastKept] at h2 ⊢
      exact h2
  · rintro ⟨p, (⟨x, hx, rfl⟩ | rfl), h1, h2⟩
    · exact ⟨denote (x.1, x.2.reverse), .inl ⟨x, hx, rfl⟩, h1, by simpa [denote] using h2⟩
    · refine ⟨denote (w.1, lastKept w.2), .inr rfl, h1, ?_⟩
      simp only [denote, List.mem_map, mem_lastKept] at h2 ⊢
      exact h2

end Bnf
