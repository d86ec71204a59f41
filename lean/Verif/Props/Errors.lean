import Verif.Proofs.ErrorsPlain
import Verif.Props.Text

/-!
# C69, C70: the message of a parse error
-/

set_option autoImplicit false

namespace Bnf.Props
open Bnf Bnf.Spec

/-! ## C69: which texts are faulted, where, and how -/

/-- C69: the model with messages accepts the same texts with the same results, and reports an error exactly when the model
without them does (all four `FromStr` and `parse_from`). -/
theorem C69_same_results (dbg : Str → Str) (f : Char → Bool) (F : Format) (s : Str) :
    ((∀ g, E.parseFrom dbg F s = some (.ok g) ↔ Grammar.parseFrom F s = some (.ok g)) ∧
      ((∃ m, E.parseFrom dbg F s = some (.error m)) ↔ Grammar.parseFrom F s = some (.error .parseError))) ∧
    ((∀ g, E.fromStr dbg f s = some (.ok g) ↔ Grammar.fromStr f s = some (.ok g)) ∧
      ((∃ m, E.fromStr dbg f s = some (.error m)) ↔ Grammar.fromStr f s = some (.error .parseError))) ∧
    ((∀ t, E.termFromStr dbg s = some (.ok t) ↔ Term.fromStr s = some (.ok t)) ∧
      ((∃ m, E.termFromStr dbg s = some (.error m)) ↔ Term.fromStr s = some (.error .parseError))) ∧
    ((∀ e, E.expressionFromStr dbg s = some (.ok e) ↔ Expression.fromStr s = some (.ok e)) ∧
      ((∃ m, E.expressionFromStr dbg s = some (.error m)) ↔ Expression.fromStr s = some (.error .parseError))) ∧
    ((∀ p, E.productionFromStr dbg s = some (.ok p) ↔ Production.fromStr s = some (.ok p)) ∧
      ((∃ m, E.productionFromStr dbg s = some (.error m)) ↔ Production.fromStr s = some (.error .parseError))) := by
  refine ⟨E.refines_toResult dbg (E.refines_grammarComplete F s), ?_, E.refines_toResult dbg ((E.refines_term BNF).allConsuming s),
    E.refines_toResult dbg ((E.refines_expression BNF _).allConsuming s),
    E.refines_toResult dbg ((E.refines_production BNF _).allConsuming s)⟩
  unfold E.fromStr Grammar.fromStr
  by_cases h : isFormatStandardBnf s = true
  · rw [if_pos h, if_pos h]
    exact E.refines_toResult dbg (E.refines_grammarComplete BNF s)
  · rw [if_neg h, if_neg h]
    exact E.refines_toResult dbg (E.refines_grammarComplete (ABNF f) s)

/-- C69: the error of `parse_from` is exactly the fault of the text, as described by `Spec.Errors` without reference to the parser. -/
theorem C69_exact {F : Format} (hF : Supported F) (dbg : Str → Str) (s m : Str) :
    E.parseFrom dbg F s = some (.error m) ↔ ∃ i k, TextFault F s i k ∧ m = E.message dbg i k := by
  unfold E.parseFrom
  constructor
  · intro h
    cases h' : E.grammarComplete F s with
    | fuel => rw [h'] at h; cases h
    | ok r v => rw [h'] at h; cases h
    | err i k =>
      rw [h'] at h
      refine ⟨i, k, (E.grammarComplete_err hF.regular).mp h', ?_⟩
      simpa [E.Res.toResult, eq_comm] using h
  · rintro ⟨i, k, h, rfl⟩
    rw [(E.grammarComplete_err hF.regular).mpr h]
    rfl

/-- C69 for `from_str`, with the detected format. -/
theorem C69_exact_detected {f : Char → Bool} (hf : AlphabeticTable f) (dbg : Str → Str) (s m : Str) :
    E.fromStr dbg f s = some (.error m) ↔
      ∃ i k, TextFault (if isFormatStandardBnf s then BNF else ABNF f) s i k ∧ m = E.message dbg i k := by
  have e : E.fromStr dbg f s = E.parseFrom dbg (if isFormatStandardBnf s then BNF else ABNF f) s := by
    unfold E.fromStr E.parseFrom
    split <;> rfl
  rw [e]
  by_cases h : isFormatStandardBnf s = true
  · rw [if_pos h]; exact C69_exact .bnf dbg s m
  · rw [if_neg h]; exact C69_exact (.abnf hf) dbg s m

/-- C69: every text either is a grammar text or has a fault, never both. -/
theorem C69_fault_or_grammar {F : Format} (hF : Supported F) (s : Str) :
    (∃ i k, TextFault F s i k) ↔ ¬ ∃ pg, GrammarText F pg s := by
  rw [← parseFrom_error hF.regular, ← (C69_same_results id (fun _ => false) F s).1.2]
  constructor
  · rintro ⟨i, k, h⟩
    exact ⟨_, (C69_exact hF id s _).mpr ⟨i, k, h, rfl⟩⟩
  · rintro ⟨m, h⟩
    obtain ⟨i, k, h, _⟩ := (C69_exact hF id s m).mp h
    exact ⟨i, k, h⟩

/-- C69: the fault is unique. -/
theorem C69_unique {F : Format} (hF : Supported F) {s i k i' k'} (h : TextFault F s i k) (h' : TextFault F s i' k') :
    i = i' ∧ k = k' := by
  have h1 := (E.grammarComplete_err hF.regular).mpr h
  rw [(E.grammarComplete_err hF.regular).mpr h'] at h1
  injection h1 with h1 h2
  exact ⟨h1.symm, h2.symm⟩

/-- C69: the position lies in the text: what is reported is the text from some position on. -/
theorem C69_within {F : Format} {s i k} (h : TextFault F s i k) : ∃ before, s = before ++ i := by
  obtain ⟨u, hu⟩ := (E.textFault_suffix h).1
  exact ⟨u, hu.symm⟩

/-- C69: the kinds that occur.  An unclosed quote is never reported as such (`TakeUntil`), and nom's check for endless loops
(`Many1`) never fires. -/
theorem C69_kinds {F : Format} {s i k} (h : TextFault F s i k) :
    k = .eof ∨ k = .tag ∨ k = .char ∨ k = .not ∨ (k = .satisfy ∧ F.nonterminalDelimiter = none) := (E.textFault_suffix h).2

/-- C69: the message determines the position and the kind (if `Debug` of `str` does not give the same for two texts). -/
theorem C69_message {dbg : Str → Str} (hd : ∀ a b, dbg a = dbg b → a = b) {i i' k k'}
    (h : E.message dbg i k = E.message dbg i' k') : i = i' ∧ k = k' := E.message_injective hd h

/-- C69: the text of the message, for each of the three conversions. -/
theorem C69_message_text (dbg : Str → Str) (i : Str) (k : E.Kind) :
    MessageOf (dbg i) k (E.message dbg i k) ∧ MessageOfPlain (dbg i) k (E.messagePlain dbg i k) ∧
    MessageOfPair (dbg i) k (E.messagePair dbg i k) := by
  have h : (kindName k).toList = k.debug := by cases k <;> simp [kindName, E.Kind.debug]
  have hb : ", code: ".toList = E.messageCode := by simp [E.messageCode]
  refine ⟨⟨_, _, _, _, ?_, hb.symm, h.symm, ?_, rfl⟩, ⟨_, _, _, _, ?_, hb.symm, h.symm, ?_, rfl⟩, ⟨_, _, _, ?_, h.symm, ?_, rfl⟩⟩ <;> simp [E.messageHead]

/-- C69: `grammar`, which need not read the whole text, reads as many productions as it can and returns the rest; it fails only
when there is no first production, with the fault of that. -/
theorem C69_prefix {F : Format} (hF : Supported F) (s : Str) :
    (∀ r g, E.grammar F s = .ok r g ↔ ∃ s1 pg, Layout s s1 ∧ WholeProds F pg s1 r ∧ (∀ p r', ¬ WholeProd F p r r') ∧
      normalizeParsedGrammar pg = some g) ∧
    (∀ i k, E.grammar F s = .err i k ↔ ∃ s1, Layout s s1 ∧ Settled s1 ∧ ProdFault F s1 i k) ∧
    ((∃ r g, E.grammar F s = .ok r g) ∨ ∃ i k, E.grammar F s = .err i k) := by
  refine ⟨fun r g => ?_, fun i k => ?_, ?_⟩
  · simp only [E.grammar, E.andThen_ok, E.grammar_ok hF.regular (Nat.lt_succ_self _)]
    constructor
    · rintro ⟨r', pg, ⟨s1, h1, h2, h3, h4⟩, h⟩
      obtain ⟨g', hg⟩ := normalize_total pg
      simp only [hg, E.Res.ok.injEq] at h
      obtain ⟨rfl, rfl⟩ := h
      exact ⟨s1, pg, h1, h3, h4, hg⟩
    · rintro ⟨s1, pg, h1, h3, h4, hg⟩
      exact ⟨r, pg, ⟨s1, h1, E.wholeProds_settled hF.regular h3, h3, h4⟩, by simp only [hg]⟩
  · simp only [E.grammar, E.andThen_err, E.grammar_err hF.regular (Nat.lt_succ_self _), E.grammar_ok hF.regular (Nat.lt_succ_self _)]
    refine or_iff_left ?_
    rintro ⟨r', pg, _, h⟩
    obtain ⟨g', hg⟩ := normalize_total pg
    simp only [hg, reduceCtorEq] at h
  · unfold E.grammar
    cases h : E.parsedGrammar F (s.length + 1) s with
    | fuel => 
      refine absurd ?_ (parsedGrammarComplete_no_fuel hF.regular.named (Nat.lt_succ_self s.length))
      rw [parsedGrammarComplete, Nom.allConsuming, (E.refines_parsedGrammar F _).fuel.mp h]
      rfl
    | err i k => exact .inr ⟨i, k, rfl⟩
    | ok r pg =>
      obtain ⟨g, hg⟩ := normalize_total pg
      simp only [E.andThen_of_ok, hg]
      exact .inl ⟨r, g, rfl⟩

/-- `<a> ::= 'x'⏎<b> ::= 'y`: the second production is faulted at its beginning, with `Eof`. -/
def tBroken : Str := ['<', 'a', '>', ' ', ':', ':', '=', ' ', '\'', 'x', '\'', '\n', '<', 'b', '>', ' ', ':', ':', '=', ' ', '\'', 'y']

theorem tBroken_fault : TextFault BNF tBroken ['<', 'b', '>', ' ', ':', ':', '=', ' ', '\'', 'y'] .eof :=
  (E.grammarComplete_err BNF_regular).mp (by rfl)

example : ¬ ∃ pg, GrammarText BNF pg tBroken := (C69_fault_or_grammar .bnf _).mp ⟨_, _, tBroken_fault⟩
example (dbg : Str → Str) : E.parseFrom dbg BNF tBroken =
    some (.error (E.message dbg ['<', 'b', '>', ' ', ':', ':', '=', ' ', '\'', 'y'] .eof)) :=
  (C69_exact .bnf dbg _ _).mpr ⟨_, _, tBroken_fault, rfl⟩
/-- `grammar` reads the first production of this text and leaves the second. -/
example : ∃ g, E.grammar BNF tBroken = .ok ['<', 'b', '>', ' ', ':', ':', '=', ' ', '\'', 'y'] g := ⟨_, by rfl⟩
/-- Every kind that `C69_kinds` allows occurs. -/
example : TextFault BNF [] [] .char := (E.grammarComplete_err BNF_regular).mp (by rfl)
example : TextFault BNF ['<', 'a', '>', 'x'] ['x'] .tag := (E.grammarComplete_err BNF_regular).mp (by rfl)
example : TextFault BNF ['<', 'a', '>', ':', ':', '=', '<', 'b', '>', ':', ':', '=', '\'', '\''] [':', ':', '=', '\'', '\''] .not :=
  (E.grammarComplete_err BNF_regular).mp (by rfl)
example : TextFault (ABNF Char.isAlpha) ['1', '='] ['1', '='] .satisfy :=
  (E.grammarComplete_err (Supported.abnf table_example).regular).mp (by rfl)

/-! ## C70: what the position says -/

/-- C70: if the first production is in order (and is followed by the beginning of another one), the error is `Eof` at the beginning
of the first production that is not. -/
theorem C70_behind_productions {F : Format} (hF : Supported F) {s s1 p r i k} (hl : Layout s s1) (hp : WholeProd F p s1 r)
    (h : TextFault F s i k) :
    k = .eof ∧ (∃ ps, WholeProds F ps s1 i) ∧ ∀ q r', ¬ WholeProd F q i r' := by
  obtain ⟨s2, h1, h2, h3 | ⟨ps, h3, _, h5, h6⟩⟩ := h
  · have e := settled_unique h1 h2 hl (E.wholeProd_settled hF.regular hp)
    subst e
    have a := (E.prod_err hF.regular (Nat.lt_succ_self _)).mpr h3
    rw [(E.prod_ok hF.regular (Nat.lt_succ_self _)).mpr hp] at a
    cases a
  · have e := settled_unique h1 h2 hl (E.wholeProd_settled hF.regular hp)
    subst e
    exact ⟨h6, ⟨ps, h3⟩, h5⟩

example : ∃ s1 p r, Layout tBroken s1 ∧ WholeProd BNF p s1 r :=
  ⟨tBroken, ⟨['a'], [[.simple (.terminal ['x'])]]⟩, ['<', 'b', '>', ' ', ':', ':', '=', ' ', '\'', 'y'], .nil,
    (E.prod_ok BNF_regular (Nat.lt_succ_self _)).mp (by rfl)⟩

/-- C70: otherwise the error is the fault of the first production, and its kind is not `Eof`. -/
theorem C70_first_production {F : Format} {s s1 i k} (hl : Layout s s1) (hs : Settled s1)
    (hp : ∀ p r, ¬ WholeProd F p s1 r) (h : TextFault F s i k) : ProdFault F s1 i k ∧ k ≠ .eof := by
  obtain ⟨s2, h1, h2, h3⟩ := h
  have e := settled_unique h1 h2 hl hs
  subst e
  rcases h3 with h3 | ⟨ps, h3, _⟩
  · refine ⟨h3, ?_⟩
    rcases (E.prodFault_suffix h3).2 with rfl | rfl | rfl | ⟨rfl, _⟩ <;> simp
  · cases h3 with
    | one h => exact absurd h (hp _ _)
    | more h _ => exact absurd h (hp _ _)

/-- C70: a text that does not begin with a name (after layout) is faulted right there. -/
theorem C70_no_name {F : Format} {s s1} (hl : Layout s s1) (hs : Settled s1)
    (hn : ∀ c r, s1 = c :: r → match F.nonterminalDelimiter with
      | some (a, _) => c ≠ a
      | none => F.isAlphabetic c = false) :
    TextFault F s s1 (if F.nonterminalDelimiter.isSome then .char else .satisfy) := by
  refine ⟨s1, hl, hs, .inl (.inl (.inl ?_))⟩
  unfold NameFault
  revert hn
  rcases F.nonterminalDelimiter with _ | ⟨a, b⟩
  · exact fun hn => ⟨hn, rfl, rfl⟩
  · refine fun hn => .inl ⟨?_, rfl, rfl⟩
    intro r e
    exact hn _ _ e rfl

/-- C70: a name without separator is faulted with `Tag` behind the name and the layout that follows it. -/
theorem C70_no_separator {F : Format} {s s1 u r i} (hl : Layout s s1) (hs : Settled s1) (hn : Name F u s1 r) (hr : Layout r i)
    (hi : Settled i) (hsep : Lacks F.productionSeparator i) : TextFault F s i .tag :=
  ⟨s1, hl, hs, .inl (.inl (.inr ⟨u, r, hn, hr, hi, hsep, rfl⟩))⟩

example : TextFault BNF [' ', 'x'] ['x'] .char :=
  C70_no_name (F := BNF) (.space (by decide) .nil) (tight_iff_settled.mp (tight_cons (by decide) (by decide)))
    (fun c r e => by injection e with e _; subst e; show 'x' ≠ '<'; decide)
example : TextFault BNF ['<', 'a', '>', ' ', 'x'] ['x'] .tag :=
  C70_no_separator (F := BNF) (u := ['a']) .nil (tight_iff_settled.mp (tight_cons (by decide) (by decide))) ⟨rfl, by decide⟩
    (.space (by decide) .nil) (tight_iff_settled.mp (tight_cons (by decide) (by decide)))
    (fun r e => by injection e with e _; revert e; decide)

/-- C70: `Term::from_str`: a text that is neither a quoted text nor a name is faulted as a name (an unclosed quote at
the quote); otherwise what is left behind the term and its layout is reported with `Eof`. -/
theorem C70_term (dbg : Str → Str) (s m : Str) : E.termFromStr dbg s = some (.error m) ↔
    ∃ i k, (((∀ u r, ¬ Quoted u s r) ∧ NameFault BNF s i k) ∨
      ((∃ u r, (Quoted u s r ∨ Name BNF u s r) ∧ Layout r i) ∧ Settled i ∧ i ≠ [] ∧ k = .eof)) ∧ m = E.message dbg i k := by
  have key : ∀ i k, E.allConsuming (E.term BNF) s = .err i k ↔ (((∀ u r, ¬ Quoted u s r) ∧ NameFault BNF s i k) ∨
      ((∃ u r, (Quoted u s r ∨ Name BNF u s r) ∧ Layout r i) ∧ Settled i ∧ i ≠ [] ∧ k = .eof)) :=
    E.term_fault s
  unfold E.termFromStr
  constructor
  · intro h
    cases h' : E.allConsuming (E.term BNF) s with
    | fuel => rw [h'] at h; cases h
    | ok r v => rw [h'] at h; cases h
    | err i k =>
      rw [h'] at h
      exact ⟨i, k, (key i k).mp h', by simpa [E.Res.toResult, eq_comm] using h⟩
  · rintro ⟨i, k, h, rfl⟩
    rw [(key i k).mpr h]
    rfl

/-- `'x`: faulted at the quote.  `'x' y`: faulted at `y`. -/
example (dbg : Str → Str) : E.termFromStr dbg ['\'', 'x'] = some (.error (E.message dbg ['\'', 'x'] .char)) := by rfl
example (dbg : Str → Str) : E.termFromStr dbg ['\'', 'x', '\'', ' ', 'y'] = some (.error (E.message dbg ['y'] .eof)) := by rfl

/-- A result is an error exactly if the parser failed. -/
theorem toResult_error {α : Type} {dbg : Str → Str} {x : E.Res α} {Q : Str → E.Kind → Prop} (key : ∀ i k, x = .err i k ↔ Q i k) (m : Str) :
    x.toResult dbg = some (.error m) ↔ ∃ i k, Q i k ∧ m = E.message dbg i k := by
  constructor
  · intro h
    cases x with
    | fuel => cases h
    | ok r v => cases h
    | err i k => exact ⟨i, k, (key i k).mp rfl, by simpa [E.Res.toResult, eq_comm] using h⟩
  · rintro ⟨i, k, h, rfl⟩
    rw [(key i k).mpr h]
    rfl

/-- C70: `Expression::from_str`: the error is exactly the fault of the text as an expression, which is unique. -/
theorem C70_expression (dbg : Str → Str) (s m : Str) :
    (E.expressionFromStr dbg s = some (.error m) ↔ ∃ i k, ExpressionFault BNF s i k ∧ m = E.message dbg i k) ∧
    ∀ i k i' k', ExpressionFault BNF s i k → ExpressionFault BNF s i' k' → i = i' ∧ k = k' := by
  refine ⟨toResult_error (fun i k => E.expression_fault BNF_regular) m, fun i k i' k' h h' => ?_⟩
  have h1 := (E.expression_fault BNF_regular).mpr h
  rw [(E.expression_fault BNF_regular).mpr h'] at h1
  injection h1 with h1 h2
  exact ⟨h1.symm, h2.symm⟩

/-- C70: `Production::from_str`: the error is exactly the fault of the text as a single production, which is unique. -/
theorem C70_production (dbg : Str → Str) (s m : Str) :
    (E.productionFromStr dbg s = some (.error m) ↔ ∃ i k, ProductionFault s i k ∧ m = E.message dbg i k) ∧
    ∀ i k i' k', ProductionFault s i k → ProductionFault s i' k' → i = i' ∧ k = k' := by
  refine ⟨toResult_error (fun i k => E.production_fault s i k) m, fun i k i' k' h h' => ?_⟩
  have h1 := (E.production_fault s i k).mpr h
  rw [(E.production_fault s i' k').mpr h'] at h1
  injection h1 with h1 h2
  exact ⟨h1.symm, h2.symm⟩

/-- `<a> | 'x'` is no expression: faulted at `|`.  `<a> ::= 'x' ('y')` is no production for `Production::from_str`: faulted at
the bracket, with `Char`.  Two productions are faulted at the second, with `Eof`, also if that is not in order. -/
example : ExpressionFault BNF ['<', 'a', '>', ' ', '|', '\'', 'x', '\''] ['|', '\'', 'x', '\''] .eof := (E.expression_fault BNF_regular).mp (by rfl)
example : ExpressionFault BNF ['<', 'a', '>', ' ', ':', ':', '='] [':', ':', '='] .not := (E.expression_fault BNF_regular).mp (by rfl)
example : ProductionFault ['<', 'a', '>', ':', ':', '=', '\'', 'x', '\'', '(', '\'', 'y', '\'', ')'] ['(', '\'', 'y', '\'', ')'] .char :=
  (E.production_fault _ _ _).mp (by rfl)
example : ProductionFault ['<', 'a', '>', ':', ':', '=', '\'', 'x', '\'', '\n', '<', 'b', '>', ':', ':', '='] ['<', 'b', '>', ':', ':', '='] .eof :=
  (E.production_fault _ _ _).mp (by rfl)
example : ProductionFault ['<', 'a', '>', ':', ':', '=', '\'', 'x', '\'', '|', ' ', '|'] ['|'] .char := (E.production_fault _ _ _).mp (by rfl)

/-- C70: the position can be misleading: in `<a> ::= 'x'⏎<b> ::= 'y'⏎<c> := 'z'` the third production is wrong, but
the error is reported at the second. -/
theorem C70_previous_production_witness :
    TextFault BNF ['<', 'a', '>', ':', ':', '=', '\'', 'x', '\'', '\n', '<', 'b', '>', ':', ':', '=', '\'', 'y', '\'', '\n', '<', 'c', '>', ':', '=', '\'', 'z', '\'']
      ['<', 'b', '>', ':', ':', '=', '\'', 'y', '\'', '\n', '<', 'c', '>', ':', '=', '\'', 'z', '\''] .eof :=
  (E.grammarComplete_err BNF_regular).mp (by rfl)

/-- C70: anything wrong inside a group is reported at its opening bracket, anything wrong inside an optional is reported in its
place: `<a>::=('x' 'y` and `<a>::=['x' 'y`. -/
theorem C70_bracket_witness :
    TextFault BNF ['<', 'a', '>', ':', ':', '=', '(', '\'', 'x', '\'', ' ', '\'', 'y'] ['(', '\'', 'x', '\'', ' ', '\'', 'y'] .char ∧
    TextFault BNF ['<', 'a', '>', ':', ':', '=', '[', '\'', 'x', '\'', ' ', '\'', 'y'] ['\'', 'y'] .char :=
  ⟨(E.grammarComplete_err BNF_regular).mp (by rfl), (E.grammarComplete_err BNF_regular).mp (by rfl)⟩

end Bnf.Props
