import Verif.Proofs.Reprint
import Verif.Spec.CustomFormat

/-! # Reading texts in any format -/

set_option autoImplicit false

namespace Bnf
open Spec Nom

variable {F : Format}

theorem Spec.Definable.named (h : Definable F) : F.Named where
  letter := by
    intro hd c hc hs
    have ht := h hd
    rcases hs with hs | rfl | rfl
    · rw [ht.space c hs] at hc; cases hc
    · exact alpha_ascii ht (by decide) (by decide) hc
    · exact alpha_ascii ht (by decide) (by decide) hc

/-! ## The plain parser does nothing that the extended one does not do -/

theorem parsedTerminal_eq (s : Str) : parsedTerminal s = (terminal s).map .simple := by
  simp only [parsedTerminal, terminal, Res.map, ws_eq, Res.andThen_of_ok]
  cases quotedText s <;> rfl

theorem parsedNonterminal_eq (s : Str) : parsedNonterminal F s = (nonterminal F s).map .simple := by
  simp only [parsedNonterminal, nonterminal, Res.map, ws_eq, Res.andThen_of_ok]
  cases nameText F s <;> rfl

theorem parsedTerm_of_term {s r t} (h : term F s = .ok r t) (n : Nat) : parsedTerm F (n + 1) s = .ok r (.simple t) := by
  unfold term at h
  rw [parsedTerm]
  rw [alt_ok] at h
  rcases h with h | ⟨h1, h2⟩
  · exact alt_of_ok (by rw [parsedTerminal_eq, h]; rfl)
  · rw [alt_of_err (by rw [parsedTerminal_eq, h1]; rfl)]
    exact alt_of_ok (by rw [parsedNonterminal_eq, h2]; rfl)

/-- The text does not begin with an opening bracket. -/
def NoOpen (s : Str) : Prop := ∀ c cs, s = c :: cs → c ≠ '(' ∧ c ≠ '['

theorem parsedTerm_of_term_err {s} (h : term F s = .err) (hb : NoOpen s) (n : Nat) : parsedTerm F (n + 1) s = .err := by
  have h0 : terminal s = .err ∧ nonterminal F s = .err := by
    unfold term at h
    unfold alt at h
    split at h
    · rename_i h1; exact ⟨h1, h⟩
    · rename_i h1; exact absurd h h1
  rw [parsedTerm, alt_of_err (by rw [parsedTerminal_eq, h0.1]; rfl), alt_of_err (by rw [parsedNonterminal_eq, h0.2]; rfl)]
  cases s with
  | nil => rfl
  | cons c cs =>
    obtain ⟨h1, h2⟩ := hb c cs rfl
    rw [alt_of_err]
    · simp only [parsedOptionalGroup, delimited, char_ne h2, Res.andThen_of_err]
    · simp only [parsedAnonymousGroup, delimited, char_ne h1, Res.andThen_of_err]

theorem itemP_of_plainItem {s r t} (h : plainItem F s = .ok r t) (n : Nat) : itemP F (n + 1) s = .ok r (.simple t) := by
  obtain ⟨h1, h2⟩ := terminated_not_ok.mp h
  exact terminated_not_ok.mpr ⟨parsedTerm_of_term h1 n, h2⟩

/-- The plain parser stops here for a reason that the extended one shares. -/
def StopsBoth (F : Format) (r : Str) : Prop := term F r = .err → NoOpen r

theorem itemP_of_plainItem_err {r} (h : plainItem F r = .err) (hb : StopsBoth F r) (n : Nat) : itemP F (n + 1) r = .err := by
  cases ht : term F r with
  | fuel => exact absurd ht (term_no_fuel r)
  | err => exact terminated_not_err (.inl (parsedTerm_of_term_err ht (hb ht) n))
  | ok r' t =>
    cases hs : tag F.productionSeparator r' with
    | fuel => exact absurd hs (tag_no_fuel _ _)
    | err => rw [show plainItem F r = .ok r' t from terminated_not_ok.mpr ⟨ht, hs⟩] at h; cases h
    | ok r'' w => exact terminated_not_err (.inr ⟨_, _, _, _, parsedTerm_of_term ht n, hs⟩)

theorem parsedExpression_of_expression (hF : F.Named) {n s r e} (h : expression F n s = .ok r e) (hb : StopsBoth F r) (hn : s.length < n) :
    parsedExpressionWith F n (parsedTerm F n) s = .ok r (toParsedExpr e) ∧ r.length < s.length ∧ Tight r := by
  obtain ⟨m, rfl⟩ : ∃ m, n = m + 1 := ⟨n - 1, by omega⟩
  have hlen := (expression_sound hF h).suffix.2
  simp only [expression, Res.andThen_ok, Res.ok.injEq] at h
  obtain ⟨s1, ts, h1, rfl, rfl⟩ := h
  obtain ⟨hne, hc, he⟩ := many1_sound h1
  refine ⟨?_, hlen, ?_⟩
  · refine many1_complete (hc.map ParsedTerm.simple fun t s r ht => ⟨itemP_of_plainItem ht m, ?_⟩) (by simpa [toParsedExpr] using hne)
      (itemP_of_plainItem_err he hb m) (by omega)
    obtain ⟨⟨v, hv⟩, hl⟩ := (term_sound hF (terminated_not_ok.mp ht).1).1.suffix
    exact ⟨byteLen_lt_of_suffix v hv hl, hl⟩
  · clear h1 he hb hlen hn
    induction hc with
    | nil => exact absurd rfl hne
    | @cons a l s s' r ha hc ih =>
      cases l with
      | nil => cases hc; exact (term_sound hF (terminated_not_ok.mp ha).1).2
      | cons b l => exact ih (by simp)

theorem parsedRhs_of_rhs (hF : F.Named) (ha : F.alternativeSeparator ≠ '(' ∧ F.alternativeSeparator ≠ '[') {n s r es}
    (h : prodRhs F n s = .ok r es) (hb : StopsBoth F r) (hn : s.length < n) :
    parsedProdRhs F n s = .ok r (es.map toParsedExpr) ∧ Tight r := by
  obtain ⟨hc, hd⟩ := xtList_sound h
  have key : ∀ {es : List Expression} {s r}, SepChain (fun a s r => expression F n s = .ok r a) (fun s r => ∃ v, expressionNext F s = .ok r v) es s r →
      StopsBoth F r → s.length < n →
      SepChain (fun a s r => parsedExpressionWith F n (parsedTerm F n) s = .ok r a ∧ r.length < s.length)
        (fun s r => (∃ v, expressionNext F s = .ok r v) ∧ r.length < s.length) (es.map toParsedExpr) s r ∧ Tight r := by
    intro es s r hc
    induction hc with
    | one h1 =>
      intro hb hn
      obtain ⟨h2, h3, h4⟩ := parsedExpression_of_expression hF h1 hb hn
      exact ⟨.one ⟨h2, h3⟩, h4⟩
    | @cons e es s s1 s2 r h1 h2 _ ih =>
      intro hb hn
      obtain ⟨v, h2⟩ := h2
      have hlen := expressionNext_length h2
      obtain ⟨s3, rfl, _, _⟩ := expressionNext_ok h2
      obtain ⟨h3, h4, _⟩ := parsedExpression_of_expression hF h1 (fun _ c cs hc => by injection hc with hc _; subst hc; exact ha) hn
      obtain ⟨h5, h6⟩ := ih hb (by omega)
      exact ⟨.cons ⟨h3, h4⟩ ⟨⟨v, h2⟩, hlen⟩ h5, h6⟩
  obtain ⟨h1, h2⟩ := key hc hb hn
  exact ⟨xtLoop_complete h1 hd hn, h2⟩

theorem stopsBoth_of_lhs {r r' u} (h : parsedProdLhs F r = .ok r' u) : StopsBoth F r := by
  intro ht
  exfalso
  simp only [parsedProdLhs, Res.andThen_ok] at h
  obtain ⟨s1, v, h1, s2, _, h2, _⟩ := h
  have hnt : nonterminal F r = .ok s2 (.nonterminal v) := by
    simp only [nonterminal, h1, Res.andThen_of_ok, h2]
  unfold term alt at ht
  split at ht
  · rw [hnt] at ht; cases ht
  · rename_i h3; exact h3 ht

/-- The text has ended or goes on with the left-hand side of a production. -/
def GoesOn (F : Format) (r : Str) : Prop := r = [] ∨ ∃ r' u, parsedProdLhs F r = .ok r' u

theorem goesOn_stopsBoth {r} (h : GoesOn F r) : StopsBoth F r := by
  rcases h with rfl | ⟨r', u, h⟩
  · intro _ c cs h; cases h
  · exact stopsBoth_of_lhs h

/-- What the plain parser has read is what the extended parser reads, if the text goes on with a production. -/
theorem parsedProduction_of_production (hF : F.Named) (ha : F.alternativeSeparator ≠ '(' ∧ F.alternativeSeparator ≠ '[') {n s r p}
    (h : production F n s = .ok r p) (hn : s.length < n) (hg : GoesOn F r) :
    ∃ u, p.lhs = .nonterminal u ∧ parsedProduction F n s = .ok r (toParsedProd u p.rhs) := by
  simp only [production, Res.andThen_ok, Res.ok.injEq, prodLhs_ok] at h
  obtain ⟨s1, lhs, ⟨u, rfl, h1⟩, s2, rhs, h2, s3, _, h3, rfl, rfl⟩ := h
  have := productionEnd_ok h3
  subst this
  have hlt := (parsedProdLhs_sound hF h1).1.suffix.2
  obtain ⟨hp, _⟩ := parsedRhs_of_rhs hF ha h2 (goesOn_stopsBoth hg) (by omega)
  have hend : alt (recognize (peek eof)) (recognize (peek (parsedProdLhs F))) s3 = .ok s3 () := by
    rcases hg with rfl | ⟨r', v, h⟩
    · rfl
    · rw [alt_of_err]
      · simp only [recognize, peek, h, Res.andThen_of_ok]
      · cases s3 with
        | nil => simp only [parsedProdLhs, nameText_nil, Res.andThen_of_err] at h; cases h
        | cons c cs => rfl
  exact ⟨u, rfl, by simp only [parsedProduction, h1, Res.andThen_of_ok, hp, hend, toParsedProd]⟩

theorem production_start {n s r p} (h : production F n s = .ok r p) : ∃ r' u, parsedProdLhs F s = .ok r' u := by
  simp only [production, Res.andThen_ok, prodLhs_ok] at h
  obtain ⟨s1, lhs, ⟨u, rfl, h1⟩, _⟩ := h
  exact ⟨s1, u, h1⟩

/-- After a production there is no layout left. -/
theorem production_tight (hF : F.Named) {n s r p} (h : production F n s = .ok r p) : Tight r := by
  simp only [production, Res.andThen_ok, Res.ok.injEq, prodLhs_ok] at h
  obtain ⟨s1, lhs, ⟨u, rfl, h1⟩, s2, rhs, h2, s3, _, h3, rfl, rfl⟩ := h
  have := productionEnd_ok h3
  subst this
  have hc := (xtList_sound h2).1
  clear h1 h2 h3
  have ex : ∀ {s r e}, expression F n s = .ok r e → Tight r := by
    intro s r e h
    simp only [expression, Res.andThen_ok, Res.ok.injEq] at h
    obtain ⟨s1, ts, h1, rfl, rfl⟩ := h
    have hne := (many1_sound h1).1
    have hc := (many1_sound h1).2.1
    clear h1
    induction hc with
    | nil => exact absurd rfl hne
    | @cons a l s s' r ha hc ih =>
      cases l with
      | nil => cases hc; exact (term_sound hF (terminated_not_ok.mp ha).1).2
      | cons b l => exact ih (by simp)
  induction hc with
  | one h => exact ex h
  | cons _ _ _ ih => exact ih

/-- If the plain parser accepts a text, the extended one reads the same productions. -/
theorem parsed_of_plain (hF : F.Named) (ha : F.alternativeSeparator ≠ '(' ∧ F.alternativeSeparator ≠ '[') {n s g}
    (h : allConsuming (plainGrammar F n) s = .ok [] g) (hn : s.length < n) :
    parsedGrammarComplete F n s = .ok [] (toParsed g.productions) ∧ ∀ p ∈ g.productions, ∃ u, p.lhs = .nonterminal u := by
  obtain ⟨_, h⟩ := allConsuming_ok.mp h
  simp only [plainGrammar, Res.andThen_ok, Res.ok.injEq] at h
  obtain ⟨s1, _, h1, s2, p, h2, s3, ps, h3, rfl, rfl⟩ := h
  obtain ⟨hne, hc, _⟩ := many1_sound h3
  have hs1 := (ws_sound h1).1.length
  have ht1 := (ws_sound h1).2
  have key : ∀ {g : List Production} {s r}, ParseChain (fun a s r => preceded whitespacePlusComments (production F n) s = .ok r a) g s r →
      r = [] → Tight s → s.length < n →
      ParseChain (fun a s r => preceded whitespacePlusComments (parsedProduction F n) s = .ok r a ∧ byteLen r < byteLen s ∧ r.length < s.length)
        (toParsed g) s [] ∧ (∀ p ∈ g, ∃ u, p.lhs = .nonterminal u) ∧ (g ≠ [] → ∃ r' u, parsedProdLhs F s = .ok r' u) := by
    intro g s r hc
    induction hc with
    | nil => rintro rfl _ _; exact ⟨.nil, by simp, fun h => absurd rfl h⟩
    | @cons p g s s' r hp hc ih =>
      intro hr ht hn
      rw [preceded_ws_tight ht] at hp
      obtain ⟨u0, hu0, hsound⟩ := production_sound hF hp
      obtain ⟨⟨v, hv⟩, hlt⟩ := hsound.suffix
      obtain ⟨ih1, ih2, ih3⟩ := ih hr (production_tight hF hp) (by omega)
      have hg : GoesOn F s' := by
        cases g with
        | nil => cases hc; exact .inl hr
        | cons q g => exact .inr (ih3 (by simp))
      obtain ⟨u, hu, hpp⟩ := parsedProduction_of_production hF ha hp hn hg
      refine ⟨?_, ?_, fun _ => production_start hp⟩
      · simp only [toParsed, hu]
        refine .cons ⟨?_, byteLen_lt_of_suffix v hv hlt, hlt⟩ ih1
        rw [preceded_ws_tight ht]
        exact hpp
      · intro q hq
        rcases List.mem_cons.mp hq with rfl | hq
        · exact ⟨u, hu⟩
        · exact ih2 q hq
  have hc' : ParseChain (fun a s r => preceded whitespacePlusComments (production F n) s = .ok r a) (p :: ps) s1 [] :=
    .cons (by rw [preceded_ws_tight ht1]; exact h2) hc
  obtain ⟨k1, k2, _⟩ := key hc' rfl ht1 (by omega)
  refine ⟨allConsuming_ok.mpr ⟨rfl, ?_⟩, k2⟩
  simp only [parsedGrammar, h1, Res.andThen_of_ok]
  refine many1_complete k1 (by simp [toParsed]) ?_ (by omega)
  rw [preceded_ws_tight .nil]
  simp only [parsedProduction, parsedProdLhs, nameText_nil, Res.andThen_of_err]

/-- Both paths lead to the same result. -/
theorem grammarComplete_extended (hF : F.Named) (ha : F.alternativeSeparator ≠ '(' ∧ F.alternativeSeparator ≠ '[') (s : Str) :
    grammarComplete F s = extendedResult F (s.length + 1) s := by
  unfold grammarComplete grammarCompleteFuel
  simp only
  split
  · rfl
  · split
    · rename_i r g h
      obtain ⟨rfl, _⟩ := allConsuming_ok.mp h
      obtain ⟨h1, h2⟩ := parsed_of_plain hF ha h (Nat.lt_succ_self _)
      unfold extendedResult
      rw [h1, Res.andThen_of_ok, normalize_plain h2]
    · rfl
    · rename_i h
      exact absurd h (plainGrammar_no_fuel hF (Nat.lt_succ_self _))

/-! ## Any format -/

theorem grammarComplete_total (hF : F.Named) (s : Str) : grammarComplete F s ≠ .fuel := by
  unfold grammarComplete grammarCompleteFuel
  simp only
  have hx := extendedResult_no_fuel hF (Nat.lt_succ_self s.length)
  split
  · exact hx
  · split
    · simp
    · exact hx
    · rename_i h
      exact absurd h (plainGrammar_no_fuel hF (Nat.lt_succ_self _))

theorem grammarComplete_sound (hF : F.Named) {s r g} (h : grammarComplete F s = .ok r g) :
    ∃ pg, GrammarText F pg s ∧ normalizeParsedGrammar pg = some g := by
  unfold grammarComplete grammarCompleteFuel at h
  simp only at h
  split at h
  · exact (extendedResult_ok hF h).2
  · split at h
    · rename_i r' g' h1
      injection h with h2 h3
      subst h2 h3
      obtain ⟨rfl, _⟩ := allConsuming_ok.mp h1
      obtain ⟨h3, h4⟩ := plainGrammar_sound hF h1
      exact ⟨_, h3, normalize_plain h4⟩
    · exact (extendedResult_ok hF h).2
    · cases h

/-! ## The character at which productions are said to begin -/

/-- The same format without that character. -/
def unstarted (F : Format) : Format := { F with productionStartChar := none }

theorem syn_unstarted {i s r} : Syn (unstarted F) i s r ↔ Syn F i s r := by
  constructor
  · intro h
    induction h with
    | terminal h hl => exact .terminal h hl
    | nonterminal h hl => exact .nonterminal h hl
    | group _ hl ih => exact .group ih hl
    | optional _ hl ih => exact .optional ih hl
    | one _ ih => exact .one ih
    | more _ _ ih1 ih2 => exact .more ih1 ih2
    | lastAlt _ ih => exact .lastAlt ih
    | nextAlt _ hl _ ih1 ih2 => exact .nextAlt ih1 hl ih2
  · intro h
    induction h with
    | terminal h hl => exact .terminal h hl
    | nonterminal h hl => exact .nonterminal h hl
    | group _ hl ih => exact .group ih hl
    | optional _ hl ih => exact .optional ih hl
    | one _ ih => exact .one ih
    | more _ _ ih1 ih2 => exact .more ih1 ih2
    | lastAlt _ ih => exact .lastAlt ih
    | nextAlt _ hl _ ih1 ih2 => exact .nextAlt ih1 hl ih2

theorem prod_unstarted {p s r} : Prod (unstarted F) p s r ↔ Prod F p s r :=
  ⟨fun ⟨s1, h1, h2⟩ => ⟨s1, h1, syn_unstarted.mp h2⟩, fun ⟨s1, h1, h2⟩ => ⟨s1, h1, syn_unstarted.mpr h2⟩⟩

theorem prods_unstarted {g s r} : Prods (unstarted F) g s r ↔ Prods F g s r := by
  constructor
  · intro h
    induction h with
    | one h => exact .one (prod_unstarted.mp h)
    | more h _ ih => exact .more (prod_unstarted.mp h) ih
  · intro h
    induction h with
    | one h => exact .one (prod_unstarted.mpr h)
    | more h _ ih => exact .more (prod_unstarted.mpr h) ih

theorem grammarText_unstarted {g s} : GrammarText (unstarted F) g s ↔ GrammarText F g s :=
  ⟨fun ⟨s1, h1, h2⟩ => ⟨s1, h1, prods_unstarted.mp h2⟩, fun ⟨s1, h1, h2⟩ => ⟨s1, h1, prods_unstarted.mpr h2⟩⟩

theorem parsedTerm_unstarted : ∀ n, parsedTerm (unstarted F) n = parsedTerm F n
  | 0 => rfl
  | n + 1 => by
    rw [parsedTerm, parsedTerm, parsedTerm_unstarted n]
    rfl

theorem extendedResult_unstarted (n : Nat) (s : Str) : extendedResult (unstarted F) n s = extendedResult F n s := by
  have h1 : parsedProdRhs (unstarted F) n = parsedProdRhs F n := by
    unfold parsedProdRhs
    rw [parsedTerm_unstarted]
    rfl
  have h2 : parsedProduction (unstarted F) n = parsedProduction F n := by
    funext s
    unfold parsedProduction
    rw [h1]
    rfl
  have h3 : parsedGrammarComplete (unstarted F) n = parsedGrammarComplete F n := by
    unfold parsedGrammarComplete
    congr 1
    funext s
    unfold parsedGrammar
    rw [h2]
  unfold extendedResult
  rw [h3]

/-! ## Well chosen formats -/

theorem opensName_iff {c : Char} : NameStart F c ↔ OpensName F c := Iff.rfl

theorem free_not_starts {c : Char} (h : Free c) (hn : ¬ OpensName F c) : ¬ Starts F c := by
  rintro (rfl | rfl | rfl | rfl | hs)
  · exact h.2 (by simp)
  · exact h.2 (by simp)
  · exact h.2 (by simp)
  · exact h.2 (by simp)
  · exact hn hs

theorem Spec.WellChosen.regular (h : WellChosen F) : (unstarted F).Regular where
  nameStart := by
    intro c hc
    have hc : OpensName F c := hc
    unfold OpensName at hc
    cases hd : F.nonterminalDelimiter with
    | some ab =>
      obtain ⟨a, b⟩ := ab
      rw [hd] at hc
      simp only at hc
      subst hc
      exact h.opening c b hd
    | none =>
      rw [hd] at hc
      simp only at hc
      have ht := h.definable hd
      refine ⟨?_, ?_⟩
      · cases hw : isWhitespace c with
        | false => rfl
        | true => rw [ht.space c hw] at hc; cases hc
      · intro hm
        simp only [List.mem_cons, List.not_mem_nil, or_false] at hm
        rcases hm with rfl | rfl | rfl | rfl | rfl | rfl | rfl <;> exact alpha_ascii ht (by decide) (by decide) hc
  altSep := ⟨free_not_starts (F := unstarted F) h.alternative.1 h.alternative.2, h.alternative.1.1, fun hm => h.alternative.1.2 (by
    simp only [List.mem_cons, List.not_mem_nil, or_false] at hm ⊢
    change F.alternativeSeparator = ';' ∨ F.alternativeSeparator = ')' ∨ F.alternativeSeparator = ']' at hm
    rcases hm with hm | hm | hm <;> simp [hm])⟩
  prodSep := by
    obtain ⟨x, xs, h1, h2, h3, h4⟩ := h.separator
    refine ⟨x, xs, h1, free_not_starts (F := unstarted F) h2 h3, h2.1, fun hm => ?_⟩
    simp only [List.mem_cons, List.not_mem_nil, or_false] at hm
    rcases hm with rfl | rfl | rfl | hm
    · exact h2.2 (by simp)
    · exact h2.2 (by simp)
    · exact h2.2 (by simp)
    · exact h4 hm
  startChar := by intro c hc; cases hc

theorem Spec.WellChosen.brackets (h : WellChosen F) : F.alternativeSeparator ≠ '(' ∧ F.alternativeSeparator ≠ '[' :=
  ⟨fun hc => h.alternative.1.2 (by rw [hc]; simp), fun hc => h.alternative.1.2 (by rw [hc]; simp)⟩

theorem grammarComplete_unstarted (h : WellChosen F) (s : Str) : grammarComplete F s = grammarComplete (unstarted F) s := by
  rw [grammarComplete_extended h.definable.named h.brackets, grammarComplete_extended (F := unstarted F) h.regular.named h.brackets,
    extendedResult_unstarted]

theorem parseFrom_unstarted (h : WellChosen F) (s : Str) : Grammar.parseFrom F s = Grammar.parseFrom (unstarted F) s := by
  unfold Grammar.parseFrom
  rw [grammarComplete_unstarted h]

theorem parseFrom_wellChosen (h : WellChosen F) {s g} : Grammar.parseFrom F s = some (.ok g) ↔
    ∃ pg, GrammarText F pg s ∧ normalizeParsedGrammar pg = some g := by
  rw [parseFrom_unstarted h, parseFrom_ok h.regular]
  simp only [grammarText_unstarted]

theorem grammarText_unique' (h : WellChosen F) {pg pg' s} (h1 : GrammarText F pg s) (h2 : GrammarText F pg' s) : pg = pg' :=
  grammarText_unique h.regular (grammarText_unstarted.mpr h1) (grammarText_unstarted.mpr h2)

theorem parseFrom_total (hF : F.Named) (s : Str) :
    (∃ g, Grammar.parseFrom F s = some (.ok g)) ∨ Grammar.parseFrom F s = some (.error .parseError) :=
  toResult_cases (grammarComplete_total hF s)

theorem parseFrom_sound (hF : F.Named) {s g} (h : Grammar.parseFrom F s = some (.ok g)) :
    ∃ pg, GrammarText F pg s ∧ normalizeParsedGrammar pg = some g := by
  obtain ⟨r, h⟩ := toResult_ok.mp h
  exact grammarComplete_sound hF h

/-! ## Writing grammars -/

theorem name_in {u r : Str} (h : NameIn F u) (hr : Spaced r) : Name F u (termText F (.nonterminal u) ++ r) r := by
  unfold NameIn at h
  unfold Name termText
  cases hd : F.nonterminalDelimiter with
  | some ab =>
    obtain ⟨a, b⟩ := ab
    rw [hd] at h
    exact ⟨by simp, h⟩
  | none =>
    rw [hd] at h
    obtain ⟨c, cs, rfl, hc⟩ := hr
    exact ⟨rfl, h.1, h.2, .inr ⟨c, cs, rfl, .inl hc⟩⟩

theorem term_in {t : Term} (h : TermIn F t) {r r'} (hr : Spaced r) (hl : Layout r r') :
    Syn F (.term (.simple t)) (termText F t ++ r) r' := by
  cases t with
  | terminal u =>
    refine .terminal (s' := r) ?_ hl
    simp only [termText]
    split
    · rename_i hc
      have hc' : '\'' ∈ u := by simpa using hc
      have : '"' ∉ u := by
        rcases h with h | h
        · exact h
        · exact absurd hc' h
      exact ⟨'"', .inl rfl, this, by simp⟩
    · rename_i hc
      have hc' : '\'' ∉ u := by simpa using hc
      exact ⟨'\'', .inr rfl, hc', by simp⟩
  | nonterminal u => exact .nonterminal (s' := r) (name_in h hr) hl

theorem terms_in : ∀ {ts : List Term}, ts ≠ [] → (∀ t ∈ ts, TermIn F t) → ∀ {r r' : Str}, Spaced r → Layout r r' →
    Syn F (.terms (ts.map .simple)) (sepBy [' '] (ts.map (termText F)) ++ r) r'
  | [], h, _, _, _, _, _ => absurd rfl h
  | [t], _, h, r, r', hr, hl => .one (term_in (h t (by simp)) hr hl)
  | t :: t' :: ts, _, h, r, r', hr, hl => by
    have ih := terms_in (ts := t' :: ts) (by simp) (fun x hx => h x (List.mem_cons_of_mem _ hx)) hr hl
    have h1 := term_in (h t (by simp)) spaced_space
      (layout_space (s := sepBy [' '] ((t' :: ts).map (termText F)) ++ r))
    have := Syn.more h1 ih
    simpa [sepBy] using this

theorem alts_in : ∀ {es : List Expression}, es ≠ [] → (∀ e ∈ es, e.terms ≠ [] ∧ ∀ t ∈ e.terms, TermIn F t) →
    ∀ {r r' : Str}, Spaced r → Layout r r' → Syn F (.alts (es.map toParsedExpr))
      (sepBy [' ', F.alternativeSeparator, ' '] (es.map fun e => sepBy [' '] (e.terms.map (termText F))) ++ r) r'
  | [], h, _, _, _, _, _ => absurd rfl h
  | [e], _, h, r, r', hr, hl => .lastAlt (terms_in (h e (by simp)).1 (h e (by simp)).2 hr hl)
  | e :: e' :: es, _, h, r, r', hr, hl => by
    have ih := alts_in (es := e' :: es) (by simp) (fun x hx => h x (List.mem_cons_of_mem _ hx)) hr hl
    have h1 := terms_in (h e (by simp)).1 (h e (by simp)).2 spaced_space
      (layout_space (s := F.alternativeSeparator :: ' ' ::
        (sepBy [' ', F.alternativeSeparator, ' '] ((e' :: es).map fun e => sepBy [' '] (e.terms.map (termText F))) ++ r)))
    have := Syn.nextAlt (F := F) h1 layout_space ih
    simpa [sepBy, toParsedExpr] using this

theorem production_in {p : Production} {u : Str} (hu : p.lhs = .nonterminal u) (hg : NameIn F u) (hne : p.rhs ≠ [])
    (he : ∀ e ∈ p.rhs, e.terms ≠ [] ∧ ∀ t ∈ e.terms, TermIn F t) {r} :
    Prod F (toParsedProd u p.rhs) (productionText F p ++ r) r := by
  obtain ⟨l, es⟩ := p
  simp only at hu hne he
  subst hu
  refine ⟨sepBy [' ', F.alternativeSeparator, ' '] (es.map fun e => sepBy [' '] (e.terms.map (termText F))) ++ '\n' :: r, ?_,
    alts_in hne he spaced_newline layout_newline⟩
  refine ⟨_, _, _, ?_, layout_space, .inl rfl, layout_space⟩
  have := name_in hg (spaced_space (s := F.productionSeparator ++ ' ' ::
    (sepBy [' ', F.alternativeSeparator, ' '] (es.map fun e => sepBy [' '] (e.terms.map (termText F))) ++ '\n' :: r)))
  simpa [productionText, toParsedProd] using this

theorem prods_in : ∀ {ps : List Production}, ps ≠ [] → (∀ p ∈ ps, (∃ u, p.lhs = .nonterminal u ∧ NameIn F u) ∧ p.rhs ≠ [] ∧
      ∀ e ∈ p.rhs, e.terms ≠ [] ∧ ∀ t ∈ e.terms, TermIn F t) →
    Prods F (toParsed ps) (ps.map (productionText F)).flatten []
  | [], h, _ => absurd rfl h
  | [p], _, h => by
    obtain ⟨⟨v, hv, hg⟩, h1, h2⟩ := h p (List.mem_cons_self ..)
    have := Prods.one (production_in (r := []) hv hg h1 h2)
    simpa [toParsed, hv] using this
  | p :: t' :: ts, _, h => by
    have ih := prods_in (ps := t' :: ts) (by simp) (fun x hx => h x (List.mem_cons_of_mem _ hx))
    obtain ⟨⟨v, hv, hg⟩, h1, h2⟩ := h p (List.mem_cons_self ..)
    have := Prods.more (production_in (r := ((t' :: ts).map (productionText F)).flatten) hv hg h1 h2) ih
    rw [toParsed, hv]
    simpa using this

theorem grammar_in {g : Grammar} (h : GrammarIn F g) : GrammarText F (toParsed g.productions) (grammarText F g) :=
  ⟨_, .nil, prods_in h.1 h.2⟩

theorem nameIn_of_name {u s r} (h : Name F u s r) : NameIn F u := by
  unfold NameIn
  unfold Name at h
  cases hd : F.nonterminalDelimiter with
  | some ab => rw [hd] at h; exact h.2
  | none => rw [hd] at h; exact ⟨h.2.1, h.2.2.1⟩

theorem grammarIn_of_text {g : Grammar} (hl : ∀ p ∈ g.productions, ∃ u, p.lhs = .nonterminal u) {s}
    (h : GrammarText F (toParsed g.productions) s) : GrammarIn F g := by
  have hn := normalize_plain hl
  obtain ⟨hne, hwf⟩ := text_wellFormed h hn
  refine ⟨hne, fun p hp => ?_⟩
  obtain ⟨⟨u, hu⟩, hr, hes⟩ := hwf p hp
  obtain ⟨l, es⟩ := p
  simp only at hu hr hes
  subst hu
  have hmem : toParsedProd u es ∈ toParsed g.productions := toParsed_mem hp
  refine ⟨⟨u, rfl, ?_⟩, hr, fun e he => ⟨hes e he, fun t ht => ?_⟩⟩
  · obtain ⟨s1, _, h2⟩ := h
    obtain ⟨s, r, s3, ⟨s4, s5, s6, hname, _⟩, _⟩ := prods_mem h2 _ hmem
    exact nameIn_of_name hname
  · have hw : PartOf (.term (.simple t)) (toParsed g.productions) :=
      ⟨_, hmem, .alts (List.mem_map.mpr ⟨e, he, rfl⟩) (.terms (List.mem_map.mpr ⟨t, ht, rfl⟩) .refl)⟩
    rcases text_simple h hw with ⟨v, s, r, rfl, h⟩ | ⟨v, s, r, rfl, h⟩
    · exact quoted_printable h
    · exact nameIn_of_name h

theorem text_terminals {pg s g} (h : GrammarText F pg s) (hn : normalizeParsedGrammar pg = some g) :
    ∀ p ∈ g.productions, ∀ e ∈ p.rhs, ∀ v, Term.terminal v ∈ e.terms → '"' ∉ v ∨ '\'' ∉ v := by
  obtain ⟨D, _, hp⟩ := normalize_parts hn
  intro p hm e he v ht
  rcases hp p hm with ⟨q, _, _, _, hf⟩ | ⟨k, _, as, _, _, hf⟩
  · exact text_literals h (hf e he) ht rfl
  · rcases hf e he with hf | rfl
    · exact text_literals h hf ht rfl
    · rcases List.mem_singleton.mp ht with h
      injection h with h
      subst h
      exact .inl (by simp)

/-! ## Formats in which nothing can be written -/

/-- No left-hand side can be read. -/
theorem lhs_never {s : Str} (h : ∀ x xs, F.productionSeparator = x :: xs → isWhitespace x = true ∨ x = ';') (hne : F.productionSeparator ≠ [])
    {r u} : parsedProdLhs F s ≠ .ok r u := by
  intro hp
  simp only [parsedProdLhs, Res.andThen_ok] at hp
  obtain ⟨s1, _, _, s2, _, h2, s3, _, h3, _⟩ := hp
  have ht := (ws_sound h2).2
  cases hs : F.productionSeparator with
  | nil => exact hne hs
  | cons x xs =>
    rw [hs] at h3
    have h4 := ht x (xs ++ s3) (tag_ok.mp h3)
    rcases h x xs hs with h5 | h5
    · rw [h4.1] at h5; cases h5
    · exact h4.2 h5

theorem rhs_never (h : F.productionSeparator = []) {n s r es} : parsedProdRhs F n s ≠ .ok r es := by
  intro hp
  obtain ⟨hc, _⟩ := xtList_sound hp
  have key : ∀ {s r e}, parsedExpressionWith F n (parsedTerm F n) s ≠ .ok r e := by
    intro s r e he
    obtain ⟨hne, hc, _⟩ := many1_sound he
    cases hc with
    | nil => exact hne rfl
    | cons h1 _ =>
      have := (terminated_not_ok.mp h1).2
      rw [h] at this
      cases this
  cases hc with
  | one h1 => exact key h1
  | cons h1 _ _ => exact key h1

theorem rhs_never' (h : F.productionSeparator = []) {n s r es} : prodRhs F n s ≠ .ok r es := by
  intro hp
  obtain ⟨hc, _⟩ := xtList_sound hp
  have key : ∀ {s r e}, expression F n s ≠ .ok r e := by
    intro s r e he
    simp only [expression, Res.andThen_ok, Res.ok.injEq] at he
    obtain ⟨s1, ts, h1, _, _⟩ := he
    obtain ⟨hne, hc, _⟩ := many1_sound h1
    cases hc with
    | nil => exact hne rfl
    | cons h1 _ =>
      have := (terminated_not_ok.mp h1).2
      rw [h] at this
      cases this
  cases hc with
  | one h1 => exact key h1
  | cons h1 _ _ => exact key h1

/-- What is read before anything can be accepted. -/
theorem accepted_start {s r g} (h : grammarComplete F s = .ok r g) :
    ∃ s1 s2 u s3, parsedProdLhs F s1 = .ok s2 u ∧ ((∃ es, prodRhs F (s.length + 1) s2 = .ok s3 es) ∨ ∃ es, parsedProdRhs F (s.length + 1) s2 = .ok s3 es) := by
  have ext : ∀ {r g}, extendedResult F (s.length + 1) s = .ok r g → ∃ s1 s2 u s3, parsedProdLhs F s1 = .ok s2 u ∧
      ((∃ es, prodRhs F (s.length + 1) s2 = .ok s3 es) ∨ ∃ es, parsedProdRhs F (s.length + 1) s2 = .ok s3 es) := by
    intro r g h
    unfold extendedResult at h
    obtain ⟨s1, pg, h1, _⟩ := Res.andThen_ok.mp h
    obtain ⟨_, h1⟩ := allConsuming_ok.mp h1
    simp only [parsedGrammar, Res.andThen_ok] at h1
    obtain ⟨s2, _, _, h2⟩ := h1
    obtain ⟨hne, hc, _⟩ := many1_sound h2
    cases hc with
    | nil => exact absurd rfl hne
    | cons h3 _ =>
      simp only [preceded, parsedProduction, Res.andThen_ok] at h3
      obtain ⟨s4, _, _, s5, u, h5, s6, es, h6, _⟩ := h3
      exact ⟨s4, s5, u, s6, h5, .inr ⟨es, h6⟩⟩
  unfold grammarComplete grammarCompleteFuel at h
  simp only at h
  split at h
  · exact ext h
  · split at h
    · rename_i r' g' h1
      obtain ⟨_, h1⟩ := allConsuming_ok.mp h1
      simp only [plainGrammar, Res.andThen_ok, production, prodLhs_ok] at h1
      obtain ⟨s2, _, _, s3, p, ⟨s4, _, ⟨u, _, h4⟩, s5, es, h5, _⟩, _⟩ := h1
      exact ⟨s2, s4, u, s5, h4, .inl ⟨es, h5⟩⟩
    · exact ext h
    · cases h

theorem accepts_nothing (h : ∀ x xs, F.productionSeparator = x :: xs → isWhitespace x = true ∨ x = ';') {s r g} :
    grammarComplete F s ≠ .ok r g := by
  intro hg
  obtain ⟨s1, s2, u, s3, h1, h2⟩ := accepted_start hg
  by_cases hne : F.productionSeparator = []
  · rcases h2 with ⟨es, h2⟩ | ⟨es, h2⟩
    · exact rhs_never' hne h2
    · exact rhs_never hne h2
  · exact lhs_never h hne h1

/-! ## Formats whose alternative separator is layout -/

/-- No list of alternatives inside has more than one. -/
def OneEach (i : Item) : Prop := ∀ as, Within (.alts as) i → as.length = 1

section
variable (ha : isWhitespace F.alternativeSeparator = true ∨ F.alternativeSeparator = ';')
include ha

theorem next_tight {s r v} (ht : Tight s) : expressionNext F s ≠ .ok r v := by
  intro h
  obtain ⟨s1, rfl, _, _⟩ := expressionNext_ok h
  have := ht _ _ rfl
  rcases ha with h | h
  · rw [this.1] at h; cases h
  · exact this.2 h

theorem alts_single {pt : P ParsedTerm} (hp : ∀ s r t, pt s = .ok r t → OneEach (.term t) ∧ Tight r) {n s r as}
    (h : parsedAltsWith F n pt s = .ok r as) : OneEach (.alts as) := by
  have hc := (xtList_sound h).1
  have key : ∀ {s r e}, parsedExpressionWith F n pt s = .ok r e → OneEach (.terms e) ∧ Tight r := by
    intro s r e he
    have hne := (many1_sound he).1
    have hc := (many1_sound he).2.1
    clear he h
    have h1 : OneEach (.terms e) := by
      intro as hw
      cases hw with
      | terms hm hw =>
        clear hne
        induction hc with
        | nil => cases hm
        | cons h1 _ ih =>
          rcases List.mem_cons.mp hm with rfl | hm
          · exact (hp _ _ _ (terminated_not_ok.mp h1).1).1 _ hw
          · exact ih hm
    refine ⟨h1, ?_⟩
    clear h1
    induction hc with
    | nil => exact absurd rfl hne
    | @cons a l s s' r ha hc ih =>
      cases l with
      | nil => cases hc; exact (hp _ _ _ (terminated_not_ok.mp ha).1).2
      | cons b l => exact ih (by simp)
  cases hc with
  | one h1 =>
    intro as hw
    cases hw with
    | refl => rfl
    | alts hm hw =>
      rcases List.mem_singleton.mp hm with rfl
      exact (key h1).1 _ hw
  | cons h1 h2 _ =>
    obtain ⟨v, h2⟩ := h2
    exact absurd h2 (next_tight ha (key h1).2)

theorem term_single (hF : F.Named) : ∀ n s r t, parsedTerm F n s = .ok r t → OneEach (.term t) ∧ Tight r := by
  intro n
  induction n with
  | zero => intro s r t h; cases h
  | succ n ih =>
    intro s r t h
    refine ⟨?_, (parsedTerm_sound hF h).2⟩
    rw [parsedTerm] at h
    rw [alt_ok] at h
    rcases h with h | ⟨_, h⟩
    · simp only [parsedTerminal, Res.andThen_ok, Res.ok.injEq] at h
      obtain ⟨s1, u, h1, s2, w, h2, rfl, rfl⟩ := h
      intro as hw; cases hw
    rw [alt_ok] at h
    rcases h with h | ⟨_, h⟩
    · simp only [parsedNonterminal, Res.andThen_ok, Res.ok.injEq] at h
      obtain ⟨s1, u, h1, s2, w, h2, rfl, rfl⟩ := h
      intro as hw; cases hw
    rw [alt_ok] at h
    rcases h with h | ⟨_, h⟩
    · simp only [parsedAnonymousGroup, Res.andThen_ok, Res.ok.injEq, delimited_ok, char_ok] at h
      obtain ⟨s1, u, ⟨s2, c, s3, d, ⟨rfl, _⟩, h2, rfl, _⟩, s4, w, h3, rfl, rfl⟩ := h
      intro as hw
      cases hw with
      | group hw => exact alts_single ha ih h2 as hw
    · simp only [parsedOptionalGroup, Res.andThen_ok, Res.ok.injEq, delimited_ok, char_ok] at h
      obtain ⟨s1, u, ⟨s2, c, s3, d, ⟨rfl, _⟩, h2, rfl, _⟩, s4, w, h3, rfl, rfl⟩ := h
      intro as hw
      cases hw with
      | optional hw => exact alts_single ha ih h2 as hw

theorem grammar_single (hF : F.Named) {s r g} (h : grammarComplete F s = .ok r g) :
    ∃ pg, normalizeParsedGrammar pg = some g ∧ ∀ as, PartOf (.alts as) pg → as.length = 1 := by
  have hb : F.alternativeSeparator ≠ '(' ∧ F.alternativeSeparator ≠ '[' := by
    refine ⟨fun hc => ?_, fun hc => ?_⟩ <;>
    · rw [hc] at ha
      rcases ha with h | h
      · exact absurd h (by decide)
      · exact absurd h (by decide)
  rw [grammarComplete_extended hF hb] at h
  unfold extendedResult at h
  obtain ⟨s1, pg, h1, h2⟩ := Res.andThen_ok.mp h
  refine ⟨pg, ?_, ?_⟩
  · cases hn : normalizeParsedGrammar pg with
    | none => rw [hn] at h2; cases h2
    | some g' => rw [hn] at h2; injection h2 with _ h2; rw [h2]
  · replace h1 := (allConsuming_ok.mp h1).2
    simp only [parsedGrammar, Res.andThen_ok] at h1
    obtain ⟨s2, _, hw1, h3⟩ := h1
    have hc := (many1_sound h3).2.1
    clear h3 h2 h hw1
    generalize ([] : Str) = z at hc
    rintro as ⟨p, hp, hw⟩
    induction hc with
    | nil => cases hp
    | cons h3 _ ih =>
      rcases List.mem_cons.mp hp with rfl | hp
      · simp only [preceded, parsedProduction, Res.andThen_ok, Res.ok.injEq] at h3
        obtain ⟨s4, _, _, s5, u, h5, s6, es, h6, _, _, _, _, rfl⟩ := h3
        exact alts_single ha (term_single ha hF _) h6 as hw
      · exact ih hp

theorem single_rhs (hF : F.Named) {s r g} (h : grammarComplete F s = .ok r g) :
    ∀ p ∈ g.productions, ∃ e, p.rhs = [e] ∨ p.rhs = [e, emptyAlt] := by
  obtain ⟨pg, h1, h2⟩ := grammar_single ha hF h
  obtain ⟨user, anon, k1, k2, k3, k4, k5⟩ := normalize_spec h1
  intro p hp
  rw [k1] at hp
  rcases List.mem_append.mp hp with hp | hp
  · obtain ⟨q, hq, hl, hr⟩ := forall₂_mem_right k2 p hp
    have hlen : p.rhs.length = 1 := by rw [lowA_length hr]; exact h2 _ ⟨q, hq, .refl⟩
    obtain ⟨e, he⟩ := List.length_eq_one_iff.mp hlen
    exact ⟨e, .inl he⟩
  · obtain ⟨q, hq, ho⟩ := k5 p hp
    obtain ⟨as, rhs, hl, hc⟩ := ho p (List.mem_singleton.mpr rfl)
    rcases hc with ⟨hw, hr⟩ | ⟨hw, hr⟩
    · have hlen : rhs.length = 1 := by rw [lowA_length hl]; exact h2 _ ⟨q, hq, Within.trans (.group .refl) hw⟩
      obtain ⟨e, he⟩ := List.length_eq_one_iff.mp hlen
      exact ⟨e, .inl (by rw [hr, he]; rfl)⟩
    · have hlen : rhs.length = 1 := by rw [lowA_length hl]; exact h2 _ ⟨q, hq, Within.trans (.optional .refl) hw⟩
      obtain ⟨e, he⟩ := List.length_eq_one_iff.mp hlen
      exact ⟨e, .inr (by rw [hr, he]; rfl)⟩

end

end Bnf
