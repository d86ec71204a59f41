import Verif.Proofs.TextParse

/-! # The plain text parser, the entry points and normalization of plain grammars -/

set_option autoImplicit false

namespace Bnf
open Spec Nom

variable {F : Format}

/-! ## Plain terms are the simple extended terms -/

theorem term_sound (hF : F.Named) {s r t} (h : term F s = .ok r t) : Syn F (.term (.simple t)) s r ∧ Tight r := by
  unfold term at h
  rw [alt_ok] at h
  rcases h with h | ⟨_, h⟩
  · simp only [terminal, Res.andThen_ok, Res.ok.injEq, quotedText_ok] at h
    obtain ⟨s1, u, h1, s2, w, h2, rfl, rfl⟩ := h
    exact ⟨.terminal h1 (ws_sound h2).1, (ws_sound h2).2⟩
  · simp only [nonterminal, Res.andThen_ok, Res.ok.injEq, nameText_ok hF] at h
    obtain ⟨s1, u, h1, s2, w, h2, rfl, rfl⟩ := h
    exact ⟨.nonterminal h1 (ws_sound h2).1, (ws_sound h2).2⟩

theorem term_terminal {u s s' r} (h : Quoted u s s') (hl : Layout s' r) (hr : Tight r) :
    term F s = .ok r (.terminal u) := by
  refine alt_of_ok ?_
  simp only [terminal, quotedText_ok.mpr h, Res.andThen_of_ok, ws_of_layout hl hr]

theorem term_nonterminal (hF : F.Regular) {u s s' r} (h : Name F u s s') (hl : Layout s' r) (hr : Tight r) :
    term F s = .ok r (.nonterminal u) := by
  rw [term, alt_of_err]
  · simp only [nonterminal, (nameText_ok hF).mpr h, Res.andThen_of_ok, ws_of_layout hl hr]
  · obtain ⟨c, cs, rfl, hc⟩ := h.start
    have := (hF.nameStart c hc).2
    simp only [terminal]
    rw [quotedText_err (by rintro rfl; simp at this) (by rintro rfl; simp at this)]
    rfl

theorem term_complete (hF : F.Regular) {t s r} (h : Syn F (.term (.simple t)) s r) (hr : Tight r) : term F s = .ok r t := by
  cases h with
  | terminal h hl => exact term_terminal h hl hr
  | nonterminal h hl => exact term_nonterminal hF h hl hr

theorem term_err {c : Char} (h : ¬ Starts F c) (s : Str) : term F (c :: s) = .err := by
  simp only [Starts, not_or] at h
  obtain ⟨h1, h2, h3, h4, h5⟩ := h
  rw [term, alt_of_err]
  · simp only [nonterminal, nameText_err h5, Res.andThen_of_err]
  · simp only [terminal, quotedText_err h1 h2, Res.andThen_of_err]

theorem term_nil : term F [] = .err := by
  rw [term, alt_of_err]
  · simp only [nonterminal, nameText_nil, Res.andThen_of_err]
  · rfl

theorem term_no_fuel (s : Str) : term F s ≠ .fuel := by
  refine alt_no_fuel ?_ ?_
  · intro h
    simp only [terminal, Res.andThen_fuel, ws_eq, Res.andThen_of_ok] at h
    rcases h with h | ⟨_, _, _, h⟩
    · exact quotedText_no_fuel _ h
    · cases h
  · intro h
    simp only [nonterminal, Res.andThen_fuel, ws_eq, Res.andThen_of_ok] at h
    rcases h with h | ⟨_, _, _, h⟩
    · exact nameText_no_fuel _ _ h
    · cases h

abbrev plainItem (F : Format) : P Term := terminated (term F) (Nom.not (tag F.productionSeparator))

theorem plainItem_err_follow (hF : F.Regular) {r} (h : Follow F r) : plainItem F r = .err := by
  rcases h with rfl | ⟨c, cs, rfl, h⟩ | ⟨u, s1, s2, h, hl⟩
  · exact terminated_not_err (.inl term_nil)
  · refine terminated_not_err (.inl (term_err ?_ cs))
    rcases h with rfl | h
    · exact hF.altSep.1
    · exact close_not_starts hF h
  · exact terminated_not_err (.inr ⟨_, _, _, _, term_nonterminal hF h hl (sep_tight hF s2), tag_append _ _⟩)

/-! ## Expressions -/

/-- A plain expression as an extended one. -/
def toParsedExpr (e : Expression) : ParsedExpression := e.terms.map .simple

theorem expression_sound (hF : F.Named) {n s r e} (h : expression F n s = .ok r e) :
    Syn F (.terms (toParsedExpr e)) s r := by
  simp only [expression, Res.andThen_ok, Res.ok.injEq] at h
  obtain ⟨s1, ts, h1, rfl, rfl⟩ := h
  obtain ⟨hne, hc, _⟩ := many1_sound h1
  refine chain_terms (hc.map ParsedTerm.simple fun t s r ht => (term_sound hF (terminated_not_ok.mp ht).1).1) ?_
  simpa [toParsedExpr] using hne

theorem plain_chain (hF : F.Regular) {ts s r n}
    (h : ParseChain (fun a s r => itemP F n s = .ok r a ∧ byteLen r < byteLen s ∧ r.length < s.length) ts s r) {ts' : List Term}
    (he : ts = ts'.map .simple) :
    ParseChain (fun a s r => plainItem F s = .ok r a ∧ byteLen r < byteLen s ∧ r.length < s.length) ts' s r := by
  induction h generalizing ts' with
  | nil =>
    cases ts' with
    | nil => exact .nil
    | cons _ _ => cases he
  | cons h1 _ ih =>
    cases ts' with
    | nil => cases he
    | cons t ts' =>
      injection he with he1 he2
      subst he1
      refine .cons ⟨terminated_not_ok.mpr ?_, h1.2⟩ (ih he2)
      obtain ⟨h2, h3⟩ := terminated_not_ok.mp h1.1
      obtain ⟨h4, h5⟩ := parsedTerm_sound hF h2
      exact ⟨term_complete hF h4 h5, h3⟩

theorem expression_complete (hF : F.Regular) {e : Expression} {s r} (h : Syn F (.terms (toParsedExpr e)) s r) (hr : Follow F r) {n}
    (hn : s.length < n) : expression F n s = .ok r e := by
  have hc := plain_chain hF ((syn_reads hF h).1 hr n hn) rfl
  have hne : e.terms ≠ [] := by
    have := h.chain rfl
    simpa [toParsedExpr] using this
  have := many1_complete hc hne (plainItem_err_follow hF hr) (n := n) (by omega)
  simp only [expression, this, Res.andThen_of_ok]

theorem expression_no_fuel (hF : F.Named) {n s} (hn : s.length < n) : expression F n s ≠ .fuel := by
  intro h
  simp only [expression, Res.andThen_fuel] at h
  rcases h with h | ⟨_, _, _, h⟩
  · exact many1_no_fuel (N := n) (fun s _ => terminated_not_no_fuel (term_no_fuel s) (tag_no_fuel _))
      (fun s r v h => (term_sound hF (terminated_not_ok.mp h).1).1.suffix.2) (by omega) hn h
  · cases h

/-! ## Productions -/

theorem prodRhs_sound (hF : F.Named) {n s r es} (h : prodRhs F n s = .ok r es) :
    Syn F (.alts (es.map toParsedExpr)) s r := by
  obtain ⟨h, _⟩ := xtList_sound h
  refine sepChain_alts (h.map toParsedExpr (fun e s r he => expression_sound hF he) (fun s r hd => ?_))
  obtain ⟨v, hd⟩ := hd
  obtain ⟨s1, h1, h2, _⟩ := expressionNext_ok hd
  exact ⟨s1, h1, h2⟩

theorem prodRhs_complete (hF : F.Regular) {es : List Expression} {s r} (h : Syn F (.alts (es.map toParsedExpr)) s r) (hf : Follow F r)
    (hr : ∀ cs, r ≠ F.alternativeSeparator :: cs) {n} (hn : s.length < n) : prodRhs F n s = .ok r es := by
  have key : ∀ {as s r}, SepChain (fun e s r => Follow F r ∧ e ≠ [] ∧ (∀ n, s.length < n →
        ParseChain (fun a s r => itemP F n s = .ok r a ∧ byteLen r < byteLen s ∧ r.length < s.length) e s r) ∧ r.length < s.length)
      (fun s r => ∃ s1, s = F.alternativeSeparator :: s1 ∧ Layout s1 r ∧ Tight r) as s r → ∀ {es : List Expression},
      as = es.map toParsedExpr → s.length < n →
      SepChain (fun a s r => expression F n s = .ok r a ∧ r.length < s.length)
        (fun s r => (∃ v, expressionNext F s = .ok r v) ∧ r.length < s.length) es s r := by
    intro as s r h
    have rd : ∀ {e : Expression} {s r : Str}, (Follow F r ∧ toParsedExpr e ≠ [] ∧ (∀ n, s.length < n →
        ParseChain (fun a s r => itemP F n s = .ok r a ∧ byteLen r < byteLen s ∧ r.length < s.length) (toParsedExpr e) s r) ∧
        r.length < s.length) → s.length < n → expression F n s = .ok r e ∧ r.length < s.length := by
      rintro e s r ⟨h1, h2, h3, h4⟩ hn
      have hc := plain_chain hF (h3 n hn) rfl
      have hne : e.terms ≠ [] := by simpa [toParsedExpr] using h2
      have := many1_complete hc hne (plainItem_err_follow hF h1) (n := n) (by omega)
      exact ⟨by simp only [expression, this, Res.andThen_of_ok], h4⟩
    induction h with
    | one h =>
      intro es he hn
      match es, he with
      | [e], he =>
        injection he with he _
        subst he
        exact .one (rd h hn)
    | @cons e as s s1 s2 r h hd _ ih =>
      intro es he hn
      match es, he with
      | e' :: es, he =>
        injection he with he1 he2
        subst he1
        have hlt := h.2.2.2
        obtain ⟨s3, rfl, h1, h2⟩ := hd
        have := h1.length
        refine .cons (rd h hn) ⟨⟨(), ?_⟩, ?_⟩ (ih he2 ?_)
        · simp only [expressionNext, char_cons, Res.andThen_of_ok, ws_of_layout h1 h2]
        · simp only [List.length_cons]; omega
        · simp only [List.length_cons] at hlt; omega
  have h' := key ((syn_reads hF h).2 _ rfl hf) rfl hn
  have hd : expressionNext F r = .err := by
    cases r with
    | nil => rfl
    | cons c cs =>
      simp only [expressionNext]
      rw [char_ne]
      · rfl
      · rintro rfl; exact hr cs rfl
  exact xtLoop_complete h' hd hn

theorem prodRhs_no_fuel (hF : F.Named) {n s} (hn : s.length < n) : prodRhs F n s ≠ .fuel :=
  xtLoop_no_fuel (N := n) (fun _ hs => expression_no_fuel hF hs) expressionNext_no_fuel
    (fun _ _ _ h => (expression_sound hF h).suffix.2) (fun _ _ _ => expressionNext_length) hn hn

theorem prodLhs_eq (s : Str) : prodLhs F s = (parsedProdLhs F s).map .nonterminal := by
  simp only [prodLhs, nonterminal, parsedProdLhs, Res.map, ws_eq, Res.andThen_of_ok]
  cases nameText F s with
  | fuel => rfl
  | err => rfl
  | ok r v =>
    simp only [Res.andThen_of_ok]
    cases tag F.productionSeparator (skipM false r) with
    | fuel => rfl
    | err => rfl
    | ok r w =>
      simp only [Res.andThen_of_ok]
      cases opt (char F.alternativeSeparator) r with
      | fuel => rfl
      | err => rfl
      | ok r w => rfl

theorem prodLhs_ok {s r t} : prodLhs F s = .ok r t ↔ ∃ u, t = .nonterminal u ∧ parsedProdLhs F s = .ok r u := by
  rw [prodLhs_eq]
  simp only [Res.map, Res.andThen_ok, Res.ok.injEq]
  constructor
  · rintro ⟨r1, u, h, rfl, rfl⟩; exact ⟨u, rfl, h⟩
  · rintro ⟨u, rfl, h⟩; exact ⟨r, u, h, rfl, rfl⟩

theorem prodLhs_no_fuel (s : Str) : prodLhs F s ≠ .fuel := by
  rw [prodLhs_eq]
  intro h
  simp only [Res.map, Res.andThen_fuel] at h
  rcases h with h | ⟨_, _, _, h⟩
  · exact parsedProdLhs_no_fuel s h
  · cases h

/-- A plain production with the given left-hand side as an extended one. -/
def toParsedProd (u : Str) (es : List Expression) : ParsedProduction := ⟨u, es.map toParsedExpr⟩

theorem productionEnd_ok {s r v} (h : productionEnd F s = .ok r v) : r = s := by
  unfold productionEnd at h
  split at h
  all_goals
    rw [alt_ok] at h
    rcases h with h | ⟨_, h⟩ <;> exact recognize_peek_ok h

theorem production_sound (hF : F.Named) {n s r p} (h : production F n s = .ok r p) :
    ∃ u, p.lhs = .nonterminal u ∧ Prod F (toParsedProd u p.rhs) s r := by
  simp only [production, Res.andThen_ok, Res.ok.injEq, prodLhs_ok] at h
  obtain ⟨s1, lhs, ⟨u, rfl, h1⟩, s2, rhs, h2, s3, _, h3, rfl, rfl⟩ := h
  have := productionEnd_ok h3
  subst this
  exact ⟨u, rfl, s1, (parsedProdLhs_sound hF h1).1, prodRhs_sound hF h2⟩

theorem production_complete (hF : F.Regular) {u : Str} {es : List Expression} {s r} (h : Prod F (toParsedProd u es) s r)
    (hr : ProdFollow F r) {n} (hn : s.length < n) : production F n s = .ok r ⟨.nonterminal u, es⟩ := by
  obtain ⟨s1, h1, h2⟩ := h
  have hlt := h1.suffix.2
  have hp := prodRhs_complete hF h2 (prodFollow_follow hr) (prodFollow_ne hF hr) (n := n) (by omega)
  have hlhs := prodLhs_ok.mpr ⟨u, rfl, lhs_complete hF h1 (syn_tight hF h2) (starts_ne_altSep hF h2.start)⟩
  have hend : productionEnd F r = .ok r () := by
    unfold productionEnd
    cases hc : F.productionStartChar with
    | none =>
      simp only
      rcases hr with rfl | ⟨q, r', s2, h3, h4⟩
      · rfl
      · have hlhs' := prodLhs_ok.mpr ⟨_, rfl, lhs_complete hF h3 (syn_tight hF h4) (starts_ne_altSep hF h4.start)⟩
        rw [alt_of_err]
        · simp only [recognize, peek, hlhs', Res.andThen_of_ok]
        · obtain ⟨c, cs, rfl, _⟩ := h3.start
          rfl
    | some c =>
      simp only
      rcases hr with rfl | ⟨q, r', h3⟩
      · rfl
      · have ht := name_tight hF h3.start
        obtain ⟨d, ds, rfl, hd⟩ := h3.start
        obtain ⟨b, hb⟩ := hF.startChar c hc
        unfold NameStart at hd
        rw [hb] at hd
        simp only at hd
        subst hd
        rw [alt_of_err]
        · simp only [recognize, peek]
          rw [preceded_ws_tight ht, char_cons]
          rfl
        · rfl
  simp only [production, hlhs, Res.andThen_of_ok, hp, hend]

theorem production_no_fuel (hF : F.Named) {n s} (hn : s.length < n) : production F n s ≠ .fuel := by
  intro h
  simp only [production, Res.andThen_fuel, prodLhs_ok] at h
  rcases h with h | ⟨r, v, ⟨u, _, h1⟩, h | ⟨_, _, _, h | ⟨_, _, _, h⟩⟩⟩
  · exact prodLhs_no_fuel s h
  · have := (parsedProdLhs_sound hF h1).1.suffix.2
    exact prodRhs_no_fuel hF (by omega) h
  · unfold productionEnd at h
    split at h
    · refine alt_no_fuel (recognize_peek_no_fuel (eof_no_fuel _)) (recognize_peek_no_fuel ?_) h
      exact preceded_ws_no_fuel (char_no_fuel _ _)
    · exact alt_no_fuel (recognize_peek_no_fuel (eof_no_fuel _)) (recognize_peek_no_fuel (prodLhs_no_fuel _)) h
  · cases h

/-! ## Grammars -/

/-- The extended form of a list of productions with nonterminal left-hand sides. -/
def toParsed : List Production → ParsedGrammar
  | [] => []
  | p :: ps => toParsedProd (match p.lhs with | .nonterminal u => u | .terminal u => u) p.rhs :: toParsed ps

theorem plainGrammar_sound (hF : F.Named) {n s g} (h : allConsuming (plainGrammar F n) s = .ok [] g) :
    GrammarText F (toParsed g.productions) s ∧ ∀ p ∈ g.productions, ∃ u, p.lhs = .nonterminal u := by
  obtain ⟨_, h⟩ := allConsuming_ok.mp h
  simp only [plainGrammar, Res.andThen_ok, Res.ok.injEq] at h
  obtain ⟨s1, _, h1, s2, p, h2, s3, ps, h3, rfl, rfl⟩ := h
  obtain ⟨hne, hc, _⟩ := many1_sound h3
  have key : ∀ {g : List Production} {s r}, ParseChain (fun a s r => preceded whitespacePlusComments (production F n) s = .ok r a) g s r →
      g ≠ [] → (∃ s1, Layout s s1 ∧ Prods F (toParsed g) s1 r) ∧ ∀ p ∈ g, ∃ u, p.lhs = .nonterminal u := by
    intro g s r hc
    induction hc with
    | nil => intro h; exact absurd rfl h
    | @cons p g s s' r h1 h2 ih =>
      intro _
      simp only [preceded, Res.andThen_ok] at h1
      obtain ⟨s2, _, h3, h4⟩ := h1
      obtain ⟨u, hu, hp⟩ := production_sound hF h4
      cases g with
      | nil =>
        cases h2
        refine ⟨⟨s2, (ws_sound h3).1, ?_⟩, ?_⟩
        · simp only [toParsed, hu]; exact .one hp
        · intro q hq; rcases List.mem_singleton.mp hq with rfl; exact ⟨u, hu⟩
      | cons q g =>
        obtain ⟨⟨s3, h5, h6⟩, h9⟩ := ih (by simp)
        obtain ⟨s4, h7, h8⟩ := hp
        refine ⟨⟨s2, (ws_sound h3).1, ?_⟩, ?_⟩
        · rw [toParsed]
          simp only [hu]
          exact .more ⟨s4, h7, syn_layout h8 h5⟩ h6
        · intro q' hq
          rcases List.mem_cons.mp hq with rfl | hq
          · exact ⟨u, hu⟩
          · exact h9 q' hq
  obtain ⟨⟨s4, h4, h5⟩, h6⟩ := key hc hne
  obtain ⟨u, hu, hp⟩ := production_sound hF h2
  obtain ⟨s5, h7, h8⟩ := hp
  refine ⟨⟨s1, (ws_sound h1).1, ?_⟩, ?_⟩
  · simp only [toParsed, hu]
    exact .more ⟨s5, h7, syn_layout h8 h4⟩ h5
  · intro q hq
    rcases List.mem_cons.mp hq with rfl | hq
    · exact ⟨u, hu⟩
    · exact h6 q hq

theorem plainGrammar_no_fuel (hF : F.Named) {n s} (hn : s.length < n) : allConsuming (plainGrammar F n) s ≠ .fuel := by
  refine allConsuming_no_fuel ?_
  intro h
  simp only [plainGrammar, ws_eq, Res.andThen_of_ok, Res.andThen_fuel] at h
  have h0 := skipM_length false s
  rcases h with h | ⟨r, p, h1, h | ⟨_, _, _, h⟩⟩
  · exact production_no_fuel hF (by omega) h
  · obtain ⟨u, _, hp⟩ := production_sound hF h1
    have h2 := hp.suffix.2
    refine many1_no_fuel (N := n) ?_ ?_ (by omega) (by omega) h
    · intro s hs
      have := skipM_length false s
      exact preceded_ws_no_fuel (production_no_fuel hF (by omega))
    · intro s r v h
      simp only [preceded, ws_eq, Res.andThen_of_ok] at h
      obtain ⟨u, _, hp⟩ := production_sound hF h
      have := hp.suffix.2
      have := skipM_length false s
      omega
  · cases h

/-! ## Normalization of plain grammars -/

theorem lowerTerms_plain (ts : List Term) (st : NormState) : lowerTerms (ts.map .simple) st = some (ts, st) := by
  induction ts with
  | nil => simp [lowerTerms]
  | cons t ts ih => simp [lowerTerms, lowerTerm, ih]

theorem lowerAlts_plain (es : List Expression) (st : NormState) : lowerAlts (es.map toParsedExpr) st = some (es, st) := by
  induction es with
  | nil => simp [lowerAlts]
  | cons e es ih => simp [lowerAlts, toParsedExpr, lowerTerms_plain]; simp [ih]

theorem lowerProds_plain {ps : List Production} (h : ∀ p ∈ ps, ∃ u, p.lhs = .nonterminal u) (st : NormState) :
    lowerProds (toParsed ps) st = some (ps, st) := by
  induction ps with
  | nil => simp [lowerProds, toParsed]
  | cons p ps ih =>
    obtain ⟨u, hu⟩ := h p (by simp)
    simp only [toParsed, lowerProds, toParsedProd, lowerAlts_plain, ih fun q hq => h q (by simp [hq]), hu]
    rw [← hu]

theorem normalize_plain {ps : List Production} (h : ∀ p ∈ ps, ∃ u, p.lhs = .nonterminal u) :
    normalizeParsedGrammar (toParsed ps) = some ⟨ps⟩ := by
  simp [normalizeParsedGrammar, lowerProds_plain h]

end Bnf
