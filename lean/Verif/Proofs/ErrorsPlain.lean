import Verif.Proofs.ErrorsText

/-! # Errors of the plain parsers: expressions and single productions -/

set_option autoImplicit false

namespace Bnf
open Spec

namespace E
variable {F : Format} {α β : Type}

theorem plainTerm_ok (hF : F.Regular) {s r t} : term F s = .ok r t ↔ Syn F (.term (.simple t)) s r ∧ Settled r := by
  rw [(refines_term F).ok, ← tight_iff_settled]
  exact ⟨fun h => Bnf.term_sound hF h, fun ⟨h, hr⟩ => Bnf.term_complete hF h hr⟩

theorem plainTerm_err {s i k} : term F s = .err i k ↔ (∀ u r, ¬ Quoted u s r) ∧ NameFault F s i k := by
  have h1 : ∀ i k, terminal s = .err i k ↔ quotedText s = .err i k := by
    intro i k
    simp only [terminal, ws_eq, andThen_of_ok, andThen_err, reduceCtorEq, and_false, exists_false, or_false]
  simp only [term, alt_err, h1, quoted_err, nonterminal, ws_eq, andThen_of_ok, andThen_err, name_err, reduceCtorEq, and_false,
    exists_false, or_false]

/-- The parser for the terms of a plain alternative. -/
abbrev plainItemP (F : Format) : P Term := terminated (term F) (not (tag F.productionSeparator))

theorem refines_plainItemP : Refines (plainItemP F) (Bnf.plainItem F) := (refines_term F).terminated (refines_tag _).not

theorem plainItem_ok (hF : F.Regular) {s r t} :
    plainItemP F s = .ok r t ↔ Syn F (.term (.simple t)) s r ∧ Settled r ∧ Lacks F.productionSeparator r := by
  rw [refines_plainItemP.ok, Nom.terminated_not_ok, ← (refines_term F).ok, plainTerm_ok hF, lacks_iff_tag, and_assoc]

theorem plainItem_err (hF : F.Regular) {s i k} : plainItemP F s = .err i k ↔ PlainTermsFault F s i k := by
  simp only [plainItemP, terminated, andThen_err, not_err, plainTerm_ok hF, tag_ok, plainTerm_err]
  refine or_congr Iff.rfl ⟨?_, ?_⟩
  · rintro ⟨r, t, ⟨h1, h2⟩, (⟨⟨r', _, h3⟩, rfl, rfl⟩ | ⟨_, _, _, h⟩)⟩
    · exact ⟨t, r', h1, h3, rfl⟩
    · cases h
  · rintro ⟨t, r, h1, rfl, rfl⟩
    exact ⟨_, t, ⟨h1, tight_iff_settled.mp (sep_tight hF r)⟩, .inl ⟨⟨r, (), rfl⟩, rfl, rfl⟩⟩

theorem plainItem_no_fuel (s : Str) : plainItemP F s ≠ .fuel := fun h =>
  Nom.terminated_not_no_fuel (Bnf.term_no_fuel s) (Nom.tag_no_fuel _) (refines_plainItemP.fuel.mp h)

theorem plainItem_length (hF : F.Regular) {s r t} (h : plainItemP F s = .ok r t) : byteLen r < byteLen s := by
  obtain ⟨⟨v, hv⟩, hlt⟩ := ((plainItem_ok hF).mp h).1.suffix
  exact Nom.byteLen_lt_of_suffix v hv hlt

theorem stop_item (hF : F.Regular) {r} : (∀ t r', Syn F (.term (.simple t)) r r' → Settled r' → ¬ Lacks F.productionSeparator r') ↔
    Bnf.plainItem F r = .err := by
  rw [← refines_plainItemP.err]
  constructor
  · intro h
    cases h' : plainItemP F r with
    | err i k => exact ⟨i, k, rfl⟩
    | fuel => exact absurd h' (plainItem_no_fuel r)
    | ok r' t =>
      obtain ⟨h1, h2, h3⟩ := (plainItem_ok hF).mp h'
      exact absurd h3 (h t r' h1 h2)
  · rintro ⟨i, k, h⟩ t r' h1 h2 h3
    rw [(plainItem_ok hF).mpr ⟨h1, h2, h3⟩] at h
    cases h

theorem expr_ok (hF : F.Regular) {n s r e} (hn : s.length < n) :
    expression F n s = .ok r e ↔ PlainTerms F e s r ∧ PlainStop F r := by
  rw [(refines_expression F n).ok]
  constructor
  · intro h
    have hs := Bnf.expression_sound hF h
    simp only [Bnf.expression, Bnf.Res.andThen_ok, Bnf.Res.ok.injEq] at h
    obtain ⟨s1, ts, h1, rfl, rfl⟩ := h
    obtain ⟨hne, hc, h3⟩ := Nom.many1_sound h1
    obtain ⟨t, s', h4⟩ := chain_last hc hne
    obtain ⟨h5, h6⟩ := Nom.terminated_not_ok.mp h4
    exact ⟨hs, tight_iff_settled.mp (Bnf.term_sound hF h5).2, lacks_iff_tag.mpr h6, (stop_item hF).mpr h3⟩
  · rintro ⟨h1, h2, h3, h4⟩
    have hc := plain_chain hF (terms_chain hF h1 rfl h2 h3 n hn) rfl
    have hne : e.terms ≠ [] := by
      have := Syn.chain h1 rfl
      simpa using this
    have := Nom.many1_complete hc hne ((stop_item hF).mp h4) (n := n) (by omega)
    simp only [Bnf.expression, this, Bnf.Res.andThen_of_ok]

theorem expr_err (hF : F.Regular) {n s i k} : expression F n s = .err i k ↔ PlainTermsFault F s i k := by
  simp only [expression, andThen_err, reduceCtorEq, and_false, exists_false, or_false]
  rw [many1_err fun _ _ _ h => plainItem_length hF h]
  exact plainItem_err hF

theorem allConsuming_err {p : P α} {s i k} : allConsuming p s = .err i k ↔
    p s = .err i k ∨ (i ≠ [] ∧ k = .eof ∧ ∃ v, p s = .ok i v) := by
  simp only [allConsuming, andThen_err]
  refine or_congr Iff.rfl ⟨?_, ?_⟩
  · rintro ⟨r, v, h1, h2⟩
    cases r with
    | nil => cases h2
    | cons c cs =>
      injection h2 with h3 h4
      subst h3 h4
      exact ⟨by simp, rfl, v, h1⟩
  · rintro ⟨h1, rfl, v, h2⟩
    refine ⟨i, v, h2, ?_⟩
    cases i with
    | nil => exact absurd rfl h1
    | cons c cs => rfl

theorem expression_fault (hF : F.Regular) {s i k} :
    allConsuming (expression F (s.length + 1)) s = .err i k ↔ ExpressionFault F s i k := by
  rw [allConsuming_err, expr_err hF]
  refine or_congr Iff.rfl ⟨?_, ?_⟩
  · rintro ⟨h1, h2, e, h3⟩
    obtain ⟨h4, h5⟩ := (expr_ok hF (Nat.lt_succ_self _)).mp h3
    exact ⟨e, h4, h5, h1, h2⟩
  · rintro ⟨e, h4, h5, h1, h2⟩
    exact ⟨h1, h2, e, (expr_ok hF (Nat.lt_succ_self _)).mpr ⟨h4, h5⟩⟩

/-! ## Right-hand sides -/

theorem termsEnd_plain {r} (h : TermsEnd F r) : PlainStop F r := ⟨h.settled, h.noSeparator, fun _ _ h1 => h.noTerm _ _ h1⟩

theorem plainXt_ok (hF : F.Regular) {n it s r} {es : List Expression} (h : Syn F it s r)
    (hi : it = .alts (es.map fun e => e.terms.map .simple)) (hr : PlainStop F r) (ha : Lacks [F.alternativeSeparator] r) (hn : s.length < n) :
    ∀ {m acc}, s.length < m → xtLoop (expression F n) (expressionNext F) m s acc = .ok r (acc ++ es) := by
  induction h generalizing es with
  | terminal _ _ => cases hi
  | nonterminal _ _ => cases hi
  | group _ _ _ => cases hi
  | optional _ _ _ => cases hi
  | one _ _ => cases hi
  | more _ _ _ _ => cases hi
  | lastAlt h _ =>
    injection hi with hi
    match es, hi with
    | [e], hi =>
      injection hi with hi _
      subst hi
      intro m acc hm
      obtain ⟨m, rfl⟩ : ∃ m', m = m' + 1 := ⟨m - 1, by omega⟩
      rw [xtLoop, (expr_ok hF hn).mpr ⟨h, hr⟩]
      obtain ⟨i, k, he⟩ := next_err.mpr ha
      simp only [he]
  | nextAlt h hl h2 _ ih =>
    injection hi with hi
    match es, hi with
    | e :: es, hi =>
      injection hi with hi1 hi2
      subst hi1
      intro m acc hm
      obtain ⟨m, rfl⟩ : ∃ m', m = m' + 1 := ⟨m - 1, by omega⟩
      have h3 := h.suffix.2
      have h4 := hl.length
      simp only [List.length_cons] at h3
      rw [xtLoop, (expr_ok hF hn).mpr ⟨h, termsEnd_plain (termsEnd_altSep hF _)⟩]
      simp only [(next_ok (v := ())).mpr ⟨_, rfl, hl, tight_iff_settled.mp (syn_tight hF h2)⟩]
      rw [ih (by rw [hi2]) hr ha (by omega) (by omega)]
      simp

theorem plainXt_sound (hF : F.Regular) {n m s acc r l} (hn : s.length < n)
    (h : xtLoop (expression F n) (expressionNext F) m s acc = .ok r l) :
    ∃ es, l = acc ++ es ∧ PlainAlts F es s r ∧ PlainStop F r ∧ Lacks [F.alternativeSeparator] r := by
  induction m generalizing s acc with
  | zero => simp [xtLoop] at h
  | succ m ih =>
    rw [xtLoop] at h
    split at h
    · cases h
    · cases h
    · next r1 e h1 =>
      obtain ⟨h2, h3⟩ := (expr_ok hF hn).mp h1
      have h5 := Syn.suffix h2 |>.2
      split at h
      · cases h
      · next i k h4 =>
        injection h with ha hb
        subst ha hb
        exact ⟨[e], rfl, .lastAlt h2, h3, next_err.mp ⟨i, k, h4⟩⟩
      · next r2 _ h4 =>
        obtain ⟨s1, rfl, hl, hs⟩ := next_ok.mp h4
        have := hl.length
        simp only [List.length_cons] at h5
        obtain ⟨es, rfl, h6, h7⟩ := ih (by omega) h
        exact ⟨e :: es, by simp, .nextAlt h2 hl h6, h7⟩

theorem plainXt_err_sound (hF : F.Regular) {n m s acc i k} (hn : s.length < n)
    (h : xtLoop (expression F n) (expressionNext F) m s acc = .err i k) : PlainAltsFault F s i k := by
  induction m generalizing s acc with
  | zero => simp [xtLoop] at h
  | succ m ih =>
    rw [xtLoop] at h
    split at h
    · cases h
    · next h1 =>
      injection h with ha hb
      subst ha hb
      exact .here ((expr_err hF).mp h1)
    · next r1 e h1 =>
      obtain ⟨h2, h3⟩ := (expr_ok hF hn).mp h1
      have h5 := Syn.suffix h2 |>.2
      split at h
      · cases h
      · cases h
      · next r2 _ h4 =>
        obtain ⟨s1, rfl, hl, hs⟩ := next_ok.mp h4
        have := hl.length
        simp only [List.length_cons] at h5
        exact .later h2 hl hs (ih (by omega) h)

theorem plainXt_err_complete (hF : F.Regular) {s i k} (h : PlainAltsFault F s i k) : ∀ {n m acc}, s.length < n → s.length < m →
    xtLoop (expression F n) (expressionNext F) m s acc = .err i k := by
  induction h with
  | here h =>
    intro n m acc hn hm
    obtain ⟨m, rfl⟩ : ∃ m', m = m' + 1 := ⟨m - 1, by omega⟩
    rw [xtLoop, (expr_err hF).mpr h]
  | later h hl hs _ ih =>
    intro n m acc hn hm
    obtain ⟨m, rfl⟩ : ∃ m', m = m' + 1 := ⟨m - 1, by omega⟩
    have h3 := Syn.suffix h |>.2
    have h4 := hl.length
    simp only [List.length_cons] at h3
    rw [xtLoop, (expr_ok hF hn).mpr ⟨h, termsEnd_plain (termsEnd_altSep hF _)⟩]
    simp only [(next_ok (v := ())).mpr ⟨_, rfl, hl, hs⟩]
    exact ih (by omega) (by omega)

theorem plainRhs_ok (hF : F.Regular) {n s r es} (hn : s.length < n) :
    prodRhs F n s = .ok r es ↔ PlainAlts F es s r ∧ PlainStop F r ∧ Lacks [F.alternativeSeparator] r := by
  constructor
  · intro h
    obtain ⟨es', h1, h2⟩ := plainXt_sound hF hn h
    rw [List.nil_append] at h1
    subst h1
    exact h2
  · rintro ⟨h1, h2, h3⟩
    exact plainXt_ok hF h1 rfl h2 h3 hn hn

theorem plainRhs_err (hF : F.Regular) {n s i k} (hn : s.length < n) : prodRhs F n s = .err i k ↔ PlainAltsFault F s i k :=
  ⟨fun h => plainXt_err_sound hF hn h, fun h => plainXt_err_complete hF h hn hn⟩

/-! ## Single productions -/

theorem plainLhs_eq (s : Str) : prodLhs F s = match parsedProdLhs F s with
    | .ok r u => .ok r (.nonterminal u)
    | .err i k => .err i k
    | .fuel => .fuel := by
  simp only [prodLhs, nonterminal, parsedProdLhs, ws_eq, andThen_of_ok]
  cases nameText F s with
  | fuel => rfl
  | err _ _ => rfl
  | ok r v =>
    simp only [andThen_of_ok]
    cases tag F.productionSeparator (skipM false r) with
    | fuel => rfl
    | err _ _ => rfl
    | ok r w =>
      simp only [andThen_of_ok]
      cases opt (char F.alternativeSeparator) r with
      | fuel => rfl
      | err _ _ => rfl
      | ok r w => rfl

theorem plainLhs_ok (hF : F.Regular) {s r t} : prodLhs F s = .ok r t ↔ ∃ u, t = .nonterminal u ∧ WholeLhs F u s r := by
  rw [plainLhs_eq]
  simp only [← lhs_ok hF]
  cases h : parsedProdLhs F s with
  | fuel => simp
  | err _ _ => simp
  | ok r' u =>
    simp only [Res.ok.injEq]
    constructor
    · rintro ⟨rfl, rfl⟩; exact ⟨u, rfl, rfl, rfl⟩
    · rintro ⟨u, rfl, rfl, rfl⟩; exact ⟨rfl, rfl⟩

theorem plainLhs_err (hF : F.Regular) {s i k} : prodLhs F s = .err i k ↔ LhsFault F s i k := by
  rw [plainLhs_eq, ← lhs_err hF]
  cases h : parsedProdLhs F s <;> simp

theorem plainEnd_ok {s r v} (hs : Settled s) : productionEnd BNF s = .ok r v ↔ r = s ∧ (s = [] ∨ ¬ Lacks ['<'] s) := by
  have hw : whitespacePlusComments s = .ok s () := by rw [ws_eq, skipM_settled hs]
  simp only [productionEnd, BNF, alt, recognize, peek, preceded]
  cases s with
  | nil => simp [eof, Res.andThen, eq_comm]
  | cons c cs =>
    simp only [eof, andThen_of_err, hw, andThen_of_ok]
    by_cases hc : c = '<'
    · subst hc
      simp [char, Res.andThen, Lacks, eq_comm]
    · simp [char, Res.andThen, Lacks, hc]

theorem plainEnd_err {s i k} (hs : Settled s) : productionEnd BNF s = .err i k ↔
    s ≠ [] ∧ Lacks ['<'] s ∧ i = s ∧ k = .char := by
  have hw : whitespacePlusComments s = .ok s () := by rw [ws_eq, skipM_settled hs]
  simp only [productionEnd, BNF, alt, recognize, peek, preceded]
  cases s with
  | nil => simp [eof, Res.andThen]
  | cons c cs =>
    simp only [eof, andThen_of_err, hw, andThen_of_ok]
    by_cases hc : c = '<'
    · subst hc
      simp [char, Res.andThen, Lacks]
    · simp [char, Res.andThen, Lacks, hc, eq_comm]

theorem wholeLhs_length {u s r} (h : WholeLhs F u s r) : r.length < s.length := (whole_lhs h).1.suffix.2

theorem production_fault (s i : Str) (k : Kind) :
    allConsuming (production BNF (s.length + 1)) s = .err i k ↔ ProductionFault s i k := by
  have hF := BNF_regular
  rw [allConsuming_err]
  simp only [production, andThen_err, andThen_ok, plainLhs_err hF, plainLhs_ok hF, reduceCtorEq, and_false, exists_false,
    or_false, Res.ok.injEq]
  constructor
  · rintro ((h | ⟨r, _, ⟨u, rfl, h⟩, h1 | ⟨r', es, h1, h2⟩⟩) | ⟨h0, rfl, v, r, _, ⟨u, rfl, h⟩, r', es, h1, r'', _, h2, rfl, rfl⟩)
    · exact .inl h
    · have := wholeLhs_length h
      exact .inr (.inl ⟨u, r, h, (plainRhs_err hF (by omega)).mp h1⟩)
    · have := wholeLhs_length h
      obtain ⟨h3, h4, h5⟩ := (plainRhs_ok hF (by omega)).mp h1
      obtain ⟨h6, h7, rfl, rfl⟩ := (plainEnd_err h4.settled).mp h2
      exact .inr (.inr ⟨u, r, es, h, h3, h4, h5, h6, .inl ⟨h7, rfl⟩⟩)
    · have := wholeLhs_length h
      obtain ⟨h3, h4, h5⟩ := (plainRhs_ok hF (by omega)).mp h1
      obtain ⟨rfl, h6⟩ := (plainEnd_ok h4.settled).mp h2
      exact .inr (.inr ⟨u, r, es, h, h3, h4, h5, h0, .inr ⟨h6.resolve_left h0, rfl⟩⟩)
  · rintro (h | ⟨u, r, h, h1⟩ | ⟨u, r, es, h, h3, h4, h5, h0, h6⟩)
    · exact .inl (.inl h)
    · have := wholeLhs_length h
      exact .inl (.inr ⟨r, _, ⟨u, rfl, h⟩, .inl ((plainRhs_err hF (by omega)).mpr h1)⟩)
    · have := wholeLhs_length h
      have h1 := (plainRhs_ok hF (n := s.length + 1) (by omega)).mpr ⟨h3, h4, h5⟩
      rcases h6 with ⟨h6, rfl⟩ | ⟨h6, rfl⟩
      · exact .inl (.inr ⟨r, _, ⟨u, rfl, h⟩, .inr ⟨i, es, h1, (plainEnd_err h4.settled).mpr ⟨h0, h6, rfl, rfl⟩⟩⟩)
      · exact .inr ⟨h0, rfl, _, r, _, ⟨u, rfl, h⟩, i, es, h1, i, (), (plainEnd_ok h4.settled).mpr ⟨rfl, .inr h6⟩, rfl, rfl⟩

end E
end Bnf
