import Verif.Proofs.TextMain

/-! # Printed grammars are grammar texts -/

set_option autoImplicit false

namespace Bnf
open Spec Nom

theorem layout_space {s : Str} : Layout (' ' :: s) s := .space (by decide) .nil
theorem layout_newline {s : Str} : Layout ('\n' :: s) s := .space (by decide) .nil

theorem display_term {t : Term} (h : Printable t) {r r'} (hl : Layout r r') :
    Syn BNF (.term (.simple t)) (t.display ++ r) r' := by
  cases t with
  | terminal u =>
    refine .terminal (s' := r) ?_ hl
    simp only [Term.display]
    split
    · rename_i hc
      have hc' : '\'' ∈ u := by simpa using hc
      have : '"' ∉ u := by
        rcases h with h | h
        · exact h
        · exact absurd hc' h
      exact ⟨'"', .inl rfl, this, by simp⟩
    · rename_i hc
      have hc' : '\'' ∉ u := by simpa using hc
      exact ⟨'\'', .inr rfl, hc', by simp⟩
  | nonterminal u =>
    refine .nonterminal (s' := r) ?_ hl
    exact ⟨by simp [Term.display], h⟩

theorem display_terms : ∀ {ts : List Term}, ts ≠ [] → (∀ t ∈ ts, Printable t) → ∀ {r r' : Str}, Layout r r' →
    Syn BNF (.terms (ts.map .simple)) (join [' '] (ts.map Term.display) ++ r) r'
  | [], h, _, _, _, _ => absurd rfl h
  | [t], _, h, r, r', hl => .one (display_term (h t (by simp)) hl)
  | t :: t' :: ts, _, h, r, r', hl => by
    have ih := display_terms (ts := t' :: ts) (by simp) (fun x hx => h x (List.mem_cons_of_mem _ hx)) hl
    have h1 := display_term (h t (by simp))
      (layout_space (s := join [' '] ((t' :: ts).map Term.display) ++ r))
    have := Syn.more h1 ih
    simpa [join] using this

theorem display_expression {e : Expression} (h : PrintableExpression e) {r r'} (hl : Layout r r') :
    Syn BNF (.terms (toParsedExpr e)) (e.display ++ r) r' := display_terms h.1 h.2 hl

theorem display_alts : ∀ {es : List Expression}, es ≠ [] → (∀ e ∈ es, PrintableExpression e) → ∀ {r r' : Str}, Layout r r' →
    Syn BNF (.alts (es.map toParsedExpr)) (join [' ', '|', ' '] (es.map Expression.display) ++ r) r'
  | [], h, _, _, _, _ => absurd rfl h
  | [t], _, h, r, r', hl => .lastAlt (display_expression (h t (by simp)) hl)
  | t :: t' :: ts, _, h, r, r', hl => by
    have ih := display_alts (es := t' :: ts) (by simp) (fun x hx => h x (List.mem_cons_of_mem _ hx)) hl
    have h1 := display_expression (h t (by simp))
      (layout_space (s := '|' :: ' ' :: (join [' ', '|', ' '] ((t' :: ts).map Expression.display) ++ r)))
    have := Syn.nextAlt (F := BNF) h1 layout_space ih
    simpa [join] using this

theorem display_production {u : Str} {es : List Expression} (h : PrintableProduction ⟨.nonterminal u, es⟩) {r r'}
    (hl : Layout r r') : Prod BNF (toParsedProd u es) (Production.display ⟨.nonterminal u, es⟩ ++ r) r' := by
  obtain ⟨⟨v, hv, hg⟩, hne, he⟩ := h
  injection hv with hv
  subst hv
  refine ⟨join [' ', '|', ' '] (es.map Expression.display) ++ r, ?_, display_alts hne he hl⟩
  refine ⟨_, _, _, ⟨?_, hg⟩, layout_space, .inl rfl, layout_space⟩
  simp [Production.display, Term.display, BNF, toParsedProd]

theorem display_prods : ∀ {ps : List Production}, ps ≠ [] → (∀ p ∈ ps, PrintableProduction p) → ∀ {r r' : Str}, Layout r r' →
    Prods BNF (toParsed ps) (join ['\n'] (ps.map Production.display) ++ r) r'
  | [], h, _, _, _, _ => absurd rfl h
  | [⟨l, es⟩], _, h, r, r', hl => by
    have hp := h _ (List.mem_cons_self ..)
    obtain ⟨v, hv, hg⟩ := hp.1
    simp only at hv
    subst hv
    exact .one (display_production hp hl)
  | ⟨l, es⟩ :: t' :: ts, _, h, r, r', hl => by
    have ih := display_prods (ps := t' :: ts) (by simp) (fun x hx => h x (List.mem_cons_of_mem _ hx)) hl
    have hp := h _ (List.mem_cons_self ..)
    obtain ⟨v, hv, hg⟩ := hp.1
    simp only at hv
    subst hv
    have h1 := display_production hp
      (layout_newline (s := join ['\n'] ((t' :: ts).map Production.display) ++ r))
    have := Prods.more h1 ih
    simpa [join, toParsed] using this

theorem display_grammar {g : Grammar} (h : PrintableGrammar g) : GrammarText BNF (toParsed g.productions) g.display :=
  ⟨_, .nil, display_prods h.1 h.2 layout_newline⟩

theorem printable_lhs {g : Grammar} (h : PrintableGrammar g) : ∀ p ∈ g.productions, ∃ u, p.lhs = .nonterminal u := by
  intro p hp
  obtain ⟨u, hu, _⟩ := (h.2 p hp).1
  exact ⟨u, hu⟩

/-! ## Round trips -/

theorem simple_inj {ts : List Term} : ∀ {ts' : List Term}, ts.map ParsedTerm.simple = ts'.map .simple → ts = ts' := by
  intro ts' h
  exact List.map_injective_iff.mpr (fun a b h => by injection h) h

theorem term_round_trip (t : Term) : Term.fromStr t.display = some (.ok t) ↔ Printable t := by
  unfold Term.fromStr
  rw [toResult_ok]
  constructor
  · rintro ⟨r, h0⟩
    obtain ⟨rfl, h⟩ := allConsuming_ok.mp h0
    obtain ⟨h1, _⟩ := term_sound BNF_regular h
    rcases syn_simple h1 .refl with ⟨u, s, r, rfl, h2⟩ | ⟨u, s, r, rfl, h2⟩
    · exact quoted_printable h2
    · exact name_printable h2
  · intro h
    refine ⟨[], allConsuming_ok.mpr ⟨rfl, ?_⟩⟩
    have := term_complete BNF_regular (display_term h Layout.nil) Tight.nil
    rwa [List.append_nil] at this

theorem syn_printable_terms {ts : List Term} {s r} (h : Syn BNF (.terms (ts.map .simple)) s r) :
    ts ≠ [] ∧ ∀ t ∈ ts, Printable t := by
  refine ⟨?_, ?_⟩
  · have := (syn_nonempty h .refl).1 _ rfl
    intro h0
    subst h0
    exact this rfl
  · intro t ht
    rcases syn_simple h (.terms (List.mem_map.mpr ⟨t, ht, rfl⟩) .refl) with ⟨u, s, r, rfl, h⟩ | ⟨u, s, r, rfl, h⟩
    · exact quoted_printable h
    · exact name_printable h

theorem syn_printable_alts {es : List Expression} {s r} (h : Syn BNF (.alts (es.map toParsedExpr)) s r) :
    es ≠ [] ∧ ∀ e ∈ es, PrintableExpression e := by
  refine ⟨?_, ?_⟩
  · have := (syn_nonempty h .refl).2 _ rfl
    intro h0
    subst h0
    exact this rfl
  · intro e he
    have hw : Within (.terms (toParsedExpr e)) (.alts (es.map toParsedExpr)) :=
      .alts (List.mem_map.mpr ⟨e, he, rfl⟩) .refl
    refine ⟨?_, ?_⟩
    · have := (syn_nonempty h hw).1 _ rfl
      intro h0
      exact this (by simp [toParsedExpr, h0])
    · intro t ht
      rcases syn_simple h (Within.trans (.terms (List.mem_map.mpr ⟨t, ht, rfl⟩) .refl) hw) with
        ⟨u, s, r, rfl, h⟩ | ⟨u, s, r, rfl, h⟩
      · exact quoted_printable h
      · exact name_printable h

theorem expression_round_trip (e : Expression) : Expression.fromStr e.display = some (.ok e) ↔ PrintableExpression e := by
  unfold Expression.fromStr
  rw [toResult_ok]
  constructor
  · rintro ⟨r, h0⟩
    obtain ⟨rfl, h⟩ := allConsuming_ok.mp h0
    exact syn_printable_terms (expression_sound BNF_regular h)
  · intro h
    refine ⟨[], allConsuming_ok.mpr ⟨rfl, ?_⟩⟩
    have h' := display_expression h (Layout.nil (s := []))
    rw [List.append_nil] at h'
    exact expression_complete BNF_regular h' (.inl rfl) (Nat.lt_succ_self _)

theorem production_printable {p : Production} {n s r} (h : production BNF n s = .ok r p) : PrintableProduction p := by
  obtain ⟨u, hu, h⟩ := production_sound BNF_regular h
  obtain ⟨s1, ⟨_, _, _, hn, _⟩, h⟩ := h
  exact ⟨⟨u, hu, hn.2⟩, syn_printable_alts h⟩

theorem production_round_trip (p : Production) : Production.fromStr p.display = some (.ok p) ↔ PrintableProduction p := by
  unfold Production.fromStr
  rw [toResult_ok]
  constructor
  · rintro ⟨r, h0⟩
    obtain ⟨rfl, h⟩ := allConsuming_ok.mp h0
    exact production_printable h
  · intro h
    refine ⟨[], allConsuming_ok.mpr ⟨rfl, ?_⟩⟩
    obtain ⟨l, es⟩ := p
    obtain ⟨u, hu, _⟩ := h.1
    simp only at hu
    subst hu
    have h' := display_production h (Layout.nil (s := []))
    rw [List.append_nil] at h'
    exact production_complete BNF_regular h' (.inl rfl) (Nat.lt_succ_self _)

theorem grammar_parse_display {g : Grammar} (h : PrintableGrammar g) : Grammar.parseFrom BNF g.display = some (.ok g) :=
  (parseFrom_ok BNF_regular).mpr ⟨_, display_grammar h, normalize_plain (printable_lhs h)⟩

theorem grammar_round_trip {f : Char → Bool} (hf : AlphabeticTable f) (g : Grammar) :
    Grammar.fromStr f g.display = some (.ok g) ↔ PrintableGrammar g := by
  constructor
  · intro h
    rw [fromStr_eq] at h
    have hwf : WellFormedGrammar g := by
      split at h
      · obtain ⟨pg, h1, h2⟩ := (parseFrom_ok BNF_regular).mp h
        exact text_wellFormed h1 h2
      · obtain ⟨pg, h1, h2⟩ := (parseFrom_ok (ABNF_regular hf)).mp h
        exact text_wellFormed h1 h2
    have hb : isFormatStandardBnf g.display = true := by
      obtain ⟨hne, hp⟩ := hwf
      obtain ⟨ps⟩ := g
      cases ps with
      | nil => exact absurd rfl hne
      | cons p ps =>
        obtain ⟨⟨u, hu⟩, _⟩ := hp p (List.mem_cons_self ..)
        refine (isFormat_iff _).mpr ?_
        cases ps <;> exact ⟨_, by
          simp only [Grammar.display, List.map_cons, List.map_nil, join, Production.display, hu, Term.display,
            List.cons_append]
          exact .nil⟩
    rw [hb, if_pos rfl] at h
    obtain ⟨pg, h1, h2⟩ := (parseFrom_ok BNF_regular).mp h
    exact text_printable h1 h2
  · intro h
    exact fromStr_of_BNF (grammar_parse_display h)

/-! ## Layout does not matter -/

section
variable {F : Format}

theorem spells_tight (hF : F.Regular) {ts s} (h : Spells F ts s) : Tight s := by
  cases h with
  | nil => exact Tight.nil
  | literal h _ _ =>
    obtain ⟨c, cs, rfl, hc⟩ := h.start
    rcases hc with rfl | rfl <;> exact tight_cons (by decide) (by decide)
  | name h _ _ => exact name_tight hF h.start
  | separator _ _ _ => exact sep_tight hF _
  | separatorBar _ _ => exact sep_tight hF _
  | bar _ _ => exact tight_cons hF.altSep.2.1 (by intro h; exact hF.altSep.2.2 (by rw [h]; simp))
  | openGroup _ => exact tight_cons (by decide) (by decide)
  | closeGroup _ _ => exact tight_cons (by decide) (by decide)
  | openOptional _ => exact tight_cons (by decide) (by decide)
  | closeOptional _ _ => exact tight_cons (by decide) (by decide)

theorem layout_skip_eq {s r : Str} (h : Layout s r) : skipM false r = skipM false s :=
  layout_eq (layout_trans h (layout_skipM r)) (skipM_tight _ _)

theorem spells_skip (hF : F.Regular) {ts s r1 r2} (h : Spells F ts r2) (h1 : Layout s r1) (h2 : Layout s r2) :
    Spells F ts (skipM false r1) := by
  rw [layout_skip_eq h1, ← layout_eq h2 (spells_tight hF h)]
  exact h

theorem quoted_unique {u u' s r r'} (h : Quoted u s r) (h' : Quoted u' s r') : u = u' ∧ r = r' := by
  have h1 := quotedText_ok.mpr h
  rw [quotedText_ok.mpr h'] at h1
  injection h1 with h1 h2
  exact ⟨h2.symm, h1.symm⟩

theorem name_unique (hF : F.Regular) {u u' s r r'} (h : Name F u s r) (h' : Name F u' s r') : u = u' ∧ r = r' := by
  have h1 := (nameText_ok hF).mpr h
  rw [(nameText_ok hF).mpr h'] at h1
  injection h1 with h1 h2
  exact ⟨h2.symm, h1.symm⟩

/-- The first token of a text is determined by its first character. -/
inductive Kind where
  | quote | name | sep | bar | o1 | c1 | o2 | c2
  deriving DecidableEq

def KindOf (F : Format) (c : Char) : Kind → Prop
  | .quote => c = '"' ∨ c = '\''
  | .name => NameStart F c
  | .sep => ∃ xs, F.productionSeparator = c :: xs
  | .bar => c = F.alternativeSeparator
  | .o1 => c = '('
  | .c1 => c = ')'
  | .o2 => c = '['
  | .c2 => c = ']'

theorem kind_unique (hF : F.Regular) {c : Char} {k k' : Kind} (h : KindOf F c k) (h' : KindOf F c k') : k = k' := by
  obtain ⟨x, xs, hx, hx1, hx2, hx3⟩ := hF.prodSep
  have hsep : KindOf F c .sep → c = x := by
    rintro ⟨ys, hy⟩
    rw [hx] at hy
    injection hy with hy _
    exact hy.symm
  have ha := hF.altSep
  have hn := hF.nameStart c
  simp only [List.mem_cons, List.not_mem_nil, or_false, not_or] at hx3 ha hn
  -- kinds that start a term
  have starter : ∀ {k}, KindOf F c k → Starts F c → k = .quote ∨ k = .name ∨ k = .o1 ∨ k = .o2 := by
    intro k h hs
    cases k with
    | quote => simp
    | name => simp
    | o1 => simp
    | o2 => simp
    | sep => rw [hsep h] at hs; exact absurd hs hx1
    | bar => rw [show c = F.alternativeSeparator from h] at hs; exact absurd hs ha.1
    | c1 => exact absurd hs (close_not_starts hF (.inl h))
    | c2 => exact absurd hs (close_not_starts hF (.inr h))
  have other : ∀ {k}, KindOf F c k → ¬ Starts F c → k = .sep ∨ k = .bar ∨ k = .c1 ∨ k = .c2 := by
    intro k h hs
    cases k with
    | quote => exact absurd (by unfold Starts; simp only [KindOf] at h; tauto) hs
    | name => exact absurd (by unfold Starts; simp only [KindOf] at h; tauto) hs
    | o1 => exact absurd (by unfold Starts; simp only [KindOf] at h; tauto) hs
    | o2 => exact absurd (by unfold Starts; simp only [KindOf] at h; tauto) hs
    | sep => simp
    | bar => simp
    | c1 => simp
    | c2 => simp
  have ne1 : ('(' : Char) ≠ '[' ∧ ('(' : Char) ≠ '"' ∧ ('(' : Char) ≠ '\'' ∧ ('[' : Char) ≠ '"' ∧ ('[' : Char) ≠ '\'' ∧
    (')' : Char) ≠ ']' := by decide
  by_cases hs : Starts F c
  · rcases starter h hs with rfl | rfl | rfl | rfl <;> rcases starter h' hs with rfl | rfl | rfl | rfl <;>
      simp only [KindOf] at h h' <;> try rfl
    · have := hn h'; tauto
    · rcases h with rfl | rfl <;> exact absurd h' (by decide)
    · rcases h with rfl | rfl <;> exact absurd h' (by decide)
    · have := hn h; tauto
    · have := hn h; tauto
    · have := hn h; tauto
    · rcases h' with rfl | rfl <;> exact absurd h (by decide)
    · have := hn h'; tauto
    · subst h; exact absurd h' (by decide)
    · rcases h' with rfl | rfl <;> exact absurd h (by decide)
    · have := hn h'; tauto
    · subst h; exact absurd h' (by decide)
  · have e1 : F.alternativeSeparator ≠ x := fun e => hx3.2.2.2 e.symm
    rcases other h hs with rfl | rfl | rfl | rfl <;> rcases other h' hs with rfl | rfl | rfl | rfl <;> try rfl
    · exact absurd ((show c = F.alternativeSeparator from h').symm.trans (hsep h)) e1
    · exact absurd ((hsep h).symm.trans h') hx3.2.1
    · exact absurd ((hsep h).symm.trans h') hx3.2.2.1
    · exact absurd ((show c = F.alternativeSeparator from h).symm.trans (hsep h')) e1
    · exact absurd ((show c = F.alternativeSeparator from h).symm.trans h') ha.2.2.2.1
    · exact absurd ((show c = F.alternativeSeparator from h).symm.trans h') ha.2.2.2.2
    · exact absurd ((hsep h').symm.trans h) hx3.2.1
    · exact absurd ((show c = F.alternativeSeparator from h').symm.trans h) ha.2.2.2.1
    · exact absurd ((show c = ')' from h).symm.trans h') (by decide)
    · exact absurd ((hsep h').symm.trans h) hx3.2.2.1
    · exact absurd ((show c = F.alternativeSeparator from h').symm.trans h) ha.2.2.2.2
    · exact absurd ((show c = ')' from h').symm.trans h) (by decide)

/-- What a text with a given first token looks like. -/
def Head (F : Format) (k : Kind) (ts : List Token) (s : Str) : Prop :=
  match k with
  | .quote => ∃ u ts' s1 s2, ts = .literal u :: ts' ∧ Quoted u s s1 ∧ Layout s1 s2 ∧ Spells F ts' s2
  | .name => ∃ u ts' s1 s2, ts = .name u :: ts' ∧ Name F u s s1 ∧ Layout s1 s2 ∧ Spells F ts' s2
  | .sep => (∃ ts' s1 s2, ts = .separator :: ts' ∧ s = F.productionSeparator ++ s1 ∧
        (∀ cs, s1 ≠ F.alternativeSeparator :: cs) ∧ Layout s1 s2 ∧ Spells F ts' s2) ∨
      (∃ ts' s1 s2, ts = .separatorBar :: ts' ∧ s = F.productionSeparator ++ F.alternativeSeparator :: s1 ∧
        Layout s1 s2 ∧ Spells F ts' s2)
  | .bar => ∃ ts' s1 s2, ts = .bar :: ts' ∧ s = F.alternativeSeparator :: s1 ∧ Layout s1 s2 ∧ Spells F ts' s2
  | .o1 => ∃ ts' s1, ts = .openGroup :: ts' ∧ s = '(' :: s1 ∧ Spells F ts' s1
  | .c1 => ∃ ts' s1 s2, ts = .closeGroup :: ts' ∧ s = ')' :: s1 ∧ Layout s1 s2 ∧ Spells F ts' s2
  | .o2 => ∃ ts' s1, ts = .openOptional :: ts' ∧ s = '[' :: s1 ∧ Spells F ts' s1
  | .c2 => ∃ ts' s1 s2, ts = .closeOptional :: ts' ∧ s = ']' :: s1 ∧ Layout s1 s2 ∧ Spells F ts' s2

theorem spells_some_head (hF : F.Regular) {ts s} (h : Spells F ts s) (hs : s ≠ []) :
    ∃ k c cs, s = c :: cs ∧ KindOf F c k ∧ Head F k ts s := by
  cases h with
  | nil => exact absurd rfl hs
  | literal h1 h2 h3 =>
    obtain ⟨c, cs, rfl, hc⟩ := h1.start
    exact ⟨.quote, c, cs, rfl, hc, _, _, _, _, rfl, h1, h2, h3⟩
  | name h1 h2 h3 =>
    obtain ⟨c, cs, rfl, hc⟩ := h1.start
    exact ⟨.name, c, cs, rfl, hc, _, _, _, _, rfl, h1, h2, h3⟩
  | separator h1 h2 h3 =>
    obtain ⟨x, xs, hx, _⟩ := hF.prodSep
    exact ⟨.sep, x, _, by rw [hx]; rfl, ⟨xs, hx⟩, .inl ⟨_, _, _, rfl, rfl, h1, h2, h3⟩⟩
  | separatorBar h2 h3 =>
    obtain ⟨x, xs, hx, _⟩ := hF.prodSep
    exact ⟨.sep, x, _, by rw [hx]; rfl, ⟨xs, hx⟩, .inr ⟨_, _, _, rfl, rfl, h2, h3⟩⟩
  | bar h2 h3 => exact ⟨.bar, _, _, rfl, rfl, _, _, _, rfl, rfl, h2, h3⟩
  | openGroup h => exact ⟨.o1, _, _, rfl, rfl, _, _, rfl, rfl, h⟩
  | closeGroup h2 h3 => exact ⟨.c1, _, _, rfl, rfl, _, _, _, rfl, rfl, h2, h3⟩
  | openOptional h => exact ⟨.o2, _, _, rfl, rfl, _, _, rfl, rfl, h⟩
  | closeOptional h2 h3 => exact ⟨.c2, _, _, rfl, rfl, _, _, _, rfl, rfl, h2, h3⟩

theorem spells_head (hF : F.Regular) {k ts c cs} (h : Spells F ts (c :: cs)) (hc : KindOf F c k) : Head F k ts (c :: cs) := by
  obtain ⟨k', c', cs', he, hk, hh⟩ := spells_some_head hF h (by simp)
  injection he with he _
  subst he
  rw [kind_unique hF hc hk]
  exact hh

/-- Another text with the same tokens can be read in the same way. -/
theorem syn_respell (hF : F.Regular) {i s r} (h : Syn F i s r) : ∀ {ts s'}, Spells F ts s → Spells F ts s' →
    ∃ ts' r', Syn F i s' r' ∧ Spells F ts' (skipM false r) ∧ Spells F ts' r' := by
  induction h with
  | terminal hq hl =>
    intro ts s' h1 h2
    obtain ⟨c, cs, rfl, hc⟩ := hq.start
    obtain ⟨u, ts', s1, s2, rfl, hq', hl', hs⟩ := spells_head hF (k := .quote) h1 hc
    obtain ⟨rfl, rfl⟩ := quoted_unique hq hq'
    cases h2 with
    | literal h3 h4 h5 => exact ⟨_, _, .terminal h3 h4, spells_skip hF hs hl hl', h5⟩
  | nonterminal hq hl =>
    intro ts s' h1 h2
    obtain ⟨c, cs, rfl, hc⟩ := hq.start
    obtain ⟨u, ts', s1, s2, rfl, hq', hl', hs⟩ := spells_head hF (k := .name) h1 hc
    obtain ⟨rfl, rfl⟩ := name_unique hF hq hq'
    cases h2 with
    | name h3 h4 h5 => exact ⟨_, _, .nonterminal h3 h4, spells_skip hF hs hl hl', h5⟩
  | group _ hl ih =>
    intro ts s' h1 h2
    obtain ⟨ts', s1, rfl, he, hs⟩ := spells_head hF (k := .o1) h1 rfl
    injection he with _ he
    subst he
    cases h2 with
    | openGroup h3 =>
      obtain ⟨ts1, r1, h4, h5, h6⟩ := ih hs h3
      rw [skipM_of_tight (tight_cons (by decide) (by decide))] at h5
      obtain ⟨ts2, s2, s3, rfl, he, hl', hs'⟩ := spells_head hF (k := .c1) h5 rfl
      injection he with _ he
      subst he
      cases h6 with
      | closeGroup h7 h8 => exact ⟨_, _, .group h4 h7, spells_skip hF hs' hl hl', h8⟩
  | optional _ hl ih =>
    intro ts s' h1 h2
    obtain ⟨ts', s1, rfl, he, hs⟩ := spells_head hF (k := .o2) h1 rfl
    injection he with _ he
    subst he
    cases h2 with
    | openOptional h3 =>
      obtain ⟨ts1, r1, h4, h5, h6⟩ := ih hs h3
      rw [skipM_of_tight (tight_cons (by decide) (by decide))] at h5
      obtain ⟨ts2, s2, s3, rfl, he, hl', hs'⟩ := spells_head hF (k := .c2) h5 rfl
      injection he with _ he
      subst he
      cases h6 with
      | closeOptional h7 h8 => exact ⟨_, _, .optional h4 h7, spells_skip hF hs' hl hl', h8⟩
  | one _ ih =>
    intro ts s' h1 h2
    obtain ⟨ts', r', h3, h4, h5⟩ := ih h1 h2
    exact ⟨ts', r', .one h3, h4, h5⟩
  | more _ hr ih1 ih2 =>
    intro ts s' h1 h2
    obtain ⟨ts', r', h3, h4, h5⟩ := ih1 h1 h2
    rw [skipM_of_tight (syn_tight hF hr)] at h4
    obtain ⟨ts'', r'', h6, h7, h8⟩ := ih2 h4 h5
    exact ⟨ts'', r'', .more h3 h6, h7, h8⟩
  | lastAlt _ ih =>
    intro ts s' h1 h2
    obtain ⟨ts', r', h3, h4, h5⟩ := ih h1 h2
    exact ⟨ts', r', .lastAlt h3, h4, h5⟩
  | nextAlt _ hl hr ih1 ih2 =>
    intro ts s' h1 h2
    obtain ⟨ts', r', h3, h4, h5⟩ := ih1 h1 h2
    rw [skipM_of_tight (tight_cons hF.altSep.2.1 (by intro h; exact hF.altSep.2.2 (by rw [h]; simp)))] at h4
    obtain ⟨ts2, s2, s3, rfl, he, hl', hs'⟩ := spells_head hF (k := .bar) h4 rfl
    injection he with _ he
    subst he
    have hs2 := spells_skip hF hs' hl hl'
    rw [skipM_of_tight (syn_tight hF hr)] at hs2
    cases h5 with
    | bar h6 h7 =>
      obtain ⟨ts3, r3, h8, h9, h10⟩ := ih2 hs2 h7
      exact ⟨ts3, r3, .nextAlt h3 h6 h8, h9, h10⟩

theorem layout_altSep (hF : F.Regular) {s r : Str} (h : Layout (F.alternativeSeparator :: s) r) : r = F.alternativeSeparator :: s := by
  generalize hx : F.alternativeSeparator :: s = x at h
  cases h with
  | nil => rfl
  | space hw _ => injection hx with hx _; rw [← hx, hF.altSep.2.1] at hw; cases hw
  | comment => injection hx with hx _; exact absurd (by simp [hx]) hF.altSep.2.2
  | lastComment => injection hx with hx _; exact absurd (by simp [hx]) hF.altSep.2.2

theorem prod_respell (hF : F.Regular) {p s r} (h : Prod F p s r) {ts s'} (h1 : Spells F ts s) (h2 : Spells F ts s') :
    ∃ ts' r', Prod F p s' r' ∧ Spells F ts' (skipM false r) ∧ Spells F ts' r' := by
  obtain ⟨s1, ⟨a1, a2, a3, hn, hl1, ho, hl2⟩, hsyn⟩ := h
  obtain ⟨c, cs, rfl, hc⟩ := hn.start
  obtain ⟨u, ts1, b1, b2, rfl, hn', hl', hs⟩ := spells_head hF (k := .name) h1 hc
  obtain ⟨rfl, rfl⟩ := name_unique hF hn hn'
  have hs1 := spells_skip hF hs hl1 hl'
  rw [skipM_of_tight (sep_tight hF _)] at hs1
  have hne := starts_ne_altSep hF hsyn.start
  cases h2 with
  | name g1 g2 g3 =>
    obtain ⟨x, xs, hx, _⟩ := hF.prodSep
    have hhead : Head F .sep ts1 (F.productionSeparator ++ a2) := by
      have e : F.productionSeparator ++ a2 = x :: (xs ++ a2) := by rw [hx]; rfl
      rw [e] at hs1 ⊢
      exact spells_head hF (k := .sep) hs1 ⟨xs, hx⟩
    rcases hhead with ⟨ts2, d1, d2, rfl, he, hnb, hl3, hs3⟩ | ⟨ts2, d1, d2, rfl, he, hl3, hs3⟩
    · have he := List.append_cancel_left he
      subst he
      have : a2 = a3 := by
        rcases ho with ho | ho
        · exact ho
        · exact absurd ho (hnb _)
      subst this
      have hs4 := spells_skip hF hs3 hl2 hl3
      rw [skipM_of_tight (syn_tight hF hsyn)] at hs4
      cases g3 with
      | separator g4 g5 g6 =>
        obtain ⟨ts3, r3, h8, h9, h10⟩ := syn_respell hF hsyn hs4 g6
        exact ⟨ts3, r3, ⟨_, ⟨_, _, _, g1, g2, .inl rfl, g5⟩, h8⟩, h9, h10⟩
    · have he := List.append_cancel_left he
      subst he
      have : a3 = d1 := by
        rcases ho with ho | ho
        · exfalso
          subst ho
          exact hne _ (layout_altSep hF hl2)
        · injection ho with _ ho; exact ho.symm
      subst this
      have hs4 := spells_skip hF hs3 hl2 hl3
      rw [skipM_of_tight (syn_tight hF hsyn)] at hs4
      cases g3 with
      | separatorBar g5 g6 =>
        obtain ⟨ts3, r3, h8, h9, h10⟩ := syn_respell hF hsyn hs4 g6
        exact ⟨ts3, r3, ⟨_, ⟨_, _, _, g1, g2, .inr rfl, g5⟩, h8⟩, h9, h10⟩

theorem prods_respell (hF : F.Regular) {g s r} (h : Prods F g s r) : ∀ {ts s'}, Spells F ts s → Spells F ts s' →
    ∃ ts' r', Prods F g s' r' ∧ Spells F ts' (skipM false r) ∧ Spells F ts' r' := by
  induction h with
  | one h =>
    intro ts s' h1 h2
    obtain ⟨ts', r', h3, h4, h5⟩ := prod_respell hF h h1 h2
    exact ⟨ts', r', .one h3, h4, h5⟩
  | more h hr ih =>
    intro ts s' h1 h2
    obtain ⟨ts', r', h3, h4, h5⟩ := prod_respell hF h h1 h2
    rw [skipM_of_tight (name_tight hF hr.start)] at h4
    obtain ⟨ts'', r'', h6, h7, h8⟩ := ih h4 h5
    exact ⟨ts'', r'', .more h3 h6, h7, h8⟩

theorem text_respell (hF : F.Regular) {g s s' ts} (h : GrammarText F g s) (h1 : SpellsText F ts s) (h2 : SpellsText F ts s') :
    GrammarText F g s' := by
  obtain ⟨a, ha, hp⟩ := h
  obtain ⟨b, hb, hs⟩ := h1
  obtain ⟨c, hc, hs'⟩ := h2
  have hs1 := spells_skip hF hs ha hb
  rw [skipM_of_tight (name_tight hF hp.start)] at hs1
  obtain ⟨ts', r', h3, h4, h5⟩ := prods_respell hF hp hs1 hs'
  have : ts' = [] := by
    have e : skipM false ([] : Str) = [] := rfl
    rw [e] at h4
    generalize hn : ([] : Str) = nl at h4
    cases h4 with
    | nil => rfl
    | literal h _ _ => obtain ⟨c, cs, hcs, _⟩ := h.start; rw [← hn] at hcs; cases hcs
    | name h _ _ => obtain ⟨c, cs, hcs, _⟩ := h.start; rw [← hn] at hcs; cases hcs
    | separator => obtain ⟨x, xs, hx, _⟩ := hF.prodSep; rw [hx] at hn; cases hn
    | separatorBar => obtain ⟨x, xs, hx, _⟩ := hF.prodSep; rw [hx] at hn; cases hn
    | bar => cases hn
    | openGroup => cases hn
    | closeGroup => cases hn
    | openOptional => cases hn
    | closeOptional => cases hn
  subst this
  cases h5
  exact ⟨c, hc, h3⟩

theorem parseFrom_respell (hF : F.Regular) {s s' ts} (h1 : SpellsText F ts s) (h2 : SpellsText F ts s') :
    Grammar.parseFrom F s = Grammar.parseFrom F s' := by
  rcases parseFrom_cases hF s with ⟨g, hg⟩ | he
  · obtain ⟨pg, h3, h4⟩ := (parseFrom_ok hF).mp hg
    rw [hg, (parseFrom_ok hF).mpr ⟨pg, text_respell hF h3 h1 h2, h4⟩]
  · rw [he]
    symm
    rw [parseFrom_error hF] at he ⊢
    rintro ⟨pg, hp⟩
    exact he ⟨pg, text_respell hF hp h2 h1⟩

end

end Bnf
