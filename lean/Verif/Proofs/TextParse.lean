import Verif.Proofs.TextLex

/-! # The extended text parser and the concrete syntax -/

set_option autoImplicit false

namespace Bnf
open Spec Nom

variable {F : Format}

/-! ## Shape of syntax derivations -/

theorem Spec.Syn.start {i s r} (h : Syn F i s r) : ∃ c cs, s = c :: cs ∧ Starts F c := by
  induction h with
  | terminal h _ => obtain ⟨c, cs, h1, h2 | h2⟩ := h.start
                    · exact ⟨c, cs, h1, .inl h2⟩
                    · exact ⟨c, cs, h1, .inr (.inl h2)⟩
  | nonterminal h _ => obtain ⟨c, cs, h1, h2⟩ := h.start; exact ⟨c, cs, h1, .inr (.inr (.inr (.inr h2)))⟩
  | group _ _ _ => exact ⟨_, _, rfl, .inr (.inr (.inl rfl))⟩
  | optional _ _ _ => exact ⟨_, _, rfl, .inr (.inr (.inr (.inl rfl)))⟩
  | one _ ih => exact ih
  | more _ _ ih _ => exact ih
  | lastAlt _ ih => exact ih
  | nextAlt _ _ _ ih _ => exact ih

theorem Spec.Syn.suffix {i s r} (h : Syn F i s r) : (∃ v, s = v ++ r) ∧ r.length < s.length := by
  induction h with
  | terminal h hl =>
    obtain ⟨⟨v, rfl⟩, h2⟩ := h.suffix; obtain ⟨w, rfl⟩ := hl.suffix
    exact ⟨⟨v ++ w, by simp⟩, by simp at h2 ⊢; omega⟩
  | nonterminal h hl =>
    obtain ⟨⟨v, rfl⟩, h2⟩ := h.suffix; obtain ⟨w, rfl⟩ := hl.suffix
    exact ⟨⟨v ++ w, by simp⟩, by simp at h2 ⊢; omega⟩
  | group h hl ih =>
    obtain ⟨⟨v, rfl⟩, h2⟩ := ih; obtain ⟨w, rfl⟩ := hl.suffix
    exact ⟨⟨'(' :: (v ++ ')' :: w), by simp⟩, by simp at h2 ⊢; omega⟩
  | optional h hl ih =>
    obtain ⟨⟨v, rfl⟩, h2⟩ := ih; obtain ⟨w, rfl⟩ := hl.suffix
    exact ⟨⟨'[' :: (v ++ ']' :: w), by simp⟩, by simp at h2 ⊢; omega⟩
  | one _ ih => exact ih
  | more _ _ ih1 ih2 =>
    obtain ⟨⟨v, rfl⟩, h1⟩ := ih1; obtain ⟨⟨w, rfl⟩, h2⟩ := ih2
    exact ⟨⟨v ++ w, by simp⟩, by simp at h1 h2 ⊢; omega⟩
  | lastAlt _ ih => exact ih
  | nextAlt _ hl _ ih1 ih2 =>
    obtain ⟨⟨v, rfl⟩, h1⟩ := ih1; obtain ⟨⟨w, rfl⟩, h2⟩ := ih2
    obtain ⟨x, rfl⟩ := hl.suffix
    exact ⟨⟨v ++ F.alternativeSeparator :: (x ++ w), by simp⟩, by simp at h1 h2 ⊢; omega⟩

theorem chain_terms {ts s r} (hc : ParseChain (fun t s r => Syn F (.term t) s r) ts s r) (hne : ts ≠ []) :
    Syn F (.terms ts) s r := by
  induction hc with
  | nil => exact absurd rfl hne
  | @cons a l s s' r h1 h2 ih =>
    cases l with
    | nil => cases h2; exact .one h1
    | cons b l => exact .more h1 (ih (by simp))

theorem sepChain_alts {as s r}
    (hc : SepChain (fun e s r => Syn F (.terms e) s r)
      (fun s r => ∃ s1, s = F.alternativeSeparator :: s1 ∧ Layout s1 r) as s r) : Syn F (.alts as) s r := by
  induction hc with
  | one h => exact .lastAlt h
  | cons h1 h2 _ ih => obtain ⟨s1, rfl, h2⟩ := h2; exact .nextAlt h1 h2 ih

/-! ## Soundness -/

theorem expressionNext_ok {s r v} (h : expressionNext F s = .ok r v) :
    ∃ s1, s = F.alternativeSeparator :: s1 ∧ Layout s1 r ∧ Tight r := by
  simp only [expressionNext, Res.andThen_ok, char_ok, Res.ok.injEq] at h
  obtain ⟨r1, c, ⟨h1, _⟩, r2, w, h2, rfl, _⟩ := h
  exact ⟨r1, h1, ws_sound h2⟩

theorem parsedAltsWith_sound {pt : P ParsedTerm} (hpt : ∀ s r t, pt s = .ok r t → Syn F (.term t) s r) {n s r as}
    (h : parsedAltsWith F n pt s = .ok r as) : Syn F (.alts as) s r := by
  obtain ⟨h, _⟩ := xtList_sound h
  refine sepChain_alts (h.imp (fun e s r he => ?_) (fun s r hd => ?_))
  · obtain ⟨h1, h2, _⟩ := many1_sound he
    exact chain_terms (h2.imp fun t s r ht => hpt s r t (terminated_not_ok.mp ht).1) h1
  · obtain ⟨v, hd⟩ := hd
    obtain ⟨s1, h1, h2, _⟩ := expressionNext_ok hd
    exact ⟨s1, h1, h2⟩

theorem parsedTerm_sound (hF : F.Named) : ∀ {n s r t}, parsedTerm F n s = .ok r t →
    Syn F (.term t) s r ∧ Tight r := by
  intro n
  induction n with
  | zero => intro s r t h; cases h
  | succ n ih =>
    intro s r t h
    have ih' : ∀ s r t, parsedTerm F n s = .ok r t → Syn F (.term t) s r := fun s r t h => (ih h).1
    rw [parsedTerm] at h
    rw [alt_ok] at h
    rcases h with h | ⟨_, h⟩
    · simp only [parsedTerminal, Res.andThen_ok, Res.ok.injEq, quotedText_ok] at h
      obtain ⟨s1, u, h1, s2, w, h2, rfl, rfl⟩ := h
      exact ⟨.terminal h1 (ws_sound h2).1, (ws_sound h2).2⟩
    rw [alt_ok] at h
    rcases h with h | ⟨_, h⟩
    · simp only [parsedNonterminal, Res.andThen_ok, Res.ok.injEq, nameText_ok hF] at h
      obtain ⟨s1, u, h1, s2, w, h2, rfl, rfl⟩ := h
      exact ⟨.nonterminal h1 (ws_sound h2).1, (ws_sound h2).2⟩
    rw [alt_ok] at h
    rcases h with h | ⟨_, h⟩
    · simp only [parsedAnonymousGroup, Res.andThen_ok, Res.ok.injEq, delimited_ok, char_ok] at h
      obtain ⟨s1, u, ⟨s2, c, s3, d, ⟨rfl, _⟩, h2, rfl, _⟩, s4, w, h3, rfl, rfl⟩ := h
      exact ⟨.group (parsedAltsWith_sound ih' h2) (ws_sound h3).1, (ws_sound h3).2⟩
    · simp only [parsedOptionalGroup, Res.andThen_ok, Res.ok.injEq, delimited_ok, char_ok] at h
      obtain ⟨s1, u, ⟨s2, c, s3, d, ⟨rfl, _⟩, h2, rfl, _⟩, s4, w, h3, rfl, rfl⟩ := h
      exact ⟨.optional (parsedAltsWith_sound ih' h2) (ws_sound h3).1, (ws_sound h3).2⟩

theorem parsedProdRhs_sound (hF : F.Named) {n s r as} (h : parsedProdRhs F n s = .ok r as) :
    Syn F (.alts as) s r := parsedAltsWith_sound (fun _ _ _ h => (parsedTerm_sound hF h).1) h

theorem opt_char_ok {c : Char} {s r v} (h : opt (char c) s = .ok r v) : s = r ∨ s = c :: r := by
  unfold opt at h
  split at h
  · rename_i h1
    injection h with h2 h3
    subst h2
    exact .inr (char_ok.mp h1).1
  · injection h with h2 h3; exact .inl h2
  · cases h

theorem parsedProdLhs_sound (hF : F.Named) {s r u} (h : parsedProdLhs F s = .ok r u) : Lhs F u s r ∧ Tight r := by
  simp only [parsedProdLhs, Res.andThen_ok, Res.ok.injEq, nameText_ok hF, tag_ok] at h
  obtain ⟨s1, u, h1, s2, w, h2, s3, _, rfl, s4, o, h3, s5, _, h4, rfl, rfl⟩ := h
  exact ⟨⟨s1, s3, s4, h1, (ws_sound h2).1, opt_char_ok h3, (ws_sound h4).1⟩, (ws_sound h4).2⟩

theorem peek_ok {α : Type} {a : P α} {s r v} (h : peek a s = .ok r v) : r = s := by
  simp only [peek, Res.andThen_ok, Res.ok.injEq] at h
  obtain ⟨_, _, _, h, _⟩ := h
  exact h.symm

theorem recognize_peek_ok {α : Type} {a : P α} {s r v} (h : recognize (peek a) s = .ok r v) : r = s := by
  simp only [recognize, Res.andThen_ok, Res.ok.injEq] at h
  obtain ⟨_, _, h1, rfl, _⟩ := h
  exact peek_ok h1

theorem parsedProduction_sound (hF : F.Named) {n s r p} (h : parsedProduction F n s = .ok r p) : Prod F p s r := by
  simp only [parsedProduction, Res.andThen_ok, Res.ok.injEq] at h
  obtain ⟨s1, lhs, h1, s2, rhs, h2, s3, _, h3, rfl, rfl⟩ := h
  have : s3 = s2 := by
    rw [alt_ok] at h3
    rcases h3 with h3 | ⟨_, h3⟩ <;> exact recognize_peek_ok h3
  subst this
  exact ⟨s1, (parsedProdLhs_sound hF h1).1, parsedProdRhs_sound hF h2⟩

theorem Spec.Lhs.start {u s r} (h : Lhs F u s r) : ∃ c cs, s = c :: cs ∧ NameStart F c := by
  obtain ⟨_, _, _, h, _⟩ := h
  exact h.start

theorem Spec.Lhs.suffix {u s r} (h : Lhs F u s r) : (∃ v, s = v ++ r) ∧ r.length < s.length := by
  obtain ⟨s1, s2, s3, h1, h2, h3, h4⟩ := h
  obtain ⟨⟨v1, rfl⟩, h1⟩ := h1.suffix
  obtain ⟨v2, rfl⟩ := h2.suffix
  obtain ⟨v4, rfl⟩ := h4.suffix
  rcases h3 with rfl | rfl
  · exact ⟨⟨v1 ++ (v2 ++ (F.productionSeparator ++ v4)), by simp⟩, by simp at h1 ⊢; omega⟩
  · exact ⟨⟨v1 ++ (v2 ++ (F.productionSeparator ++ F.alternativeSeparator :: v4)), by simp⟩, by simp at h1 ⊢; omega⟩

theorem Spec.Prod.suffix {p s r} (h : Prod F p s r) : (∃ v, s = v ++ r) ∧ r.length < s.length := by
  obtain ⟨s1, h1, h2⟩ := h
  obtain ⟨⟨v1, rfl⟩, h1⟩ := h1.suffix
  obtain ⟨⟨v2, rfl⟩, h2⟩ := h2.suffix
  exact ⟨⟨v1 ++ v2, by simp⟩, by simp at h1 h2 ⊢; omega⟩

theorem Spec.Prod.start {p s r} (h : Prod F p s r) : ∃ c cs, s = c :: cs ∧ NameStart F c := by
  obtain ⟨s1, h1, h2⟩ := h
  exact h1.start

theorem layout_trans {s t r} (h : Layout s t) (h' : Layout t r) : Layout s r := by
  induction h with
  | nil => exact h'
  | space hc _ ih => exact .space hc (ih h')
  | comment hu hc _ ih => exact .comment hu hc (ih h')
  | @lastComment u hu =>
    cases h'
    exact .lastComment hu

/-- Layout at the end of a production's last term. -/
theorem syn_layout {i s r r'} (h : Syn F i s r) (hl : Layout r r') : Syn F i s r' := by
  induction h with
  | terminal h hl' => exact .terminal h (layout_trans hl' hl)
  | nonterminal h hl' => exact .nonterminal h (layout_trans hl' hl)
  | group h hl' _ => exact .group h (layout_trans hl' hl)
  | optional h hl' _ => exact .optional h (layout_trans hl' hl)
  | one _ ih => exact .one (ih hl)
  | more h _ _ ih => exact .more h (ih hl)
  | lastAlt _ ih => exact .lastAlt (ih hl)
  | nextAlt h hl' _ _ ih => exact .nextAlt h hl' (ih hl)

theorem parsedGrammar_sound (hF : F.Named) {n s r g} (h : parsedGrammar F n s = .ok r g) :
    ∃ s1, Layout s s1 ∧ Prods F g s1 r := by
  simp only [parsedGrammar, Res.andThen_ok] at h
  obtain ⟨s1, _, h1, h2⟩ := h
  obtain ⟨hne, hc, _⟩ := many1_sound h2
  have key : ∀ {g s r}, ParseChain (fun a s r => preceded whitespacePlusComments (parsedProduction F n) s = .ok r a) g s r →
      g ≠ [] → ∃ s1, Layout s s1 ∧ Prods F g s1 r := by
    intro g s r hc
    induction hc with
    | nil => intro h; exact absurd rfl h
    | @cons p g s s' r h1 h2 ih =>
      intro _
      simp only [preceded, Res.andThen_ok] at h1
      obtain ⟨s2, _, h3, h4⟩ := h1
      refine ⟨s2, (ws_sound h3).1, ?_⟩
      have hp := parsedProduction_sound hF h4
      cases g with
      | nil => cases h2; exact .one hp
      | cons q g =>
        obtain ⟨s3, h5, h6⟩ := ih (by simp)
        obtain ⟨s4, h7, h8⟩ := hp
        exact .more ⟨s4, h7, syn_layout h8 h5⟩ h6
  obtain ⟨s2, h3, h4⟩ := key hc hne
  exact ⟨s2, layout_trans (ws_sound h1).1 h3, h4⟩

theorem allConsuming_ok {α : Type} {a : P α} {s r v} : allConsuming a s = .ok r v ↔ r = [] ∧ a s = .ok [] v := by
  simp only [allConsuming, Res.andThen_ok]
  constructor
  · rintro ⟨r1, v1, h1, h2⟩
    split at h2
    · injection h2 with h3 h4; subst h3 h4; exact ⟨rfl, h1⟩
    · cases h2
  · rintro ⟨rfl, h⟩
    exact ⟨[], v, h, rfl⟩

theorem parsedGrammarComplete_sound (hF : F.Named) {n s r g} (h : parsedGrammarComplete F n s = .ok r g) :
    GrammarText F g s := by
  obtain ⟨rfl, h'⟩ := allConsuming_ok.mp h
  exact parsedGrammar_sound hF h'

/-! ## Completeness -/

/-- What may follow an alternative. -/
def Follow (F : Format) (r : Str) : Prop :=
  r = [] ∨ (∃ c cs, r = c :: cs ∧ (c = F.alternativeSeparator ∨ c = ')' ∨ c = ']')) ∨
    ∃ u s1 s2, Name F u r s1 ∧ Layout s1 (F.productionSeparator ++ s2)

theorem sep_tight (hF : F.Regular) (s : Str) : Tight (F.productionSeparator ++ s) := by
  obtain ⟨x, xs, h1, _, h2, h3⟩ := hF.prodSep
  rw [h1]
  refine tight_cons h2 ?_
  rintro rfl
  simp at h3

theorem follow_tight (hF : F.Regular) {r} (h : Follow F r) : Tight r := by
  rcases h with rfl | ⟨c, cs, rfl, h⟩ | ⟨u, s1, s2, h, _⟩
  · exact .nil
  · rcases h with rfl | rfl | rfl
    · exact tight_cons hF.altSep.2.1 (fun h => hF.altSep.2.2 (by rw [h]; simp))
    · exact tight_cons (by decide) (by decide)
    · exact tight_cons (by decide) (by decide)
  · obtain ⟨c, cs, rfl, hc⟩ := h.start
    obtain ⟨h1, h2⟩ := hF.nameStart c hc
    exact tight_cons h1 (by rintro rfl; simp at h2)

theorem tag_err_of_ne {c x : Char} {xs s : Str} (h : c ≠ x) : tag (x :: xs) (c :: s) = .err := by
  rw [tag, if_neg]
  exact fun e => h e.symm

theorem tag_err_starts (hF : F.Regular) {c : Char} (h : Starts F c) (s : Str) : tag F.productionSeparator (c :: s) = .err := by
  obtain ⟨x, xs, h1, h2, _⟩ := hF.prodSep
  rw [h1]
  exact tag_err_of_ne (by rintro rfl; exact h2 h)

theorem tag_err_follow (hF : F.Regular) {r} (h : Follow F r) : tag F.productionSeparator r = .err := by
  obtain ⟨x, xs, h1, h2, _, h4⟩ := hF.prodSep
  rcases h with rfl | ⟨c, cs, rfl, h⟩ | ⟨u, s1, s2, h, _⟩
  · rw [h1]; rfl
  · rw [h1]
    refine tag_err_of_ne ?_
    rintro rfl
    simp only [List.mem_cons, List.not_mem_nil, or_false, not_or] at h4
    rcases h with h | h | h
    · exact h4.2.2.2 h
    · exact h4.2.1 h
    · exact h4.2.2.1 h
  · obtain ⟨c, cs, rfl, hc⟩ := h.start
    exact tag_err_starts hF (.inr (.inr (.inr (.inr hc)))) _

theorem parsedTerm_err {c : Char} (h : ¬ Starts F c) (n : Nat) (s : Str) : parsedTerm F (n + 1) (c :: s) = .err := by
  simp only [Starts, not_or] at h
  obtain ⟨h1, h2, h3, h4, h5⟩ := h
  rw [parsedTerm, alt_of_err, alt_of_err, alt_of_err]
  · simp only [parsedOptionalGroup, delimited, char_ne h4, Res.andThen_of_err]
  · simp only [parsedAnonymousGroup, delimited, char_ne h3, Res.andThen_of_err]
  · simp only [parsedNonterminal, nameText_err h5, Res.andThen_of_err]
  · simp only [parsedTerminal, quotedText_err h1 h2, Res.andThen_of_err]

theorem parsedTerm_nil (n : Nat) : parsedTerm F (n + 1) [] = .err := by
  rw [parsedTerm, alt_of_err, alt_of_err, alt_of_err]
  · rfl
  · rfl
  · simp only [parsedNonterminal, nameText_nil, Res.andThen_of_err]
  · rfl

theorem parsedTerm_terminal {u s s' r} (h : Quoted u s s') (hl : Layout s' r) (hr : Tight r) (n : Nat) :
    parsedTerm F (n + 1) s = .ok r (.simple (.terminal u)) := by
  rw [parsedTerm]
  refine alt_of_ok ?_
  simp only [parsedTerminal, quotedText_ok.mpr h, Res.andThen_of_ok, ws_of_layout hl hr]

theorem parsedTerm_nonterminal (hF : F.Regular) {u s s' r} (h : Name F u s s') (hl : Layout s' r) (hr : Tight r) (n : Nat) :
    parsedTerm F (n + 1) s = .ok r (.simple (.nonterminal u)) := by
  rw [parsedTerm, alt_of_err]
  · refine alt_of_ok ?_
    simp only [parsedNonterminal, (nameText_ok hF).mpr h, Res.andThen_of_ok, ws_of_layout hl hr]
  · obtain ⟨c, cs, rfl, hc⟩ := h.start
    have := (hF.nameStart c hc).2
    simp only [parsedTerminal]
    rw [quotedText_err (by rintro rfl; simp at this) (by rintro rfl; simp at this)]
    rfl

theorem item_err_follow (hF : F.Regular) {r} (h : Follow F r) {n} (hn : 0 < n) :
    terminated (parsedTerm F n) (Nom.not (tag F.productionSeparator)) r = .err := by
  obtain ⟨n, rfl⟩ : ∃ m, n = m + 1 := ⟨n - 1, by omega⟩
  rcases h with rfl | ⟨c, cs, rfl, h⟩ | ⟨u, s1, s2, h, hl⟩
  · exact terminated_not_err (.inl (parsedTerm_nil n))
  · refine terminated_not_err (.inl (parsedTerm_err ?_ n cs))
    rcases h with rfl | h
    · exact hF.altSep.1
    · exact close_not_starts hF h
  · exact terminated_not_err (.inr ⟨_, _, _, _, parsedTerm_nonterminal hF h hl (sep_tight hF s2) n, tag_append _ _⟩)

/-- The parser for the terms of an alternative. -/
abbrev itemP (F : Format) (n : Nat) : P ParsedTerm := terminated (parsedTerm F n) (Nom.not (tag F.productionSeparator))

/-- What the parser does on a piece of syntax. -/
def Reads (F : Format) (r : Str) : Item → Str → Prop
  | .term t, s => Tight r → ∀ n, s.length < n → parsedTerm F n s = .ok r t
  | .terms ts, s => Follow F r → ∀ n, s.length < n → ParseChain (fun a s r => itemP F n s = .ok r a ∧ byteLen r < byteLen s ∧
      r.length < s.length) ts s r
  | .alts as, s => Follow F r → (∀ cs, r ≠ F.alternativeSeparator :: cs) → ∀ n, s.length < n →
      parsedAltsWith F n (parsedTerm F n) s = .ok r as

theorem altsWith_of (hF : F.Regular) {as s r}
    (h : SepChain (fun e s r => Follow F r ∧ e ≠ [] ∧ (∀ n, s.length < n →
        ParseChain (fun a s r => itemP F n s = .ok r a ∧ byteLen r < byteLen s ∧ r.length < s.length) e s r) ∧ r.length < s.length)
      (fun s r => ∃ s1, s = F.alternativeSeparator :: s1 ∧ Layout s1 r ∧ Tight r) as s r)
    (hr : ∀ cs, r ≠ F.alternativeSeparator :: cs) {n} (hn : s.length < n) :
    parsedAltsWith F n (parsedTerm F n) s = .ok r as := by
  have key : ∀ {as s r}, SepChain (fun e s r => Follow F r ∧ e ≠ [] ∧ (∀ n, s.length < n →
        ParseChain (fun a s r => itemP F n s = .ok r a ∧ byteLen r < byteLen s ∧ r.length < s.length) e s r) ∧ r.length < s.length)
      (fun s r => ∃ s1, s = F.alternativeSeparator :: s1 ∧ Layout s1 r ∧ Tight r) as s r → s.length < n →
      SepChain (fun a s r => parsedExpressionWith F n (parsedTerm F n) s = .ok r a ∧ r.length < s.length)
        (fun s r => (∃ v, expressionNext F s = .ok r v) ∧ r.length < s.length) as s r := by
    intro as s r h
    have rd : ∀ {e : List ParsedTerm} {s r : Str}, (Follow F r ∧ e ≠ [] ∧ (∀ n, s.length < n →
        ParseChain (fun a s r => itemP F n s = .ok r a ∧ byteLen r < byteLen s ∧ r.length < s.length) e s r) ∧ r.length < s.length) →
        s.length < n → parsedExpressionWith F n (parsedTerm F n) s = .ok r e ∧ r.length < s.length := by
      rintro e s r ⟨h1, h2, h3, h4⟩ hn
      exact ⟨many1_complete (h3 n hn) h2 (item_err_follow hF h1 (by omega)) (by omega), h4⟩
    induction h with
    | one h => exact fun hn => .one (rd h hn)
    | @cons e as s s1 s2 r h hd _ ih =>
      intro hn
      have hlt := h.2.2.2
      obtain ⟨s3, rfl, h1, h2⟩ := hd
      have := h1.length
      refine .cons (rd h hn) ⟨⟨(), ?_⟩, ?_⟩ (ih ?_)
      · simp only [expressionNext, char_cons, Res.andThen_of_ok, ws_of_layout h1 h2]
      · simp only [List.length_cons]; omega
      · simp only [List.length_cons] at hlt; omega
  have h' := key h hn
  have hd : expressionNext F r = .err := by
    cases r with
    | nil => rfl
    | cons c cs =>
      simp only [expressionNext]
      rw [char_ne]
      · rfl
      · rintro rfl; exact hr cs rfl
  exact xtLoop_complete h' hd hn

theorem Spec.Syn.chain {i s r} (h : Syn F i s r) : ∀ {ts}, i = .terms ts → ts ≠ [] := by
  cases h <;> intro ts h <;> cases h <;> simp

/-- Lists of alternatives as chains. -/
theorem Spec.Syn.sepChain {i s r} (h : Syn F i s r) : ∀ {as}, i = .alts as →
    SepChain (fun e s r => Syn F (.terms e) s r) (fun s r => ∃ s1, s = F.alternativeSeparator :: s1 ∧ Layout s1 r) as s r := by
  induction h with
  | terminal _ _ => intro as h; cases h
  | nonterminal _ _ => intro as h; cases h
  | group _ _ _ => intro as h; cases h
  | optional _ _ _ => intro as h; cases h
  | one _ _ => intro as h; cases h
  | more _ _ _ _ => intro as h; cases h
  | lastAlt h _ => intro as e; injection e with e; subst e; exact .one h
  | nextAlt h hl _ _ ih => intro as e; injection e with e; subst e; exact .cons h ⟨_, rfl, hl⟩ (ih rfl)

theorem syn_tight (hF : F.Regular) {i s r} (h : Syn F i s r) : Tight s := by
  obtain ⟨c, cs, rfl, hc⟩ := h.start
  obtain ⟨h1, h2⟩ := starts_tight hF hc
  exact tight_cons h1 h2

/-- Completeness, with the alternatives as chains so that the induction goes through. -/
theorem syn_reads (hF : F.Regular) {i s r} (h : Syn F i s r) : Reads F r i s ∧ (∀ as, i = .alts as →
    Follow F r → SepChain (fun e s r => Follow F r ∧ e ≠ [] ∧ (∀ n, s.length < n →
        ParseChain (fun a s r => itemP F n s = .ok r a ∧ byteLen r < byteLen s ∧ r.length < s.length) e s r) ∧ r.length < s.length)
      (fun s r => ∃ s1, s = F.alternativeSeparator :: s1 ∧ Layout s1 r ∧ Tight r) as s r) := by
  induction h with
  | terminal h hl =>
    refine ⟨fun hr n hn => ?_, fun as h => by cases h⟩
    obtain ⟨n, rfl⟩ : ∃ m, n = m + 1 := ⟨n - 1, by omega⟩
    exact parsedTerm_terminal h hl hr n
  | nonterminal h hl =>
    refine ⟨fun hr n hn => ?_, fun as h => by cases h⟩
    obtain ⟨n, rfl⟩ : ∃ m, n = m + 1 := ⟨n - 1, by omega⟩
    exact parsedTerm_nonterminal hF h hl hr n
  | @group as s s' r h hl ih =>
    refine ⟨fun hr n hn => ?_, fun as h => by cases h⟩
    obtain ⟨n, rfl⟩ : ∃ m, n = m + 1 := ⟨n - 1, by omega⟩
    have hne : ¬ NameStart F '(' := fun hc => by have := (hF.nameStart _ hc).2; simp at this
    have hne' : ')' ≠ F.alternativeSeparator := fun hc => hF.altSep.2.2 (by rw [← hc]; simp)
    have hp := ih.1 (.inr (.inl ⟨_, _, rfl, .inr (.inl rfl)⟩))
      (fun cs hc => by injection hc with hc _; exact hne' hc) n (by simp only [List.length_cons] at hn; omega)
    rw [parsedTerm, alt_of_err, alt_of_err]
    · refine alt_of_ok ?_
      simp only [parsedAnonymousGroup, delimited, char_cons, Res.andThen_of_ok, hp, ws_of_layout hl hr]
    · simp only [parsedNonterminal, nameText_err hne, Res.andThen_of_err]
    · simp only [parsedTerminal]; rw [quotedText_err (by decide) (by decide)]; rfl
  | @optional as s s' r h hl ih =>
    refine ⟨fun hr n hn => ?_, fun as h => by cases h⟩
    obtain ⟨n, rfl⟩ : ∃ m, n = m + 1 := ⟨n - 1, by omega⟩
    have hne : ¬ NameStart F '[' := fun hc => by have := (hF.nameStart _ hc).2; simp at this
    have hne' : ']' ≠ F.alternativeSeparator := fun hc => hF.altSep.2.2 (by rw [← hc]; simp)
    have hp := ih.1 (.inr (.inl ⟨_, _, rfl, .inr (.inr rfl)⟩))
      (fun cs hc => by injection hc with hc _; exact hne' hc) n (by simp only [List.length_cons] at hn; omega)
    rw [parsedTerm, alt_of_err, alt_of_err, alt_of_err]
    · simp only [parsedOptionalGroup, delimited, char_cons, Res.andThen_of_ok, hp, ws_of_layout hl hr]
    · simp only [parsedAnonymousGroup, delimited, char_ne (show '[' ≠ '(' by decide), Res.andThen_of_err]
    · simp only [parsedNonterminal, nameText_err hne, Res.andThen_of_err]
    · simp only [parsedTerminal]; rw [quotedText_err (by decide) (by decide)]; rfl
  | one h ih =>
    refine ⟨fun hr n hn => ?_, fun as h => by cases h⟩
    obtain ⟨⟨v, hv⟩, hlt⟩ := h.suffix
    refine .cons ⟨terminated_not_ok.mpr ⟨ih.1 (follow_tight hF hr) n hn, tag_err_follow hF hr⟩,
      byteLen_lt_of_suffix v hv hlt, hlt⟩ .nil
  | more h h2 ih ih2 =>
    refine ⟨fun hr n hn => ?_, fun as h => by cases h⟩
    obtain ⟨⟨v, hv⟩, hlt⟩ := h.suffix
    refine .cons ⟨terminated_not_ok.mpr ⟨ih.1 (syn_tight hF h2) n hn, ?_⟩,
      byteLen_lt_of_suffix v hv hlt, hlt⟩ (ih2.1 hr n (by omega))
    obtain ⟨c, cs, rfl, hc⟩ := h2.start
    exact tag_err_starts hF hc cs
  | @lastAlt e s r h ih =>
    have hc : ∀ as, Item.alts [e] = .alts as → Follow F r → SepChain (fun e s r => Follow F r ∧ e ≠ [] ∧ (∀ n, s.length < n →
        ParseChain (fun a s r => itemP F n s = .ok r a ∧ byteLen r < byteLen s ∧ r.length < s.length) e s r) ∧ r.length < s.length)
        (fun s r => ∃ s1, s = F.alternativeSeparator :: s1 ∧ Layout s1 r ∧ Tight r) as s r := by
      intro as e hf
      injection e with e
      subst e
      exact .one ⟨hf, h.chain rfl, ih.1 hf, h.suffix.2⟩
    exact ⟨fun hf hr n hn => altsWith_of hF (hc _ rfl hf) hr hn, hc⟩
  | @nextAlt e as s s1 s2 r h hl h2 ih ih2 =>
    have hfa : Follow F (F.alternativeSeparator :: s1) := .inr (.inl ⟨_, _, rfl, .inl rfl⟩)
    have hc : ∀ as', Item.alts (e :: as) = .alts as' → Follow F r → SepChain (fun e s r => Follow F r ∧ e ≠ [] ∧ (∀ n, s.length < n →
        ParseChain (fun a s r => itemP F n s = .ok r a ∧ byteLen r < byteLen s ∧ r.length < s.length) e s r) ∧ r.length < s.length)
        (fun s r => ∃ s1, s = F.alternativeSeparator :: s1 ∧ Layout s1 r ∧ Tight r) as' s r := by
      intro as e hf
      injection e with e
      subst e
      exact .cons ⟨hfa, h.chain rfl, ih.1 hfa, h.suffix.2⟩ ⟨_, rfl, hl, syn_tight hF h2⟩ (ih2.2 _ rfl hf)
    exact ⟨fun hf hr n hn => altsWith_of hF (hc _ rfl hf) hr hn, hc⟩

theorem alts_complete (hF : F.Regular) {as s r} (h : Syn F (.alts as) s r) (hf : Follow F r)
    (hr : ∀ cs, r ≠ F.alternativeSeparator :: cs) {n} (hn : s.length < n) : parsedProdRhs F n s = .ok r as :=
  (syn_reads hF h).1 hf hr n hn

theorem opt_char_complete {c : Char} {s2 s3 : Str} (h : s2 = s3 ∨ s2 = c :: s3) (hs : ∀ cs, s3 ≠ c :: cs) :
    ∃ o, opt (char c) s2 = .ok s3 o := by
  rcases h with rfl | rfl
  · cases s2 with
    | nil => exact ⟨none, rfl⟩
    | cons d s =>
      refine ⟨none, ?_⟩
      unfold opt
      rw [char_ne]
      rintro rfl
      exact hs s rfl
  · exact ⟨some c, by simp [opt, char_cons]⟩

/-- After the production separator there is layout or the start of a term, not the alternative separator. -/
theorem layout_ne_altSep (hF : F.Regular) {s r} (h : Layout s r) (hr : ∀ cs, r ≠ F.alternativeSeparator :: cs) :
    ∀ cs, s ≠ F.alternativeSeparator :: cs := by
  cases h with
  | nil => exact hr
  | space hc _ =>
    intro cs e
    injection e with e _
    rw [e, hF.altSep.2.1] at hc
    cases hc
  | comment _ _ _ =>
    intro cs e
    injection e with e _
    exact hF.altSep.2.2 (by rw [← e]; simp)
  | lastComment _ =>
    intro cs e
    injection e with e _
    exact hF.altSep.2.2 (by rw [← e]; simp)

theorem lhs_complete (hF : F.Regular) {u s r} (h : Lhs F u s r) (hr : Tight r) (hne : ∀ cs, r ≠ F.alternativeSeparator :: cs) :
    parsedProdLhs F s = .ok r u := by
  obtain ⟨s1, s2, s3, h1, h2, h3, h4⟩ := h
  obtain ⟨o, ho⟩ := opt_char_complete h3 (layout_ne_altSep hF h4 hne)
  simp only [parsedProdLhs, (nameText_ok hF).mpr h1, Res.andThen_of_ok, ws_of_layout h2 (sep_tight hF s2), tag_append,
    ho, ws_of_layout h4 hr]

theorem starts_ne_altSep (hF : F.Regular) {s : Str} (h : ∃ c cs, s = c :: cs ∧ Starts F c) :
    ∀ cs, s ≠ F.alternativeSeparator :: cs := by
  obtain ⟨c, cs, rfl, hc⟩ := h
  intro ds e
  injection e with e _
  subst e
  exact hF.altSep.1 hc

theorem nameStart_starts {s : Str} (h : ∃ c cs, s = c :: cs ∧ NameStart F c) : ∃ c cs, s = c :: cs ∧ Starts F c := by
  obtain ⟨c, cs, h1, h2⟩ := h
  exact ⟨c, cs, h1, .inr (.inr (.inr (.inr h2)))⟩

/-- What may follow a production. -/
def ProdFollow (F : Format) (r : Str) : Prop := r = [] ∨ ∃ p r', Prod F p r r'

theorem prodFollow_follow {r} (h : ProdFollow F r) : Follow F r := by
  rcases h with rfl | ⟨p, r', s1, ⟨s2, s3, s4, h1, h2, _⟩, _⟩
  · exact .inl rfl
  · exact .inr (.inr ⟨p.lhs, s2, s3, h1, h2⟩)

theorem prodFollow_ne (hF : F.Regular) {r} (h : ProdFollow F r) : ∀ cs, r ≠ F.alternativeSeparator :: cs := by
  rcases h with rfl | ⟨p, r', h⟩
  · intro cs h; cases h
  · exact starts_ne_altSep hF (nameStart_starts h.start)

theorem parsedProduction_complete (hF : F.Regular) {p s r} (h : Prod F p s r) (hr : ProdFollow F r) {n}
    (hn : s.length < n) : parsedProduction F n s = .ok r p := by
  obtain ⟨s1, h1, h2⟩ := h
  have hlt := h1.suffix.2
  have hp := alts_complete hF h2 (prodFollow_follow hr) (prodFollow_ne hF hr) (n := n) (by omega)
  have hlhs := lhs_complete hF h1 (syn_tight hF h2) (starts_ne_altSep hF h2.start)
  have hend : alt (recognize (peek eof)) (recognize (peek (parsedProdLhs F))) r = .ok r () := by
    rcases hr with rfl | ⟨q, r', s2, h3, h4⟩
    · rfl
    · have hlhs' := lhs_complete hF h3 (syn_tight hF h4) (starts_ne_altSep hF h4.start)
      rw [alt_of_err]
      · simp only [recognize, peek, hlhs', Res.andThen_of_ok]
      · obtain ⟨c, cs, rfl, _⟩ := h3.start
        rfl
  simp only [parsedProduction, hlhs, Res.andThen_of_ok, hp, hend]

theorem name_tight (hF : F.Regular) {s : Str} (h : ∃ c cs, s = c :: cs ∧ NameStart F c) : Tight s := by
  obtain ⟨c, cs, rfl, hc⟩ := nameStart_starts h
  obtain ⟨h1, h2⟩ := starts_tight hF hc
  exact tight_cons h1 h2

theorem Spec.Prods.start {g s r} (h : Prods F g s r) : ∃ c cs, s = c :: cs ∧ NameStart F c := by
  cases h with
  | one h => exact h.start
  | more h _ => exact h.start

theorem Spec.Prods.ne_nil {g s r} (h : Prods F g s r) : g ≠ [] := by cases h <;> simp

theorem Spec.Prods.follow {g s r} (h : Prods F g s r) : ProdFollow F s := by
  cases h with
  | one h => exact .inr ⟨_, _, h⟩
  | more h _ => exact .inr ⟨_, _, h⟩

theorem Spec.Prods.length {g s r} (h : Prods F g s r) : r.length < s.length := by
  induction h with
  | one h => exact h.suffix.2
  | more h _ ih => have := h.suffix.2; omega

theorem preceded_ws_tight {α : Type} {p : P α} {s : Str} (h : Tight s) : preceded whitespacePlusComments p s = p s := by
  simp only [preceded]
  rw [ws_of_layout .nil h]
  rfl

theorem parsedGrammarComplete_complete (hF : F.Regular) {g s} (h : GrammarText F g s) {n} (hn : s.length < n) :
    parsedGrammarComplete F n s = .ok [] g := by
  obtain ⟨s1, hl, hp⟩ := h
  refine allConsuming_ok.mpr ⟨rfl, ?_⟩
  have hlen := hl.length
  simp only [parsedGrammar, ws_of_layout hl (name_tight hF hp.start), Res.andThen_of_ok]
  have key : ∀ {g s r}, Prods F g s r → r = [] → s.length < n →
      ParseChain (fun a s r => preceded whitespacePlusComments (parsedProduction F n) s = .ok r a ∧ byteLen r < byteLen s ∧
        r.length < s.length) g s [] := by
    intro g s r h
    induction h with
    | one h =>
      rintro rfl hn
      obtain ⟨⟨v, hv⟩, hlt⟩ := h.suffix
      refine .cons ⟨?_, byteLen_lt_of_suffix v hv hlt, hlt⟩ .nil
      rw [preceded_ws_tight (name_tight hF h.start)]
      exact parsedProduction_complete hF h (.inl rfl) hn
    | more h h2 ih =>
      intro hr hn
      obtain ⟨⟨v, hv⟩, hlt⟩ := h.suffix
      refine .cons ⟨?_, byteLen_lt_of_suffix v hv hlt, hlt⟩ (ih hr (by omega))
      rw [preceded_ws_tight (name_tight hF h.start)]
      exact parsedProduction_complete hF h h2.follow hn
  refine many1_complete (key hp rfl (by omega)) hp.ne_nil ?_ (by omega)
  rw [preceded_ws_tight .nil]
  simp only [parsedProduction, parsedProdLhs, nameText_nil, Res.andThen_of_err]

/-! ## Enough fuel -/

theorem expressionNext_no_fuel (s : Str) : expressionNext F s ≠ .fuel := by
  intro h
  simp only [expressionNext, ws_eq, Res.andThen_of_ok, Res.andThen_fuel] at h
  rcases h with h | ⟨_, _, _, h⟩
  · exact char_no_fuel _ _ h
  · cases h

theorem expressionNext_length {s r v} (h : expressionNext F s = .ok r v) : r.length < s.length := by
  obtain ⟨s1, rfl, h, _⟩ := expressionNext_ok h
  have := h.length
  simp only [List.length_cons]
  omega

theorem parsedAltsWith_no_fuel {pt : P ParsedTerm} {n : Nat} (hp : ∀ s, s.length < n → pt s ≠ .fuel)
    (hc : ∀ s r v, pt s = .ok r v → r.length < s.length) {s} (hn : s.length < n) : parsedAltsWith F n pt s ≠ .fuel := by
  refine xtLoop_no_fuel (N := n) ?_ expressionNext_no_fuel ?_ (fun s r v => expressionNext_length) hn hn
  · intro s hs
    exact many1_no_fuel (N := n) (fun s hs => terminated_not_no_fuel (hp s hs) (tag_no_fuel _))
      (fun s r v h => hc s r v (terminated_not_ok.mp h).1) (by omega) hs
  · intro s r v h
    obtain ⟨h1, h2, _⟩ := many1_sound h
    have := ParseChain.length_le (fun a s r h => hc s r a (terminated_not_ok.mp h).1) h2
    have := List.length_pos_iff.mpr h1
    omega

theorem parsedTerm_no_fuel (hF : F.Named) : ∀ {n s}, s.length < n → parsedTerm F n s ≠ .fuel := by
  intro n
  induction n with
  | zero => intro s h; omega
  | succ n ih =>
    intro s hn
    rw [parsedTerm]
    have hc : ∀ s r v, parsedTerm F n s = .ok r v → r.length < s.length := fun s r v h =>
      (parsedTerm_sound hF h).1.suffix.2
    refine alt_no_fuel ?_ (alt_no_fuel ?_ (alt_no_fuel ?_ ?_))
    · intro h
      simp only [parsedTerminal, Res.andThen_fuel, ws_eq, Res.andThen_of_ok] at h
      rcases h with h | ⟨_, _, _, h⟩
      · exact quotedText_no_fuel _ h
      · cases h
    · intro h
      simp only [parsedNonterminal, Res.andThen_fuel, ws_eq, Res.andThen_of_ok] at h
      rcases h with h | ⟨_, _, _, h⟩
      · exact nameText_no_fuel _ _ h
      · cases h
    · intro h
      simp only [parsedAnonymousGroup, delimited, Res.andThen_fuel, ws_eq, Res.andThen_of_ok, char_ok] at h
      rcases h with (h | ⟨r, v, ⟨rfl, _⟩, h | ⟨r2, v2, _, h | ⟨_, _, _, h⟩⟩⟩) | ⟨_, _, _, h⟩
      · exact char_no_fuel _ _ h
      · exact parsedAltsWith_no_fuel (fun s hs => ih hs) hc (by simp only [List.length_cons] at hn; omega) h
      · exact char_no_fuel _ _ h
      · cases h
      · cases h
    · intro h
      simp only [parsedOptionalGroup, delimited, Res.andThen_fuel, ws_eq, Res.andThen_of_ok, char_ok] at h
      rcases h with (h | ⟨r, v, ⟨rfl, _⟩, h | ⟨r2, v2, _, h | ⟨_, _, _, h⟩⟩⟩) | ⟨_, _, _, h⟩
      · exact char_no_fuel _ _ h
      · exact parsedAltsWith_no_fuel (fun s hs => ih hs) hc (by simp only [List.length_cons] at hn; omega) h
      · exact char_no_fuel _ _ h
      · cases h
      · cases h

theorem opt_char_no_fuel (c : Char) (s : Str) : opt (char c) s ≠ .fuel := by
  unfold opt
  split
  · simp
  · simp
  · rename_i h; exact absurd h (char_no_fuel _ _)

theorem parsedProdLhs_no_fuel (s : Str) : parsedProdLhs F s ≠ .fuel := by
  intro h
  simp only [parsedProdLhs, Res.andThen_fuel, ws_eq, Res.andThen_of_ok] at h
  rcases h with h | ⟨_, _, _, h | ⟨_, _, _, h | ⟨_, _, _, h⟩⟩⟩
  · exact nameText_no_fuel _ _ h
  · exact tag_no_fuel _ _ h
  · exact opt_char_no_fuel _ _ h
  · cases h

theorem recognize_peek_no_fuel {α : Type} {a : P α} {s} (h : a s ≠ .fuel) : recognize (peek a) s ≠ .fuel := by
  intro h'
  simp only [recognize, peek, Res.andThen_fuel] at h'
  rcases h' with (h' | ⟨_, _, _, h'⟩) | ⟨_, _, _, h'⟩
  · exact h h'
  · cases h'
  · cases h'

theorem eof_no_fuel (s : Str) : eof s ≠ .fuel := by cases s <;> simp [eof]

theorem parsedProduction_no_fuel (hF : F.Named) {n s} (hn : s.length < n) : parsedProduction F n s ≠ .fuel := by
  intro h
  simp only [parsedProduction, Res.andThen_fuel] at h
  rcases h with h | ⟨r, v, h1, h | ⟨_, _, _, h | ⟨_, _, _, h⟩⟩⟩
  · exact parsedProdLhs_no_fuel s h
  · have := (parsedProdLhs_sound hF h1).1.suffix.2
    exact parsedAltsWith_no_fuel (fun s hs => parsedTerm_no_fuel hF hs)
      (fun s r v h => (parsedTerm_sound hF h).1.suffix.2) (by omega) h
  · exact alt_no_fuel (recognize_peek_no_fuel (eof_no_fuel _)) (recognize_peek_no_fuel (parsedProdLhs_no_fuel _)) h
  · cases h

theorem preceded_ws_no_fuel {α : Type} {p : P α} {s} (h : p (skipM false s) ≠ .fuel) :
    preceded whitespacePlusComments p s ≠ .fuel := by
  simp only [preceded, ws_eq, Res.andThen_of_ok]
  exact h

theorem allConsuming_no_fuel {α : Type} {p : P α} {s} (h : p s ≠ .fuel) : allConsuming p s ≠ .fuel := by
  intro h'
  simp only [allConsuming, Res.andThen_fuel] at h'
  rcases h' with h' | ⟨_, _, _, h'⟩
  · exact h h'
  · split at h' <;> cases h'

theorem parsedGrammarComplete_no_fuel (hF : F.Named) {n s} (hn : s.length < n) : parsedGrammarComplete F n s ≠ .fuel := by
  refine allConsuming_no_fuel ?_
  simp only [parsedGrammar, ws_eq, Res.andThen_of_ok]
  have := skipM_length false s
  refine many1_no_fuel (N := n) ?_ ?_ (by omega) (by omega)
  · intro s hs
    have := skipM_length false s
    exact preceded_ws_no_fuel (parsedProduction_no_fuel hF (by omega))
  · intro s r v h
    simp only [preceded, ws_eq, Res.andThen_of_ok] at h
    have := (parsedProduction_sound hF h).suffix.2
    have := skipM_length false s
    omega

end Bnf
