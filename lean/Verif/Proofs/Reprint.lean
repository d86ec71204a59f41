import Verif.Proofs.TextPrint
import Verif.Proofs.EndToEnd
import Verif.Spec.Reprint

/-! # Grammars read from ABNF texts, and ABNF texts for grammars -/

set_option autoImplicit false

namespace Bnf
open Spec Nom

/-! ## Printing what was read -/

theorem text_literals {F : Format} {pg s} (h : GrammarText F pg s) {t : Term} {D : Str → List Expression → Prop} {e}
    (hf : FromText pg D e) (ht : t ∈ e.terms) {u} (hu : t = .terminal u) : '"' ∉ u ∨ '\'' ∉ u := by
  obtain ⟨e0, ⟨p, hp, hw⟩, hl⟩ := hf
  obtain ⟨t0, ht0, hl⟩ := lowTs_mem hl t ht
  match t0, hl with
  | .simple t0, hl =>
    simp only [LowT] at hl
    subst hl
    rcases text_simple h ⟨p, hp, Within.trans (.terms ht0 .refl) hw⟩ with ⟨v, s, r, hv, h⟩ | ⟨v, s, r, hv, h⟩
    · have := quoted_printable h
      rw [← hv, hu] at this
      exact this
    · rw [hu] at hv; cases hv
  | .group as, hl =>
    simp only [LowT] at hl
    obtain ⟨x, rhs, hx, _⟩ := hl
    rw [hu] at hx; cases hx
  | .optional as, hl =>
    simp only [LowT] at hl
    obtain ⟨x, rhs, hx, _⟩ := hl
    rw [hu] at hx; cases hx

/-- Only names can keep the printed form of a grammar that was read from a text from being read. -/
theorem text_printable_iff {F : Format} {pg s g} (h : GrammarText F pg s) (hn : normalizeParsedGrammar pg = some g) :
    PrintableGrammar g ↔ ∀ n, NameOf g n → '>' ∉ n := by
  constructor
  · rintro ⟨_, hp⟩ n ⟨p, hm, hl | ⟨e, he, ht⟩⟩
    · obtain ⟨u, hu, hg⟩ := (hp p hm).1
      rw [hl] at hu
      injection hu with hu
      exact hu ▸ hg
    · exact ((hp p hm).2.2 e he).2 _ ht
  · intro hall
    obtain ⟨hne, hwf⟩ := text_wellFormed h hn
    refine ⟨hne, ?_⟩
    obtain ⟨D, _, hp⟩ := normalize_parts hn
    intro p hm
    obtain ⟨⟨u, hu⟩, hr, hes⟩ := hwf p hm
    refine ⟨⟨u, hu, hall u ⟨p, hm, .inl hu⟩⟩, hr, fun e he => ⟨hes e he, fun t ht => ?_⟩⟩
    cases t with
    | nonterminal n => exact hall n ⟨p, hm, .inr ⟨e, he, ht⟩⟩
    | terminal v =>
      rcases hp p hm with ⟨q, _, _, _, hf⟩ | ⟨k, _, as, _, _, hf⟩
      · exact text_literals h (hf e he) ht rfl
      · rcases hf e he with hf | rfl
        · exact text_literals h hf ht rfl
        · rcases List.mem_singleton.mp ht with h
          injection h with h
          subst h
          exact .inl (by simp)

/-- The names of the grammar are those of the text and generated ones. -/
theorem names_of_text {pg g} (hn : normalizeParsedGrammar pg = some g) :
    (∀ n, NameOf g n → '>' ∉ n) ↔ ∀ n, UsedIn n pg ∨ DeclaredIn n pg → '>' ∉ n := by
  obtain ⟨user, anon, h1, h2, h3, h4, h5⟩ := normalize_spec hn
  constructor
  · rintro hall n (hu | ⟨q, hq, hl⟩)
    · obtain ⟨lhs, e, ⟨p, hp, _, he⟩, ht⟩ := (normalize_references hn n).1 hu
      exact hall n ⟨p, hp, .inr ⟨e, he, ht⟩⟩
    · obtain ⟨p, hp, hl', _⟩ := forall₂_mem_left h2 q hq
      exact hall n ⟨p, by rw [h1]; exact List.mem_append_left _ hp, .inl (by rw [hl', hl])⟩
  · rintro hall n ⟨p, hp, hl | ⟨e, he, ht⟩⟩
    · rw [h1] at hp
      rcases List.mem_append.mp hp with hp | hp
      · obtain ⟨q, hq, hl', _⟩ := forall₂_mem_right h2 p hp
        rw [hl'] at hl
        injection hl with hl
        exact hall n (.inr ⟨q, hq, hl⟩)
      · obtain ⟨x, k, hx, _, hk⟩ := h4 p hp
        rw [hx] at hl
        injection hl with hl
        rw [← hl, hk]
        exact anonName_no_gt k
    · rcases (normalize_references hn n).2 ⟨p.lhs, e, ⟨p, hp, rfl, he⟩, ht⟩ with hu | ⟨_, ⟨k, hk⟩, _⟩
      · exact hall n (.inl hu)
      · rw [hk]; exact anonName_no_gt k

/-! ## ABNF texts -/

section
variable {f : Char → Bool}

/-- The text begins with a whitespace character. -/
def Spaced (r : Str) : Prop := ∃ c cs, r = c :: cs ∧ isWhitespace c = true

theorem abnf_name {u r : Str} (h : PlainName f u) (hr : Spaced r) : Name (ABNF f) u (u ++ r) r := by
  obtain ⟨c, cs, rfl, hc⟩ := hr
  exact ⟨rfl, h.1, h.2, .inr ⟨c, cs, rfl, .inl hc⟩⟩

theorem abnf_term {t : Term} (h : Writable f t) {r r'} (hr : Spaced r) (hl : Layout r r') :
    Syn (ABNF f) (.term (.simple t)) (abnfTerm t ++ r) r' := by
  cases t with
  | terminal u =>
    refine .terminal (s' := r) ?_ hl
    simp only [abnfTerm]
    split
    · rename_i hc
      have hc' : '\'' ∈ u := by simpa using hc
      have : '"' ∉ u := by
        rcases h with h | h
        · exact h
        · exact absurd hc' h
      exact ⟨'"', .inl rfl, this, by simp⟩
    · rename_i hc
      have hc' : '\'' ∉ u := by simpa using hc
      exact ⟨'\'', .inr rfl, hc', by simp⟩
  | nonterminal u => exact .nonterminal (s' := r) (abnf_name h hr) hl

theorem spaced_space {s : Str} : Spaced (' ' :: s) := ⟨_, _, rfl, by decide⟩
theorem spaced_newline {s : Str} : Spaced ('\n' :: s) := ⟨_, _, rfl, by decide⟩

theorem abnf_terms : ∀ {ts : List Term}, ts ≠ [] → (∀ t ∈ ts, Writable f t) → ∀ {r r' : Str}, Spaced r → Layout r r' →
    Syn (ABNF f) (.terms (ts.map .simple)) (sepBy [' '] (ts.map abnfTerm) ++ r) r'
  | [], h, _, _, _, _, _ => absurd rfl h
  | [t], _, h, r, r', hr, hl => .one (abnf_term (h t (by simp)) hr hl)
  | t :: t' :: ts, _, h, r, r', hr, hl => by
    have ih := abnf_terms (ts := t' :: ts) (by simp) (fun x hx => h x (List.mem_cons_of_mem _ hx)) hr hl
    have h1 := abnf_term (h t (by simp)) spaced_space
      (layout_space (s := sepBy [' '] ((t' :: ts).map abnfTerm) ++ r))
    have := Syn.more h1 ih
    simpa [sepBy] using this

theorem abnf_alts : ∀ {es : List Expression}, es ≠ [] → (∀ e ∈ es, e.terms ≠ [] ∧ ∀ t ∈ e.terms, Writable f t) →
    ∀ {r r' : Str}, Spaced r → Layout r r' → Syn (ABNF f) (.alts (es.map toParsedExpr))
      (sepBy [' ', '/', ' '] (es.map fun e => sepBy [' '] (e.terms.map abnfTerm)) ++ r) r'
  | [], h, _, _, _, _, _ => absurd rfl h
  | [e], _, h, r, r', hr, hl => .lastAlt (abnf_terms (h e (by simp)).1 (h e (by simp)).2 hr hl)
  | e :: e' :: es, _, h, r, r', hr, hl => by
    have ih := abnf_alts (es := e' :: es) (by simp) (fun x hx => h x (List.mem_cons_of_mem _ hx)) hr hl
    have h1 := abnf_terms (h e (by simp)).1 (h e (by simp)).2 spaced_space
      (layout_space (s := '/' :: ' ' :: (sepBy [' ', '/', ' '] ((e' :: es).map fun e => sepBy [' '] (e.terms.map abnfTerm)) ++ r)))
    have := Syn.nextAlt (F := ABNF f) h1 layout_space ih
    simpa [sepBy, toParsedExpr] using this

theorem abnf_production {u : Str} {es : List Expression} (h : WritableProduction f ⟨.nonterminal u, es⟩) {r} :
    Prod (ABNF f) (toParsedProd u es) (abnfProduction ⟨.nonterminal u, es⟩ ++ r) r := by
  obtain ⟨⟨v, hv, hg⟩, hne, he⟩ := h
  injection hv with hv
  subst hv
  refine ⟨sepBy [' ', '/', ' '] (es.map fun e => sepBy [' '] (e.terms.map abnfTerm)) ++ '\n' :: r, ?_,
    abnf_alts hne he spaced_newline layout_newline⟩
  refine ⟨_, _, _, ?_, layout_space, .inl rfl, layout_space⟩
  have := abnf_name hg (spaced_space (s := '=' :: ' ' :: (sepBy [' ', '/', ' '] (es.map fun e => sepBy [' '] (e.terms.map abnfTerm)) ++ '\n' :: r)))
  simpa [abnfProduction, abnfTerm, ABNF, toParsedProd] using this

theorem abnf_prods : ∀ {ps : List Production}, ps ≠ [] → (∀ p ∈ ps, WritableProduction f p) →
    Prods (ABNF f) (toParsed ps) (ps.map abnfProduction).flatten []
  | [], h, _ => absurd rfl h
  | [⟨l, es⟩], _, h => by
    have hp := h _ (List.mem_cons_self ..)
    obtain ⟨v, hv, hg⟩ := hp.1
    simp only at hv
    subst hv
    simpa [toParsed] using Prods.one (abnf_production (r := []) hp)
  | ⟨l, es⟩ :: t' :: ts, _, h => by
    have ih := abnf_prods (ps := t' :: ts) (by simp) (fun x hx => h x (List.mem_cons_of_mem _ hx))
    have hp := h _ (List.mem_cons_self ..)
    obtain ⟨v, hv, hg⟩ := hp.1
    simp only at hv
    subst hv
    have := Prods.more (abnf_production (r := ((t' :: ts).map abnfProduction).flatten) hp) ih
    simpa [toParsed] using this

theorem abnf_grammar {g : Grammar} (h : WritableGrammar f g) : GrammarText (ABNF f) (toParsed g.productions) (abnfText g) :=
  ⟨_, .nil, abnf_prods h.1 h.2⟩

theorem toParsed_mem : ∀ {ps : List Production} {u es}, (⟨.nonterminal u, es⟩ : Production) ∈ ps → toParsedProd u es ∈ toParsed ps
  | p :: ps, u, es, h => by
    rcases List.mem_cons.mp h with rfl | h
    · simp [toParsed]
    · simp only [toParsed]
      exact List.mem_cons_of_mem _ (toParsed_mem h)

theorem writable_of_text {g : Grammar} (hl : ∀ p ∈ g.productions, ∃ u, p.lhs = .nonterminal u) {s}
    (h : GrammarText (ABNF f) (toParsed g.productions) s) : WritableGrammar f g := by
  have hn := normalize_plain hl
  obtain ⟨hne, hwf⟩ := text_wellFormed h hn
  refine ⟨hne, fun p hp => ?_⟩
  obtain ⟨⟨u, hu⟩, hr, hes⟩ := hwf p hp
  obtain ⟨l, es⟩ := p
  simp only at hu hr hes
  subst hu
  have hmem : toParsedProd u es ∈ toParsed g.productions := toParsed_mem hp
  refine ⟨⟨u, rfl, ?_⟩, hr, fun e he => ⟨hes e he, fun t ht => ?_⟩⟩
  · obtain ⟨s1, _, h2⟩ := h
    obtain ⟨s, r, s3, ⟨s4, s5, s6, hname, _⟩, _⟩ := prods_mem h2 _ hmem
    exact ⟨hname.2.1, hname.2.2.1⟩
  · have hw : PartOf (.term (.simple t)) (toParsed g.productions) :=
      ⟨_, hmem, .alts (List.mem_map.mpr ⟨e, he, rfl⟩) (.terms (List.mem_map.mpr ⟨t, ht, rfl⟩) .refl)⟩
    rcases text_simple h hw with ⟨v, s, r, rfl, h⟩ | ⟨v, s, r, rfl, h⟩
    · exact quoted_printable h
    · exact ⟨h.2.1, h.2.2.1⟩

end

end Bnf
