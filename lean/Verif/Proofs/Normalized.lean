import Verif.Proofs.Reprint
import Verif.Spec.Normalized

/-! # The printed form of a grammar that was read from a text (for C127) -/

set_option autoImplicit false

namespace Bnf
open Spec Nom

/-! ## Characters of printed grammars -/

theorem mem_join {c : Char} {sep : Str} : ∀ {l : List Str}, c ∈ join sep l → c ∈ sep ∨ ∃ x ∈ l, c ∈ x
  | [], h => by cases h
  | [x], h => .inr ⟨x, List.mem_cons_self .., h⟩
  | x :: y :: l, h => by
    rw [join, List.mem_append, List.mem_append] at h
    rcases h with (h | h) | h
    · exact .inr ⟨x, List.mem_cons_self .., h⟩
    · exact .inl h
    · exact (mem_join h).imp_right fun ⟨z, hz, hc⟩ => ⟨z, List.mem_cons_of_mem _ hz, hc⟩

theorem infix_join {sep : Str} : ∀ {l : List Str} {x : Str}, x ∈ l → x <:+: join sep l
  | [x], y, h => by rw [List.mem_singleton.mp h]; exact List.infix_refl _
  | x :: y :: l, z, h => by
    rw [join]
    rcases List.mem_cons.mp h with rfl | h
    · exact ⟨[], sep ++ join sep (y :: l), by simp⟩
    · obtain ⟨a, b, hab⟩ := infix_join (sep := sep) h
      exact ⟨x ++ sep ++ a, b, by rw [← hab]; simp⟩

/-- The word of a term. -/
def wordOf : Term → Str
  | .terminal u => u
  | .nonterminal u => u

theorem mem_displayTerm {c : Char} {t : Term} (h : c ∈ t.display) : c ∈ punctuation ∨ c ∈ wordOf t := by
  cases t with
  | terminal u =>
    simp only [Term.display] at h
    split at h <;>
    · simp only [List.mem_append, List.mem_singleton] at h
      rcases h with (rfl | h) | rfl
      · exact .inl (by simp [punctuation])
      · exact .inr h
      · exact .inl (by simp [punctuation])
  | nonterminal u =>
    simp only [Term.display, List.mem_append, List.mem_singleton] at h
    rcases h with (rfl | h) | rfl
    · exact .inl (by simp [punctuation])
    · exact .inr h
    · exact .inl (by simp [punctuation])

theorem infix_displayTerm (t : Term) : wordOf t <:+: t.display := by
  cases t with
  | terminal u =>
    simp only [Term.display]
    split
    · exact ⟨['"'], ['"'], rfl⟩
    · exact ⟨['\''], ['\''], rfl⟩
  | nonterminal u => exact ⟨['<'], ['>'], rfl⟩

/-- The term is a left-hand side or in an alternative. -/
def TermOf (g : Grammar) (t : Term) : Prop := ∃ p ∈ g.productions, p.lhs = t ∨ ∃ e ∈ p.rhs, t ∈ e.terms

theorem mem_display {c : Char} {g : Grammar} (h : c ∈ g.display) : c ∈ punctuation ∨ ∃ t, TermOf g t ∧ c ∈ wordOf t := by
  unfold Grammar.display at h
  rw [List.mem_append, List.mem_singleton] at h
  rcases h with h | rfl
  · rcases mem_join h with h | ⟨x, hx, hc⟩
    · rw [List.mem_singleton.mp h]; exact .inl (by simp [punctuation])
    obtain ⟨p, hp, rfl⟩ := List.mem_map.mp hx
    unfold Production.display at hc
    rw [List.mem_append, List.mem_append] at hc
    rcases hc with (hc | hc) | hc
    · exact (mem_displayTerm hc).imp_right fun hc => ⟨p.lhs, ⟨p, hp, .inl rfl⟩, hc⟩
    · left
      simp only [List.mem_cons, List.not_mem_nil, or_false] at hc
      rcases hc with rfl | rfl | rfl | rfl | rfl <;> simp [punctuation]
    · rcases mem_join hc with hc | ⟨y, hy, hc⟩
      · left
        simp only [List.mem_cons, List.not_mem_nil, or_false] at hc
        rcases hc with rfl | rfl | rfl <;> simp [punctuation]
      · obtain ⟨e, he, rfl⟩ := List.mem_map.mp hy
        unfold Expression.display at hc
        rcases mem_join hc with hc | ⟨z, hz, hc⟩
        · rw [List.mem_singleton.mp hc]; exact .inl (by simp [punctuation])
        · obtain ⟨t, ht, rfl⟩ := List.mem_map.mp hz
          exact (mem_displayTerm hc).imp_right fun hc => ⟨t, ⟨p, hp, .inr ⟨e, he, ht⟩⟩, hc⟩
  · exact .inl (by simp [punctuation])

theorem infix_display {g : Grammar} {t : Term} (h : TermOf g t) : wordOf t <:+: g.display := by
  obtain ⟨p, hp, ht⟩ := h
  have h1 : p.display <:+: g.display := by
    unfold Grammar.display
    exact (infix_join (List.mem_map_of_mem hp)).trans ⟨[], ['\n'], rfl⟩
  refine List.IsInfix.trans ?_ h1
  unfold Production.display
  rcases ht with rfl | ⟨e, he, ht⟩
  · exact (infix_displayTerm _).trans ⟨[], [' ', ':', ':', '=', ' '] ++ join [' ', '|', ' '] (p.rhs.map Expression.display), by simp⟩
  · have h2 : t.display <:+: e.display := infix_join (List.mem_map_of_mem ht)
    have h3 : e.display <:+: join [' ', '|', ' '] (p.rhs.map Expression.display) := infix_join (List.mem_map_of_mem he)
    exact (infix_displayTerm t).trans (h2.trans (h3.trans ⟨p.lhs.display ++ [' ', ':', ':', '=', ' '], [], by simp⟩))

/-! ## Words of the text and words of the grammar -/

section
variable {D : Str → List Expression → Prop}

/-- What containing a terminal means for the lowered form of an item. -/
def TextLow (D : Str → List Expression → Prop) (g : Grammar) (u : Str) : Item → Prop
  | .term t => ∀ t', LowT D t t' → t' = .terminal u ∨ TermOf g (.terminal u)
  | .terms ts => ∀ ts', LowTs D ts ts' → .terminal u ∈ ts' ∨ TermOf g (.terminal u)
  | .alts as => ∀ rhs, LowA D as rhs → (∃ e ∈ rhs, .terminal u ∈ e.terms) ∨ TermOf g (.terminal u)

theorem textLow_of_within {g : Grammar} (hD : ∀ x r, D x r → ⟨.nonterminal x, r⟩ ∈ g.productions) {u : Str} {i j : Item} (h : Within i j)
    (hi : i = .term (.simple (.terminal u))) : TextLow D g u j := by
  induction h with
  | refl =>
    subst hi
    intro t' ht
    simp only [LowT] at ht
    exact .inl ht
  | terms hm _ ih =>
    intro ts' hl
    obtain ⟨t', ht', hlt⟩ := lowTs_elem hl hm
    rcases ih t' hlt with rfl | h
    · exact .inl ht'
    · exact .inr h
  | alts hm _ ih =>
    intro rhs hl
    obtain ⟨e', he', hle⟩ := lowA_elem hl hm
    exact (ih _ hle).imp_left fun h => ⟨e', he', h⟩
  | group _ ih =>
    intro t' hl
    simp only [LowT] at hl
    obtain ⟨y, rhs, rfl, hd, ha⟩ := hl
    refine .inr ?_
    rcases ih rhs ha with ⟨e, he, hx⟩ | h
    · rw [if_neg (by intro h; rw [List.isEmpty_iff.mp h] at he; cases he)] at hd
      exact ⟨_, hD _ _ hd, .inr ⟨e, he, hx⟩⟩
    · exact h
  | optional _ ih =>
    intro t' hl
    simp only [LowT] at hl
    obtain ⟨y, rhs, rfl, hd, ha⟩ := hl
    refine .inr ?_
    rcases ih rhs ha with ⟨e, he, hx⟩ | h
    · exact ⟨_, hD _ _ hd, .inr ⟨e, List.mem_append_left _ he, hx⟩⟩
    · exact h

/-- What a bracket in an item means for its lowered form. -/
def HasDef (D : Str → List Expression → Prop) : Item → Prop
  | .term t => ∀ t', LowT D t t' → ∃ x r, D x r
  | .terms ts => ∀ ts', LowTs D ts ts' → ∃ x r, D x r
  | .alts as => ∀ rhs, LowA D as rhs → ∃ x r, D x r

theorem hasDef_of_within {as : List (List ParsedTerm)} {i j : Item} (h : Within i j) (hi : i = .term (.group as) ∨ i = .term (.optional as)) :
    HasDef D j := by
  induction h with
  | refl =>
    rcases hi with rfl | rfl <;>
    · intro t' hl
      simp only [LowT] at hl
      obtain ⟨y, rhs, _, hd, _⟩ := hl
      exact ⟨_, _, hd⟩
  | terms hm _ ih =>
    intro ts' hl
    obtain ⟨t', ht', hlt⟩ := lowTs_elem hl hm
    exact ih t' hlt
  | alts hm _ ih =>
    intro rhs hl
    obtain ⟨e', he', hle⟩ := lowA_elem hl hm
    exact ih _ hle
  | group _ ih =>
    intro t' hl
    simp only [LowT] at hl
    obtain ⟨y, rhs, rfl, hd, ha⟩ := hl
    exact ⟨_, _, hd⟩
  | optional _ ih =>
    intro t' hl
    simp only [LowT] at hl
    obtain ⟨y, rhs, rfl, hd, ha⟩ := hl
    exact ⟨_, _, hd⟩
end

theorem word_kept {pg g u} (hn : normalizeParsedGrammar pg = some g) (h : WordOf pg u) : ∃ t, TermOf g t ∧ wordOf t = u := by
  obtain ⟨user, anon, h1, h2, h3, h4, h5⟩ := normalize_spec hn
  rcases h with ⟨q, hq, hl⟩ | h | ⟨q, hq, hw⟩
  · obtain ⟨p, hp, hl', _⟩ := forall₂_mem_left h2 q hq
    exact ⟨p.lhs, ⟨p, by rw [h1]; exact List.mem_append_left _ hp, .inl rfl⟩, by rw [hl', hl]; rfl⟩
  · obtain ⟨lhs, e, ⟨p, hp, _, he⟩, ht⟩ := (normalize_references hn u).1 h
    exact ⟨.nonterminal u, ⟨p, hp, .inr ⟨e, he, ht⟩⟩, rfl⟩
  · obtain ⟨p, hp, _, hla⟩ := forall₂_mem_left h2 q hq
    have hD : ∀ x r, DefIn anon x r → ⟨.nonterminal x, r⟩ ∈ g.productions := fun x r h => by rw [h1]; exact List.mem_append_right _ h
    rcases textLow_of_within hD hw rfl p.rhs hla with ⟨e, he, ht⟩ | h
    · exact ⟨.terminal u, ⟨p, by rw [h1]; exact List.mem_append_left _ hp, .inr ⟨e, he, ht⟩⟩, rfl⟩
    · exact ⟨.terminal u, h, rfl⟩

theorem anon_bracketed {pg : ParsedGrammar} {anon : List Production} (h5 : ∀ p ∈ anon, ∃ q ∈ pg, Origin (DefIn anon) [p] (.alts q.rhs))
    {p : Production} (hp : p ∈ anon) : Bracketed pg := by
  obtain ⟨q, hq, ho⟩ := h5 p hp
  obtain ⟨as, _, _, ⟨h, _⟩ | ⟨h, _⟩⟩ := ho p (List.mem_singleton.mpr rfl)
  · exact ⟨as, .inl ⟨q, hq, h⟩⟩
  · exact ⟨as, .inr ⟨q, hq, h⟩⟩

theorem word_origin {pg g} (hn : normalizeParsedGrammar pg = some g) {t : Term} (h : TermOf g t) :
    WordOf pg (wordOf t) ∨ wordOf t = [] ∨ (Bracketed pg ∧ ∃ k, t = .nonterminal (anonName k)) := by
  obtain ⟨user, anon, h1, h2, h3, h4, h5⟩ := normalize_spec hn
  obtain ⟨p, hp, rfl | ⟨e, he, ht⟩⟩ := h
  · rw [h1] at hp
    rcases List.mem_append.mp hp with hp | hp
    · obtain ⟨q, hq, hl', _⟩ := forall₂_mem_right h2 p hp
      exact .inl (.inl ⟨q, hq, by rw [hl']; rfl⟩)
    · obtain ⟨x, k, hx, _, hk⟩ := h4 p hp
      exact .inr (.inr ⟨anon_bracketed h5 hp, k, by rw [hx, hk]⟩)
  · cases t with
    | nonterminal n =>
      rw [h1] at hp
      have hlow : ∀ {ts : List ParsedTerm} {ts' : List Term}, PartOf (.terms ts) pg → LowTs (DefIn anon) ts ts' → .nonterminal n ∈ ts' →
          WordOf pg n ∨ Bracketed pg ∧ ∃ k, Term.nonterminal n = .nonterminal (anonName k) := by
        rintro ts ts' ⟨q, hq, hw⟩ hl hm
        obtain ⟨t0, ht0, hl⟩ := lowTs_mem hl _ hm
        match t0, hl with
        | .simple t0, hl =>
          simp only [LowT] at hl
          subst hl
          exact .inl (.inr (.inl ⟨q, hq, Within.trans (.terms ht0 .refl) hw⟩))
        | .group as, hl =>
          simp only [LowT] at hl
          obtain ⟨x, rhs, hx, hd, _⟩ := hl
          obtain ⟨y, k, hy, _, hk⟩ := h4 _ hd
          injection hy with hy
          exact .inr ⟨anon_bracketed h5 hd, k, by rw [hx, hy, hk]⟩
        | .optional as, hl =>
          simp only [LowT] at hl
          obtain ⟨x, rhs, hx, hd, _⟩ := hl
          obtain ⟨y, k, hy, _, hk⟩ := h4 _ hd
          injection hy with hy
          exact .inr ⟨anon_bracketed h5 hd, k, by rw [hx, hy, hk]⟩
      have hA : ∀ {as : List (List ParsedTerm)} {rhs : List Expression}, PartOf (.alts as) pg → LowA (DefIn anon) as rhs → e ∈ rhs →
          WordOf pg n ∨ Bracketed pg ∧ ∃ k, Term.nonterminal n = .nonterminal (anonName k) := by
        intro as rhs hpa hl hm
        obtain ⟨e0, hp0, hl0⟩ := lowA_fromText hpa hl e hm
        exact hlow hp0 hl0 ht
      rcases List.mem_append.mp hp with hp | hp
      · obtain ⟨q, hq, _, hla⟩ := forall₂_mem_right h2 p hp
        exact (hA ⟨q, hq, .refl⟩ hla he).imp_right .inr
      · obtain ⟨q, hq, ho⟩ := h5 p hp
        obtain ⟨as, rhs, hla, ⟨hw, hr⟩ | ⟨hw, hr⟩⟩ := ho p (List.mem_singleton.mpr rfl)
        · rw [hr] at he
          split at he
          · rw [List.mem_singleton.mp he] at ht
            rcases List.mem_singleton.mp ht with h
            cases h
          · exact (hA ⟨q, hq, Within.trans (.group .refl) hw⟩ hla he).imp_right .inr
        · rw [hr] at he
          rcases List.mem_append.mp he with he | he
          · exact (hA ⟨q, hq, Within.trans (.optional .refl) hw⟩ hla he).imp_right .inr
          · rw [List.mem_singleton.mp he] at ht
            rcases List.mem_singleton.mp ht with h
            cases h
    | terminal u =>
      obtain ⟨D, _, hparts⟩ := normalize_parts hn
      have hf : ∀ {e : Expression}, FromText pg D e → .terminal u ∈ e.terms → WordOf pg u := by
        rintro e ⟨e0, ⟨q, hq, hw⟩, hl⟩ hm
        obtain ⟨t0, ht0, hl⟩ := lowTs_mem hl _ hm
        match t0, hl with
        | .simple t0, hl =>
          simp only [LowT] at hl
          subst hl
          exact .inr (.inr ⟨q, hq, Within.trans (.terms ht0 .refl) hw⟩)
        | .group as, hl =>
          simp only [LowT] at hl
          obtain ⟨x, rhs, hx, _⟩ := hl
          cases hx
        | .optional as, hl =>
          simp only [LowT] at hl
          obtain ⟨x, rhs, hx, _⟩ := hl
          cases hx
      rcases hparts p hp with ⟨q, _, _, _, h⟩ | ⟨k, _, as, _, _, h⟩
      · exact .inl (hf (h e he) ht)
      · rcases h e he with h | rfl
        · exact .inl (hf h ht)
        · rcases List.mem_singleton.mp ht with h
          injection h with h
          exact .inr (.inl h)

theorem bracket_name {pg g} (hn : normalizeParsedGrammar pg = some g) (h : Bracketed pg) : ∃ k, TermOf g (.nonterminal (anonName k)) := by
  obtain ⟨user, anon, h1, h2, h3, h4, h5⟩ := normalize_spec hn
  obtain ⟨as, h⟩ := h
  have : ∃ x r, DefIn anon x r := by
    rcases h with ⟨q, hq, hw⟩ | ⟨q, hq, hw⟩
    · obtain ⟨p, hp, _, hla⟩ := forall₂_mem_left h2 q hq
      exact hasDef_of_within hw (.inl rfl) p.rhs hla
    · obtain ⟨p, hp, _, hla⟩ := forall₂_mem_left h2 q hq
      exact hasDef_of_within hw (.inr rfl) p.rhs hla
  obtain ⟨x, r, hd⟩ := this
  obtain ⟨y, k, hy, _, hk⟩ := h4 _ hd
  injection hy with hy
  exact ⟨k, _, by rw [h1]; exact List.mem_append_right _ hd, .inl (by rw [hy, hk])⟩

theorem anonName_mem {k : Nat} {c : Char} (h : c ∈ anonName k) : c ∈ ['_', '_', 'a', 'n', 'o', 'n'] ∨ c.isDigit = true := by
  unfold anonName decimal at h
  exact (List.mem_append.mp h).imp_right fun h => Nat.isDigit_of_mem_toDigits (by omega) (by omega) h

/-! ## One reading -/

theorem text_unique {F : Format} (hF : F.Regular) {pg pg' s} (h : GrammarText F pg s) (h' : GrammarText F pg' s) : pg = pg' := by
  have h1 := parsedGrammarComplete_complete hF h (n := s.length + 1) (by omega)
  rw [parsedGrammarComplete_complete hF h' (n := s.length + 1) (by omega)] at h1
  injection h1 with _ h1
  exact h1.symm

theorem toParsed_not_bracketed : ∀ ps : List Production, ¬ Bracketed (toParsed ps) := by
  rintro ps ⟨as, h⟩
  have key : ∀ i, (i = .term (.group as) ∨ i = .term (.optional as)) → ¬ PartOf i (toParsed ps) := by
    rintro i hi ⟨q, hq, hw⟩
    have : ∃ es : List Expression, q.rhs = es.map toParsedExpr := by
      clear hw h
      induction ps with
      | nil => cases hq
      | cons p ps ih =>
        rw [toParsed] at hq
        rcases List.mem_cons.mp hq with rfl | hq
        · exact ⟨p.rhs, rfl⟩
        · exact ih hq
    obtain ⟨es, he⟩ := this
    rw [he] at hw
    rcases hi with rfl | rfl <;>
    · cases hw with
      | alts h1 h2 =>
        obtain ⟨e, _, rfl⟩ := List.mem_map.mp h1
        cases h2 with
        | terms h3 h4 =>
          obtain ⟨t, _, rfl⟩ := List.mem_map.mp h3
          cases h4
  rcases h with h | h
  · exact key _ (.inl rfl) h
  · exact key _ (.inr rfl) h

end Bnf
