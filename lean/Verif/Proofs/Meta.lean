import Verif.Spec.Meta
import Verif.Proofs.TextMain
import Verif.Spec.Derivation

/-! # Sentences of the grammar for grammars -/

set_option autoImplicit false

namespace Bnf
open Spec

/-! ## Induction over derivations -/

/-- `w` is spelled by the terms, with `P` for the parts of nonterminals. -/
inductive Meets (P : Str → Str → Prop) : List Term → Str → Prop
  | nil : Meets P [] []
  | terminal {u ts w} : Meets P ts w → Meets P (.terminal u :: ts) (u ++ w)
  | nonterminal {n v ts w} : P n v → Meets P ts w → Meets P (.nonterminal n :: ts) (v ++ w)

theorem meets_forest {g : Grammar} {P : Str → Str → Prop}
    (h : ∀ n e w, HasAlt g (.nonterminal n) e → Meets P e.terms w → P n w) {ts ns} (hf : IsForest g ts ns) : Meets P ts (yield ns) := by
  induction hf with
  | nil => exact .nil
  | terminal _ ih => simpa [yield, nodeYield] using Meets.terminal ih
  | nonterminal ha _ _ ih1 ih2 => simpa [yield, nodeYield] using Meets.nonterminal (h _ _ _ ha ih1) ih2

theorem derives_induction {g : Grammar} {P : Str → Str → Prop}
    (h : ∀ n e w, HasAlt g (.nonterminal n) e → Meets P e.terms w → P n w) {n w} (hd : Derives g (.nonterminal n) w) : P n w := by
  obtain ⟨t, h1, ⟨e, h2, h3⟩, h4⟩ := hd
  rw [h1] at h2
  rw [← h4]
  exact h _ _ _ h2 (meets_forest h h3)

theorem Meets.nil_iff {P w} : Meets P [] w ↔ w = [] := by
  constructor
  · intro h; cases h; rfl
  · rintro rfl; exact .nil

theorem Meets.terminal_iff {P u ts w} : Meets P (.terminal u :: ts) w ↔ ∃ v, w = u ++ v ∧ Meets P ts v := by
  constructor
  · intro h; cases h with | terminal h => exact ⟨_, rfl, h⟩
  · rintro ⟨v, rfl, h⟩; exact .terminal h

theorem Meets.nonterminal_iff {P n ts w} : Meets P (.nonterminal n :: ts) w ↔ ∃ v v', w = v ++ v' ∧ P n v ∧ Meets P ts v' := by
  constructor
  · intro h; cases h with | nonterminal h1 h2 => exact ⟨_, _, rfl, h1, h2⟩
  · rintro ⟨v, v', rfl, h1, h2⟩; exact .nonterminal h1 h2

/-! ## What the nonterminals of the grammar for grammars stand for -/

/-- Texts without `>` or quotes. -/
def Plain (w : Str) : Prop := '>' ∉ w ∧ '"' ∉ w ∧ '\'' ∉ w

/-- One or more rules. -/
def IsSyntax (w : Str) : Prop := ∃ w1 pg, Layout w w1 ∧ Prods BNF pg w1 []
def IsRule (w : Str) : Prop := ∃ w1, (∀ r, Layout (w ++ r) (w1 ++ r)) ∧ ∀ r r', Layout r r' → ∃ p, Prod BNF p (w1 ++ r) r'
def IsExpression (w : Str) : Prop := ∀ r r', Layout r r' → ∃ as, Syn BNF (.alts as) (w ++ r) r'
def IsList (w : Str) : Prop := ∀ r r', Layout r r' → ∃ ts, Syn BNF (.terms ts) (w ++ r) r'
def IsTerm (w : Str) : Prop := ∀ r r', Layout r r' → ∃ t, Syn BNF (.term t) (w ++ r) r'
def IsLiteral (w : Str) : Prop := ∃ u, ∀ r, Quoted u (w ++ r) r
def IsBlank (w : Str) : Prop := ∀ r r', Layout r r' → Layout (w ++ r) r'

/-- What each of the names stands for. -/
def metaP (n w : Str) : Prop :=
  if n = nSyntax then IsSyntax w else if n = nRule then IsRule w else if n = nOptWhitespace then IsBlank w
  else if n = nExpression then IsExpression w else if n = nLineEnd then IsBlank w else if n = nList then IsList w
  else if n = nTerm then IsTerm w else if n = nLiteral then IsLiteral w else if n = nText1 then '"' ∉ w
  else if n = nText2 then '\'' ∉ w else if n = nCharacter then '"' ∉ w ∧ '\'' ∉ w else if n = nLetter then Plain w
  else if n = nDigit then Plain w else if n = nSymbol then '"' ∉ w ∧ '\'' ∉ w else if n = nCharacter1 then '"' ∉ w
  else if n = nCharacter2 then '\'' ∉ w else if n = nRuleName then '>' ∉ w else if n = nRuleChar then '>' ∉ w
  else IsBlank w

theorem meta_layout_space (w : Str) : IsBlank w → ∀ r, Layout (w ++ r) r := fun h _ => h _ _ .nil

theorem blank_append {v w} (hv : IsBlank v) (hw : IsBlank w) : IsBlank (v ++ w) := by
  intro r r' h
  rw [List.append_assoc]
  exact hv _ _ (hw _ _ h)

theorem letters_plain : ∀ c ∈ letters, Plain [c] := by
  have : ∀ c ∈ letters, c ≠ '>' ∧ c ≠ '"' ∧ c ≠ '\'' := by decide
  intro c hc
  obtain ⟨a, b, d⟩ := this c hc
  exact ⟨by simpa using a.symm, by simpa using b.symm, by simpa using d.symm⟩

theorem digits_plain : ∀ c ∈ digits, Plain [c] := by
  have : ∀ c ∈ digits, c ≠ '>' ∧ c ≠ '"' ∧ c ≠ '\'' := by decide
  intro c hc
  obtain ⟨a, b, d⟩ := this c hc
  exact ⟨by simpa using a.symm, by simpa using b.symm, by simpa using d.symm⟩

theorem symbols_plain : ∀ u ∈ symbolTexts, '"' ∉ u ∧ '\'' ∉ u := by decide

theorem hasAlt_meta {n e} (h : HasAlt metaGrammar (.nonterminal n) e) : ∃ p ∈ metaGrammar.productions, p.lhs = .nonterminal n ∧ e ∈ p.rhs := h

theorem metaP_closed (n : Str) (e : Expression) (w : Str) (ha : HasAlt metaGrammar (.nonterminal n) e) (hm : Meets metaP e.terms w) : metaP n w := by
  obtain ⟨p, hp, hl, he⟩ := hasAlt_meta ha
  simp only [metaGrammar, List.mem_cons, List.not_mem_nil, or_false] at hp
  rcases hp with rfl | rfl | rfl | rfl | rfl | rfl | rfl | rfl | rfl | rfl | rfl | rfl | rfl | rfl | rfl | rfl | rfl | rfl | rfl <;>
    (injection hl with hl; subst hl; simp only [List.mem_cons, List.not_mem_nil, or_false] at he)
  · -- syntax
    show IsSyntax w
    rcases he with rfl | rfl <;> simp only [Meets.nonterminal_iff, Meets.nil_iff] at hm
    · obtain ⟨v, _, rfl, h, rfl⟩ := hm
      obtain ⟨w1, h1, h2⟩ : IsRule v := h
      obtain ⟨p, h3⟩ := h2 [] [] .nil
      rw [List.append_nil] at h3 ⊢
      exact ⟨w1, [p], by simpa using h1 [], .one h3⟩
    · obtain ⟨v, _, rfl, h, v2, _, rfl, h', rfl⟩ := hm
      obtain ⟨w1, h1, h2⟩ : IsRule v := h
      obtain ⟨w2, pg, h3, h4⟩ : IsSyntax v2 := h'
      obtain ⟨p, h5⟩ := h2 _ _ h3
      rw [List.append_nil]
      exact ⟨w1 ++ v2, p :: pg, h1 v2, .more h5 h4⟩
  · -- rule
    show IsRule w
    subst he
    simp only [Meets.nonterminal_iff, Meets.terminal_iff, Meets.nil_iff] at hm
    obtain ⟨b1, _, rfl, h1, _, rfl, u, _, rfl, h2, _, rfl, b2, _, rfl, h3, _, rfl, b3, _, rfl, h4, x, _, rfl, h5, l, _, rfl, h6, rfl⟩ := hm
    replace h1 : IsBlank b1 := h1
    replace h2 : '>' ∉ u := h2
    replace h3 : IsBlank b2 := h3
    replace h4 : IsBlank b3 := h4
    replace h5 : IsExpression x := h5
    replace h6 : IsBlank l := h6
    refine ⟨['<'] ++ (u ++ (['>'] ++ (b2 ++ ([':', ':', '='] ++ (b3 ++ (x ++ l)))))), fun r => ?_, fun r r' h => ?_⟩
    · simpa using meta_layout_space _ h1 (['<'] ++ (u ++ (['>'] ++ (b2 ++ ([':', ':', '='] ++ (b3 ++ (x ++ l)))))) ++ r)
    · obtain ⟨as, h7⟩ := h5 (l ++ r) r' (h6 _ _ h)
      refine ⟨⟨u, as⟩, x ++ (l ++ r), ?_, h7⟩
      refine ⟨b2 ++ ([':', ':', '='] ++ (b3 ++ (x ++ (l ++ r)))), b3 ++ (x ++ (l ++ r)), b3 ++ (x ++ (l ++ r)), ?_, ?_, .inl rfl, h4 _ _ .nil⟩
      · exact ⟨by simp, h2⟩
      · exact h3 _ _ .nil
  · -- opt-whitespace
    show IsBlank w
    rcases he with rfl | rfl <;> simp only [Meets.nonterminal_iff, Meets.terminal_iff, Meets.nil_iff] at hm
    · obtain ⟨_, rfl, rfl⟩ := hm
      exact fun r r' h => h
    · obtain ⟨_, rfl, v, _, rfl, h, rfl⟩ := hm
      replace h : IsBlank v := h
      intro r r' hr
      rw [List.append_nil]
      exact .space (by decide) (h _ _ hr)
  · -- expression
    show IsExpression w
    rcases he with rfl | rfl <;> simp only [Meets.nonterminal_iff, Meets.terminal_iff, Meets.nil_iff] at hm
    · obtain ⟨v, _, rfl, h, rfl⟩ := hm
      replace h : IsList v := h
      intro r r' hr
      rw [List.append_nil]
      obtain ⟨ts, h⟩ := h r r' hr
      exact ⟨[ts], .lastAlt h⟩
    · obtain ⟨v, _, rfl, h1, b1, _, rfl, h2, _, rfl, b2, _, rfl, h3, x, _, rfl, h4, rfl⟩ := hm
      replace h1 : IsList v := h1
      replace h2 : IsBlank b1 := h2
      replace h3 : IsBlank b2 := h3
      replace h4 : IsExpression x := h4
      intro r r' hr
      obtain ⟨as, h5⟩ := h4 r r' hr
      obtain ⟨ts, h6⟩ := h1 (b1 ++ '|' :: (b2 ++ (x ++ r))) ('|' :: (b2 ++ (x ++ r))) (h2 _ _ .nil)
      refine ⟨ts :: as, ?_⟩
      have : v ++ (b1 ++ (['|'] ++ (b2 ++ (x ++ [])))) ++ r = v ++ (b1 ++ '|' :: (b2 ++ (x ++ r))) := by simp
      rw [this]
      exact .nextAlt h6 (h3 _ _ .nil) h5
  · -- line-end
    show IsBlank w
    subst he
    simp only [Meets.nonterminal_iff, Meets.nil_iff] at hm
    obtain ⟨v, _, rfl, h1, v', _, rfl, h2, rfl⟩ := hm
    rw [List.append_nil]
    exact blank_append h1 h2
  · -- list
    show IsList w
    rcases he with rfl | rfl <;> simp only [Meets.nonterminal_iff, Meets.nil_iff] at hm
    · obtain ⟨v, _, rfl, h, rfl⟩ := hm
      replace h : IsTerm v := h
      intro r r' hr
      rw [List.append_nil]
      obtain ⟨t, h⟩ := h r r' hr
      exact ⟨[t], .one h⟩
    · obtain ⟨v, _, rfl, h1, b1, _, rfl, h2, x, _, rfl, h3, rfl⟩ := hm
      replace h1 : IsTerm v := h1
      replace h2 : IsBlank b1 := h2
      replace h3 : IsList x := h3
      intro r r' hr
      obtain ⟨ts, h4⟩ := h3 r r' hr
      obtain ⟨t, h5⟩ := h1 (b1 ++ (x ++ r)) (x ++ r) (h2 _ _ .nil)
      refine ⟨t :: ts, ?_⟩
      have : v ++ (b1 ++ (x ++ [])) ++ r = v ++ (b1 ++ (x ++ r)) := by simp
      rw [this]
      exact .more h5 h4
  · -- term
    show IsTerm w
    rcases he with rfl | rfl <;> simp only [Meets.nonterminal_iff, Meets.terminal_iff, Meets.nil_iff] at hm
    · obtain ⟨v, _, rfl, h, rfl⟩ := hm
      obtain ⟨u, h⟩ : IsLiteral v := h
      intro r r' hr
      rw [List.append_nil]
      exact ⟨_, .terminal (h r) hr⟩
    · obtain ⟨_, rfl, u, _, rfl, h, _, rfl, rfl⟩ := hm
      replace h : '>' ∉ u := h
      intro r r' hr
      exact ⟨_, .nonterminal (u := u) (s' := r) ⟨by simp, h⟩ hr⟩
  · -- literal
    show IsLiteral w
    rcases he with rfl | rfl <;> simp only [Meets.nonterminal_iff, Meets.terminal_iff, Meets.nil_iff] at hm
    · obtain ⟨_, rfl, u, _, rfl, h, _, rfl, rfl⟩ := hm
      exact ⟨u, fun r => ⟨'"', .inl rfl, h, by simp⟩⟩
    · obtain ⟨_, rfl, u, _, rfl, h, _, rfl, rfl⟩ := hm
      exact ⟨u, fun r => ⟨'\'', .inr rfl, h, by simp⟩⟩
  · -- text1
    show '"' ∉ w
    rcases he with rfl | rfl <;> simp only [Meets.nonterminal_iff, Meets.terminal_iff, Meets.nil_iff] at hm
    · obtain ⟨_, rfl, rfl⟩ := hm; simp
    · obtain ⟨u, _, rfl, h, v, _, rfl, h', rfl⟩ := hm
      replace h : '"' ∉ u := h
      replace h' : '"' ∉ v := h'
      simp [h, h']
  · -- text2
    show '\'' ∉ w
    rcases he with rfl | rfl <;> simp only [Meets.nonterminal_iff, Meets.terminal_iff, Meets.nil_iff] at hm
    · obtain ⟨_, rfl, rfl⟩ := hm; simp
    · obtain ⟨u, _, rfl, h, v, _, rfl, h', rfl⟩ := hm
      replace h : '\'' ∉ u := h
      replace h' : '\'' ∉ v := h'
      simp [h, h']
  · -- character
    show '"' ∉ w ∧ '\'' ∉ w
    rcases he with rfl | rfl | rfl <;> simp only [Meets.nonterminal_iff, Meets.nil_iff] at hm <;>
      obtain ⟨u, _, rfl, h, rfl⟩ := hm <;> rw [List.append_nil]
    · exact (show Plain u from h).2
    · exact (show Plain u from h).2
    · exact h
  · -- letter
    show Plain w
    simp only [List.mem_map] at he
    obtain ⟨c, hc, rfl⟩ := he
    simp only [Meets.terminal_iff, Meets.nil_iff] at hm
    obtain ⟨_, rfl, rfl⟩ := hm
    exact letters_plain c hc
  · -- digit
    show Plain w
    simp only [List.mem_map] at he
    obtain ⟨c, hc, rfl⟩ := he
    simp only [Meets.terminal_iff, Meets.nil_iff] at hm
    obtain ⟨_, rfl, rfl⟩ := hm
    exact digits_plain c hc
  · -- symbol
    show '"' ∉ w ∧ '\'' ∉ w
    simp only [List.mem_map] at he
    obtain ⟨u, hu, rfl⟩ := he
    simp only [Meets.terminal_iff, Meets.nil_iff] at hm
    obtain ⟨_, rfl, rfl⟩ := hm
    rw [List.append_nil]
    exact symbols_plain u hu
  · -- character1
    show '"' ∉ w
    rcases he with rfl | rfl <;> simp only [Meets.nonterminal_iff, Meets.terminal_iff, Meets.nil_iff] at hm
    · obtain ⟨u, _, rfl, h, rfl⟩ := hm
      rw [List.append_nil]
      exact (show '"' ∉ u ∧ '\'' ∉ u from h).1
    · obtain ⟨_, rfl, rfl⟩ := hm; decide
  · -- character2
    show '\'' ∉ w
    rcases he with rfl | rfl <;> simp only [Meets.nonterminal_iff, Meets.terminal_iff, Meets.nil_iff] at hm
    · obtain ⟨u, _, rfl, h, rfl⟩ := hm
      rw [List.append_nil]
      exact (show '"' ∉ u ∧ '\'' ∉ u from h).2
    · obtain ⟨_, rfl, rfl⟩ := hm; decide
  · -- rule-name
    show '>' ∉ w
    rcases he with rfl | rfl <;> simp only [Meets.nonterminal_iff, Meets.nil_iff] at hm
    · obtain ⟨u, _, rfl, h, rfl⟩ := hm
      rw [List.append_nil]
      exact (show Plain u from h).1
    · obtain ⟨u, _, rfl, h, v, _, rfl, h', rfl⟩ := hm
      replace h : '>' ∉ u := h
      replace h' : '>' ∉ v := h'
      simp [h, h']
  · -- rule-char
    show '>' ∉ w
    rcases he with rfl | rfl | rfl <;> simp only [Meets.nonterminal_iff, Meets.terminal_iff, Meets.nil_iff] at hm
    · obtain ⟨u, _, rfl, h, rfl⟩ := hm
      rw [List.append_nil]
      exact (show Plain u from h).1
    · obtain ⟨u, _, rfl, h, rfl⟩ := hm
      rw [List.append_nil]
      exact (show Plain u from h).1
    · obtain ⟨_, rfl, rfl⟩ := hm; decide
  · -- EOL
    show IsBlank w
    subst he
    simp only [Meets.terminal_iff, Meets.nil_iff] at hm
    obtain ⟨_, rfl, rfl⟩ := hm
    exact fun r r' h => .space (by decide) h

/-- Every sentence of the grammar for grammars is a grammar text. -/
theorem meta_text {w} (h : Derives metaGrammar (.nonterminal nSyntax) w) : ∃ pg, GrammarText BNF pg w := by
  obtain ⟨w1, pg, h1, h2⟩ : IsSyntax w := derives_induction metaP_closed h
  exact ⟨pg, w1, h1, h2⟩

/-! ## ABNF texts with another table of alphabetic characters -/

section
variable {f f' : Char → Bool}

theorem name_congr {u s r} (h : Name (ABNF f) u s r) (hf : ∀ c ∈ s, f c = f' c) : Name (ABNF f') u s r := by
  obtain ⟨rfl, ⟨c, cs, rfl, hc⟩, h2, h3⟩ := h
  exact ⟨rfl, ⟨c, cs, rfl, by rw [← hc]; exact (hf c (by simp)).symm⟩, h2, h3⟩

theorem mem_suffix {s r : Str} (h : ∃ v, s = v ++ r) (hf : ∀ c ∈ s, f c = f' c) : ∀ c ∈ r, f c = f' c := by
  obtain ⟨v, rfl⟩ := h
  exact fun c hc => hf c (List.mem_append_right _ hc)

theorem syn_congr {i s r} (h : Syn (ABNF f) i s r) : (∀ c ∈ s, f c = f' c) → Syn (ABNF f') i s r := by
  induction h with
  | terminal h1 h2 => exact fun _ => .terminal h1 h2
  | nonterminal h1 h2 => exact fun hf => .nonterminal (name_congr h1 hf) h2
  | group _ h2 ih => exact fun hf => .group (ih fun c hc => hf c (List.mem_cons_of_mem _ hc)) h2
  | optional _ h2 ih => exact fun hf => .optional (ih fun c hc => hf c (List.mem_cons_of_mem _ hc)) h2
  | one _ ih => exact fun hf => .one (ih hf)
  | more h1 _ ih1 ih2 => exact fun hf => .more (ih1 hf) (ih2 (mem_suffix h1.suffix.1 hf))
  | lastAlt _ ih => exact fun hf => .lastAlt (ih hf)
  | nextAlt h1 h2 _ ih1 ih2 =>
    exact fun hf => .nextAlt (ih1 hf) h2 (ih2 (mem_suffix h2.suffix
      (fun c hc => mem_suffix h1.suffix.1 hf c (List.mem_cons_of_mem _ hc))))

theorem prod_congr {p s r} (h : Prod (ABNF f) p s r) (hf : ∀ c ∈ s, f c = f' c) : Prod (ABNF f') p s r := by
  obtain ⟨s1, h1, h2⟩ := h
  have hf1 := mem_suffix h1.suffix.1 hf
  obtain ⟨a, b, c, h3, h4⟩ := h1
  exact ⟨s1, ⟨a, b, c, name_congr h3 hf, h4⟩, syn_congr h2 hf1⟩

theorem prods_congr {ps s r} (h : Prods (ABNF f) ps s r) : (∀ c ∈ s, f c = f' c) → Prods (ABNF f') ps s r := by
  induction h with
  | one h => exact fun hf => .one (prod_congr h hf)
  | more h _ ih => exact fun hf => .more (prod_congr h hf) (ih (mem_suffix h.suffix.1 hf))

theorem text_congr {pg s} (h : GrammarText (ABNF f) pg s) (hf : ∀ c ∈ s, f c = f' c) : GrammarText (ABNF f') pg s := by
  obtain ⟨s1, h1, h2⟩ := h
  exact ⟨s1, h1, prods_congr h2 (mem_suffix h1.suffix hf)⟩
end

/-! ## Deriving printed grammars -/

section
variable {g : Grammar}

/-- Composing derivations. -/
theorem derives_alt {n e w} (h : HasAlt g (.nonterminal n) e) (hm : Meets (fun n w => Derives g (.nonterminal n) w) e.terms w) :
    Derives g (.nonterminal n) w := by
  have : ∀ {ts w}, Meets (fun n w => Derives g (.nonterminal n) w) ts w → ∃ ns, IsForest g ts ns ∧ yield ns = w := by
    intro ts w hm
    induction hm with
    | nil => exact ⟨[], .nil, rfl⟩
    | @terminal u ts w _ ih =>
      obtain ⟨ns, h1, h2⟩ := ih
      exact ⟨.terminal u :: ns, .terminal h1, by simp [yield, nodeYield, h2]⟩
    | nonterminal hd _ ih =>
      obtain ⟨ns, h1, h2⟩ := ih
      obtain ⟨t, ht1, ⟨e, ht2, ht3⟩, ht4⟩ := hd
      rw [ht1] at ht2
      exact ⟨_ , .nonterminal ht2 ht3 h1, by simp [yield, nodeYield, h2, ht4]⟩
  obtain ⟨ns, h1, h2⟩ := this hm
  exact ⟨⟨.nonterminal n, ns⟩, rfl, ⟨e, h, h1⟩, h2⟩
end

/-- Derivations in the grammar for grammars. -/
abbrev MetaD (n w : Str) : Prop := Derives metaGrammar (.nonterminal n) w

theorem meta_alt {n w : Str} (i : Nat) {p : Production} (hp : metaGrammar.productions[i]? = some p) (hl : p.lhs = .nonterminal n) {ts : List Term}
    (he : ⟨ts⟩ ∈ p.rhs) (hm : Meets MetaD ts w) : MetaD n w :=
  derives_alt ⟨p, List.mem_of_getElem? hp, hl, he⟩ hm

theorem md_blank0 : MetaD nOptWhitespace [] := meta_alt 2 rfl rfl (ts := [.terminal []]) (by simp) (.terminal (u := []) .nil)
theorem md_blank1 : MetaD nOptWhitespace [' '] :=
  meta_alt 2 rfl rfl (ts := [.terminal [' '], .nonterminal nOptWhitespace]) (by simp) (.terminal (u := [' ']) (.nonterminal (v := []) md_blank0 .nil))

theorem md_letter {c} (h : c ∈ letters) : MetaD nLetter [c] :=
  meta_alt 11 rfl rfl (ts := [.terminal [c]]) (List.mem_map.mpr ⟨c, h, rfl⟩) (.terminal (u := [c]) .nil)
theorem md_digit {c} (h : c ∈ digits) : MetaD nDigit [c] :=
  meta_alt 12 rfl rfl (ts := [.terminal [c]]) (List.mem_map.mpr ⟨c, h, rfl⟩) (.terminal (u := [c]) .nil)
theorem md_symbol {u} (h : u ∈ symbolTexts) : MetaD nSymbol u := by
  have := meta_alt 13 rfl rfl (n := nSymbol) (ts := [.terminal u]) (List.mem_map.mpr ⟨u, h, rfl⟩) (.terminal (u := u) .nil)
  simpa using this

theorem md_one {n m w : Str} (i : Nat) {p : Production} (hp : metaGrammar.productions[i]? = some p) (hl : p.lhs = .nonterminal n)
    (he : ⟨[.nonterminal m]⟩ ∈ p.rhs) (h : MetaD m w) : MetaD n w := by
  have := meta_alt i hp hl he (.nonterminal h .nil)
  simpa using this

theorem md_ruleChar {c} (h : c ∈ letters ∨ c ∈ digits ∨ c = '-') : MetaD nRuleChar [c] := by
  rcases h with h | h | rfl
  · exact md_one 17 rfl rfl (by simp) (md_letter h)
  · exact md_one 17 rfl rfl (by simp) (md_digit h)
  · exact meta_alt 17 rfl rfl (ts := [.terminal ['-']]) (by simp) (.terminal (u := ['-']) .nil)

theorem md_ruleName {u} (h : SimpleName u) : MetaD nRuleName u := by
  obtain ⟨c, cs, rfl, hc, hcs⟩ := h
  induction cs using List.reverseRecOn with
  | nil => exact md_one 16 rfl rfl (by simp) (md_letter hc)
  | append_singleton cs d ih =>
    have h1 := ih fun d hd => hcs d (by simp [hd])
    have h2 := md_ruleChar (hcs d (by simp))
    have := meta_alt (n := nRuleName) 16 rfl rfl (ts := [.nonterminal nRuleName, .nonterminal nRuleChar]) (by simp)
      (.nonterminal h1 (.nonterminal h2 .nil))
    simpa using this

theorem md_character {p : Str} (h : (∃ c, p = [c] ∧ (c ∈ letters ∨ c ∈ digits)) ∨ p ∈ symbolTexts) : MetaD nCharacter p := by
  rcases h with ⟨c, rfl, h | h⟩ | h
  · exact md_one 10 rfl rfl (by simp) (md_letter h)
  · exact md_one 10 rfl rfl (by simp) (md_digit h)
  · exact md_one 10 rfl rfl (by simp) (md_symbol h)

theorem md_text {q : Char} {nt nc : Str} (h0 : MetaD nt []) (h1 : ∀ v w, MetaD nc v → MetaD nt w → MetaD nt (v ++ w))
    (h2 : ∀ w, MetaD nCharacter w → MetaD nc w) (h3 : MetaD nc [q]) {u} (h : SimpleText q u) : MetaD nt u := by
  obtain ⟨ps, rfl, hps⟩ := h
  induction ps with
  | nil => exact h0
  | cons p ps ih =>
    have h4 := ih fun p hp => hps p (List.mem_cons_of_mem _ hp)
    rw [List.flatten_cons]
    refine h1 _ _ ?_ h4
    rcases hps p (List.mem_cons_self ..) with ⟨c, rfl, h | h | rfl⟩ | h
    · exact h2 _ (md_character (.inl ⟨c, rfl, .inl h⟩))
    · exact h2 _ (md_character (.inl ⟨c, rfl, .inr h⟩))
    · exact h3
    · exact h2 _ (md_character (.inr h))

theorem md_text1 {u} (h : SimpleText '\'' u) : MetaD nText1 u :=
  md_text (nc := nCharacter1) (meta_alt 8 rfl rfl (ts := [.terminal []]) (by simp) (.terminal (u := []) .nil))
    (fun v w hv hw => by
      have := meta_alt (n := nText1) 8 rfl rfl (ts := [.nonterminal nCharacter1, .nonterminal nText1]) (by simp) (.nonterminal hv (.nonterminal hw .nil))
      simpa using this)
    (fun w hw => md_one 14 rfl rfl (by simp) hw)
    (meta_alt 14 rfl rfl (ts := [.terminal ['\'']]) (by simp) (.terminal (u := ['\'']) .nil)) h

theorem md_text2 {u} (h : SimpleText '"' u) : MetaD nText2 u :=
  md_text (nc := nCharacter2) (meta_alt 9 rfl rfl (ts := [.terminal []]) (by simp) (.terminal (u := []) .nil))
    (fun v w hv hw => by
      have := meta_alt (n := nText2) 9 rfl rfl (ts := [.nonterminal nCharacter2, .nonterminal nText2]) (by simp) (.nonterminal hv (.nonterminal hw .nil))
      simpa using this)
    (fun w hw => md_one 15 rfl rfl (by simp) hw)
    (meta_alt 15 rfl rfl (ts := [.terminal ['"']]) (by simp) (.terminal (u := ['"']) .nil)) h

theorem simpleText_swap {q q' : Char} {u} (h : SimpleText q u) (hq : q ∉ u) : SimpleText q' u := by
  obtain ⟨ps, rfl, hps⟩ := h
  refine ⟨ps, rfl, fun p hp => ?_⟩
  rcases hps p hp with ⟨c, rfl, h | h | rfl⟩ | h
  · exact .inl ⟨c, rfl, .inl h⟩
  · exact .inl ⟨c, rfl, .inr (.inl h)⟩
  · exact absurd (List.mem_flatten.mpr ⟨_, hp, by simp⟩) hq
  · exact .inr h

theorem simpleText_quote {q q' : Char} {u} (h : SimpleText q u) (hq : q' ≠ q) (hs : q' ∉ letters ∧ q' ∉ digits ∧ ∀ p ∈ symbolTexts, q' ∉ p) : q' ∉ u := by
  obtain ⟨ps, rfl, hps⟩ := h
  intro hm
  obtain ⟨p, hp, hm⟩ := List.mem_flatten.mp hm
  rcases hps p hp with ⟨c, rfl, h⟩ | h
  · simp only [List.mem_singleton] at hm
    subst hm
    rcases h with h | h | h
    · exact hs.1 h
    · exact hs.2.1 h
    · exact hq h
  · exact hs.2.2 p h hm

theorem md_term {t : Term} (h : SimpleTerm t) : MetaD nTerm t.display := by
  cases t with
  | nonterminal u =>
    have := meta_alt (n := nTerm) 6 rfl rfl (ts := [.terminal ['<'], .nonterminal nRuleName, .terminal ['>']]) (by simp)
      (.terminal (.nonterminal (md_ruleName h) (.terminal .nil)))
    simpa [Term.display] using this
  | terminal u =>
    have d : u.contains '\'' = true ↔ '\'' ∈ u := by simp
    simp only [Term.display]
    by_cases hq : '\'' ∈ u
    · rw [if_pos (d.mpr hq)]
      have h1 : SimpleText '\'' u := by
        rcases h with h | h
        · exact h
        · exact absurd hq (simpleText_quote h (by decide) (by decide))
      have := meta_alt (n := nLiteral) 7 rfl rfl (ts := [.terminal ['"'], .nonterminal nText1, .terminal ['"']]) (by simp)
        (.terminal (.nonterminal (md_text1 h1) (.terminal .nil)))
      exact md_one (m := nLiteral) 6 rfl rfl (by simp) (by simpa using this)
    · rw [if_neg (fun h => hq (d.mp h))]
      have h1 : SimpleText '"' u := by
        rcases h with h | h
        · exact simpleText_swap h hq
        · exact h
      have := meta_alt (n := nLiteral) 7 rfl rfl (ts := [.terminal ['\''], .nonterminal nText2, .terminal ['\'']]) (by simp)
        (.terminal (.nonterminal (md_text2 h1) (.terminal .nil)))
      exact md_one (m := nLiteral) 6 rfl rfl (by simp) (by simpa using this)

theorem md_list : ∀ {ts : List Term}, ts ≠ [] → (∀ t ∈ ts, SimpleTerm t) → MetaD nList (join [' '] (ts.map Term.display))
  | [], h, _ => absurd rfl h
  | [t], _, h => md_one 5 rfl rfl (by simp) (md_term (h t (by simp)))
  | t :: t' :: ts, _, h => by
    have h1 := md_term (h t (by simp))
    have h2 := md_list (ts := t' :: ts) (by simp) fun t ht => h t (List.mem_cons_of_mem _ ht)
    have := meta_alt (n := nList) 5 rfl rfl (ts := [.nonterminal nTerm, .nonterminal nOptWhitespace, .nonterminal nList]) (by simp)
      (.nonterminal h1 (.nonterminal md_blank1 (.nonterminal h2 .nil)))
    simpa [join] using this

theorem md_expression : ∀ {es : List Expression}, es ≠ [] → (∀ e ∈ es, e.terms ≠ [] ∧ ∀ t ∈ e.terms, SimpleTerm t) →
    MetaD nExpression (join [' ', '|', ' '] (es.map Expression.display))
  | [], h, _ => absurd rfl h
  | [e], _, h => md_one 3 rfl rfl (by simp) (md_list (h e (by simp)).1 (h e (by simp)).2)
  | e :: e' :: es, _, h => by
    have h1 := md_list (h e (by simp)).1 (h e (by simp)).2
    have h2 := md_expression (es := e' :: es) (by simp) fun t ht => h t (List.mem_cons_of_mem _ ht)
    have := meta_alt (n := nExpression) 3 rfl rfl (ts := [.nonterminal nList, .nonterminal nOptWhitespace, .terminal ['|'], .nonterminal nOptWhitespace,
      .nonterminal nExpression]) (by simp)
      (.nonterminal h1 (.nonterminal md_blank1 (.terminal (.nonterminal md_blank1 (.nonterminal h2 .nil)))))
    simpa [join, Expression.display] using this

theorem md_lineEnd : MetaD nLineEnd ['\n'] :=
  meta_alt 4 rfl rfl (ts := [.nonterminal nOptWhitespace, .nonterminal nEOL]) (by simp) (.nonterminal (v := []) md_blank0
    (.nonterminal (v := ['\n']) (meta_alt 18 rfl rfl (ts := [.terminal ['\n']]) (by simp) (.terminal (u := ['\n']) .nil)) .nil))

theorem md_rule {p : Production} (h : (∃ u, p.lhs = .nonterminal u ∧ SimpleName u) ∧ p.rhs ≠ [] ∧
    ∀ e ∈ p.rhs, e.terms ≠ [] ∧ ∀ t ∈ e.terms, SimpleTerm t) : MetaD nRule (p.display ++ ['\n']) := by
  obtain ⟨⟨u, h1, h2⟩, h3, h4⟩ := h
  have := meta_alt (n := nRule) 1 rfl rfl (ts := [.nonterminal nOptWhitespace, .terminal ['<'], .nonterminal nRuleName, .terminal ['>'],
    .nonterminal nOptWhitespace, .terminal [':', ':', '='], .nonterminal nOptWhitespace, .nonterminal nExpression, .nonterminal nLineEnd]) (by simp)
    (.nonterminal md_blank0 (.terminal (.nonterminal (md_ruleName h2) (.terminal (.nonterminal md_blank1 (.terminal (.nonterminal md_blank1
      (.nonterminal (md_expression h3 h4) (.nonterminal md_lineEnd .nil)))))))))
  simpa [Production.display, h1, Term.display] using this

theorem md_syntax : ∀ {ps : List Production}, ps ≠ [] → (∀ p ∈ ps, (∃ u, p.lhs = .nonterminal u ∧ SimpleName u) ∧ p.rhs ≠ [] ∧
    ∀ e ∈ p.rhs, e.terms ≠ [] ∧ ∀ t ∈ e.terms, SimpleTerm t) → MetaD nSyntax (join ['\n'] (ps.map Production.display) ++ ['\n'])
  | [], h, _ => absurd rfl h
  | [p], _, h => md_one (m := nRule) 0 rfl rfl (by simp) (by simpa [join] using md_rule (h p (by simp)))
  | p :: p' :: ps, _, h => by
    have h1 := md_rule (h p (by simp))
    have h2 := md_syntax (ps := p' :: ps) (by simp) fun t ht => h t (List.mem_cons_of_mem _ ht)
    have := meta_alt (n := nSyntax) 0 rfl rfl (ts := [.nonterminal nRule, .nonterminal nSyntax]) (by simp)
      (.nonterminal h1 (.nonterminal h2 .nil))
    simpa [join] using this

/-! ## Lines of sentences -/

/-- The names whose texts contain line breaks. -/
def breaking (n : Str) : Bool := n == nSyntax || n == nRule || n == nLineEnd || n == nEOL

/-- The text begins with a space or `<`. -/
def LineStart (w : Str) : Prop := ∃ v, w = ' ' :: v ∨ w = '<' :: v

def metaQ (n w : Str) : Prop :=
  if n = nSyntax then LineStart w ∧ ∀ a b, w = a ++ '\n' :: b → b = [] ∨ LineStart b
  else if n = nRule then ∃ v, w = v ++ ['\n'] ∧ '\n' ∉ v ∧ LineStart v
  else if n = nLineEnd then ∃ v, w = v ++ ['\n'] ∧ '\n' ∉ v
  else if n = nEOL then w = ['\n']
  else '\n' ∉ w ∧ (n = nOptWhitespace → w = [] ∨ LineStart w)

theorem metaQ_plain {n w} (h : metaQ n w) (hn : breaking n = false) : '\n' ∉ w := by
  simp only [breaking, Bool.or_eq_false_iff, beq_eq_false_iff_ne] at hn
  rw [metaQ, if_neg hn.1.1.1, if_neg hn.1.1.2, if_neg hn.1.2, if_neg hn.2] at h
  exact h.1

/-- Terms without line breaks. -/
def plainTerm : Term → Bool
  | .nonterminal n => !breaking n
  | .terminal u => !u.contains '\n'

theorem meets_plain {ts w} (h : Meets metaQ ts w) (ht : ∀ t ∈ ts, plainTerm t = true) : '\n' ∉ w := by
  induction h with
  | nil => simp
  | @terminal u ts w _ ih =>
    have h1 := ih fun t h => ht t (List.mem_cons_of_mem _ h)
    have h2 := ht _ (List.mem_cons_self ..)
    simp [plainTerm] at h2
    simp [h1, h2]
  | @nonterminal n v ts w hn _ ih =>
    have h1 := ih fun t h => ht t (List.mem_cons_of_mem _ h)
    have h2 := ht _ (List.mem_cons_self ..)
    simp only [plainTerm, Bool.not_eq_eq_eq_not, Bool.not_true] at h2
    simp [h1, metaQ_plain hn h2]

theorem meta_plain_alts : ∀ p ∈ metaGrammar.productions, (∃ q ∈ [nSyntax, nRule, nLineEnd, nEOL], p.lhs = .nonterminal q) ∨
    ∀ e ∈ p.rhs, ∀ t ∈ e.terms, plainTerm t = true := by decide +kernel

theorem metaQ_closed (n : Str) (e : Expression) (w : Str) (ha : HasAlt metaGrammar (.nonterminal n) e) (hm : Meets metaQ e.terms w) : metaQ n w := by
  obtain ⟨p, hp, hl, he⟩ := hasAlt_meta ha
  by_cases hb : breaking n = true
  · simp only [metaGrammar, List.mem_cons, List.not_mem_nil, or_false] at hp
    rcases hp with rfl | rfl | rfl | rfl | rfl | rfl | rfl | rfl | rfl | rfl | rfl | rfl | rfl | rfl | rfl | rfl | rfl | rfl | rfl <;>
      (injection hl with hl; subst hl; first | (exact absurd hb (by decide)) | simp only [List.mem_cons, List.not_mem_nil, or_false] at he)
    · -- syntax
      show LineStart w ∧ ∀ a b, w = a ++ '\n' :: b → b = [] ∨ LineStart b
      rcases he with rfl | rfl <;> simp only [Meets.nonterminal_iff, Meets.nil_iff] at hm
      · obtain ⟨x, _, rfl, h, rfl⟩ := hm
        obtain ⟨v, rfl, h1, y, h2⟩ : ∃ v, x = v ++ ['\n'] ∧ '\n' ∉ v ∧ LineStart v := h
        refine ⟨⟨y ++ ['\n'], by rcases h2 with rfl | rfl <;> simp⟩, fun a b hab => .inl ?_⟩
        rw [List.append_nil] at hab
        rcases List.append_eq_append_iff.mp hab with ⟨c, rfl, hc⟩ | ⟨c, rfl, hc⟩
        · cases c with
          | nil => simpa using hc.symm
          | cons x c => simp at hc
        · cases c with
          | nil => simpa using hc
          | cons x c => simp at hc; exact absurd hc.1 (by rintro rfl; simp at h1)
      · obtain ⟨x, _, rfl, h, x2, _, rfl, h', rfl⟩ := hm
        obtain ⟨v, rfl, h1, y, h2⟩ : ∃ v, x = v ++ ['\n'] ∧ '\n' ∉ v ∧ LineStart v := h
        obtain ⟨h3, h4⟩ : LineStart x2 ∧ ∀ a b, x2 = a ++ '\n' :: b → b = [] ∨ LineStart b := h'
        refine ⟨⟨y ++ '\n' :: x2, by rcases h2 with rfl | rfl <;> simp⟩, fun a b hab => ?_⟩
        have hab : v ++ '\n' :: x2 = a ++ '\n' :: b := by simpa using hab
        rcases List.append_eq_append_iff.mp hab with ⟨c, rfl, hc⟩ | ⟨c, rfl, hc⟩
        · cases c with
          | nil => simp at hc; exact .inr (hc ▸ h3)
          | cons z c => simp at hc; exact h4 c b hc.2
        · cases c with
          | nil => simp at hc; exact .inr (hc ▸ h3)
          | cons z c => simp at hc; exact absurd hc.1 (by rintro rfl; simp at h1)
    · -- rule
      show ∃ v, w = v ++ ['\n'] ∧ '\n' ∉ v ∧ LineStart v
      subst he
      simp only [Meets.nonterminal_iff, Meets.terminal_iff, Meets.nil_iff] at hm
      obtain ⟨b1, _, rfl, h1, _, rfl, u, _, rfl, h2, _, rfl, b2, _, rfl, h3, _, rfl, b3, _, rfl, h4, x, _, rfl, h5, l, _, rfl, h6, rfl⟩ := hm
      obtain ⟨v, rfl, h7⟩ : ∃ v, l = v ++ ['\n'] ∧ '\n' ∉ v := h6
      have e1 := metaQ_plain h1 rfl
      have e2 := metaQ_plain h2 rfl
      have e3 := metaQ_plain h3 rfl
      have e4 := metaQ_plain h4 rfl
      have e5 := metaQ_plain h5 rfl
      refine ⟨b1 ++ '<' :: (u ++ '>' :: (b2 ++ ':' :: ':' :: '=' :: (b3 ++ (x ++ v)))), by simp, by simp [e1, e2, e3, e4, e5, h7], ?_⟩
      rcases (show _ ∧ (nOptWhitespace = nOptWhitespace → b1 = [] ∨ LineStart b1) from h1).2 rfl with rfl | ⟨y, rfl | rfl⟩
      · exact ⟨_, .inr rfl⟩
      · exact ⟨_, .inl rfl⟩
      · exact ⟨_, .inr rfl⟩
    · -- line-end
      show ∃ v, w = v ++ ['\n'] ∧ '\n' ∉ v
      subst he
      simp only [Meets.nonterminal_iff, Meets.nil_iff] at hm
      obtain ⟨v, _, rfl, h1, v', _, rfl, h2, rfl⟩ := hm
      replace h2 : v' = ['\n'] := h2
      subst h2
      exact ⟨v, by simp, metaQ_plain h1 rfl⟩
    · -- EOL
      show w = ['\n']
      subst he
      simp only [Meets.terminal_iff, Meets.nil_iff] at hm
      obtain ⟨_, rfl, rfl⟩ := hm
      rfl
  · have hb' : breaking n = false := by simpa using hb
    have hn := hb'
    simp only [breaking, Bool.or_eq_false_iff, beq_eq_false_iff_ne] at hn
    rw [metaQ, if_neg hn.1.1.1, if_neg hn.1.1.2, if_neg hn.1.2, if_neg hn.2]
    constructor
    · rcases meta_plain_alts p hp with ⟨q, hq, hl'⟩ | h
      · rw [hl] at hl'
        cases hl'
        exfalso
        simp only [List.mem_cons, List.not_mem_nil, or_false] at hq
        rcases hq with rfl | rfl | rfl | rfl <;> exact hb rfl
      · exact meets_plain hm (h e he)
    · rintro rfl
      have h : ∀ p ∈ metaGrammar.productions, p.lhs = .nonterminal nOptWhitespace → ∀ e ∈ p.rhs, e = ⟨[.terminal []]⟩ ∨
        e = ⟨[.terminal [' '], .nonterminal nOptWhitespace]⟩ := by decide +kernel
      rcases h p hp hl e he with rfl | rfl <;> simp only [Meets.nonterminal_iff, Meets.terminal_iff, Meets.nil_iff] at hm
      · obtain ⟨_, rfl, rfl⟩ := hm
        exact .inl rfl
      · obtain ⟨_, rfl, _⟩ := hm
        exact .inr ⟨_, .inl rfl⟩

/-- Every line of a sentence of the grammar for grammars begins with a space or `<`. -/
theorem meta_lines {w} (h : Derives metaGrammar (.nonterminal nSyntax) w) : LineStart w ∧ ∀ a b, w = a ++ '\n' :: b → b = [] ∨ LineStart b :=
  derives_induction metaQ_closed h

end Bnf
