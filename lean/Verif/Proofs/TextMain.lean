import Verif.Proofs.Normalize

/-! # Entry points of the text parser -/

set_option autoImplicit false

namespace Bnf
open Spec Nom

/-- The extended parser with normalization. -/
def extendedResult (F : Format) (n : Nat) (s : Str) : Res Grammar :=
  (parsedGrammarComplete F n s).andThen fun s parsed =>
    match normalizeParsedGrammar parsed with
    | none => .fuel
    | some g => .ok s g

theorem extendedResult_of_text {F : Format} (hF : F.Regular) {pg s g n} (h : GrammarText F pg s)
    (hg : normalizeParsedGrammar pg = some g) (hn : s.length < n) : extendedResult F n s = .ok [] g := by
  unfold extendedResult
  rw [parsedGrammarComplete_complete hF h hn, Res.andThen_of_ok, hg]

theorem extendedResult_ok {F : Format} (hF : F.Named) {s r g n} (h : extendedResult F n s = .ok r g) :
    r = [] ∧ ∃ pg, GrammarText F pg s ∧ normalizeParsedGrammar pg = some g := by
  unfold extendedResult at h
  obtain ⟨s1, pg, h1, h2⟩ := Res.andThen_ok.mp h
  have hr : s1 = [] := (allConsuming_ok.mp h1).1
  split at h2
  · cases h2
  · rename_i g' hg
    injection h2 with h2 h3
    subst h2 h3
    exact ⟨hr, pg, parsedGrammarComplete_sound hF h1, hg⟩

theorem extendedResult_no_fuel {F : Format} (hF : F.Named) {s n} (hn : s.length < n) : extendedResult F n s ≠ .fuel := by
  intro h
  unfold extendedResult at h
  rcases Res.andThen_fuel.mp h with h | ⟨s1, pg, h1, h2⟩
  · exact parsedGrammarComplete_no_fuel hF hn h
  · obtain ⟨g, hg⟩ := normalize_total pg
    rw [hg] at h2
    cases h2

/-- The fast path does not change the result. -/
theorem grammarCompleteFuel_eq {F : Format} (hF : F.Regular) {s n} (hn : s.length < n) :
    grammarCompleteFuel F n s = extendedResult F n s := by
  unfold grammarCompleteFuel
  simp only
  split
  · rfl
  · split
    · rename_i r g h
      obtain ⟨rfl, h'⟩ := allConsuming_ok.mp h
      obtain ⟨h1, h2⟩ := plainGrammar_sound hF h
      rw [extendedResult_of_text hF h1 (normalize_plain h2) hn]
    · rfl
    · rename_i h
      exact absurd h (plainGrammar_no_fuel hF hn)

theorem grammarComplete_ok {F : Format} (hF : F.Regular) {s r g} : grammarComplete F s = .ok r g ↔
    r = [] ∧ ∃ pg, GrammarText F pg s ∧ normalizeParsedGrammar pg = some g := by
  unfold grammarComplete
  rw [grammarCompleteFuel_eq hF (Nat.lt_succ_self _)]
  constructor
  · exact extendedResult_ok hF
  · rintro ⟨rfl, pg, h1, h2⟩
    exact extendedResult_of_text hF h1 h2 (Nat.lt_succ_self _)

theorem grammarComplete_no_fuel {F : Format} (hF : F.Regular) (s : Str) : grammarComplete F s ≠ .fuel := by
  unfold grammarComplete
  rw [grammarCompleteFuel_eq hF (Nat.lt_succ_self _)]
  exact extendedResult_no_fuel hF (Nat.lt_succ_self _)

theorem grammarText_unique {F : Format} (hF : F.Regular) {pg pg' s} (h : GrammarText F pg s) (h' : GrammarText F pg' s) :
    pg = pg' := by
  have h1 := parsedGrammarComplete_complete hF h (Nat.lt_succ_self _)
  have h2 := parsedGrammarComplete_complete hF h' (Nat.lt_succ_self _)
  rw [h1] at h2
  injection h2

theorem toResult_ok {α : Type} {x : Res α} {v} : x.toResult = some (.ok v) ↔ ∃ r, x = .ok r v := by
  cases x <;> simp [Res.toResult]

theorem parseFrom_ok {F : Format} (hF : F.Regular) {s g} : Grammar.parseFrom F s = some (.ok g) ↔
    ∃ pg, GrammarText F pg s ∧ normalizeParsedGrammar pg = some g := by
  unfold Grammar.parseFrom
  rw [toResult_ok]
  constructor
  · rintro ⟨r, h⟩
    exact ((grammarComplete_ok hF).mp h).2
  · intro h
    exact ⟨[], (grammarComplete_ok hF).mpr ⟨rfl, h⟩⟩

theorem toResult_cases {α : Type} {x : Res α} (h : x ≠ .fuel) :
    (∃ v, x.toResult = some (.ok v)) ∨ x.toResult = some (.error .parseError) := by
  cases x with
  | fuel => exact absurd rfl h
  | err => exact .inr rfl
  | ok r v => exact .inl ⟨v, rfl⟩

theorem parseFrom_cases {F : Format} (hF : F.Regular) (s : Str) :
    (∃ g, Grammar.parseFrom F s = some (.ok g)) ∨ Grammar.parseFrom F s = some (.error .parseError) :=
  toResult_cases (grammarComplete_no_fuel hF s)

theorem parseFrom_error {F : Format} (hF : F.Regular) {s} : Grammar.parseFrom F s = some (.error .parseError) ↔
    ¬ ∃ pg, GrammarText F pg s := by
  constructor
  · rintro h ⟨pg, hp⟩
    obtain ⟨g, hg⟩ := normalize_total pg
    rw [(parseFrom_ok hF).mpr ⟨pg, hp, hg⟩] at h
    cases h
  · intro h
    rcases parseFrom_cases hF s with ⟨g, hg⟩ | he
    · obtain ⟨pg, hp, _⟩ := (parseFrom_ok hF).mp hg
      exact absurd ⟨pg, hp⟩ h
    · exact he

/-! ## Format detection -/

theorem isFormat_iff (s : Str) : isFormatStandardBnf s = true ↔ ∃ r, Layout s ('<' :: r) := by
  unfold isFormatStandardBnf
  rw [ws_eq, Res.andThen_of_ok]
  constructor
  · intro h
    cases hs : skipM false s with
    | nil => rw [hs] at h; simp [char] at h
    | cons c cs =>
      rw [hs] at h
      by_cases hc : c = '<'
      · subst hc
        exact ⟨cs, hs ▸ layout_skipM s⟩
      · rw [char_ne hc] at h; cases h
  · rintro ⟨r, h⟩
    have := layout_eq h (tight_cons (by decide) (by decide))
    rw [← this]
    simp [char]

theorem fromStr_eq (f : Char → Bool) (s : Str) : Grammar.fromStr f s =
    if isFormatStandardBnf s then Grammar.parseFrom BNF s else Grammar.parseFrom (ABNF f) s := rfl

theorem isFormat_BNF {pg s} (h : GrammarText BNF pg s) : isFormatStandardBnf s = true := by
  obtain ⟨s1, h1, h2⟩ := h
  obtain ⟨c, cs, rfl, hc⟩ := h2.start
  have hc' : c = '<' := by simpa [NameStart, BNF] using hc
  subst hc'
  exact (isFormat_iff s).mpr ⟨cs, h1⟩

theorem isFormat_ABNF {f : Char → Bool} (hf : AlphabeticTable f) {pg s} (h : GrammarText (ABNF f) pg s) :
    isFormatStandardBnf s = false := by
  obtain ⟨s1, h1, h2⟩ := h
  obtain ⟨c, cs, rfl, hc⟩ := h2.start
  have hc' : f c = true := by simpa [NameStart, ABNF] using hc
  rw [Bool.eq_false_iff]
  intro hb
  obtain ⟨r, hr⟩ := (isFormat_iff s).mp hb
  have e1 := layout_eq hr (tight_cons (by decide) (by decide))
  have e2 := layout_eq h1 (by
    have := (ABNF_regular hf).nameStart c hc
    exact tight_cons this.1 (by intro hs; subst hs; simp at this))
  rw [← e1] at e2
  injection e2 with e2 _
  subst e2
  exact alpha_ascii hf (by decide) (by decide) hc'

theorem fromStr_of_BNF {f : Char → Bool} {s g} (h : Grammar.parseFrom BNF s = some (.ok g)) :
    Grammar.fromStr f s = some (.ok g) := by
  obtain ⟨pg, h1, _⟩ := (parseFrom_ok BNF_regular).mp h
  rw [fromStr_eq, isFormat_BNF h1, if_pos rfl, h]

theorem fromStr_of_ABNF {f : Char → Bool} (hf : AlphabeticTable f) {s g} (h : Grammar.parseFrom (ABNF f) s = some (.ok g)) :
    Grammar.fromStr f s = some (.ok g) := by
  obtain ⟨pg, h1, _⟩ := (parseFrom_ok (ABNF_regular hf)).mp h
  rw [fromStr_eq, isFormat_ABNF hf h1, if_neg (by simp), h]

/-! ## Parts of accepted texts -/

theorem syn_nonempty {F : Format} {i s r} (h : Syn F i s r) : ∀ {j}, Within j i →
    (∀ ts, j = .terms ts → ts ≠ []) ∧ (∀ as, j = .alts as → as ≠ []) := by
  induction h with
  | terminal _ _ =>
    intro j hw; cases hw with
    | refl => simp
  | nonterminal _ _ =>
    intro j hw; cases hw with
    | refl => simp
  | group _ _ ih =>
    intro j hw; cases hw with
    | refl => simp
    | group hw => exact ih hw
  | optional _ _ ih =>
    intro j hw; cases hw with
    | refl => simp
    | optional hw => exact ih hw
  | one _ ih =>
    intro j hw; cases hw with
    | refl => simp
    | terms hm hw => rcases List.mem_singleton.mp hm with rfl; exact ih hw
  | more _ _ ih1 ih2 =>
    intro j hw; cases hw with
    | refl => simp
    | terms hm hw =>
      rcases List.mem_cons.mp hm with rfl | hm
      · exact ih1 hw
      · exact ih2 (.terms hm hw)
  | lastAlt _ ih =>
    intro j hw; cases hw with
    | refl => simp
    | alts hm hw => rcases List.mem_singleton.mp hm with rfl; exact ih hw
  | nextAlt _ _ _ ih1 ih2 =>
    intro j hw; cases hw with
    | refl => simp
    | alts hm hw =>
      rcases List.mem_cons.mp hm with rfl | hm
      · exact ih1 hw
      · exact ih2 (.alts hm hw)

/-- Every simple term in a text was read by itself. -/
theorem syn_simple {F : Format} {i s r} (h : Syn F i s r) : ∀ {t}, Within (.term (.simple t)) i →
    (∃ u s r, t = .terminal u ∧ Quoted u s r) ∨ (∃ u s r, t = .nonterminal u ∧ Name F u s r) := by
  induction h with
  | terminal h _ =>
    intro j hw; cases hw with
    | refl => exact .inl ⟨_, _, _, rfl, h⟩
  | nonterminal h _ =>
    intro j hw; cases hw with
    | refl => exact .inr ⟨_, _, _, rfl, h⟩
  | group _ _ ih =>
    intro j hw; cases hw with
    | group hw => exact ih hw
  | optional _ _ ih =>
    intro j hw; cases hw with
    | optional hw => exact ih hw
  | one _ ih =>
    intro j hw; cases hw with
    | terms hm hw => rcases List.mem_singleton.mp hm with rfl; exact ih hw
  | more _ _ ih1 ih2 =>
    intro j hw; cases hw with
    | terms hm hw =>
      rcases List.mem_cons.mp hm with rfl | hm
      · exact ih1 hw
      · exact ih2 (.terms hm hw)
  | lastAlt _ ih =>
    intro j hw; cases hw with
    | alts hm hw => rcases List.mem_singleton.mp hm with rfl; exact ih hw
  | nextAlt _ _ _ ih1 ih2 =>
    intro j hw; cases hw with
    | alts hm hw =>
      rcases List.mem_cons.mp hm with rfl | hm
      · exact ih1 hw
      · exact ih2 (.alts hm hw)

theorem prods_mem {F : Format} {g s r} (h : Prods F g s r) : ∀ p ∈ g, ∃ s r, Prod F p s r := by
  induction h with
  | one h => intro p hp; rcases List.mem_singleton.mp hp with rfl; exact ⟨_, _, h⟩
  | more h _ ih =>
    intro p hp
    rcases List.mem_cons.mp hp with rfl | hp
    · exact ⟨_, _, h⟩
    · exact ih p hp

theorem text_nonempty {F : Format} {g s} (h : GrammarText F g s) {j} (hw : PartOf j g) :
    (∀ ts, j = .terms ts → ts ≠ []) ∧ (∀ as, j = .alts as → as ≠ []) := by
  obtain ⟨p, hp, hw⟩ := hw
  obtain ⟨s1, _, h2⟩ := h
  obtain ⟨s, r, s3, _, h⟩ := prods_mem h2 p hp
  exact syn_nonempty h hw

theorem text_simple {F : Format} {g s} (h : GrammarText F g s) {t} (hw : PartOf (.term (.simple t)) g) :
    (∃ u s r, t = .terminal u ∧ Quoted u s r) ∨ (∃ u s r, t = .nonterminal u ∧ Name F u s r) := by
  obtain ⟨p, hp, hw⟩ := hw
  obtain ⟨s1, _, h2⟩ := h
  obtain ⟨s, r, s3, _, h⟩ := prods_mem h2 p hp
  exact syn_simple h hw

theorem quoted_printable {u s r} (h : Quoted u s r) : Printable (.terminal u) := by
  obtain ⟨q, hq, hn, _⟩ := h
  rcases hq with rfl | rfl
  · exact .inl hn
  · exact .inr hn

theorem name_printable {u s r} (h : Name BNF u s r) : Printable (.nonterminal u) := h.2

/-! ## Parts of normalized grammars -/

theorem Spec.Within.trans {i j k} (h : Within i j) (h' : Within j k) : Within i k := by
  induction h' with
  | refl => exact h
  | terms hm _ ih => exact .terms hm ih
  | alts hm _ ih => exact .alts hm ih
  | group _ ih => exact .group ih
  | optional _ ih => exact .optional ih

theorem lowTs_mem {D : Str → List Expression → Prop} : ∀ {ts : List ParsedTerm} {ts'}, LowTs D ts ts' → ∀ t' ∈ ts', ∃ t ∈ ts, LowT D t t'
  | [], ts', h, t', ht => by simp only [LowTs] at h; subst h; cases ht
  | t :: ts, ts', h, t', ht => by
    simp only [LowTs] at h
    obtain ⟨a, as, rfl, h1, h2⟩ := h
    rcases List.mem_cons.mp ht with rfl | ht
    · exact ⟨t, List.mem_cons_self .., h1⟩
    · obtain ⟨x, hx, hl⟩ := lowTs_mem h2 t' ht
      exact ⟨x, List.mem_cons_of_mem _ hx, hl⟩

theorem lowTs_length {D : Str → List Expression → Prop} : ∀ {ts : List ParsedTerm} {ts'}, LowTs D ts ts' → ts'.length = ts.length
  | [], ts', h => by simp only [LowTs] at h; subst h; rfl
  | t :: ts, ts', h => by
    simp only [LowTs] at h
    obtain ⟨a, as, rfl, h1, h2⟩ := h
    simp [lowTs_length h2]

theorem lowA_mem {D : Str → List Expression → Prop} : ∀ {as : List (List ParsedTerm)} {as'}, LowA D as as' → ∀ e' ∈ as', ∃ e ∈ as, LowTs D e e'.terms
  | [], ts', h, t', ht => by simp only [LowA] at h; subst h; cases ht
  | t :: ts, ts', h, t', ht => by
    simp only [LowA] at h
    obtain ⟨a, as, rfl, h1, h2⟩ := h
    rcases List.mem_cons.mp ht with rfl | ht
    · exact ⟨t, List.mem_cons_self .., h1⟩
    · obtain ⟨x, hx, hl⟩ := lowA_mem h2 t' ht
      exact ⟨x, List.mem_cons_of_mem _ hx, hl⟩

theorem lowA_mem' {D : Str → List Expression → Prop} : ∀ {as : List (List ParsedTerm)} {as'}, LowA D as as' → ∀ e ∈ as, ∃ e' ∈ as', LowTs D e e'.terms
  | [], ts', h, t', ht => by cases ht
  | t :: ts, ts', h, t', ht => by
    simp only [LowA] at h
    obtain ⟨a, as, rfl, h1, h2⟩ := h
    rcases List.mem_cons.mp ht with rfl | ht
    · exact ⟨a, List.mem_cons_self .., h1⟩
    · obtain ⟨x, hx, hl⟩ := lowA_mem' h2 t' ht
      exact ⟨x, List.mem_cons_of_mem _ hx, hl⟩

theorem lowA_length {D : Str → List Expression → Prop} : ∀ {as : List (List ParsedTerm)} {as'}, LowA D as as' → as'.length = as.length
  | [], ts', h => by simp only [LowA] at h; subst h; rfl
  | t :: ts, ts', h => by
    simp only [LowA] at h
    obtain ⟨a, as, rfl, h1, h2⟩ := h
    simp [lowA_length h2]

/-- `e'` is the lowering of an alternative in the text. -/
def FromText (g : ParsedGrammar) (D : Str → List Expression → Prop) (e' : Expression) : Prop :=
  ∃ e, PartOf (.terms e) g ∧ LowTs D e e'.terms

theorem lowA_fromText {g : ParsedGrammar} {D as rhs} (h : PartOf (.alts as) g) (hl : LowA D as rhs) :
    ∀ e' ∈ rhs, FromText g D e' := by
  intro e' he
  obtain ⟨e, hm, h1⟩ := lowA_mem hl e' he
  obtain ⟨p, hp, hw⟩ := h
  exact ⟨e, ⟨p, hp, Within.trans (.alts hm .refl) hw⟩, h1⟩

theorem forall₂_mem_right {α β : Type} {R : α → β → Prop} {l l'} (h : List.Forall₂ R l l') : ∀ b ∈ l', ∃ a ∈ l, R a b := by
  induction h with
  | nil => intro b hb; cases hb
  | cons h _ ih =>
    intro b hb
    rcases List.mem_cons.mp hb with rfl | hb
    · exact ⟨_, List.mem_cons_self .., h⟩
    · obtain ⟨a, ha, hr⟩ := ih b hb
      exact ⟨a, List.mem_cons_of_mem _ ha, hr⟩

theorem forall₂_mem_left {α β : Type} {R : α → β → Prop} {l l'} (h : List.Forall₂ R l l') : ∀ a ∈ l, ∃ b ∈ l', R a b := by
  induction h with
  | nil => intro b hb; cases hb
  | cons h _ ih =>
    intro b hb
    rcases List.mem_cons.mp hb with rfl | hb
    · exact ⟨_, List.mem_cons_self .., h⟩
    · obtain ⟨a, ha, hr⟩ := ih b hb
      exact ⟨a, List.mem_cons_of_mem _ ha, hr⟩

/-- Every production of a normalized grammar comes from the text. -/
theorem normalize_parts {g : ParsedGrammar} {g'} (h : normalizeParsedGrammar g = some g') : ∃ D : Str → List Expression → Prop,
    (∀ x r, D x r → ∃ k, x = anonName k) ∧
    ∀ p ∈ g'.productions,
      ((∃ q ∈ g, p.lhs = .nonterminal q.lhs ∧ p.rhs.length = q.rhs.length ∧ ∀ e ∈ p.rhs, FromText g D e) ∨
       (∃ k, p.lhs = .nonterminal (anonName k) ∧ ∃ as, PartOf (.alts as) g ∧
          as.length ≤ p.rhs.length ∧ ∀ e ∈ p.rhs, FromText g D e ∨ e = emptyAlt)) := by
  obtain ⟨user, anon, h1, h2, h3, h4, h5⟩ := normalize_spec h
  refine ⟨DefIn anon, ?_, ?_⟩
  · intro x r hd
    obtain ⟨y, k, hy, _, hk⟩ := h4 _ hd
    injection hy with hy
    exact ⟨k, hy.trans hk⟩
  · intro p hp
    rw [h1] at hp
    rcases List.mem_append.mp hp with hp | hp
    · obtain ⟨q, hq, hl, ha⟩ := forall₂_mem_right h2 p hp
      exact .inl ⟨q, hq, hl, lowA_length ha, lowA_fromText ⟨q, hq, .refl⟩ ha⟩
    · obtain ⟨x, k, hx, _, hk⟩ := h4 p hp
      obtain ⟨q, hq, ho⟩ := h5 p hp
      obtain ⟨as, rhs, hl, hc⟩ := ho p (List.mem_singleton.mpr rfl)
      refine .inr ⟨k, by rw [hx, hk], as, ?_⟩
      rcases hc with ⟨hw, hr⟩ | ⟨hw, hr⟩
      · have hw' : PartOf (.alts as) g := ⟨q, hq, Within.trans (.group .refl) hw⟩
        refine ⟨hw', ?_, ?_⟩
        · rw [hr, ← lowA_length hl]; split
          · rename_i h; cases rhs
            · simp
            · simp at h
          · exact Nat.le_refl _
        · rw [hr]
          split
          · intro e he; exact .inr (List.mem_singleton.mp he)
          · intro e he; exact .inl (lowA_fromText hw' hl e he)
      · have hw' : PartOf (.alts as) g := ⟨q, hq, Within.trans (.optional .refl) hw⟩
        refine ⟨hw', ?_, ?_⟩
        · rw [hr, ← lowA_length hl]; simp
        · rw [hr]
          intro e he
          rcases List.mem_append.mp he with he | he
          · exact .inl (lowA_fromText hw' hl e he)
          · exact .inr (List.mem_singleton.mp he)

theorem anonName_no_gt (k : Nat) : '>' ∉ anonName k := by
  unfold anonName decimal
  intro h
  rcases List.mem_append.mp h with h | h
  · revert h; decide
  · have := Nat.isDigit_of_mem_toDigits (by omega) (by omega) h
    revert this; decide

theorem fromText_ne {F : Format} {g s} (h : GrammarText F g s) {D e} (hf : FromText g D e) : e.terms ≠ [] := by
  obtain ⟨e0, hp, hl⟩ := hf
  have := (text_nonempty h hp).1 e0 rfl
  have hlen := lowTs_length hl
  intro h0
  rw [h0] at hlen
  exact this (List.length_eq_zero_iff.mp hlen.symm)

theorem fromText_printable {g s} (h : GrammarText BNF g s) {D : Str → List Expression → Prop} (hD : ∀ x r, D x r → ∃ k, x = anonName k) {e}
    (hf : FromText g D e) : PrintableExpression e := by
  refine ⟨fromText_ne h hf, ?_⟩
  obtain ⟨e0, ⟨p, hp, hw⟩, hl⟩ := hf
  intro t ht
  obtain ⟨t0, ht0, hl⟩ := lowTs_mem hl t ht
  have anon : ∀ {x r}, D x r → Printable (.nonterminal x) := by
    intro x r hd
    obtain ⟨k, rfl⟩ := hD x r hd
    exact anonName_no_gt k
  match t0, hl with
  | .simple t0, hl =>
    simp only [LowT] at hl
    subst hl
    rcases text_simple h ⟨p, hp, Within.trans (.terms ht0 .refl) hw⟩ with ⟨u, s, r, rfl, h⟩ | ⟨u, s, r, rfl, h⟩
    · exact quoted_printable h
    · exact name_printable h
  | .group as, hl =>
    simp only [LowT] at hl
    obtain ⟨x, rhs, rfl, hd, _⟩ := hl
    exact anon hd
  | .optional as, hl =>
    simp only [LowT] at hl
    obtain ⟨x, rhs, rfl, hd, _⟩ := hl
    exact anon hd

theorem forall₂_ne_nil {α β : Type} {R : α → β → Prop} {l l'} (h : List.Forall₂ R l l') (hl : l ≠ []) : l' ≠ [] := by
  cases h with
  | nil => exact absurd rfl hl
  | cons => simp

theorem normalize_ne {g : ParsedGrammar} {g'} (h : normalizeParsedGrammar g = some g') (hg : g ≠ []) : g'.productions ≠ [] := by
  obtain ⟨user, anon, h1, h2, _⟩ := normalize_spec h
  rw [h1]
  simp [forall₂_ne_nil h2 hg]

theorem grammarText_ne {F : Format} {g s} (h : GrammarText F g s) : g ≠ [] := by
  obtain ⟨_, _, h⟩ := h
  exact h.ne_nil

theorem text_wellFormed {F : Format} {g s g'} (h : GrammarText F g s) (hn : normalizeParsedGrammar g = some g') :
    WellFormedGrammar g' := by
  refine ⟨normalize_ne hn (grammarText_ne h), ?_⟩
  obtain ⟨D, _, hp⟩ := normalize_parts hn
  intro p hm
  rcases hp p hm with ⟨q, hq, hl, hlen, he⟩ | ⟨k, hl, as, ha, hlen, he⟩
  · refine ⟨⟨_, hl⟩, ?_, fun e hm => fromText_ne h (he e hm)⟩
    have := (text_nonempty h ⟨q, hq, .refl⟩).2 _ rfl
    intro h0
    rw [h0] at hlen
    exact this (List.length_eq_zero_iff.mp hlen.symm)
  · refine ⟨⟨_, hl⟩, ?_, ?_⟩
    · have := (text_nonempty h ha).2 _ rfl
      intro h0
      rw [h0] at hlen
      exact this (List.length_eq_zero_iff.mp (by simpa using hlen))
    · intro e hm
      rcases he e hm with he | rfl
      · exact fromText_ne h he
      · simp [emptyAlt]

theorem text_printable {g s g'} (h : GrammarText BNF g s) (hn : normalizeParsedGrammar g = some g') :
    PrintableGrammar g' := by
  obtain ⟨hne, hwf⟩ := text_wellFormed h hn
  refine ⟨hne, ?_⟩
  obtain ⟨D, hD, hp⟩ := normalize_parts hn
  intro p hm
  refine ⟨?_, (hwf p hm).2.1, ?_⟩
  · rcases hp p hm with ⟨q, hq, hl, _⟩ | ⟨k, hl, _⟩
    · refine ⟨_, hl, ?_⟩
      obtain ⟨s1, _, h2⟩ := h
      obtain ⟨s, r, s3, ⟨s4, s5, s6, hname, _⟩, _⟩ := prods_mem h2 q hq
      exact hname.2
    · exact ⟨_, hl, anonName_no_gt k⟩
  · intro e he
    rcases hp p hm with ⟨q, hq, hl, _, hf⟩ | ⟨k, hl, as, _, _, hf⟩
    · exact fromText_printable h hD (hf e he)
    · rcases hf e he with hf | rfl
      · exact fromText_printable h hD hf
      · refine ⟨by simp [emptyAlt], ?_⟩
        intro t ht
        rcases List.mem_singleton.mp ht with rfl
        exact .inl (by simp)

end Bnf
